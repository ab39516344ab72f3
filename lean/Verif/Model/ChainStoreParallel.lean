import Verif.Model.ChainStore

/-!
# The two goroutines that store a transaction's contents

chainstorage/concreteappendablechain.go:283-374, 727-797: the inputs are stored by a goroutine, the outputs by the
caller, which then waits for the goroutine. Here each is a list of actions on the shared store, one for each file
operation, and any interleaving of the two is allowed.

Simplifications: those of `Verif.Model.ChainStore`. The operations on one file are atomic; no file is used by both
goroutines except `blkFirstTrans` and the transaction hash store, which neither writes. The caller's wait is modelled
by the call returning when both lists are at their end.
-/

namespace Verif.ChainStore

/-- The local variables of a goroutine: two numbers and a truth value. -/
structure Reg where
  a : Int
  b : Int
  c : Bool
deriving DecidableEq, Repr

/-- One operation of a goroutine. -/
abbrev Act := Reg → St → Except Fail (Reg × St)

/-- `appendTxi` (376-462), `appendTxiChi` (799-864): `a` is the source transaction, `b` the input's height. -/
def txiActs (i : Iface) (trans : Int) (x : Txi) : List Act :=
  [fun r s => do
     let v ← txiSource i s x
     .ok ({ r with a := v }, s),
   fun r s =>
     if i = .cri ∧ differs x.height (count s.txiTx) = true then .error .panic else .ok ({ r with b := count s.txiTx }, s),
   fun r s => do
     let f ← put 4 s.txiTx r.b r.a
     .ok (r, { s with txiTx := f }),
   fun r s => do
     let f ← put 4 s.txiVout r.b x.vout
     .ok (r, { s with txiVout := f }),
   fun r s => do
     let f ← put 5 s.parentTransOfTxi r.b trans
     .ok (r, { s with parentTransOfTxi := f })]

/-- The goroutine for the inputs: 285-323, 729-757. -/
def txiProg (i : Iface) (trans : Int) (xs : List Txi) : List Act :=
  [fun r s => .ok ({ r with b := count s.txiTx }, s),
   fun r s => do
     let f ← put 5 s.trnFirstTxi trans r.b
     .ok (r, { s with trnFirstTxi := f })] ++ xs.flatMap (txiActs i trans)

/-- `appendTxo` (464-575), `appendTxoChi` (866-971): `a` is the address height, `b` the output's height, `c` whether the
address was met before. -/
def txoActs (i : Iface) (trans : Int) (x : Txo) : List Act :=
  [fun r s =>
     if i = .cri ∧ differs x.height (count s.txoSats) = true then .error .panic else .ok ({ r with b := count s.txoSats }, s),
   fun r s => do
     let f ← put 7 s.txoSats r.b x.sats
     .ok (r, { s with txoSats := f }),
   fun r s => do
     let f ← put 5 s.parentTransOfTxo r.b trans
     .ok (r, { s with parentTransOfTxo := f }),
   fun r s =>
     if indexOf s.adrHashes x.addr = -1 then .error .err else .ok ({ r with a := indexOf s.adrHashes x.addr }, s),
   fun r s => .ok ({ r with c := decide (count s.addrFirstTxo > r.a) }, s),
   fun r s =>
     if r.c = false then do
       let f ← put 5 s.addrFirstTxo r.a r.b
       .ok (r, { s with addrFirstTxo := f })
     else
       .ok (r, { s with additional := fun k => if k = r.a.toNat then s.additional k ++ [r.b.toNat] else s.additional k }),
   fun r s =>
     if r.c = false ∧ r.a = testPoint then do
       let v ← get s.addrFirstTxo r.a
       if v ≠ r.b then .error .panic else if v = 0 then .error .panic else .ok (r, s)
     else .ok (r, s),
   fun r s => do
     let f ← put 5 s.txoAddress r.b r.a
     .ok (r, { s with txoAddress := f }),
   fun r s => do
     let f ← put 5 s.txoSpentTxi r.b 0
     .ok (r, { s with txoSpentTxi := f })]

/-- What the caller does for the outputs: 325-365, 759-788. -/
def txoProg (i : Iface) (trans : Int) (xs : List Txo) : List Act :=
  [fun r s => .ok ({ r with b := count s.txoSats }, s),
   fun r s =>
     if s.prevFirstTxo ≠ -1 ∧ (r.b < s.prevFirstTxo ∨ trans < s.prevTrans) then .error .panic else .ok (r, s),
   fun r s => do
     let f ← put 5 s.trnFirstTxo trans r.b
     .ok (r, { s with trnFirstTxo := f }),
   fun r s => .ok (r, { s with prevFirstTxo := r.b }),
   fun r s => .ok (r, { s with prevTrans := trans })] ++ xs.flatMap (txoActs i trans)

/-- A goroutine: its local variables and what it has still to do, or how it failed. -/
inductive Thread where
  | run (r : Reg) (todo : List Act)
  | failed (f : Fail)

/-- Both goroutines and the store. -/
structure Conf where
  txi : Thread
  txo : Thread
  st : St

/-- One goroutine's next operation: what becomes of it and of the store. -/
def Thread.next (s : St) : Thread → Option (Thread × St)
  | .run r (a :: rest) =>
    match a r s with
    | .ok (r', s') => some (.run r' rest, s')
    | .error f => some (.failed f, s)
  | _ => none

/-- Either goroutine goes on by one operation. -/
inductive Step : Conf → Conf → Prop where
  | txi {c t s} : c.txi.next c.st = some (t, s) → Step c { c with txi := t, st := s }
  | txo {c t s} : c.txo.next c.st = some (t, s) → Step c { c with txo := t, st := s }

/-- The configurations that can be reached. -/
inductive Reaches : Conf → Conf → Prop where
  | refl {c} : Reaches c c
  | step {c c' c''} : Reaches c c' → Step c' c'' → Reaches c c''

/-- Where `appendTransactionContents` starts the goroutines, after writing the non-essential ints (`s`). -/
def startContents (i : Iface) (s : St) (t : Nat) (tx : Tx) (trans : Int) : Conf :=
  ⟨.run ⟨0, 0, false⟩ (txiProg i trans (storedTxis i t tx)), .run ⟨0, 0, false⟩ (txoProg i trans tx.txos), s⟩

/-- Both goroutines are done: `appendTransactionContents` returns without error. -/
def Thread.isDone : Thread → Prop
  | .run _ [] => True
  | _ => False

/-- A goroutine has failed. -/
def Thread.isFailed : Thread → Prop
  | .failed _ => True
  | _ => False

end Verif.ChainStore
