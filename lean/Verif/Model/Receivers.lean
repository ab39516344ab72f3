import Verif.Model.Run

/-!
# Handles and receivers

Models intrinsicobjectschi/handles.go, the four `Get...Info` of intrinsicobjectschi/chain.go:120-223 and the receivers of
chainhandleinterface, which are used again and again for one block, transaction, input or output after the other
(concreteappendablechain.go:580-591).

Simplifications: an `int` or `int64` is an unbounded integer; the rounded difficulty is any function of `nBits`, as in
`Verif.Run`.
-/

namespace Verif.Receivers

open Verif.BinBlock (Block Transaction Storage getTxi getTxo toI32)
open Verif.BlockHolder (makeBlockHandle)

/-- chainhandleinterface/handles.go:26-29 `TransactionHandle`. -/
structure TransHandle where
  bh : Bytes
  tsh : Bytes
deriving DecidableEq, Repr

/-- chainhandleinterface/handles.go:30-37 `TxiHandle`, `TxoHandle`. -/
structure TxxHandle where
  th : TransHandle
  sub : Bytes
deriving DecidableEq, Repr

/-- intrinsicobjectschi/handles.go:34-41, 47-54, 56-63 `makeTransactionSubHandle`, `makeTxiSubHandle`, `makeTxoSubHandle`; `none` is
the panic. -/
def makeSub (i : Int) : Option Bytes := if i < 0 ∨ i > 0xFFFFFFFF then none else some (leEnc 4 i.toNat)

/-- intrinsicobjectschi/handles.go:43-45, 65-70: the index in a sub-handle. -/
def indexOf (sub : Bytes) : Nat := leDec sub

/-- A Go map. -/
abbrev Fields := String → Option Int

/-- `m[name] = value`. -/
def Fields.put (m : Fields) (name : String) (value : Int) : Fields := fun n => if n = name then some value else m n

/-- iblockreceiver.go:22-27 `BlockReceiver`. -/
structure BlockReceiver where
  height : Int
  hash : Bytes
  handles : List TransHandle
  fields : Fields

/-- iblockreceiver.go:32 `ResetReceiver`. -/
def BlockReceiver.reset (r : BlockReceiver) : BlockReceiver := { r with handles := [] }

/-- itransactionreceiver.go:27-33 `BitcoinCoreTransactionReceiver`. -/
structure TransReceiver where
  parent : Bytes
  hash : Bytes
  txis : List TxxHandle
  txos : List TxxHandle
  fields : Fields

/-- itransactionreceiver.go:38-41 `ResetReceiver`. -/
def TransReceiver.reset (r : TransReceiver) : TransReceiver := { r with txis := [], txos := [] }

/-- itxireceiver.go:18-22 `TxiReceiver`. -/
structure TxiReceiver where
  parent : TransHandle
  txid : Bytes
  vout : Int

/-- itxoreceiver.go:19-23 `TxoReceiver`. -/
structure TxoReceiver where
  parent : TransHandle
  sats : Int
  script : Bytes

/-- itxoreceiver.go:28 `ResetReceiver`. -/
def TxoReceiver.reset (r : TxoReceiver) : TxoReceiver := { r with script := [] }

/-- intrinsicobjectschi/block.go:12-17 `Block`: the block that is held. -/
structure Held where
  block : Block
  height : Int
  median : Nat

/-- What a call does to the receiver. -/
inductive Res (α : Type) where
  | ok (r : α)
  | err (r : α)
  | panicked

/-- chain.go:137-142: the handles of the transactions from `i` on, `n` left. -/
def sendTrans (bh : Bytes) (r : BlockReceiver) (i : Nat) : Nat → Option BlockReceiver
  | 0 => some r
  | n + 1 =>
    match makeSub i with
    | none => none
    | some tsh => sendTrans bh { r with handles := r.handles ++ [⟨bh, tsh⟩] } (i + 1) n

/-- chain.go:120-144 `GetBlockInfo`. -/
def getBlockInfo (difficulty : Nat → Int) (o : Held) (bh : Bytes) (r : BlockReceiver) : Res BlockReceiver :=
  match makeBlockHandle o.height with
  | none => .panicked
  | some own =>
    if bh ≠ own then .err r.reset
    else
      let f := ((((((r.reset.fields.put "time" o.block.time).put "mediantime" o.median).put "size" o.block.size).put
        "strippedsize" o.block.strippedSize).put "weight" o.block.weight).put "difficulty" (difficulty o.block.nBits))
      match sendTrans bh { r.reset with height := o.height, hash := o.block.hash, fields := f } 0 o.block.transactions.length with
      | none => .panicked
      | some r' => .ok r'

/-- chain.go:166-173: the handles of the inputs from `i` on, `n` left; none are received of the first transaction. -/
def sendTxis (th : TransHandle) (coinbase : Bool) (r : TransReceiver) (i : Nat) : Nat → Option TransReceiver
  | 0 => some r
  | n + 1 =>
    match makeSub i with
    | none => none
    | some sub => sendTxis th coinbase (if coinbase then r else { r with txis := r.txis ++ [⟨th, sub⟩] }) (i + 1) n

/-- chain.go:178-181: the handles of the outputs from `i` on, `n` left. -/
def sendTxos (th : TransHandle) (r : TransReceiver) (i : Nat) : Nat → Option TransReceiver
  | 0 => some r
  | n + 1 =>
    match makeSub i with
    | none => none
    | some sub => sendTxos th { r with txos := r.txos ++ [⟨th, sub⟩] } (i + 1) n

/-- chain.go:146-183 `GetTransactionInfo`. A negative count gives no handles (`for range`). -/
def getTransactionInfo (o : Held) (th : TransHandle) (r : TransReceiver) : Res TransReceiver :=
  match makeBlockHandle o.height with
  | none => .panicked
  | some own =>
    if th.bh ≠ own then .err r.reset
    else
      match o.block.transactions[indexOf th.tsh]? with
      | none => .panicked
      | some t =>
        let f := ((r.reset.fields.put "size" t.size).put "vsize" t.vSize).put "weight" t.weight
        match sendTxis th (indexOf th.tsh == 0) { r.reset with parent := th.bh, hash := t.txId, fields := f } 0 t.txisCount.toNat with
        | none => .panicked
        | some r1 =>
          match sendTxos th r1 0 t.txosCount.toNat with
          | none => .panicked
          | some r2 => .ok r2

/-- chain.go:185-200 `GetTxiInfo`. -/
def getTxiInfo (o : Held) (h : TxxHandle) (r : TxiReceiver) : Res TxiReceiver :=
  match makeBlockHandle o.height with
  | none => .panicked
  | some own =>
    if h.th.bh ≠ own then .err r
    else
      match o.block.transactions[indexOf h.th.tsh]? with
      | none => .panicked
      | some t =>
        match getTxi t o.block.storage (indexOf h.sub) with
        | none => .panicked
        | some x => .ok { parent := h.th, txid := x.txId, vout := x.vOut }

/-- chain.go:219-221: the bytes of the script from `i` up to `stop`, at most `n` of them; the bounds are `int32`. -/
def sendScript (scripts : Bytes) (stop : Int) (r : TxoReceiver) (i : Int) : Nat → Option TxoReceiver
  | 0 => some r
  | n + 1 =>
    if i < stop then
      if i < 0 then none
      else match scripts[i.toNat]? with
        | none => none
        | some b => sendScript scripts stop { r with script := r.script ++ [b] } (i + 1) n
    else some r

/-- chain.go:202-223 `GetTxoInfo`. -/
def getTxoInfo (o : Held) (h : TxxHandle) (r : TxoReceiver) : Res TxoReceiver :=
  match makeBlockHandle o.height with
  | none => .panicked
  | some own =>
    if h.th.bh ≠ own then .err r.reset
    else
      match o.block.transactions[indexOf h.th.tsh]? with
      | none => .panicked
      | some t =>
        match getTxo t o.block.storage (indexOf h.sub) with
        | none => .panicked
        | some x =>
          match sendScript o.block.storage.scripts (toI32 (x.scriptStart + x.scriptLen)) { r.reset with parent := h.th, sats := x.value }
            x.scriptStart (o.block.storage.scripts.length + 1) with
          | none => .panicked
          | some r' => .ok r'

/-! ## A client -/

/-- concreteappendablechain.go:580-591: the receivers that are used again and again. -/
structure Receivers where
  b : BlockReceiver
  t : TransReceiver
  i : TxiReceiver
  o : TxoReceiver

/-- iblockreceiver.go:15-20, itransactionreceiver.go:20-25, itxireceiver.go:13-16, itxoreceiver.go:14-17. -/
def fresh : Receivers := ⟨⟨0, zeros 32, [], fun _ => none⟩, ⟨zeros 4, zeros 32, [], [], fun _ => none⟩, ⟨⟨zeros 4, zeros 4⟩, zeros 32, 0⟩,
  ⟨⟨zeros 4, zeros 4⟩, 0, []⟩⟩

/-- concreteappendablechain.go:734-747: the inputs, one by one with one receiver. Here and below `none` is an error or a panic. -/
def readTxis (o : Held) : List TxxHandle → TxiReceiver → Option (List ChainStore.Txi × TxiReceiver)
  | [], r => some ([], r)
  | h :: hs, r =>
    match getTxiInfo o h r with
    | .ok r1 => (readTxis o hs r1).map fun x => (⟨r1.txid, r1.vout, none, none⟩ :: x.1, x.2)
    | _ => none

/-- concreteappendablechain.go:778-787 with 883-899: the outputs, one by one with one receiver. -/
def readTxos (sha : Bytes → Bytes) (o : Held) : List TxxHandle → TxoReceiver → Option (List ChainStore.Txo × TxoReceiver)
  | [], r => some ([], r)
  | h :: hs, r =>
    match getTxoInfo o h r with
    | .ok r1 => (readTxos sha o hs r1).map fun x => (⟨r1.sats, sha r1.script, none⟩ :: x.1, x.2)
    | _ => none

/-- The fields of a receiver that have one of the names. -/
def named (names : List String) (m : Fields) : List (String × Int) := names.filterMap fun n => (m n).map fun v => (n, v)

/-- concreteappendablechain.go:658-672: the transactions, one by one with one receiver. -/
def readTrans (sha : Bytes → Bytes) (o : Held) : List TransHandle → Receivers → Option (List ChainStore.Tx × Receivers)
  | [], r => some ([], r)
  | h :: hs, r =>
    match getTransactionInfo o h r.t with
    | .ok t =>
      match readTxis o t.txis r.i with
      | none => none
      | some (xs, i) =>
        match readTxos sha o t.txos r.o with
        | none => none
        | some (ys, ro) =>
          (readTrans sha o hs { r with t := t, i := i, o := ro }).map fun x =>
            ({ hash := t.hash, height := none, nth := none, fields := named ["size", "vsize", "weight"] t.fields, txis := xs, txos := ys } :: x.1,
              x.2)
    | _ => none

/-- concreteappendablechain.go:577-676 `AppendBlockChi`: what it gets to see of a block. -/
def readBlock (e : Run.Env) (o : Held) (bh : Bytes) (r : Receivers) : Option (ChainStore.Blk × Receivers) :=
  match getBlockInfo e.difficulty o bh r.b with
  | .ok b =>
    (readTrans e.sha o b.handles { r with b := b }).map fun x =>
      ({ hash := b.hash, height := some b.height
         fields := named ["time", "mediantime", "size", "strippedsize", "weight", "difficulty"] b.fields, txs := x.1 }, x.2)
  | _ => none

end Verif.Receivers
