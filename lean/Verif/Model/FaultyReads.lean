import Verif.Model.Handles

/-!
# Reading a stored chain from a disk that may fail

Models the reading half of chainstorage: every method of block.go, transaction.go and address.go, and the methods of
concretereadablechain.go that read anything, with each access to a file or hash store free to fail.

The disk is the list of the outcomes of the accesses to come: `false` is an access that fails, and past the end of the
list every access succeeds. What is read by an access that succeeds is as in Model.ChainStore.

Simplifications.
* An access is one call on a word file, hash store or array store (`ReadWordAt`, `CountWords`, `CountHashes`,
  `IndexOfHash`, `GetHashAtIndex`, `GetArray`); one that fails returns an error, with -1 in place of a number
  (indexedhashes3/hashstore.go:77-127). What a hash store does with errors within such a call is C120, an array file
  that is not there is one more failing `GetArray` (C88).
* Objects are made from handles that specify a height, or an index within a transaction by height, as are all those
  the chain makes; C89 has the other handles.
* The files are those of a chain that is not being written.
-/

namespace Verif.FaultyReads

open Verif.ChainStore

/-- The error of a call: one that says that what was asked for is not there, or any other. -/
inductive Err where
  | notFound
  | other
deriving DecidableEq, Repr

/-- The outcomes of the accesses to come. -/
abbrev Disk := List Bool

/-- A call: what it returns and the outcomes left. -/
abbrev Call (α : Type) := Disk → Except Err α × Disk

/-- `return v, nil`. -/
def ret {α : Type} (v : α) : Call α := fun d => (.ok v, d)

/-- `return …, err`. -/
def fail {α : Type} (e : Err) : Call α := fun d => (.error e, d)

/-- `v, err := c; if err != nil { return …, err }; …`. -/
def andThen {α β : Type} (c : Call α) (f : α → Call β) : Call β := fun d =>
  match c d with
  | (.error e, d') => (.error e, d')
  | (.ok v, d') => f v d'

/-- One access, which gives `v` if it succeeds. -/
def access {α : Type} (v : Except Fail α) : Call α := fun d =>
  match d with
  | false :: d' => (.error .other, d')
  | d =>
    match v with
    | .ok v => (.ok v, d.tail)
    | .error _ => (.error .other, d.tail)

/-- `v, _ := c`, where the call gives `dflt` with its error. -/
def ignoring {α : Type} (dflt : α) (c : Call α) : Call α := fun d =>
  match c d with
  | (.error _, d') => (.ok dflt, d')
  | (.ok v, d') => (.ok v, d')

/-- `ReadWordAt`. -/
def readWord (w : Words) (off : Int) : Call Int := access (get w off)
/-- `CountWords`. -/
def countWords (w : Words) : Call Int := access (.ok (count w))
/-- `CountHashes`. -/
def countHashes (l : List Bytes) : Call Int := access (.ok l.length)
/-- `IndexOfHash`. -/
def indexOfHash (l : List Bytes) (x : Bytes) : Call Int := access (.ok (indexOf l x))
/-- `GetHashAtIndex`. -/
def getHash (l : List Bytes) (i : Int) : Call Bytes := access (Handles.hashAt l i)
/-- `GetArray`. -/
def getArray (s : St) (k : Int) : Call (List Int) := access (.ok ((s.additional k.toNat).map fun n : Nat => (n : Int)))

/-! ## Blocks -/

/-- block.go:18-22 `Hash`, transaction.go:53-60 `Hash`. -/
def hashOf (l : List Bytes) (h : Int) : Call Bytes := getHash l h

/-- block.go:36-61 `TransactionCount`. -/
def transactionCount (s : St) (block : Int) : Call Int :=
  andThen (countHashes s.blkHashes) fun blocks =>
  andThen (countHashes s.trnHashes) fun trans =>
  andThen (readWord s.blkFirstTrans block) fun first =>
  if block + 1 < blocks then andThen (readWord s.blkFirstTrans (block + 1)) fun next => ret (next - first)
  else ret (trans - first)

/-- block.go:62-69 `NthTransaction`: the height in the handle. -/
def nthTransaction (s : St) (block n : Int) : Call Int :=
  andThen (readWord s.blkFirstTrans block) fun first => ret (first + n)

/-- block.go:70-80, transaction.go:155-165 `NonEssentialInts`: the loop, in the order of the list. -/
def ints : List Nei → Int → Call (List (String × Int))
  | [], _ => ret []
  | f :: fs, h =>
    andThen (readWord f.words h) fun v =>
    andThen (ints fs h) fun m => ret ((f.name, v) :: m)

/-! ## Transactions -/

/-- The loop at transaction.go:38-44, over `n` outputs from height `i`. -/
def satsLoop (s : St) : Nat → Int → Call (List Int)
  | 0, _ => ret []
  | n + 1, i =>
    andThen (readWord s.txoSats i) fun v =>
    andThen (satsLoop s n (i + 1)) fun vs => ret (v :: vs)

/-- transaction.go:14-46 `AllTxoSatoshis`. -/
def allTxoSatoshis (s : St) (trans : Int) : Call (List Int) :=
  andThen (countWords s.trnFirstTxo) fun n =>
  andThen (readWord s.trnFirstTxo trans) fun first =>
  andThen (if trans = n - 1 then countWords s.txoSats else readWord s.trnFirstTxo (trans + 1)) fun last =>
  satsLoop s (last - first).toNat first

/-- transaction.go:76-101 `TxiCount`. -/
def txiCount (s : St) (trans : Int) : Call Int :=
  andThen (countHashes s.trnHashes) fun n =>
  andThen (countWords s.txiTx) fun txis =>
  andThen (readWord s.trnFirstTxi trans) fun first =>
  if trans + 1 < n then andThen (readWord s.trnFirstTxi (trans + 1)) fun next => ret (next - first)
  else ret (txis - first)

/-- transaction.go:102-114 `NthTxi`, and concretereadablechain.go:107-126 `TxiInterface` of a handle of a transaction by
height and an index. -/
def nthTxi (s : St) (trans n : Int) : Call Int :=
  andThen (readWord s.trnFirstTxi trans) fun first => ret (first + n)

/-- transaction.go:116-141 `TxoCount`. -/
def txoCount (s : St) (trans : Int) : Call Int :=
  andThen (countHashes s.trnHashes) fun n =>
  andThen (countWords s.txoSats) fun txos =>
  andThen (readWord s.trnFirstTxo trans) fun first =>
  if trans + 1 < n then andThen (readWord s.trnFirstTxo (trans + 1)) fun next => ret (next - first)
  else ret (txos - first)

/-- transaction.go:142-154 `NthTxo`, and concretereadablechain.go:128-147 `TxoInterface` of a handle of a transaction by
height and an index. -/
def nthTxo (s : St) (trans n : Int) : Call Int :=
  andThen (readWord s.trnFirstTxo trans) fun first => ret (first + n)

/-- transaction.go:201-224 `SourceTxo`. -/
def sourceTxo (s : St) (txi : Int) : Call (Int × Int) :=
  andThen (readWord s.txiTx txi) fun t =>
  andThen (readWord s.txiVout txi) fun v => ret (t, v)

/-- transaction.go:257-263 `Satoshis`. -/
def satoshis (s : St) (txo : Int) : Call Int := readWord s.txoSats txo

/-- transaction.go:265-275 `Address`: the height in the handle. -/
def addressOf (s : St) (txo : Int) : Call Int := readWord s.txoAddress txo

/-! ## The chain -/

/-- concretereadablechain.go:176-187 `LatestBlock`, 204-215 `LatestTransaction`: the height in the handle. -/
def latest (l : List Bytes) : Call Int :=
  andThen (countHashes l) fun n => if n = 0 then ret (-1) else ret (n - 1)

/-- concretereadablechain.go:189-202 `NextBlock`, 217-230 `NextTransaction`: the height in the handle. -/
def next (l : List Bytes) (h : Int) : Call Int :=
  andThen (countHashes l) fun n => if h + 1 ≥ n then ret (-1) else ret (h + 1)

/-- concretereadablechain.go:270-280 `AddressHandleByHash`, 286-296 `TransactionHandleByHash`, 298-308
`BlockHandleByHash`: the height in the handle. The error of the lookup is not looked at. -/
def byHash (l : List Bytes) (x : Bytes) : Call Int :=
  andThen (ignoring (-1) (indexOfHash l x)) fun i => if i = -1 then fail .notFound else ret i

/-- concretereadablechain.go:312-320 `ParentBlockOfTrans`, `ParentTransOfTxi`, `ParentTransOfTxo`. -/
def parent (w : Words) (h : Int) : Call Int := readWord w h

/-! ## The address object -/

/-- address.go:9-14 `Address` of a handle that specifies a height only (concretereadablechain.go:149-165), as are all
those of the chain: the hash and whether it has been read, the outputs and whether they have been. -/
structure Adr where
  height : Int
  hash : Bytes
  hashSpecified : Bool
  populated : Bool
  txos : List Int
deriving DecidableEq, Repr

/-- concretereadablechain.go:149-165 `AddressInterface`. -/
def Adr.fresh (h : Int) : Adr := ⟨h, zeros 32, false, false, []⟩

/-- address.go:25-31: read the hash, unless it is there. -/
def readHash (s : St) (a : Adr) : Disk → Adr × Bool × Disk := fun d =>
  if a.hashSpecified then (a, true, d)
  else
    match getHash s.adrHashes a.height d with
    | (.error _, d') => (a, false, d')
    | (.ok x, d') => ({ a with hash := x, hashSpecified := true }, true, d')

/-- address.go:16-49 `populate`: the object afterwards, and whether it succeeded. -/
def populate (s : St) (a : Adr) : Disk → Adr × Bool × Disk := fun d =>
  match readHash s { a with txos := [] } d with
  | (a1, false, d1) => (a1, false, d1)
  | (a1, true, d1) =>
    match readWord s.addrFirstTxo a.height d1 with
    | (.error _, d2) => (a1, false, d2)
    | (.ok first, d2) =>
      match getArray s a.height d2 with
      | (.error _, d3) => ({ a1 with txos := [first] }, false, d3)
      | (.ok more, d3) => ({ a1 with txos := first :: more, populated := true }, true, d3)

/-- `if !adr.populated { err := adr.populate() }`: the object, whether there was no error, and the outcomes left. -/
def ensure (s : St) (a : Adr) : Disk → Adr × Bool × Disk := fun d =>
  if a.populated then (a, true, d) else populate s a d

/-- A call on an address object. -/
inductive AdrCall where
  | txoCount
  | nthTxo (n : Int)
  | hash
deriving DecidableEq, Repr

/-- What the caller sees: an answer, an error, or a panic. -/
inductive Seen where
  | num (n : Int)
  | hash (x : Bytes)
  | error
  | panic
deriving DecidableEq, Repr

/-- address.go:71: `adr.txoHeights[n]`. -/
def nth (l : List Int) (n : Int) : Seen :=
  if n < 0 then .panic
  else
    match l[n.toNat]? with
    | none => .panic
    | some h => .num h

/-- address.go:51-59 `TxoCount`, 61-73 `NthTxo`, 75-80 `Hash`, which does not look at the error. -/
def adrCall (s : St) (a : Adr) (c : AdrCall) (d : Disk) : Adr × Seen × Disk :=
  let r := ensure s a d
  (r.1,
    match c with
    | .txoCount => if r.2.1 then .num r.1.txos.length else .error
    | .nthTxo n => if r.2.1 then nth r.1.txos n else .error
    | .hash => .hash r.1.hash,
    r.2.2)

/-- Calls on one address object. -/
def adrCalls (s : St) : Adr → List AdrCall → Disk → List Seen
  | _, [], _ => []
  | a, c :: cs, d =>
    let r := adrCall s a c d
    r.2.1 :: adrCalls s r.1 cs r.2.2

/-- `TxoCount` and then `NthTxo` of each, of a fresh object: one population. -/
def addressTxos (s : St) (h : Int) : Call (List Int) := fun d =>
  match ensure s (.fresh h) d with
  | (a, true, d') => (.ok a.txos, d')
  | (_, false, d') => (.error .other, d')

/-! ## Everything that can be asked -/

/-- A call of the reading interface; objects by height. -/
inductive Question where
  | blockHash (b : Int)
  | transactionCount (b : Int)
  | nthTransaction (b n : Int)
  | blockInts (b : Int)
  | transHash (t : Int)
  | transInts (t : Int)
  | allTxoSatoshis (t : Int)
  | txiCount (t : Int)
  | nthTxi (t n : Int)
  | txoCount (t : Int)
  | nthTxo (t n : Int)
  | sourceTxo (i : Int)
  | satoshis (o : Int)
  | addressOf (o : Int)
  | addressTxos (a : Int)
  | latestBlock
  | nextBlock (b : Int)
  | latestTransaction
  | nextTransaction (t : Int)
  | blockByHash (x : Bytes)
  | transactionByHash (x : Bytes)
  | addressByHash (x : Bytes)
  | parentBlockOfTrans (t : Int)
  | parentTransOfTxi (i : Int)
  | parentTransOfTxo (o : Int)
deriving DecidableEq, Repr

/-- An answer. -/
inductive Answer where
  | num (n : Int)
  | nums (l : List Int)
  | pair (t v : Int)
  | hash (x : Bytes)
  | ints (l : List (String × Int))
deriving DecidableEq, Repr

/-- The answer, as an `Answer`. -/
def as {α : Type} (f : α → Answer) (c : Call α) : Call Answer := andThen c fun v => ret (f v)

/-- Ask. -/
def ask (s : St) : Question → Call Answer
  | .blockHash b => as .hash (hashOf s.blkHashes b)
  | .transactionCount b => as .num (transactionCount s b)
  | .nthTransaction b n => as .num (nthTransaction s b n)
  | .blockInts b => as .ints (ints s.blkNei b)
  | .transHash t => as .hash (hashOf s.trnHashes t)
  | .transInts t => as .ints (ints s.trnNei t)
  | .allTxoSatoshis t => as .nums (allTxoSatoshis s t)
  | .txiCount t => as .num (txiCount s t)
  | .nthTxi t n => as .num (nthTxi s t n)
  | .txoCount t => as .num (txoCount s t)
  | .nthTxo t n => as .num (nthTxo s t n)
  | .sourceTxo i => as (fun p => .pair p.1 p.2) (sourceTxo s i)
  | .satoshis o => as .num (satoshis s o)
  | .addressOf o => as .num (addressOf s o)
  | .addressTxos a => as .nums (addressTxos s a)
  | .latestBlock => as .num (latest s.blkHashes)
  | .nextBlock b => as .num (next s.blkHashes b)
  | .latestTransaction => as .num (latest s.trnHashes)
  | .nextTransaction t => as .num (next s.trnHashes t)
  | .blockByHash x => as .num (byHash s.blkHashes x)
  | .transactionByHash x => as .num (byHash s.trnHashes x)
  | .addressByHash x => as .num (byHash s.adrHashes x)
  | .parentBlockOfTrans t => as .num (parent s.parentBlockOfTrans t)
  | .parentTransOfTxi i => as .num (parent s.parentTransOfTxi i)
  | .parentTransOfTxo o => as .num (parent s.parentTransOfTxo o)

/-- A client: any program that asks, goes on with the answer, and stops at the first error. -/
inductive Client (α : Type) where
  | done (v : α)
  | ask (q : Question) (k : Answer → Client α)

/-- Run the client on the disk. -/
def Client.run {α : Type} (s : St) : Client α → Call α
  | .done v => ret v
  | .ask q k => andThen (FaultyReads.ask s q) fun a => (k a).run s

end Verif.FaultyReads
