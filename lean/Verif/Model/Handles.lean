import Verif.Model.ChainStore

/-!
# The handles of a stored chain

Models chainstorage/handles.go and the parts of chainstorage/concretereadablechain.go, block.go and transaction.go that make
handles, take handles, and turn handles into objects. Every Go struct has all its fields, with the pointer `data` as
whether it is nil.

The code for blocks and for transactions is the same text over another hash store; here it is one definition over the
list of the hashes, and both places are cited.

Simplifications. A handle of another package is given by what it specifies; asking it for something else is taken as a
panic. A hash store is the list of the hashes it was built from (as in Model.ChainStore); reading a hash that has
occurred at a lower index gives the all-zero hash (C55).
-/

namespace Verif.Handles

open Verif.ChainStore

/-- handles.go:9-14 `HashHeight` with the pointer of handles.go:17-20 `BlockHandle` or 59-62 `TransHandle`. -/
structure HH where
  height : Int
  hash : Bytes
  heightSpecified : Bool
  hashSpecified : Bool
  data : Bool
deriving DecidableEq, Repr

/-- The handle of a height, as made at concretereadablechain.go:42, 52, 55, 65, 170, 173, 181-186, 196-201, 209-214,
224-229, 232-247 and block.go:68. -/
def HH.ofHeight (h : Int) : HH := ⟨h, zeros 32, true, false, true⟩

/-- The handle made at concretereadablechain.go:286-295 and 298-307: `data` is not set. -/
def HH.found (h : Int) : HH := ⟨h, zeros 32, true, false, false⟩

/-- `TransHandle{}`. -/
def HH.zero : HH := ⟨0, zeros 32, false, false, false⟩

/-- `GetHashAtIndex` of a hash store. -/
def hashAt (l : List Bytes) (h : Int) : Except Fail Bytes :=
  if h < 0 then .error .err
  else
    match l[h.toNat]? with
    | none => .error .err
    | some x => .ok (if indexOf l x = h then x else zeros 32)

/-- A value of the interface `IBlockHandle` or `ITransHandle`: a handle of this package, a block or transaction object
(block.go:8-11, transaction.go:9-12; their `data` is never nil when they are returned without an error), or something
of another package. -/
inductive HI where
  | handle (h : HH)
  | obj (height : Int)
  | foreign (height : Option Int) (hash : Option Bytes)
deriving DecidableEq, Repr

/-- handles.go:45-47, 87-89, block.go:23-25, transaction.go:61-63 `HeightSpecified`. -/
def HI.heightSpecified : HI → Bool
  | .handle _ => true
  | .obj _ => true
  | .foreign h _ => h.isSome

/-- handles.go:48-50, 90-92, block.go:26-28, transaction.go:64-66 `HashSpecified`. -/
def HI.hashSpecified : HI → Bool
  | .handle _ => true
  | .obj _ => true
  | .foreign _ x => x.isSome

/-- handles.go:27-35, 69-77, block.go:15-17, transaction.go:50-52 `Height`. -/
def HI.height (l : List Bytes) : HI → Except Fail Int
  | .handle h => if h.heightSpecified then .ok h.height else if h.data then .ok (indexOf l h.hash) else .error .panic
  | .obj h => .ok h
  | .foreign (some h) _ => .ok h
  | .foreign none _ => .error .panic

/-- handles.go:36-44, 78-86, block.go:18-22, transaction.go:53-60 `Hash`. -/
def HI.hash (l : List Bytes) : HI → Except Fail Bytes
  | .handle h => if h.hashSpecified then .ok h.hash else if h.data then hashAt l h.height else .error .panic
  | .obj h => hashAt l h
  | .foreign _ (some x) => .ok x
  | .foreign _ none => .error .panic

/-- handles.go:54-56, 96, block.go:30-32, transaction.go:70-72 `IsInvalid`. -/
def HI.isInvalid (l : List Bytes) (v : HI) : Except Fail Bool := do
  let h ← v.height l
  .ok (decide (h = -1))

/-- concretereadablechain.go:41-43, 54-56 `GenesisBlock`, `GenesisTransaction`. -/
def HI.genesis : HI := .handle (.ofHeight 0)

/-- concretereadablechain.go:169-174 `InvalidBlock`, `InvalidTrans`. -/
def HI.invalid : HI := .handle (.ofHeight (-1))

/-- concretereadablechain.go:44-53 `ParentBlock`, 57-66 `PreviousTransaction`. -/
def HI.parent (l : List Bytes) (v : HI) : Except Fail HI := do
  if ← v.isInvalid l then .ok .invalid
  else if ¬ v.heightSpecified then .error .panic
  else do
    let h ← v.height l
    .ok (.handle (.ofHeight (h - 1)))

/-- concretereadablechain.go:176-187 `LatestBlock`, 204-215 `LatestTransaction`. -/
def HI.latest (l : List Bytes) : HI := if l.length = 0 then .invalid else .handle (.ofHeight (l.length - 1))

/-- concretereadablechain.go:189-202 `NextBlock`, 217-230 `NextTransaction`. -/
def HI.next (l : List Bytes) (v : HI) : Except Fail HI := do
  let h ← v.height l
  if h + 1 ≥ l.length then .ok .invalid else .ok (.handle (.ofHeight (h + 1)))

/-- concretereadablechain.go:232-247 `BlockHandleByHeight`, `TransactionHandleByHeight`. -/
def HI.byHeight (h : Int) : HI := .handle (.ofHeight h)

/-- concretereadablechain.go:286-295 `TransactionHandleByHash`, 298-307 `BlockHandleByHash`. -/
def HI.byHash (l : List Bytes) (x : Bytes) : Except Fail HI :=
  if indexOf l x = -1 then .error .err else .ok (.handle (.found (indexOf l x)))

/-- concretereadablechain.go:70-87 `BlockInterface`, 88-105 `TransInterface`: the height of the object. -/
def HI.object (l : List Bytes) (v : HI) : Except Fail Int :=
  if v.heightSpecified then v.height l
  else if v.hashSpecified then do
    let x ← v.hash l
    .ok (indexOf l x)
  else .error .panic

/-- block.go:62-69 `NthTransaction` of the block object at height `block`. -/
def nthTrans (s : St) (block n : Int) : Except Fail HI := do
  let h ← nthTransaction s block n
  .ok (.handle (.ofHeight h))

/-- handles.go:99-110 `TransIndex` and `TxxHandle`. -/
structure TxxH where
  trans : HH
  index : Int
  height : Int
  parentSpecified : Bool
  heightSpecified : Bool
deriving DecidableEq, Repr

/-- A value of the interface `ITxiHandle` or `ITxoHandle`: a handle, an object (`Txi`, `Txo`, transaction.go:170-174, 226-230), or
something of another package. -/
inductive XI where
  | handle (t : TxxH)
  | obj (height : Int)
  | foreign (parent : Option (HI × Int)) (height : Option Int)
deriving DecidableEq, Repr

/-- handles.go:134-136, 162-164, transaction.go:193-195, 249-251 `TxiHeightSpecified`, `TxoHeightSpecified`. -/
def XI.heightSpecified : XI → Bool
  | .handle t => t.heightSpecified
  | .obj _ => true
  | .foreign _ h => h.isSome

/-- handles.go:131-133, 159-161, transaction.go:190-192, 246-248 `ParentSpecified`. -/
def XI.parentSpecified : XI → Bool
  | .handle t => t.parentSpecified
  | .obj _ => false
  | .foreign p _ => p.isSome

/-- handles.go:128-130, 156-158, transaction.go:187-189, 243-245 `TxiHeight`, `TxoHeight`. -/
def XI.height : XI → Except Fail Int
  | .handle t => .ok t.height
  | .obj h => .ok h
  | .foreign _ (some h) => .ok h
  | .foreign _ none => .error .panic

/-- handles.go:122-124, 150-152, transaction.go:181-183, 237-239 `ParentTrans`. -/
def XI.parentTrans : XI → Except Fail HI
  | .handle t => .ok (.handle t.trans)
  | .obj _ => .ok (.handle .zero)
  | .foreign (some p) _ => .ok p.1
  | .foreign none _ => .error .panic

/-- handles.go:125-127, 153-155, transaction.go:184-186, 240-242 `ParentIndex`. -/
def XI.parentIndex : XI → Except Fail Int
  | .handle t => .ok t.index
  | .obj _ => .ok (-1)
  | .foreign (some p) _ => .ok p.2
  | .foreign none _ => .error .panic

/-- concretereadablechain.go:248-263 `TxiHandleByHeight`, `TxoHandleByHeight`; these set `data`. -/
def XI.byHeight (h : Int) : XI := .handle ⟨⟨0, zeros 32, false, false, true⟩, 0, h, false, true⟩

/-- concretereadablechain.go:107-126 `TxiInterface`, 128-147 `TxoInterface`, with `first` the file `trnFirstTxi` or
`trnFirstTxo`: the height of the object. -/
def XI.object (s : St) (first : Words) (v : XI) : Except Fail Int :=
  if v.heightSpecified then v.height
  else if v.parentSpecified then do
    let p ← v.parentTrans
    let t ← p.object s.trnHashes
    let f ← get first t
    let n ← v.parentIndex
    .ok (f + n)
  else .error .panic

/-- transaction.go:102-114 `NthTxi`. -/
def nthTxiHandle (s : St) (trans n : Int) : Except Fail XI := do
  let h ← nthTxi s trans n
  .ok (.handle ⟨.zero, 0, h, false, true⟩)

/-- transaction.go:142-154 `NthTxo`. -/
def nthTxoHandle (s : St) (trans n : Int) : Except Fail XI := do
  let h ← nthTxo s trans n
  .ok (.handle ⟨.zero, 0, h, false, true⟩)

/-- transaction.go:201-224 `SourceTxo`. -/
def sourceHandle (s : St) (txi : Int) : Except Fail XI := do
  let p ← sourceTxo s txi
  .ok (.handle ⟨.ofHeight p.1, p.2, -1, true, false⟩)

/-! ## What a client may write -/

/-- A way of getting a block handle or block object. `ofHash` is `BlockInterface` of a handle of another package that
has a hash only; `object` is `BlockInterface`. -/
inductive BlkE where
  | genesis
  | latest
  | byHeight (h : Int)
  | byHash (x : Bytes)
  | ofHash (x : Bytes)
  | next (e : BlkE)
  | parent (e : BlkE)
  | object (e : BlkE)

/-- Run it. -/
def BlkE.run (s : St) : BlkE → Except Fail HI
  | .genesis => .ok .genesis
  | .latest => .ok (.latest s.blkHashes)
  | .byHeight h => .ok (.byHeight h)
  | .byHash x => HI.byHash s.blkHashes x
  | .ofHash x => do
    let h ← HI.object s.blkHashes (.foreign none (some x))
    .ok (.obj h)
  | .next e => do
    let v ← e.run s
    v.next s.blkHashes
  | .parent e => do
    let v ← e.run s
    v.parent s.blkHashes
  | .object e => do
    let v ← e.run s
    let h ← v.object s.blkHashes
    .ok (.obj h)

mutual
/-- A way of getting a transaction handle or object; `nth` is the nth transaction of a block, `sourceTrans` the
transaction in the handle of the output that an input spends. -/
inductive TrnE where
  | genesis
  | latest
  | byHeight (h : Int)
  | byHash (x : Bytes)
  | ofHash (x : Bytes)
  | next (e : TrnE)
  | previous (e : TrnE)
  | object (e : TrnE)
  | nth (b : BlkE) (n : Int)
  | sourceTrans (x : TxiE)
/-- A way of getting an input; `ofParent` is `TxiInterface` of a handle of another package that has a transaction and
an index only. -/
inductive TxiE where
  | byHeight (h : Int)
  | nth (t : TrnE) (n : Int)
  | ofParent (t : TrnE) (n : Int)
  | object (e : TxiE)
end

mutual
/-- Run it. -/
def TrnE.run (s : St) : TrnE → Except Fail HI
  | .genesis => .ok .genesis
  | .latest => .ok (.latest s.trnHashes)
  | .byHeight h => .ok (.byHeight h)
  | .byHash x => HI.byHash s.trnHashes x
  | .ofHash x => do
    let h ← HI.object s.trnHashes (.foreign none (some x))
    .ok (.obj h)
  | .next e => do
    let v ← e.run s
    v.next s.trnHashes
  | .previous e => do
    let v ← e.run s
    v.parent s.trnHashes
  | .object e => do
    let v ← e.run s
    let h ← v.object s.trnHashes
    .ok (.obj h)
  | .nth b n => do
    let v ← b.run s
    let h ← v.object s.blkHashes
    nthTrans s h n
  | .sourceTrans x => do
    let v ← x.run s
    let h ← v.object s s.trnFirstTxi
    let o ← sourceHandle s h
    o.parentTrans
/-- Run it. -/
def TxiE.run (s : St) : TxiE → Except Fail XI
  | .byHeight h => .ok (.byHeight h)
  | .nth t n => do
    let v ← t.run s
    let h ← v.object s.trnHashes
    nthTxiHandle s h n
  | .ofParent t n => do
    let v ← t.run s
    let h ← XI.object s s.trnFirstTxi (.foreign (some (v, n)) none)
    .ok (.obj h)
  | .object e => do
    let v ← e.run s
    let h ← v.object s s.trnFirstTxi
    .ok (.obj h)
end

/-- A way of getting an output; `source` is the output an input spends. -/
inductive TxoE where
  | byHeight (h : Int)
  | nth (t : TrnE) (n : Int)
  | ofParent (t : TrnE) (n : Int)
  | source (x : TxiE)
  | object (e : TxoE)

/-- Run it. -/
def TxoE.run (s : St) : TxoE → Except Fail XI
  | .byHeight h => .ok (.byHeight h)
  | .nth t n => do
    let v ← t.run s
    let h ← v.object s.trnHashes
    nthTxoHandle s h n
  | .ofParent t n => do
    let v ← t.run s
    let h ← XI.object s s.trnFirstTxo (.foreign (some (v, n)) none)
    .ok (.obj h)
  | .source x => do
    let v ← x.run s
    let h ← v.object s s.trnFirstTxi
    sourceHandle s h
  | .object e => do
    let v ← e.run s
    let h ← v.object s s.trnFirstTxo
    .ok (.obj h)

end Verif.Handles
