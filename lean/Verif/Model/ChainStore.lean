import Verif.Model.Records

/-!
# The stored chain

Models chainstorage/concreteappendablechain.go, concretehasheschain.go, concretereadablechain.go, block.go,
transaction.go and address.go, and the indexer calls of a block holder (intrinsicobjectscri/chain.go:244-272,
intrinsicobjectschi/chain.go:225-253) when the chain itself is the (delegated) transaction indexer.

Simplifications.
* A word file is the list of its words (`Verif.WordFile.wordfile_is_array` relates the real file to such a list); a
  write keeps the low bytes that fit the file's word size, a write past the end fills with zeros, a negative offset
  is an error.
* A hash store is the list of the hashes it was built from: `IndexOfHash` is the position of the first occurrence
  (what bulk indexing gives, C25) or -1, `CountHashes` the length.
* `addrAdditionalTxos` is a map from key to array (C09, C10); `AppendToArray` is taken not to fail.
* The store left behind by a failed call is not modelled; OS errors are not modelled.
* Go's `for range` over the map of non-essential ints is a pass over a list: the files are distinct, so the order is
  not observable when the call succeeds.
-/

namespace Verif.ChainStore

/-- A call that does not complete: it returns an error, or panics. -/
inductive Fail where
  | err
  | panic
deriving DecidableEq, Repr

/-- The words of a word file. -/
abbrev Words := List Nat

/-- `WriteWordAt(val, off)` on a file of `w`-byte words. -/
def put (w : Nat) (l : Words) (off val : Int) : Except Fail Words :=
  if off < 0 then .error .err else .ok (setExt l off.toNat (toU64 val % 256 ^ w) 0)

/-- `ReadWordAt(off)`. -/
def get (l : Words) (off : Int) : Except Fail Int :=
  if off < 0 then .error .err
  else
    match l[off.toNat]? with
    | none => .error .err
    | some v => .ok (ofU64 v)

/-- `CountWords()`. -/
def count (l : Words) : Int := l.length

/-- `IndexOfHash`. -/
def indexOf (l : List Bytes) (h : Bytes) : Int :=
  match l.findIdx? (· = h) with
  | none => -1
  | some i => i

/-- One file of non-essential ints (concreteappendablechainfactory.go:117-133 for the widths). -/
structure Nei where
  name : String
  width : Nat
  words : Words
deriving DecidableEq, Repr

/-- concreteappendablechain.go:19-48 `concreteAppendableChain`, and the two package variables of lines 16-17
(`prevFirstTxo`, `prevTrans`), which are shared by all the chains of a process. -/
structure St where
  prevFirstTxo : Int
  prevTrans : Int
  delegated : Bool
  blkHashes : List Bytes
  trnHashes : List Bytes
  adrHashes : List Bytes
  blkFirstTrans : Words
  parentBlockOfTrans : Words
  trnFirstTxi : Words
  txiTx : Words
  txiVout : Words
  parentTransOfTxi : Words
  trnFirstTxo : Words
  txoSats : Words
  txoAddress : Words
  txoSpentTxi : Words
  parentTransOfTxo : Words
  addrFirstTxo : Words
  additional : Nat → List Nat
  blkNei : List Nei
  trnNei : List Nei

/-- How a chain source refers to the transaction of a spent output, apart from its hash: by height, or by block height
and position in the block (the `IndicesPath`). -/
inductive Ref where
  | height (h : Int)
  | path (block nth : Int)
deriving DecidableEq, Repr

/-- An input of the source chain: `txid`, `vout` of the output it spends; `ref` if the source specifies the
transaction in another way; `height` if the source specifies its own txi heights. -/
structure Txi where
  txid : Bytes
  vout : Int
  ref : Option Ref
  height : Option Int
deriving DecidableEq, Repr

/-- An output of the source chain; `addr` is the hash of its script. -/
structure Txo where
  sats : Int
  addr : Bytes
  height : Option Int
deriving DecidableEq, Repr

/-- A transaction of the source chain: `height` and `nth` if its handle specifies the height, the indices path. -/
structure Tx where
  hash : Bytes
  height : Option Int
  nth : Option Int
  fields : List (String × Int)
  txis : List Txi
  txos : List Txo
deriving DecidableEq, Repr

/-- A block of the source chain. With the handles interface `height` is the `BlockHeight` of its receiver. -/
structure Blk where
  hash : Bytes
  height : Option Int
  fields : List (String × Int)
  txs : List Tx
deriving DecidableEq, Repr

/-- Which interface the source chain is read by: chainreadinterface (`AppendBlock`) or chainhandleinterface
(`AppendBlockChi`). -/
inductive Iface where
  | cri
  | chi
deriving DecidableEq, Repr

/-- `x.HeightSpecified() && x.Height() != h`. -/
def differs (spec : Option Int) (h : Int) : Bool :=
  match spec with
  | none => false
  | some x => x ≠ h

/-- Lookup in a non-essential ints map. -/
def lookup (fields : List (String × Int)) (name : String) : Option Int :=
  (fields.find? fun f => f.1 = name).map (·.2)

/-- The loops at concreteappendablechain.go:118-131, 268-281, 616-627, 716-725. -/
def writeNeis (fields : List (String × Int)) (at_ : Int) : List Nei → Except Fail (List Nei)
  | [] => .ok []
  | f :: fs =>
    match lookup fields f.name with
    | none => .error .err
    | some v => do
      let ws ← put f.width f.words at_ v
      let rest ← writeNeis fields at_ fs
      .ok ({ f with words := ws } :: rest)

/-! ## Inputs -/

/-- The source transaction height: concreteappendablechain.go:400-425, 817-825. -/
def txiSource (i : Iface) (s : St) (x : Txi) : Except Fail Int :=
  match i, x.ref with
  | .cri, some (.height h) => .ok h
  | .cri, some (.path b n) => do
    let first ← get s.blkFirstTrans b
    .ok (first + n)
  | _, _ => .ok (indexOf s.trnHashes x.txid)

/-- concreteappendablechain.go:376-462 `appendTxi`, 799-864 `appendTxiChi`. -/
def appendTxi (i : Iface) (trans : Int) (s : St) (x : Txi) : Except Fail St := do
  let src ← txiSource i s x
  let h := count s.txiTx
  if i = .cri ∧ differs x.height h = true then .error .panic
  else do
    let a ← put 4 s.txiTx h src
    let b ← put 4 s.txiVout h x.vout
    let c ← put 5 s.parentTransOfTxi h trans
    .ok { s with txiTx := a, txiVout := b, parentTransOfTxi := c }

/-- The loop over the inputs. -/
def appendTxis (i : Iface) (trans : Int) : List Txi → St → Except Fail St
  | [], s => .ok s
  | x :: xs, s => do
    let s' ← appendTxi i trans s x
    appendTxis i trans xs s'

/-- The goroutine at concreteappendablechain.go:285-323, 729-757 (`xs` are the inputs to be stored). -/
def txiThread (i : Iface) (trans : Int) (xs : List Txi) (s : St) : Except Fail St := do
  let first ← put 5 s.trnFirstTxi trans (count s.txiTx)
  appendTxis i trans xs { s with trnFirstTxi := first }

/-! ## Outputs -/

/-- testpoints/testpoints.go `TestPointAddressIndex`. -/
def testPoint : Int := 264249

/-- The part of `appendTxo` that deals with the address (505-560, 900-956): the address height, and the new
`addrFirstTxo` and `additional`. -/
def touchAddress (s : St) (addr : Bytes) (h : Int) : Except Fail (Int × Words × (Nat → List Nat)) :=
  let a := indexOf s.adrHashes addr
  if a = -1 then .error .err
  else if ¬ (count s.addrFirstTxo > a) then do
    let f ← put 5 s.addrFirstTxo a h
    if a = testPoint then do
      let v ← get f a
      if v ≠ h then .error .panic else if v = 0 then .error .panic else .ok (a, f, s.additional)
    else .ok (a, f, s.additional)
  else
    .ok (a, s.addrFirstTxo, fun k => if k = a.toNat then s.additional k ++ [h.toNat] else s.additional k)

/-- concreteappendablechain.go:464-575 `appendTxo`, 866-971 `appendTxoChi`. -/
def appendTxo (i : Iface) (trans : Int) (s : St) (x : Txo) : Except Fail St := do
  let h := count s.txoSats
  if i = .cri ∧ differs x.height h = true then .error .panic
  else do
    let a ← put 7 s.txoSats h x.sats
    let b ← put 5 s.parentTransOfTxo h trans
    let r ← touchAddress s x.addr h
    let c ← put 5 s.txoAddress h r.1
    let d ← put 5 s.txoSpentTxi h 0
    .ok { s with
      txoSats := a, parentTransOfTxo := b, addrFirstTxo := r.2.1, additional := r.2.2, txoAddress := c, txoSpentTxi := d }

/-- The loop over the outputs. -/
def appendTxos (i : Iface) (trans : Int) : List Txo → St → Except Fail St
  | [], s => .ok s
  | x :: xs, s => do
    let s' ← appendTxo i trans s x
    appendTxos i trans xs s'

/-- The part of `appendTransactionContents` that stores the outputs: 325-365, 759-788. -/
def txoThread (i : Iface) (trans : Int) (xs : List Txo) (s : St) : Except Fail St :=
  let putative := count s.txoSats
  if s.prevFirstTxo ≠ -1 ∧ (putative < s.prevFirstTxo ∨ trans < s.prevTrans) then .error .panic
  else do
    let first ← put 5 s.trnFirstTxo trans putative
    appendTxos i trans xs { s with trnFirstTxo := first, prevFirstTxo := putative, prevTrans := trans }

/-! ## Transactions and blocks -/

/-- The inputs of the `t`-th transaction of a block that are stored: with the handles interface those of the first
transaction are thrown away (741-755). -/
def storedTxis (i : Iface) (t : Nat) (tx : Tx) : List Txi := if i = .chi ∧ t = 0 then [] else tx.txis

/-- concreteappendablechain.go:261-374 `appendTransactionContents`, 712-797 `appendTransactionContentsChi`. The
goroutine for the inputs is run after the outputs here: `Verif.ChainStore.parallel_contents` shows that the order
makes no difference. -/
def appendContents (i : Iface) (s : St) (t : Nat) (tx : Tx) (trans : Int) : Except Fail St := do
  let neis ← writeNeis tx.fields trans s.trnNei
  let s1 ← txoThread i trans tx.txos { s with trnNei := neis }
  txiThread i trans (storedTxis i t tx) s1

/-- concreteappendablechain.go:199-259 `appendTransactionFrame`, 685-710 `appendTransactionFrameChi`. -/
def appendFrame (i : Iface) (s : St) (blkNum : Int) (t : Nat) (tx : Tx) : Except Fail (St × Int) :=
  if s.delegated = false then
    let transNum := indexOf s.trnHashes tx.hash
    if i = .cri ∧ differs tx.height transNum = true then .error .panic
    else do
      let p ← put 4 s.parentBlockOfTrans transNum blkNum
      .ok ({ s with parentBlockOfTrans := p }, transNum)
  else
    match i, tx.height, tx.nth with
    | .cri, some h, _ => .ok (s, h)
    | .cri, none, some n => do
      let f ← get s.blkFirstTrans blkNum
      .ok (s, f + n)
    | .cri, none, none => .error .panic
    | .chi, _, _ => do
      let f ← get s.blkFirstTrans blkNum
      .ok (s, f + t)

/-- The loop over the frames (142-169, 635-662); `first` is `firstTransOfBlock`. -/
def frameLoop (i : Iface) (blkNum : Int) : List Tx → Nat → Int → St → Except Fail (St × Int)
  | [], _, first, s => .ok (s, first)
  | tx :: txs, t, first, s => do
    let r ← appendFrame i s blkNum t tx
    if t = 0 ∧ r.2 < r.1.prevTrans then .error .panic
    else if i = .cri ∧ differs tx.height r.2 = true then .error .panic
    else if t = 0 ∧ s.delegated = false then do
      let f ← put 4 r.1.blkFirstTrans blkNum r.2
      frameLoop i blkNum txs (t + 1) r.2 { r.1 with blkFirstTrans := f }
    else frameLoop i blkNum txs (t + 1) (if t = 0 then r.2 else first) r.1

/-- The loop over the contents (180-194, 665-680). -/
def contentsLoop (i : Iface) (first : Int) : List Tx → Nat → St → Except Fail St
  | [], _, s => .ok s
  | tx :: txs, t, s => do
    let s' ← appendContents i s t tx (first + t)
    contentsLoop i first txs (t + 1) s'

/-- The height check: a panic at 114-116, an error at 610-612. -/
def checkHeight (i : Iface) (b : Blk) (blkNum : Int) : Except Fail Unit :=
  match i with
  | .cri => if differs b.height blkNum = true then .error .panic else .ok ()
  | .chi => if b.height ≠ some blkNum then .error .err else .ok ()

/-- concreteappendablechain.go:85-197 `AppendBlock`, 577-683 `AppendBlockChi`. -/
def appendBlock (i : Iface) (s : St) (b : Blk) : Except Fail St :=
  let blkNum := indexOf s.blkHashes b.hash
  if blkNum = -1 then .error .err
  else do
    checkHeight i b blkNum
    let neis ← writeNeis b.fields blkNum s.blkNei
    if b.txs = [] then .error .panic
    else do
      let r ← frameLoop i blkNum b.txs 0 (-1) { s with blkNei := neis }
      contentsLoop i r.2 b.txs 0 r.1

/-! ## The phases of a run -/

/-- The loop at intrinsicobjectscri/chain.go:258-269, intrinsicobjectschi/chain.go:239-250 when the chain is the
indexer: concreteappendablechain.go:1008-1014 `StoreTransHashToHeight` (nothing),
`StoreTransHeightToParentBlock`. -/
def indexLoop (block : Int) : List Tx → Int → St → Except Fail St
  | [], _, s => .ok s
  | _ :: txs, h, s => do
    let p ← put 4 s.parentBlockOfTrans (h + 1) block
    indexLoop block txs (h + 1) { s with parentBlockOfTrans := p }

/-- The holder's `PostIntrinsicGatherTransHashes` (cri 244-272, chi 225-253), with `StoreBlockHeightToFirstTrans`
(concreteappendablechain.go:1015-1017): the holder's block height and its latest transaction height. -/
def indexBlock (s : St) (height latest : Int) (txs : List Tx) : Except Fail St := do
  let f ← put 4 s.blkFirstTrans height (latest + 1)
  indexLoop height txs latest { s with blkFirstTrans := f }

/-- jobs/intrinsicparallel.go:489-532, 584-623: block after block is taken from the holder (which indexes it first, if
indexing is delegated) and appended. -/
def ingest (i : Iface) : Int → Int → List Blk → St → Except Fail St
  | _, _, [], s => .ok s
  | height, latest, b :: bs, s => do
    let s1 ← if s.delegated then indexBlock s height latest b.txs else .ok s
    let s2 ← appendBlock i s1 b
    ingest i (height + 1) (latest + b.txs.length) bs s2

/-- The three hash lists written by phase one. -/
structure Hashes where
  blk : List Bytes
  trn : List Bytes
  adr : List Bytes
deriving DecidableEq, Repr

/-- concretehasheschain.go:28-113 `AppendHashesCri`, 115-178 `AppendHashesChi`. -/
def appendHashes (h : Hashes) (b : Blk) : Except Fail Hashes :=
  if b.txs = [] then .error .panic
  else .ok (b.txs.foldl (fun h tx => { h with trn := h.trn ++ [tx.hash], adr := h.adr ++ tx.txos.map (·.addr) })
    { h with blk := h.blk ++ [b.hash] })

/-- jobs/intrinsicparallel.go:326-352, 416-437: phase one. -/
def gatherHashes : List Blk → Hashes → Except Fail Hashes
  | [], h => .ok h
  | b :: bs, h => do
    let h' ← appendHashes h b
    gatherHashes bs h'

/-- concreteappendablechainfactory.go:170-270 `CreateFromHashStores` and `Open`: empty files beside the hash stores
(phase two turns each hash list into a hash store). The package variables are those of the process. -/
def create (prevFirstTxo prevTrans : Int) (delegated : Bool) (h : Hashes) (blkNei trnNei : List (String × Nat)) : St :=
  { prevFirstTxo, prevTrans, delegated, blkHashes := h.blk, trnHashes := h.trn, adrHashes := h.adr,
    blkFirstTrans := [], parentBlockOfTrans := [], trnFirstTxi := [], txiTx := [], txiVout := [],
    parentTransOfTxi := [], trnFirstTxo := [], txoSats := [], txoAddress := [], txoSpentTxi := [],
    parentTransOfTxo := [], addrFirstTxo := [], additional := fun _ => [],
    blkNei := blkNei.map fun f => ⟨f.1, f.2, []⟩, trnNei := trnNei.map fun f => ⟨f.1, f.2, []⟩ }

/-! ## Reading -/

/-- block.go:36-61 `TransactionCount`. -/
def transactionCount (s : St) (block : Int) : Except Fail Int := do
  let first ← get s.blkFirstTrans block
  if block + 1 < s.blkHashes.length then do
    let next ← get s.blkFirstTrans (block + 1)
    .ok (next - first)
  else .ok (s.trnHashes.length - first)

/-- block.go:62-69 `NthTransaction`: the height of the transaction. -/
def nthTransaction (s : St) (block n : Int) : Except Fail Int := do
  let first ← get s.blkFirstTrans block
  .ok (first + n)

/-- transaction.go:76-101 `TxiCount`. -/
def txiCount (s : St) (trans : Int) : Except Fail Int := do
  let first ← get s.trnFirstTxi trans
  if trans + 1 < s.trnHashes.length then do
    let next ← get s.trnFirstTxi (trans + 1)
    .ok (next - first)
  else .ok (count s.txiTx - first)

/-- transaction.go:102-114 `NthTxi`: the height of the input. -/
def nthTxi (s : St) (trans n : Int) : Except Fail Int := do
  let first ← get s.trnFirstTxi trans
  .ok (first + n)

/-- transaction.go:116-141 `TxoCount`. -/
def txoCount (s : St) (trans : Int) : Except Fail Int := do
  let first ← get s.trnFirstTxo trans
  if trans + 1 < s.trnHashes.length then do
    let next ← get s.trnFirstTxo (trans + 1)
    .ok (next - first)
  else .ok (count s.txoSats - first)

/-- transaction.go:142-154 `NthTxo`: the height of the output. -/
def nthTxo (s : St) (trans n : Int) : Except Fail Int := do
  let first ← get s.trnFirstTxo trans
  .ok (first + n)

/-- The loop at transaction.go:38-44, over `n` outputs from height `i`. -/
def readSats (s : St) : Nat → Int → Except Fail (List Int)
  | 0, _ => .ok []
  | n + 1, i => do
    let v ← get s.txoSats i
    let vs ← readSats s n (i + 1)
    .ok (v :: vs)

/-- transaction.go:14-46 `AllTxoSatoshis`. -/
def allTxoSatoshis (s : St) (trans : Int) : Except Fail (List Int) := do
  let first ← get s.trnFirstTxo trans
  let last ← if trans = count s.trnFirstTxo - 1 then .ok (count s.txoSats) else get s.trnFirstTxo (trans + 1)
  readSats s (last - first).toNat first

/-- transaction.go:201-224 `Txi.SourceTxo`: the transaction height and the index of the output spent. -/
def sourceTxo (s : St) (txi : Int) : Except Fail (Int × Int) := do
  let t ← get s.txiTx txi
  let v ← get s.txiVout txi
  .ok (t, v)

/-- concretereadablechain.go:128-147 `TxoInterface` of a handle specifying transaction and index: the output height. -/
def txoOf (s : St) (h : Int × Int) : Except Fail Int := do
  let first ← get s.trnFirstTxo h.1
  .ok (first + h.2)

/-- transaction.go:257-263 `Txo.Satoshis`. -/
def satoshis (s : St) (txo : Int) : Except Fail Int := get s.txoSats txo

/-- transaction.go:265-275 `Txo.Address`: the address height. -/
def addressOf (s : St) (txo : Int) : Except Fail Int := get s.txoAddress txo

/-- concretereadablechain.go:270-280 `AddressHandleByHash`: the address height. -/
def addressByHash (s : St) (h : Bytes) : Except Fail Int :=
  if indexOf s.adrHashes h = -1 then .error .err else .ok (indexOf s.adrHashes h)

/-- address.go:16-49 `populate`, for a handle specifying the height: the heights of the outputs, as listed by
`TxoCount` and `NthTxo` (51-73). -/
def addressTxos (s : St) (a : Int) : Except Fail (List Int) := do
  let first ← get s.addrFirstTxo a
  .ok (first :: (s.additional a.toNat).map fun n : Nat => (n : Int))

/-- concretereadablechain.go:312-314 `ParentBlockOfTrans`. -/
def parentBlockOf (s : St) (trans : Int) : Except Fail Int := get s.parentBlockOfTrans trans

/-- concretereadablechain.go:315-317 `ParentTransOfTxi`. -/
def parentTransOfTxi (s : St) (txi : Int) : Except Fail Int := get s.parentTransOfTxi txi

/-- concretereadablechain.go:318-320 `ParentTransOfTxo`. -/
def parentTransOfTxo (s : St) (txo : Int) : Except Fail Int := get s.parentTransOfTxo txo

/-- block.go:70-80, transaction.go:155-165 `NonEssentialInts`: the value under one name. -/
def readNei (fs : List Nei) (name : String) (at_ : Int) : Option (Except Fail Int) :=
  (fs.find? fun f => f.name = name).map fun f => get f.words at_

/-! ## Navigation: handles made by the stored chain specify a height only, -1 being the invalid handle -/

/-- concretereadablechain.go:41-43, 54-56 `GenesisBlock`, `GenesisTransaction`. -/
def genesis : Int := 0

/-- concretereadablechain.go:44-53 `ParentBlock`, 57-66 `PreviousTransaction`. -/
def previous (h : Int) : Int := if h = -1 then -1 else h - 1

/-- concretereadablechain.go:189-202 `NextBlock`, 217-230 `NextTransaction`, over a hash store of `n` hashes. -/
def next (n : Nat) (h : Int) : Int := if h + 1 ≥ n then -1 else h + 1

/-- concretereadablechain.go:176-187 `LatestBlock`, 204-215 `LatestTransaction`. -/
def latest (n : Nat) : Int := if n = 0 then -1 else n - 1

/-- `NextBlock`. -/
def nextBlock (s : St) : Int → Int := next s.blkHashes.length
/-- `NextTransaction`. -/
def nextTransaction (s : St) : Int → Int := next s.trnHashes.length
/-- `LatestBlock`. -/
def latestBlock (s : St) : Int := latest s.blkHashes.length
/-- `LatestTransaction`. -/
def latestTransaction (s : St) : Int := latest s.trnHashes.length

end Verif.ChainStore
