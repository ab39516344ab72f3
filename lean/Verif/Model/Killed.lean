import Verif.Model.ChainStore
import Verif.Model.ChainFactory

/-!
# What a run that is killed leaves on disk

The calls on its word files that storing a chain makes, in the order made (concreteappendablechain.go,
jobs/intrinsicparallel.go:489-532, 584-623 with the `Sync` of every ten thousandth block), the buffered files they are
made on (`Verif.WordFile`), and the bytes on disk when the process ends without `Close`.

Each function here lists the calls of the function of `Verif.ChainStore` of the same part of the code, from the same
state. `Verif.Killed.ingest_calls` shows that the calls make exactly the files of `Verif.ChainStore`.

Not modelled: the arrays of additional txos; the operating system losing what was written to it (a kill ends the process,
not the machine); runs that fail.
-/

namespace Verif.Killed

open ChainStore

/-- The word files of a chain; those of the non-essential ints by position. -/
inductive File where
  | blkFirstTrans
  | parentBlockOfTrans
  | trnFirstTxi
  | txiTx
  | txiVout
  | parentTransOfTxi
  | trnFirstTxo
  | txoSats
  | txoAddress
  | txoSpentTxi
  | parentTransOfTxo
  | addrFirstTxo
  | blkNei (k : Nat)
  | trnNei (k : Nat)
deriving DecidableEq, Repr

/-- A call on a word file, or `Sync` of the chain (concreteappendablechain.go:1034-1113, which syncs every word file). -/
inductive Ev where
  | write (f : File) (off val : Int)
  | read (f : File) (off : Int)
  | sync
deriving DecidableEq, Repr

/-- concreteappendablechain.go:118-131, 268-281, 616-627, 716-725. -/
def neiEvs (file : Nat → File) (fields : List (String × Int)) (at_ : Int) : List Nei → Nat → List Ev
  | [], _ => []
  | f :: fs, k =>
    match lookup fields f.name with
    | none => []
    | some v => .write (file k) at_ v :: neiEvs file fields at_ fs (k + 1)

/-- concreteappendablechain.go:376-462 `appendTxi`, 799-864 `appendTxiChi`. -/
def txiEvs (i : Iface) (trans : Int) (s : St) (x : Txi) : List Ev :=
  (match i, x.ref with
    | .cri, some (.path b _) => [.read .blkFirstTrans b]
    | _, _ => []) ++
  match txiSource i s x with
  | .error _ => []
  | .ok src =>
    let h := count s.txiTx
    [.write .txiTx h src, .write .txiVout h x.vout, .write .parentTransOfTxi h trans]

/-- The loop over the inputs: 304-322, 741-755. -/
def txisEvs (i : Iface) (trans : Int) : List Txi → St → List Ev
  | [], _ => []
  | x :: xs, s =>
    txiEvs i trans s x ++
    match appendTxi i trans s x with
    | .error _ => []
    | .ok s' => txisEvs i trans xs s'

/-- The goroutine at 285-323, 729-757. -/
def txiThreadEvs (i : Iface) (trans : Int) (xs : List Txi) (s : St) : List Ev :=
  .write .trnFirstTxi trans (count s.txiTx) ::
  match put 5 s.trnFirstTxi trans (count s.txiTx) with
  | .error _ => []
  | .ok first => txisEvs i trans xs { s with trnFirstTxi := first }

/-- The address part of `appendTxo`: 505-560, 900-956. -/
def addressEvs (s : St) (addr : Bytes) (h : Int) : List Ev :=
  let a := indexOf s.adrHashes addr
  if a = -1 then []
  else if ¬ (count s.addrFirstTxo > a) then
    .write .addrFirstTxo a h :: if a = testPoint then [.read .addrFirstTxo a] else []
  else []

/-- concreteappendablechain.go:464-575 `appendTxo`, 866-971 `appendTxoChi`. -/
def txoEvs (trans : Int) (s : St) (x : Txo) : List Ev :=
  let h := count s.txoSats
  [.write .txoSats h x.sats, .write .parentTransOfTxo h trans] ++ addressEvs s x.addr h ++
    [.write .txoAddress h (indexOf s.adrHashes x.addr), .write .txoSpentTxi h 0]

/-- The loop over the outputs: 346-365, 771-788. -/
def txosEvs (i : Iface) (trans : Int) : List Txo → St → List Ev
  | [], _ => []
  | x :: xs, s =>
    txoEvs trans s x ++
    match appendTxo i trans s x with
    | .error _ => []
    | .ok s' => txosEvs i trans xs s'

/-- 325-365, 759-788. -/
def txoThreadEvs (i : Iface) (trans : Int) (xs : List Txo) (s : St) : List Ev :=
  let putative := count s.txoSats
  .write .trnFirstTxo trans putative ::
  match put 5 s.trnFirstTxo trans putative with
  | .error _ => []
  | .ok first => txosEvs i trans xs { s with trnFirstTxo := first, prevFirstTxo := putative, prevTrans := trans }

/-- concreteappendablechain.go:261-374, 712-797. The calls of the goroutine for the inputs are listed after those for the
outputs: they are on other files, and `Verif.Killed.diskAfter` does not depend on the order of calls on different files. -/
def contentsEvs (i : Iface) (s : St) (t : Nat) (tx : Tx) (trans : Int) : List Ev :=
  neiEvs .trnNei tx.fields trans s.trnNei 0 ++
  match writeNeis tx.fields trans s.trnNei with
  | .error _ => []
  | .ok neis =>
    txoThreadEvs i trans tx.txos { s with trnNei := neis } ++
    match txoThread i trans tx.txos { s with trnNei := neis } with
    | .error _ => []
    | .ok s1 => txiThreadEvs i trans (storedTxis i t tx) s1

/-- concreteappendablechain.go:199-259, 685-710. -/
def frameEvs (i : Iface) (s : St) (blkNum : Int) (tx : Tx) : List Ev :=
  if s.delegated = false then [.write .parentBlockOfTrans (indexOf s.trnHashes tx.hash) blkNum]
  else
    match i, tx.height with
    | .cri, some _ => []
    | _, _ => [.read .blkFirstTrans blkNum]

/-- The loop over the frames: 142-169, 635-662. -/
def framesEvs (i : Iface) (blkNum : Int) : List Tx → Nat → St → List Ev
  | [], _, _ => []
  | tx :: txs, t, s =>
    frameEvs i s blkNum tx ++
    match appendFrame i s blkNum t tx with
    | .error _ => []
    | .ok r =>
      if t = 0 ∧ s.delegated = false then
        .write .blkFirstTrans blkNum r.2 ::
        match put 4 r.1.blkFirstTrans blkNum r.2 with
        | .error _ => []
        | .ok f => framesEvs i blkNum txs (t + 1) { r.1 with blkFirstTrans := f }
      else framesEvs i blkNum txs (t + 1) r.1

/-- The loop over the contents: 180-194, 665-680. -/
def contentsLoopEvs (i : Iface) (first : Int) : List Tx → Nat → St → List Ev
  | [], _, _ => []
  | tx :: txs, t, s =>
    contentsEvs i s t tx (first + t) ++
    match appendContents i s t tx (first + t) with
    | .error _ => []
    | .ok s' => contentsLoopEvs i first txs (t + 1) s'

/-- concreteappendablechain.go:85-197 `AppendBlock`, 577-683 `AppendBlockChi`. -/
def blockEvs (i : Iface) (s : St) (b : Blk) : List Ev :=
  let blkNum := indexOf s.blkHashes b.hash
  neiEvs .blkNei b.fields blkNum s.blkNei 0 ++
  match writeNeis b.fields blkNum s.blkNei with
  | .error _ => []
  | .ok neis =>
    framesEvs i blkNum b.txs 0 { s with blkNei := neis } ++
    match frameLoop i blkNum b.txs 0 (-1) { s with blkNei := neis } with
    | .error _ => []
    | .ok r => contentsLoopEvs i r.2 b.txs 0 r.1

/-- The loop at intrinsicobjectscri/chain.go:258-269, intrinsicobjectschi/chain.go:239-250 with
concreteappendablechain.go:1008-1014. -/
def indexLoopEvs (block : Int) : List Tx → Int → List Ev
  | [], _ => []
  | _ :: txs, h => .write .parentBlockOfTrans (h + 1) block :: indexLoopEvs block txs (h + 1)

/-- The holder's `PostIntrinsicGatherTransHashes` (cri 244-272, chi 225-253), when the chain is the indexer. -/
def indexEvs (height latest : Int) (txs : List Tx) : List Ev :=
  .write .blkFirstTrans height (latest + 1) :: indexLoopEvs height txs latest

/-- jobs/intrinsicparallel.go:489-532, 584-623: a block is taken from the holder (which indexes it first, if indexing is
delegated), every ten thousandth time the chain is synced, and the block is appended. -/
def ingestEvs (i : Iface) : Int → Int → List Blk → St → List Ev
  | _, _, [], _ => []
  | height, latest, b :: bs, s =>
    (if s.delegated then indexEvs height latest b.txs else []) ++
    (if height % 10000 = 0 then [.sync] else []) ++
    match (if s.delegated then indexBlock s height latest b.txs else .ok s) with
    | .error _ => []
    | .ok s1 =>
      blockEvs i s1 b ++
      match appendBlock i s1 b with
      | .error _ => []
      | .ok s2 => ingestEvs i (height + 1) (latest + b.txs.length) bs s2

/-! ## The files -/

/-- The calls on one file. -/
def opsOn (f : File) : List Ev → List WordFile.Op
  | [] => []
  | .write g off val :: es => if g = f then .write val off.toNat :: opsOn f es else opsOn f es
  | .read g off :: es => if g = f then .read off.toNat :: opsOn f es else opsOn f es
  | .sync :: es => .sync :: opsOn f es

/-- A file of a chain just created and opened: concretewordfilecreator.go:52-101. -/
def fresh (w : Nat) : WordFile.WF := WordFile.new (AppendOpt.openFile []) w 0

/-- The bytes on disk of a file of `w`-byte words, new when the run started, when the process ends after these calls on
it: what `bufio` has not yet written is lost. -/
def diskAfter (w : Nat) (ops : List WordFile.Op) : Bytes := (WordFile.run (fresh w) ops).1.file.file.data

/-- Where a file is, and the bytes of its words (concreteappendablechainfactory.go:57-143). -/
def File.place (blkInts trnInts : List (String × Nat)) : File → Option (String × String × Nat)
  | .blkFirstTrans => some ("Blocks", "firsttrans.int", 4)
  | .parentBlockOfTrans => some ("Parents", "parentblockoftrans.int", 4)
  | .trnFirstTxi => some ("Transactions", "firsttxi.int", 5)
  | .txiTx => some ("TransactionInputs", "tx.int", 4)
  | .txiVout => some ("TransactionInputs", "vout.int", 4)
  | .parentTransOfTxi => some ("Parents", "parenttransoftxi.int", 5)
  | .trnFirstTxo => some ("Transactions", "firsttxo.int", 5)
  | .txoSats => some ("TransactionOutputs", "value.int", 7)
  | .txoAddress => some ("TransactionOutputs", "address.int", 5)
  | .txoSpentTxi => some ("TransactionOutputs", "spenttotxi.int", 5)
  | .parentTransOfTxo => some ("Parents", "parenttransoftxo.int", 5)
  | .addrFirstTxo => some ("Addresses", "firsttxo.int", 5)
  | .blkNei k => (blkInts[k]?).map fun n => ("Blocks", n.1 ++ ".int", n.2)
  | .trnNei k => (trnInts[k]?).map fun n => ("Transactions", n.1 ++ ".int", n.2)

/-- The folder `fs'` is what is left of the folder `fs` when the process ends after the calls `done f` on each word file
`f`: the other files, among them those of the hash stores, are only read. -/
structure Left (blkInts trnInts : List (String × Nat)) (fs : ChainFactory.FS) (done : File → List WordFile.Op)
    (fs' : ChainFactory.FS) : Prop where
  params : fs'.params = fs.params
  words : ∀ f d n w, File.place blkInts trnInts f = some (d, n, w) → fs'.file d n = some (diskAfter w (done f))
  others : ∀ d n, (∀ f w, File.place blkInts trnInts f ≠ some (d, n, w)) → fs'.file d n = fs.file d n

/-- The process ends during the run with calls `es`: on every file some first part of its calls has been made. (Which
combinations are possible depends on the goroutines; any is allowed here.) -/
def Stopped (es : List Ev) (done : File → List WordFile.Op) : Prop := ∀ f, done f <+: opsOn f es

end Verif.Killed
