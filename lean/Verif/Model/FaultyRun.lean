import Verif.Model.FaultyFile
import Verif.Model.Killed

/-!
# jobs/intrinsicparallel.go, chainstorage/concreteappendablechain.go: storing a chain on a disk that can fail

The word files of the chain, each with the fates of its calls on the disk. The files of the hash stores are only read, the
files of the further outputs of addresses are left out.
-/

namespace Verif.Faulty

open Killed (File Ev opsOn)

/-- What a word file of `w`-byte words asks of its file: wordfile/wordfile.go:44-51 `ReadWordAt`, 53-63 `WriteWordAt`, 65-67
`CountWords` (asks nothing; the size is asked for here, which has no effect either), 78-80 `Sync`. Each passes on the error. -/
def fileOp (w : Nat) : WordFile.Op → AppendOpt.Op
  | .read off => .readAt (off * w) w
  | .write v off => .writeAt (off * w) ((leEnc 8 (toU64 v)).take w)
  | .count => .size
  | .sync => .sync

/-- The calls `ops` on a new word file, with the answers. -/
def wordFile (w : Nat) (fates : Fates) (ops : List WordFile.Op) : FF × List (Option AppendOpt.Out) :=
  run (openFile [] fates) (ops.map (fileOp w))

/-- jobs/intrinsicparallel.go:443-535, 538-627 `PhaseThreeParallelIntrinsicChi`, `PhaseThreeParallelIntrinsic` return nil: no
call on any file during the blocks returned an error (`AppendBlock`, `AppendBlockChi`, `Sync` and the indexer pass on every
one, concreteappendablechain.go:85-971, 1006-1113). As long as there is none, what is read is what it would be on a good disk,
and so the calls are those of a run on a good disk, `es`. Then the chain is closed, `ac.Close(); return nil` (533-534,
625-626): what `Close` meets is not asked for. -/
def ReturnsNil (blkInts trnInts : List (String × Nat)) (fates : File → Fates) (es : List Ev) : Prop :=
  ∀ f d n w, File.place blkInts trnInts f = some (d, n, w) → none ∉ (wordFile w (fates f) (opsOn f es)).2

/-- concreteappendablechain.go:973-996 `Close`: closes every file; it has no result, errors are dropped. The folder after
it. -/
structure Closed (blkInts trnInts : List (String × Nat)) (fs : ChainFactory.FS) (fates : File → Fates) (es : List Ev)
    (fs' : ChainFactory.FS) : Prop where
  params : fs'.params = fs.params
  words : ∀ f d n w, File.place blkInts trnInts f = some (d, n, w) →
    fs'.file d n = some (close (wordFile w (fates f) (opsOn f es)).1).1
  others : ∀ d n, (∀ f w, File.place blkInts trnInts f ≠ some (d, n, w)) → fs'.file d n = fs.file d n

/-- Every file's `Close` returned nil (nobody looks). -/
def ClosesWell (blkInts trnInts : List (String × Nat)) (fates : File → Fates) (es : List Ev) : Prop :=
  ∀ f d n w, File.place blkInts trnInts f = some (d, n, w) → (close (wordFile w (fates f) (opsOn f es)).1).2 = true

end Verif.Faulty
