import Verif.Model.Adaptive3

/-!
# Bulk indexing in a folder that is not fresh, and of a hash file that is not whole

indexedhashes3/multipasspreloader.go, singlepass.go, adaptivepass.go, adaptivepasspreloader.go,
hashstorecreator.go. The passes are those of `Model/Bulk3.lean` and `Model/Adaptive3.lean`; here the overflow
files of earlier runs are still in the folder, a run may be stopped between two saves of a bin, and the hash file
may be missing or end in the middle of a hash. Other file system errors are not modelled.
-/

namespace Verif.Reindex3

open Bins WordFile Bulk3

/-- hashstorecreator.go:34-43, 59-68 and multipasspreloader.go:156-189, adaptivepasspreloader.go:125-158
`createInitialFiles`: `os.Create` empties the bin number file and the bin-starts file, the latter is made full of
zeros, and `MkdirAll` leaves the overflow files `old` as they are. -/
def startOver (p : Params) (old : OvfPath → Option Bytes) : Disk :=
  { nums := WordFile.new (AppendOpt.openFile []) p.bytesRoomForBinNum 0
    files := { binStarts := zeros (p.numberOfBins * p.entriesInBinStart * p.entrySize), overflow := old } }

/-- The two bulk indexers with what they are told: jobs/intrinsicparallel.go:88-105 and 133-166. -/
inductive Indexer where
  | multi (estimate bytesPerPass : Nat)
  | adaptive (gb : Nat) (sortDesc : List Adaptive3.Info → List Adaptive3.Info)

/-- multipasspreloader.go:36-94 and adaptivepasspreloader.go:31-57 `IndexTheHashes` of the hashes `L` in a folder
with overflow files `old`: a complete run ends in `d`, for any schedule. -/
def Index (p : Params) (sort : List Bytes → List Bytes) (threads : Nat) (L : List Bytes) (old : OvfPath → Option Bytes)
    (d : Disk) : Indexer → Prop
  | .multi estimate bytesPerPass =>
    ∃ xs, plan p estimate bytesPerPass = some xs ∧ Passes p threads sort L xs (startOver p old) d
  | .adaptive gb sortDesc =>
    ∃ infos passes, Adaptive3.stageOne p L = some infos ∧ Adaptive3.design p gb sortDesc infos = some passes ∧
      Adaptive3.Passes p sort threads L true passes (startOver p old) d

/-- A run that stops for good (the process ends) after some passes and `m` saves of the next one; `f` are the files
then. singlepass.go:137-146 and adaptivepass.go:423-429 are the loops that save the bins. -/
def Stopped (p : Params) (sort : List Bytes → List Bytes) (threads : Nat) (L : List Bytes) (old : OvfPath → Option Bytes)
    (m : Nat) (f : Files) : Indexer → Prop
  | .multi estimate bytesPerPass =>
    ∃ xs x ys e k s n t, plan p estimate bytesPerPass = some (xs ++ x :: ys) ∧
      Passes p threads sort L xs (startOver p old) e ∧
      FanRun p threads k (fanStart (readLoop p x.1 (x.1 + x.2) 0 L)) s ∧ s.done threads ∧
      PoolRun p threads sort x.1 (x.1 + x.2) n ⟨x.1, [], s.bins⟩ t ∧ t.done (x.1 + x.2) ∧
      m ≤ x.2 ∧ f = writeFiles p e.files x.1 t.bins 0 m
  | .adaptive gb sortDesc =>
    ∃ infos xs x ys e n s, Adaptive3.stageOne p L = some infos ∧
      Adaptive3.design p gb sortDesc infos = some (xs ++ x :: ys) ∧
      Adaptive3.Passes p sort threads L true xs (startOver p old) e ∧
      Adaptive3.Run p sort threads (Adaptive3.carve p (List.replicate threads 0) x).1 n
        (Adaptive3.start p (Adaptive3.carve p (List.replicate threads 0) x).1 (Adaptive3.carve p (List.replicate threads 0) x).2
          (Adaptive3.sendList p (Adaptive3.carve p (List.replicate threads 0) x).1 0 L)) s ∧ s.done threads ∧
      f = Adaptive3.saveResults p e.files ((s.results.mergeSort fun a b => a.1 ≤ b.1).take m)

/-! ## Reading the hash file -/

/-- A result, an error or a panic. -/
inductive R (α : Type) where
  | ok (a : α)
  | err
  | panic
deriving DecidableEq

/-- singlepass.go:70-86, 117: read the hashes with `io.ReadFull` until `io.EOF`; `none` is the `io.ErrUnexpectedEOF` of a
file that ends inside a hash. -/
def readFullLoop (f : Bytes) : Option (List Bytes) :=
  if f = [] then some []
  else if h : f.length < 32 then none
  else (readFullLoop (f.drop 32)).map fun L => f.take 32 :: L
termination_by f.length
decreasing_by simp; omega

/-- adaptivepass.go:71-95: tally the hashes of the file. The buffer's size is a multiple of 32, so a `Read` is short
only at the end of the file. -/
def countFile (p : Params) (r : List Adaptive3.Info) (f : Bytes) : R (List Adaptive3.Info) :=
  if f = [] then .ok r
  else if h : f.length < 32 then .err
  else if binNum p (f.take 32) < r.length then
    countFile p (r.modify (binNum p (f.take 32)) fun i => { i with count := i.count + 1 }) (f.drop 32)
  else .panic
termination_by f.length
decreasing_by simp; omega

/-- adaptivepass.go:52-102 `stageOneCountBinWork`; `none` is a missing file (62-65). -/
def stageOneFile (p : Params) : Option Bytes → R (List Adaptive3.Info)
  | none => .err
  | some f => countFile p ((List.range p.numberOfBins).map fun b => ⟨b, 0⟩) f

/-- adaptivepass.go:341-393: what the reader of a pass sends; `none` is its panic for a missing file (342-344) or one
that ends inside a hash (389-391). -/
def passReads : Option Bytes → Option (List Bytes)
  | none => none
  | some f => readFullLoop f

/-- adaptivepasspreloader.go:31-57 `IndexTheHashes` returning nil, with the state it leaves. The error of stage one
(line 44) is overwritten by that of the next stage (46), which goes on with a nil list. -/
def AdaptiveFile (p : Params) (gb threads : Nat) (sortDesc : List Adaptive3.Info → List Adaptive3.Info)
    (sort : List Bytes → List Bytes) (file : Option Bytes) (d : Disk) : Prop :=
  ∃ infos passes, (stageOneFile p file = .ok infos ∨ stageOneFile p file = .err ∧ infos = []) ∧
    Adaptive3.design p gb sortDesc infos = some passes ∧
    (passes = [] ∧ d = diskStart p ∨
      ∃ L, passReads file = some L ∧ passes ≠ [] ∧ Adaptive3.Passes p sort threads L true passes (diskStart p) d)

/-- multipasspreloader.go:36-94 `IndexTheHashes` with its result, `none` for an error. The first pass opens and reads
the whole file (singlepass.go:38-43, 80-86), and returns an error if it is missing or torn. -/
def MultiFile (p : Params) (estimate bytesPerPass threads : Nat) (sort : List Bytes → List Bytes)
    (file : Option Bytes) (res : Option Disk) : Prop :=
  ∃ xs, plan p estimate bytesPerPass = some xs ∧
    (xs = [] ∧ res = some (diskStart p) ∨
      xs ≠ [] ∧ match file with
        | none => res = none
        | some f =>
          match readFullLoop f with
          | none => res = none
          | some L => ∃ d, res = some d ∧ Passes p threads sort L xs (diskStart p) d)

end Verif.Reindex3
