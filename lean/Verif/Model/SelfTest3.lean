import Verif.Model.Bulk3

/-!
# The self-test of the bulk indexer (indexedhashes3/multipasspreloader.go)

The folder is the bin number file, the bins and the file of hashes. Simplifications: reads of a file return as many bytes as are
left, up to the number asked for; the files are there.
-/

namespace Verif.SelfTest3

open Bins HashStores WordFile HashStore3

/-- multipasspreloader.go:144-145, 150-151: lines printed. -/
inductive Remark where
  | wrongHash (i : Nat)
  | wrongIndex (i j : Nat)
deriving DecidableEq, Repr

/-- What `TestTheHashes` returns: nil, or one of its errors (`failed` is an error passed on). -/
inductive Verdict where
  | passed
  | ragged
  | notFound (i : Nat)
  | failed
deriving DecidableEq, Repr

/-- The returned error and the lines printed. -/
structure Report where
  remarks : List Remark
  verdict : Verdict
deriving DecidableEq, Repr

/-- multipasspreloader.go:133-154 `testOneHash`: `none` is a panic; the verdict is `none` if it returns nil. -/
def testOneHash (fl : Rat → Rat) (p : Params) (s : Store) (i : Nat) (h : Bytes) : Option (Store × List Remark × Option Verdict) :=
  match getHashAtIndex p s i with
  | none => none
  | some (s1, none) => some (s1, [], some .failed)
  | some (s1, some foundHash) =>
    match indexOfHash fl p s1 h with
    | none => none
    | some .err => some (s1, [], some .failed)
    | some .absent => some (s1, if foundHash = h then [] else [.wrongHash i], some (.notFound i))
    | some (.at j) =>
      some (s1, (if foundHash = h then [] else [.wrongHash i]) ++ (if j = i then [] else [.wrongIndex i j]), none)

/-- multipasspreloader.go:118-126: the hashes of one chunk. -/
def testHashes (fl : Rat → Rat) (p : Params) (s : Store) (i : Nat) : List Bytes → Option (Store × List Remark × Option Verdict)
  | [] => some (s, [], none)
  | h :: hs =>
    match testOneHash fl p s i h with
    | none => none
    | some (s1, r, some v) => some (s1, r, some v)
    | some (s1, r, none) => (testHashes fl p s1 (i + 1) hs).map fun x => (x.1, r ++ x.2.1, x.2.2)

/-- multipasspreloader.go:117-119: a chunk cut into hashes. -/
def cut (chunk : Bytes) : List Bytes := (List.range (chunk.length / 32)).map fun k => (chunk.drop (k * 32)).take 32

/-- multipasspreloader.go:109-129: read and test until a read gives nothing; `rest` is what is left of the file. -/
def testLoop (fl : Rat → Rat) (p : Params) (s : Store) (i : Nat) (rest : Bytes) : Option Report :=
  if hr : rest = [] then some ⟨[], .passed⟩
  else if (rest.take 4096).length % 32 ≠ 0 then some ⟨[], .ragged⟩
  else
    match testHashes fl p s i (cut (rest.take 4096)) with
    | none => none
    | some (_, r, some v) => some ⟨r, v⟩
    | some (s1, r, none) =>
      (testLoop fl p s1 (i + (rest.take 4096).length / 32) (rest.drop 4096)).map fun x => ⟨r ++ x.remarks, x.verdict⟩
termination_by rest.length
decreasing_by
  rw [List.length_drop]
  have := List.length_pos_iff.mpr hr
  omega

/-- multipasspreloader.go:91-131 `TestTheHashes`. -/
def testTheHashes (fl : Rat → Rat) (p : Params) (nums : Bytes) (f : Files) (hashes : Bytes) : Option Report :=
  match openStore p nums f false with
  | none => some ⟨[], .failed⟩
  | some s => testLoop fl p s 0 hashes

end Verif.SelfTest3
