import Verif.Model.BinFiles
import Verif.Model.WordFile

/-!
# Binned hash store (indexedhashes3/hashstore.go, hashstorecreator.go)

A Go panic is `none`; an error return is part of the result. Indices are natural numbers. File system errors
other than reads past the end are not modelled.
-/

namespace Verif.HashStore3

open Bins HashStores WordFile

/-- indexedhashes3/hashstore.go:11-19 `hashStore`. `binNums` is the word file of bin numbers (the read and
write handles are one object, line 33); `ram` holds the bins when they were loaded to memory. -/
structure Store where
  binNums : WF
  files : Files
  ram : Option (List Bytes)

/-- hashstore.go:66-103 `AppendHash`. The bin number is written before the bin is loaded, so an error leaves
it behind. Result: the index, or `none` for an error. -/
def appendHash (fl : Rat → Rat) (p : Params) (s : Store) (h : Bytes) : Option (Store × Option Nat) :=
  if s.ram.isSome then none
  else
    let bn := binNum p h
    let hashesSoFar := countWords s.binNums
    let s1 := { s with binNums := writeWordAt s.binNums bn hashesSoFar }
    match loadBin p s1.files bn with
    | none => some (s1, none)
    | some theBin =>
      match insertBinEntry fl p theBin (sortNum p h) hashesSoFar (truncOf h) with
      | none => none
      | some (newBin, _) => some ({ s1 with files := saveBin p s1.files bn newBin }, some hashesSoFar)

/-- hashstore.go:113-122: where `IndexOfHash` takes the bin from. Outer `none` is an index out of range
panic, inner `none` an error. -/
def binFor (p : Params) (s : Store) (bn : Nat) : Option (Option Bytes) :=
  match s.ram with
  | some bins => bins[bn]?.map some
  | none => some (loadBin p s.files bn)

/-- hashstore.go:105-127 `IndexOfHash`. -/
def indexOfHash (fl : Rat → Rat) (p : Params) (s : Store) (h : Bytes) : Option Found :=
  match binFor p s (binNum p h) with
  | none => none
  | some none => some .err
  | some (some theBin) => lookupByHash fl p theBin (truncOf h) (sortNum p h)

/-- hashstore.go:129-143 `GetHashAtIndex`. Result: the hash, or `none` for an error. (`binNum(bn)` of a
stored word is non-negative for the word sizes in use, at most 7 bytes.) -/
def getHashAtIndex (p : Params) (s : Store) (i : Nat) : Option (Store × Option Bytes) :=
  match readWordAt s.binNums i with
  | (w, none) => some ({ s with binNums := w }, none)
  | (w, some bn) =>
    match loadBin p s.files bn.toNat with
    | none => some ({ s with binNums := w }, none)
    | some theBin =>
      match lookupByIndex p theBin i bn.toNat with
      | none => none
      | some h => some ({ s with binNums := w }, some h)

/-- hashstore.go:145-151 `CountHashes`. -/
def countHashes (s : Store) : Nat := countWords s.binNums

/-- hashstore.go:166-176 `Sync`. -/
def sync (s : Store) : Store := { s with binNums := { s.binNums with file := AppendOpt.sync s.binNums.file } }

/-- hashstorecreator.go:138-150 `OpenHashStore` and hashstore.go:25-48 `newHashStoreObject`, given the bytes
of the bin number file and the other files; `none` is an error. -/
def openStore (p : Params) (binNumBytes : Bytes) (f : Files) (inRam : Bool) : Option Store :=
  match openWordFile p.bytesRoomForBinNum binNumBytes with
  | none => none
  | some w =>
    if inRam then (loadAllBins p f).map fun bins => { binNums := w, files := f, ram := some bins }
    else some { binNums := w, files := f, ram := none }

/-- hashstore.go:153-164 `Close`: the bytes left in the bin number file, and the other files. -/
def close (s : Store) : Bytes × Files := (WordFile.close s.binNums, s.files)

/-- hashstorecreator.go:114-136 `CreateHashStore`: an empty bin number file and a bin-starts file truncated
to `BytesPerBinEntry * EntriesInBinStart` bytes, that is room for one bin. -/
def createHashStore (p : Params) : Bytes × Files :=
  ([], { binStarts := zeros (p.entrySize * p.entriesInBinStart), overflow := fun _ => none })

/-- Client operations (`reopen` closes the store and opens it again). -/
inductive Op where
  | append (h : Bytes)
  | indexOf (h : Bytes)
  | get (i : Nat)
  | count
  | sync
  | reopen

/-- Client observations; `none` in `index` and `hash` is an error. -/
inductive Out where
  | index (i : Option Nat)
  | found (f : Found)
  | hash (h : Option Bytes)
  | count (n : Nat)
  | unit
deriving DecidableEq

/-- One client operation; `none` is a panic or a failed open. -/
def step (fl : Rat → Rat) (p : Params) (s : Store) : Op → Option (Store × Out)
  | .append h => (appendHash fl p s h).map fun r => (r.1, .index r.2)
  | .indexOf h => (indexOfHash fl p s h).map fun r => (s, .found r)
  | .get i => (getHashAtIndex p s i).map fun r => (r.1, .hash r.2)
  | .count => some (s, .count (countHashes s))
  | .sync => some (sync s, .unit)
  | .reopen => (openStore p (close s).1 (close s).2 false).map fun s' => (s', .unit)

/-- A session. -/
def run (fl : Rat → Rat) (p : Params) (s : Store) : List Op → Option (Store × List Out)
  | [] => some (s, [])
  | op :: ops =>
    match step fl p s op with
    | none => none
    | some (s', o) => (run fl p s' ops).map fun r => (r.1, o :: r.2)

end Verif.HashStore3
