import Verif.Model.HashStore3

/-!
# The binned hash store on a disk that can fail

indexedhashes3/hashstore.go and binfiles.go as in Verif.Model.HashStore3 and Verif.Model.BinFiles, with every read and every
write of the bins at the mercy of the disk. The file of bin numbers is taken to work (for its failures see Verif.Model.FaultyFile),
and the bins are not held in memory.
-/

namespace Verif.BinDisk

open Bins HashStores WordFile
open HashStore3 (Store)

/-- What becomes of `os.WriteFile` on an overflow file: it cannot be opened, and is as before; it has been emptied and `m` bytes
written when the write fails; all goes well. -/
inductive Fate where
  | refused
  | cut (m : Nat)
  | ok
deriving DecidableEq, Repr

/-- What becomes of the calls one operation makes: the read of the bin start (binfiles.go:13), the read of an overflow file
(binfiles.go:35; `false` is a failure although the file is there), `os.MkdirAll` (148), `os.WriteFile` (152), the write of the bin
start (160; `some m` fails after `m` bytes). -/
structure Fates where
  startRead : Bool
  ovfRead : Bool
  dir : Bool
  ovfWrite : Fate
  startWrite : Option Nat
deriving DecidableEq, Repr

/-- Nothing fails. -/
def Fates.fine : Fates := ⟨true, true, true, .ok, none⟩

/-- Overflow files cannot be read, all else works. -/
def Fates.unreadable : Fates := ⟨true, false, true, .ok, none⟩

/-- The write of a bin start fails after `m` bytes, all else works. -/
def Fates.cutAt (m : Nat) : Fates := ⟨true, true, true, .ok, some m⟩

/-- The files as `os.ReadFile` shows them when it fails for overflow files: an error is an error, the code does not ask which
(binfiles.go:36-37). -/
def seen (ft : Fates) (f : Files) : Files := if ft.ovfRead = true then f else { f with overflow := fun _ => none }

/-- binfiles.go:11-19 `loadBinFromFiles`, with 21-50; `none` is an error. -/
def loadBin (ft : Fates) (p : Params) (f : Files) (bn : Nat) : Option Bytes :=
  if ft.startRead = true then Bins.loadBin p (seen ft f) bn else none

/-- binfiles.go:157-161: the write of the bin start, and whether it returned nil. -/
def writeStart (ft : Fates) (p : Params) (f : Files) (bn : Nat) (start : Bytes) : Files × Bool :=
  match ft.startWrite with
  | none => ({ f with binStarts := writeAt f.binStarts (bn * p.entriesInBinStart * p.entrySize) start }, true)
  | some m => ({ f with binStarts := writeAt f.binStarts (bn * p.entriesInBinStart * p.entrySize) (start.take m) }, false)

/-- binfiles.go:137-162 `saveBinToFiles`: the files, and whether it returned nil. -/
def saveBin (ft : Fates) (p : Params) (f : Files) (bn : Nat) (b : Bytes) : Files × Bool :=
  let numEntries := binLen p b
  if numEntries > p.entriesInBinStart then
    let overflowBytes := b.drop (p.entrySize * p.entriesInBinStart)
    let put := fun o => { f with overflow := fun path => if path = ovfPath p bn then some o else f.overflow path }
    if ft.dir = false then (f, false)
    else match ft.ovfWrite with
      | .refused => (f, false)
      | .cut m => (put (overflowBytes.take m), false)
      | .ok => writeStart ft p (put overflowBytes) bn (b.take (p.entriesInBinStart * p.entrySize))
  else writeStart ft p f bn (b.take (numEntries * p.entrySize))

/-- hashstore.go:66-103 `AppendHash`. The outer `none` is a panic, the inner one an error. -/
def appendHash (ft : Fates) (fl : Rat → Rat) (p : Params) (s : Store) (h : Bytes) : Option (Store × Option Nat) :=
  if s.ram.isSome then none
  else
    let bn := binNum p h
    let hashesSoFar := countWords s.binNums
    let s1 := { s with binNums := writeWordAt s.binNums bn hashesSoFar }
    match loadBin ft p s1.files bn with
    | none => some (s1, none)
    | some theBin =>
      match insertBinEntry fl p theBin (sortNum p h) hashesSoFar (truncOf h) with
      | none => none
      | some (newBin, _) =>
        match saveBin ft p s1.files bn newBin with
        | (f, false) => some ({ s1 with files := f }, none)
        | (f, true) => some ({ s1 with files := f }, some hashesSoFar)

/-- hashstore.go:105-127 `IndexOfHash`, bins not in memory. -/
def indexOfHash (ft : Fates) (fl : Rat → Rat) (p : Params) (s : Store) (h : Bytes) : Option Found :=
  match loadBin ft p s.files (binNum p h) with
  | none => some .err
  | some theBin => lookupByHash fl p theBin (truncOf h) (sortNum p h)

/-- hashstore.go:129-143 `GetHashAtIndex`; the inner `none` is an error. -/
def getHashAtIndex (ft : Fates) (p : Params) (s : Store) (i : Nat) : Option (Store × Option Bytes) :=
  match readWordAt s.binNums i with
  | (w, none) => some ({ s with binNums := w }, none)
  | (w, some bn) =>
    match loadBin ft p s.files bn.toNat with
    | none => some ({ s with binNums := w }, none)
    | some theBin =>
      match lookupByIndex p theBin i bn.toNat with
      | none => none
      | some h => some ({ s with binNums := w }, some h)

/-- Client operations, with what the disk does during each. -/
inductive Op where
  | append (h : Bytes) (ft : Fates)
  | indexOf (h : Bytes) (ft : Fates)
  | get (i : Nat) (ft : Fates)
  | count
  | sync
  | reopen

/-- One client operation; `none` is a panic or a failed open. -/
def step (fl : Rat → Rat) (p : Params) (s : Store) : Op → Option (Store × HashStore3.Out)
  | .append h ft => (appendHash ft fl p s h).map fun r => (r.1, .index r.2)
  | .indexOf h ft => (indexOfHash ft fl p s h).map fun r => (s, .found r)
  | .get i ft => (getHashAtIndex ft p s i).map fun r => (r.1, .hash r.2)
  | .count => some (s, .count (HashStore3.countHashes s))
  | .sync => some (HashStore3.sync s, .unit)
  | .reopen => (HashStore3.openStore p (HashStore3.close s).1 (HashStore3.close s).2 false).map fun s' => (s', .unit)

/-- A session. -/
def run (fl : Rat → Rat) (p : Params) (s : Store) : List Op → Option (Store × List HashStore3.Out)
  | [] => some (s, [])
  | op :: ops =>
    match step fl p s op with
    | none => none
    | some (s', o) => (run fl p s' ops).map fun r => (r.1, o :: r.2)

end Verif.BinDisk
