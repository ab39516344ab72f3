import Verif.Model.HashStore3
import Verif.Model.BinDisk

/-!
# A binned hash store whose process is killed (indexedhashes3/hashstore.go over memfile/appendoptimized.go)

`AppendHash` writes the bin number through the buffer of the append-optimised file and the bin through plain files. When the
process ends without `Close`, what the buffer holds is lost and the bins stay. The operating system keeps what was handed to it.
In a session the process is killed between two calls; `during` is the disk when it is killed within one.
-/

namespace Verif.BinKill

open Bins HashStores HashStore3

/-- What is on disk when the process ends: of the bin number file what memfile/appendoptimized.go:59-113 has handed to the
operating system, and the files of the bins, which hashstore.go:97 writes without a buffer. -/
def disk (s : Store) : Bytes × Files := (s.binNums.file.file.data, s.files)

/-- Client operations; `kill` ends the process and opens the store again in a new one. -/
inductive Op where
  | call (op : HashStore3.Op)
  | kill

/-- Client observations; `opened` is whether the store could be opened again. -/
inductive Out where
  | call (o : HashStore3.Out)
  | opened (b : Bool)

/-- One client operation. Outer `none` is a panic (or a failed open after `Close`), inner `none` a store that cannot be opened
any more: hashstorecreator.go:138-150 `OpenHashStore` returns an error. -/
def step (fl : Rat → Rat) (p : Params) (s : Store) : Op → Option (Option Store × Out)
  | .call op => (HashStore3.step fl p s op).map fun r => (some r.1, .call r.2)
  | .kill =>
    match openStore p (disk s).1 (disk s).2 false with
    | none => some (none, .opened false)
    | some s' => some (some s', .opened true)

/-- A session; it ends when the store cannot be opened. -/
def run (fl : Rat → Rat) (p : Params) (s : Store) : List Op → Option (List Out)
  | [] => some []
  | op :: ops =>
    match step fl p s op with
    | none => none
    | some (none, o) => some [o]
    | some (some s', o) => (run fl p s' ops).map fun os => o :: os

/-- The disk when the process is killed within hashstore.go:66-103 `AppendHash`: the calls made until then have been done, and the
one in progress may have been done in part. This is what a call that fails there leaves (`BinDisk.Fates`). -/
def during (ft : BinDisk.Fates) (fl : Rat → Rat) (p : Params) (s : Store) (h : Bytes) : Option (Bytes × Files) :=
  (BinDisk.appendHash ft fl p s h).map fun r => disk r.1

/-- The moment after the bin number has been written (hashstore.go:84) and before the bin is read (89). -/
def beforeTheBin : BinDisk.Fates := ⟨false, true, true, .ok, none⟩

/-- The moment at which `os.WriteFile` (binfiles.go:152) has opened the overflow file, which empties it, and has not written yet. -/
def overflowEmptied : BinDisk.Fates := ⟨true, true, true, .cut 0, none⟩

/-- The moment before the bin start is written (binfiles.go:160): the overflow file, if there is to be one, has been. -/
def startNotWritten : BinDisk.Fates := ⟨true, true, true, .ok, some 0⟩

end Verif.BinKill
