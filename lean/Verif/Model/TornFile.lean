import Verif.Model.KilledSave

/-!
# Loading an array file that was only partly written

intarrayarray/intarrayarray.go `LoadFile` slices the buffer returned by `os.ReadFile`. Go lets a slice
expression reach beyond the length of the buffer, up to its capacity, where the buffer holds zeros. For a
whole file this makes no difference (Verif.Model.IntArrayArray); for a file cut short it does.
-/

namespace Verif.TornFile

open Verif.IAA (IAA setKey loadElems)
open Verif.MapStore (Path FS Cfg)

/-- The capacity of the buffer `os.ReadFile` returns for a file of `len` bytes: one byte more than the file,
for the read that finds the end, and no less than 512. (Go standard library, os/file.go.) -/
def capacity (len : Nat) : Nat := max 512 (len + 1)

/-- intarrayarray/intarrayarray.go:94-112: read arrays `i, i+1, .., i+n-1`. `b` is the buffer from the current
position to its capacity, and the last `slack` bytes of the capacity lie beyond the length. Line 96 slices up
to the length and varint.go:19 indexes it, so there must be a byte before the length; varint.go:23-29 and
line 105 slice with an upper bound, which need only be within the capacity. `none` is a Go panic. -/
def loadArrays (w slack : Nat) : Nat → Nat → Bytes → (Nat → Option (List Int)) → Int →
    Option ((Nat → Option (List Int)) × Int)
  | 0, _, _, m, tally => some (m, tally)
  | n+1, i, b, m, tally =>
    if b.length ≤ slack then none
    else
      match VarInt.fromBytes b with
      | none => none
      | some (size, used) =>
        if size < 0 then none
        else
          match loadElems w size.toNat (b.drop used) with
          | none => none
          | some (arr, rest) => loadArrays w slack n (i + 1) rest (setKey m i arr) (tally + size)

/-- intarrayarray/intarrayarray.go:81-114 `LoadFile` on an existing file with contents `b`. -/
def loadBytes (a : IAA) (b : Bytes) : Option IAA :=
  let slack := capacity b.length - b.length
  match loadArrays a.elementByteSize slack a.arrayCount 0 (b ++ List.replicate slack 0) (fun _ => none) 0 with
  | some (arrays, elementTally) => some { a with arrays, elementTally }
  | none => none

/-- intarrayarray/cachedintarraymapstore.go:43-62 `GetArray` on a store just opened (its cache is empty, so
line 44 writes nothing): the array and whether an error was returned; `none` = panic. -/
def readBack (c : Cfg) (fs : FS) (k : Nat) : Option (List Int × Bool) :=
  match fs.files (c.filePath k) with
  | none => some ([], true)
  | some b =>
    match loadBytes (IAA.new c.perFile c.elementByteSize) b with
    | none => none
    | some a => some (IAA.getArray a (k % c.perFile), false)

end Verif.TornFile
