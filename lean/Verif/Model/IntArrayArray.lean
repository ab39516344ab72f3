import Verif.Model.Records

/-!
# Variable-length integers and the array-of-arrays file

Models intarrayarray/varint.go and intarrayarray/intarrayarray.go.
-/

namespace Verif.VarInt

/-- intarrayarray/varint.go:35-50 `ToBytes`: the value `v` is the `int64` held in the `VarInt`. -/
def toBytes (v : Int) : Bytes :=
  let le := leEnc 8 (toU64 v)
  if v < 0xFD then le.take 1
  else if v ≤ 0xFFFF then 0xFD :: le.take 2
  else if v ≤ 0xFFFFFFFF then 0xFE :: le.take 4
  else 0xFF :: le

/-- intarrayarray/varint.go:18-33 `FromBytes`: the decoded value and the number of bytes consumed;
`none` is the Go slice-bounds panic when the buffer is too short. -/
def fromBytes (bs : Bytes) : Option (Int × Nat) :=
  match bs with
  | [] => none
  | b :: rest =>
    if b < 0xFD then some (b.toNat, 1)
    else if b = 0xFD then
      if rest.length < 2 then none else some (leDec (rest.take 2), 3)
    else if b = 0xFE then
      if rest.length < 4 then none else some (leDec (rest.take 4), 5)
    else
      if rest.length < 8 then none else some (ofU64 (leDec (rest.take 8)), 9)

end Verif.VarInt

namespace Verif.IAA

/-- intarrayarray/intarrayarray.go:8-13 `IntArrayArray`. The Go map is a partial function; keys are the
non-negative residues the callers use. -/
structure IAA where
  elementByteSize : Nat
  arrayCount : Nat
  elementTally : Int
  arrays : Nat → Option (List Int)

/-- intarrayarray/intarrayarray.go:15-22 `NewIntArrayArray`. -/
def new (arrayCount elementByteSize : Nat) : IAA :=
  { elementByteSize, arrayCount, elementTally := 0, arrays := fun _ => none }

/-- Go map assignment `m[k] = v`. -/
def setKey {β : Type} (m : Nat → Option β) (k : Nat) (v : β) : Nat → Option β :=
  fun j => if j = k then some v else m j

/-- intarrayarray/intarrayarray.go:24-32 `AppendToArray`. -/
def appendToArray (a : IAA) (key : Nat) (val : Int) : IAA :=
  let arrays := match a.arrays key with
    | some orig => setKey a.arrays key (orig ++ [val])
    | none => setKey a.arrays key [val]
  { a with arrays, elementTally := a.elementTally + 1 }

/-- intarrayarray/intarrayarray.go:34-41 `GetArray`. -/
def getArray (a : IAA) (key : Nat) : List Int :=
  match a.arrays key with
  | some orig => orig
  | none => []

/-- The loop body of `SaveFile` for one array (intarrayarray/intarrayarray.go:55-71): its length as a
variable-length integer, then the low `elementByteSize` bytes of each element. -/
def saveOne (w : Nat) (arr : List Int) : Bytes :=
  VarInt.toBytes arr.length ++ (arr.map fun v => (leEnc 8 (toU64 v)).take w).flatten

/-- intarrayarray/intarrayarray.go:43-79 `SaveFile`, up to the call of `os.WriteFile`: the bytes written.
The capacity computed for `make` only affects allocation and is not modelled. -/
def saveBytes (a : IAA) : Bytes :=
  ((List.range a.arrayCount).map fun i =>
    saveOne a.elementByteSize (match a.arrays i with | some o => o | none => [])).flatten

/-- intarrayarray/intarrayarray.go:102-109: read `n` elements of `w` bytes from the buffer. -/
def loadElems (w : Nat) : Nat → Bytes → Option (List Int × Bytes)
  | 0, b => some ([], b)
  | n+1, b =>
    if b.length < w then none
    else
      match loadElems w n (b.drop w) with
      | some (vs, rest) => some (ofU64 (leDec (b.take w)) :: vs, rest)
      | none => none

/-- intarrayarray/intarrayarray.go:94-112: read arrays `i, i+1, .., i+n-1`. `none` is a Go panic
(bounds, or negative length given to `make`). -/
def loadArrays (w : Nat) : Nat → Nat → Bytes → (Nat → Option (List Int)) → Int →
    Option ((Nat → Option (List Int)) × Int)
  | 0, _, _, m, tally => some (m, tally)
  | n+1, i, b, m, tally =>
    match VarInt.fromBytes b with
    | none => none
    | some (size, used) =>
      if size < 0 then none
      else
        match loadElems w size.toNat (b.drop used) with
        | none => none
        | some (arr, rest) => loadArrays w n (i + 1) rest (setKey m i arr) (tally + size)

/-- intarrayarray/intarrayarray.go:81-114 `LoadFile` on an existing file with contents `b`. -/
def loadBytes (a : IAA) (b : Bytes) : Option IAA :=
  match loadArrays a.elementByteSize a.arrayCount 0 b (fun _ => none) 0 with
  | some (arrays, elementTally) => some { a with arrays, elementTally }
  | none => none

/-- intarrayarray/intarrayarray.go:81-90 `LoadFile` when the file cannot be read: emptied, error returned. -/
def loadMissing (a : IAA) : IAA := { a with arrays := fun _ => none, elementTally := 0 }

end Verif.IAA
