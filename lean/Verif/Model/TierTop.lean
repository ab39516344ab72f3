import Verif.Model.Bytes

/-!
# The top tier of the cake

Models weddingcakeback/tiertop.go, weddingcakeback/hashidconversions.go:18-29 and
weddingcakeback/tiertopcreator.go:32-58.

Simplifications.
* A hash handed to `AppendHash` is a slice of memory that belongs to the caller; it is named by a number, and `Memory`
  gives its present contents. The memory made by `Open` belongs to the tier and never changes.
* `Hashes.hsh` is the list of its hashes (wordfile/hashfile.go has its own model), `FirstPresentationIndex.bin` the
  number in it.
* `DonutForestWrite.Write` either succeeds or not, as told; when it succeeds its effect on this tier is that of
  `MakeEmptyAfterBaking`. What it writes below is not part of this model.
* Indices are whole numbers (`int64` in the program). `none` is a panic.
-/

namespace Verif.TierTop

/-- What the caller's slices hold at the moment. -/
abbrev Memory := Nat → Bytes

/-- An element of `theSlice`: the caller's slice itself (tiertop.go:196), or one made by `Open` (124). -/
inductive Cell where
  | caller (a : Nat)
  | own (h : Bytes)

/-- The contents of an element of `theSlice`. -/
def Cell.read (m : Memory) : Cell → Bytes
  | .caller a => m a
  | .own h => h

/-- tiertop.go:21-33. -/
structure Top where
  first : Int
  cells : List Cell
  map : Bytes → Option Nat
  file : List Bytes

/-- hashidconversions.go:24-26 `GlobalPiFromTierTopIndex`. -/
def globalOfTop (i offset : Int) : Int := offset + i

/-- hashidconversions.go:27-29 `TierTopIndexFromGlobalPi`. -/
def topOfGlobal (g offset : Int) : Int := g - offset

/-- hashidconversions.go:18-20 `GlobalPiWithinRange`. -/
def withinRange (g offset : Int) (count : Nat) : Bool := decide (g ≥ offset) && decide (g < offset + count)

/-- The assignment `theMap[h] = i`. -/
def setMap (map : Bytes → Option Nat) (h : Bytes) (i : Nat) : Bytes → Option Nat :=
  fun x => if x = h then some i else map x

/-- The loop at tiertop.go:118-125. -/
def fill : List Bytes → Nat → (Bytes → Option Nat) → (Bytes → Option Nat)
  | [], _, map => map
  | h :: hs, i, map => fill hs (i + 1) (setMap map h i)

/-- tiertop.go:74-127 `Open`, on the hashes and the first index found in the files. -/
def openTop (file : List Bytes) (first : Int) : Option Top :=
  if file.length > 65535 then none
  else some { first := first, cells := file.map .own, map := fill file 0 fun _ => none, file := file }

/-- tiertopcreator.go:32-58 `Create` and then `Open`. -/
def create (first : Int) : Option Top := openTop [] first

/-- tiertop.go:130-142 `TryIndexOfHash`; the inner `none` is 'not found'. -/
def tryIndexOfHash (t : Top) (h : Bytes) : Option (Option Int) :=
  if h.length ≠ 32 then none
  else
    match t.map h with
    | none => some none
    | some i => some (some (globalOfTop i t.first))

/-- tiertop.go:145-152 `TryGetHashAtIndex`; the inner `none` is 'not in this tier'. -/
def tryGetHashAtIndex (m : Memory) (t : Top) (g : Int) : Option (Option Bytes) :=
  if withinRange g t.first t.cells.length = false then some none
  else
    let i := topOfGlobal g (-t.first)
    if i < 0 then none
    else
      match t.cells[i.toNat]? with
      | none => none
      | some c => some (some (c.read m))

/-- tiertop.go:280-337 `MakeEmptyAfterBaking`. -/
def makeEmpty (t : Top) : Option Top := create (t.first + t.file.length)

/-- What `AppendHash` does: panics, returns an error, or returns an index. -/
inductive Appended where
  | panic
  | error
  | ok (t : Top) (g : Int)

/-- tiertop.go:180-216 `AppendHash` of the caller's slice `a`; `bakes` tells whether `Write` succeeds if called. -/
def append (bakes : Bool) (m : Memory) (t : Top) (a : Nat) : Appended :=
  let index := t.cells.length
  if index ≥ 65535 then .panic
  else
    let result := globalOfTop index t.first
    let h := m a
    if h.length ≠ 32 then .panic
    else
      let t' : Top := { t with map := setMap t.map h index, cells := t.cells ++ [.caller a], file := t.file ++ [h] }
      if index = 65534 then
        if bakes = true then
          match makeEmpty t' with
          | none => .panic
          | some t'' => .ok t'' result
        else .error
      else .ok t' result

end Verif.TierTop
