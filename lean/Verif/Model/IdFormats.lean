import Verif.Model.Bytes

/-!
# Ids in two to five bytes

Models weddingcake/types.go and weddingcakeback/types.go.

An id of a type of `t` bits (`uint16`, `uint32` or `uint64`) is a natural number below `2 ^ t`. `none` is a panic. A byte
slice is taken to panic past its length (Go: for `b[:2]`, past its capacity).
-/

namespace Verif.IdFormats

/-- The byte of an id at a shift: Go's `byte(id >> k)`. -/
def byteAt (id k : Nat) : UInt8 := UInt8.ofNat (id / 2 ^ k % 256)

/-- Replace the first bytes. -/
def over (d b : Bytes) : Option Bytes := if d.length ≤ b.length then some (d ++ b.drop d.length) else none

/-- weddingcake/types.go:31-35 `ID16` (`WriteID`): `PutUint16(b[:2], uint16(id))`. -/
def write16 (b : Bytes) (id : Nat) : Option Bytes := over [byteAt (id % 2 ^ 16) 0, byteAt (id % 2 ^ 16) 8] b

/-- weddingcake/types.go:37-47 `ID24`. -/
def write24 (b : Bytes) (id : Nat) : Option Bytes :=
  let val := id % 2 ^ 32
  over [byteAt val 0, byteAt val 8, byteAt val 16] b

/-- weddingcake/types.go:52-56 `ID32`. -/
def write32 (b : Bytes) (id : Nat) : Option Bytes :=
  let val := id % 2 ^ 32
  over [byteAt val 0, byteAt val 8, byteAt val 16, byteAt val 24] b

/-- weddingcakeback/types.go:44-53 `ID16`, checked. The subtraction is of two ids, the second not greater. -/
def checked16 (b : Bytes) (id : Nat) : Option Bytes :=
  (write16 b id).bind fun b' => if id - id % 2 ^ 16 ≠ 0 then none else some b'

/-- weddingcakeback/types.go:56-82 `ID24`, checked. -/
def checked24 (b : Bytes) (id : Nat) : Option Bytes :=
  (write24 b id).bind fun b' =>
    if byteAt id 24 ≠ 0 then none
    else if byteAt id 32 ≠ 0 then none
    else if byteAt id 40 ≠ 0 then none
    else if byteAt id 48 ≠ 0 then none
    else if byteAt id 56 ≠ 0 then none
    else some b'

/-- weddingcakeback/types.go:85-94 `ID32`, checked. -/
def checked32 (b : Bytes) (id : Nat) : Option Bytes :=
  (write32 b id).bind fun b' => if id - id % 2 ^ 32 ≠ 0 then none else some b'

/-- weddingcakeback/types.go:97-116 `ID40`, checked. -/
def checked40 (b : Bytes) (id : Nat) : Option Bytes :=
  (over [byteAt id 0, byteAt id 8, byteAt id 16, byteAt id 24, byteAt id 32] b).bind fun b' =>
    if byteAt id 40 ≠ 0 then none
    else if byteAt id 48 ≠ 0 then none
    else if byteAt id 56 ≠ 0 then none
    else some b'

/-- `ReadID` of `ID16` in both packages: `T(Uint16(b[:2]))`. -/
def read16 (t : Nat) (b : Bytes) : Option Nat :=
  match b with
  | b0 :: b1 :: _ => some ((b0.toNat ||| b1.toNat * 2 ^ 8) % 2 ^ t)
  | _ => none

/-- `ReadID` of `ID24`. -/
def read24 (t : Nat) (b : Bytes) : Option Nat :=
  match b with
  | b0 :: b1 :: b2 :: _ => some ((b0.toNat ||| b1.toNat * 2 ^ 8 ||| b2.toNat * 2 ^ 16) % 2 ^ t)
  | _ => none

/-- `ReadID` of `ID32`. -/
def read32 (t : Nat) (b : Bytes) : Option Nat :=
  match b with
  | b0 :: b1 :: b2 :: b3 :: _ =>
    some ((b0.toNat ||| b1.toNat * 2 ^ 8 ||| b2.toNat * 2 ^ 16 ||| b3.toNat * 2 ^ 24) % 2 ^ t)
  | _ => none

/-- `ReadID` of `ID40` (weddingcakeback/types.go:117-120): every byte is converted first and shifted within `t` bits. -/
def read40 (t : Nat) (b : Bytes) : Option Nat :=
  match b with
  | b0 :: b1 :: b2 :: b3 :: b4 :: _ =>
    some (b0.toNat % 2 ^ t ||| b1.toNat * 2 ^ 8 % 2 ^ t ||| b2.toNat * 2 ^ 16 % 2 ^ t ||| b3.toNat * 2 ^ 24 % 2 ^ t |||
      b4.toNat * 2 ^ 32 % 2 ^ t)
  | _ => none

/-- The formats, by the number of bytes (`StorageBytes`). -/
inductive Format where
  | id16 | id24 | id32 | id40
deriving DecidableEq, Repr

/-- `StorageBytes`. -/
def Format.bytes : Format → Nat
  | .id16 => 2
  | .id24 => 3
  | .id32 => 4
  | .id40 => 5

/-- `WriteID` of weddingcakeback, which checks. -/
def checked : Format → Bytes → Nat → Option Bytes
  | .id16 => checked16
  | .id24 => checked24
  | .id32 => checked32
  | .id40 => checked40

/-- `WriteID` of weddingcake, which has no `ID40`. -/
def unchecked : Format → Bytes → Nat → Option Bytes
  | .id16 => write16
  | .id24 => write24
  | .id32 => write32
  | .id40 => fun _ _ => none

/-- `ReadID`. -/
def read : Format → Nat → Bytes → Option Nat
  | .id16 => read16
  | .id24 => read24
  | .id32 => read32
  | .id40 => read40

end Verif.IdFormats
