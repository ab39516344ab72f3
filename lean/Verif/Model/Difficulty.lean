import Mathlib.Data.Rat.Floor
import Mathlib.Data.Int.Log

/-!
# intrinsicobjects/binaryblock.go:74-94 `CalculateDifficulty` and the integer that is stored

float64 arithmetic is modelled exactly: rationals rounded to 53 bits, half to even, infinity from 2^1024 on.
Subnormal numbers are not modelled; none occur (every non-zero number here is above 2^-900, as proved).
-/

namespace Verif.Difficulty

/-- The nearest integer, halves to the even one (IEEE 754 roundTiesToEven). -/
def roundEven (x : Rat) : Int :=
  let f := ⌊x⌋
  let d := x - f
  if d < 1 / 2 then f
  else if 1 / 2 < d then f + 1
  else if f % 2 = 0 then f else f + 1

/-- The nearest number with a 53-bit significand, for `x ≥ 0`. -/
def fl (x : Rat) : Rat :=
  roundEven (x / 2 ^ (Int.log 2 x - 52)) * 2 ^ (Int.log 2 x - 52)

/-- A float64 that is not negative. -/
inductive F64 where
  | fin (x : Rat)
  | inf
  | nan
deriving Repr, DecidableEq

/-- A real number as float64. -/
def ofRat (x : Rat) : F64 := if fl x ≥ 2 ^ 1024 then .inf else .fin (fl x)

/-- `big.NewFloat(0).SetInt(n).Float64()` (binaryblock.go:88-89): `SetInt` gives the number the precision it
needs, so only `Float64` rounds. -/
def ofBig (n : Nat) : F64 := ofRat n

/-- float64 division. -/
def div : F64 → F64 → F64
  | .fin a, .fin b => if b = 0 then (if a = 0 then .nan else .inf) else ofRat (a / b)
  | .fin _, .inf => .fin 0
  | .inf, .fin _ => .inf
  | _, _ => .nan

/-- binaryblock.go:75-83: the target of a proof of work from its compact form. -/
def target (nBits : Nat) : Nat :=
  let exponent := nBits / 2 ^ 24
  let mantissa := nBits % 2 ^ 24
  if exponent > 3 then mantissa * 2 ^ (8 * (exponent - 3))
  else if exponent < 3 then mantissa / 2 ^ (8 * (3 - exponent))
  else mantissa

/-- binaryblock.go:86: the target of difficulty one. -/
def genTarget : Nat := 0x00000000ffff0000000000000000000000000000000000000000000000000000

/-- binaryblock.go:74-94 `CalculateDifficulty`. -/
def difficulty (nBits : Nat) : F64 := div (ofBig genTarget) (ofBig (target nBits))

/-- Go `math.Round` for a number that is not negative: halves upwards. -/
def mathRound : F64 → F64
  | .fin x => .fin ⌊x + 1 / 2⌋
  | x => x

/-- Go `int64(x)` on amd64: what does not fit gives the least integer (the language leaves it open). -/
def toInt64 : F64 → Int
  | .fin x => if x < 2 ^ 63 then ⌊x⌋ else -2 ^ 63
  | _ => -2 ^ 63

/-- intrinsicobjectschi/chain.go:135, intrinsicobjectscri/block.go:53: the integer stored for a block. -/
def stored (nBits : Nat) : Int := toInt64 (mathRound (difficulty nBits))

end Verif.Difficulty
