import Verif.Model.Bytes

/-!
# Fixed-size records in a byte file (specification vocabulary)
-/

namespace Verif

/-- The `n` bytes starting at `o` (fewer if the file ends earlier). -/
def slice (f : Bytes) (o n : Nat) : Bytes := (f.drop o).take n

/-- A file viewed as consecutive records of `k` bytes. -/
def recs (k : Nat) (f : Bytes) : List Bytes :=
  (List.range (f.length / k)).map fun i => slice f (i * k) k

/-- Array write: put `a` at index `i`, filling any gap past the end with `pad`; nothing else changes. -/
def setExt {α : Type} (l : List α) (i : Nat) (a pad : α) : List α :=
  (l ++ List.replicate (i - l.length) pad).take i ++ a :: l.drop (i + 1)

/-- Go `int64(uint64)` conversion of a value below `2^64`. -/
def ofU64 (n : Nat) : Int := if n < 2 ^ 63 then (n : Int) else (n : Int) - 2 ^ 64

/-- Go `uint64(int64)` conversion. -/
def toU64 (v : Int) : Nat := (v % 2 ^ 64).toNat

end Verif
