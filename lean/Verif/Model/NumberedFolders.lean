/-!
# Numbered folders

Models numberedfolders/numberedfolders.go. Strings are lists of characters. `math.Pow10` is exact for
the digit counts that fit an `int64` and is modelled by `10 ^ d`.
-/

namespace Verif.NumberedFolders

/-- One decimal digit as a character. -/
def digitChar (n : Nat) : Char := Char.ofNat (48 + n % 10)

/-- numberedfolders.go:26-35 `bigitStrings`: entry `i` of the table for `d`-digit "big digits", i.e.
`fmt.Sprintf("%0<d>d", i)` for `i < 10^d`: exactly `d` decimal digits. -/
def pad : Nat → Nat → List Char
  | 0, _ => []
  | d+1, i => pad d (i / 10) ++ [digitChar i]

/-- numberedfolders.go:60-80: the loop that gathers the big digits after the first one, least significant
first. (With `f = 0` the Go loop never ends for `num > 0`; here it stops. The theorems assume `0 < f`.) -/
def bigitsLoop (f num : Nat) : List (List Char) :=
  if _h : num = 0 ∨ f = 0 then []
  else pad f (num % 10 ^ f) :: bigitsLoop f (num / 10 ^ f)
termination_by num
decreasing_by
  have : 10 ^ 1 ≤ 10 ^ f := Nat.pow_le_pow_right (by decide) (by omega)
  exact Nat.div_lt_self (by omega) (by omega)

/-- numberedfolders.go:55-80: all big digits, least significant first. The loop is do..while, so there is
always at least one; the first one has `d` digits (or `f` if `d = 0`), the others `f` digits. -/
def bigits (d f num : Nat) : List (List Char) :=
  let d' := if d > 0 then d else f
  pad d' (num % 10 ^ d') :: bigitsLoop f (num / 10 ^ d')

/-- numberedfolders.go:43-50: the placeholder string. -/
def placeholder (d : Nat) : List Char := List.replicate d 'x'

/-- numberedfolders.go:82-93: the file name. -/
def filename (d f num : Nat) : List Char :=
  let bs := match bigits d f num with
    | [] => []
    | b0 :: rest => (if d > 0 then placeholder d else b0) :: rest
  bs.foldl (fun name bigit => bigit ++ name) []

/-- numberedfolders.go:109-120 (and 141-152): one folder name. -/
def folderName (ph0 phF : List Char) (bs : List (List Char)) (level : Nat) : List Char :=
  ((List.range bs.length).reverse.map fun sig =>
    if sig = 0 then ph0 else if sig ≤ level then phF else bs.getD sig []).flatten

/-- numberedfolders.go:102-126 and 134-158: nested folder names separated by the path separator. -/
def folders (d f num : Nat) : List Char :=
  let bs := bigits d f num
  if d = 0 then
    List.intercalate ['/'] ((List.range bs.length).reverse.map
      (folderName (placeholder f) (placeholder f) bs))
  else
    List.intercalate ['/'] (((List.range bs.length).reverse.filter (0 < ·)).map
      (folderName (placeholder d) (placeholder f) bs))

/-- Numeric value of a decimal digit character. -/
def digitVal (c : Char) : Nat := c.toNat - 48

/-- `strconv.Atoi` on a string of decimal digits (overflow cannot occur here: the value is at most `num`). -/
def atoi (s : List Char) : Nat := s.foldl (fun acc c => 10 * acc + digitVal c) 0

/-- numberedfolders.go:127 and 159-161: the file number. -/
def fileNum (d f num : Nat) : Nat :=
  if d = 0 then atoi (filename d f num)
  else atoi ((filename d f num).map fun c => if c = 'x' then '0' else c)

end Verif.NumberedFolders
