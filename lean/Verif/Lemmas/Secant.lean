import Verif.Model.Bins
import Mathlib.Data.Int.Log
import Mathlib.Algebra.Order.Round
import Mathlib.Algebra.Order.Field.Basic
import Mathlib.Tactic.Linarith
import Mathlib.Tactic.NormNum
import Mathlib.Tactic.FieldSimp
import Mathlib.Tactic.Positivity
import Mathlib.Tactic.Ring

/-! # The secant estimate stays between its limits in float64 arithmetic -/

namespace Verif.Bins

/-- The standard model of float64 arithmetic in the normal range: the relative error of each rounding is at
most 2^-53. -/
def FloatOK (fl : Rat → Rat) : Prop := ∀ x, |fl x - x| ≤ |x| / 2 ^ 53

theorem FloatOK.upper {fl : Rat → Rat} (h : FloatOK fl) {x : Rat} (hx : 0 ≤ x) :
    fl x ≤ x * (1 + 1 / 2 ^ 53) := by
  have := abs_le.mp (h x)
  rw [abs_of_nonneg hx] at this
  linarith [this.2]

theorem FloatOK.lower {fl : Rat → Rat} (h : FloatOK fl) {x : Rat} (hx : 0 ≤ x) :
    x * (1 - 1 / 2 ^ 53) ≤ fl x := by
  have := abs_le.mp (h x)
  rw [abs_of_nonneg hx] at this
  linarith [this.1]

theorem FloatOK.nonneg {fl : Rat → Rat} (h : FloatOK fl) {x : Rat} (hx : 0 ≤ x) : 0 ≤ fl x :=
  le_trans (mul_nonneg hx (by norm_num)) (h.lower hx)

theorem FloatOK.pos {fl : Rat → Rat} (h : FloatOK fl) {x : Rat} (hx : 0 < x) : 0 < fl x :=
  lt_of_lt_of_le (mul_pos hx (by norm_num)) (h.lower hx.le)

/-- Round-to-nearest with a 53-bit significand and unbounded exponent satisfies the error model
(ties are rounded up here; any tie rule has the same error). -/
def fl53 (x : Rat) : Rat := round (x / 2 ^ (Int.log 2 |x| - 52)) * 2 ^ (Int.log 2 |x| - 52)

theorem floatOK_fl53 : FloatOK fl53 := by
  intro x
  unfold fl53
  by_cases hx : x = 0
  · subst hx; simp
  set e : Int := Int.log 2 |x| - 52 with he
  have hp : (0 : Rat) < 2 ^ e := zpow_pos (by norm_num) _
  have h1 : |(round (x / 2 ^ e) : Rat) - x / 2 ^ e| ≤ 1 / 2 := by
    rw [abs_sub_comm]; exact abs_sub_round _
  have h2 : (round (x / 2 ^ e) : Rat) * 2 ^ e - x = (round (x / 2 ^ e) - x / 2 ^ e) * 2 ^ e := by
    rw [sub_mul, div_mul_cancel₀ _ hp.ne']
  rw [h2, abs_mul, abs_of_pos hp]
  have h3 : (2 : Rat) ^ (Int.log 2 |x|) ≤ |x| := by
    have := Int.zpow_log_le_self (b := 2) (r := |x|) (by norm_num) (abs_pos.mpr hx)
    simpa using this
  have h4 : (2 : Rat) ^ e = 2 ^ (Int.log 2 |x|) / 2 ^ 52 := by
    rw [he, zpow_sub₀ (by norm_num)]
    norm_num
  calc |(round (x / 2 ^ e) : Rat) - x / 2 ^ e| * 2 ^ e ≤ 1 / 2 * 2 ^ e := mul_le_mul_of_nonneg_right h1 hp.le
    _ = 2 ^ (Int.log 2 |x|) / 2 ^ 53 := by rw [h4]; ring
    _ ≤ |x| / 2 ^ 53 := by apply div_le_div_of_nonneg_right h3; norm_num

/-- The float index before rounding. -/
theorem secant_bounds {fl : Rat → Rat} (h : FloatOK fl) {S B A C : Rat} (hS : 0 ≤ S) (hB : 0 < B) (hA : 0 < A)
    (hC0 : 0 ≤ C) (hCA : C ≤ A) (hend : S + B ≤ 2 ^ 48) :
    S - 1 / 2 < fl (fl S + fl (fl C / fl (fl A / fl B))) ∧
    fl (fl S + fl (fl C / fl (fl A / fl B))) < S + B + 1 / 2 ∧
    0 ≤ fl (fl S + fl (fl C / fl (fl A / fl B))) := by
  have fA := h.pos hA
  have fB := h.pos hB
  have hslope := h.pos (div_pos fA fB)
  have hq0 : 0 ≤ fl C / fl (fl A / fl B) := div_nonneg (h.nonneg hC0) hslope.le
  have hflq0 := h.nonneg hq0
  have hsum0 : 0 ≤ fl S + fl (fl C / fl (fl A / fl B)) := add_nonneg (h.nonneg hS) hflq0
  refine ⟨?_, ?_, h.nonneg hsum0⟩
  · have h1 := h.lower hsum0
    have h2 := h.lower hS
    have h3 : S * (1 - 1 / 2 ^ 53) * (1 - 1 / 2 ^ 53) ≤
        (fl S + fl (fl C / fl (fl A / fl B))) * (1 - 1 / 2 ^ 53) := by
      apply mul_le_mul_of_nonneg_right _ (by norm_num)
      linarith
    have h4 : S ≤ 2 ^ 48 := by linarith
    have h5 : S * (1 - 1 / 2 ^ 53) * (1 - 1 / 2 ^ 53) = S - S * (2 / 2 ^ 53 - 1 / 2 ^ 106) := by ring
    have h6 : S * (2 / 2 ^ 53 - 1 / 2 ^ 106) ≤ 2 ^ 48 * (2 / 2 ^ 53 - 1 / 2 ^ 106) :=
      mul_le_mul_of_nonneg_right h4 (by norm_num)
    have h7 : (2 : Rat) ^ 48 * (2 / 2 ^ 53 - 1 / 2 ^ 106) < 1 / 2 := by norm_num
    linarith
  · -- the slope is at least (A/B) (1-u)^2/(1+u)
    have s1 : A * (1 - 1 / 2 ^ 53) / (B * (1 + 1 / 2 ^ 53)) ≤ fl A / fl B :=
      div_le_div₀ fA.le (h.lower hA.le) fB (h.upper hB.le)
    have s2 : A * (1 - 1 / 2 ^ 53) / (B * (1 + 1 / 2 ^ 53)) * (1 - 1 / 2 ^ 53) ≤ fl (fl A / fl B) :=
      le_trans (mul_le_mul_of_nonneg_right s1 (by norm_num)) (h.lower (div_pos fA fB).le)
    have spos : 0 < A * (1 - 1 / 2 ^ 53) / (B * (1 + 1 / 2 ^ 53)) * (1 - 1 / 2 ^ 53) := by
      apply mul_pos _ (by norm_num)
      exact div_pos (mul_pos hA (by norm_num)) (mul_pos hB (by norm_num))
    have q1 : fl C / fl (fl A / fl B) ≤
        A * (1 + 1 / 2 ^ 53) / (A * (1 - 1 / 2 ^ 53) / (B * (1 + 1 / 2 ^ 53)) * (1 - 1 / 2 ^ 53)) := by
      apply div_le_div₀ (mul_nonneg hA.le (by norm_num)) _ spos s2
      exact le_trans (h.upper hC0) (mul_le_mul_of_nonneg_right hCA (by norm_num))
    have q2 : A * (1 + 1 / 2 ^ 53) / (A * (1 - 1 / 2 ^ 53) / (B * (1 + 1 / 2 ^ 53)) * (1 - 1 / 2 ^ 53)) =
        B * ((1 + 1 / 2 ^ 53) ^ 2 / (1 - 1 / 2 ^ 53) ^ 2 : Rat) := by
      have hu1 : (1 - 1 / 2 ^ 53 : Rat) ≠ 0 := by norm_num
      have hu2 : (1 + 1 / 2 ^ 53 : Rat) ≠ 0 := by norm_num
      generalize (1 - 1 / 2 ^ 53 : Rat) = a at *
      generalize (1 + 1 / 2 ^ 53 : Rat) = b at *
      have := hA.ne'
      have := hB.ne'
      field_simp
    rw [q2] at q1
    have q3 : fl (fl C / fl (fl A / fl B)) ≤
        B * ((1 + 1 / 2 ^ 53) ^ 2 / (1 - 1 / 2 ^ 53) ^ 2 : Rat) * (1 + 1 / 2 ^ 53) :=
      le_trans (h.upper hq0) (mul_le_mul_of_nonneg_right q1 (by norm_num))
    have q4 : B * ((1 + 1 / 2 ^ 53) ^ 2 / (1 - 1 / 2 ^ 53) ^ 2 : Rat) * (1 + 1 / 2 ^ 53) ≤
        B * (1 + 6 / 2 ^ 53) := by
      rw [mul_assoc]
      exact mul_le_mul_of_nonneg_left (by norm_num) hB.le
    have s3 : fl S ≤ S * (1 + 6 / 2 ^ 53) :=
      le_trans (h.upper hS) (mul_le_mul_of_nonneg_left (by norm_num) hS)
    have t1 : fl S + fl (fl C / fl (fl A / fl B)) ≤ (S + B) * (1 + 6 / 2 ^ 53) := by
      rw [add_mul]; linarith
    have t2 := le_trans (h.upper hsum0) (mul_le_mul_of_nonneg_right t1 (by norm_num : (0 : Rat) ≤ 1 + 1 / 2 ^ 53))
    have t3 : (S + B) * (1 + 6 / 2 ^ 53) * (1 + 1 / 2 ^ 53) = S + B + (S + B) * (7 / 2 ^ 53 + 6 / 2 ^ 106) := by ring
    have t4 : (S + B) * (7 / 2 ^ 53 + 6 / 2 ^ 106) ≤ 2 ^ 48 * (7 / 2 ^ 53 + 6 / 2 ^ 106) :=
      mul_le_mul_of_nonneg_right hend (by norm_num)
    have t5 : (2 : Rat) ^ 48 * (7 / 2 ^ 53 + 6 / 2 ^ 106) < 1 / 2 := by norm_num
    linarith

/-- The estimate, rounded to an integer, lies between the two limits (bins of up to 2^48 entries). -/
theorem secant_in_range {fl : Rat → Rat} (h : FloatOK fl) {s e snS snE sn : Nat} (hse : s < e) (he : e ≤ 2 ^ 48)
    (h1 : snS < sn) (h2 : sn < snE) : (s : Int) ≤ secant fl s e snS snE sn ∧ secant fl s e snS snE sn ≤ e := by
  unfold secant
  dsimp only
  have hB : (0 : Rat) < ((e - s : Nat) : Rat) := by exact_mod_cast (by omega : 0 < e - s)
  have hA : (0 : Rat) < ((snE - snS : Nat) : Rat) := by exact_mod_cast (by omega : 0 < snE - snS)
  have hC0 : (0 : Rat) ≤ ((sn - snS : Nat) : Rat) := by positivity
  have hCA : ((sn - snS : Nat) : Rat) ≤ ((snE - snS : Nat) : Rat) := by exact_mod_cast (by omega : sn - snS ≤ snE - snS)
  have hS : (0 : Rat) ≤ (s : Rat) := by positivity
  have hsum : (s : Rat) + ((e - s : Nat) : Rat) = (e : Rat) := by exact_mod_cast (by omega : s + (e - s) = e)
  have hend : (s : Rat) + ((e - s : Nat) : Rat) ≤ 2 ^ 48 := by rw [hsum]; exact_mod_cast he
  obtain ⟨b1, b2, b3⟩ := secant_bounds h hS hB hA hC0 hCA hend
  rw [hsum] at b2
  unfold goRound
  rw [if_pos b3]
  constructor
  · rw [Int.le_floor]
    push_cast
    linarith
  · apply Int.le_of_lt_add_one
    rw [Int.floor_lt]
    push_cast
    linarith

end Verif.Bins
