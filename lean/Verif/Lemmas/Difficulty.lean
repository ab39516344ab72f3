import Verif.Model.Difficulty
import Mathlib.Algebra.Order.Field.Basic
import Mathlib.Algebra.Order.Floor.Ring
import Mathlib.Tactic.Linarith
import Mathlib.Tactic.NormNum
import Mathlib.Tactic.FieldSimp
import Mathlib.Tactic.Positivity
import Mathlib.Tactic.Ring

/-! # Rounding to 53 bits -/

namespace Verif.Difficulty

theorem roundEven_int (n : Int) : roundEven (n : Rat) = n := by
  simp [roundEven]

theorem roundEven_le (x : Rat) : roundEven x ≤ ⌊x⌋ + 1 := by
  unfold roundEven
  dsimp only
  split_ifs <;> omega

theorem le_roundEven (x : Rat) : ⌊x⌋ ≤ roundEven x := by
  unfold roundEven
  dsimp only
  split_ifs <;> omega

theorem roundEven_mono {x y : Rat} (h : x ≤ y) : roundEven x ≤ roundEven y := by
  have hf : ⌊x⌋ ≤ ⌊y⌋ := Int.floor_mono h
  rcases lt_or_eq_of_le hf with hlt | heq
  · have := roundEven_le x
    have := le_roundEven y
    omega
  · unfold roundEven
    dsimp only
    rw [heq]
    split_ifs with h1 h2 h3 h4 h5 h6 h7 h8 h9 <;> first | omega | (exfalso; linarith)

theorem roundEven_error (x : Rat) : |(roundEven x : Rat) - x| ≤ 1 / 2 := by
  have h1 := Int.floor_le x
  have h2 := Int.lt_floor_add_one x
  unfold roundEven
  dsimp only
  rw [abs_le]
  split_ifs <;> constructor <;> push_cast <;> linarith

theorem two_zpow_pos (k : Int) : (0 : Rat) < 2 ^ k := zpow_pos (by norm_num) _

theorem log_le {x : Rat} (hx : 0 < x) : (2 : Rat) ^ (Int.log 2 x) ≤ x := by
  have := Int.zpow_log_le_self (b := 2) (r := x) (by norm_num) hx
  simpa using this

theorem lt_log (x : Rat) : x < (2 : Rat) ^ (Int.log 2 x + 1) := by
  have := Int.lt_zpow_succ_log_self (b := 2) (by norm_num) x
  simpa using this

theorem log_unique {x : Rat} (hx : 0 < x) {e : Int} (h1 : (2 : Rat) ^ e ≤ x) (h2 : x < 2 ^ (e + 1)) :
    Int.log 2 x = e := by
  have a : e ≤ Int.log 2 x := (Int.zpow_le_iff_le_log (b := 2) (by norm_num) hx).mp (by simpa using h1)
  have b : Int.log 2 x < e + 1 := (Int.lt_zpow_iff_log_lt (b := 2) (by norm_num) hx).mp (by simpa using h2)
  omega

theorem log_scale {x : Rat} (hx : 0 < x) (k : Int) : Int.log 2 (x * 2 ^ k) = Int.log 2 x + k := by
  have hk := two_zpow_pos k
  apply log_unique (mul_pos hx hk)
  · rw [zpow_add₀ (by norm_num)]
    exact mul_le_mul_of_nonneg_right (log_le hx) hk.le
  · rw [show Int.log 2 x + k + 1 = (Int.log 2 x + 1) + k by ring, zpow_add₀ (by norm_num)]
    exact mul_lt_mul_of_pos_right (lt_log x) hk

/-- Rounding commutes with scaling by a power of two. -/
theorem fl_scale {x : Rat} (hx : 0 < x) (k : Int) : fl (x * 2 ^ k) = fl x * 2 ^ k := by
  have hk := two_zpow_pos k
  unfold fl
  rw [log_scale hx, show Int.log 2 x + k - 52 = (Int.log 2 x - 52) + k by ring, zpow_add₀ (by norm_num),
    mul_div_mul_right _ _ hk.ne', mul_assoc]

theorem zpow_split {a b : Int} (h : a ≤ b) : ∃ n : Nat, (2 : Rat) ^ b = n * 2 ^ a := by
  refine ⟨2 ^ (b - a).toNat, ?_⟩
  push_cast
  rw [← zpow_natCast, ← zpow_add₀ (by norm_num)]
  congr 1
  omega

/-- A number of at most 53 bits times a power of two is a float. -/
theorem fl_exact {n : Nat} (hn : n ≤ 2 ^ 53) (k : Int) : fl (n * 2 ^ k) = n * 2 ^ k := by
  rcases Nat.eq_zero_or_pos n with rfl | hpos
  · simp [fl, roundEven]
  have hn0 : (0 : Rat) < n := by exact_mod_cast hpos
  rw [fl_scale hn0]
  congr 1
  unfold fl
  set e := Int.log 2 (n : Rat) with he
  have hp := two_zpow_pos (e - 52)
  have hint : ∃ m : Int, (n : Rat) / 2 ^ (e - 52) = m := by
    by_cases h53 : n = 2 ^ 53
    · have : e = 53 := by
        rw [he, h53]
        apply log_unique (by norm_num) <;> norm_num
      refine ⟨2 ^ 52, ?_⟩
      rw [this, h53]
      norm_num
    · have hlt : (n : Rat) < 2 ^ (53 : Int) := by
        have : n < 2 ^ 53 := by omega
        rw [show (53 : Int) = ((53 : Nat) : Int) from rfl, zpow_natCast]
        exact_mod_cast this
      have hle : e - 52 ≤ 0 := by
        have := (Int.lt_zpow_iff_log_lt (b := 2) (x := 53) (by norm_num) hn0).mp (by simpa using hlt)
        omega
      obtain ⟨m, hm⟩ := zpow_split hle
      rw [zpow_zero] at hm
      refine ⟨(n * m : Nat), ?_⟩
      rw [div_eq_iff hp.ne']
      push_cast
      rw [mul_assoc, ← hm, mul_one]
  obtain ⟨m, hm⟩ := hint
  rw [hm, roundEven_int, ← hm, div_mul_cancel₀ _ hp.ne']

theorem scaled_bounds {x : Rat} (hx : 0 < x) :
    (2 ^ 52 : Int) ≤ roundEven (x / 2 ^ (Int.log 2 x - 52)) ∧
      roundEven (x / 2 ^ (Int.log 2 x - 52)) ≤ (2 ^ 53 : Int) := by
  have hp := two_zpow_pos (Int.log 2 x - 52)
  have h1 : (2 ^ 52 : Rat) ≤ x / 2 ^ (Int.log 2 x - 52) := by
    rw [le_div_iff₀ hp]
    calc (2 ^ 52 : Rat) * 2 ^ (Int.log 2 x - 52) = 2 ^ (Int.log 2 x) := by
          rw [← zpow_natCast, ← zpow_add₀ (by norm_num)]; congr 1; push_cast; ring
      _ ≤ x := log_le hx
  have h2 : x / 2 ^ (Int.log 2 x - 52) ≤ (2 ^ 53 : Rat) := by
    rw [div_le_iff₀ hp]
    refine le_of_lt ?_
    calc x < 2 ^ (Int.log 2 x + 1) := lt_log x
      _ = (2 ^ 53 : Rat) * 2 ^ (Int.log 2 x - 52) := by
          rw [← zpow_natCast, ← zpow_add₀ (by norm_num)]; congr 1; push_cast; ring
  constructor
  · have := roundEven_mono (x := ((2 ^ 52 : Int) : Rat)) (by push_cast; exact h1)
    rwa [roundEven_int] at this
  · have := roundEven_mono (y := ((2 ^ 53 : Int) : Rat)) (by push_cast; exact h2)
    rwa [roundEven_int] at this

theorem fl_form {x : Rat} (hx : 0 < x) : ∃ (n : Nat) (k : Int), 2 ^ 52 ≤ n ∧ n ≤ 2 ^ 53 ∧ fl x = n * 2 ^ k ∧
    k = Int.log 2 x - 52 := by
  obtain ⟨h1, h2⟩ := scaled_bounds hx
  refine ⟨(roundEven (x / 2 ^ (Int.log 2 x - 52))).toNat, Int.log 2 x - 52, by omega, by omega, ?_, rfl⟩
  unfold fl
  congr 1
  have : ((roundEven (x / 2 ^ (Int.log 2 x - 52))).toNat : Int) = roundEven (x / 2 ^ (Int.log 2 x - 52)) := by
    omega
  exact_mod_cast congrArg (Int.cast (R := Rat)) this.symm

theorem fl_idem {x : Rat} (hx : 0 < x) : fl (fl x) = fl x := by
  obtain ⟨n, k, _, hn, h, _⟩ := fl_form hx
  rw [h, fl_exact hn]

theorem fl_pos {x : Rat} (hx : 0 < x) : 0 < fl x := by
  obtain ⟨n, k, h1, _, h, _⟩ := fl_form hx
  rw [h]
  exact mul_pos (by exact_mod_cast (show 0 < n by omega)) (two_zpow_pos k)

theorem fl_error {x : Rat} (hx : 0 < x) : |fl x - x| ≤ x / 2 ^ 53 := by
  have hp := two_zpow_pos (Int.log 2 x - 52)
  have h1 := roundEven_error (x / 2 ^ (Int.log 2 x - 52))
  have h2 : fl x - x = (roundEven (x / 2 ^ (Int.log 2 x - 52)) - x / 2 ^ (Int.log 2 x - 52)) *
      2 ^ (Int.log 2 x - 52) := by
    rw [sub_mul, div_mul_cancel₀ _ hp.ne']; rfl
  rw [h2, abs_mul, abs_of_pos hp]
  have h4 : (2 : Rat) ^ (Int.log 2 x - 52) = 2 ^ (Int.log 2 x) / 2 ^ 52 := by
    rw [zpow_sub₀ (by norm_num)]; norm_num
  calc _ ≤ 1 / 2 * 2 ^ (Int.log 2 x - 52) := mul_le_mul_of_nonneg_right h1 hp.le
    _ = 2 ^ (Int.log 2 x) / 2 ^ 53 := by rw [h4]; ring
    _ ≤ x / 2 ^ 53 := by apply div_le_div_of_nonneg_right (log_le hx); norm_num

theorem fl_mono {x y : Rat} (hx : 0 < x) (h : x ≤ y) : fl x ≤ fl y := by
  have hy := lt_of_lt_of_le hx h
  have hlog : Int.log 2 x ≤ Int.log 2 y := Int.log_mono_right hx h
  rcases lt_or_eq_of_le hlog with hlt | heq
  · obtain ⟨n, k, _, hn, hfx, hk⟩ := fl_form hx
    obtain ⟨m, j, hm, _, hfy, hj⟩ := fl_form hy
    rw [hfx, hfy]
    have e1 : (n : Rat) * 2 ^ k ≤ 2 ^ (53 : Nat) * 2 ^ k :=
      mul_le_mul_of_nonneg_right (by exact_mod_cast hn) (two_zpow_pos k).le
    have e2 : (2 : Rat) ^ (52 : Nat) * 2 ^ j ≤ m * 2 ^ j :=
      mul_le_mul_of_nonneg_right (by exact_mod_cast hm) (two_zpow_pos j).le
    have e3 : (2 : Rat) ^ (53 : Nat) * 2 ^ k ≤ 2 ^ (52 : Nat) * 2 ^ j := by
      rw [← zpow_natCast, ← zpow_natCast, ← zpow_add₀ (by norm_num), ← zpow_add₀ (by norm_num)]
      exact zpow_le_zpow_right₀ (by norm_num) (by push_cast; omega)
    linarith
  · unfold fl
    rw [heq]
    have hp := two_zpow_pos (Int.log 2 y - 52)
    apply mul_le_mul_of_nonneg_right _ hp.le
    exact_mod_cast roundEven_mono (div_le_div_of_nonneg_right h hp.le)

end Verif.Difficulty
