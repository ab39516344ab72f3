import Verif.Lemmas.Difficulty

/-!
# C87: the difficulty of a block
-/

namespace Verif.Difficulty

/-- Specification: the difficulty of a target, exactly. -/
def exact (t : Nat) : Rat := 0xffff * 2 ^ 208 / (t : Rat)

/-- Specification: Bitcoin Core's `GetDifficulty` (rpc/blockchain.cpp), which gives the "difficulty" of a
block in JSON, in float64 arithmetic: `0xffff / mantissa`, then multiplied or divided by 256 until the
exponent is 29. -/
def coreUp : Nat → Rat → Rat
  | 0, d => d
  | n + 1, d => coreUp n (fl (d * 256))

/-- Specification: the second loop of Bitcoin Core's `GetDifficulty`. -/
def coreDown : Nat → Rat → Rat
  | 0, d => d
  | n + 1, d => coreDown n (fl (d / 256))

/-- Specification: Bitcoin Core's `GetDifficulty`. -/
def core (nBits : Nat) : Rat :=
  let shift := nBits / 2 ^ 24
  coreDown (shift - 29) (coreUp (29 - shift) (fl (0xffff / ((nBits % 2 ^ 24 : Nat) : Rat))))

theorem genTarget_eq : genTarget = 0xffff * 2 ^ 208 := by decide +kernel

theorem mul256 {d : Rat} (hd : 0 < d) (hf : fl d = d) : fl (d * 256) = d * 2 ^ (8 : Int) := by
  rw [show (256 : Rat) = 2 ^ (8 : Int) by norm_num, fl_scale hd, hf]

theorem div256 {d : Rat} (hd : 0 < d) (hf : fl d = d) : fl (d / 256) = d * 2 ^ (-8 : Int) := by
  rw [show d / 256 = d * 2 ^ (-8 : Int) by norm_num; ring, fl_scale hd, hf]

theorem scaled_float {d : Rat} (hd : 0 < d) (hf : fl d = d) (k : Int) :
    0 < d * 2 ^ k ∧ fl (d * 2 ^ k) = d * 2 ^ k :=
  ⟨mul_pos hd (two_zpow_pos k), by rw [fl_scale hd, hf]⟩

theorem coreUp_eq : ∀ (n : Nat) {d : Rat}, 0 < d → fl d = d → coreUp n d = d * 2 ^ (8 * n : Int)
  | 0, d, _, _ => by simp [coreUp]
  | n + 1, d, hd, hf => by
    obtain ⟨h1, h2⟩ := scaled_float hd hf 8
    rw [coreUp, mul256 hd hf, coreUp_eq n h1 h2, mul_assoc, ← zpow_add₀ (by norm_num)]
    congr 2
    push_cast
    ring

theorem coreDown_eq : ∀ (n : Nat) {d : Rat}, 0 < d → fl d = d → coreDown n d = d * 2 ^ (-8 * n : Int)
  | 0, d, _, _ => by simp [coreDown]
  | n + 1, d, hd, hf => by
    obtain ⟨h1, h2⟩ := scaled_float hd hf (-8)
    rw [coreDown, div256 hd hf, coreDown_eq n h1 h2, mul_assoc, ← zpow_add₀ (by norm_num)]
    congr 2
    push_cast
    ring

/-- A target is a number of at most 24 bits times a power of two. -/
theorem target_form (nBits : Nat) : ∃ m k : Nat, m < 2 ^ 24 ∧ target nBits = m * 2 ^ k := by
  have hm : nBits % 2 ^ 24 < 2 ^ 24 := Nat.mod_lt _ (by decide)
  unfold target
  dsimp only
  split_ifs
  · exact ⟨_, _, hm, rfl⟩
  · exact ⟨_, 0, Nat.lt_of_le_of_lt (Nat.div_le_self _ _) hm, (Nat.mul_one _).symm⟩
  · exact ⟨_, 0, hm, (Nat.mul_one _).symm⟩

theorem ofBig_small {m k : Nat} (hm : m < 2 ^ 53) (h : m * 2 ^ k < 2 ^ 1024) :
    ofBig (m * 2 ^ k) = .fin ((m * 2 ^ k : Nat) : Rat) := by
  have hf : fl ((m * 2 ^ k : Nat) : Rat) = ((m * 2 ^ k : Nat) : Rat) := by
    have := fl_exact (n := m) (by omega) (k : Int)
    rw [zpow_natCast] at this
    push_cast
    exact this
  unfold ofBig ofRat
  rw [hf, if_neg]
  rw [ge_iff_le, not_le]
  exact_mod_cast h

theorem ofBig_large {m k : Nat} (hm : m < 2 ^ 53) (h : 2 ^ 1024 ≤ m * 2 ^ k) : ofBig (m * 2 ^ k) = .inf := by
  have hf : fl ((m * 2 ^ k : Nat) : Rat) = ((m * 2 ^ k : Nat) : Rat) := by
    have := fl_exact (n := m) (by omega) (k : Int)
    rw [zpow_natCast] at this
    push_cast
    exact this
  unfold ofBig ofRat
  rw [hf, if_pos]
  rw [ge_iff_le]
  exact_mod_cast h

theorem gen_float : ofBig genTarget = .fin (genTarget : Rat) := by
  rw [genTarget_eq]
  exact ofBig_small (by decide) (by decide +kernel)

theorem exact_pos {t : Nat} (h : t ≠ 0) : 0 < exact t := by
  unfold exact
  have : (0 : Rat) < t := by exact_mod_cast Nat.pos_of_ne_zero h
  exact div_pos (by norm_num) this

theorem exact_lt (t : Nat) (h : t ≠ 0) : exact t ≤ 2 ^ 224 := by
  unfold exact
  have h1 : (1 : Rat) ≤ t := by exact_mod_cast Nat.pos_of_ne_zero h
  rw [div_le_iff₀ (by linarith)]
  calc (0xffff * 2 ^ 208 : Rat) ≤ 2 ^ 224 := by norm_num
    _ = 2 ^ 224 * 1 := by ring
    _ ≤ 2 ^ 224 * t := mul_le_mul_of_nonneg_left h1 (by norm_num)

/-- The difficulty computed is the exact quotient rounded once. -/
theorem difficulty_eq (nBits : Nat) (h0 : target nBits ≠ 0) (h1 : target nBits < 2 ^ 1024) :
    difficulty nBits = .fin (fl (exact (target nBits))) := by
  obtain ⟨m, k, hm, ht⟩ := target_form nBits
  have ho : ofBig (target nBits) = .fin ((target nBits : Nat) : Rat) := by
    rw [ht] at h1 ⊢
    exact ofBig_small (by omega) h1
  have hne : ((target nBits : Nat) : Rat) ≠ 0 := by exact_mod_cast h0
  unfold difficulty
  rw [gen_float, ho]
  simp only [div]
  rw [if_neg hne, show (genTarget : Rat) = 0xffff * 2 ^ 208 by rw [genTarget_eq]; norm_num]
  change ofRat (exact (target nBits)) = _
  unfold ofRat
  rw [if_neg]
  rw [ge_iff_le, not_le]
  have hp := exact_pos h0
  have := abs_le.mp (fl_error hp)
  have h2 := exact_lt _ h0
  calc fl (exact (target nBits)) ≤ exact (target nBits) + exact (target nBits) / 2 ^ 53 := by linarith [this.2]
    _ ≤ 2 ^ 224 + 2 ^ 224 := by
      apply add_le_add h2
      exact le_trans (div_le_self hp.le (by norm_num)) h2
    _ = 2 ^ 225 := by norm_num
    _ < 2 ^ 1024 := pow_lt_pow_right₀ (by norm_num) (by norm_num)

/-- **C87.** The difficulty is as near to the true one as a float64 can be: the relative error is at most
2^-53. -/
theorem difficulty_accurate (nBits : Nat) (h0 : target nBits ≠ 0) (h1 : target nBits < 2 ^ 1024) :
    ∃ d, difficulty nBits = .fin d ∧ 0 < d ∧ |d - exact (target nBits)| ≤ exact (target nBits) / 2 ^ 53 :=
  ⟨_, difficulty_eq nBits h0 h1, fl_pos (exact_pos h0), fl_error (exact_pos h0)⟩

/-- **C87 (partial).** The difficulty computed from the header of a block is the very number Bitcoin Core
reports in JSON, for every compact target with exponent 3 or more, mantissa not zero and value below 2^1024.
Missing: the others, where they differ, see `huge_target_gives_zero` and `tiny_exponent_differs`. -/
theorem difficulty_is_cores_partial (nBits : Nat) (he : 3 ≤ nBits / 2 ^ 24) (hm : nBits % 2 ^ 24 ≠ 0)
    (h1 : target nBits < 2 ^ 1024) : difficulty nBits = .fin (core nBits) := by
  have ht : target nBits = nBits % 2 ^ 24 * 2 ^ (8 * (nBits / 2 ^ 24 - 3)) := by
    unfold target
    dsimp only
    by_cases h3 : nBits / 2 ^ 24 > 3
    · rw [if_pos h3]
    · have : nBits / 2 ^ 24 = 3 := by omega
      rw [if_neg h3, if_neg (show ¬ nBits / 2 ^ 24 < 3 by omega), this]
      exact (Nat.mul_one _).symm
  have h0 : target nBits ≠ 0 := by
    rw [ht]
    exact Nat.mul_ne_zero hm (Nat.pos_iff_ne_zero.mp (Nat.two_pow_pos _))
  rw [difficulty_eq nBits h0 h1]
  congr 1
  unfold core
  dsimp only
  set s := nBits / 2 ^ 24
  set m := nBits % 2 ^ 24
  have hmpos : (0 : Rat) < m := by exact_mod_cast Nat.pos_of_ne_zero hm
  have hq : (0 : Rat) < 0xffff / (m : Rat) := div_pos (by norm_num) hmpos
  have hfd := fl_pos hq
  have hfi := fl_idem hq
  rw [coreUp_eq _ hfd hfi]
  obtain ⟨g1, g2⟩ := scaled_float hfd hfi (8 * ((29 - s : Nat) : Int))
  rw [coreDown_eq _ g1 g2, mul_assoc, ← zpow_add₀ (by norm_num), ← fl_scale hq]
  congr 1
  unfold exact
  rw [ht]
  have e1 : (8 * ((29 - s : Nat) : Int) + -8 * ((s - 29 : Nat) : Int)) = 208 - ((8 * (s - 3) : Nat) : Int) := by
    omega
  rw [e1, zpow_sub₀ (by norm_num), zpow_natCast]
  rw [show ((2 : Rat) ^ (208 : Int)) = 2 ^ (208 : Nat) from zpow_natCast 2 208, Nat.cast_mul, Nat.cast_pow,
    Nat.cast_ofNat]
  generalize (2 : Rat) ^ 208 = g
  field_simp

/-- **C87.** A harder target never gives a smaller difficulty. -/
theorem harder_not_smaller (a b : Nat) (ha : target a ≠ 0) (hab : target a ≤ target b)
    (hb : target b < 2 ^ 1024) :
    ∃ x y, difficulty a = .fin x ∧ difficulty b = .fin y ∧ y ≤ x := by
  have hb0 : target b ≠ 0 := by omega
  refine ⟨_, _, difficulty_eq a ha (by omega), difficulty_eq b hb0 hb, ?_⟩
  apply fl_mono (exact_pos hb0)
  unfold exact
  apply div_le_div_of_nonneg_left (by norm_num)
  · exact_mod_cast Nat.pos_of_ne_zero ha
  · exact_mod_cast hab

theorem stored_eq (nBits : Nat) (h0 : target nBits ≠ 0) (h1 : target nBits < 2 ^ 1024) :
    stored nBits = toInt64 (.fin ⌊fl (exact (target nBits)) + 1 / 2⌋) := by
  unfold stored
  rw [difficulty_eq nBits h0 h1]
  rfl

theorem toInt64_int (n : Int) (h : n < 2 ^ 63) : toInt64 (.fin (n : Rat)) = n := by
  unfold toInt64
  dsimp only
  rw [if_pos (by exact_mod_cast h), Int.floor_intCast]

/-- **C87.** The integer stored is an `int64`. -/
theorem stored_fits (nBits : Nat) : -2 ^ 63 ≤ stored nBits ∧ stored nBits < 2 ^ 63 := by
  have key : ∀ x : F64, (∀ q, x = .fin q → 0 ≤ q) → -2 ^ 63 ≤ toInt64 x ∧ toInt64 x < 2 ^ 63 := by
    intro x hx
    cases x with
    | fin q =>
      unfold toInt64
      dsimp only
      split_ifs with h
      · have h1 : 0 ≤ ⌊q⌋ := Int.floor_nonneg.mpr (hx q rfl)
        have h2 : ⌊q⌋ < 2 ^ 63 := Int.floor_lt.mpr (by push_cast; exact h)
        constructor <;> omega
      · decide
    | inf => decide
    | nan => decide
  apply key
  intro q hq
  unfold mathRound at hq
  split at hq
  · rename_i d hd
    cases hq
    by_cases h0 : target nBits = 0
    · have : ofBig (target nBits) = .fin 0 := by
        rw [h0]
        have := ofBig_small (m := 0) (k := 0) (by decide) (by simp)
        simpa using this
      unfold difficulty at hd
      rw [gen_float, this] at hd
      simp only [div, if_true] at hd
      split at hd <;> cases hd
    · by_cases h1 : target nBits < 2 ^ 1024
      · rw [difficulty_eq nBits h0 h1] at hd
        cases hd
        have := fl_pos (exact_pos h0)
        exact_mod_cast Int.floor_nonneg.mpr (by linarith)
      · obtain ⟨m, k, hm, ht⟩ := target_form nBits
        have : ofBig (target nBits) = .inf := by
          rw [ht] at h1 ⊢
          exact ofBig_large (by omega) (Nat.not_lt.mp h1)
        unfold difficulty at hd
        rw [gen_float, this] at hd
        cases hd
        norm_num
  · rename_i hx
    exact absurd hq (hx q)

/-- **C87.** The integer stored differs from the true difficulty by at most one half and its last float64
digit, as long as the difficulty is below 2^62. -/
theorem stored_near (nBits : Nat) (h0 : target nBits ≠ 0) (h1 : target nBits < 2 ^ 1024)
    (hq : exact (target nBits) ≤ 2 ^ 62) :
    |(stored nBits : Rat) - exact (target nBits)| ≤ 1 / 2 + exact (target nBits) / 2 ^ 53 := by
  have hp := exact_pos h0
  have he := abs_le.mp (fl_error hp)
  rw [stored_eq nBits h0 h1]
  set q := exact (target nBits)
  have hlt : ⌊fl q + 1 / 2⌋ < (2 ^ 63 : Int) := by
    apply Int.floor_lt.mpr
    push_cast
    have : q / 2 ^ 53 ≤ q / 2 := by
      apply div_le_div_of_nonneg_left hp.le <;> norm_num
    linarith [he.2]
  rw [toInt64_int _ hlt, abs_le]
  have f1 := Int.floor_le (fl q + 1 / 2)
  have f2 := Int.lt_floor_add_one (fl q + 1 / 2)
  constructor <;> linarith [he.1, he.2]

/-- A quotient with a denominator below 2^24 that is below 2^28 is rounded to the same integer with and
without being rounded to a float first. -/
theorem round_agrees {q : Rat} (hp : 0 < q) (hq : q < 2 ^ 28) {m : Nat} (hm0 : 0 < m) (hm : m < 2 ^ 24)
    {z : Int} (hz : q * m = z) : ⌊fl q + 1 / 2⌋ = ⌊q + 1 / 2⌋ := by
  have he := abs_le.mp (fl_error hp)
  have hmpos : (0 : Rat) < m := by exact_mod_cast hm0
  have hm24 : (m : Rat) < 2 ^ 24 := by exact_mod_cast hm
  have herr : q / 2 ^ 53 < 1 / 2 ^ 25 := by
    rw [div_lt_div_iff₀ (by norm_num) (by norm_num)]
    calc q * 2 ^ 25 < 2 ^ 28 * 2 ^ 25 := mul_lt_mul_of_pos_right hq (by norm_num)
      _ = 1 * 2 ^ 53 := by norm_num
  set n := ⌊q + 1 / 2⌋ with hn
  have n1 := Int.floor_le (q + 1 / 2)
  have n2 := Int.lt_floor_add_one (q + 1 / 2)
  rw [← hn] at n1 n2
  -- below the next half integer by a multiple of 1/(2m)
  have up : q + 1 / 2 ≤ n + 1 - 1 / (2 * m) := by
    have h2m : (0 : Rat) < 2 * m := by linarith
    have hmul : (q + 1 / 2) * (2 * m) < (n + 1) * (2 * m) := mul_lt_mul_of_pos_right n2 h2m
    have hi : ((2 * z + m : Int) : Rat) < (((n + 1) * (2 * m) : Int) : Rat) := by
      push_cast
      calc (2 * (z : Rat) + m) = (q + 1 / 2) * (2 * m) := by rw [← hz]; ring
        _ < (n + 1) * (2 * m) := hmul
    have hi' : (2 * z + m : Int) + 1 ≤ (n + 1) * (2 * m) := by exact_mod_cast hi
    have hi2 : (((2 * z + m : Int) + 1 : Int) : Rat) ≤ (((n + 1) * (2 * m) : Int) : Rat) := by
      exact_mod_cast hi'
    push_cast at hi2
    have e1 : (q + 1 / 2) * (2 * m) = 2 * z + m := by rw [← hz]; ring
    have e2 : ((n : Rat) + 1 - 1 / (2 * m)) * (2 * m) = (n + 1) * (2 * m) - 1 := by field_simp
    by_contra hc
    rw [not_le] at hc
    have := mul_lt_mul_of_pos_right hc h2m
    rw [e1, e2] at this
    linarith
  have hstep : (1 : Rat) / 2 ^ 25 < 1 / (2 * m) := by
    apply one_div_lt_one_div_of_lt (by linarith)
    linarith
  -- rounding never crosses a half integer from above: it is a float
  have low : (n : Rat) ≤ fl q + 1 / 2 := by
    by_cases hn0 : n ≤ 0
    · have : (n : Rat) ≤ 0 := by exact_mod_cast hn0
      linarith [fl_pos hp]
    · have hx : ((2 * n - 1 : Int) : Rat) / 2 ≤ q := by push_cast; linarith
      have hxf : fl (((2 * n - 1 : Int) : Rat) / 2) = ((2 * n - 1 : Int) : Rat) / 2 := by
        have hb : n < 2 ^ 29 := by
          have : (n : Rat) < 2 ^ 29 := by linarith
          exact_mod_cast this
        have := fl_exact (n := (2 * n - 1).toNat) (by omega) (-1)
        have hc : (((2 * n - 1).toNat : Nat) : Rat) = ((2 * n - 1 : Int) : Rat) := by
          have : (((2 * n - 1).toNat : Nat) : Int) = 2 * n - 1 := by omega
          exact_mod_cast congrArg (Int.cast (R := Rat)) this
        rw [hc, show (2 : Rat) ^ (-1 : Int) = 1 / 2 by norm_num] at this
        rw [show ((2 * n - 1 : Int) : Rat) / 2 = ((2 * n - 1 : Int) : Rat) * (1 / 2) by ring]
        exact this
      have hpos : (0 : Rat) < ((2 * n - 1 : Int) : Rat) / 2 := by
        have : (0 : Int) < 2 * n - 1 := by omega
        have : (0 : Rat) < ((2 * n - 1 : Int) : Rat) := by exact_mod_cast this
        linarith
      have := fl_mono hpos hx
      rw [hxf] at this
      push_cast at this
      linarith
  exact Int.floor_eq_iff.mpr ⟨low, by linarith [he.2]⟩

/-- **C87 (partial).** The integer stored is the true difficulty rounded to the nearest integer, for every
difficulty below 2^28.  Missing: larger ones, where the two roundings can add up, see
`stored_can_be_off_by_one`. -/
theorem stored_is_nearest_partial (nBits : Nat) (h0 : target nBits ≠ 0) (h1 : target nBits < 2 ^ 1024)
    (hq : exact (target nBits) < 2 ^ 28) : stored nBits = ⌊exact (target nBits) + 1 / 2⌋ := by
  have hp := exact_pos h0
  have he := abs_le.mp (fl_error hp)
  have herr : exact (target nBits) / 2 ^ 53 ≤ exact (target nBits) / 2 := by
    apply div_le_div_of_nonneg_left hp.le <;> norm_num
  rw [stored_eq nBits h0 h1]
  have hlt : ⌊fl (exact (target nBits)) + 1 / 2⌋ < (2 ^ 63 : Int) := by
    apply Int.floor_lt.mpr
    push_cast
    linarith [he.2]
  rw [toInt64_int _ hlt]
  obtain ⟨m, k, hm, ht⟩ := target_form nBits
  have hmne : m ≠ 0 := by rintro rfl; simp at ht; exact h0 ht
  have hmpos : (0 : Rat) < m := by exact_mod_cast Nat.pos_of_ne_zero hmne
  have hex : exact (target nBits) = 0xffff * 2 ^ 208 / (m * 2 ^ k) := by
    rw [ht, exact, Nat.cast_mul, Nat.cast_pow, Nat.cast_ofNat]
  by_cases hk : k ≤ 208
  · refine round_agrees hp hq (Nat.pos_of_ne_zero hmne) hm (z := ((0xffff * 2 ^ (208 - k) : Nat) : Int)) ?_
    rw [hex, show (2 : Rat) ^ 208 = 2 ^ (208 - k) * 2 ^ k by rw [← pow_add]; congr 1; omega]
    rw [Int.cast_natCast, Nat.cast_mul, Nat.cast_pow, Nat.cast_ofNat, Nat.cast_ofNat]
    field_simp
  · have hex2 : exact (target nBits) = 0xffff / ((m * 2 ^ (k - 208) : Nat) : Rat) := by
      rw [hex, show (2 : Rat) ^ k = 2 ^ (k - 208) * 2 ^ 208 by rw [← pow_add]; congr 1; omega]
      rw [Nat.cast_mul, Nat.cast_pow, Nat.cast_ofNat]
      generalize (2 : Rat) ^ 208 = g at *
      have hg : g ≠ 0 := by
        rintro rfl
        rw [hex] at hp
        simp at hp
      field_simp
    have hD : 0 < m * 2 ^ (k - 208) := Nat.mul_pos (Nat.pos_of_ne_zero hmne) (Nat.two_pow_pos _)
    generalize m * 2 ^ (k - 208) = D at hex2 hD
    have hDpos : (0 : Rat) < D := by exact_mod_cast hD
    by_cases hD24 : D < 2 ^ 24
    · refine round_agrees hp hq hD hD24 (z := 0xffff) ?_
      rw [hex2]
      push_cast
      field_simp
    · have hDr : (2 : Rat) ^ 24 ≤ D := by exact_mod_cast (show 2 ^ 24 ≤ D by omega)
      have hsm : exact (target nBits) < 1 / 4 := by
        rw [hex2, div_lt_iff₀ hDpos]
        linarith
      have f1 : ⌊fl (exact (target nBits)) + 1 / 2⌋ = 0 :=
        Int.floor_eq_iff.mpr ⟨by push_cast; linarith [fl_pos hp], by push_cast; linarith [he.2]⟩
      have f2 : ⌊exact (target nBits) + 1 / 2⌋ = 0 :=
        Int.floor_eq_iff.mpr ⟨by push_cast; linarith, by push_cast; linarith⟩
      rw [f1, f2]

/-- **C87, the code disagrees.** With the compact target 0x17009b48 (difficulty about 4.6e14, three and a
half times that of today) the integer stored is not the nearest: the difficulty is rounded up to a half
first, and then up again. -/
theorem stored_can_be_off_by_one :
    stored 0x17009b48 = ⌊exact (target 0x17009b48) + 1 / 2⌋ + 1 := by
  decide +kernel

/-- **C87, the code disagrees.** A target of 2^1024 or more, which a compact form can give, has difficulty
zero, where Bitcoin Core computes a positive one. -/
theorem huge_target_gives_zero (nBits : Nat) (h : 2 ^ 1024 ≤ target nBits) :
    difficulty nBits = .fin 0 ∧ 0 < core nBits := by
  obtain ⟨m, k, hm, ht⟩ := target_form nBits
  have hi : ofBig (target nBits) = .inf := by
    rw [ht] at h ⊢
    exact ofBig_large (by omega) h
  refine ⟨?_, ?_⟩
  · unfold difficulty
    rw [gen_float, hi]
    rfl
  · have hmne : nBits % 2 ^ 24 ≠ 0 := by
      intro h0
      have : target nBits = 0 := by
        unfold target
        dsimp only
        rw [h0]
        simp
      rw [this] at h
      exact absurd h (Nat.not_le.mpr (Nat.two_pow_pos _))
    unfold core
    dsimp only
    have hq : (0 : Rat) < 0xffff / ((nBits % 2 ^ 24 : Nat) : Rat) :=
      div_pos (by norm_num) (by exact_mod_cast Nat.pos_of_ne_zero hmne)
    rw [coreUp_eq _ (fl_pos hq) (fl_idem hq)]
    obtain ⟨g1, g2⟩ := scaled_float (fl_pos hq) (fl_idem hq) (8 * ((29 - nBits / 2 ^ 24 : Nat) : Int))
    rw [coreDown_eq _ g1 g2]
    exact mul_pos g1 (two_zpow_pos _)

/-- **C87, the code disagrees.** With an exponent below 3 low bytes of the mantissa are dropped, which
Bitcoin Core does not. -/
theorem tiny_exponent_differs : ∃ nBits, target nBits ≠ 0 ∧ difficulty nBits ≠ .fin (core nBits) :=
  ⟨0x0201ffff, by decide +kernel, by decide +kernel⟩

/-- **C87, the code disagrees.** A difficulty of 2^63 or more is stored as the least integer, as is that of
a target of zero: so for every target of at most 2^160. -/
theorem very_hard_is_stored_as_least (nBits : Nat) (h : target nBits ≤ 2 ^ 160) :
    stored nBits = -2 ^ 63 := by
  by_cases h0 : target nBits = 0
  · have : ofBig (target nBits) = .fin 0 := by
      rw [h0]
      have := ofBig_small (m := 0) (k := 0) (by decide) (by simp)
      simpa using this
    unfold stored difficulty
    rw [gen_float, this]
    simp only [div, if_true]
    rw [if_neg]
    · rfl
    · rw [genTarget_eq]; norm_num
  · have hlt : target nBits < 2 ^ 1024 :=
      Nat.lt_of_le_of_lt h (Nat.pow_lt_pow_right (by decide) (by decide))
    rw [stored_eq nBits h0 hlt]
    have hx : (0xffff * 2 ^ 48 : Rat) ≤ exact (target nBits) := by
      unfold exact
      have h1 : (0 : Rat) < target nBits := by exact_mod_cast Nat.pos_of_ne_zero h0
      have h2 : (target nBits : Rat) ≤ 2 ^ 160 := by exact_mod_cast h
      rw [le_div_iff₀ h1]
      calc (0xffff * 2 ^ 48 : Rat) * target nBits ≤ 0xffff * 2 ^ 48 * 2 ^ 160 :=
            mul_le_mul_of_nonneg_left h2 (by norm_num)
        _ = 0xffff * 2 ^ 208 := by norm_num
    have hf := fl_mono (by norm_num) hx
    rw [show fl (0xffff * 2 ^ 48) = 0xffff * 2 ^ 48 by decide +kernel] at hf
    have hfl : ((2 ^ 63 : Int) : Rat) ≤ (⌊fl (exact (target nBits)) + 1 / 2⌋ : Int) := by
      have : (2 ^ 63 : Int) ≤ ⌊fl (exact (target nBits)) + 1 / 2⌋ := by
        apply Int.le_floor.mpr
        push_cast
        linarith
      exact_mod_cast this
    unfold toInt64
    dsimp only
    rw [if_neg]
    rw [not_lt]
    push_cast at hfl
    exact hfl

/-! ## Instances -/

/-- The first block, the one of the well-known example 0x1b0404cb, and one of 2024. -/
example : difficulty 0x1d00ffff = .fin 1 ∧ stored 0x1d00ffff = 1 ∧ stored 0x1b0404cb = 16307 ∧
    stored 0x17034219 = 86388558925171 := by
  decide +kernel

/-- The hypotheses hold for these. -/
example : 3 ≤ 0x17034219 / 2 ^ 24 ∧ 0x17034219 % 2 ^ 24 ≠ 0 ∧ target 0x17034219 ≠ 0 ∧
    target 0x17034219 < 2 ^ 1024 ∧ exact (target 0x17034219) ≤ 2 ^ 62 ∧
    exact (target 0x1b0404cb) < 2 ^ 28 ∧ target 0x17034219 ≤ target 0x1b0404cb := by
  decide +kernel

/-- Core's loops and the code, on a target easier than that of the first block too. -/
example : core 0x17034219 = fl (exact (target 0x17034219)) ∧
    difficulty 0x207fffff = .fin (core 0x207fffff) ∧ core 0x207fffff < 1 := by
  decide +kernel

/-- Targets that are huge, and tiny. -/
example : 2 ^ 1024 ≤ target 0xff7fffff ∧ target 0x1400ffff ≤ 2 ^ 160 ∧ target 0x1400ffff ≠ 0 ∧
    target 0x0100ffff = 0 := by
  decide +kernel

end Verif.Difficulty
