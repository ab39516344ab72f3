import Verif.Model.Bins
import Verif.Lemmas.Bytes
import Verif.Lemmas.Records
import Mathlib.Data.Nat.Prime.Basic
import Mathlib.Algebra.GCDMonoid.Nat

/-! # Properties of the hash split and of bin entries (C20, C21) -/

namespace Verif.Bins

theorem newParams_facts {bits digits bins room bsn : Nat} {p : Params}
    (h : newParams bits digits bins room bsn = some p) :
    p.numberOfBins = bins ∧ bins % 2 = 0 ∧ 2 ≤ bins ∧ bsn ≤ 8 ∧ p.bytesPerSortNum = bsn := by
  unfold newParams at h
  split at h
  · exact absurd h (by simp)
  split at h
  · exact absurd h (by simp)
  split at h
  · exact absurd h (by simp)
  · simp only [Option.some.injEq] at h
    subst h
    refine ⟨rfl, by omega, by omega, by omega, rfl⟩

theorem abbrOf_lt {h : Bytes} (hl : h.length = 32) : abbrOf h < 2 ^ 64 := by
  unfold abbrOf
  have := leDec_lt (h.take 8)
  rw [List.length_take, hl] at this
  simpa using this

theorem divider_pos {p : Params} (h2 : 2 ≤ p.numberOfBins) (hi : p.numberOfBins < 2 ^ 63) : 0 < p.divider := by
  unfold Params.divider
  exact Nat.div_pos (by omega) (by omega)

/-- The even bin counts for which no hash is assigned a bin outside the range. -/
theorem covers_iff {n d : Nat} (hn : n % 2 = 0) (h2 : 2 ≤ n) (hi : n < 2 ^ 63) (hd : d = 2 ^ 63 / (n / 2)) :
    (2 ^ 64 - 1) / d < n ↔ ∃ k, n = 2 ^ k := by
  obtain ⟨m, rfl⟩ : ∃ m, n = 2 * m := ⟨n / 2, by omega⟩
  have hm : 2 * m / 2 = m := by omega
  rw [hm] at hd
  have hm0 : 0 < m := by omega
  have hd0 : 0 < d := by rw [hd]; exact Nat.div_pos (by omega) hm0
  have hle : d * m ≤ 2 ^ 63 := by rw [hd]; exact Nat.div_mul_le_self _ _
  rw [Nat.div_lt_iff_lt_mul hd0]
  constructor
  · intro h
    have he : d * m = 2 ^ 63 := by
      have : 2 * m * d = 2 * (d * m) := by rw [Nat.mul_assoc, Nat.mul_comm m d]
      omega
    have hdvd : m ∣ 2 ^ 63 := ⟨d, by rw [← he, Nat.mul_comm]⟩
    obtain ⟨k, _, rfl⟩ := (Nat.dvd_prime_pow Nat.prime_two).mp hdvd
    exact ⟨k + 1, by rw [Nat.pow_succ, Nat.mul_comm]⟩
  · rintro ⟨k, hk⟩
    have hk1 : 1 ≤ k := by
      rcases Nat.eq_zero_or_pos k with h0 | h0
      · subst h0; omega
      · exact h0
    obtain ⟨j, rfl⟩ : ∃ j, k = j + 1 := ⟨k - 1, by omega⟩
    have hmj : m = 2 ^ j := by rw [Nat.pow_succ] at hk; omega
    have hj : j ≤ 63 := by
      by_contra hc
      have : 2 ^ 63 ≤ 2 ^ j := Nat.pow_le_pow_right (by decide) (by omega)
      omega
    have he : d * m = 2 ^ 63 := by
      rw [hd]
      exact Nat.div_mul_cancel (by rw [hmj]; exact Nat.pow_dvd_pow 2 hj)
    have : 2 * m * d = 2 * (d * m) := by rw [Nat.mul_assoc, Nat.mul_comm m d]
    omega

/-- **C20 (range).** For the parameter objects the constructor lets through (fewer than 2^63 bins), every
32-byte hash is assigned an existing bin if and only if the number of bins is a power of two. -/
theorem bin_in_range_iff {bits digits bins room bsn : Nat} {p : Params}
    (h : newParams bits digits bins room bsn = some p) (hi : bins < 2 ^ 63) :
    (∀ hash : Bytes, hash.length = 32 → binNum p hash < bins) ↔ ∃ k, bins = 2 ^ k := by
  obtain ⟨hb, heven, h2, -, -⟩ := newParams_facts h
  have hdef : p.divider = 2 ^ 63 / (bins / 2) := by rw [← hb]; rfl
  have hpos : 0 < p.divider := divider_pos (by omega) (by omega)
  rw [← covers_iff heven h2 hi hdef]
  constructor
  · intro hall
    have := hall (List.replicate 32 255) (by simp)
    have e : abbrOf (List.replicate 32 255) = 2 ^ 64 - 1 := by decide
    unfold binNum at this
    rwa [e] at this
  · intro hmax hash hl
    have := abbrOf_lt hl
    exact Nat.lt_of_le_of_lt (Nat.div_le_div_right (by omega)) hmax

example : ∃ p, newParams 32 2 65536 9 6 = some p ∧ ∀ hash : Bytes, hash.length = 32 → binNum p hash < 65536 :=
  ⟨_, rfl, (bin_in_range_iff (bits := 32) (digits := 2) (bins := 65536) (room := 9) (bsn := 6) rfl (by decide)).mpr ⟨16, by decide⟩⟩

example : ∃ p, newParams 32 2 6 9 8 = some p ∧ ¬ ∀ hash : Bytes, hash.length = 32 → binNum p hash < 6 := by
  refine ⟨_, rfl, ?_⟩
  intro h
  exact absurd (h (List.replicate 32 255) (by simp)) (by decide)

/-- **C20 (reconstruction).** Bin number, sort number and truncated hash reconstruct the hash, whatever the
number of bins. -/
theorem hash_reconstructed (p : Params) (hash : Bytes) (hl : hash.length = 32) :
    hashFrom (truncOf hash) (abbrFrom p (binNum p hash) (sortNum p hash)) = hash := by
  have ha := abbrOf_lt hl
  have hab : abbrFrom p (binNum p hash) (sortNum p hash) = abbrOf hash := by
    unfold abbrFrom binNum sortNum
    rw [Nat.mul_comm, Nat.div_add_mod]
    exact Nat.mod_eq_of_lt ha
  rw [hab]
  unfold hashFrom truncOf abbrOf
  have h8 : (hash.take 8).length = 8 := by rw [List.length_take, hl]; decide
  have := leEnc_leDec (hash.take 8)
  rw [h8] at this
  rw [this, List.take_take, Nat.min_self]
  have : (hash.drop 8).take 24 = hash.drop 8 := List.take_of_length_le (by rw [List.length_drop, hl])
  rw [this, List.take_append_drop]

/-- **C20 (injectivity).** Two different hashes never agree on bin number, sort number and truncated hash. -/
theorem split_injective {p : Params} {a b : Bytes} (ha : a.length = 32) (hb : b.length = 32) (h1 : binNum p a = binNum p b) (h2 : sortNum p a = sortNum p b)
    (h3 : truncOf a = truncOf b) : a = b := by
  rw [← hash_reconstructed p a ha, ← hash_reconstructed p b hb, h1, h2, h3]

example : ∃ p, newParams 32 2 65536 9 6 = some p ∧
    hashFrom (truncOf (List.replicate 32 7)) (abbrFrom p (binNum p (List.replicate 32 7))
      (sortNum p (List.replicate 32 7))) = List.replicate 32 7 :=
  ⟨_, rfl, hash_reconstructed _ _ (by decide)⟩

/-- The bytes set aside for a bin number have room for every assigned bin number (up to 2^56 bins). -/
theorem bin_num_fits_word {bits digits bins room bsn : Nat} {p : Params}
    (h : newParams bits digits bins room bsn = some p) (hi : bins ≤ 2 ^ 56) {k : Nat} (hk : bins = 2 ^ k)
    (hash : Bytes) (hl : hash.length = 32) :
    binNum p hash < 256 ^ p.bytesRoomForBinNum ∧ 1 ≤ p.bytesRoomForBinNum ∧ p.bytesRoomForBinNum ≤ 7 := by
  obtain ⟨hb, heven, h2, -, -⟩ := newParams_facts h
  have hr := (bin_in_range_iff h (by omega)).mpr ⟨k, hk⟩ hash hl
  unfold Params.bytesRoomForBinNum
  rw [hb]
  cases hf : (List.range 8).find? fun b => decide (bins ≤ 2 ^ (8 * b)) with
  | none =>
    rw [List.find?_eq_none] at hf
    have := hf 7 (by decide)
    simp at this
    omega
  | some b =>
    have hb1 := List.find?_some hf
    have hb2 := List.mem_of_find?_eq_some hf
    simp only [decide_eq_true_eq] at hb1
    simp only [List.mem_range] at hb2
    simp only [Option.getD_some]
    have : (256 : Nat) ^ b = 2 ^ (8 * b) := by rw [Nat.pow_mul]
    refine ⟨by omega, ?_, by omega⟩
    rcases Nat.eq_zero_or_pos b with h0 | h0
    · subst h0; simp at hb1; omega
    · exact h0

example : ∃ p, newParams 32 2 65536 9 6 = some p ∧
    binNum p (List.replicate 32 255) < 256 ^ p.bytesRoomForBinNum :=
  ⟨_, rfl, (bin_num_fits_word (bits := 32) (digits := 2) (bins := 65536) (room := 9) (bsn := 6) rfl (by decide) (k := 16) (by decide) _ (by decide)).1⟩

/-! ## Bin entries -/

theorem any_zeros_iff {w n : Nat} (hw : w ≤ 8) :
    (((leEnc 8 n).drop w).any (· ≠ 0) = false) ↔ n % 2 ^ 64 < 256 ^ w := by
  have hsplit : leDec (leEnc 8 n) = leDec ((leEnc 8 n).take w) + 256 ^ w * leDec ((leEnc 8 n).drop w) := by
    conv => lhs; rw [← List.take_append_drop w (leEnc 8 n)]
    rw [leDec_append]
    congr 3
    rw [List.length_take, leEnc_length]; omega
  have hlt := leDec_lt ((leEnc 8 n).take w)
  rw [List.length_take, leEnc_length, Nat.min_eq_left hw] at hlt
  rw [leDec_leEnc] at hsplit
  have e64 : (256 : Nat) ^ 8 = 2 ^ 64 := by decide
  rw [e64] at hsplit
  constructor
  · intro h
    have hz : (leEnc 8 n).drop w = zeros (8 - w) := by
      apply List.eq_replicate_iff.mpr
      refine ⟨by simp, ?_⟩
      intro x hx
      by_contra hne
      have : ((leEnc 8 n).drop w).any (· ≠ 0) = true := List.any_eq_true.mpr ⟨x, hx, by simpa using hne⟩
      rw [h] at this
      exact absurd this (by simp)
    rw [hz, leDec_zeros] at hsplit
    omega
  · intro h
    have hz : leDec ((leEnc 8 n).drop w) = 0 := by
      by_contra hne
      have : 256 ^ w * 1 ≤ 256 ^ w * leDec ((leEnc 8 n).drop w) := Nat.mul_le_mul_left _ (by omega)
      omega
    have : (leEnc 8 n).drop w = zeros (8 - w) := by
      apply leDec_injective
      · simp
      · rw [hz, leDec_zeros]
    rw [this]
    rw [List.any_eq_false]
    intro x hx
    have := List.eq_of_mem_replicate hx
    simp [this]

/-- Closed form of an entry. -/
theorem encEntry_eq {p : Params} (h1 : p.bytesPerHashIndex ≤ 8) (h2 : p.bytesPerSortNum ≤ 8) {t : Bytes}
    (ht : t.length = 24) {hi sn : Nat} (hhi : hi < 256 ^ p.bytesPerHashIndex) (hsn : sn < 256 ^ p.bytesPerSortNum) :
    encEntry p t hi sn = some (t ++ leEnc p.bytesPerHashIndex hi ++ leEnc p.bytesPerSortNum sn) := by
  have hm : ∀ w n : Nat, w ≤ 8 → n < 256 ^ w → n % 2 ^ 64 < 256 ^ w :=
    fun w n _ h => Nat.lt_of_le_of_lt (Nat.mod_le _ _) h
  unfold encEntry
  rw [if_neg (by omega), (any_zeros_iff h1).mpr (hm _ _ h1 hhi), (any_zeros_iff h2).mpr (hm _ _ h2 hsn)]
  simp only [Bool.false_eq_true, if_false]
  rw [leEnc_take h1, leEnc_take h2, List.take_of_length_le (by omega)]

/-- The three fields of an entry in closed form. -/
theorem fields_eq {p : Params} {t : Bytes} (ht : t.length = 24) {hi sn : Nat}
    (hhi : hi < 256 ^ p.bytesPerHashIndex) (hsn : sn < 256 ^ p.bytesPerSortNum) :
    entTrunc (t ++ leEnc p.bytesPerHashIndex hi ++ leEnc p.bytesPerSortNum sn) = t ∧
    entIndex p (t ++ leEnc p.bytesPerHashIndex hi ++ leEnc p.bytesPerSortNum sn) = hi ∧
    entSort p (t ++ leEnc p.bytesPerHashIndex hi ++ leEnc p.bytesPerSortNum sn) = sn ∧
    (t ++ leEnc p.bytesPerHashIndex hi ++ leEnc p.bytesPerSortNum sn).length = p.entrySize := by
  refine ⟨?_, ?_, ?_, ?_⟩
  · unfold entTrunc
    rw [List.append_assoc, ← ht, List.take_left]
  · unfold entIndex slice
    rw [List.append_assoc, ← ht, List.drop_left]
    have := List.take_left (l₁ := leEnc p.bytesPerHashIndex hi) (l₂ := leEnc p.bytesPerSortNum sn)
    rw [leEnc_length] at this
    rw [this, leDec_leEnc_of_lt hhi]
  · unfold entSort slice
    have e : 24 + p.bytesPerHashIndex = (t ++ leEnc p.bytesPerHashIndex hi).length := by simp [ht]
    rw [e, List.drop_left, List.take_of_length_le (by simp), leDec_leEnc_of_lt hsn]
  · simp [Params.entrySize, ht]; omega

/-- **C21.** Widths of at most eight bytes: writing an entry succeeds exactly when both numbers (uint64s) fit
their widths; the entry then has the configured size and every field reads back. -/
theorem entry_roundtrip {p : Params} (h1 : p.bytesPerHashIndex ≤ 8) (h2 : p.bytesPerSortNum ≤ 8) {t : Bytes}
    (ht : t.length = 24) {hi sn : Nat} (bhi : hi < 2 ^ 64) (bsn : sn < 2 ^ 64) :
    (hi < 256 ^ p.bytesPerHashIndex ∧ sn < 256 ^ p.bytesPerSortNum →
      ∃ e, encEntry p t hi sn = some e ∧ e.length = p.entrySize ∧ entTrunc e = t ∧ entIndex p e = hi ∧
        entSort p e = sn) ∧
    (¬ (hi < 256 ^ p.bytesPerHashIndex ∧ sn < 256 ^ p.bytesPerSortNum) → encEntry p t hi sn = none) := by
  constructor
  · rintro ⟨a, b⟩
    obtain ⟨f1, f2, f3, f4⟩ := fields_eq (p := p) ht a b
    exact ⟨_, encEntry_eq h1 h2 ht a b, f4, f1, f2, f3⟩
  · intro hnot
    unfold encEntry
    rw [if_neg (by omega)]
    have key : ∀ w n : Nat, w ≤ 8 → n < 2 ^ 64 → ¬ n < 256 ^ w → ((leEnc 8 n).drop w).any (· ≠ 0) = true := by
      intro w n hw hn hnn
      cases hc : ((leEnc 8 n).drop w).any (· ≠ 0) with
      | true => rfl
      | false =>
        have := (any_zeros_iff hw).mp hc
        rw [Nat.mod_eq_of_lt hn] at this
        exact absurd this hnn
    by_cases ha : hi < 256 ^ p.bytesPerHashIndex
    · have hb : ¬ sn < 256 ^ p.bytesPerSortNum := fun hb => hnot ⟨ha, hb⟩
      rw [key _ _ h2 bsn hb]
      simp
    · rw [key _ _ h1 bhi ha]
      simp

example : ∃ p e, newParams 19 2 65536 9 6 = some p ∧ encEntry p (List.replicate 24 1) 524287 281474976710655 = some e ∧
    e.length = 33 ∧ entIndex p e = 524287 ∧ entSort p e = 281474976710655 ∧
    encEntry p (List.replicate 24 1) 16777216 0 = none := by
  refine ⟨_, _, rfl, rfl, ?_⟩
  decide +kernel

/-- The six ready-made parameter sets (sensibleparams.go:19-94). -/
def sensibleParams : List (Option Params) :=
  [newParams 32 2 16777216 236 5, newParams 31 2 16777216 101 5, newParams 31 2 65536 29 6,
   newParams 19 2 65536 9 6, newParams 18 2 65536 10 6, newParams 17 2 256 440 7]

/-- With each ready-made parameter set every hash gets an existing bin and its entry can be written,
as long as the hash index fits the index bits. -/
theorem sensible_params_never_panic :
    ∀ q ∈ sensibleParams, ∃ p, q = some p ∧ ∀ (hash : Bytes) (hi : Nat), hash.length = 32 →
      hi < 2 ^ p.bitsPerHashIndex →
      binNum p hash < p.numberOfBins ∧ (encEntry p (truncOf hash) hi (sortNum p hash)).isSome := by
  have key : ∀ (bits digits bins room bsn k : Nat) (p : Params), newParams bits digits bins room bsn = some p →
      bins < 2 ^ 63 → bins = 2 ^ k → p.divider ≤ 256 ^ bsn → (bits - 1) / 8 + 1 ≤ 8 → p.bitsPerHashIndex = bits →
      2 ^ bits ≤ 256 ^ ((bits - 1) / 8 + 1) →
      ∀ (hash : Bytes) (hi : Nat), hash.length = 32 → hi < 2 ^ p.bitsPerHashIndex →
      binNum p hash < p.numberOfBins ∧ (encEntry p (truncOf hash) hi (sortNum p hash)).isSome := by
    intro bits digits bins room bsn k p h hi hk hd hw hbits hcap hash idx hl hidx
    obtain ⟨hb, -, h2, h8, hs⟩ := newParams_facts h
    have hr := (bin_in_range_iff h hi).mpr ⟨k, hk⟩ hash hl
    refine ⟨by omega, ?_⟩
    have hpos : 0 < p.divider := divider_pos (by omega) (by omega)
    have hbhi : p.bytesPerHashIndex = (bits - 1) / 8 + 1 := by unfold Params.bytesPerHashIndex; rw [hbits]
    have ht : (truncOf hash).length = 24 := by unfold truncOf; rw [List.length_take, List.length_drop, hl]; rfl
    rw [encEntry_eq (by omega) (by omega) ht (by rw [hbhi]; rw [hbits] at hidx; omega)
      (by rw [hs]; exact Nat.lt_of_lt_of_le (Nat.mod_lt _ hpos) hd)]
    rfl
  intro q hq
  simp only [sensibleParams, List.mem_cons, List.not_mem_nil, or_false] at hq
  rcases hq with rfl | rfl | rfl | rfl | rfl | rfl
  · exact ⟨_, rfl, key 32 2 16777216 236 5 24 _ rfl (by decide) (by decide) (by decide) (by decide) rfl (by decide)⟩
  · exact ⟨_, rfl, key 31 2 16777216 101 5 24 _ rfl (by decide) (by decide) (by decide) (by decide) rfl (by decide)⟩
  · exact ⟨_, rfl, key 31 2 65536 29 6 16 _ rfl (by decide) (by decide) (by decide) (by decide) rfl (by decide)⟩
  · exact ⟨_, rfl, key 19 2 65536 9 6 16 _ rfl (by decide) (by decide) (by decide) (by decide) rfl (by decide)⟩
  · exact ⟨_, rfl, key 18 2 65536 10 6 16 _ rfl (by decide) (by decide) (by decide) (by decide) rfl (by decide)⟩
  · exact ⟨_, rfl, key 17 2 256 440 7 8 _ rfl (by decide) (by decide) (by decide) (by decide) rfl (by decide)⟩

example : newParams 32 2 16777216 236 5 ∈ sensibleParams := by simp [sensibleParams]

end Verif.Bins
