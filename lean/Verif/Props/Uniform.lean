import Verif.Lemmas.Uniform
import Verif.Lemmas.Secant

/-! # C74, C75, C76: the uniform hash store

`recs 32 s.hashes` are the hashes of the file `Hashes.hsh`, one after the other. -/

namespace Verif.Uniform

open Verif.Bins (FloatOK)

/-! ## Looking up -/

theorem getHash {s : Store} {i : Nat} (h : i < s.hashes.length / 32) : getHashAtIndex s i = some (slice s.hashes (i * 32) 32) := by
  unfold getHashAtIndex readAt
  rw [if_pos (rec_in_range (by decide) h)]
  rfl

theorem scan_ok {s : Store} {h : Bytes} {l : List (Nat × Bytes)} (hl : ∀ e ∈ l, getHashAtIndex s e.1 = some e.2) :
    scan s h (l.map Prod.fst) = some ((l.find? fun e => e.2 == h).map Prod.fst) := by
  induction l with
  | nil => rfl
  | cons e l ih =>
    rw [List.map_cons, scan, hl e (by simp)]
    dsimp only
    rw [List.find?_cons]
    by_cases he : h = e.2
    · rw [if_pos he, show (e.2 == h) = true from by simp [he]]
      rfl
    · rw [if_neg he, show (e.2 == h) = false from by simp [Ne.symm he]]
      exact ih fun x hx => hl x (by simp [hx])

theorem scanFile_ok {s : Store} {h : Bytes} {l : List (Nat × Bytes)} (hl : ∀ e ∈ l, getHashAtIndex s e.1 = some e.2)
    (hi : ∀ e ∈ l, e.1 < 2 ^ 64) (x : Bytes) {n i : Nat} (hn : i + n = l.length) :
    scanFile s h ((l.map fun e => leEnc 8 e.1).flatten ++ x) i n =
      .ok (((l.drop i).find? fun e => e.2 == h).map Prod.fst) := by
  induction n generalizing i with
  | zero => rw [List.drop_eq_nil_of_le (by omega)]; rfl
  | succ n ih =>
    have hil : i < l.length := by omega
    have hm : l[i] ∈ l := List.getElem_mem hil
    have hfl := flatten_length (fun e : Nat × Bytes => leEnc 8 e.1) (fun e => leEnc_length 8 e.1) l
    have hsl : slice ((l.map fun e => leEnc 8 e.1).flatten ++ x) (i * 8) 8 = leEnc 8 l[i].1 := by
      rw [← slice_flatten hil]
      unfold slice
      rw [List.drop_append_of_le_length (by omega), List.take_append_of_le_length (by rw [List.length_drop]; omega)]
    unfold scanFile
    rw [if_neg (by rw [List.length_append]; omega),
      hsl, leDec_leEnc_of_lt (by have := hi _ hm; show _ < 256 ^ 8; omega), hl _ hm]
    dsimp only
    rw [List.drop_eq_getElem_cons hil, List.find?_cons]
    by_cases he : h = l[i].2
    · rw [if_pos he, show (l[i].2 == h) = true from by simp [he]]
      rfl
    · rw [if_neg he, show (l[i].2 == h) = false from by simp [Ne.symm he]]
      exact ih (by omega)

theorem binOf_first {s : Store} {h : Bytes} :
    ((binOf s (address s.divider h)).find? fun e => e.2 == h).map Prod.fst = (recs 32 s.hashes).idxOf? h := by
  have hrec : ∀ k, k < s.hashes.length / 32 → (recs 32 s.hashes)[k]? = some (slice s.hashes (k * 32) 32) := by
    intro k hk
    rw [recs_getElem?, if_pos hk]
  cases hf : (binOf s (address s.divider h)).find? fun e => e.2 == h with
  | some e =>
    have he : e.2 = h := by simpa using List.find?_some hf
    have hs := fill_sound (List.mem_of_find?_eq_some hf)
    rw [Option.map_some]
    symm
    rw [List.idxOf?_eq_some_iff]
    have hlt : e.1 < (recs 32 s.hashes).length := by rw [recs_length]; exact hs.1
    refine ⟨hlt, ?_, ?_⟩
    · have := hrec e.1 hs.1
      rw [List.getElem?_eq_getElem hlt] at this
      have h2 := Option.some.inj this
      rw [h2, ← he]
      exact hs.2.1
    · intro j hj
      have hjl : j < (recs 32 s.hashes).length := by omega
      have := hrec j (by rw [recs_length] at hjl; exact hjl)
      rw [List.getElem?_eq_getElem hjl] at this
      have h2 := Option.some.inj this
      have h3 := hs.2.2.2 j hj
      rw [he] at h3
      rw [h2]
      exact h3
  | none =>
    rw [Option.map_none]
    symm
    rw [List.idxOf?_eq_none_iff]
    intro hm
    obtain ⟨k, hk, he⟩ := List.mem_iff_getElem.mp hm
    have hk' : k < s.hashes.length / 32 := by rw [recs_length] at hk; exact hk
    have h2 := hrec k hk'
    rw [List.getElem?_eq_getElem hk] at h2
    have h3 := Option.some.inj h2
    have hc := fill_complete (d := s.divider) (f := fun k => slice s.hashes (k * 32) 32) hk'
    have hc : ∃ i, (i, slice s.hashes (k * 32) 32) ∈ binOf s (address s.divider (slice s.hashes (k * 32) 32)) := hc
    rw [← h3, he] at hc
    obtain ⟨i, hi⟩ := hc
    have := List.find?_eq_none.mp hf (i, h) hi
    simp at this

/-- The files have the bins `L`, perhaps with more behind in the overflow files. -/
structure Kept (s : Store) (big : Nat) (L : Nat → List (Nat × Bytes)) : Prop where
  bins : ∃ bs, s.binStarts = some bs ∧ bs.length = 832 * big ∧ ∀ k < big, slice bs (832 * k) 832 = (encBin (L k)).toBytes
  overflow : ∀ k < big, 102 < (L k).length →
    ∃ x, s.overflow (path s.digits k) = some ((((L k).drop 102).map fun e => leEnc 8 e.1).flatten ++ x)
  get : ∀ k < big, ∀ e ∈ L k, getHashAtIndex s e.1 = some e.2
  index : ∀ k < big, ∀ e ∈ L k, e.1 < 2 ^ 64
  length : ∀ k < big, (L k).length < 2 ^ 64

theorem lookup_kept {s : Store} {big : Nat} {L : Nat → List (Nat × Bytes)} (hs : Kept s big L) (hbig : 832 * big < 2 ^ 63)
    {h : Bytes} (ha : address s.divider h < big) :
    indexOfHash s h = .ok (((L (address s.divider h)).find? fun e => e.2 == h).map Prod.fst) := by
  obtain ⟨⟨bs, hbs, hbl, hbin⟩, hov, hget, hi, hLl⟩ := hs
  have hb := hbin _ ha
  have hov := hov _ ha
  have hget := hget _ ha
  have hi := hi _ ha
  have hLl := hLl _ ha
  generalize L (address s.divider h) = L at *
  obtain ⟨f1, f2⟩ := fromBytes_encBin hLl hi
  unfold indexOfHash
  dsimp only
  rw [Nat.mod_eq_of_lt (by omega), if_neg (by omega), hbs]
  dsimp only
  have hr : readAt bs (address s.divider h * 832) 832 = some (encBin L).toBytes := by
    unfold readAt
    rw [if_pos (by omega), ← hb, Nat.mul_comm]
    rfl
  rw [hr]
  dsimp only
  rw [f1, f2, scan_ok (fun e he => hget e (List.mem_of_mem_take he))]
  have hsplit : (L.find? fun e => e.2 == h) = ((L.take 102).find? fun e => e.2 == h).or ((L.drop 102).find? fun e => e.2 == h) := by
    rw [← List.find?_append, List.take_append_drop]
  cases h1 : (L.take 102).find? fun e => e.2 == h with
  | some e =>
    rw [hsplit, h1]
    rfl
  | none =>
    rw [hsplit, h1]
    dsimp only [Option.map_none, Option.none_or]
    by_cases h2 : L.length > 102
    · obtain ⟨x, hx⟩ := hov h2
      rw [if_pos h2, hx]
      dsimp only
      rw [scanFile_ok (fun e he => hget e (List.mem_of_mem_drop he)) (fun e he => hi e (List.mem_of_mem_drop he)) x
        (by rw [List.length_drop]; omega), List.drop_zero]
    · rw [if_neg h2, List.drop_eq_nil_of_le (by omega)]
      rfl

theorem kept_stored {s : Store} {big : Nat} (hs : Stored s big big) (hlen : s.hashes.length < 2 ^ 63) :
    Kept s big (binOf s) := by
  refine ⟨?_, ?_, ?_, ?_, ?_⟩
  · obtain ⟨bs, h1, h2, h3⟩ := hs.bins
    exact ⟨bs, h1, h2, fun k hk => h3 k hk hk⟩
  · intro k hk hl
    exact ⟨[], by rw [hs.overflow k hk hk hl, List.append_nil]⟩
  · intro k _ e he
    have := fill_sound he
    rw [getHash this.1]
    exact congrArg some this.2.1
  · intro k _ e he
    have := (fill_sound he).1
    omega
  · intro k _
    have h2 : (binOf s k).length ≤ s.hashes.length / 32 := fill_length _ _ _ _
    omega

theorem lookup_stored {s : Store} {big : Nat} (hs : Stored s big big) (hbig : 832 * big < 2 ^ 63)
    (hlen : s.hashes.length < 2 ^ 63) {h : Bytes} (ha : address s.divider h < big) :
    indexOfHash s h = .ok ((recs 32 s.hashes).idxOf? h) := by
  rw [lookup_kept (kept_stored hs hlen) hbig ha, binOf_first]

theorem index_stored {big grant : Nat} {s : Store} (hd : 0 < s.digits) (hm : s.hashes.length % 32 = 0) (hg : 832 ≤ grant) :
    ∃ s', indexTheHashes big grant s = .ok s' ∧ s'.divider = s.divider ∧ s'.digits = s.digits ∧ s'.hashes = s.hashes ∧
      s'.dirs = s.dirs ∧ Stored s' big big := by
  have hper : 0 < grant / 832 := by omega
  unfold indexTheHashes
  dsimp only
  rw [if_neg (by omega)]
  generalize grant / 832 = per at hper
  have h0 : Stored { s with binStarts := some (zeros (832 * big)) } big (0 * per) := by
    constructor
    · exact ⟨_, rfl, by simp, fun k hk => by omega⟩
    · intro k hk
      omega
  have hdm := Nat.div_add_mod big per
  have hml := Nat.mod_lt big hper
  have e1 : (0 + (1 + big / per)) * per = per + per * (big / per) := by
    rw [Nat.zero_add, Nat.add_mul, Nat.one_mul, Nat.mul_comm (big / per)]
  obtain ⟨s', f1, f2, f3, f4, f5, h1⟩ := passes_stored (s := { s with binStarts := some (zeros (832 * big)) }) hd hm h0
    (n := 1 + big / per) (by rw [e1]; omega) (by omega)
  rw [f1]
  refine ⟨s', rfl, f2, f3, f4, f5, ?_⟩
  rw [e1, Nat.min_eq_left (by omega)] at h1
  exact h1

/-- C74: after the hashes were indexed, looking up a hash gives the index of its first occurrence, or 'not found' exactly
if it is not there; this holds whatever memory was granted (at least one bin) and whatever files an earlier indexing left. It
holds for the hashes whose bin is one of the `big` bins that are made. -/
theorem lookup_first_partial {big grant : Nat} {s s' : Store} (hd : 0 < s.digits) (hg : 832 ≤ grant)
    (hbig : 832 * big < 2 ^ 63) (hlen : s.hashes.length < 2 ^ 63) (hok : indexTheHashes big grant s = .ok s') {h : Bytes}
    (ha : address s.divider h < big) : indexOfHash s' h = .ok ((recs 32 s.hashes).idxOf? h) := by
  have hm : s.hashes.length % 32 = 0 := by
    apply Classical.byContradiction
    intro hm
    unfold indexTheHashes at hok
    dsimp only at hok
    rw [if_neg (by omega), Nat.add_comm 1] at hok
    unfold passes onePass at hok
    dsimp only at hok
    rw [readIn_ragged _ _ _ hm] at hok
    simp at hok
  obtain ⟨s'', e1, e2, e3, e4, e5, h1⟩ := index_stored (big := big) hd hm hg
  rw [hok] at e1
  injection e1 with e1
  subst e1
  rw [← e2] at ha
  rw [← e4] at hlen ⊢
  exact lookup_stored h1 hbig hlen ha

/-- C74: indexing succeeds exactly for a file of whole hashes; otherwise it reports an error. -/
theorem indexing_succeeds {big grant : Nat} {s : Store} (hd : 0 < s.digits) (hg : 832 ≤ grant) :
    (s.hashes.length % 32 = 0 → ∃ s', indexTheHashes big grant s = .ok s' ∧ s'.hashes = s.hashes) ∧
    (s.hashes.length % 32 ≠ 0 → indexTheHashes big grant s = .err) := by
  constructor
  · intro hm
    obtain ⟨s', e1, _, _, e4, _⟩ := index_stored (big := big) hd hm hg
    exact ⟨s', e1, e4⟩
  · intro hm
    unfold indexTheHashes
    dsimp only
    rw [if_neg (by omega), Nat.add_comm 1]
    unfold passes onePass
    dsimp only
    rw [readIn_ragged _ _ _ hm]
    rfl

/-- C74: with less memory than one bin needs, the program panics. -/
theorem no_memory {big grant : Nat} (s : Store) (hg : grant < 832) : indexTheHashes big grant s = .panic := by
  unfold indexTheHashes
  dsimp only
  rw [if_pos (by omega)]

/-- C74: a hash whose bin is not made cannot be looked up: an error, even if it is in the file. -/
theorem beyond_last_bin {big grant : Nat} {s s' : Store} (hd : 0 < s.digits) (hm : s.hashes.length % 32 = 0) (hg : 832 ≤ grant)
    (hok : indexTheHashes big grant s = .ok s') {h : Bytes} (ha : big ≤ address s.divider h)
    (hw : address s.divider h * 832 < 2 ^ 64) : indexOfHash s' h = .err := by
  obtain ⟨s'', e1, e2, e3, e4, e5, h1⟩ := index_stored (big := big) hd hm hg
  rw [hok] at e1
  injection e1 with e1
  subst e1
  obtain ⟨bs, hbs, hbl, _⟩ := h1.bins
  unfold indexOfHash
  dsimp only
  rw [e2, Nat.mod_eq_of_lt hw, hbs]
  split
  · rfl
  · dsimp only
    unfold readAt
    rw [if_neg (by omega)]

/-! ## How many bins there are -/

theorem over_upper {K N q G s t : Rat} (hK : K = q * N) (hq : 0 < q) (hN : 0 < N) (hG : 0 < G) (h1 : q * (1 - s) ≤ G)
    (ht : 0 ≤ t) (hst : 1 ≤ (1 + t) * (1 - s)) : K / G ≤ N * (1 + t) := by
  rw [div_le_iff₀ hG]
  have h2 : N * (1 + t) * (q * (1 - s)) ≤ N * (1 + t) * G := mul_le_mul_of_nonneg_left h1 (by positivity)
  have h3 : q * N * 1 ≤ q * N * ((1 + t) * (1 - s)) := mul_le_mul_of_nonneg_left hst (by positivity)
  calc K = q * N * 1 := by rw [hK]; ring
    _ ≤ q * N * ((1 + t) * (1 - s)) := h3
    _ = N * (1 + t) * (q * (1 - s)) := by ring
    _ ≤ _ := h2

theorem over_lower {K N q G s t : Rat} (hK : K = q * N) (hq : 0 < q) (hN : 0 < N) (hG : 0 < G) (h1 : G ≤ q * (1 + s))
    (ht : t ≤ 1) (hst : (1 - t) * (1 + s) ≤ 1) : N * (1 - t) ≤ K / G := by
  rw [le_div_iff₀ hG]
  have h2 : N * (1 - t) * G ≤ N * (1 - t) * (q * (1 + s)) :=
    mul_le_mul_of_nonneg_left h1 (mul_nonneg hN.le (by linarith))
  have h3 : q * N * ((1 - t) * (1 + s)) ≤ q * N * 1 := mul_le_mul_of_nonneg_left hst (by positivity)
  calc N * (1 - t) * G ≤ N * (1 - t) * (q * (1 + s)) := h2
    _ = q * N * ((1 - t) * (1 + s)) := by ring
    _ ≤ q * N * 1 := h3
    _ = K := by rw [hK]; ring

theorem fl_between {fl : Rat → Rat} (hfl : FloatOK fl) {x a b : Rat} (hx : 0 ≤ x) (ha : a ≤ x) (hb : x ≤ b) :
    a * (1 - 1 / 2 ^ 53) ≤ fl x ∧ fl x ≤ b * (1 + 1 / 2 ^ 53) :=
  ⟨le_trans (mul_le_mul_of_nonneg_right ha (by norm_num)) (hfl.lower hx),
    le_trans (hfl.upper hx) (mul_le_mul_of_nonneg_right hb (by norm_num))⟩

/-- C74: the number of bins that are made is the number that was aimed at: one for every 75 hashes of the estimate. -/
theorem bins_made {fl : Rat → Rat} (hfl : FloatOK fl) {estimate : Nat} (h1 : 75 ≤ estimate) (h2 : estimate / 75 ≤ 2 ^ 30) :
    biggestPlusOne fl (dividerFor fl estimate) = estimate / 75 := by
  unfold dividerFor biggestPlusOne
  have hn : 1 ≤ estimate / 75 := by omega
  generalize estimate / 75 = n at hn h2
  have hN1 : (1 : Rat) ≤ n := by exact_mod_cast hn
  have hN2 : (n : Rat) ≤ 2 ^ 30 := by exact_mod_cast h2
  have hN : (0 : Rat) < n := by linarith
  generalize hNN : (n : Rat) = N at hN1 hN2 hN
  obtain ⟨q, hq⟩ : ∃ q : Rat, q = 2 ^ 64 / N := ⟨_, rfl⟩
  have hK : (2 : Rat) ^ 64 = q * N := by rw [hq]; field_simp
  have hq34 : (2 : Rat) ^ 34 ≤ q := by
    rw [hq, le_div_iff₀ hN]
    nlinarith
  have hq0 : 0 < q := by linarith [show (0 : Rat) < 2 ^ 34 by norm_num]
  -- the estimate as a float
  have hF := fl_between hfl hN.le (le_refl N) (le_refl N)
  have hF0 : 0 < fl N := hfl.pos hN
  generalize fl N = F at hF hF0
  have hx1 := over_upper (K := 2 ^ 64) (N := q) (q := N) (G := F) (s := 1 / 2 ^ 53) (t := 1 / 2 ^ 52) (by rw [hK]; ring) hN hq0 hF0
    hF.1 (by norm_num) (by norm_num)
  have hx2 := over_lower (K := 2 ^ 64) (N := q) (q := N) (G := F) (s := 1 / 2 ^ 53) (t := 1 / 2 ^ 53) (by rw [hK]; ring) hN hq0 hF0
    hF.2 (by norm_num) (by norm_num)
  -- the divider before and after dropping the fraction
  have hy := fl_between hfl (by positivity) hx2 hx1
  generalize fl (2 ^ 64 / F) = y at hy
  have hy1 : q * (1 - 1 / 2 ^ 51) ≤ y := by
    refine le_trans ?_ hy.1
    rw [mul_assoc]
    exact mul_le_mul_of_nonneg_left (by norm_num) hq0.le
  have hy2 : y ≤ q * (1 + 1 / 2 ^ 51) := by
    refine le_trans hy.2 ?_
    rw [mul_assoc]
    exact mul_le_mul_of_nonneg_left (by norm_num) hq0.le
  clear hx1 hx2 hF hy
  have hy0 : 0 ≤ y := le_trans (mul_nonneg hq0.le (by norm_num)) hy1
  have hd : ((⌊y⌋.toNat : Nat) : Rat) = ((⌊y⌋ : Int) : Rat) := by
    have : ((⌊y⌋.toNat : Nat) : Int) = ⌊y⌋ := Int.toNat_of_nonneg (Int.floor_nonneg.mpr hy0)
    exact_mod_cast congrArg (fun z : Int => (z : Rat)) this
  rw [hd]
  have hd1 := Int.floor_le y
  have hd2 := Int.lt_floor_add_one y
  generalize ((⌊y⌋ : Int) : Rat) = d at hd1 hd2
  obtain ⟨e, he⟩ : ∃ e : Rat, e = 1 / q := ⟨_, rfl⟩
  have hqe : q * e = 1 := by rw [he]; field_simp
  have he0 : 0 < e := by rw [he]; positivity
  have he1 : e ≤ 1 / 2 ^ 34 := by
    rw [he]
    exact one_div_le_one_div_of_le (by norm_num) hq34
  have hNe : N * e ≤ 1 / 2 ^ 4 := by
    have h64 : N * N ≤ 2 ^ 60 := by nlinarith
    have : N * e * 2 ^ 64 = N * N * (q * e) := by rw [hK]; ring
    rw [hqe] at this
    norm_num at this h64 ⊢
    linarith
  have hdlo : q * (1 - (1 / 2 ^ 51 + e)) ≤ d := by
    have : q * (1 - (1 / 2 ^ 51 + e)) = q * (1 - 1 / 2 ^ 51) - q * e := by ring
    rw [this, hqe]
    linarith
  have hd0 : 0 < d := lt_of_lt_of_le (mul_pos hq0 (by norm_num at he1 ⊢; linarith)) hdlo
  have hG := fl_between hfl hd0.le hdlo (le_trans hd1 hy2)
  have hG0 : 0 < fl d := hfl.pos hd0
  generalize fl d = G at hG hG0
  have hG1 : q * (1 - (1 / 2 ^ 50 + e)) ≤ G := by
    refine le_trans ?_ hG.1
    rw [mul_assoc]
    refine mul_le_mul_of_nonneg_left ?_ hq0.le
    norm_num
    linarith
  have hG2 : G ≤ q * (1 + 1 / 2 ^ 50) := by
    refine le_trans hG.2 ?_
    rw [mul_assoc]
    exact mul_le_mul_of_nonneg_left (by norm_num) hq0.le
  have hz1 := over_upper (K := 2 ^ 64) (t := 2 * (1 / 2 ^ 50 + e)) hK hq0 hN hG0 hG1 (by positivity) (by
    have : 1 / 2 ^ 50 + e ≤ (1 : Rat) / 2 := by norm_num at he1 ⊢; linarith
    have h3 : 0 ≤ 1 / 2 ^ 50 + e := by positivity
    nlinarith)
  have hz2 := over_lower (K := 2 ^ 64) (t := 1 / 2 ^ 50) hK hq0 hN hG0 hG2 (by norm_num) (by norm_num)
  have hz0 : 0 ≤ 2 ^ 64 / G := by positivity
  generalize (2 ^ 64 / G : Rat) = z at hz1 hz2 hz0
  have hz3 : z ≤ N + 1 / 4 := by
    have : N * (1 + 2 * (1 / 2 ^ 50 + e)) = N + 2 * (1 / 2 ^ 50) * N + 2 * (N * e) := by ring
    rw [this] at hz1
    norm_num at hz1 hN2 hNe ⊢
    linarith
  have hz4 : N - 1 / 16 ≤ z := by
    norm_num at hz2 hN2 ⊢
    linarith
  have hw := fl_between hfl hz0 hz4 hz3
  have hw0 : 0 ≤ fl z := hfl.nonneg hz0
  generalize fl z = w at hw hw0
  have hw1 : w ≤ N + 3 / 8 := by
    have := hw.2
    norm_num at this hN2 ⊢
    linarith
  have hw2 : N - 1 / 8 ≤ w := by
    have := hw.1
    norm_num at this hN2 ⊢
    linarith
  have hv := fl_between hfl (x := w + 1 / 2) (a := N + 3 / 8) (b := N + 7 / 8) (by linarith) (by linarith) (by linarith)
  generalize fl (w + 1 / 2) = v at hv
  have hfin : ⌊v⌋ = (n : Int) := by
    rw [Int.floor_eq_iff]
    have e1 : (((n : Int)) : Rat) = N := by rw [← hNN]; norm_cast
    rw [e1]
    obtain ⟨a, b⟩ := hv
    constructor
    · norm_num at a hN2 ⊢
      linarith
    · norm_num at b hN2 ⊢
      linarith
  rw [hfin]
  rfl

/-- The project's own estimate of a thousand million hashes. -/
theorem divider_billion {fl : Rat → Rat} (hfl : FloatOK fl) : dividerFor fl 1000000000 = 1383505840115 := by
  unfold dividerFor
  have hn : ((1000000000 / 75 : Nat) : Rat) = 13333333 := by norm_num
  rw [hn]
  have hF := fl_between hfl (x := 13333333) (by norm_num) (le_refl 13333333) (le_refl 13333333)
  have hF0 : 0 < fl 13333333 := hfl.pos (by norm_num)
  generalize fl 13333333 = F at hF hF0
  have hx1 := over_upper (K := 2 ^ 64) (N := 2 ^ 64 / 13333333) (q := 13333333) (G := F) (s := 1 / 2 ^ 53) (t := 1 / 2 ^ 52)
    (by norm_num) (by norm_num) (by norm_num) hF0 hF.1 (by norm_num) (by norm_num)
  have hx2 := over_lower (K := 2 ^ 64) (N := 2 ^ 64 / 13333333) (q := 13333333) (G := F) (s := 1 / 2 ^ 53) (t := 1 / 2 ^ 53)
    (by norm_num) (by norm_num) (by norm_num) hF0 hF.2 (by norm_num) (by norm_num)
  have hy := fl_between hfl (by positivity) hx2 hx1
  generalize fl (2 ^ 64 / F) = y at hy
  have : ⌊y⌋ = 1383505840115 := by
    rw [Int.floor_eq_iff]
    obtain ⟨a, b⟩ := hy
    norm_num at a b ⊢
    constructor <;> linarith
  rw [this]
  rfl

/-- C74: with the project's own estimate of a thousand million hashes, a hash of the file is found exactly if its first eight
bytes (as a little-endian number) are below 2^64 - 11498321. The others are in no bin, and looking them up gives an error. -/
theorem billion {fl : Rat → Rat} (hfl : FloatOK fl) {grant : Nat} {s s' : Store} (hdiv : s.divider = dividerFor fl 1000000000)
    (hd : 0 < s.digits) (hg : 832 ≤ grant) (hlen : s.hashes.length < 2 ^ 63) (hm : s.hashes.length % 32 = 0)
    (hok : indexTheHashes (biggestPlusOne fl s.divider) grant s = .ok s') {h : Bytes} (hh : h.length = 32) :
    indexOfHash s' h =
      if leDec (h.take 8) < 2 ^ 64 - 11498321 then .ok ((recs 32 s.hashes).idxOf? h) else .err := by
  have hb := bins_made hfl (estimate := 1000000000) (by decide) (by decide)
  rw [← hdiv] at hb
  rw [hb] at hok
  have hdv : s.divider = 1383505840115 := by rw [hdiv, divider_billion hfl]
  have hlt : leDec (h.take 8) < 2 ^ 64 := by
    have := leDec_lt (h.take 8)
    rw [List.length_take, hh] at this
    exact this
  split
  · refine lookup_first_partial hd hg (by decide) hlen hok ?_
    unfold address
    rw [hdv, Nat.div_lt_iff_lt_mul (by decide)]
    omega
  · refine beyond_last_bin hd hm hg hok ?_ ?_
    · unfold address
      rw [hdv, Nat.le_div_iff_mul_le (by decide)]
      omega
    · unfold address
      rw [hdv]
      have : leDec (h.take 8) / 1383505840115 ≤ 2 ^ 64 / 1383505840115 := Nat.div_le_div_right hlt.le
      omega

/-! ## Appending -/

theorem recs_append_get {s : Store} (hm : s.hashes.length % 32 = 0) {h : Bytes} (hh : h.length = 32) {i : Nat} {x : Bytes}
    (hx : getHashAtIndex s i = some x) : readAt (writeAt s.hashes (countHashes s * 32) h) (i * 32) 32 = some x := by
  unfold getHashAtIndex readAt at hx
  have hne : h ≠ [] := by intro h0; rw [h0] at hh; simp at hh
  split at hx
  next hi =>
    have hc : countHashes s * 32 = s.hashes.length := by unfold countHashes; omega
    unfold readAt
    rw [if_pos (by rw [writeAt_length hne]; omega), ← hx]
    congr 1
    exact slice_writeAt_before hne (by omega) (by omega)
  · simp at hx

theorem kept_append {s : Store} {big : Nat} {L : Nat → List (Nat × Bytes)} (hk : Kept s big L)
    (hm : s.hashes.length % 32 = 0) (hd : 0 < s.digits) {h : Bytes} (hh : h.length = 32) : Kept (appendHash s h).1 big L := by
  have hget : ∀ k < big, ∀ e ∈ L k, readAt (writeAt s.hashes (countHashes s * 32) h) (e.1 * 32) 32 = some e.2 :=
    fun k hkb e he => recs_append_get hm hh (hk.get k hkb e he)
  unfold appendHash
  dsimp only
  split
  · refine ⟨hk.bins, ?_, hget, hk.index, hk.length⟩
    intro k hkb hl
    obtain ⟨x, hx⟩ := hk.overflow k hkb hl
    dsimp only
    unfold setFile
    by_cases he : path s.digits k = path s.digits (address s.divider h)
    · rw [if_pos he, ← he, hx]
      exact ⟨x ++ (leEnc 8 (countHashes s) ++ h), by rw [Option.getD_some, List.append_assoc]⟩
    · rw [if_neg he]
      exact ⟨x, hx⟩
  · exact ⟨hk.bins, hk.overflow, hget, hk.index, hk.length⟩

theorem append_parts (s : Store) (h : Bytes) : (appendHash s h).1.divider = s.divider ∧ (appendHash s h).1.digits = s.digits ∧
    (appendHash s h).1.hashes = writeAt s.hashes (countHashes s * 32) h := by
  unfold appendHash
  dsimp only
  split <;> exact ⟨rfl, rfl, rfl⟩

/-- C75: hashes appended to an indexed store are never found: a lookup answers as if they had not been appended, although
they can be read back at their index. -/
theorem appended_not_found {big grant : Nat} {s s' : Store} (hd : 0 < s.digits) (hg : 832 ≤ grant)
    (hm : s.hashes.length % 32 = 0) (hbig : 832 * big < 2 ^ 63) (hlen : s.hashes.length < 2 ^ 63)
    (hok : indexTheHashes big grant s = .ok s') {hs : List Bytes} (hhs : ∀ x ∈ hs, x.length = 32) {h : Bytes}
    (ha : address s.divider h < big) :
    indexOfHash (hs.foldl (fun s x => (appendHash s x).1) s') h = .ok ((recs 32 s.hashes).idxOf? h) ∧
    recs 32 (hs.foldl (fun s x => (appendHash s x).1) s').hashes = recs 32 s.hashes ++ hs := by
  obtain ⟨s1, e1, e2, e3, e4, e5, h1⟩ := index_stored (big := big) hd hm hg
  rw [hok] at e1
  injection e1 with e1
  subst e1
  rw [← e3] at hd
  rw [← e4] at hm hlen ⊢
  rw [← e2] at ha
  have hb : (((binOf s' (address s'.divider h)).find? fun e => e.2 == h).map Prod.fst) = (recs 32 s'.hashes).idxOf? h :=
    binOf_first
  have hk := kept_stored h1 hlen
  rw [← hb]
  clear hb h1 hlen hok e2 e3 e4 e5
  generalize binOf s' = L at *
  induction hs generalizing s' with
  | nil => exact ⟨lookup_kept hk hbig ha, by simp⟩
  | cons x hs ih =>
    have hx := hhs x (by simp)
    have hne : x ≠ [] := by intro h0; rw [h0] at hx; simp at hx
    obtain ⟨p1, p2, p3⟩ := append_parts s' x
    have hc : countHashes s' * 32 = s'.hashes.length := by unfold countHashes; omega
    have hrec : recs 32 (appendHash s' x).1.hashes = recs 32 s'.hashes ++ [x] := by
      rw [p3, recs_writeAt (by decide) hm hx]
      unfold countHashes
      rw [← recs_length, setExt_end]
    obtain ⟨i1, i2⟩ := ih (s' := (appendHash s' x).1) (by rw [p2]; exact hd)
      (by rw [p3, writeAt_length hne]; omega) (fun y hy => hhs y (List.mem_cons_of_mem _ hy)) (by rw [p1]; exact ha)
      (kept_append hk hm hd hx)
    rw [List.foldl_cons]
    refine ⟨by rw [i1, p1], by rw [i2, hrec, List.append_assoc]; rfl⟩

/-- C75: so a new hash that was appended is not found, whatever `AppendHash` answered. -/
theorem new_hash_not_found {big grant : Nat} {s s' : Store} (hd : 0 < s.digits) (hg : 832 ≤ grant)
    (hm : s.hashes.length % 32 = 0) (hbig : 832 * big < 2 ^ 63) (hlen : s.hashes.length < 2 ^ 63)
    (hok : indexTheHashes big grant s = .ok s') {h : Bytes} (hh : h.length = 32) (hnew : h ∉ recs 32 s.hashes)
    (ha : address s.divider h < big) :
    indexOfHash (appendHash s' h).1 h = .ok none ∧
    getHashAtIndex (appendHash s' h).1 (s.hashes.length / 32) = some h := by
  obtain ⟨h1, h2⟩ := appended_not_found hd hg hm hbig hlen hok (hs := [h]) (by simp [hh]) ha
  rw [List.idxOf?_eq_none_iff.mpr hnew] at h1
  refine ⟨h1, ?_⟩
  replace h2 : recs 32 (appendHash s' h).1.hashes = recs 32 s.hashes ++ [h] := h2
  have hl := congrArg List.length h2
  rw [recs_length, List.length_append, recs_length, List.length_singleton] at hl
  rw [getHash (by omega)]
  have h3 := congrArg (fun l => l[s.hashes.length / 32]?) h2
  rw [recs_getElem?, if_pos (by omega), List.getElem?_append_right (by rw [recs_length]), recs_length, Nat.sub_self] at h3
  exact h3

/-- C75: a store that was created, but not indexed, cannot be opened. -/
theorem created_does_not_open (s : Store) : openFails (createHashStore s) = true := rfl

/-- C75: an appended hash is in the file even if `AppendHash` answers with an error. -/
theorem failed_append {s : Store} (hm : s.hashes.length % 32 = 0) {h : Bytes} (hh : h.length = 32)
    (hdir : s.dirs (path s.digits (address s.divider h)).1 = false) :
    (appendHash s h).2 = none ∧ recs 32 (appendHash s h).1.hashes = recs 32 s.hashes ++ [h] := by
  constructor
  · unfold appendHash
    dsimp only
    rw [if_neg (by rw [hdir]; decide)]
  · rw [(append_parts s h).2.2, recs_writeAt (by decide) hm hh]
    unfold countHashes
    rw [← recs_length, setExt_end]

/-! ## The self test -/

/-- The lookup of the hash at `i` leads back to it. -/
theorem test_round {big grant : Nat} {s s' : Store} (hd : 0 < s.digits) (hg : 832 ≤ grant)
    (hm : s.hashes.length % 32 = 0) (hbig : 832 * big < 2 ^ 63) (hlen : s.hashes.length < 2 ^ 63)
    (hok : indexTheHashes big grant s = .ok s') (i : Nat) {h : Bytes} (hi : (recs 32 s.hashes)[i]? = some h)
    (ha : address s.divider h < big) :
    ∃ j, indexOfHash s' h = .ok (some j) ∧ getHashAtIndex s' j = some h := by
  rw [lookup_first_partial hd hg hbig hlen hok ha]
  have hmem : h ∈ recs 32 s.hashes := List.mem_of_getElem? hi
  cases hf : (recs 32 s.hashes).idxOf? h with
  | none => exact absurd hmem (List.idxOf?_eq_none_iff.mp hf)
  | some j =>
    refine ⟨j, rfl, ?_⟩
    obtain ⟨hj, hv, _⟩ := List.idxOf?_eq_some_iff.mp hf
    obtain ⟨s1, e1, _, _, e4, _, _⟩ := index_stored (big := big) hd hm hg
    rw [hok] at e1
    injection e1 with e1
    subst e1
    have hj' : j < s'.hashes.length / 32 := by rw [e4, ← recs_length]; exact hj
    rw [getHash hj']
    have := recs_getElem? (k := 32) (f := s.hashes) (i := j)
    rw [if_pos (by rw [← recs_length]; exact hj), List.getElem?_eq_getElem hj] at this
    rw [e4]
    rw [← this]
    simpa using hv

theorem test_loop {big grant : Nat} {s s' : Store} (hd : 0 < s.digits) (hg : 832 ≤ grant)
    (hm : s.hashes.length % 32 = 0) (hbig : 832 * big < 2 ^ 63) (hlen : s.hashes.length < 2 ^ 63)
    (hok : indexTheHashes big grant s = .ok s') (hw : ∀ h ∈ recs 32 s.hashes, address s.divider h * 832 < 2 ^ 64)
    {count : Nat} (hc : 100 ≤ count) {n i : Nat} (hn : i + n = s.hashes.length / 32) :
    testLoop s' count i n = if ∀ h ∈ (recs 32 s.hashes).drop i, address s.divider h < big then .ok true else .err := by
  obtain ⟨s1, e1, _, _, e4, _, _⟩ := index_stored (big := big) hd hm hg
  rw [hok] at e1
  injection e1 with e1
  subst e1
  induction n generalizing i with
  | zero =>
    rw [if_pos]
    · rfl
    · rw [List.drop_eq_nil_of_le (by rw [recs_length]; omega)]
      simp
  | succ n ih =>
    have hil : i < (recs 32 s.hashes).length := by rw [recs_length]; omega
    have hget : getHashAtIndex s' i = some (recs 32 s.hashes)[i] := by
      rw [getHash (by rw [e4]; omega), e4]
      have := recs_getElem? 32 s.hashes i
      rw [if_pos (by omega), List.getElem?_eq_getElem hil] at this
      exact this.symm
    rw [testLoop, hget, List.drop_eq_getElem_cons hil]
    dsimp only
    by_cases ha : address s.divider (recs 32 s.hashes)[i] < big
    · obtain ⟨j, h1, h2⟩ := test_round hd hg hm hbig hlen hok i (List.getElem?_eq_getElem hil) ha
      rw [h1]
      dsimp only
      rw [if_neg (by simp [h2]), if_neg (by omega), ih (by omega)]
      simp only [List.forall_mem_cons, ha, true_and]
    · rw [beyond_last_bin hd hm hg hok (by omega) (hw _ (List.getElem_mem hil))]
      dsimp only
      rw [if_neg]
      simp only [List.forall_mem_cons, ha, false_and, not_false_eq_true]

/-- C76: with a hundred hashes or more the self test passes exactly if every hash of the file is in a bin, and else ends with
an error: it finds the hashes that indexing left out. -/
theorem self_test {big grant : Nat} {s s' : Store} (hd : 0 < s.digits) (hg : 832 ≤ grant)
    (hm : s.hashes.length % 32 = 0) (hbig : 832 * big < 2 ^ 63) (hlen : s.hashes.length < 2 ^ 63)
    (hok : indexTheHashes big grant s = .ok s') (hw : ∀ h ∈ recs 32 s.hashes, address s.divider h * 832 < 2 ^ 64)
    (hc : 100 ≤ s.hashes.length / 32) :
    selfTest s' = if ∀ h ∈ recs 32 s.hashes, address s.divider h < big then .ok true else .err := by
  obtain ⟨s1, e1, _, _, e4, _, _⟩ := index_stored (big := big) hd hm hg
  rw [hok] at e1
  injection e1 with e1
  subst e1
  unfold selfTest countHashes
  rw [e4, test_loop hd hg hm hbig hlen hok hw hc (by omega), List.drop_zero]

/-- C76: with one to 99 hashes the self test of a sound store panics: it divides by zero. -/
theorem self_test_small {big grant : Nat} {s s' : Store} (hd : 0 < s.digits) (hg : 832 ≤ grant)
    (hm : s.hashes.length % 32 = 0) (hbig : 832 * big < 2 ^ 63) (hlen : s.hashes.length < 2 ^ 63)
    (hok : indexTheHashes big grant s = .ok s') (h0 : 0 < s.hashes.length) (hc : s.hashes.length / 32 < 100)
    (ha : address s.divider (s.hashes.take 32) < big) : selfTest s' = .panic := by
  obtain ⟨s1, e1, _, _, e4, _, _⟩ := index_stored (big := big) hd hm hg
  rw [hok] at e1
  injection e1 with e1
  subst e1
  unfold selfTest countHashes
  rw [e4]
  have h1 : (recs 32 s.hashes)[0]? = some (s.hashes.take 32) := by
    rw [recs_getElem?, if_pos (by omega)]
    simp [slice]
  obtain ⟨n, hn⟩ : ∃ n, s.hashes.length / 32 = n + 1 := ⟨s.hashes.length / 32 - 1, by omega⟩
  obtain ⟨j, h2, h3⟩ := test_round hd hg hm hbig hlen hok 0 h1 ha
  have hget : getHashAtIndex s' 0 = some (s.hashes.take 32) := by
    rw [getHash (by rw [e4]; omega), e4]
    simp [slice]
  rw [show testLoop s' (s.hashes.length / 32) 0 (s.hashes.length / 32) = testLoop s' (s.hashes.length / 32) 0 (n + 1) from by rw [hn]]
  rw [testLoop, hget]
  dsimp only
  rw [h2]
  dsimp only
  rw [if_neg (by simp [h3]), if_pos (by omega)]

/-- C76: and with no hashes it passes. -/
theorem self_test_empty {s : Store} (h0 : s.hashes = []) : selfTest s = .ok true := by
  unfold selfTest countHashes
  rw [h0]
  rfl

/-! ## Instances -/

/-- Three hashes, the last the same as the first. -/
def sample : Store where
  divider := 2 ^ 62
  digits := 2
  hashes := List.replicate 32 7 ++ List.replicate 32 200 ++ List.replicate 32 7
  binStarts := none
  overflow := fun _ => none
  dirs := fun _ => false

/-- Four bins, with memory for one bin at a time. -/
example : ∃ s', indexTheHashes 4 832 sample = .ok s' ∧
    indexOfHash s' (List.replicate 32 7) = .ok (some 0) ∧ indexOfHash s' (List.replicate 32 200) = .ok (some 1) ∧
    indexOfHash s' (List.replicate 32 9) = .ok none ∧ selfTest s' = .panic ∧
    indexOfHash (appendHash s' (List.replicate 32 9)).1 (List.replicate 32 9) = .ok none := by
  have hd : 0 < sample.digits := by decide
  obtain ⟨s', h, _⟩ := (indexing_succeeds (big := 4) (grant := 832) hd (by decide)).1 (by decide)
  refine ⟨s', h, ?_, ?_, ?_, ?_, ?_⟩
  · rw [lookup_first_partial hd (by decide) (by decide) (by decide) h (by decide +kernel)]
    exact congrArg Outcome.ok (by decide +kernel)
  · rw [lookup_first_partial hd (by decide) (by decide) (by decide) h (by decide +kernel)]
    exact congrArg Outcome.ok (by decide +kernel)
  · rw [lookup_first_partial hd (by decide) (by decide) (by decide) h (by decide +kernel)]
    exact congrArg Outcome.ok (by decide +kernel)
  · exact self_test_small hd (by decide) (by decide) (by decide) (by decide) h (by decide) (by decide) (by decide +kernel)
  · exact (new_hash_not_found hd (by decide) (by decide) (by decide) (by decide) h (by decide) (by decide +kernel)
      (by decide +kernel)).1

/-- With three bins for four quarters the hash of the last quarter is lost. -/
example : ∃ s', indexTheHashes 3 832 sample = .ok s' ∧ List.replicate 32 200 ∈ recs 32 sample.hashes ∧
    indexOfHash s' (List.replicate 32 200) = .err := by
  have hd : 0 < sample.digits := by decide
  obtain ⟨s', h, _⟩ := (indexing_succeeds (big := 3) (grant := 832) hd (by decide)).1 (by decide)
  exact ⟨s', h, by decide +kernel, beyond_last_bin hd (by decide) (by decide) h (by decide +kernel) (by decide +kernel)⟩

/-- A store as the project makes it, with a hash that is not found. -/
def sampleBig (fl : Rat → Rat) : Store where
  divider := dividerFor fl 1000000000
  digits := 2
  hashes := List.replicate 32 255 ++ List.replicate 32 7
  binStarts := none
  overflow := fun _ => none
  dirs := fun _ => false

example : ∃ s', indexTheHashes (biggestPlusOne Bins.fl53 (sampleBig Bins.fl53).divider) (2 ^ 30) (sampleBig Bins.fl53) = .ok s' ∧
    indexOfHash s' (List.replicate 32 255) = .err ∧ indexOfHash s' (List.replicate 32 7) = .ok (some 1) := by
  have hd : 0 < (sampleBig Bins.fl53).digits := by show 0 < 2; decide
  have hm : (sampleBig Bins.fl53).hashes.length % 32 = 0 := by show (List.replicate 32 (255 : UInt8) ++ List.replicate 32 7).length % 32 = 0; decide
  have hl : (sampleBig Bins.fl53).hashes.length < 2 ^ 63 := by show (List.replicate 32 (255 : UInt8) ++ List.replicate 32 7).length < _; decide
  obtain ⟨s', h, _⟩ := (indexing_succeeds (big := biggestPlusOne Bins.fl53 (sampleBig Bins.fl53).divider) (grant := 2 ^ 30) hd (by decide)).1 hm
  refine ⟨s', h, ?_, ?_⟩
  · rw [billion Bins.floatOK_fl53 rfl hd (by decide) hl hm h (by decide), if_neg (by decide +kernel)]
  · rw [billion Bins.floatOK_fl53 rfl hd (by decide) hl hm h (by decide), if_pos (by decide +kernel)]
    show Outcome.ok ((recs 32 (List.replicate 32 (255 : UInt8) ++ List.replicate 32 7)).idxOf? _) = _
    exact congrArg Outcome.ok (by decide +kernel)

/-- 120 different hashes, all of one bin: 18 are in its overflow file. -/
def sampleFull : Store where
  divider := 2 ^ 62
  digits := 2
  hashes := (List.range 120).flatMap fun i => UInt8.ofNat i :: List.replicate 31 1
  binStarts := none
  overflow := fun _ => none
  dirs := fun _ => false

example : ∃ s', indexTheHashes 4 1700 sampleFull = .ok s' ∧
    indexOfHash s' (119 :: List.replicate 31 1) = .ok (some 119) ∧ selfTest s' = .ok true := by
  have hd : 0 < sampleFull.digits := by decide
  have hm : sampleFull.hashes.length % 32 = 0 := by decide +kernel
  have hl : sampleFull.hashes.length < 2 ^ 63 := by decide +kernel
  obtain ⟨s', h, _⟩ := (indexing_succeeds (big := 4) (grant := 1700) hd (by decide)).1 hm
  refine ⟨s', h, ?_, ?_⟩
  · rw [lookup_first_partial hd (by decide) (by decide) hl h (by decide +kernel)]
    exact congrArg Outcome.ok (by decide +kernel)
  · rw [self_test hd (by decide) hm (by decide) hl h (by decide +kernel) (by decide +kernel), if_pos (by decide +kernel)]

end Verif.Uniform
