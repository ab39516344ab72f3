import Verif.Model.SensibleParams
import Verif.Props.HashStore3

/-! # Which parameter sets make a working hash store (C94) -/

namespace Verif.SensibleParams

open Bins HashStore3 HashStores
open WordFile (countWords openWordFile fileWordCount new)

/-! ## Specification -/

/-- Hashes that any reasonable client may append to a store sized for indices of `bits` bits: 32 bytes each, no more
than the bits can number (nor than 2^48), the first one not ending in 24 zero bytes, and no two different ones that
begin with the same 8 bytes (both known faults of the store, C24). Nothing here depends on the other parameters. -/
structure Plain (bits : Nat) (L : List Bytes) : Prop where
  len32 : ∀ h ∈ L, h.length = 32
  count : L.length ≤ 2 ^ bits
  count48 : L.length ≤ 2 ^ 48
  first : ∀ h, L[0]? = some h → h.drop 8 ≠ zeros 24
  distinct : ∀ a ∈ L, ∀ b ∈ L, a.take 8 = b.take 8 → a = b

/-- A parameter set works if every session of appends of such hashes, lookups, reads, counts, syncs and reopens on a
new store gives right answers. -/
def Works (fl : Rat → Rat) (bits : Nat) (p : Params) : Prop :=
  ∀ ops : List Op, Plain bits (appended ops) → (∀ h, Op.indexOf h ∈ ops → h.length = 32) →
    ∃ s, openStore p [] (freshFiles p) false = some s ∧ ∃ s' os, run fl p s ops = some (s', os) ∧ SessionOK [] ops os

/-- `n` different hashes. -/
def numbered (n : Nat) : List Bytes := (List.range n).map fun i => leEnc 8 i ++ List.replicate 24 1

/-! ## Lemmas -/

theorem take_abbr {a b : Bytes} (ha : a.length = 32) (hb : b.length = 32) (h : abbrOf a = abbrOf b) : a.take 8 = b.take 8 := by
  unfold abbrOf at h
  exact leDec_injective (by rw [List.length_take, List.length_take, ha, hb]) h

theorem numbered_plain {bits n : Nat} (h1 : n ≤ 2 ^ bits) (h2 : n ≤ 2 ^ 48) : Plain bits (numbered n) := by
  have hl : (numbered n).length = n := by unfold numbered; simp
  refine ⟨?_, by omega, by omega, ?_, ?_⟩
  · intro h hh
    obtain ⟨i, -, rfl⟩ := List.mem_map.mp hh
    simp
  · intro h hh
    obtain ⟨i, -, rfl⟩ := List.mem_map.mp (List.mem_of_getElem? hh)
    rw [List.drop_left' (by simp)]
    decide
  · intro a ha b hb hab
    obtain ⟨i, hi, rfl⟩ := List.mem_map.mp ha
    obtain ⟨j, hj, rfl⟩ := List.mem_map.mp hb
    rw [List.mem_range] at hi hj
    rw [List.take_left' (by simp), List.take_left' (by simp)] at hab
    have e8 : (256 : Nat) ^ 8 = 2 ^ 64 := by decide
    have := congrArg leDec hab
    rw [leDec_leEnc_of_lt (by omega), leDec_leEnc_of_lt (by omega)] at this
    rw [this]

theorem newParams_bits {bits digits bins room bsn : Nat} {p : Params}
    (h : newParams bits digits bins room bsn = some p) : p.bitsPerHashIndex = bits ∧ p.entriesInBinStart = room := by
  unfold newParams at h
  split at h
  · simp at h
  · split at h
    · simp at h
    · split at h
      · simp at h
      · simp at h; rw [← h]; exact ⟨rfl, rfl⟩

/-- The bytes of an index have room for all indices of that many bits. -/
theorem bits_le (p : Params) : 2 ^ p.bitsPerHashIndex ≤ 256 ^ p.bytesPerHashIndex := by
  have : (256 : Nat) = 2 ^ 8 := by decide
  rw [this, ← Nat.pow_mul]
  apply Nat.pow_le_pow_right (by decide)
  unfold Params.bytesPerHashIndex
  omega

theorem Plain.appendable {p : Params} {L : List Bytes} (h : Plain p.bitsPerHashIndex L) : Appendable p L := by
  refine ⟨h.len32, Nat.le_trans h.count (bits_le p), h.count48, ?_, ?_⟩
  · intro x hx hz
    refine h.first x hx ?_
    have hl := h.len32 x (List.mem_of_getElem? hx)
    rw [← hz.1]
    unfold truncOf
    rw [List.take_of_length_le (by rw [List.length_drop, hl])]
  · intro a ha b hb hab
    exact h.distinct a ha b hb (take_abbr (h.len32 a ha) (h.len32 b hb) hab)

/-- `AppendHash` without an encodable entry never returns an index. -/
theorem append_no_entry {fl : Rat → Rat} {p : Params} {s : Store} {h : Bytes}
    (he : encEntry p (truncOf h) (countWords s.binNums) (sortNum p h) = none) :
    ∀ s' i, appendHash fl p s h ≠ some (s', some i) := by
  intro s' i hc
  unfold appendHash at hc
  split at hc
  · exact absurd hc (by simp)
  · dsimp only at hc
    split at hc
    · simp at hc
    · unfold insertBinEntry at hc
      rw [he] at hc
      simp at hc

theorem fresh_count {p : Params} {s : Store} (h : openStore p [] (freshFiles p) false = some s) :
    countWords s.binNums = 0 ∧ s.files = freshFiles p ∧ s.ram = none := by
  unfold openStore openWordFile at h
  have : fileWordCount p.bytesRoomForBinNum ([] : Bytes).length = some 0 := by simp [fileWordCount]
  rw [this] at h
  simp only [Bool.false_eq_true, if_false, Option.some.injEq] at h
  subst h
  exact ⟨by simp [countWords, new], rfl, rfl⟩

/-- One append in a working store returns index 0. -/
theorem Works.one {fl : Rat → Rat} {bits : Nat} {p : Params} (hw : Works fl bits p) {h : Bytes} (hl : h.length = 32)
    (hz : h.drop 8 ≠ zeros 24) :
    ∃ s s', openStore p [] (freshFiles p) false = some s ∧ appendHash fl p s h = some (s', some 0) := by
  obtain ⟨s, h1, s', os, h2, h3⟩ := hw [.append h] (by
    refine ⟨?_, ?_, ?_, ?_, ?_⟩
    · intro x hx; simp [appended] at hx; subst hx; exact hl
    · simp only [appended, List.length_singleton]; exact Nat.one_le_two_pow
    · simp [appended]
    · intro x hx; simp [appended] at hx; subst hx; exact hz
    · intro a ha b hb _; simp [appended] at ha hb; rw [ha, hb]) (by intro x hx; simp at hx)
  simp only [run, step] at h2
  cases ha : appendHash fl p s h with
  | none => rw [ha] at h2; simp at h2
  | some r =>
    rw [ha] at h2
    simp only [Option.map_some, Option.some.injEq, Prod.mk.injEq] at h2
    obtain ⟨-, rfl⟩ := h2
    simp only [SessionOK, OutOK, and_true, List.length_nil] at h3
    exact ⟨s, r.1, h1, by rw [← h3]; exact ha⟩

/-- A hash with given first eight bytes. -/
def hashWith (a : Nat) : Bytes := leEnc 8 a ++ List.replicate 24 1

theorem hashWith_length (a : Nat) : (hashWith a).length = 32 := by simp [hashWith]

theorem hashWith_drop (a : Nat) : (hashWith a).drop 8 ≠ zeros 24 := by
  unfold hashWith; rw [List.drop_left' (by simp)]; decide

theorem hashWith_abbr {a : Nat} (h : a < 2 ^ 64) : abbrOf (hashWith a) = a := by
  unfold abbrOf hashWith
  rw [List.take_left' (by simp), leDec_leEnc_of_lt (by have e8 : (256 : Nat) ^ 8 = 2 ^ 64 := by decide
                                                       omega)]

/-! ## Properties -/

/-- **C94.** Of the parameter sets the constructor accepts (with room for at least one entry per bin, numbered folders,
and at most 2^56 bins), exactly those make a working store that have a power of two as number of bins, sort numbers
wide enough for 2^64 divided by that number, and hash indices of at most 64 bits. -/
theorem params_work_iff {fl : Rat → Rat} (hfl : FloatOK fl) {bits digits bins room bsn : Nat} {p : Params}
    (h : newParams bits digits bins room bsn = some p) (hbins : bins ≤ 2 ^ 56) (hd : 0 < digits) (hr : 0 < room) :
    Works fl bits p ↔ (∃ k, bins = 2 ^ k) ∧ 2 ^ 64 / bins ≤ 256 ^ bsn ∧ bits ≤ 64 := by
  obtain ⟨f1, f2, f3, f4, f5⟩ := newParams_facts h
  obtain ⟨f6, f7⟩ := newParams_bits h
  have hdef : p.divider = 2 ^ 63 / (bins / 2) := by rw [← f1]; rfl
  have hpos : 0 < p.divider := divider_pos (by omega) (by omega)
  have h64 : p.divider = 2 ^ 64 / bins := by
    rw [hdef]
    obtain ⟨m, rfl⟩ : ∃ m, bins = 2 * m := ⟨bins / 2, by omega⟩
    have e : (2 : Nat) ^ 64 = 2 * 2 ^ 63 := by decide
    rw [e, Nat.mul_div_mul_left _ _ (by decide : 0 < 2), Nat.mul_div_cancel_left _ (by decide : 0 < 2)]
  constructor
  · intro hw
    refine ⟨?_, ?_, ?_⟩
    · by_contra hk
      have hcov := (covers_iff f2 f3 (by omega) hdef).not.mpr hk
      obtain ⟨s, s', o1, o2⟩ := hw.one (hashWith_length (2 ^ 64 - 1)) (hashWith_drop (2 ^ 64 - 1))
      obtain ⟨c1, c2, c3⟩ := fresh_count o1
      have hbn : bins ≤ binNum p (hashWith (2 ^ 64 - 1)) := by
        unfold binNum
        rw [hashWith_abbr (by decide)]
        omega
      have hload : loadBin p s.files (binNum p (hashWith (2 ^ 64 - 1))) = none := by
        unfold loadBin Verif.readAt
        rw [if_neg, Option.map_none]
        rw [c2]
        unfold freshFiles
        rw [zeros_length, f1, f7, Nat.mul_assoc, Nat.mul_assoc, Nat.mul_comm room]
        have hp0 : 0 < p.entrySize * room := Nat.mul_pos (entrySize_pos p) hr
        have := Nat.mul_le_mul_right (p.entrySize * room) hbn
        omega
      unfold appendHash at o2
      rw [c3] at o2
      simp only [Option.isSome_none, Bool.false_eq_true, if_false, hload] at o2
      simp at o2
    · by_contra hk
      rw [← h64] at hk
      obtain ⟨s, s', o1, o2⟩ := hw.one (hashWith_length (p.divider - 1)) (hashWith_drop (p.divider - 1))
      obtain ⟨c1, c2, c3⟩ := fresh_count o1
      have hlt : p.divider ≤ 2 ^ 63 := by rw [hdef]; exact Nat.div_le_self _ _
      refine append_no_entry ?_ _ _ o2
      have hsn : sortNum p (hashWith (p.divider - 1)) = p.divider - 1 := by
        unfold sortNum
        rw [hashWith_abbr (by omega), Nat.mod_eq_of_lt (by omega)]
      by_cases h8 : p.bytesPerHashIndex ≤ 8
      · refine (entry_roundtrip h8 (by omega) (truncOf_length (hashWith_length _)) (by rw [c1]; decide) (by rw [hsn]; omega)).2 ?_
        rw [hsn, f5]
        omega
      · unfold encEntry
        rw [if_pos (by omega)]
    · by_contra hk
      obtain ⟨s, s', o1, o2⟩ := hw.one (hashWith_length 0) (hashWith_drop 0)
      refine append_no_entry ?_ _ _ o2
      have h8 : p.bytesPerHashIndex > 8 := by
        unfold Params.bytesPerHashIndex
        omega
      unfold encEntry
      rw [if_pos (Or.inl h8)]
  · rintro ⟨⟨k, hk⟩, h2, h3⟩ ops hP hq
    refine binned_store_partial hfl ?_ ops ?_ hq
    · exact ⟨⟨bits, digits, bins, room, bsn, k, h, hk, hbins, hd⟩, by rw [h64, f5]; exact h2, by
        unfold Params.bytesPerHashIndex; omega⟩
    · rw [← f6] at hP
      exact hP.appendable

example : ∃ p, newParams 19 2 65536 9 6 = some p ∧ Works fl53 19 p :=
  ⟨_, rfl, (params_work_iff floatOK_fl53 (digits := 2) (bins := 65536) (room := 9) (bsn := 6) rfl (by decide) (by decide) (by decide)).mpr
    ⟨⟨16, by decide⟩, by decide, by decide⟩⟩

/-- Six bins are accepted and do not work. -/
example : ∃ p, newParams 19 2 6 9 8 = some p ∧ ¬ Works fl53 19 p := by
  refine ⟨_, rfl, ?_⟩
  rw [params_work_iff floatOK_fl53 (digits := 2) (bins := 6) (room := 9) (bsn := 8) rfl (by decide) (by decide) (by decide)]
  rintro ⟨⟨k, hk⟩, -⟩
  have h3 : k < 3 := by
    by_contra hc
    have : 2 ^ 3 ≤ 2 ^ k := Nat.pow_le_pow_right (by decide) (by omega)
    omega
  rcases k with _ | _ | _ | k <;> first | omega | simp at hk

/-- 256 bins with sort numbers of six bytes are accepted and do not work. -/
example : ∃ p, newParams 19 2 256 9 6 = some p ∧ ¬ Works fl53 19 p := by
  refine ⟨_, rfl, ?_⟩
  rw [params_work_iff floatOK_fl53 (digits := 2) (bins := 256) (room := 9) (bsn := 6) rfl (by decide) (by decide) (by decide)]
  rintro ⟨-, h, -⟩
  exact absurd h (by decide)

/-- **C94 (what the constructor lets through).** For every number of index bits there are accepted parameter sets
that do not work: the constructor checks neither the number of bins nor the widths. -/
theorem constructor_accepts_unusable {fl : Rat → Rat} (hfl : FloatOK fl) (bits digits room : Nat) (hd : 0 < digits) (hr : 0 < room) :
    ∃ bins bsn p, newParams bits digits bins room bsn = some p ∧ bins ≤ 2 ^ 56 ∧ ¬ Works fl bits p := by
  refine ⟨256, 6, ⟨bits, 256, room, digits, 6⟩, rfl, by decide, ?_⟩
  rw [params_work_iff hfl (digits := digits) (bins := 256) (room := room) (bsn := 6) rfl (by decide) hd hr]
  rintro ⟨-, h, -⟩
  exact absurd h (by decide)

/-- **C94 (the ready-made sets).** For every number of years with a target in the tables, the three parameter sets
chosen for the run exist and work (also for bulk indexing, whose theorems, C25 and C53, ask for `ParamsOK`), and the blocks and transactions of the target, and the addresses the comments of
the code count on (2^19 for two years, 2^32 otherwise), are no more than the set's index bits can number. -/
theorem chosen_params_work {fl : Rat → Rat} (hfl : FloatOK fl) {years b t : Nat} (h : target years = some (b, t)) :
    ∀ k, ∃ p, paramsFor years k = some p ∧ (ParamsOK p ∧ Works fl p.bitsPerHashIndex p) ∧
      match k with
      | .blocks => b ≤ 2 ^ p.bitsPerHashIndex
      | .transactions => t ≤ 2 ^ p.bitsPerHashIndex
      | .addresses => (if years = 2 then 2 ^ 19 else 2 ^ 32) ≤ 2 ^ p.bitsPerHashIndex := by
  have key : ∀ bits bins room bsn j, bins = 2 ^ j → bins ≤ 2 ^ 56 → 2 ≤ bins → bins % 2 = 0 → bsn ≤ 8 → 0 < room → 2 ^ 64 / bins ≤ 256 ^ bsn →
      bits ≤ 64 → ∃ p, newParams bits digits bins room bsn = some p ∧ (ParamsOK p ∧ Works fl p.bitsPerHashIndex p) ∧
        p.bitsPerHashIndex = bits := by
    intro bits bins room bsn j h1 h2 h3 h3' h4 h5 h6 h7
    have he : newParams bits digits bins room bsn = some ⟨bits, bins, room, digits, bsn⟩ := by
      unfold newParams
      rw [if_neg (by omega), if_neg (by omega), if_neg (by omega)]
    have hw := params_work_iff hfl he h2 (by decide) h5
    refine ⟨_, he, ⟨⟨⟨bits, digits, bins, room, bsn, j, he, h1, h2, by decide⟩, ?_, ?_⟩, hw.mpr ⟨⟨j, h1⟩, h6, h7⟩⟩, rfl⟩
    · obtain ⟨m, rfl⟩ : ∃ m, bins = 2 * m := ⟨bins / 2, by omega⟩
      have e : (2 : Nat) ^ 64 = 2 * 2 ^ 63 := by decide
      rw [e, Nat.mul_div_mul_left _ _ (by decide : 0 < 2)] at h6
      show 2 ^ 63 / (2 * m / 2) ≤ 256 ^ bsn
      rw [Nat.mul_div_cancel_left _ (by decide : 0 < 2)]
      exact h6
    · show (bits - 1) / 8 + 1 ≤ 8
      omega
  have hb : b ≤ 2 ^ 31 ∧ t ≤ 2 ^ 31 ∧ (years = 2 → b ≤ 2 ^ 17 ∧ t ≤ 2 ^ 18) := by
    unfold target at h
    have hB : ∀ x ∈ blocksEachYear, x ≤ 2 ^ 31 := by decide
    have hT : ∀ x ∈ transactionsEachYear, x ≤ 2 ^ 31 := by decide
    split at h
    · rename_i b' t' e1 e2
      simp only [Option.some.injEq, Prod.mk.injEq] at h
      obtain ⟨rfl, rfl⟩ := h
      refine ⟨hB _ (List.mem_of_getElem? e1), hT _ (List.mem_of_getElem? e2), ?_⟩
      rintro rfl
      simp only [blocksEachYear, transactionsEachYear, List.getElem?_cons_succ, List.getElem?_cons_zero, Option.some.injEq] at e1 e2
      omega
    · simp at h
  intro k
  unfold paramsFor
  by_cases hy : years = 2
  · rw [if_pos hy]
    cases k with
    | blocks =>
      obtain ⟨p, e1, e2, e3⟩ := key 17 256 440 7 8 (by decide) (by decide) (by decide) (by decide) (by decide) (by decide) (by decide) (by decide)
      exact ⟨p, e1, e2, by rw [e3]; exact (hb.2.2 hy).1⟩
    | transactions =>
      obtain ⟨p, e1, e2, e3⟩ := key 18 65536 10 6 16 (by decide) (by decide) (by decide) (by decide) (by decide) (by decide) (by decide) (by decide)
      exact ⟨p, e1, e2, by rw [e3]; exact (hb.2.2 hy).2⟩
    | addresses =>
      obtain ⟨p, e1, e2, e3⟩ := key 19 65536 9 6 16 (by decide) (by decide) (by decide) (by decide) (by decide) (by decide) (by decide) (by decide)
      exact ⟨p, e1, e2, by rw [e3, if_pos hy]⟩
  · rw [if_neg hy]
    cases k with
    | blocks =>
      obtain ⟨p, e1, e2, e3⟩ := key 31 65536 29 6 16 (by decide) (by decide) (by decide) (by decide) (by decide) (by decide) (by decide) (by decide)
      exact ⟨p, e1, e2, by rw [e3]; exact hb.1⟩
    | transactions =>
      obtain ⟨p, e1, e2, e3⟩ := key 31 16777216 101 5 24 (by decide) (by decide) (by decide) (by decide) (by decide) (by decide) (by decide) (by decide)
      exact ⟨p, e1, e2, by rw [e3]; exact hb.2.1⟩
    | addresses =>
      obtain ⟨p, e1, e2, e3⟩ := key 32 16777216 236 5 24 (by decide) (by decide) (by decide) (by decide) (by decide) (by decide) (by decide) (by decide)
      exact ⟨p, e1, e2, by rw [e3, if_neg hy]⟩

example : target 16 = some (877669, 1139137995) := rfl

/-- Targets exist for exactly the years 0 to 19. -/
theorem target_iff (years : Nat) : (∃ bt, target years = some bt) ↔ years < 20 := by
  have hB : blocksEachYear.length = 20 := rfl
  have hT : transactionsEachYear.length = 20 := rfl
  unfold target
  constructor
  · rintro ⟨bt, h⟩
    by_contra hc
    rw [List.getElem?_eq_none (l := blocksEachYear) (by omega)] at h
    simp at h
  · intro h
    rw [List.getElem?_eq_getElem (l := blocksEachYear) (by omega), List.getElem?_eq_getElem (l := transactionsEachYear) (by omega)]
    exact ⟨_, rfl⟩

/-- **C94 (capacity).** The bytes of a hash index are the limit: as many hashes as `bitsPerHashIndex`, rounded up to
whole bytes, can number can be appended (and as many hashes exist); the append after that panics. -/
theorem capacity_is_sharp {fl : Rat → Rat} (hfl : FloatOK fl) {p : Params} (hp : ParamsOK p) (h6 : p.bytesPerHashIndex ≤ 6) :
    ∃ s s' os, openStore p [] (freshFiles p) false = some s ∧
      run fl p s ((numbered (256 ^ p.bytesPerHashIndex)).map .append) = some (s', os) ∧
      SessionOK [] ((numbered (256 ^ p.bytesPerHashIndex)).map .append) os ∧
      ∀ h : Bytes, h.length = 32 → appendHash fl p s' h = none := by
  have hg := hp.good
  have h48 : 256 ^ p.bytesPerHashIndex ≤ 2 ^ 48 := by
    have : (2 : Nat) ^ 48 = 256 ^ 6 := by decide
    rw [this]; exact Nat.pow_le_pow_right (by decide) h6
  have happ : ∀ L : List Bytes, appended (L.map Op.append) = L := by
    intro L
    induction L with
    | nil => rfl
    | cons a L ih => simp only [List.map_cons, appended, ih]
  have hlen : (numbered (256 ^ p.bytesPerHashIndex)).length = 256 ^ p.bytesPerHashIndex := by simp [numbered]
  have hA : Appendable p (numbered (256 ^ p.bytesPerHashIndex)) := by
    have hP : Plain 48 (numbered (256 ^ p.bytesPerHashIndex)) := numbered_plain h48 h48
    refine ⟨hP.len32, by omega, hP.count48, ?_, fun a ha b hb hab => hP.distinct a ha b hb (take_abbr (hP.len32 a ha) (hP.len32 b hb) hab)⟩
    intro x hx hz
    refine hP.first x hx ?_
    rw [← hz.1]
    unfold truncOf
    rw [List.take_of_length_le (by rw [List.length_drop, hP.len32 x (List.mem_of_getElem? hx)])]
  obtain ⟨s, o1, o2⟩ := inv_fresh hg
  obtain ⟨s', os, r1, r2, r3⟩ := run_ok hfl hg ((numbered (256 ^ p.bytesPerHashIndex)).map .append) o2
    (by rw [happ]; simpa using hA) (by intro x hx; simp at hx)
  rw [happ, List.nil_append] at r3
  refine ⟨s, s', os, o1, r1, r2, ?_⟩
  intro h hl
  obtain ⟨es, l1, -⟩ := r3.load hA (hg.range h hl)
  have hcnt : countWords s'.binNums = 256 ^ p.bytesPerHashIndex := by
    have := r3.nums.count
    rw [List.length_map, hlen] at this
    exact this
  have hsn : sortNum p h < 2 ^ 64 := Nat.lt_of_le_of_lt (Nat.mod_le _ _) (abbrOf_lt hl)
  have henc : encEntry p (truncOf h) (256 ^ p.bytesPerHashIndex) (sortNum p h) = none := by
    refine (entry_roundtrip hg.widths.1 hg.widths.2 (truncOf_length hl) ?_ hsn).2 (by omega)
    exact Nat.lt_of_le_of_lt h48 (by decide)
  unfold appendHash
  rw [r3.ram]
  simp only [Option.isSome_none, Bool.false_eq_true, if_false, l1, hcnt]
  unfold insertBinEntry
  rw [henc]

/-- An index of 8 bits, 256 bins. -/
example : ∃ p : Params, newParams 8 2 256 4 7 = some p ∧ ParamsOK p ∧ p.bytesPerHashIndex ≤ 6 ∧ 256 ^ p.bytesPerHashIndex = 256 :=
  ⟨_, rfl, ⟨⟨8, 2, 256, 4, 7, 8, rfl, by decide, by decide, by decide⟩, by decide, by decide⟩, by decide, by decide⟩

end Verif.SensibleParams
