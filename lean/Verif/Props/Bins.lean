import Verif.Lemmas.Bins
import Verif.Props.BinParams
import Mathlib.Data.List.TakeWhile

/-! # Properties of in-memory bins (C22) -/

namespace Verif.Bins

open HashStores (Found)

/-- A bin entry as the client sees it. -/
structure Item where
  sort : Nat
  index : Nat
  trunc : Bytes
deriving DecidableEq, Repr

/-- The item fits the configured widths. -/
def Item.Fits (p : Params) (x : Item) : Prop :=
  x.trunc.length = 24 ∧ x.index < 256 ^ p.bytesPerHashIndex ∧ x.sort < 256 ^ p.bytesPerSortNum

/-- Widths the entry codec supports. -/
def Params.Widths (p : Params) : Prop := p.bytesPerHashIndex ≤ 8 ∧ p.bytesPerSortNum ≤ 8

/-- The items held in a bin, in order. -/
def items (p : Params) (b : Bytes) : List Item :=
  (recs p.entrySize b).map fun e => { sort := entSort p e, index := entIndex p e, trunc := entTrunc e }

/-- Insert the items one after the other. -/
def insertAll (fl : Rat → Rat) (p : Params) (b : Bytes) : List Item → Option Bytes
  | [] => some b
  | x :: xs =>
    match insertBinEntry fl p b x.sort x.index x.trunc with
    | none => none
    | some (b', _) => insertAll fl p b' xs

/-- An entry's item. -/
def itemOf (p : Params) (e : Bytes) : Item := { sort := entSort p e, index := entIndex p e, trunc := entTrunc e }

theorem items_flatten {p : Params} {es : List Bytes} (h : Sized p es) : items p es.flatten = es.map (itemOf p) := by
  unfold items; rw [recs_flatten h]; rfl

theorem sorted_insert {p : Params} {es : List Bytes} (hs : SortedBy p es) {sn i : Nat} {en : Bytes}
    (hen : entSort p en = sn) (h : SearchSpec p es sn i) : SortedBy p (es.take i ++ en :: es.drop i) := by
  unfold SortedBy at *
  have hs' := hs
  rw [← List.take_append_drop i es, List.pairwise_append] at hs
  obtain ⟨h1, h2, h3⟩ := hs
  rw [List.pairwise_append]
  have hb : ∀ a ∈ es.take i, entSort p a ≤ sn := by
    intro a ha
    obtain ⟨j, hj, rfl⟩ := List.getElem_of_mem ha
    have hlt : j < i := by rw [List.length_take] at hj; omega
    rw [List.getElem_take]
    exact h.before j _ hlt (List.getElem?_eq_getElem _)
  have ha : ∀ a ∈ es.drop i, sn ≤ entSort p a := by
    intro a ha
    obtain ⟨j, hj, rfl⟩ := List.getElem_of_mem ha
    rw [List.getElem_drop]
    exact h.after (i + j) _ (by omega) (List.getElem?_eq_getElem _)
  refine ⟨h1, ?_, ?_⟩
  · rw [List.pairwise_cons]
    exact ⟨fun a hh => by rw [hen]; exact ha a hh, h2⟩
  · intro a hh b hbb
    rw [List.mem_cons] at hbb
    rcases hbb with rfl | hbb
    · rw [hen]; exact hb a hh
    · exact h3 a hh b hbb

theorem Item.encode {p : Params} (hw : p.Widths) {x : Item} (hx : x.Fits p) :
    ∃ en, encEntry p x.trunc x.index x.sort = some en ∧ en.length = p.entrySize ∧ itemOf p en = x := by
  obtain ⟨h1, h2, h3⟩ := hx
  obtain ⟨f1, f2, f3, f4⟩ := fields_eq (p := p) h1 h2 h3
  refine ⟨_, encEntry_eq hw.1 hw.2 h1 h2 h3, f4, ?_⟩
  unfold itemOf
  rw [f1, f2, f3]

theorem insertAll_ok {fl : Rat → Rat} (hfl : FloatOK fl) {p : Params} (hw : p.Widths) (xs : List Item)
    (hx : ∀ x ∈ xs, x.Fits p) (es : List Bytes) (h : Sized p es) (hs : SortedBy p es)
    (hlen : es.length + xs.length ≤ 2 ^ 48) :
    ∃ es', insertAll fl p es.flatten xs = some es'.flatten ∧ Sized p es' ∧ SortedBy p es' ∧
      (es'.map (itemOf p)).Perm (es.map (itemOf p) ++ xs) := by
  induction xs generalizing es with
  | nil => exact ⟨es, rfl, h, hs, by simp⟩
  | cons x xs ih =>
    rw [List.length_cons] at hlen
    obtain ⟨en, he1, he2, he3⟩ := Item.encode hw (hx x (by simp))
    obtain ⟨i, hi1, hi2⟩ := insert_ok hfl h hs (by omega) he1 he2
    have hsz : Sized p (es.take i ++ en :: es.drop i) := by
      intro e he
      rw [List.mem_append, List.mem_cons] at he
      rcases he with he | rfl | he
      · exact h e (List.mem_of_mem_take he)
      · exact he2
      · exact h e (List.mem_of_mem_drop he)
    have hperm : (es.take i ++ en :: es.drop i).Perm (en :: es) := by
      have := List.perm_middle (a := en) (l₁ := es.take i) (l₂ := es.drop i)
      rwa [List.take_append_drop] at this
    have hso : SortedBy p (es.take i ++ en :: es.drop i) :=
      sorted_insert hs (by have := congrArg Item.sort he3; exact this) hi2
    obtain ⟨es', h1, h2, h3, h4⟩ := ih (fun y hy => hx y (by simp [hy])) _ hsz hso (by
      rw [hperm.length_eq, List.length_cons]; omega)
    refine ⟨es', ?_, h2, h3, ?_⟩
    · unfold insertAll
      rw [hi1]
      exact h1
    · refine h4.trans ?_
      have h5 := (hperm.map (itemOf p)).append_right xs
      refine h5.trans ?_
      rw [List.map_cons, he3]
      exact List.perm_middle.symm

/-- **C22 (contents and order).** Any sequence of insertions succeeds, the bin then holds exactly the
inserted items, and their sort numbers never decrease. (`fl` is any float64 rounding; bins of up to 2^48
items.) -/
theorem bin_holds_insertions {fl : Rat → Rat} (hfl : FloatOK fl) {p : Params} (hw : p.Widths) (xs : List Item)
    (hx : ∀ x ∈ xs, x.Fits p) (hlen : xs.length ≤ 2 ^ 48) :
    ∃ b, insertAll fl p [] xs = some b ∧ (items p b).Perm xs ∧
      (items p b).Pairwise (fun x y => x.sort ≤ y.sort) := by
  obtain ⟨es, h1, h2, h3, h4⟩ := insertAll_ok hfl hw xs hx [] (by intro e he; simp at he) List.Pairwise.nil (by simpa using hlen)
  refine ⟨es.flatten, h1, ?_, ?_⟩
  · rw [items_flatten h2]; simpa using h4
  · rw [items_flatten h2, List.pairwise_map]
    exact h3

/-- Result of scanning a list of entries. -/
def scanList (p : Params) (t : Bytes) (sn : Nat) (l : List Bytes) : Found :=
  match (l.takeWhile fun e => entSort p e = sn).find? fun e => entTrunc e = t with
  | some e => .at (entIndex p e)
  | none => .absent

theorem scanHash_eq {p : Params} {es : List Bytes} (h : Sized p es) (t : Bytes) (sn : Nat) (n i : Nat)
    (hn : i + n = es.length) : scanHash p es.flatten t sn i n = some (scanList p t sn (es.drop i)) := by
  induction n generalizing i with
  | zero => rw [List.drop_eq_nil_of_le (by omega)]; rfl
  | succ n ih =>
    unfold scanHash
    have hi : i < es.length := by omega
    rw [getEntry_flatten h, List.getElem?_eq_getElem hi, List.drop_eq_getElem_cons hi]
    dsimp only
    unfold scanList
    by_cases h1 : entSort p es[i] = sn
    · rw [if_neg (by simpa using h1), List.takeWhile_cons_of_pos (by simpa using h1)]
      by_cases h2 : entTrunc es[i] = t
      · rw [if_pos h2, List.find?_cons_of_pos (by simpa using h2)]
      · rw [if_neg h2, List.find?_cons_of_neg (by simpa using h2), ih (i + 1) (by omega)]
        rfl
    · rw [if_pos h1, List.takeWhile_cons_of_neg (by simpa using h1)]
      rfl

theorem lookup_eq {fl : Rat → Rat} (hfl : FloatOK fl) {p : Params} {es : List Bytes} (h : Sized p es)
    (hs : SortedBy p es) (hlen : es.length ≤ 2 ^ 48) (t : Bytes) (sn : Nat) :
    ∃ i, SearchSpec p es sn i ∧ lookupByHash fl p es.flatten t sn = some (scanList p t sn (es.drop i)) := by
  obtain ⟨i, h1, h2⟩ := findIndex_ok hfl h hs hlen sn
  refine ⟨i, h2, ?_⟩
  unfold lookupByHash
  rw [h1]
  dsimp only
  have := h2.le
  rw [binLen_flatten h, scanHash_eq h t sn _ i (by omega)]

theorem lookup_sound_es {fl : Rat → Rat} (hfl : FloatOK fl) {p : Params} {es : List Bytes} (h : Sized p es)
    (hs : SortedBy p es) (hlen : es.length ≤ 2 ^ 48) (t : Bytes) (sn : Nat) :
    ∃ r, lookupByHash fl p es.flatten t sn = some r ∧
      (r = .absent ∨ ∃ hi, r = .at hi ∧ (⟨sn, hi, t⟩ : Item) ∈ es.map (itemOf p)) := by
  obtain ⟨i, h5, h6⟩ := lookup_eq hfl h hs hlen t sn
  refine ⟨_, h6, ?_⟩
  unfold scanList
  split
  · rename_i e he
    right
    refine ⟨_, rfl, ?_⟩
    have e1 := List.find?_some he
    have e2 := List.mem_of_find?_eq_some he
    have e3 : entSort p e = sn := by simpa using List.mem_takeWhile_imp e2
    have e4 : e ∈ es := List.mem_of_mem_drop (List.takeWhile_subset _ e2)
    have e6 : entTrunc e = t := by simpa using e1
    have : (⟨sn, entIndex p e, t⟩ : Item) = itemOf p e := by unfold itemOf; rw [e3, e6]
    rw [this]; exact List.mem_map.mpr ⟨e, e4, rfl⟩
  · exact Or.inl rfl

theorem lookup_complete_es {fl : Rat → Rat} (hfl : FloatOK fl) {p : Params} {es : List Bytes} (h : Sized p es)
    (hs : SortedBy p es) (hlen : es.length ≤ 2 ^ 48) (t : Bytes) (sn : Nat)
    (huniq : ∀ x ∈ es.map (itemOf p), x.sort = sn → x.trunc = t) :
    ∃ r, lookupByHash fl p es.flatten t sn = some r ∧
      ((∃ hi, r = .at hi ∧ (⟨sn, hi, t⟩ : Item) ∈ es.map (itemOf p)) ∨
       (r = .absent ∧ ∀ hi, (⟨sn, hi, t⟩ : Item) ∉ es.map (itemOf p))) := by
  obtain ⟨i, h5, h6⟩ := lookup_eq hfl h hs hlen t sn
  refine ⟨_, h6, ?_⟩
  by_cases hex : ∃ e ∈ es, entSort p e = sn
  · left
    obtain ⟨e, he, hes⟩ := h5.hit hex
    have hin : e ∈ es := List.mem_of_getElem? he
    have hix : itemOf p e ∈ es.map (itemOf p) := List.mem_map.mpr ⟨e, hin, rfl⟩
    have het : entTrunc e = t := huniq _ hix hes
    have hlt := lt_of_getElem?_some he
    rw [List.getElem?_eq_getElem hlt, Option.some.injEq] at he
    unfold scanList
    rw [List.drop_eq_getElem_cons hlt, he, List.takeWhile_cons_of_pos (by simpa using hes),
      List.find?_cons_of_pos (by simpa using het)]
    refine ⟨_, rfl, ?_⟩
    have : (⟨sn, entIndex p e, t⟩ : Item) = itemOf p e := by unfold itemOf; rw [hes, het]
    rw [this]; exact hix
  · right
    have hnone : ∀ hi, (⟨sn, hi, t⟩ : Item) ∉ es.map (itemOf p) := by
      intro hi hc
      obtain ⟨e, he, hee⟩ := List.mem_map.mp hc
      exact hex ⟨e, he, by have := congrArg Item.sort hee; exact this⟩
    refine ⟨?_, hnone⟩
    unfold scanList
    split
    · rename_i e he
      have e2 := List.mem_of_find?_eq_some he
      have e3 : entSort p e = sn := by simpa using List.mem_takeWhile_imp e2
      exact absurd ⟨e, List.mem_of_mem_drop (List.takeWhile_subset _ e2), e3⟩ hex
    · rfl

/-- **C22 (lookup is sound).** Looking up never panics and never returns a wrong index: an index returned is
that of an inserted item with that truncated hash and sort number; so a key that was never inserted is
reported absent. -/
theorem bin_lookup_sound {fl : Rat → Rat} (hfl : FloatOK fl) {p : Params} (hw : p.Widths) (xs : List Item)
    (hx : ∀ x ∈ xs, x.Fits p) (hlen : xs.length ≤ 2 ^ 48) (t : Bytes) (sn : Nat) :
    ∃ b r, insertAll fl p [] xs = some b ∧ lookupByHash fl p b t sn = some r ∧
      (r = .absent ∨ ∃ hi, r = .at hi ∧ (⟨sn, hi, t⟩ : Item) ∈ xs) := by
  obtain ⟨es, h1, h2, h3, h4⟩ := insertAll_ok hfl hw xs hx [] (by intro e he; simp at he) List.Pairwise.nil (by simpa using hlen)
  rw [List.map_nil, List.nil_append] at h4
  have hl : es.length ≤ 2 ^ 48 := by
    have := h4.length_eq
    simp at this; omega
  obtain ⟨r, h5, h6⟩ := lookup_sound_es hfl h2 h3 hl t sn
  simp only [h4.mem_iff] at h6
  exact ⟨_, r, h1, h5, h6⟩

/-- **C22 (lookup is complete), partial.** If no *other* truncated hash was inserted with this sort number,
the lookup finds the item exactly when it was inserted. Missing: when two different hashes share bin and
sort number the search may start after the first of them (see `bin_lookup_misses`). -/
theorem bin_lookup_complete_partial {fl : Rat → Rat} (hfl : FloatOK fl) {p : Params} (hw : p.Widths)
    (xs : List Item) (hx : ∀ x ∈ xs, x.Fits p) (hlen : xs.length ≤ 2 ^ 48) (t : Bytes) (sn : Nat)
    (huniq : ∀ x ∈ xs, x.sort = sn → x.trunc = t) :
    ∃ b r, insertAll fl p [] xs = some b ∧ lookupByHash fl p b t sn = some r ∧
      ((∃ hi, r = .at hi ∧ (⟨sn, hi, t⟩ : Item) ∈ xs) ∨
       (r = .absent ∧ ∀ hi, (⟨sn, hi, t⟩ : Item) ∉ xs)) := by
  obtain ⟨es, h1, h2, h3, h4⟩ := insertAll_ok hfl hw xs hx [] (by intro e he; simp at he) List.Pairwise.nil (by simpa using hlen)
  rw [List.map_nil, List.nil_append] at h4
  have hl : es.length ≤ 2 ^ 48 := by
    have := h4.length_eq
    simp at this; omega
  obtain ⟨r, h5, h6⟩ := lookup_complete_es hfl h2 h3 hl t sn (by simpa only [h4.mem_iff] using huniq)
  simp only [h4.mem_iff] at h6
  exact ⟨_, r, h1, h5, h6⟩

/-- Parameters used in the examples: 2^16 bins, 6-byte sort numbers, 3-byte indices. -/
def demoParams : Params :=
  { bitsPerHashIndex := 19, numberOfBins := 65536, entriesInBinStart := 9, digitsPerNumberedFolder := 2,
    bytesPerSortNum := 6 }

/-- Four hashes of one bin; the second and third share their sort number. -/
def demoItems : List Item :=
  [⟨0, 0, List.replicate 24 1⟩, ⟨9, 1, List.replicate 24 2⟩, ⟨6, 2, List.replicate 24 4⟩,
   ⟨6, 3, List.replicate 24 3⟩]

theorem demo_fits : ∀ x ∈ demoItems, x.Fits demoParams := by
  intro x hx
  simp only [demoItems, List.mem_cons, List.not_mem_nil, or_false] at hx
  rcases hx with rfl | rfl | rfl | rfl <;> exact ⟨by decide, by decide, by decide⟩

theorem demo_widths : demoParams.Widths := ⟨by decide, by decide⟩

example : ∃ b, insertAll fl53 demoParams [] demoItems = some b ∧ (items demoParams b).Perm demoItems ∧
    (items demoParams b).Pairwise (fun x y => x.sort ≤ y.sort) :=
  bin_holds_insertions floatOK_fl53 demo_widths demoItems demo_fits (by decide)

example : ∃ b r, insertAll fl53 demoParams [] demoItems = some b ∧
    lookupByHash fl53 demoParams b (List.replicate 24 2) 9 = some r ∧
    ((∃ hi, r = .at hi ∧ (⟨9, hi, List.replicate 24 2⟩ : Item) ∈ demoItems) ∨
      (r = .absent ∧ ∀ hi, (⟨9, hi, List.replicate 24 2⟩ : Item) ∉ demoItems)) := by
  refine bin_lookup_complete_partial floatOK_fl53 demo_widths demoItems demo_fits (by decide) _ _ ?_
  intro x hx
  simp only [demoItems, List.mem_cons, List.not_mem_nil, or_false] at hx
  rcases hx with rfl | rfl | rfl | rfl <;> decide

theorem FloatOK.between {fl : Rat → Rat} (h : FloatOK fl) {x lo hi : Rat} (h0 : 0 ≤ lo) (h1 : lo ≤ x) (h2 : x ≤ hi) :
    lo * (1 - 1 / 2 ^ 53) ≤ fl x ∧ fl x ≤ hi * (1 + 1 / 2 ^ 53) :=
  ⟨le_trans (mul_le_mul_of_nonneg_right h1 (by norm_num)) (h.lower (by linarith)),
   le_trans (h.upper (by linarith)) (mul_le_mul_of_nonneg_right h2 (by norm_num))⟩

theorem FloatOK.zero {fl : Rat → Rat} (h : FloatOK fl) : fl 0 = 0 := by
  have := h 0
  simpa using this

/-- The estimates made in the counterexample, for any float64 rounding. -/
theorem demo_secant {fl : Rat → Rat} (h : FloatOK fl) (n : Nat) (hn : n = 2 ∨ n = 3) :
    secant fl 0 n 0 9 6 = (n : Int) - 1 := by
  unfold secant
  dsimp only
  obtain ⟨a1, a2⟩ := h.between (x := 9) (lo := 9) (hi := 9) (by norm_num) le_rfl le_rfl
  obtain ⟨c1, c2⟩ := h.between (x := 6) (lo := 6) (hi := 6) (by norm_num) le_rfl le_rfl
  have e9 : ((9 - 0 : Nat) : Rat) = 9 := by norm_num
  have e6 : ((6 - 0 : Nat) : Rat) = 6 := by norm_num
  have e0 : ((0 : Nat) : Rat) = 0 := by norm_num
  rw [e9, e6, e0, h.zero, zero_add]
  rcases hn with rfl | rfl
  · have eb : ((2 - 0 : Nat) : Rat) = 2 := by norm_num
    rw [eb]
    obtain ⟨b1, b2⟩ := h.between (x := 2) (lo := 2) (hi := 2) (by norm_num) le_rfl le_rfl
    have hB : (0 : Rat) < fl 2 := h.pos (by norm_num)
    have d1 : (44 / 10 : Rat) ≤ fl 9 / fl 2 := by rw [le_div_iff₀ hB]; linarith
    have d2 : fl 9 / fl 2 ≤ 46 / 10 := by rw [div_le_iff₀ hB]; linarith
    obtain ⟨s1, s2⟩ := h.between (by norm_num) d1 d2
    have hS : (0 : Rat) < fl (fl 9 / fl 2) := by linarith
    have q1 : (13 / 10 : Rat) ≤ fl 6 / fl (fl 9 / fl 2) := by rw [le_div_iff₀ hS]; linarith
    have q2 : fl 6 / fl (fl 9 / fl 2) ≤ 14 / 10 := by rw [div_le_iff₀ hS]; linarith
    obtain ⟨r1, r2⟩ := h.between (by norm_num) q1 q2
    obtain ⟨t1, t2⟩ := h.between (by norm_num) r1 r2
    unfold goRound
    rw [if_pos (le_trans (by norm_num) t1), Int.floor_eq_iff]
    constructor
    · push_cast; linarith
    · push_cast; linarith
  · have eb : ((3 - 0 : Nat) : Rat) = 3 := by norm_num
    rw [eb]
    obtain ⟨b1, b2⟩ := h.between (x := 3) (lo := 3) (hi := 3) (by norm_num) le_rfl le_rfl
    have hB : (0 : Rat) < fl 3 := h.pos (by norm_num)
    have d1 : (29 / 10 : Rat) ≤ fl 9 / fl 3 := by rw [le_div_iff₀ hB]; linarith
    have d2 : fl 9 / fl 3 ≤ 31 / 10 := by rw [div_le_iff₀ hB]; linarith
    obtain ⟨s1, s2⟩ := h.between (by norm_num) d1 d2
    have hS : (0 : Rat) < fl (fl 9 / fl 3) := by linarith
    have q1 : (18 / 10 : Rat) ≤ fl 6 / fl (fl 9 / fl 3) := by rw [le_div_iff₀ hS]; linarith
    have q2 : fl 6 / fl (fl 9 / fl 3) ≤ 22 / 10 := by rw [div_le_iff₀ hS]; linarith
    obtain ⟨r1, r2⟩ := h.between (by norm_num) q1 q2
    obtain ⟨t1, t2⟩ := h.between (by norm_num) r1 r2
    unfold goRound
    rw [if_pos (le_trans (by norm_num) t1), Int.floor_eq_iff]
    constructor
    · push_cast; linarith
    · push_cast; linarith

/-- An entry of the example. -/
def demoEntry (sn hi : Nat) (t : Byte) : Bytes := List.replicate 24 t ++ leEnc 3 hi ++ leEnc 6 sn

/-- The search made in the counterexamples: it stops at the last entry with sort number 6. -/
theorem demo_find {fl : Rat → Rat} (hfl : FloatOK fl) : ∀ b e, (e = 2 ∨ e = 3) → sortAt demoParams b 0 = some 0 →
    sortAt demoParams b e = some 9 → sortAt demoParams b (e - 1) = some 6 → binLen demoParams b = e + 1 → b ≠ [] →
    findIndex fl demoParams b 6 = some (e - 1) := by
  intro b e he h0 h1 h2 h3 h4
  have hh : homeIn fl demoParams b 0 e 6 = some (e - 1, e - 1) := by
    unfold homeIn
    rw [if_neg (by omega), h0]
    dsimp only
    rw [if_neg (by decide), h1]
    dsimp only
    rw [if_neg (by decide), if_neg (by decide), if_neg (by decide), if_pos (by decide), if_neg (by omega),
      demo_secant hfl e he]
    unfold nudge atMid
    rw [if_neg (by omega), if_neg (by omega), if_neg (by omega)]
    have : ((e : Int) - 1).toNat = e - 1 := by omega
    rw [this, h2]
    rfl
  unfold findIndex
  rw [if_neg h4, h3]
  dsimp only
  rw [if_neg (by omega), Nat.add_sub_cancel]
  unfold findLoop
  rw [if_neg (by omega), hh]
  dsimp only
  unfold findLoop
  rw [if_pos rfl]

/-- **C22 is violated when two hashes of a bin share their sort number.** Whatever the float64 rounding, after
inserting four hashes the last one inserted is reported absent. -/
theorem bin_lookup_misses {fl : Rat → Rat} (hfl : FloatOK fl) :
    ∃ b, insertAll fl demoParams [] demoItems = some b ∧
      (⟨6, 3, List.replicate 24 3⟩ : Item) ∈ demoItems ∧
      lookupByHash fl demoParams b (List.replicate 24 3) 6 = some .absent := by
  have hmid := @demo_find fl hfl
  let b1 := demoEntry 0 0 1
  let b2 := demoEntry 0 0 1 ++ demoEntry 9 1 2
  let b3 := demoEntry 0 0 1 ++ demoEntry 6 2 4 ++ demoEntry 9 1 2
  let b4 := demoEntry 0 0 1 ++ demoEntry 6 3 3 ++ demoEntry 6 2 4 ++ demoEntry 9 1 2
  have i1 : insertBinEntry fl demoParams [] 0 0 (List.replicate 24 1) = some (b1, 0) := by
    unfold insertBinEntry
    rw [show findIndex fl demoParams [] 0 = some 0 from rfl]
    decide +kernel
  have i2 : insertBinEntry fl demoParams b1 9 1 (List.replicate 24 2) = some (b2, 1) := by
    unfold insertBinEntry
    rw [show findIndex fl demoParams b1 9 = some 1 by
      unfold findIndex
      rw [if_neg (by decide +kernel), show binLen demoParams b1 = 1 by decide +kernel]
      dsimp only
      rw [if_pos rfl, show sortAt demoParams b1 0 = some 0 by decide +kernel]
      rfl]
    decide +kernel
  have i3 : insertBinEntry fl demoParams b2 6 2 (List.replicate 24 4) = some (b3, 1) := by
    unfold insertBinEntry
    rw [show findIndex fl demoParams b2 6 = some 1 by
      unfold findIndex
      rw [if_neg (by decide +kernel), show binLen demoParams b2 = 2 by decide +kernel]
      dsimp only
      rw [if_neg (by decide)]
      unfold findLoop
      rw [if_neg (by decide)]
      unfold homeIn
      rw [if_neg (by decide), show sortAt demoParams b2 0 = some 0 by decide +kernel]
      dsimp only
      rw [if_neg (by decide), show sortAt demoParams b2 1 = some 9 by decide +kernel]
      rfl]
    decide +kernel
  have i4 : insertBinEntry fl demoParams b3 6 3 (List.replicate 24 3) = some (b4, 1) := by
    unfold insertBinEntry
    rw [hmid b3 2 (Or.inl rfl) (by decide +kernel) (by decide +kernel) (by decide +kernel) (by decide +kernel)
      (by decide +kernel)]
    decide +kernel
  refine ⟨b4, ?_, by decide, ?_⟩
  · unfold demoItems
    simp only [insertAll, i1, i2, i3, i4]
  · unfold lookupByHash
    rw [hmid b4 3 (Or.inr rfl) (by decide +kernel) (by decide +kernel) (by decide +kernel) (by decide +kernel)
      (by decide +kernel)]
    decide +kernel

example : ∃ b, insertAll fl53 demoParams [] demoItems = some b ∧
    lookupByHash fl53 demoParams b (List.replicate 24 3) 6 = some .absent := by
  obtain ⟨b, h1, _, h2⟩ := bin_lookup_misses floatOK_fl53
  exact ⟨b, h1, h2⟩

/-! ## Lookup by index -/

theorem scanIndex_eq {p : Params} {es : List Bytes} (h : Sized p es) (hi bn : Nat) (n i : Nat)
    (hn : i + n = es.length) : scanIndex p es.flatten hi bn i n =
      some (match (es.drop i).find? fun e => entIndex p e = hi with
        | some e => hashFrom (entTrunc e) (abbrFrom p bn (entSort p e))
        | none => zeros 32) := by
  induction n generalizing i with
  | zero => rw [List.drop_eq_nil_of_le (by omega)]; rfl
  | succ n ih =>
    unfold scanIndex
    have hi' : i < es.length := by omega
    rw [getEntry_flatten h, List.getElem?_eq_getElem hi', List.drop_eq_getElem_cons hi']
    dsimp only
    by_cases h1 : entIndex p es[i] = hi
    · rw [if_pos h1, List.find?_cons_of_pos (by simpa using h1)]
    · rw [if_neg h1, List.find?_cons_of_neg (by simpa using h1), ih (i + 1) (by omega)]

theorem lookupByIndex_eq {p : Params} {es : List Bytes} (h : Sized p es) (hi bn : Nat) :
    lookupByIndex p es.flatten hi bn =
      some (match es.find? fun e => entIndex p e = hi with
        | some e => hashFrom (entTrunc e) (abbrFrom p bn (entSort p e))
        | none => zeros 32) := by
  unfold lookupByIndex
  rw [binLen_flatten h, scanIndex_eq h hi bn _ 0 (by omega), List.drop_zero]

/-- **C22 (lookup by index).** For items with distinct indices, looking up an inserted index gives back the
inserted truncated hash and the abbreviated hash made of bin number and sort number; an index that was not
inserted gives the all-zero hash. -/
theorem bin_lookup_by_index {fl : Rat → Rat} (hfl : FloatOK fl) {p : Params} (hw : p.Widths) (xs : List Item)
    (hx : ∀ x ∈ xs, x.Fits p) (hlen : xs.length ≤ 2 ^ 48) (hd : (xs.map Item.index).Nodup) (bn : Nat) :
    ∃ b, insertAll fl p [] xs = some b ∧
      (∀ x ∈ xs, lookupByIndex p b x.index bn = some (hashFrom x.trunc (abbrFrom p bn x.sort))) ∧
      (∀ hi, (∀ x ∈ xs, x.index ≠ hi) → lookupByIndex p b hi bn = some (zeros 32)) := by
  obtain ⟨es, h1, h2, h3, h4⟩ := insertAll_ok hfl hw xs hx [] (by intro e he; simp at he) List.Pairwise.nil (by simpa using hlen)
  rw [List.map_nil, List.nil_append] at h4
  refine ⟨_, h1, ?_, ?_⟩
  · intro x hxm
    rw [lookupByIndex_eq h2]
    obtain ⟨e, he, hee⟩ := List.mem_map.mp (h4.mem_iff.mpr hxm)
    cases hf : es.find? fun e => decide (entIndex p e = x.index) with
    | none =>
      rw [List.find?_eq_none] at hf
      have := hf e he
      rw [← hee] at this
      simp [itemOf] at this
    | some e' =>
      have f1 : entIndex p e' = x.index := by simpa using List.find?_some hf
      have f2 : itemOf p e' ∈ xs := h4.mem_iff.mp (List.mem_map.mpr ⟨e', List.mem_of_find?_eq_some hf, rfl⟩)
      have : itemOf p e' = x := List.inj_on_of_nodup_map hd f2 hxm f1
      rw [← this]
      rfl
  · intro hi hno
    rw [lookupByIndex_eq h2]
    cases hf : es.find? fun e => decide (entIndex p e = hi) with
    | none => rfl
    | some e' =>
      have f1 : entIndex p e' = hi := by simpa using List.find?_some hf
      have f2 : itemOf p e' ∈ xs := h4.mem_iff.mp (List.mem_map.mpr ⟨e', List.mem_of_find?_eq_some hf, rfl⟩)
      exact absurd f1 (hno _ f2)

example : ∃ b, insertAll fl53 demoParams [] demoItems = some b ∧
    (∀ x ∈ demoItems, lookupByIndex demoParams b x.index 7 = some (hashFrom x.trunc (abbrFrom demoParams 7 x.sort))) ∧
    (∀ hi, (∀ x ∈ demoItems, x.index ≠ hi) → lookupByIndex demoParams b hi 7 = some (zeros 32)) :=
  bin_lookup_by_index floatOK_fl53 demo_widths demoItems demo_fits (by decide) (by decide) 7

end Verif.Bins
