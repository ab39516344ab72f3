import Verif.Lemmas.Secant
import Verif.Lemmas.Bytes
import Verif.Lemmas.Records
import Verif.Lemmas.Lists

/-! # Bins as lists of entries -/

namespace Verif.Bins

open HashStores (Found)

theorem entrySize_pos (p : Params) : 0 < p.entrySize := by unfold Params.entrySize; omega

/-- All entries have the configured size. -/
def Sized (p : Params) (es : List Bytes) : Prop := ∀ e ∈ es, e.length = p.entrySize

theorem flatten_length {k : Nat} {es : List Bytes} (h : ∀ e ∈ es, e.length = k) :
    es.flatten.length = k * es.length := by
  induction es with
  | nil => simp
  | cons e es ih =>
    rw [List.flatten_cons, List.length_append, ih (fun x hx => h x (by simp [hx])), h e (by simp),
      List.length_cons, Nat.mul_succ, Nat.add_comm]

theorem flatten_drop {k : Nat} {es : List Bytes} (h : ∀ e ∈ es, e.length = k) (i : Nat) :
    es.flatten.drop (k * i) = (es.drop i).flatten := by
  induction es generalizing i with
  | nil => simp
  | cons e es ih =>
    cases i with
    | zero => simp
    | succ i =>
      rw [List.drop_succ_cons, ← ih (fun x hx => h x (by simp [hx])) i, List.flatten_cons, Nat.mul_succ,
        Nat.add_comm]
      have he : e.length = k := h e (by simp)
      conv => lhs; rw [← he, ← List.drop_drop, List.drop_left]
      rw [he]

theorem flatten_take {k : Nat} {es : List Bytes} (h : ∀ e ∈ es, e.length = k) (i : Nat) :
    es.flatten.take (k * i) = (es.take i).flatten := by
  induction es generalizing i with
  | nil => simp
  | cons e es ih =>
    cases i with
    | zero => simp
    | succ i =>
      have he : e.length = k := h e (by simp)
      rw [List.take_succ_cons, List.flatten_cons, List.flatten_cons, ← ih (fun x hx => h x (by simp [hx])) i,
        Nat.mul_succ, Nat.add_comm, List.take_append, he, Nat.add_sub_cancel_left, List.take_of_length_le (by omega)]

theorem getEntry_flatten {p : Params} {es : List Bytes} (h : Sized p es) (i : Nat) :
    getEntry p es.flatten i = es[i]? := by
  unfold getEntry readAt
  rw [flatten_length h]
  have hp := entrySize_pos p
  by_cases hi : i < es.length
  · have : p.entrySize * (i + 1) ≤ p.entrySize * es.length := Nat.mul_le_mul_left _ hi
    rw [Nat.mul_succ] at this
    rw [if_pos this, flatten_drop h, List.drop_eq_getElem_cons hi, List.flatten_cons,
      List.take_append_of_le_length (by rw [h _ (List.getElem_mem hi)]),
      List.take_of_length_le (by rw [h _ (List.getElem_mem hi)]), List.getElem?_eq_getElem hi]
  · have : p.entrySize * es.length ≤ p.entrySize * i := Nat.mul_le_mul_left _ (by omega)
    rw [if_neg (by omega), List.getElem?_eq_none (by omega)]

theorem binLen_flatten {p : Params} {es : List Bytes} (h : Sized p es) : binLen p es.flatten = es.length := by
  unfold binLen
  rw [flatten_length h, Nat.mul_div_cancel_left _ (entrySize_pos p)]

theorem flatten_eq_nil {p : Params} {es : List Bytes} (h : Sized p es) : es.flatten = [] ↔ es = [] := by
  constructor
  · intro hn
    have := flatten_length h
    rw [hn, List.length_nil] at this
    have hp := entrySize_pos p
    rcases Nat.mul_eq_zero.mp this.symm with h0 | h0
    · omega
    · exact List.length_eq_zero_iff.mp h0
  · rintro rfl; rfl

theorem recs_flatten {p : Params} {es : List Bytes} (h : Sized p es) : recs p.entrySize es.flatten = es := by
  apply List.ext_getElem?
  intro i
  rw [recs_getElem?, flatten_length h, Nat.mul_div_cancel_left _ (entrySize_pos p)]
  have := getEntry_flatten h i
  unfold getEntry readAt at this
  by_cases hi : i < es.length
  · rw [if_pos hi, ← this, flatten_length h]
    have h2 : p.entrySize * (i + 1) ≤ p.entrySize * es.length := Nat.mul_le_mul_left _ hi
    rw [Nat.mul_succ] at h2
    rw [if_pos h2, slice, Nat.mul_comm]
  · rw [if_neg hi, List.getElem?_eq_none (by omega)]

/-- Sort numbers never decrease along the bin. -/
def SortedBy (p : Params) (es : List Bytes) : Prop := es.Pairwise fun a b => entSort p a ≤ entSort p b

theorem SortedBy.le {p : Params} {es : List Bytes} (h : SortedBy p es) {i j : Nat} {a b : Bytes}
    (hij : i ≤ j) (ha : es[i]? = some a) (hb : es[j]? = some b) : entSort p a ≤ entSort p b := by
  rcases Nat.eq_or_lt_of_le hij with rfl | hlt
  · rw [ha] at hb; simp only [Option.some.injEq] at hb; rw [hb]
  · obtain ⟨hi, rfl⟩ := List.getElem?_eq_some_iff.mp ha
    obtain ⟨hj, rfl⟩ := List.getElem?_eq_some_iff.mp hb
    exact List.pairwise_iff_getElem.mp h i j hi hj hlt

/-- What the search promises about index `i` for sort number `sn`. -/
structure SearchSpec (p : Params) (es : List Bytes) (sn i : Nat) : Prop where
  le : i ≤ es.length
  before : ∀ j e, j < i → es[j]? = some e → entSort p e ≤ sn
  after : ∀ j e, i ≤ j → es[j]? = some e → sn ≤ entSort p e
  hit : (∃ e ∈ es, entSort p e = sn) → ∃ e, es[i]? = some e ∧ entSort p e = sn

theorem sortAt_flatten {p : Params} {es : List Bytes} (h : Sized p es) (i : Nat) :
    sortAt p es.flatten i = es[i]?.map (entSort p) := by
  unfold sortAt; rw [getEntry_flatten h]

theorem stepBack_ok {p : Params} {es : List Bytes} (h : Sized p es) (hs : SortedBy p es) {sn a : Nat} {ea : Bytes}
    (hea : es[a]? = some ea) (hlt : entSort p ea < sn) (i : Nat) (hai : a < i) (hi : i < es.length)
    (hat : ∀ e, es[i]? = some e → entSort p e = sn) :
    ∃ r, stepBack p es.flatten sn i = some r ∧ r ≤ i ∧ 0 < r ∧ (∃ e, es[r]? = some e ∧ entSort p e = sn) ∧
      (∃ e, es[r-1]? = some e ∧ entSort p e < sn) := by
  induction i with
  | zero => omega
  | succ i ih =>
    have hi' : i < es.length := by omega
    have hge : es[i]? = some es[i] := List.getElem?_eq_getElem hi'
    unfold stepBack
    rw [sortAt_flatten h, hge, Option.map_some]
    dsimp only
    by_cases he : entSort p es[i] = sn
    · rw [if_pos he]
      have hai' : a < i := by
        rcases Nat.eq_or_lt_of_le (Nat.le_of_lt_succ hai) with rfl | h'
        · rw [hge] at hea
          simp only [Option.some.injEq] at hea
          rw [hea] at he
          omega
        · exact h'
      obtain ⟨r, h1, h2, h3⟩ := ih hai' hi' (by
        intro e hee; rw [hge] at hee; simp only [Option.some.injEq] at hee; rw [← hee]; exact he)
      exact ⟨r, h1, by omega, h3⟩
    · rw [if_neg he]
      have hgs : es[i+1]? = some es[i+1] := List.getElem?_eq_getElem hi
      have h1 := hat _ hgs
      refine ⟨i + 1, rfl, Nat.le_refl _, by omega, ⟨_, hgs, h1⟩, ⟨es[i], by rw [Nat.add_sub_cancel]; exact hge, ?_⟩⟩
      have := hs.le (Nat.le_succ i) hge hgs
      omega

theorem nudge_strict {s e : Nat} {m : Int} (h1 : (s : Int) ≤ m) (h2 : m ≤ e) (h : 2 ≤ e - s) :
    (s : Int) < nudge s e m ∧ nudge s e m < e := by
  unfold nudge
  split
  · omega
  · split <;> omega

/-- One round of the search: either it ends with a correct index, or the interval shrinks. -/
theorem homeIn_ok {fl : Rat → Rat} (hfl : FloatOK fl) {p : Params} {es : List Bytes} (h : Sized p es)
    (hs : SortedBy p es) (hlen : es.length ≤ 2 ^ 48) {sn s e : Nat} (hse : s < e) (he : e < es.length)
    (hl : s = 0 ∨ ∀ x, es[s]? = some x → entSort p x < sn)
    (hr : e = es.length - 1 ∨ ∀ x, es[e]? = some x → sn < entSort p x) :
    ∃ s' e', homeIn fl p es.flatten s e sn = some (s', e') ∧
      ((s' = e' ∧ SearchSpec p es sn s') ∨
       (s' < e' ∧ e' < es.length ∧ e' - s' < e - s ∧
        (s' = 0 ∨ ∀ x, es[s']? = some x → entSort p x < sn) ∧
        (e' = es.length - 1 ∨ ∀ x, es[e']? = some x → sn < entSort p x))) := by
  have hgs : es[s]? = some es[s] := List.getElem?_eq_getElem (by omega)
  have hge : es[e]? = some es[e] := List.getElem?_eq_getElem he
  unfold homeIn
  rw [if_neg (by omega), sortAt_flatten h, hgs, Option.map_some]
  dsimp only
  by_cases c1 : sn ≤ entSort p es[s]
  · rw [if_pos c1]
    refine ⟨s, s, rfl, Or.inl ⟨rfl, ?_⟩⟩
    have hs0 : s = 0 := by
      rcases hl with h0 | h0
      · exact h0
      · have := h0 _ hgs; omega
    subst hs0
    refine ⟨by omega, by intro j e hj; omega, ?_, ?_⟩
    · intro j x _ hx
      have := hs.le (Nat.zero_le j) hgs hx
      omega
    · rintro ⟨x, hx, hxs⟩
      obtain ⟨j, hj, rfl⟩ := List.getElem_of_mem hx
      have := hs.le (Nat.zero_le j) hgs (List.getElem?_eq_getElem hj)
      exact ⟨_, hgs, by omega⟩
  rw [if_neg c1, sortAt_flatten h, hge, Option.map_some]
  dsimp only
  by_cases c2 : sn > entSort p es[e]
  · rw [if_pos c2]
    have hel : e = es.length - 1 := by
      rcases hr with h0 | h0
      · exact h0
      · have := h0 _ hge; omega
    have hall : ∀ (j : Nat) x, es[j]? = some x → entSort p x < sn := by
      intro j x hx
      have hj := lt_of_getElem?_some hx
      have := hs.le (show j ≤ e by omega) hx hge
      omega
    refine ⟨e + 1, e + 1, rfl, Or.inl ⟨rfl, ⟨by omega, ?_, ?_, ?_⟩⟩⟩
    · intro j x _ hx; have := hall j x hx; omega
    · intro j x hj hx
      have := lt_of_getElem?_some hx
      omega
    · rintro ⟨x, hx, hxs⟩
      obtain ⟨j, hj, rfl⟩ := List.getElem_of_mem hx
      have := hall j _ (List.getElem?_eq_getElem hj)
      omega
  rw [if_neg c2, if_neg (by omega), if_neg (by omega)]
  by_cases c3 : entSort p es[e] > sn
  · rw [if_pos c3]
    by_cases c4 : e - s = 1
    · rw [if_pos c4]
      have hb : ∀ j x, j < e → es[j]? = some x → entSort p x < sn := by
        intro j x hj hx
        have := hs.le (show j ≤ s by omega) hx hgs
        omega
      have ha : ∀ j x, e ≤ j → es[j]? = some x → sn < entSort p x := by
        intro j x hj hx
        have := hs.le hj hge hx
        omega
      refine ⟨e, e, rfl, Or.inl ⟨rfl, ⟨by omega, fun j x hj hx => Nat.le_of_lt (hb j x hj hx),
        fun j x hj hx => Nat.le_of_lt (ha j x hj hx), ?_⟩⟩⟩
      rintro ⟨x, hx, hxs⟩
      obtain ⟨j, hj, rfl⟩ := List.getElem_of_mem hx
      rcases Nat.lt_or_ge j e with hje | hje
      · have := hb j _ hje (List.getElem?_eq_getElem hj); omega
      · have := ha j _ hje (List.getElem?_eq_getElem hj); omega
    · rw [if_neg c4]
      obtain ⟨m1, m2⟩ := secant_in_range hfl (s := s) (e := e) (snS := entSort p es[s]) (snE := entSort p es[e])
        (sn := sn) hse (by omega) (by omega) (by omega)
      obtain ⟨n1, n2⟩ := nudge_strict m1 m2 (by omega)
      generalize nudge s e (secant fl s e (entSort p es[s]) (entSort p es[e]) sn) = mid at n1 n2 ⊢
      obtain ⟨m, rfl⟩ : ∃ m : Nat, mid = m := ⟨mid.toNat, by omega⟩
      have hm1 : s < m := by omega
      have hm2 : m < e := by omega
      have hgm : es[m]? = some es[m] := List.getElem?_eq_getElem (by omega)
      unfold atMid
      rw [if_neg (by omega), Int.toNat_natCast, sortAt_flatten h, hgm, Option.map_some]
      dsimp only
      by_cases d1 : entSort p es[m] < sn
      · rw [if_pos d1]
        refine ⟨m, e, rfl, Or.inr ⟨hm2, he, by omega, Or.inr ?_, hr⟩⟩
        intro x hx; rw [hgm] at hx; simp only [Option.some.injEq] at hx; rw [← hx]; exact d1
      · rw [if_neg d1]
        by_cases d2 : entSort p es[m] > sn
        · rw [if_pos d2]
          refine ⟨s, m, rfl, Or.inr ⟨hm1, by omega, by omega, hl, Or.inr ?_⟩⟩
          intro x hx; rw [hgm] at hx; simp only [Option.some.injEq] at hx; rw [← hx]; exact d2
        · rw [if_neg d2]
          refine ⟨m, m, rfl, Or.inl ⟨rfl, ⟨by omega, ?_, ?_, ?_⟩⟩⟩
          · intro j x hj hx; have := hs.le (Nat.le_of_lt hj) hx hgm; omega
          · intro j x hj hx; have := hs.le hj hgm hx; omega
          · intro _; exact ⟨_, hgm, by omega⟩
  · rw [if_neg c3]
    obtain ⟨r, h1, h2, h3, ⟨x, hx, hxs⟩, ⟨y, hy, hys⟩⟩ := stepBack_ok h hs hgs (show entSort p es[s] < sn by omega) e
      hse he (by intro x hx; rw [hge] at hx; simp only [Option.some.injEq] at hx; rw [← hx]; omega)
    rw [h1]
    refine ⟨r, r, rfl, Or.inl ⟨rfl, ⟨by omega, ?_, ?_, fun _ => ⟨x, hx, hxs⟩⟩⟩⟩
    · intro j z hj hz; have := hs.le (show j ≤ r - 1 by omega) hz hy; omega
    · intro j z hj hz; have := hs.le hj hx hz; omega

theorem findLoop_ok {fl : Rat → Rat} (hfl : FloatOK fl) {p : Params} {es : List Bytes} (h : Sized p es)
    (hs : SortedBy p es) (hlen : es.length ≤ 2 ^ 48) {sn : Nat} (fuel : Nat) (s e : Nat) (hse : s < e)
    (he : e < es.length) (hfuel : e - s + 2 ≤ fuel)
    (hl : s = 0 ∨ ∀ x, es[s]? = some x → entSort p x < sn)
    (hr : e = es.length - 1 ∨ ∀ x, es[e]? = some x → sn < entSort p x) :
    ∃ i, findLoop fl p es.flatten sn fuel (s, e) = some i ∧ SearchSpec p es sn i := by
  induction fuel generalizing s e with
  | zero => omega
  | succ fuel ih =>
    obtain ⟨s', e', h1, h2⟩ := homeIn_ok hfl h hs hlen hse he hl hr
    unfold findLoop
    rw [if_neg (by omega), h1]
    dsimp only
    rcases h2 with ⟨rfl, h2⟩ | ⟨a1, a2, a3, a4, a5⟩
    · refine ⟨s', ?_, h2⟩
      obtain ⟨f, rfl⟩ : ∃ f, fuel = f + 1 := ⟨fuel - 1, by omega⟩
      unfold findLoop
      rw [if_pos rfl]
    · exact ih s' e' a1 a2 (by omega) a4 a5

theorem findIndex_ok {fl : Rat → Rat} (hfl : FloatOK fl) {p : Params} {es : List Bytes} (h : Sized p es)
    (hs : SortedBy p es) (hlen : es.length ≤ 2 ^ 48) (sn : Nat) :
    ∃ i, findIndex fl p es.flatten sn = some i ∧ SearchSpec p es sn i := by
  unfold findIndex
  by_cases hnil : es = []
  · subst hnil
    refine ⟨0, by simp, ⟨by simp, by intro j e hj; omega, by simp, by simp⟩⟩
  · rw [if_neg (by rwa [flatten_eq_nil h]), binLen_flatten h]
    have hpos : 0 < es.length := List.length_pos_iff.mpr hnil
    dsimp only
    by_cases h0 : es.length - 1 = 0
    · rw [if_pos h0, sortAt_flatten h, List.getElem?_eq_getElem hpos, Option.map_some]
      dsimp only
      have hone : ∀ (j : Nat) x, es[j]? = some x → x = es[0] := by
        intro j x hx
        have hj := lt_of_getElem?_some hx
        obtain rfl : j = 0 := by omega
        rw [List.getElem?_eq_getElem hpos] at hx
        simpa using hx.symm
      by_cases hc : sn > entSort p es[0]
      · rw [if_pos hc]
        refine ⟨1, rfl, ⟨by omega, ?_, ?_, ?_⟩⟩
        · intro j x _ hx; rw [hone j x hx]; omega
        · intro j x hj hx; have := lt_of_getElem?_some hx; omega
        · rintro ⟨x, hx, hxs⟩
          obtain ⟨j, hj, rfl⟩ := List.getElem_of_mem hx
          rw [hone j _ (List.getElem?_eq_getElem hj)] at hxs
          omega
      · rw [if_neg hc]
        refine ⟨0, rfl, ⟨by omega, by intro j e hj; omega, ?_, ?_⟩⟩
        · intro j x _ hx; rw [hone j x hx]; omega
        · rintro ⟨x, hx, hxs⟩
          obtain ⟨j, hj, rfl⟩ := List.getElem_of_mem hx
          rw [hone j _ (List.getElem?_eq_getElem hj)] at hxs
          exact ⟨_, List.getElem?_eq_getElem hpos, hxs⟩
    · rw [if_neg h0]
      exact findLoop_ok hfl h hs hlen _ 0 (es.length - 1) (by omega) (by omega) (by omega) (Or.inl rfl) (Or.inl rfl)

theorem copyAt_mid (a d l r : Bytes) (hlr : l.length = r.length) : copyAt (a ++ l ++ d) a.length r = a ++ r ++ d := by
  unfold copyAt
  rw [List.append_assoc a l d, List.take_left, List.length_append, Nat.add_sub_cancel_left]
  rw [List.take_of_length_le (by simp; omega)]
  congr 1
  rw [← List.drop_drop, List.drop_left, ← hlr, List.drop_left]

/-- Insertion: everything before stays, everything after moves up by one. -/
theorem insert_ok {fl : Rat → Rat} (hfl : FloatOK fl) {p : Params} {es : List Bytes} (h : Sized p es)
    (hs : SortedBy p es) (hlen : es.length ≤ 2 ^ 48) {sn hi : Nat} {t en : Bytes}
    (henc : encEntry p t hi sn = some en) (hen : en.length = p.entrySize) :
    ∃ i, insertBinEntry fl p es.flatten sn hi t = some ((es.take i ++ en :: es.drop i).flatten, i) ∧
      SearchSpec p es sn i := by
  obtain ⟨i, h1, h2⟩ := findIndex_ok hfl h hs hlen sn
  refine ⟨i, ?_, h2⟩
  have hile := h2.le
  unfold insertBinEntry
  rw [henc, h1]
  dsimp only
  rw [binLen_flatten h, if_neg (by omega)]
  by_cases hnil : es = []
  · subst hnil
    simp
  · rw [if_neg (by rwa [flatten_eq_nil h])]
    have hpos : 0 < es.length := List.length_pos_iff.mpr hnil
    congr 2
    have hl : slice es.flatten (p.entrySize * (es.length - 1)) p.entrySize = es[es.length - 1] := by
      have := getEntry_flatten h (es.length - 1)
      unfold getEntry readAt at this
      rw [List.getElem?_eq_getElem (by omega)] at this
      split at this
      · simpa [slice] using this
      · exact absurd this (by simp)
    rw [hl]
    have hll : es[es.length - 1].length = p.entrySize := h _ (List.getElem_mem _)
    generalize es[es.length - 1] = l at hll
    have hsplit : es.flatten = (es.take i).flatten ++ (es.drop i).flatten := by
      rw [← List.flatten_append, List.take_append_drop]
    have hal : (es.take i).flatten.length = p.entrySize * i := by
      rw [flatten_length (fun e he => h e (List.mem_of_mem_take he)), List.length_take, Nat.min_eq_left hile]
    have hdl : (es.drop i).flatten.length = p.entrySize * es.length - p.entrySize * i := by
      rw [flatten_length (fun e he => h e (List.mem_of_mem_drop he)), List.length_drop, Nat.mul_sub]
    rw [List.flatten_append, List.flatten_cons, hsplit]
    generalize (es.take i).flatten = a at hal
    generalize (es.drop i).flatten = d at hdl
    have hsl : slice (a ++ d ++ l) (p.entrySize * i) (p.entrySize * es.length - p.entrySize * i) = d := by
      unfold slice
      rw [List.append_assoc, ← hal, List.drop_left, hal, ← hdl, List.take_left]
    rw [hsl]
    have hc1 : copyAt (a ++ d ++ l) (p.entrySize * (i + 1)) d = a ++ (d ++ l).take p.entrySize ++ d := by
      have e1 : p.entrySize * (i + 1) = a.length + p.entrySize := by rw [hal, Nat.mul_succ]
      unfold copyAt
      rw [e1, List.append_assoc a d l, List.take_append, Nat.add_sub_cancel_left, List.take_of_length_le (by omega)]
      rw [List.take_of_length_le (l := d) (by simp; omega), List.drop_eq_nil_of_le (by simp; omega),
        List.append_nil]
    rw [hc1, ← hal, copyAt_mid _ _ _ _ (by rw [List.length_take, List.length_append]; omega)]
    rw [List.append_assoc]

end Verif.Bins
