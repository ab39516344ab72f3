import Verif.Props.Chunk

/-!
# The way down a decision tree to a hash
-/

namespace Verif.ShallowTree

open Verif.Chunk

theorem setBits_flip {f : Flags} {bi : Nat} (hf : f bi = true) (ex : List Nat) :
    ((setBits (flip f bi)).filter fun i => decide (i ∉ ex)) = (setBits f).filter fun i => decide (i ∉ bi :: ex) := by
  unfold setBits
  rw [List.filter_filter, List.filter_filter]
  apply List.filter_congr
  intro i _
  unfold ShallowTree.flip
  by_cases h : i = bi
  · subst h; simp [hf]
  · simp [h]

/-- The way to a hash: the places examined tell it from all others; and whatever has the same bytes in these places and
the reassurance places is taken for it. -/
theorem built_path {r hl : Nat} {l : List Entry} {f : Flags} {t : Tree} (hB : Built r hl l f t) :
    ∀ (p : List UInt8), ∀ e ∈ l, ∃ (ex : List Nat) (n : Named), ex.Nodup ∧ (∀ i ∈ ex, i < hl ∧ f i = true) ∧ n ∈ preorder p t ∧
      n.1.length = p.length + ex.length ∧ (∀ e' ∈ l, e' ≠ e → ∃ i ∈ ex, byteAt e'.hash i ≠ byteAt e.hash i) ∧
      ∀ q : Bytes, (∀ i ∈ ex, byteAt q i = byteAt e.hash i) →
        (∀ i ∈ ((setBits f).filter fun i => decide (i ∉ ex)).take r, byteAt q i = byteAt e.hash i) →
        lookupFrom q t f = some e.pi := by
  induction hB with
  | empty => intro p e h; simp at h
  | @leaf e f =>
    intro p e' he'
    rw [List.mem_singleton] at he'
    subst he'
    refine ⟨[], (p, .leaf (reassurance f r e'.hash) e'.pi), by simp, by simp, by simp [preorder], rfl, ?_, ?_⟩
    · intro e'' he'' hne
      exact absurd (List.mem_singleton.1 he'') hne
    · intro q _ hq
      have hf : ((setBits f).filter fun i => decide (i ∉ ([] : List Nat))) = setBits f := by
        rw [List.filter_eq_self]; simp
      rw [hf] at hq
      have hm : reassurance f r e'.hash = ((setBits f).take r).map (byteAt q) := by
        unfold reassurance
        exact List.map_congr_left fun i hi => (hq i hi).symm
      rw [lookupFrom, hm, check_own]
  | @slots l f bi next runs h1 h2 h3 hp hb ih =>
    intro p e he
    obtain ⟨ex, n, g1, g2, g3, g4, g5, g6⟩ := ih (byteAt e.hash bi) (p ++ [byteAt e.hash bi]) e
      ((hp _).mem_iff.2 (List.mem_filter.2 ⟨he, by simp⟩))
    have hnot : bi ∉ ex := by
      intro h
      have := (g2 bi h).2
      simp [ShallowTree.flip, h2] at this
    refine ⟨bi :: ex, n, List.nodup_cons.2 ⟨hnot, g1⟩, ?_, ?_, ?_, ?_, ?_⟩
    · intro i hi
      rcases List.mem_cons.1 hi with rfl | hi'
      · exact ⟨h1, h2⟩
      · have hne : i ≠ bi := by rintro rfl; exact hnot hi'
        have := g2 i hi'
        simp only [ShallowTree.flip] at this
        rw [if_neg hne] at this
        exact this
    · simp only [preorder, List.mem_cons, List.mem_flatMap]
      exact .inr ⟨byteAt e.hash bi, by simp [mem_allBytes], g3⟩
    · rw [g4]
      simp only [List.length_append, List.length_cons, List.length_nil]
      omega
    · intro e' he' hne
      by_cases hb' : byteAt e'.hash bi = byteAt e.hash bi
      · obtain ⟨i, hi, hd⟩ := g5 e' ((hp _).mem_iff.2 (List.mem_filter.2 ⟨he', by simpa using hb'⟩)) hne
        exact ⟨i, by simp [hi], hd⟩
      · exact ⟨bi, by simp, hb'⟩
    · intro q hq1 hq2
      have hbi := hq1 bi (by simp)
      rw [← setBits_flip h2] at hq2
      have := g6 q (fun i hi => hq1 i (by simp [hi])) hq2
      rw [lookupFrom, hbi]
      exact this

theorem length_le_of_subset {a b : List Nat} (ha : a.Nodup) (h : ∀ i ∈ a, i ∈ b) : a.length ≤ b.length := by
  induction a generalizing b with
  | nil => simp
  | cons x a ih =>
    rw [List.nodup_cons] at ha
    have hx := h x (by simp)
    have := ih ha.2 (b := b.erase x) (by
      intro i hi
      have hne : i ≠ x := by rintro rfl; exact ha.1 hi
      exact (List.mem_erase_of_ne hne).2 (h i (by simp [hi])))
    rw [List.length_erase_of_mem hx] at this
    have := List.length_pos_of_mem hx
    simp only [List.length_cons]
    omega

/-- A hash among others that differ from it in one place each: the way to it is as long as there are such places. -/
theorem deep_path {r hl : Nat} {l : List Entry} {f : Flags} {t : Tree} (hB : Built r hl l f t) {e : Entry} (he : e ∈ l)
    {places : List Nat} (hn : places.Nodup)
    (hv : ∀ i ∈ places, ∃ e' ∈ l, e'.hash ≠ e.hash ∧ ∀ j, j ≠ i → byteAt e'.hash j = byteAt e.hash j) :
    places.length < levelCount (visitAll t) := by
  obtain ⟨ex, n, g1, -, g3, g4, g5, -⟩ := built_path hB [] e he
  have hsub : ∀ i ∈ places, i ∈ ex := by
    intro i hi
    obtain ⟨e', he', hne, hall⟩ := hv i hi
    obtain ⟨j, hj, hd⟩ := g5 e' he' (by rintro rfl; exact hne rfl)
    by_cases h : j = i
    · subst h; exact hj
    · exact absurd (hall j h) hd
  have h1 := length_le_of_subset hn hsub
  have h2 := (levelCount_fold (visitAll t) 0).2.1 n (by rw [visitAll_eq]; exact g3)
  unfold levelCount
  simp only [List.length_nil, Nat.zero_add] at g4
  omega

/-- Above a node far down there are two different hashes with the same bytes in many places. -/
theorem agreeing_pair {r hl : Nat} {l : List Entry} {f : Flags} {t : Tree} (hB : Built r hl l f t) :
    ∀ (p : List UInt8), ∀ n ∈ preorder p t, p.length < n.1.length → ∃ x ∈ l, ∃ y ∈ l, x.hash ≠ y.hash ∧ ∃ ex : List Nat, ex.Nodup ∧
      (∀ i ∈ ex, i < hl ∧ f i = true ∧ byteAt x.hash i = byteAt y.hash i) ∧ n.1.length ≤ p.length + 1 + ex.length := by
  induction hB with
  | empty => intro p n hn; simp [preorder] at hn
  | leaf =>
    intro p n hn hl
    simp only [preorder, List.mem_singleton] at hn
    subst hn
    simp at hl
  | @slots l f bi next runs h1 h2 h3 hp hb ih =>
    intro p n hn hl
    simp only [preorder, List.mem_cons, List.mem_flatMap] at hn
    rcases hn with rfl | ⟨b, -, hn⟩
    · simp at hl
    · by_cases hlt : (p ++ [b]).length < n.1.length
      · obtain ⟨x, hx, y, hy, hne, ex, g1, g2, g3⟩ := ih b (p ++ [b]) n hn hlt
        have hx' := List.mem_filter.1 ((hp b).mem_iff.1 hx)
        have hy' := List.mem_filter.1 ((hp b).mem_iff.1 hy)
        have hnot : bi ∉ ex := by
          intro h
          have := (g2 bi h).2.1
          simp [ShallowTree.flip, h2] at this
        refine ⟨x, hx'.1, y, hy'.1, hne, bi :: ex, List.nodup_cons.2 ⟨hnot, g1⟩, ?_, ?_⟩
        · intro i hi
          rcases List.mem_cons.1 hi with rfl | hi'
          · have e1 := hx'.2
            have e2 := hy'.2
            simp only [decide_eq_true_eq] at e1 e2
            exact ⟨h1, h2, e1.trans e2.symm⟩
          · have hne : i ≠ bi := by rintro rfl; exact hnot hi'
            have := g2 i hi'
            simp only [ShallowTree.flip] at this
            rw [if_neg hne] at this
            exact this
        · simp only [List.length_append, List.length_cons, List.length_nil] at g3 ⊢
          omega
      · obtain ⟨x, hx, y, hy, hxy⟩ := h3
        refine ⟨x, hx, y, hy, fun h => hxy (by rw [h]), [], by simp, by simp, ?_⟩
        simp only [List.length_append, List.length_cons, List.length_nil] at hlt ⊢
        omega

/-- If no two different hashes have the same byte in `d` places, no node has more than `d` above it. -/
theorem levels_of_spread {r hl d : Nat} {l : List Entry} {f : Flags} {t : Tree} (hB : Built r hl l f t)
    (hs : ∀ x ∈ l, ∀ y ∈ l, x.hash ≠ y.hash → ((List.range hl).countP fun i => decide (byteAt x.hash i = byteAt y.hash i)) < d) :
    levelCount (visitAll t) ≤ d + 1 := by
  unfold levelCount
  refine (levelCount_fold (visitAll t) 0).2.2 _ (by omega) ?_
  intro n hn
  rw [visitAll_eq] at hn
  rcases Nat.eq_zero_or_pos n.1.length with h0 | h0
  · omega
  · obtain ⟨x, hx, y, hy, hne, ex, g1, g2, g3⟩ := agreeing_pair hB [] n hn (by simpa using h0)
    have h1 := hs x hx y hy hne
    rw [List.countP_eq_length_filter] at h1
    have h2 := length_le_of_subset g1 (b := (List.range hl).filter fun i => decide (byteAt x.hash i = byteAt y.hash i)) (by
      intro i hi
      rw [List.mem_filter, List.mem_range]
      exact ⟨(g2 i hi).1, by simpa using (g2 i hi).2.2⟩)
    simp only [List.length_nil] at g3
    omega

/-- A byte other than the given one. -/
def otherByte (b : UInt8) : UInt8 := b + 1

theorem otherByte_ne (b : UInt8) : otherByte b ≠ b := by
  unfold otherByte
  intro h
  have := congrArg UInt8.toNat h
  rw [UInt8.toNat_add] at this
  have := b.toNat_lt
  simp at *

theorem byteAt_set {h : Bytes} {j : Nat} (hj : j < h.length) (v : UInt8) (i : Nat) :
    byteAt (h.set j v) i = if i = j then v else byteAt h i := by
  unfold byteAt
  rw [List.getD_eq_getElem?_getD, List.getElem?_set]
  by_cases hij : i = j
  · subst hij
    simp [hj]
  · rw [if_neg (by omega), if_neg hij]
    rfl

/-- If the tree has few levels, there are places not examined on the way to a hash: what differs from it in such a place
only is taken for it. -/
theorem taken_for {r hl : Nat} (h64 : hl ≤ 64) {l : List Entry} {t : Tree} (hB : Built r hl l (allUnused hl) t)
    (hr : levelCount (visitAll t) + r ≤ hl) {e : Entry} (he : e ∈ l) (hlen : e.hash.length = hl) :
    ∃ j < hl, ∀ v, lookupFrom (e.hash.set j v) t (allUnused hl) = some e.pi := by
  obtain ⟨ex, n, g1, g2, g3, g4, -, g6⟩ := built_path hB [] e he
  have h2 := (levelCount_fold (visitAll t) 0).2.1 n (by rw [visitAll_eq]; exact g3)
  have hexl : ex.length < levelCount (visitAll t) := by
    unfold levelCount
    simp only [List.length_nil, Nat.zero_add] at g4
    omega
  have hsb : setBits (allUnused hl) = List.range hl := by
    apply List.ext_getElem?
    intro i
    unfold setBits
    have hr : List.range 64 = List.range hl ++ (List.range' hl (64 - hl)) := by
      rw [List.range_eq_range', List.range_eq_range']
      have := List.range'_append_1 (s := 0) (m := hl) (n := 64 - hl)
      rw [Nat.zero_add] at this
      rw [this]
      congr 1
      omega
    rw [hr, List.filter_append, List.filter_eq_self.2 (by intro a ha; simpa [allUnused] using List.mem_range.1 ha),
      List.filter_eq_nil_iff.2 (by
        intro a ha
        rw [List.mem_range'_1] at ha
        simp [allUnused]
        omega), List.append_nil]
  rw [hsb] at g6
  generalize hfree : (List.range hl).filter (fun i => decide (i ∉ ex)) = free at g6
  have hnd : free.Nodup := by rw [← hfree]; exact List.nodup_range.filter _
  have hcount : hl ≤ free.length + ex.length := by
    have h3 : (List.range hl).length = ((List.range hl).filter fun i => decide (i ∈ ex)).length + free.length := by
      rw [← hfree, ← List.countP_eq_length_filter, ← List.countP_eq_length_filter]
      have := List.length_eq_countP_add_countP (fun i => decide (i ∈ ex)) (l := List.range hl)
      rw [this]
      congr 1
      apply List.countP_congr
      intro i _
      simp
    have h4 : ((List.range hl).filter fun i => decide (i ∈ ex)).length ≤ ex.length :=
      length_le_of_subset (List.nodup_range.filter _) (by
        intro i hi
        simpa using (List.mem_filter.1 hi).2)
    rw [List.length_range] at h3
    omega
  have hrl : r < free.length := by omega
  have hjm : free[r] ∈ free := List.getElem_mem hrl
  have hj : free[r] < hl ∧ free[r] ∉ ex := by
    have : free[r] ∈ (List.range hl).filter (fun i => decide (i ∉ ex)) := by rw [hfree]; exact hjm
    rw [List.mem_filter, List.mem_range] at this
    exact ⟨this.1, by simpa using this.2⟩
  refine ⟨free[r], hj.1, fun v => g6 _ ?_ ?_⟩
  · intro i hi
    rw [byteAt_set (by omega), if_neg]
    rintro rfl
    exact hj.2 hi
  · intro i hi
    rw [byteAt_set (by omega), if_neg]
    rintro rfl
    obtain ⟨k, hk⟩ := List.getElem?_of_mem hi
    rw [List.getElem?_take] at hk
    split at hk
    · next hkr =>
      obtain ⟨hk1, hk2⟩ := List.getElem?_eq_some_iff.1 hk
      have := (List.getElem_inj hnd).1 hk2
      omega
    · cases hk

end Verif.ShallowTree
