import Verif.Model.SingleTreeMemory
import Verif.Props.SingleTree
import Verif.Lemmas.ForestLeaves
import Verif.Lemmas.ChunkTotal

/-!
# C104: the tree of one prefix in memory

It has every hash at one leaf, answers exactly, and is no larger than need be.
-/

namespace Verif.SingleTree

open Verif.ShallowTree Verif.Chunk
open Verif.DonutForest (perm_classes perm_flatMap)

/-! ## Specification -/

/-- The right answer: the presentation index given with the hash, or 0. -/
def answer (l : List Entry) (h : Bytes) : Int := ((l.find? fun e => e.hash = h).map (·.pi)).getD 0

/-! ## Lemmas -/

theorem placed_getElem? (l : List Entry) (k : Nat) : (placed l)[k]? = (l[k]?).map fun e => ⟨e.hash, k⟩ := by
  unfold placed
  rw [List.getElem?_mapIdx]

theorem placed_hash (l : List Entry) : (placed l).map (·.hash) = l.map (·.hash) := by
  apply List.ext_getElem?
  intro k
  rw [List.getElem?_map, List.getElem?_map, placed_getElem?]
  cases l[k]? <;> rfl

theorem placed_length (l : List Entry) : (placed l).length = l.length := by simp [placed]

theorem placed_mem {l : List Entry} {e : Entry} (h : e ∈ placed l) : ∃ x, l[e.pi.toNat]? = some x ∧ x.hash = e.hash := by
  obtain ⟨k, hk⟩ := List.getElem?_of_mem h
  rw [placed_getElem?] at hk
  cases hx : l[k]? with
  | none => rw [hx] at hk; cases hk
  | some x =>
    rw [hx] at hk
    obtain rfl := (Option.some.inj hk).symm
    exact ⟨x, by simpa using hx, rfl⟩

theorem bucket_placed {hl pre : Nat} {l : List Entry} (h : Bucket hl pre l) : Bucket hl pre (placed l) := by
  have hm : ∀ e ∈ placed l, ∃ x ∈ l, x.hash = e.hash := by
    intro e he
    obtain ⟨x, h1, h2⟩ := placed_mem he
    exact ⟨x, List.mem_of_getElem? h1, h2⟩
  refine ⟨?_, by rw [placed_hash]; exact h.nodup, ?_⟩
  · intro e he
    obtain ⟨x, h1, h2⟩ := hm e he
    rw [← h2]
    exact h.len x h1
  · intro i hi x hx y hy
    obtain ⟨x', h1, h2⟩ := hm x hx
    obtain ⟨y', h3, h4⟩ := hm y hy
    rw [← h2, ← h4]
    exact h.same i hi x' h1 y' h3

theorem answer_of {l : List Entry} (hn : (l.map (·.hash)).Nodup) {e : Entry} (he : e ∈ l) : answer l e.hash = e.pi := by
  unfold answer
  induction l with
  | nil => cases he
  | cons x l ih =>
    rw [List.map_cons, List.nodup_cons] at hn
    rcases List.mem_cons.mp he with rfl | he
    · simp
    · have hne : x.hash ≠ e.hash := by
        intro h
        exact hn.1 (by rw [h]; exact List.mem_map_of_mem he)
      rw [List.find?_cons_of_neg (by simpa using hne)]
      exact ih hn.2 he

theorem answer_none {l : List Entry} {h : Bytes} (hn : ∀ e ∈ l, e.hash ≠ h) : answer l h = 0 := by
  unfold answer
  rw [show (l.find? fun e => decide (e.hash = h)) = none from List.find?_eq_none.mpr (fun x hx => by simpa using hn x hx)]
  rfl

/-- The search in a tree over a part `m` of the input. -/
theorem loop_built {r hl pre : Nat} {l m : List Entry} {f : Flags} {t : Tree} (hB : Built r hl m f t)
    (hm : ∀ e ∈ m, ∃ x, l[e.pi.toNat]? = some x ∧ x.hash = e.hash) (hf : ∀ i, f i = true → pre ≤ i) (q : Bytes) :
    (∀ e ∈ m, e.hash = q → ∃ x, l[e.pi.toNat]? = some x ∧ lookupLoop pre l q t f = some x.pi) ∧
      ((∀ e ∈ m, e.hash ≠ q) → lookupLoop pre l q t f = some 0) := by
  induction hB with
  | empty => exact ⟨fun e he => (by simp at he), fun _ => rfl⟩
  | @leaf e f =>
    obtain ⟨x, h1, h2⟩ := hm e (by simp)
    refine ⟨?_, ?_⟩
    · intro e' he' hq
      rw [List.mem_singleton] at he'
      subst he'
      refine ⟨x, h1, ?_⟩
      rw [lookupLoop, h1]
      dsimp only
      rw [if_neg (by rw [h2, hq]; simp)]
    · intro hne
      rw [lookupLoop, h1]
      dsimp only
      rw [if_pos (by rw [h2]; exact hne e (by simp))]
  | @slots m f bi next runs h1 h2 h3 hp _ ih =>
    have hsub : ∀ b, ∀ e ∈ runs b, e ∈ m ∧ byteAt e.hash bi = b := by
      intro b e he
      have := (hp b).subset he
      simpa [List.mem_filter] using this
    have hff : ∀ i, flip f bi i = true → pre ≤ i := by
      intro i hi
      by_cases h : i = bi
      · subst h; exact hf _ h2
      · exact hf i (by simpa [ShallowTree.flip, h] using hi)
    have hl : lookupLoop pre l q (.slots bi next) f = lookupLoop pre l q (next (byteAt q bi)) (flip f bi) := by
      have := hf bi h2
      rw [lookupLoop, if_neg (by omega), if_neg (by simp [h2])]
    obtain ⟨i1, i2⟩ := ih (byteAt q bi) (fun e he => hm e (hsub _ e he).1) hff
    refine ⟨?_, ?_⟩
    · intro e he hq
      rw [hl]
      refine i1 e ((hp _).symm.subset ?_) hq
      simp [List.mem_filter, he, hq]
    · intro hne
      rw [hl]
      exact i2 fun e he => hne e (hsub _ e he).1

theorem lone_tree (ent : List Entry → Nat → Nat) {e : Entry} {hl pre r : Nat} (h1 : 1 ≤ hl) (h64 : hl ≤ 64) (hp : pre ≤ hl) (hr : r ≤ hl)
    (hlen : e.hash.length = hl) : makeTree ent [e] pre hl r = some (.leaf (e.hash.take r) 0) := by
  unfold makeTree generateSingle
  rw [if_neg (by omega), if_neg (by omega), if_neg (by omega), if_neg (check_any (by simpa [placed] using hlen))]
  rfl

theorem preorder_length (p : List UInt8) (t : Tree) : (preorder p t).length = t.size := by
  induction t generalizing p with
  | empty => rfl
  | leaf => rfl
  | slots bi next ih =>
    have hmap : ∀ l : List UInt8, (l.map fun b => (preorder (p ++ [b]) (next b)).length) = l.map fun b => (next b).size := by
      intro l
      apply List.map_congr_left
      intro b _
      exact ih b _
    rw [preorder, List.length_cons, List.length_flatMap, hmap, Tree.size, List.map_reverse, List.sum_reverse]
    omega

theorem runs_sum {m : List Entry} {bi : Nat} {runs : UInt8 → List Entry}
    (hp : ∀ b, (runs b).Perm (m.filter fun e => byteAt e.hash bi = b)) : (allBytes.map fun b => (runs b).length).sum = m.length := by
  have : (allBytes.map fun b => (runs b).length) = allBytes.map fun b => m.countP fun e => decide (byteAt e.hash bi = b) := by
    apply List.map_congr_left
    intro b _
    rw [(hp b).length_eq, List.countP_eq_length_filter]
  rw [this]
  exact sum_runs (fun e => byteAt e.hash bi) m

theorem sum_le_of {α : Type} {f g : α → Nat} : ∀ l : List α, (∀ a ∈ l, f a ≤ g a) → (l.map f).sum ≤ (l.map g).sum := by
  intro l
  induction l with
  | nil => intro _; simp
  | cons x l ih =>
    intro h
    have h1 := h x (by simp)
    have h2 := ih fun a ha => h a (by simp [ha])
    simp only [List.map_cons, List.sum_cons]
    omega

theorem sum_indicator {α : Type} (q : α → Bool) : ∀ l : List α, (l.map fun a => if q a then 1 else 0).sum = l.countP q := by
  intro l
  induction l with
  | nil => rfl
  | cons x l ih =>
    rw [List.map_cons, List.sum_cons, ih, List.countP_cons]
    omega

/-- There are fewer nodes than twice the hashes. -/
theorem size_le {r hl : Nat} {m : List Entry} {f : Flags} {t : Tree} (hB : Built r hl m f t) :
    (m = [] → t.size = 0) ∧ (m ≠ [] → t.size + 1 ≤ 2 * m.length) := by
  induction hB with
  | empty => exact ⟨fun _ => rfl, fun h => absurd rfl h⟩
  | leaf => exact ⟨fun h => (by cases h), fun _ => by simp [Tree.size]⟩
  | @slots m f bi next runs h1 h2 h3 hp hb ih =>
    refine ⟨?_, fun _ => ?_⟩
    · intro h
      obtain ⟨x, hx, _⟩ := h3
      rw [h] at hx
      cases hx
    · have hact := built_active (.slots runs h1 h2 h3 hp hb)
      unfold activeSlots at hact
      dsimp only at hact
      have hle : (allBytes.map fun b => (next b).size + if (!(next b).isEmpty) = true then 1 else 0).sum ≤
          (allBytes.map fun b => 2 * (runs b).length).sum := by
        apply sum_le_of
        intro b _
        by_cases hr : runs b = []
        · have he := (built_isEmpty (hb b)).mpr hr
          rw [(ih b).1 hr, he]
          simp
        · have he : (next b).isEmpty = false := by
            cases h : (next b).isEmpty with
            | false => rfl
            | true => exact absurd ((built_isEmpty (hb b)).mp h) hr
          have := (ih b).2 hr
          rw [he]
          simp
          omega
      rw [← sum_add, sum_indicator, ← sum_two, runs_sum hp] at hle
      unfold Tree.size
      omega

/-- The leaves are the entries. -/
theorem leaves_perm {r hl : Nat} {m : List Entry} {f : Flags} {t : Tree} (hB : Built r hl m f t) :
    ∀ p, ((preorder p t).filterMap fun n => leafPlace n.2).Perm (m.map fun e => e.pi.toNat) := by
  induction hB with
  | empty => intro p; exact .refl _
  | leaf => intro p; exact .refl _
  | @slots m f bi next runs h1 h2 h3 hp hb ih =>
    intro p
    rw [preorder, List.filterMap_cons_none rfl, List.filterMap_flatMap]
    refine (List.Perm.flatMap_right _ (List.reverse_perm allBytes)).trans ?_
    refine (perm_flatMap (g := fun b => (m.filter fun e => byteAt e.hash bi = b).map fun e => e.pi.toNat) allBytes ?_).trans ?_
    · intro b _
      exact (ih b _).trans ((hp b).map _)
    · rw [← List.map_flatMap]
      exact (perm_classes (fun e : Entry => byteAt e.hash bi) m).map _

theorem places_range (l : List Entry) : (placed l).map (fun e => e.pi.toNat) = List.range l.length := by
  apply List.ext_getElem?
  intro k
  rw [List.getElem?_map, placed_getElem?]
  by_cases h : k < l.length
  · rw [List.getElem?_eq_getElem h, List.getElem?_range h]; simp
  · rw [List.getElem?_eq_none (by omega), List.getElem?_eq_none (by simp; omega)]; rfl

theorem range_entries (l : List Entry) : (List.range l.length).filterMap (l[·]?) = l := by
  induction l with
  | nil => rfl
  | cons x l ih =>
    rw [List.length_cons, List.range_succ_eq_map, List.filterMap_cons_some (b := x) (by rfl), List.filterMap_map]
    exact congrArg (x :: ·) ih

theorem filterMap_bind (l : List Entry) : ∀ ns : List Named,
    (ns.filterMap fun n => (leafPlace n.2).bind (l[·]?)) = (ns.filterMap fun n => leafPlace n.2).filterMap (l[·]?) := by
  intro ns
  rw [List.filterMap_filterMap]

theorem unused_afterPrefix {hl pre : Nat} (hp : pre ≤ hl) : unusedCount (afterPrefix hl pre) hl = hl - pre := by
  unfold unusedCount
  have h1 : List.range hl = List.range' 0 pre ++ List.range' pre (hl - pre) := by
    have := List.range'_append_1 (s := 0) (m := pre) (n := hl - pre)
    rw [Nat.zero_add] at this
    rw [List.range_eq_range', this, show pre + (hl - pre) = hl by omega]
  rw [h1, List.countP_append, List.countP_eq_zero.mpr, List.countP_eq_length.mpr]
  · simp
  · intro i hi
    rw [List.mem_range'_1] at hi
    simp [afterPrefix]
    omega
  · intro i hi
    rw [List.mem_range'_1] at hi
    simp [afterPrefix]
    omega

/-! ## C104 -/

/-- C104: for any different hashes alike in the prefix the tree is made, and looking up any hash gives the presentation index given with
it, or 0 if it is none of them; nothing panics. -/
theorem memory_lookup_exact {ent : List Entry → Nat → Nat} (he : EntropyOK ent) {l : List Entry} {hl pre r : Nat} (h1 : 1 ≤ hl)
    (h64 : hl ≤ 64) (hp : pre ≤ hl) (hr : r ≤ hl) (hb : Bucket hl pre l) :
    ∃ t, makeTree ent l pre hl r = some t ∧ ∀ q : Bytes, q.length = hl → lookupHash hl pre l t q = some (answer l q) := by
  have hstart : ∀ i, afterPrefix hl pre i = true → pre ≤ i := by
    intro i hi
    simp only [afterPrefix, decide_eq_true_eq] at hi
    omega
  by_cases hone : l.length = 1
  · match l, hone with
    | [e], _ =>
      have hlen := hb.len e (by simp)
      refine ⟨_, lone_tree ent h1 h64 hp hr hlen, ?_⟩
      intro q hq
      unfold lookupHash
      rw [if_neg (by omega), lookupLoop]
      show (if e.hash ≠ q then some 0 else some e.pi) = _
      by_cases h : e.hash = q
      · rw [if_neg (by simpa using h), ← h, answer_of hb.nodup (by simp)]
      · rw [if_pos h, answer_none (by simpa using h)]
  · obtain ⟨t, ht, hB⟩ := single_built (r := r) he h1 h64 hp hr (bucket_placed hb) (.inr (by rw [placed_length]; exact hone))
    refine ⟨t, ht, ?_⟩
    intro q hq
    obtain ⟨i1, i2⟩ := loop_built (l := l) hB (fun e he => placed_mem he) hstart q
    unfold lookupHash
    rw [if_neg (by omega)]
    by_cases hex : ∃ e ∈ placed l, e.hash = q
    · obtain ⟨e, hm, heq⟩ := hex
      obtain ⟨x, hx, hlk⟩ := i1 e hm heq
      obtain ⟨y, hy, hyh⟩ := placed_mem hm
      rw [hx] at hy
      obtain rfl := Option.some.inj hy
      rw [hlk, ← heq, ← hyh, answer_of hb.nodup (List.mem_of_getElem? hx)]
    · have hne : ∀ e ∈ placed l, e.hash ≠ q := fun e he h => hex ⟨e, he, h⟩
      rw [i2 hne, answer_none]
      intro e hm h
      have : e.hash ∈ (placed l).map (·.hash) := by rw [placed_hash]; exact List.mem_map_of_mem hm
      obtain ⟨e', he', hee⟩ := List.mem_map.mp this
      exact hne e' he' (by rw [hee, h])

/-- C104: visiting all leaves shows every entry once; no node is visited twice; there are as many leaves as hashes, fewer than twice as many
nodes, and no node has a level beyond the length of the hash. -/
theorem memory_tree_size {ent : List Entry → Nat → Nat} (he : EntropyOK ent) {l : List Entry} {hl pre r : Nat} (h1 : 1 ≤ hl)
    (h64 : hl ≤ 64) (hp : pre ≤ hl) (hr : r ≤ hl) (hb : Bucket hl pre l) :
    ∃ t, makeTree ent l pre hl r = some t ∧ (visitAllLeaves l t).Perm l ∧ ((visitAll t).map (·.1)).Nodup ∧ countLeaves t = l.length ∧
      countNodes t ≤ 2 * l.length - 1 ∧ ∀ n ∈ visitAll t, level pre n ≤ hl := by
  by_cases hone : l.length = 1
  · match l, hone with
    | [e], _ =>
      refine ⟨_, lone_tree ent h1 h64 hp hr (hb.len e (by simp)), ?_⟩
      unfold visitAllLeaves countLeaves countNodes
      rw [visitAll_eq]
      refine ⟨.refl _, by simp [preorder], rfl, by simp [preorder], ?_⟩
      intro n hn
      simp only [preorder, List.mem_singleton] at hn
      subst hn
      simpa [level] using hp
  · obtain ⟨t, ht, hB⟩ := single_built (r := r) he h1 h64 hp hr (bucket_placed hb) (.inr (by rw [placed_length]; exact hone))
    have hlv := leaves_perm hB []
    rw [places_range] at hlv
    refine ⟨t, ht, ?_, ?_, ?_, ?_, ?_⟩
    · unfold visitAllLeaves
      rw [filterMap_bind, visitAll_eq]
      have := hlv.filterMap (l[·]?)
      rw [range_entries] at this
      exact this
    · rw [visitAll_eq]
      exact preorder_nodup
    · unfold countLeaves
      rw [visitAll_eq, hlv.length_eq, List.length_range]
    · unfold countNodes
      rw [visitAll_eq, preorder_length]
      have := size_le hB
      rw [placed_length] at this
      by_cases hn : placed l = []
      · rw [this.1 hn]; omega
      · have := this.2 hn; omega
    · intro n hn
      rw [visitAll_eq] at hn
      have := path_length hB [] n hn
      rw [unused_afterPrefix hp] at this
      simp only [List.length_nil] at this
      unfold level
      omega

/-- C104: the answer 0 has two meanings. A hash given with presentation index 0 is answered as one that is not there. -/
theorem memory_zero_ambiguous {ent : List Entry → Nat → Nat} (he : EntropyOK ent) {l : List Entry} {hl pre r : Nat} (h1 : 1 ≤ hl)
    (h64 : hl ≤ 64) (hp : pre ≤ hl) (hr : r ≤ hl) (hb : Bucket hl pre l) (e : Entry) (hm : e ∈ l) (h0 : e.pi = 0) (q : Bytes)
    (hq : q.length = hl) (hqn : ∀ x ∈ l, x.hash ≠ q) :
    ∃ t, makeTree ent l pre hl r = some t ∧ lookupHash hl pre l t e.hash = lookupHash hl pre l t q := by
  obtain ⟨t, ht, hall⟩ := memory_lookup_exact (r := r) he h1 h64 hp hr hb
  refine ⟨t, ht, ?_⟩
  rw [hall _ (hb.len e hm), hall q hq, answer_of hb.nodup hm, h0, answer_none hqn]

/-! ## Non-vacuity -/

theorem demo_bucket : Bucket 3 1 [⟨[7, 2, 3], 5⟩, ⟨[7, 2, 4], 6⟩, ⟨[7, 9, 4], 9⟩] := ⟨by decide, by decide, by
  intro i hi
  have : i = 0 := by omega
  subst this
  decide⟩

example : ∃ t, makeTree demoEnt [⟨[7, 2, 3], 5⟩, ⟨[7, 2, 4], 6⟩, ⟨[7, 9, 4], 9⟩] 1 3 2 = some t ∧
    lookupHash 3 1 [⟨[7, 2, 3], 5⟩, ⟨[7, 2, 4], 6⟩, ⟨[7, 9, 4], 9⟩] t [7, 2, 4] = some 6 ∧
    lookupHash 3 1 [⟨[7, 2, 3], 5⟩, ⟨[7, 2, 4], 6⟩, ⟨[7, 9, 4], 9⟩] t [7, 2, 5] = some 0 := by
  obtain ⟨t, h1, h2⟩ := memory_lookup_exact (r := 2) demoEnt_ok (by omega) (by omega) (by omega) (by omega) demo_bucket
  exact ⟨t, h1, h2 _ rfl, h2 _ rfl⟩

/-- A lone hash behind a prefix, which is lost in the stored tree (C33), is found in memory. -/
example : ∃ t, makeTree demoEnt [⟨[7, 2, 3], 5⟩] 1 3 1 = some t ∧ lookupHash 3 1 [⟨[7, 2, 3], 5⟩] t [7, 2, 3] = some 5 := by
  obtain ⟨t, h1, h2⟩ := memory_lookup_exact (l := [⟨[7, 2, 3], 5⟩]) (pre := 1) (hl := 3) (r := 1) demoEnt_ok (by omega) (by omega) (by omega)
    (by omega) ⟨by decide, by decide, by
      intro i hi
      have : i = 0 := by omega
      subst this
      decide⟩
  exact ⟨t, h1, h2 _ rfl⟩

end Verif.SingleTree
