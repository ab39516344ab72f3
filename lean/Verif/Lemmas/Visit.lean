import Verif.Lemmas.ShallowTree
import Verif.Model.Chunk

/-!
# The order of visiting
-/

namespace Verif.ShallowTree

/-- The nodes of a tree, each before the nodes below it, the last slot first. -/
def preorder (p : List UInt8) : Tree → List Named
  | .empty => []
  | .leaf reass pi => [(p, .leaf reass pi)]
  | .slots bi next => (p, .slots bi next) :: allBytes.reverse.flatMap fun b => preorder (p ++ [b]) (next b)

theorem foldl_cons_if {α β : Type} (g : α → β) (q : α → Bool) : ∀ (l : List α) (st : List β),
    l.foldl (fun st b => if q b = true then st else g b :: st) st = (l.filter fun b => !q b).reverse.map g ++ st := by
  intro l
  induction l with
  | nil => intro st; rfl
  | cons x l ih =>
    intro st
    rw [List.foldl_cons, ih]
    by_cases hq : q x = true
    · rw [if_pos hq, List.filter_cons_of_neg (by simp [hq])]
    · rw [if_neg hq, List.filter_cons_of_pos (by simp [hq]), List.reverse_cons, List.map_append]
      simp

theorem push_eq (p : List UInt8) (next : UInt8 → Tree) (stack : List Named) :
    push p next stack = (allBytes.filter fun b => !(next b).isEmpty).reverse.map (fun b => (p ++ [b], next b)) ++ stack := by
  unfold push
  exact foldl_cons_if (fun b => (p ++ [b], next b)) (fun b => (next b).isEmpty) allBytes stack

theorem preorder_of_isEmpty {p : List UInt8} {t : Tree} (h : t.isEmpty = true) : preorder p t = [] := by
  cases t <;> first | rfl | simp [Tree.isEmpty] at h

theorem flatMap_filter_nil {α β : Type} (q : α → Bool) (g : α → List β) (h : ∀ a, q a = false → g a = []) : ∀ l : List α,
    (l.filter q).flatMap g = l.flatMap g := by
  intro l
  induction l with
  | nil => rfl
  | cons x l ih =>
    by_cases hq : q x = true
    · rw [List.filter_cons_of_pos hq, List.flatMap_cons, List.flatMap_cons, ih]
    · rw [List.filter_cons_of_neg hq, List.flatMap_cons, ih, h x (by simpa using hq), List.nil_append]

theorem sum_filter_zero {α : Type} (q : α → Bool) (g : α → Nat) (h : ∀ a, q a = false → g a = 0) : ∀ l : List α,
    ((l.filter q).map g).sum = (l.map g).sum := by
  intro l
  induction l with
  | nil => rfl
  | cons x l ih =>
    by_cases hq : q x = true
    · rw [List.filter_cons_of_pos hq, List.map_cons, List.map_cons, List.sum_cons, List.sum_cons, ih]
    · rw [List.filter_cons_of_neg hq, List.map_cons, List.sum_cons, ih, h x (by simpa using hq), Nat.zero_add]

theorem size_of_isEmpty {t : Tree} (h : t.isEmpty = true) : t.size = 0 := by
  cases t with
  | empty => rfl
  | leaf reass pi => simp [Tree.isEmpty] at h
  | slots bi next => simp [Tree.isEmpty] at h

theorem visitLoop_eq : ∀ (n : Nat) (stack : List Named), (∀ x ∈ stack, x.2.isEmpty = false) →
    (stack.map (·.2.size)).sum ≤ n → visitLoop n stack = stack.flatMap fun x => preorder x.1 x.2 := by
  intro n
  induction n with
  | zero =>
    intro stack hne hs
    cases stack with
    | nil => rfl
    | cons x stack =>
      exfalso
      have := hne x (by simp)
      obtain ⟨p, t⟩ := x
      cases t <;> simp [Tree.isEmpty, Tree.size] at this hs
  | succ n ih =>
    intro stack hne hs
    cases stack with
    | nil => rfl
    | cons x stack =>
      have hx := hne x (by simp)
      obtain ⟨p, t⟩ := x
      rw [List.map_cons, List.sum_cons] at hs
      cases t with
      | empty => simp [Tree.isEmpty] at hx
      | leaf reass pi =>
        unfold visitLoop
        dsimp only
        rw [ih stack (fun y hy => hne y (by simp [hy])) (by simp only [Tree.size] at hs; omega), List.flatMap_cons]
        rfl
      | slots bi next =>
        unfold visitLoop
        dsimp only
        have hmap : ∀ l : List UInt8, ((l.map fun b => ((p ++ [b], next b) : Named)).map (·.2.size)).sum =
            (l.map fun b => (next b).size).sum := by
          intro l; rw [List.map_map]; rfl
        rw [push_eq, ih]
        · rw [List.flatMap_append, List.flatMap_cons]
          simp only [preorder]
          rw [List.flatMap_map, ← List.filter_reverse,
            flatMap_filter_nil _ _ (fun b hb => preorder_of_isEmpty (by simpa using hb))]
          rfl
        · intro y hy
          rcases List.mem_append.1 hy with hy | hy
          · obtain ⟨b, hb, rfl⟩ := List.mem_map.1 hy
            rw [List.mem_reverse, List.mem_filter] at hb
            simpa using hb.2
          · exact hne y (by simp [hy])
        · rw [List.map_append, List.sum_append, hmap, List.map_reverse, List.sum_reverse,
            sum_filter_zero _ _ (fun b hb => size_of_isEmpty (by simpa using hb))]
          simp only [Tree.size] at hs
          omega

/-- `VisitAllNodes` visits the nodes in preorder. -/
theorem visitAll_eq (t : Tree) : visitAll t = preorder [] t := by
  unfold visitAll
  by_cases he : t.isEmpty = true
  · rw [if_pos he, preorder_of_isEmpty he]
  · rw [if_neg he, visitLoop_eq]
    · simp
    · simpa using he
    · simp

theorem preorder_ne_empty {p : List UInt8} : ∀ {t : Tree}, ∀ n ∈ preorder p t, n.2.isEmpty = false := by
  intro t
  induction t generalizing p with
  | empty => intro n hn; simp [preorder] at hn
  | leaf reass pi => intro n hn; simp [preorder] at hn; subst hn; rfl
  | slots bi next ih =>
    intro n hn
    simp only [preorder, List.mem_cons, List.mem_flatMap] at hn
    rcases hn with rfl | ⟨b, _, hn⟩
    · rfl
    · exact ih b n hn

theorem preorder_prefix {p : List UInt8} : ∀ {t : Tree}, ∀ n ∈ preorder p t, ∃ q, n.1 = p ++ q := by
  intro t
  induction t generalizing p with
  | empty => intro n hn; simp [preorder] at hn
  | leaf reass pi => intro n hn; simp [preorder] at hn; subst hn; exact ⟨[], by simp⟩
  | slots bi next ih =>
    intro n hn
    simp only [preorder, List.mem_cons, List.mem_flatMap] at hn
    rcases hn with rfl | ⟨b, _, hn⟩
    · exact ⟨[], by simp⟩
    · obtain ⟨q, hq⟩ := ih b n hn
      exact ⟨b :: q, by rw [hq]; simp⟩

/-- No two nodes have the same path. -/
theorem preorder_nodup {p : List UInt8} : ∀ {t : Tree}, ((preorder p t).map (·.1)).Nodup := by
  intro t
  induction t generalizing p with
  | empty => simp [preorder]
  | leaf reass pi => simp [preorder]
  | slots bi next ih =>
    simp only [preorder, List.map_cons, List.nodup_cons, List.map_flatMap]
    refine ⟨?_, ?_⟩
    · intro hm
      obtain ⟨b, _, hm⟩ := List.mem_flatMap.1 hm
      obtain ⟨n, hn, e⟩ := List.mem_map.1 hm
      obtain ⟨q, hq⟩ := preorder_prefix n hn
      rw [hq] at e
      have := congrArg List.length e
      simp at this
    · have hrev : allBytes.reverse.Nodup := List.pairwise_reverse.2 (allBytes_nodup.imp Ne.symm)
      generalize allBytes.reverse = bs at hrev
      induction bs with
      | nil => simp
      | cons b bs ihb =>
        rw [List.nodup_cons] at hrev
        rw [List.flatMap_cons, List.nodup_append]
        refine ⟨ih b, ihb hrev.2, ?_⟩
        intro x hx y hy e
        subst e
        obtain ⟨b', hb', hy⟩ := List.mem_flatMap.1 hy
        obtain ⟨n, hn, rfl⟩ := List.mem_map.1 hx
        obtain ⟨n', hn', e'⟩ := List.mem_map.1 hy
        obtain ⟨q, hq⟩ := preorder_prefix n hn
        obtain ⟨q', hq'⟩ := preorder_prefix n' hn'
        rw [hq, hq'] at e'
        simp only [List.append_assoc, List.append_cancel_left_eq, List.cons_append, List.nil_append, List.cons.injEq] at e'
        exact hrev.1 (e'.1 ▸ hb')

/-- A node's slots lead to nodes. -/
theorem preorder_child {p : List UInt8} : ∀ {t : Tree} {q : List UInt8} {bi : Nat} {next : UInt8 → Tree} {b : UInt8},
    (q, Tree.slots bi next) ∈ preorder p t → (next b).isEmpty = false → (q ++ [b], next b) ∈ preorder p t := by
  intro t
  have hroot : ∀ (p : List UInt8) (t : Tree), t.isEmpty = false → (p, t) ∈ preorder p t := by
    intro p t ht
    cases t <;> simp [Tree.isEmpty, preorder] at ht ⊢
  induction t generalizing p with
  | empty => intro q bi next b hn; simp [preorder] at hn
  | leaf reass pi => intro q bi next b hn; simp [preorder] at hn
  | slots bi' next' ih =>
    intro q bi next b hn hb
    simp only [preorder, List.mem_cons, List.mem_flatMap, List.mem_reverse] at hn ⊢
    right
    rcases hn with e | ⟨b', hb', hn⟩
    · simp only [Prod.mk.injEq, Tree.slots.injEq] at e
      obtain ⟨rfl, rfl, rfl⟩ := e
      exact ⟨b, mem_allBytes b, hroot _ _ hb⟩
    · exact ⟨b', hb', ih b' hn hb⟩

end Verif.ShallowTree
