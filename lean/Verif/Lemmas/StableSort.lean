import Verif.Model.StableSort

namespace Verif

theorem insertStable_perm {α : Type} (le : α → α → Bool) (x : α) : ∀ l : List α, (insertStable le x l).Perm (x :: l) := by
  intro l
  induction l with
  | nil => exact List.Perm.refl _
  | cons y ys ih =>
    unfold insertStable
    by_cases h : le x y = true
    · rw [if_pos h]
    · rw [if_neg h]
      exact (ih.cons y).trans (List.Perm.swap x y ys)

theorem stableSort_perm {α : Type} (le : α → α → Bool) : ∀ l : List α, (stableSort le l).Perm l := by
  intro l
  induction l with
  | nil => exact List.Perm.refl _
  | cons x xs ih => exact (insertStable_perm le x _).trans (ih.cons x)

theorem insertStable_sorted {α : Type} {le : α → α → Bool} (ht : ∀ a b c, le a b = true → le b c = true → le a c = true)
    (htot : ∀ a b, le a b = false → le b a = true) (x : α) : ∀ l : List α, l.Pairwise (fun a b => le a b = true) →
    (insertStable le x l).Pairwise (fun a b => le a b = true) := by
  intro l
  induction l with
  | nil => intro _; simp [insertStable]
  | cons y ys ih =>
    intro hs
    unfold insertStable
    rw [List.pairwise_cons] at hs
    by_cases h : le x y = true
    · rw [if_pos h, List.pairwise_cons]
      refine ⟨?_, List.pairwise_cons.mpr hs⟩
      intro z hz
      rcases List.mem_cons.mp hz with rfl | hz
      · exact h
      · exact ht _ _ _ h (hs.1 z hz)
    · rw [if_neg h, List.pairwise_cons]
      refine ⟨?_, ih hs.2⟩
      intro z hz
      rcases List.mem_cons.mp ((insertStable_perm le x ys).subset hz) with rfl | hz
      · exact htot _ _ (by simpa using h)
      · exact hs.1 z hz

theorem stableSort_sorted {α : Type} {le : α → α → Bool} (ht : ∀ a b c, le a b = true → le b c = true → le a c = true)
    (htot : ∀ a b, le a b = false → le b a = true) (l : List α) : (stableSort le l).Pairwise (fun a b => le a b = true) := by
  induction l with
  | nil => simp [stableSort]
  | cons x xs ih => exact insertStable_sorted ht htot x _ ih

end Verif
