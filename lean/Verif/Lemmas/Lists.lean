/-!
# List helpers
-/

namespace Verif

/-- Distinct numbers below `n` are at most `n` many. -/
theorem nodup_length_le {l : List Nat} {n : Nat} (hn : l.Nodup) (hl : ∀ x ∈ l, x < n) : l.length ≤ n := by
  induction n generalizing l with
  | zero =>
    cases l with
    | nil => simp
    | cons a l => exact absurd (hl a (by simp)) (by omega)
  | succ n ih =>
    have h1 : (l.erase n).length ≤ n := by
      apply ih (hn.erase n)
      intro x hx
      have hx' := (hn.mem_erase_iff).mp hx
      have := hl x hx'.2
      omega
    have h2 : l.length ≤ (l.erase n).length + 1 := by
      rw [List.length_erase]
      split <;> omega
    omega

theorem lt_of_getElem?_some {α : Type} {l : List α} {i : Nat} {a : α} (h : l[i]? = some a) : i < l.length := by
  rcases Nat.lt_or_ge i l.length with h' | h'
  · exact h'
  · rw [List.getElem?_eq_none h'] at h; simp at h

end Verif
