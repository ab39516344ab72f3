import Verif.Lemmas.ChunkFit

/-!
# Properties of the choice of node formats
-/

namespace Verif.Chunk

/-- What is needed of the format groups of a level: there are no more than allowed; each number of slots in use belongs
to exactly one group, which has room for as many and is for leaves exactly if the number is zero; and each group counts
the nodes that belong to it. -/
structure Suitable (c : Config) (shape : Shape) (gs : List Group) : Prop where
  few : gs.length ≤ c.specs
  one : ∀ s ≤ 256, 0 < shape s → ∃ g ∈ gs, (g.start ≤ s ∧ s < g.stop) ∧
    (∀ g' ∈ gs, g'.start ≤ s → s < g'.stop → g' = g) ∧ s ≤ g.spec.cap ∧ (g.spec.format = .leaf ↔ s = 0)
  counts : ∀ g ∈ gs, g.nodes = sumOn shape g.start g.stop
  bytes : ∀ g ∈ gs, g.bytes = g.nodes * byteSize c g.spec ∧ g.bytes < c.wrap

theorem apart_eq {gs : List Group} (hp : gs.Pairwise Apart) {s : Nat} : ∀ g ∈ gs, ∀ g' ∈ gs, g.start ≤ s → s < g.stop →
    g'.start ≤ s → s < g'.stop → g' = g := by
  induction hp with
  | nil => intro g hg; simp at hg
  | @cons x l h hp ih =>
    intro g hg g' hg' a1 a2 a3 a4
    rcases List.mem_cons.1 hg with rfl | hin
    · rcases List.mem_cons.1 hg' with rfl | hg'
      · rfl
      · have := h g' hg'
        unfold Apart at this
        omega
    · rcases List.mem_cons.1 hg' with rfl | hg'
      · have := h g hin
        unfold Apart at this
        omega
      · exact ih g hin g' hg' a1 a2 a3 a4

theorem suitable_of {c : Config} {shape : Shape} {gs : List Group} (h : GroupsOK c shape gs) : Suitable c shape gs := by
  refine ⟨h.few, ?_, fun g hg => (h.each g hg).nodes, ?_⟩
  · intro s hs hpos
    obtain ⟨g, hg, h1, h2⟩ := h.covers s hs hpos
    have ho := h.each g hg
    refine ⟨g, hg, ⟨h1, h2⟩, fun g' hg' a b => apart_eq h.apart g hg g' hg' h1 h2 a b, ?_, ?_⟩
    · rw [ho.spec]
      unfold specOf
      dsimp only
      split <;> omega
    · rw [← ho.fmt s h1 h2]
      unfold fmtOf
      constructor
      · intro h
        repeat' split at h
        all_goals first | omega | cases h
      · intro h
        rw [if_pos h]
  · intro g hg
    have ho := h.each g hg
    refine ⟨ho.bytes, ?_⟩
    have := ho.small
    have := c.wrap_pos
    unfold Config.max at *
    omega

/-- **C27.** For every level shape without one-slot nodes, and every allowed number of formats of at least five: unless
the nodes' bytes are too many to be counted, formats are chosen, and they are suitable. -/
theorem formats_are_chosen {c : Config} {shape : Shape} (h5 : 5 ≤ c.specs) (hhw : 0 < c.hw) (h1 : shape 1 = 0)
    (hleaf : c.r + c.hw ≤ 34 + 256 * c.w) (hsmall : sumOn shape 0 257 * (34 + 256 * c.w) < c.wrap) :
    ∃ gs, chooseLevel c shape = some gs ∧ Suitable c shape gs := by
  have hr : Room c shape := by
    intro s hs _
    have hsum : sumOn shape (lowest s) (s + 1) ≤ sumOn shape 0 257 := by
      have hl : lowest s ≤ s := by unfold lowest; (repeat' split) <;> omega
      rw [sumOn_split shape (a := 0) (b := lowest s) (c := 257) (by omega) (by omega),
        sumOn_split shape (a := lowest s) (b := s + 1) (c := 257) (by omega) (by omega)]
      omega
    have hsize : byteSize c (specOf s) ≤ 34 + 256 * c.w := by
      unfold byteSize
      rw [show (specOf s).format = fmtOf s from rfl]
      have hcap : (specOf s).cap ≤ 256 := by unfold specOf; dsimp only; split <;> omega
      cases hf : fmtOf s with
      | full => dsimp only; omega
      | leaf => dsimp only; omega
      | medium => dsimp only; have := Nat.mul_le_mul_right c.w hcap; omega
      | tiny =>
        have hs5 : s ≤ 5 := by
          unfold fmtOf at hf
          repeat' split at hf
          all_goals first | omega | cases hf
        dsimp only
        have hce : (specOf s).cap = s := by unfold specOf; dsimp only; rw [if_neg (by omega)]
        have := Nat.mul_le_mul_right (1 + c.w) hs5
        rw [hce]
        omega
    have := Nat.mul_le_mul hsum hsize
    unfold Config.max
    omega
  obtain ⟨gs, e, h⟩ := chooseLevel_ok hr hhw h5 h1
  exact ⟨gs, e, suitable_of h⟩

/-- **C27.** Whatever the configuration: if formats are chosen at all, they are suitable. -/
theorem chosen_formats_are_suitable {c : Config} {shape : Shape} {gs : List Group} (hn : sumOn shape 0 257 < c.wrap)
    (e : chooseLevel c shape = some gs) : Suitable c shape gs := suitable_of (chooseLevel_sound hn e)

/-! ## Examples -/

/-- A level with nodes of many kinds. -/
def demoShape : Shape := fun s => if s = 0 then 40 else if s = 1 then 0 else if s < 20 then 3 else if s = 250 then 2 else 0

def demoConfig : Config := ⟨32, 2, 5, 2, 2, false⟩

example : ∃ gs, chooseLevel demoConfig demoShape = some gs ∧ Suitable demoConfig demoShape gs :=
  formats_are_chosen (by decide) (by decide) (by decide) (by decide) (by decide +kernel)

/-- Twenty groups have been reduced to five. -/
example : (chooseLevel demoConfig demoShape).map (·.map fun g => (g.start, g.stop, g.nodes, g.spec.cap)) =
    some [(0, 1, 40, 0), (6, 14, 24, 13), (14, 20, 18, 19), (250, 251, 2, 256), (2, 6, 12, 5)] := by decide +kernel

end Verif.Chunk
