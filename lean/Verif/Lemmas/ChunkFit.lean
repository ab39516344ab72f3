import Verif.Lemmas.NodeIds

/-!
# The groups chosen for a level fit its nodes
-/

namespace Verif.Chunk

open Verif.ShallowTree

/-- The range of a group. -/
def Within (g : Group) (s : Nat) : Prop := g.start ≤ s ∧ s < g.stop

theorem slotToGroup_none : ∀ (gs : List Group) (i : Nat) (m : Nat → Nat) (s : Nat), (∀ g ∈ gs, ¬ Within g s) →
    slotToGroup i gs m s = m s := by
  intro gs
  induction gs with
  | nil => intro i m s _; rfl
  | cons g gs ih =>
    intro i m s h
    unfold slotToGroup
    rw [ih _ _ _ fun x hx => h x (by simp [hx]), if_neg (show ¬ (g.start ≤ s ∧ s < g.stop) from h g (by simp))]

theorem slotToGroup_some : ∀ (gs : List Group) (i k : Nat) (m : Nat → Nat) (s : Nat) (g : Group), gs.Pairwise Apart →
    gs[k]? = some g → Within g s → slotToGroup i gs m s = (i + k) % 256 := by
  intro gs
  induction gs with
  | nil => intro i k m s g _ h; simp at h
  | cons x gs ih =>
    intro i k m s g hp hk hs
    rw [List.pairwise_cons] at hp
    unfold slotToGroup
    cases k with
    | zero =>
      simp only [List.getElem?_cons_zero, Option.some.injEq] at hk
      subst hk
      rw [slotToGroup_none, if_pos (show x.start ≤ s ∧ s < x.stop from hs), Nat.add_zero]
      intro y hy hw
      have := hp.1 y hy
      unfold Apart at this
      unfold Within at hs hw
      omega
    | succ k =>
      rw [List.getElem?_cons_succ] at hk
      rw [ih (i + 1) k _ s g hp.2 hk hs]
      congr 1
      omega

theorem groupOf_eq {gs : List Group} (hp : gs.Pairwise Apart) (hl : gs.length ≤ 256) {k s : Nat} {g : Group}
    (hk : gs[k]? = some g) (hs : Within g s) : groupOf gs s = k := by
  unfold groupOf
  rw [slotToGroup_some gs 0 k _ s g hp hk hs, Nat.zero_add]
  have : k < gs.length := (List.getElem?_eq_some_iff.1 hk).1
  exact Nat.mod_eq_of_lt (by omega)

/-- The shape of a list of nodes. -/
def shapeOf (ns : List Named) : Shape := fun s => ns.countP fun n => decide (activeSlots n.2 = s)

theorem countP_add {α : Type} (p q r : α → Bool)
    (h : ∀ a, (if p a = true then 1 else 0) + (if q a = true then 1 else 0) = (if r a = true then 1 else 0)) : ∀ l : List α,
    l.countP p + l.countP q = l.countP r := by
  intro l
  induction l with
  | nil => rfl
  | cons x l ih =>
    rw [List.countP_cons, List.countP_cons, List.countP_cons]
    have := h x
    omega

theorem sumOn_shapeOf (ns : List Named) (a b : Nat) :
    sumOn (shapeOf ns) a b = ns.countP fun n => decide (a ≤ activeSlots n.2 ∧ activeSlots n.2 < b) := by
  have hadd : ∀ d, sumOn (shapeOf ns) a (a + d) = ns.countP fun n => decide (a ≤ activeSlots n.2 ∧ activeSlots n.2 < a + d) := by
    intro d
    induction d with
    | zero =>
      rw [Nat.add_zero, sumOn_zero _ (fun s h1 h2 => by omega)]
      symm
      rw [List.countP_eq_zero]
      intro n _
      simp
    | succ d ih =>
      rw [sumOn_split _ (a := a) (b := a + d) (c := a + (d + 1)) (by omega) (by omega), ih,
        show a + (d + 1) = a + d + 1 by omega, sumOn_one]
      unfold shapeOf
      apply countP_add
      intro n
      simp only [decide_eq_true_eq]
      split <;> split <;> split <;> omega
  by_cases hab : a ≤ b
  · have := hadd (b - a)
    rwa [Nat.add_sub_cancel' hab] at this
  · rw [sumOn_zero _ (fun s h1 h2 => by omega)]
    symm
    rw [List.countP_eq_zero]
    intro n _
    simp
    omega

theorem activeSlots_le (t : Tree) : activeSlots t ≤ 256 := by
  cases t with
  | empty => simp [activeSlots]
  | leaf reass pi => simp [activeSlots]
  | slots bi next =>
    unfold activeSlots
    exact Nat.le_trans List.countP_le_length (by rw [allBytes_length]; exact Nat.le_refl _)

/-- Groups chosen for the shape of the nodes have as many nodes as there are. -/
theorem fit_of_groupsOK {c : Config} {ns : List Named} {gs : List Group} (h : GroupsOK c (shapeOf ns) gs)
    (hl : gs.length ≤ 256) :
    Fit gs ns ∧ ∀ n ∈ ns, ∃ g, gs[grp gs n]? = some g ∧ Within g (activeSlots n.2) := by
  have hcov : ∀ n ∈ ns, ∃ k g, gs[k]? = some g ∧ Within g (activeSlots n.2) ∧ grp gs n = k := by
    intro n hn
    have hpos : 0 < shapeOf ns (activeSlots n.2) := List.countP_pos_iff.2 ⟨n, hn, by simp⟩
    obtain ⟨g, hg, hw⟩ := h.covers _ (activeSlots_le n.2) hpos
    obtain ⟨k, hk⟩ := List.getElem?_of_mem hg
    exact ⟨k, g, hk, hw, groupOf_eq h.apart hl hk hw⟩
  refine ⟨⟨?_, ?_⟩, ?_⟩
  · intro n hn
    obtain ⟨k, g, hk, -, e⟩ := hcov n hn
    rw [e]
    exact (List.getElem?_eq_some_iff.1 hk).1
  · intro k g hk
    rw [(h.each g (List.mem_of_getElem? hk)).nodes, sumOn_shapeOf]
    apply List.countP_congr
    intro n hn
    simp only [decide_eq_true_eq]
    constructor
    · intro hw
      exact groupOf_eq h.apart hl hk hw
    · intro e
      obtain ⟨k', g', hk', hw, e'⟩ := hcov n hn
      rw [e] at e'
      subst e'
      rw [hk] at hk'
      injection hk' with hk'
      subst hk'
      exact hw
  · intro n hn
    obtain ⟨k, g, hk, hw, e⟩ := hcov n hn
    exact ⟨g, by rw [e]; exact hk, hw⟩

/-! ## The description of a format -/

/-- Ids of nodes are 2 to 4 bytes wide, and a leaf is small. -/
structure ConfigOK (c : Config) : Prop where
  wlo : 2 ≤ c.w
  whi : c.w ≤ 4
  hwlo : 1 ≤ c.hw
  hwhi : c.hw ≤ 4
  r : c.r ≤ 64

theorem or_add {a b k : Nat} (h : b < 2 ^ k) : a * 2 ^ k ||| b = a * 2 ^ k + b := by
  rw [Nat.mul_comm, Nat.two_pow_add_eq_or_of_lt h]

/-- The high half of the description of a format. -/
def tag : Format → Nat → Nat
  | .full, _ => 0
  | .leaf, _ => 0
  | .medium, s => s * 65536
  | .tiny, s => s * 16777216

/-- The description of a format, as a number. -/
theorem specWord_eq {c : Config} (hc : ConfigOK c) {s : Nat} (hs : s ≤ 256) : specWord c (specOf s) =
    tag (fmtOf s) s + byteSize c (specOf s) := by
  have h1 := hc.whi
  have h2 := hc.hwhi
  have h3 := hc.r
  unfold specWord byteSize
  have hcap : (specOf s).format = fmtOf s := rfl
  rw [hcap]
  have hmul : ∀ k ≤ 256, k * c.w ≤ 256 * 4 := fun k hk => Nat.mul_le_mul hk h1
  have hfm : fmtOf s = .medium → s < 245 := by
    intro h
    unfold fmtOf at h
    repeat' split at h
    all_goals first | omega | cases h
  have hft : fmtOf s = .tiny → s ≤ 5 := by
    intro h
    unfold fmtOf at h
    repeat' split at h
    all_goals first | omega | cases h
  cases hf : fmtOf s with
  | full =>
    dsimp only [tag]
    have := hmul 256 (by omega)
    rw [Nat.mod_eq_of_lt (by omega)]
    omega
  | leaf =>
    dsimp only [tag]
    rw [Nat.mod_eq_of_lt (by omega)]
    omega
  | medium =>
    dsimp only [tag]
    have hs' := hfm hf
    have hce : (specOf s).cap = s := by unfold specOf; dsimp only; rw [if_neg (by omega)]
    have := hmul s hs
    rw [hce, Nat.mul_comm c.w s, Nat.mod_eq_of_lt (a := s * 2 ^ 16) (by omega), Nat.mod_eq_of_lt (a := 1 + 1 + 32 + s * c.w) (by omega),
      or_add (by omega)]
  | tiny =>
    dsimp only [tag]
    have hs' := hft hf
    have hce : (specOf s).cap = s := by unfold specOf; dsimp only; rw [if_neg (by omega)]
    have hm : s * (1 + c.w) ≤ 5 * 5 := Nat.mul_le_mul hs' (by omega)
    rw [hce, Nat.mod_eq_of_lt (a := s * 2 ^ 24) (by omega), Nat.mod_eq_of_lt (a := 1 + s * (1 + c.w)) (by omega), or_add (by omega)]

theorem byteSize_le {c : Config} (hc : ConfigOK c) {s : Nat} (hs : s ≤ 256) : byteSize c (specOf s) ≤ 34 + 256 * c.w := by
  have h1 := hc.wlo
  have h2 := hc.hwhi
  have h3 := hc.r
  have hft : fmtOf s = .tiny → s ≤ 5 := by
    intro h
    unfold fmtOf at h
    repeat' split at h
    all_goals first | omega | cases h
  unfold byteSize
  rw [show (specOf s).format = fmtOf s from rfl]
  have hcap : (specOf s).cap ≤ 256 := by unfold specOf; dsimp only; split <;> omega
  cases hf : fmtOf s with
  | full => dsimp only; omega
  | leaf => dsimp only; omega
  | medium => dsimp only; have := Nat.mul_le_mul_right c.w hcap; omega
  | tiny =>
    dsimp only
    have hce : (specOf s).cap = s := by unfold specOf; dsimp only; rw [if_neg (by have := hft hf; omega)]
    have := Nat.mul_le_mul_right (1 + c.w) (hft hf)
    rw [hce]
    omega

theorem wordOK {c : Config} (hc : ConfigOK c) {s : Nat} (hs : s ≤ 256) : WordOK c (specOf s) := by
  have hb := byteSize_le hc hs
  have hw := hc.whi
  have he := specWord_eq hc hs
  have hft : fmtOf s = .tiny → s ≤ 5 := by
    intro h
    unfold fmtOf at h
    repeat' split at h
    all_goals first | omega | cases h
  constructor
  · rw [he]
    cases hf : fmtOf s with
    | tiny => have := hft hf; simp only [tag]; omega
    | _ => simp only [tag]; omega
  · rw [he]
    cases fmtOf s <;> simp only [tag] <;> omega

/-! ## Room -/

/-- The level is small enough: fewer nodes than ids, and the bytes can be counted in 32 bits even if every branching
node takes the most space. -/
structure LevelFits (c : Config) (ns : List Named) : Prop where
  nodes : ns.length < 256 ^ c.w
  ids : ns.length < c.max
  bytes : (ns.countP fun n => decide (activeSlots n.2 ≠ 0)) * (34 + 256 * c.w) +
    (ns.countP fun n => decide (activeSlots n.2 = 0)) * (c.r + c.hw) ≤ c.max

theorem room_of_fits {c : Config} (hc : ConfigOK c) {ns : List Named} (h : LevelFits c ns) : Room c (shapeOf ns) := by
  intro s hs hpos
  have hb := h.bytes
  by_cases h0 : s = 0
  · subst h0
    have e1 : sumOn (shapeOf ns) (lowest 0) (0 + 1) = ns.countP fun n => decide (activeSlots n.2 = 0) := by
      show sumOn (shapeOf ns) 0 (0 + 1) = _
      rw [sumOn_one]
      rfl
    have e2 : byteSize c (specOf 0) = c.r + c.hw := rfl
    rw [e1, e2]
    omega
  · have h1 : sumOn (shapeOf ns) (lowest s) (s + 1) ≤ ns.countP fun n => decide (activeSlots n.2 ≠ 0) := by
      rw [sumOn_shapeOf]
      apply List.countP_mono_left
      intro n _ hn
      have : 1 ≤ lowest s := by unfold lowest; (repeat' split) <;> omega
      simp only [decide_eq_true_eq] at hn ⊢
      omega
    have := Nat.mul_le_mul h1 (byteSize_le hc hs)
    omega

/-! ## Nothing is written twice or left out -/

theorem sum_flatten_nat : ∀ L : List (List Nat), L.flatten.sum = (L.map List.sum).sum := by
  intro L
  induction L with
  | nil => rfl
  | cons x L ih => rw [List.flatten_cons, List.sum_append, List.map_cons, List.sum_cons, ih]

theorem ordered_perm_aux (l : List Named) (f : Named → Nat) : ∀ K : Nat,
    ((List.range K).map fun k => l.filter fun n => f n = k).flatten.Perm (l.filter fun n => f n < K) := by
  intro K
  induction K with
  | zero => simp
  | succ K ih =>
    rw [List.range_succ, List.map_append, List.flatten_append]
    simp only [List.map_cons, List.map_nil, List.flatten_cons, List.flatten_nil, List.append_nil]
    have h := List.filter_append_perm (fun n => decide (f n < K)) (l.filter fun n => f n < K + 1)
    rw [List.filter_filter, List.filter_filter] at h
    have e1 : (l.filter fun n => decide (f n < K) && decide (f n < K + 1)) = l.filter fun n => f n < K := by
      apply List.filter_congr
      intro n _
      rw [Bool.eq_iff_iff]
      simp
      omega
    have e2 : (l.filter fun n => (!decide (f n < K)) && decide (f n < K + 1)) = l.filter fun n => f n = K := by
      apply List.filter_congr
      intro n _
      rw [Bool.eq_iff_iff]
      simp
      omega
    rw [e1, e2] at h
    exact (ih.append_right _).trans h

theorem ordered_perm {gs : List Group} {ns : List Named} (hf : Fit gs ns) : (ordered gs ns).Perm ns := by
  have := ordered_perm_aux ns (grp gs) gs.length
  have e : (ns.filter fun n => grp gs n < gs.length) = ns := by
    rw [List.filter_eq_self]
    intro n hn
    simpa using hf.lt n hn
  rw [e] at this
  exact this

/-- The most space for a node. -/
def weight (c : Config) (n : Named) : Nat := if activeSlots n.2 = 0 then c.r + c.hw else 34 + 256 * c.w

theorem sum_weight (c : Config) : ∀ ns : List Named, (ns.map (weight c)).sum =
    (ns.countP fun n => decide (activeSlots n.2 ≠ 0)) * (34 + 256 * c.w) +
      (ns.countP fun n => decide (activeSlots n.2 = 0)) * (c.r + c.hw) := by
  intro ns
  induction ns with
  | nil => simp
  | cons n ns ih =>
    rw [List.map_cons, List.sum_cons, ih, List.countP_cons, List.countP_cons]
    unfold weight
    by_cases h : activeSlots n.2 = 0
    · simp only [h, if_true, decide_true, ne_eq, not_true_eq_false, decide_false, Bool.false_eq_true, if_false, Nat.add_zero,
        Nat.add_mul, Nat.one_mul]
      omega
    · simp only [h, if_false, decide_false, ne_eq, not_false_eq_true, decide_true, if_true, Bool.false_eq_true, Nat.add_zero,
        Nat.add_mul, Nat.one_mul]
      omega

theorem sum_map_le {α : Type} (f g : α → Nat) : ∀ l : List α, (∀ a ∈ l, f a ≤ g a) → (l.map f).sum ≤ (l.map g).sum := by
  intro l
  induction l with
  | nil => intro _; simp
  | cons x l ih =>
    intro h
    rw [List.map_cons, List.map_cons, List.sum_cons, List.sum_cons]
    have := h x (by simp)
    have := ih fun a ha => h a (by simp [ha])
    omega

theorem length_mul_le {α : Type} (f : α → Nat) (z : Nat) : ∀ l : List α, (∀ a ∈ l, z ≤ f a) → l.length * z ≤ (l.map f).sum := by
  intro l
  induction l with
  | nil => intro _; simp
  | cons x l ih =>
    intro hle
    rw [List.length_cons, List.map_cons, List.sum_cons, Nat.add_mul]
    have := ih fun n hn => hle n (by simp [hn])
    have := hle x (by simp)
    omega

theorem sum_le_of_groupsOK {c : Config} (hc : ConfigOK c) {ns : List Named} {gs : List Group} (h : GroupsOK c (shapeOf ns) gs)
    (hl : gs.length ≤ 256) : (gs.map (·.nodes)).sum = ns.length ∧
    (gs.map fun g => g.nodes * byteSize c g.spec).sum ≤ (ns.countP fun n => decide (activeSlots n.2 ≠ 0)) * (34 + 256 * c.w) +
      (ns.countP fun n => decide (activeSlots n.2 = 0)) * (c.r + c.hw) := by
  obtain ⟨hf, hwithin⟩ := fit_of_groupsOK h hl
  have hperm := ordered_perm hf
  refine ⟨?_, ?_⟩
  · rw [← hperm.length_eq, ordered_length hf]
    unfold before
    rw [List.take_length]
  · rw [← sum_weight, ← (hperm.map (weight c)).sum_nat]
    unfold ordered
    rw [List.map_flatten, sum_flatten_nat, List.map_map]
    have e : (gs.map fun g => g.nodes * byteSize c g.spec) =
        (List.range gs.length).map fun k => match gs[k]? with
          | some g => g.nodes * byteSize c g.spec
          | none => 0 := by
      apply List.ext_getElem
      · simp
      · intro k h1 h2
        simp only [List.length_map] at h1
        simp [List.getElem?_eq_getElem h1]
    rw [e]
    unfold blocks
    rw [List.map_map]
    apply sum_map_le
    intro k hk
    rw [List.mem_range] at hk
    rw [List.getElem?_eq_getElem hk]
    dsimp only [Function.comp]
    have hg := h.each gs[k] (List.getElem_mem hk)
    rw [hf.nodes k _ (List.getElem?_eq_getElem hk), List.countP_eq_length_filter]
    have hle : ∀ n ∈ ns.filter (fun n => grp gs n = k), byteSize c gs[k].spec ≤ weight c n := by
      intro n hn
      rw [List.mem_filter] at hn
      have h2 : grp gs n = k := by simpa using hn.2
      obtain ⟨g, hg1, hw⟩ := hwithin n hn.1
      rw [h2, List.getElem?_eq_getElem hk] at hg1
      injection hg1 with hg1
      subst hg1
      have hfm := hg.fmt _ hw.1 hw.2
      unfold weight
      have hlt := hg.le
      have hlt' := hg.lt
      by_cases h0 : activeSlots n.2 = 0
      · rw [if_pos h0]
        rw [h0] at hfm
        unfold byteSize
        rw [← hfm]
        exact Nat.le_refl _
      · rw [if_neg h0, hg.spec]
        exact byteSize_le hc (by omega)
    exact length_mul_le _ _ _ hle

end Verif.Chunk
