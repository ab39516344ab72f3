import Verif.Model.NodeFormat
import Verif.Lemmas.StableSort
import Mathlib.Data.List.Induction

/-!
# Node formats: the groups stay in order and cover every slot count
-/

namespace Verif.Chunk

theorem Config.wrap_cases (c : Config) :
    (c.wrap = 2 ^ 32 ∧ c.max = 2 ^ 32 - 1) ∨ (c.wrap = 2 ^ 64 ∧ c.max = 2 ^ 64 - 1) := by
  unfold Config.max Config.wrap
  cases c.back <;> simp

theorem Config.wrap_pos (c : Config) : 0 < c.wrap := by rcases c.wrap_cases with h | h <;> omega

theorem Config.wrap_ge (c : Config) : 2 ^ 32 ≤ c.wrap := by rcases c.wrap_cases with h | h <;> omega

theorem Config.max_eq (c : Config) : c.max = c.wrap - 1 := rfl

theorem Config.wrap_le (c : Config) : c.wrap ≤ 2 ^ 64 := by rcases c.wrap_cases with h | h <;> omega

/-- The number of nodes with `a` up to (not including) `b` active slots. -/
def sumOn (shape : Shape) (a b : Nat) : Nat := ((List.range' a (b - a)).map shape).sum

theorem sumOn_split (shape : Shape) {a b c : Nat} (h1 : a ≤ b) (h2 : b ≤ c) :
    sumOn shape a c = sumOn shape a b + sumOn shape b c := by
  unfold sumOn
  rw [show c - a = (b - a) + (c - b) by omega, ← List.range'_append_1, List.map_append, List.sum_append,
    show a + (b - a) = b by omega]

theorem sumOn_zero (shape : Shape) {a b : Nat} (h : ∀ s, a ≤ s → s < b → shape s = 0) : sumOn shape a b = 0 := by
  unfold sumOn
  have : ∀ l : List Nat, (∀ x ∈ l, x = 0) → l.sum = 0 := by
    intro l
    induction l with
    | nil => intro _; rfl
    | cons x l ih =>
      intro hl
      rw [List.sum_cons, hl x (by simp), ih fun y hy => hl y (by simp [hy])]
  apply this
  intro x hx
  obtain ⟨s, hs, rfl⟩ := List.mem_map.1 hx
  rw [List.mem_range'_1] at hs
  exact h s hs.1 (by omega)

theorem sumOn_one (shape : Shape) (a : Nat) : sumOn shape a (a + 1) = shape a := by
  simp [sumOn]

theorem sumOn_mem (shape : Shape) {a b s : Nat} (h1 : a ≤ s) (h2 : s < b) : shape s ≤ sumOn shape a b := by
  rw [sumOn_split shape h1 (by omega : s ≤ b), sumOn_split shape (by omega : s ≤ s + 1) (by omega : s + 1 ≤ b), sumOn_one]
  omega

/-- The format for a number of active slots. -/
def fmtOf (s : Nat) : Format := if s = 0 then .leaf else if s ≤ 5 then .tiny else if s ≥ 245 then .full else .medium

/-- The format and capacity for a number of active slots. -/
def specOf (s : Nat) : Spec := ⟨fmtOf s, if s ≥ 245 then 256 else s⟩

/-- The fewest slots with the same format. -/
def lowest (s : Nat) : Nat := if s = 0 then 0 else if s ≤ 5 then 1 else if s ≥ 245 then 245 else 6

theorem propose_eq {s : Nat} (h : s ≠ 1) : propose s = some (specOf s) := by
  unfold propose specOf fmtOf
  split
  · next h0 => subst h0; rfl
  · split
    · rw [if_neg (by omega)]
    · split
      · rfl
      · rfl

def rank : Format → Nat
  | .leaf => 0
  | .tiny => 1
  | .medium => 2
  | .full => 3

theorem rank_inj {f g : Format} (h : rank f = rank g) : f = g := by
  cases f <;> cases g <;> simp_all [rank]

theorem rank_mono {s t : Nat} (h : s ≤ t) : rank (fmtOf s) ≤ rank (fmtOf t) := by
  unfold fmtOf
  repeat' split
  all_goals first | omega | simp [rank]

theorem lowest_le {s t : Nat} (hf : fmtOf s = fmtOf t) : lowest t ≤ s := by
  unfold fmtOf at hf
  unfold lowest
  repeat' split at hf
  all_goals first | (exfalso; exact absurd hf (by decide)) | skip
  all_goals (repeat' split) <;> omega

/-- There is room: the nodes sharing a format, all made as big as any of them, fit a 32 bit count of bytes. -/
def Room (c : Config) (shape : Shape) : Prop :=
  ∀ s ≤ 256, 0 < shape s → sumOn shape (lowest s) (s + 1) * byteSize c (specOf s) ≤ c.max

/-- What holds of each group. -/
structure GroupOK (c : Config) (shape : Shape) (g : Group) : Prop where
  lt : g.start < g.stop
  le : g.stop ≤ 257
  pos : 0 < shape (g.stop - 1)
  spec : g.spec = specOf (g.stop - 1)
  fmt : ∀ s, g.start ≤ s → s < g.stop → fmtOf s = g.spec.format
  nodes : g.nodes = sumOn shape g.start g.stop
  bytes : g.bytes = g.nodes * byteSize c g.spec
  small : g.bytes ≤ c.max

/-- The groups are in order from `a` on, and miss no slot count. -/
def Cov (c : Config) (shape : Shape) : Nat → List Group → Prop
  | a, [] => ∀ s, a ≤ s → s ≤ 256 → shape s = 0
  | a, g :: gs => a ≤ g.start ∧ (∀ s, a ≤ s → s < g.start → shape s = 0) ∧ GroupOK c shape g ∧ Cov c shape g.stop gs

theorem Cov.lower {c : Config} {shape : Shape} {a b : Nat} {gs : List Group} (h : Cov c shape b gs) (hab : a ≤ b)
    (hz : ∀ s, a ≤ s → s < b → shape s = 0) : Cov c shape a gs := by
  cases gs with
  | nil =>
    intro s h1 h2
    by_cases hs : s < b
    · exact hz s h1 hs
    · exact h s (by omega) h2
  | cons g gs =>
    obtain ⟨h1, h2, h3, h4⟩ := h
    refine ⟨by omega, fun s hs hs' => ?_, h3, h4⟩
    by_cases hsb : s < b
    · exact hz s hs hsb
    · exact h2 s (by omega) hs'

theorem byteSize_pos {c : Config} {s : Nat} (hp : 0 < c.hw) : 0 < byteSize c (specOf s) := by
  unfold byteSize
  split <;> omega

/-- Each used slot count gets its own group. -/
theorem proposeLoop_cov {c : Config} {shape : Shape} (h1 : shape 1 = 0) (hr : Room c shape) : ∀ (n a : Nat), a + n = 257 →
    ∃ gs, proposeLoop c shape (List.range' a n) = some gs ∧ Cov c shape a gs ∧ gs.length ≤ n := by
  intro n
  induction n with
  | zero =>
    intro a ha
    exact ⟨[], rfl, fun s hs hs' => by omega, by simp⟩
  | succ n ih =>
    intro a ha
    obtain ⟨gs, e, hc, hlen⟩ := ih (a + 1) (by omega)
    rw [List.range'_succ]
    unfold proposeLoop
    by_cases hp : shape a > 0
    · have hb : shape a * byteSize c (specOf a) ≤ c.max := by
        refine Nat.le_trans (Nat.mul_le_mul_right _ ?_) (hr a (by omega) hp)
        exact sumOn_mem shape (lowest_le rfl) (by omega)
      have ha1 : a ≠ 1 := by rintro rfl; omega
      rw [if_pos hp, propose_eq ha1]
      dsimp only
      rw [if_neg (by omega), e]
      refine ⟨_, rfl, ⟨Nat.le_refl _, fun s hs hs' => ?_, ?_, hc⟩, by simpa using hlen⟩
      · dsimp only at hs'; omega
      · refine ⟨by simp, by dsimp only; omega, by simpa using hp, by simp, fun s hs hs' => ?_, ?_, rfl, hb⟩
        · dsimp only at hs hs'
          rw [show s = a by omega]; rfl
        · exact (sumOn_one shape a).symm
    · rw [if_neg hp]
      refine ⟨gs, e, hc.lower (by omega) fun s hs hs' => ?_, by omega⟩
      rw [show s = a by omega]; omega

theorem proposeGroups_cov {c : Config} {shape : Shape} (h1 : shape 1 = 0) (hr : Room c shape) :
    ∃ gs, proposeGroups c shape = some gs ∧ Cov c shape 0 gs := by
  obtain ⟨gs, e, hc, -⟩ := proposeLoop_cov h1 hr 257 0 rfl
  refine ⟨gs, ?_, hc⟩
  unfold proposeGroups
  rw [List.range_eq_range']
  exact e

/-- Two neighbours of one format merge, and the merged group is as good as the two. -/
theorem merge_ok {c : Config} {shape : Shape} (hr : Room c shape) (hp : 0 < c.hw) {g h : Group} (hg : GroupOK c shape g)
    (hh : GroupOK c shape h) (hle : g.stop ≤ h.start) (hz : ∀ s, g.stop ≤ s → s < h.start → shape s = 0)
    (hf : h.spec.format = g.spec.format) :
    ∃ m, merge c g h = some m ∧ GroupOK c shape m ∧ m.start = g.start ∧ m.stop = h.stop ∧ g.bytes + h.bytes ≤ m.bytes ∧
      0 < g.bytes := by
  have hgl := hg.lt
  have hhl := hh.lt
  have hhs := hh.le
  have hsum : sumOn shape g.start h.stop = g.nodes + h.nodes := by
    rw [sumOn_split shape (a := g.start) (b := g.stop) (c := h.stop) (by omega) (by omega),
      sumOn_split shape (a := g.stop) (b := h.start) (c := h.stop) (by omega) (by omega), sumOn_zero shape hz, hg.nodes,
      hh.nodes]
    omega
  have hfm : fmtOf (h.stop - 1) = h.spec.format := hh.fmt _ (by omega) (by omega)
  have hfg : fmtOf g.start = g.spec.format := hg.fmt _ (by omega) (by omega)
  have hspec : (⟨g.spec.format, h.spec.cap⟩ : Spec) = h.spec := by rw [← hf]
  have hroom : (g.nodes + h.nodes) * byteSize c h.spec ≤ c.max := by
    refine Nat.le_trans ?_ (hr (h.stop - 1) (by omega) hh.pos)
    rw [← hh.spec, ← hsum, show h.stop - 1 + 1 = h.stop by omega]
    apply Nat.mul_le_mul_right
    rw [sumOn_split shape (a := lowest (h.stop - 1)) (b := g.start) (c := h.stop)
      (lowest_le (by rw [hfg, hfm, hf])) (by omega)]
    omega
  have hsz : 0 < byteSize c h.spec := by rw [hh.spec]; exact byteSize_pos hp
  have hszg : 0 < byteSize c g.spec := by rw [hg.spec]; exact byteSize_pos hp
  have hn : (g.nodes + h.nodes) % c.wrap = g.nodes + h.nodes := by
    apply Nat.mod_eq_of_lt
    have := Nat.le_mul_of_pos_right (g.nodes + h.nodes) hsz
    have := c.wrap_pos
    unfold Config.max at hroom
    omega
  have hsize : byteSize c g.spec ≤ byteSize c h.spec := by
    have hcap : g.spec.cap ≤ h.spec.cap := by
      rw [hg.spec, hh.spec]
      unfold specOf
      dsimp only
      have := hg.le
      split <;> split <;> omega
    unfold byteSize
    rw [hf]
    split
    · have := Nat.mul_le_mul_right (1 + c.w) hcap; omega
    · have := Nat.mul_le_mul_right c.w hcap; omega
    · exact Nat.le_refl _
    · exact Nat.le_refl _
  have hgpos : 0 < g.nodes := by
    have := sumOn_mem shape (a := g.start) (b := g.stop) (s := g.stop - 1) (by omega) (by omega)
    have := hg.pos
    rw [hg.nodes]
    omega
  refine ⟨⟨g.start, h.stop, g.nodes + h.nodes, h.spec, (g.nodes + h.nodes) * byteSize c h.spec⟩, ?_, ?_, rfl, rfl, ?_, ?_⟩
  · unfold merge
    rw [if_neg (by omega), if_neg (by simpa using hf)]
    dsimp only
    rw [hn, hspec, if_neg (by omega)]
  · refine ⟨by dsimp only; omega, hhs, hh.pos, hh.spec, fun s hs hs' => ?_, hsum.symm, rfl, hroom⟩
    dsimp only at hs hs' ⊢
    apply rank_inj
    have h1 := rank_mono hs
    have h2 := rank_mono (show s ≤ h.stop - 1 by omega)
    rw [hfg, ← hf] at h1
    rw [hfm] at h2
    omega
  · rw [hg.bytes, hh.bytes]
    dsimp only
    rw [Nat.add_mul]
    have := Nat.mul_le_mul_left g.nodes hsize
    omega
  · rw [hg.bytes]; exact Nat.mul_pos hgpos hszg

/-- What the search for the best merge comes back with. -/
theorem scan_ok {c : Config} {shape : Shape} (hr : Room c shape) (hp : 0 < c.hw) : ∀ (gs : List Group) (i a : Nat)
    (best : Nat × Option (Nat × Group)), Cov c shape a gs → (best.2 = none → best.1 = c.max) →
    ∃ res, scan c i gs best = some res ∧
      ((res = best ∧ (best.2 = none → ∀ k g h, gs[k]? = some g → gs[k + 1]? = some h → h.spec.format ≠ g.spec.format)) ∨
       ∃ k m g h, res.2 = some (i + k, m) ∧ gs[k]? = some g ∧ gs[k + 1]? = some h ∧ h.spec.format = g.spec.format ∧
         merge c g h = some m) := by
  intro gs
  induction gs with
  | nil =>
    intro i a best _ _
    exact ⟨best, by unfold scan; rfl, .inl ⟨rfl, fun _ k g h hk => by simp at hk⟩⟩
  | cons g gs ih =>
    intro i a best hc hb
    cases gs with
    | nil => exact ⟨best, by unfold scan; rfl, .inl ⟨rfl, fun _ k g' h hk hk' => by simp at hk'⟩⟩
    | cons h rest =>
      obtain ⟨-, -, hg, hc'⟩ := hc
      obtain ⟨hle, hz, hh, -⟩ := id hc'
      by_cases hf : h.spec.format = g.spec.format
      · obtain ⟨m, em, hm, -, -, hby, hpos⟩ := merge_ok hr hp hg hh hle hz hf
        have hcost : (m.bytes + c.wrap - (g.bytes + h.bytes) % c.wrap) % c.wrap < c.max := by
          have := hm.small
          rcases c.wrap_cases with ⟨h1, h2⟩ | ⟨h1, h2⟩ <;> rw [h2] at this ⊢ <;> rw [h1] <;> omega
        unfold scan
        rw [if_pos hf, em]
        dsimp only
        generalize (m.bytes + c.wrap - (g.bytes + h.bytes) % c.wrap) % c.wrap = cost at hcost
        by_cases hlt : cost < best.1
        · rw [if_pos hlt]
          obtain ⟨res, e, hres⟩ := ih (i + 1) g.stop (cost, some (i, m)) hc' (fun hn => by simp at hn)
          refine ⟨res, e, .inr ?_⟩
          rcases hres with ⟨rfl, -⟩ | ⟨k, m', g', h', e1, e2, e3, e4, e5⟩
          · exact ⟨0, m, g, h, rfl, rfl, rfl, hf, em⟩
          · exact ⟨k + 1, m', g', h', by rw [e1, Nat.add_assoc, Nat.add_comm 1], e2, e3, e4, e5⟩
        · rw [if_neg hlt]
          obtain ⟨res, e, hres⟩ := ih (i + 1) g.stop best hc' hb
          refine ⟨res, e, ?_⟩
          rcases hres with ⟨rfl, -⟩ | ⟨k, m', g', h', e1, e2, e3, e4, e5⟩
          · left
            exact ⟨rfl, fun hn => absurd hcost (by rw [hb hn] at hlt; omega)⟩
          · right
            exact ⟨k + 1, m', g', h', by rw [e1, Nat.add_assoc, Nat.add_comm 1], e2, e3, e4, e5⟩
      · unfold scan
        rw [if_neg hf]
        obtain ⟨res, e, hres⟩ := ih (i + 1) g.stop best hc' hb
        refine ⟨res, e, ?_⟩
        rcases hres with ⟨rfl, hno⟩ | ⟨k, m', g', h', e1, e2, e3, e4, e5⟩
        · left
          refine ⟨rfl, fun hn k g' h' hk hk' => ?_⟩
          cases k with
          | zero =>
            simp only [List.getElem?_cons_zero, Option.some.injEq, Nat.zero_add, List.getElem?_cons_succ] at hk hk'
            subst hk hk'
            exact hf
          | succ k => exact hno hn k g' h' hk hk'
        · right
          exact ⟨k + 1, m', g', h', by rw [e1, Nat.add_assoc, Nat.add_comm 1], e2, e3, e4, e5⟩

/-- Neighbours all of different formats: at most four. -/
theorem few_of_distinct {c : Config} {shape : Shape} : ∀ (gs : List Group) (a : Nat), Cov c shape a gs →
    (∀ k g h, gs[k]? = some g → gs[k + 1]? = some h → h.spec.format ≠ g.spec.format) →
    ∀ g, gs[0]? = some g → gs.length + rank g.spec.format ≤ 4 := by
  intro gs
  induction gs with
  | nil => intro a _ _ g hg; simp at hg
  | cons g gs ih =>
    intro a hc hd g' hg'
    simp only [List.getElem?_cons_zero, Option.some.injEq] at hg'
    subst hg'
    cases gs with
    | nil => cases g.spec.format <;> simp [rank]
    | cons h rest =>
      obtain ⟨-, -, hg, hc'⟩ := hc
      obtain ⟨hle, -, hh, -⟩ := id hc'
      have hi := ih g.stop hc' (fun k x y hx hy => hd (k + 1) x y hx hy) h rfl
      have hne := hd 0 g h rfl rfl
      have hgl := hg.lt
      have hhl := hh.lt
      have hm : rank (fmtOf g.start) ≤ rank (fmtOf h.start) := rank_mono (by omega)
      rw [hg.fmt _ (by omega) (by omega), hh.fmt _ (by omega) (by omega)] at hm
      have : rank g.spec.format ≠ rank h.spec.format := fun e => hne (rank_inj e).symm
      simp only [List.length_cons] at hi ⊢
      omega

theorem cov_replace {c : Config} {shape : Shape} (hr : Room c shape) (hp : 0 < c.hw) : ∀ (gs : List Group) (a k : Nat)
    (g h m : Group), Cov c shape a gs → gs[k]? = some g → gs[k + 1]? = some h → h.spec.format = g.spec.format →
    merge c g h = some m → Cov c shape a (gs.take k ++ m :: gs.drop (k + 2)) := by
  intro gs
  induction gs with
  | nil => intro a k g h m _ hk; simp at hk
  | cons x gs ih =>
    intro a k g h m hc hk hk' hf em
    obtain ⟨h1, h2, h3, h4⟩ := hc
    cases k with
    | zero =>
      simp only [List.getElem?_cons_zero, Option.some.injEq, Nat.zero_add, List.getElem?_cons_succ] at hk hk'
      subst hk
      cases gs with
      | nil => simp at hk'
      | cons y rest =>
        simp only [List.getElem?_cons_zero, Option.some.injEq] at hk'
        subst hk'
        obtain ⟨hle, hz, hh, hrest⟩ := h4
        obtain ⟨m', em', hm, hs, he, -, -⟩ := merge_ok hr hp h3 hh hle hz hf
        rw [em] at em'
        injection em' with em'
        subst em'
        refine ⟨by rw [hs]; exact h1, by rw [hs]; exact h2, hm, ?_⟩
        rw [he]
        exact hrest
    | succ k =>
      exact ⟨h1, h2, h3, ih x.stop k g h m h4 hk hk' hf em⟩

theorem refine_ok {c : Config} {shape : Shape} (hr : Room c shape) (hp : 0 < c.hw) {gs : List Group} (hc : Cov c shape 0 gs)
    (hlen : 4 < gs.length) : ∃ gs', refine c gs = some (some gs') ∧ Cov c shape 0 gs' ∧ gs'.length + 1 = gs.length := by
  obtain ⟨res, e, hres⟩ := scan_ok hr hp gs 0 0 (c.max, none) hc (fun _ => rfl)
  unfold refine
  rw [e]
  rcases hres with ⟨rfl, hno⟩ | ⟨k, m, g, h, e1, e2, e3, e4, e5⟩
  · exfalso
    have h0 : gs[0]? = some gs[0] := List.getElem?_eq_getElem (by omega)
    have := few_of_distinct gs 0 hc (hno rfl) _ h0
    omega
  · obtain ⟨r1, r2⟩ := res
    dsimp only at e1
    subst e1
    dsimp only
    rw [Nat.zero_add]
    refine ⟨_, rfl, cov_replace hr hp gs 0 k g h m hc e2 e3 e4 e5, ?_⟩
    have : k + 1 < gs.length := (List.getElem?_eq_some_iff.1 e3).1
    simp only [List.length_append, List.length_take, List.length_cons, List.length_drop]
    omega

theorem reduce_ok {c : Config} {shape : Shape} (hr : Room c shape) (hp : 0 < c.hw) (h5 : 5 ≤ c.specs) : ∀ (n : Nat)
    (gs : List Group), gs.length ≤ n → Cov c shape 0 gs →
    ∃ gs', reduce c n gs = some gs' ∧ Cov c shape 0 gs' ∧ gs'.length ≤ c.specs := by
  intro n
  induction n with
  | zero =>
    intro gs hn hc
    exact ⟨gs, by unfold reduce; rw [if_pos (by omega)], hc, by omega⟩
  | succ n ih =>
    intro gs hn hc
    unfold reduce
    by_cases hl : gs.length ≤ c.specs
    · exact ⟨gs, by rw [if_pos hl], hc, hl⟩
    · obtain ⟨gs', e, hc', hlen⟩ := refine_ok hr hp hc (by omega)
      rw [if_neg hl, e]
      exact ih gs' (by omega) hc'

/-! ## Without room: whatever is chosen is still right -/

theorem proposeLoop_sound {c : Config} {shape : Shape} : ∀ (n a : Nat) (gs : List Group), a + n = 257 →
    proposeLoop c shape (List.range' a n) = some gs → Cov c shape a gs := by
  intro n
  induction n with
  | zero =>
    intro a gs ha e
    injection e with e
    subst e
    intro s hs hs'
    omega
  | succ n ih =>
    intro a gs ha e
    rw [List.range'_succ] at e
    unfold proposeLoop at e
    by_cases hp : shape a > 0
    · rw [if_pos hp] at e
      have ha1 : a ≠ 1 := by rintro rfl; simp [propose] at e
      rw [propose_eq ha1] at e
      dsimp only at e
      split at e
      · cases e
      · next hb =>
        obtain ⟨gs', e', rfl⟩ := Option.map_eq_some_iff.1 e
        refine ⟨Nat.le_refl _, fun s hs hs' => ?_, ?_, ih (a + 1) gs' (by omega) e'⟩
        · dsimp only at hs'; omega
        · refine ⟨by simp, by dsimp only; omega, by simpa using hp, by simp, fun s hs hs' => ?_, ?_, rfl, by dsimp only; omega⟩
          · dsimp only at hs hs'
            rw [show s = a by omega]; rfl
          · exact (sumOn_one shape a).symm
    · rw [if_neg hp] at e
      refine (ih (a + 1) gs (by omega) e).lower (by omega) fun s hs hs' => ?_
      rw [show s = a by omega]; omega

theorem merge_sound {c : Config} {shape : Shape} (hn : sumOn shape 0 257 < c.wrap) {g h m : Group} (hg : GroupOK c shape g)
    (hh : GroupOK c shape h) (hle : g.stop ≤ h.start) (hz : ∀ s, g.stop ≤ s → s < h.start → shape s = 0)
    (e : merge c g h = some m) : GroupOK c shape m ∧ m.start = g.start ∧ m.stop = h.stop := by
  have hgl := hg.lt
  have hhl := hh.lt
  have hhs := hh.le
  have hsum : sumOn shape g.start h.stop = g.nodes + h.nodes := by
    rw [sumOn_split shape (a := g.start) (b := g.stop) (c := h.stop) (by omega) (by omega),
      sumOn_split shape (a := g.stop) (b := h.start) (c := h.stop) (by omega) (by omega), sumOn_zero shape hz, hg.nodes,
      hh.nodes]
    omega
  have hmod : (g.nodes + h.nodes) % c.wrap = g.nodes + h.nodes := by
    apply Nat.mod_eq_of_lt
    rw [sumOn_split shape (a := 0) (b := g.start) (c := 257) (by omega) (by omega),
      sumOn_split shape (a := g.start) (b := h.stop) (c := 257) (by omega) (by omega), hsum] at hn
    omega
  unfold merge at e
  split at e
  · cases e
  · split at e
    · cases e
    · next hf =>
      have hf : h.spec.format = g.spec.format := by simpa using hf
      have hspec : (⟨g.spec.format, h.spec.cap⟩ : Spec) = h.spec := by rw [← hf]
      dsimp only at e
      rw [hmod, hspec] at e
      split at e
      · cases e
      · next hb =>
        injection e with e
        subst e
        refine ⟨⟨by dsimp only; omega, hhs, hh.pos, hh.spec, fun s hs hs' => ?_, hsum.symm, rfl, by dsimp only; omega⟩, rfl, rfl⟩
        dsimp only at hs hs' ⊢
        have hfm : fmtOf (h.stop - 1) = h.spec.format := hh.fmt _ (by omega) (by omega)
        have hfg : fmtOf g.start = g.spec.format := hg.fmt _ (by omega) (by omega)
        apply rank_inj
        have h1 := rank_mono hs
        have h2 := rank_mono (show s ≤ h.stop - 1 by omega)
        rw [hfg, ← hf] at h1
        rw [hfm] at h2
        omega

theorem scan_sound {c : Config} : ∀ (gs : List Group) (i : Nat) (best res : Nat × Option (Nat × Group)),
    scan c i gs best = some res → res = best ∨
      ∃ k m g h, res.2 = some (i + k, m) ∧ gs[k]? = some g ∧ gs[k + 1]? = some h ∧ merge c g h = some m := by
  intro gs
  induction gs with
  | nil =>
    intro i best res e
    unfold scan at e
    injection e with e
    exact .inl e.symm
  | cons g gs ih =>
    intro i best res e
    cases gs with
    | nil =>
      unfold scan at e
      injection e with e
      exact .inl e.symm
    | cons h rest =>
      have hrec : ∀ best', scan c (i + 1) (h :: rest) best' = some res → res = best' ∨
          ∃ k m x y, res.2 = some (i + k, m) ∧ (g :: h :: rest)[k]? = some x ∧ (g :: h :: rest)[k + 1]? = some y ∧
            merge c x y = some m := by
        intro best' e'
        rcases ih (i + 1) best' res e' with h' | ⟨k, m, x, y, e1, e2, e3, e4⟩
        · exact .inl h'
        · exact .inr ⟨k + 1, m, x, y, by rw [e1, Nat.add_assoc, Nat.add_comm 1], e2, e3, e4⟩
      unfold scan at e
      split at e
      · split at e
        · cases e
        · next m em =>
          dsimp only at e
          rcases hrec _ e with h' | h'
          · split at h'
            · right
              subst h'
              exact ⟨0, m, g, h, rfl, rfl, rfl, em⟩
            · exact .inl h'
          · exact .inr h'
      · exact hrec _ e

theorem cov_replace_sound {c : Config} {shape : Shape} (hn : sumOn shape 0 257 < c.wrap) : ∀ (gs : List Group) (a k : Nat)
    (g h m : Group), Cov c shape a gs → gs[k]? = some g → gs[k + 1]? = some h →
    merge c g h = some m → Cov c shape a (gs.take k ++ m :: gs.drop (k + 2)) := by
  intro gs
  induction gs with
  | nil => intro a k g h m _ hk; simp at hk
  | cons x gs ih =>
    intro a k g h m hc hk hk' em
    obtain ⟨h1, h2, h3, h4⟩ := hc
    cases k with
    | zero =>
      simp only [List.getElem?_cons_zero, Option.some.injEq, Nat.zero_add, List.getElem?_cons_succ] at hk hk'
      subst hk
      cases gs with
      | nil => simp at hk'
      | cons y rest =>
        simp only [List.getElem?_cons_zero, Option.some.injEq] at hk'
        subst hk'
        obtain ⟨hle, hz, hh, hrest⟩ := h4
        obtain ⟨hm, hs, he⟩ := merge_sound hn h3 hh hle hz em
        refine ⟨by rw [hs]; exact h1, by rw [hs]; exact h2, hm, ?_⟩
        rw [he]
        exact hrest
    | succ k =>
      exact ⟨h1, h2, h3, ih x.stop k g h m h4 hk hk' em⟩

theorem reduce_sound {c : Config} {shape : Shape} (hn : sumOn shape 0 257 < c.wrap) : ∀ (n : Nat)
    (gs gs' : List Group), Cov c shape 0 gs → reduce c n gs = some gs' → Cov c shape 0 gs' ∧ gs'.length ≤ c.specs := by
  intro n
  induction n with
  | zero =>
    intro gs gs' hc e
    unfold reduce at e
    split at e
    · next hl =>
      injection e with e
      subst e
      exact ⟨hc, hl⟩
    · cases e
  | succ n ih =>
    intro gs gs' hc e
    unfold reduce at e
    split at e
    · next hl =>
      injection e with e
      subst e
      exact ⟨hc, hl⟩
    · split at e
      · next gs1 er =>
        refine ih gs1 gs' ?_ e
        unfold refine at er
        split at er
        · cases er
        · cases er
        · next b i m es =>
          injection er with er
          injection er with er
          subst er
          rcases scan_sound gs 0 _ _ es with h | ⟨k, m', g, h, e1, e2, e3, e4⟩
          · simp at h
          · simp only [Nat.zero_add, Option.some.injEq, Prod.mk.injEq] at e1
            obtain ⟨rfl, rfl⟩ := e1
            exact cov_replace_sound hn gs 0 i g h m hc e2 e3 e4
      · cases e

/-! ## Out of order -/

/-- Two groups share no slot count. -/
def Apart (g h : Group) : Prop := g.stop ≤ h.start ∨ h.stop ≤ g.start

theorem Cov.each {c : Config} {shape : Shape} : ∀ {gs : List Group} {a : Nat}, Cov c shape a gs → ∀ g ∈ gs,
    GroupOK c shape g ∧ a ≤ g.start := by
  intro gs
  induction gs with
  | nil => intro a _ g hg; simp at hg
  | cons x gs ih =>
    intro a hc g hg
    obtain ⟨h1, -, h3, h4⟩ := hc
    rcases List.mem_cons.1 hg with rfl | hg
    · exact ⟨h3, h1⟩
    · obtain ⟨h5, h6⟩ := ih h4 g hg
      have := h3.lt
      exact ⟨h5, by omega⟩

theorem Cov.apart {c : Config} {shape : Shape} : ∀ {gs : List Group} {a : Nat}, Cov c shape a gs → gs.Pairwise Apart := by
  intro gs
  induction gs with
  | nil => intro a _; exact .nil
  | cons x gs ih =>
    intro a hc
    obtain ⟨-, -, -, h4⟩ := hc
    exact .cons (fun g hg => .inl (h4.each g hg).2) (ih h4)

theorem Cov.covers {c : Config} {shape : Shape} : ∀ {gs : List Group} {a : Nat}, Cov c shape a gs → ∀ s, a ≤ s → s ≤ 256 →
    0 < shape s → ∃ g ∈ gs, g.start ≤ s ∧ s < g.stop := by
  intro gs
  induction gs with
  | nil =>
    intro a hc s h1 h2 h3
    have := hc s h1 h2
    omega
  | cons x gs ih =>
    intro a hc s h1 h2 h3
    obtain ⟨_, hz, hx, h4⟩ := hc
    by_cases hs : s < x.start
    · have := hz s h1 hs
      omega
    · by_cases hs' : s < x.stop
      · exact ⟨x, by simp, by omega, hs'⟩
      · obtain ⟨g, hg, h⟩ := ih h4 s (by omega) h2 h3
        exact ⟨g, by simp [hg], h⟩

/-- What the chosen groups of a level are like. -/
structure GroupsOK (c : Config) (shape : Shape) (gs : List Group) : Prop where
  few : gs.length ≤ c.specs
  each : ∀ g ∈ gs, GroupOK c shape g
  apart : gs.Pairwise Apart
  covers : ∀ s ≤ 256, 0 < shape s → ∃ g ∈ gs, g.start ≤ s ∧ s < g.stop

theorem groupsOK_sort {c : Config} {shape : Shape} {gs : List Group} (hc : Cov c shape 0 gs) (hl : gs.length ≤ c.specs) :
    GroupsOK c shape (stableSort groupLe gs) := by
  have hperm := stableSort_perm groupLe gs
  refine ⟨?_, ?_, ?_, ?_⟩
  · rw [hperm.length_eq]; exact hl
  · intro g hg
    exact (hc.each g (hperm.mem_iff.1 hg)).1
  · exact (hperm.pairwise_iff (fun h => h.symm)).2 hc.apart
  · intro s h2 h3
    obtain ⟨g, hg, h⟩ := hc.covers s (by omega) h2 h3
    exact ⟨g, hperm.mem_iff.2 hg, h⟩

theorem chooseLevel_sound {c : Config} {shape : Shape} {gs : List Group} (hn : sumOn shape 0 257 < c.wrap)
    (e : chooseLevel c shape = some gs) : GroupsOK c shape gs := by
  unfold chooseLevel at e
  split at e
  · cases e
  · next gs1 e1 =>
    obtain ⟨gs2, e2, rfl⟩ := Option.map_eq_some_iff.1 e
    unfold proposeGroups at e1
    rw [List.range_eq_range'] at e1
    obtain ⟨hc, hl⟩ := reduce_sound hn _ _ _ (proposeLoop_sound 257 0 _ rfl e1) e2
    exact groupsOK_sort hc hl

theorem chooseLevel_ok {c : Config} {shape : Shape} (hr : Room c shape) (hp : 0 < c.hw) (h5 : 5 ≤ c.specs)
    (h1 : shape 1 = 0) : ∃ gs, chooseLevel c shape = some gs ∧ GroupsOK c shape gs := by
  obtain ⟨gs, e, hc⟩ := proposeGroups_cov h1 hr
  obtain ⟨gs', e', hc', hl⟩ := reduce_ok hr hp h5 gs.length gs (Nat.le_refl _) hc
  refine ⟨stableSort groupLe gs', ?_, groupsOK_sort hc' hl⟩
  unfold chooseLevel
  rw [e]
  dsimp only
  rw [e']
  rfl

end Verif.Chunk
