import Verif.Model.Sequencer

/-!
# C12, C13, C50: the sequencer
-/

namespace Verif.Sequencer

variable {T : Type} (seq : T → Nat)

/-- Relation between the worker's state and the items that have arrived. -/
structure Core (first : Nat) (sc : SC T) (vs : List T) : Prop where
  perm : (sc.out ++ sc.map).Perm vs
  outSeq : sc.out.map seq = List.range' first sc.out.length
  next : sc.nextOut = first + sc.out.length
  nodup : (vs.map seq).Nodup
  low : ∀ v ∈ sc.map, sc.nextOut ≤ seq v

/-- `Core`, the flag, and the map holding nothing that could be sent: the state between two arrivals. -/
structure Inv (first bc : Nat) (sc : SC T) (vs : List T) : Prop extends Core seq first sc vs where
  limit : sc.bloatedCount = bc
  flag : sc.bloated = decide (bc ≤ sc.map.length)
  quiet : ∀ v ∈ sc.map, seq v ≠ sc.nextOut

/-- As `Inv` without the map being quiet. -/
structure Pre (first bc : Nat) (sc : SC T) (vs : List T) : Prop extends Core seq first sc vs where
  limit : sc.bloatedCount = bc
  flag : sc.bloated = decide (bc ≤ sc.map.length)

variable {seq}

theorem map_nodup {first : Nat} {sc : SC T} {vs : List T} (h : Core seq first sc vs) :
    (sc.map.map seq).Nodup := by
  have := (h.perm.map seq).nodup_iff.mpr h.nodup
  rw [List.map_append] at this
  exact (List.nodup_append.mp this).2.1

/-- Taking the unique entry with a given number out of a list. -/
theorem perm_filter_ne {l : List T} (hn : (l.map seq).Nodup) {x : T} (hx : x ∈ l) :
    (x :: l.filter (fun v => seq v != seq x)).Perm l := by
  induction l with
  | nil => simp at hx
  | cons y l ih =>
    simp only [List.map_cons, List.nodup_cons] at hn
    by_cases e : seq y = seq x
    · have hxy : x = y := by
        rcases List.mem_cons.mp hx with h | h
        · exact h
        · exact absurd (e ▸ List.mem_map_of_mem (f := seq) h) hn.1
      subst hxy
      have : List.filter (fun v => seq v != seq x) (x :: l) = l := by
        rw [List.filter_cons_of_neg (by simp), List.filter_eq_self]
        intro z hz
        simp only [bne_iff_ne, ne_eq]
        intro e'; exact hn.1 (e' ▸ List.mem_map_of_mem (f := seq) hz)
      rw [this]
    · have hxl : x ∈ l := by
        rcases List.mem_cons.mp hx with h | h
        · exact absurd (h ▸ rfl) e
        · exact h
      rw [List.filter_cons_of_pos (by simpa using e)]
      exact (List.Perm.swap y x _).trans ((ih hn.2 hxl).cons y)

theorem pre_send {first bc : Nat} (hbc : 0 < bc) {sc sc' : SC T} {vs : List T} (h : Pre seq first bc sc vs)
    (hs : sendNextOut seq sc = some sc') : Pre seq first bc sc' vs ∧ sc'.map.length + 1 = sc.map.length := by
  unfold sendNextOut at hs
  cases hf : sc.map.find? (fun v => seq v == sc.nextOut) with
  | none => rw [hf] at hs; simp at hs
  | some x =>
    rw [hf] at hs
    simp only [Option.some.injEq] at hs
    have hx := List.mem_of_find?_eq_some hf
    have hxs : seq x = sc.nextOut := by simpa using List.find?_some hf
    have hp := perm_filter_ne (map_nodup h.toCore) hx
    rw [hxs] at hp
    have hlen : (sc.map.filter (fun v => seq v != sc.nextOut)).length + 1 = sc.map.length := by
      simpa using hp.length_eq
    subst hs
    refine ⟨⟨⟨?_, ?_, ?_, h.nodup, ?_⟩, h.limit, ?_⟩, hlen⟩
    · simp only [List.append_assoc]
      exact ((hp.append_left sc.out).trans h.perm)
    · simp only [List.map_append, h.outSeq, List.map_cons, List.map_nil, List.length_append,
        List.length_singleton]
      rw [List.range'_concat, hxs, h.next]; simp
    · simp [h.next]; omega
    · intro v hv
      simp only [List.mem_filter, bne_iff_ne, ne_eq] at hv
      have := h.low v hv.1
      simp only; omega
    · have := h.flag
      have hl := h.limit
      simp only
      by_cases hb : sc.map.length = sc.bloatedCount
      · rw [if_pos hb]
        symm; rw [decide_eq_false_iff_not]; omega
      · rw [if_neg hb, this]
        congr 1
        rw [eq_iff_iff]; omega

theorem inv_drain {first bc : Nat} (hbc : 0 < bc) (fuel : Nat) {sc : SC T} {vs : List T}
    (h : Pre seq first bc sc vs) (hf : sc.map.length ≤ fuel) : Inv seq first bc (drain seq fuel sc) vs := by
  induction fuel generalizing sc with
  | zero =>
    have : sc.map = [] := List.length_eq_zero_iff.mp (by omega)
    refine ⟨h.toCore, h.limit, h.flag, ?_⟩
    rw [drain, this]; simp
  | succ n ih =>
    unfold drain
    cases hs : sendNextOut seq sc with
    | none =>
      refine ⟨h.toCore, h.limit, h.flag, ?_⟩
      intro v hv e
      unfold sendNextOut at hs
      cases hfi : sc.map.find? (fun v => seq v == sc.nextOut) with
      | none =>
        have := List.find?_eq_none.mp hfi v hv
        simp at this; exact this e
      | some x => rw [hfi] at hs; simp at hs
    | some sc' =>
      obtain ⟨h1, h2⟩ := pre_send hbc h hs
      exact ih h1 (by omega)

theorem inv_receive {first bc : Nat} (hbc : 0 < bc) {sc : SC T} {vs : List T} (h : Inv seq first bc sc vs)
    {v : T} (hn : ((vs ++ [v]).map seq).Nodup) (hv : first ≤ seq v) :
    Inv seq first bc (receive seq sc v) (vs ++ [v]) := by
  have hnew : ∀ w ∈ vs, seq w ≠ seq v := by
    intro w hw e
    rw [List.map_append] at hn
    exact (List.nodup_append.mp hn).2.2 (seq w) (List.mem_map_of_mem (f := seq) hw) (seq v) (by simp) e
  unfold receive
  by_cases e : seq v = sc.nextOut
  · rw [if_pos e]
    apply inv_drain hbc
    · refine ⟨⟨?_, ?_, ?_, hn, ?_⟩, h.limit, h.flag⟩
      · have h1 : (sc.out ++ ([v] ++ sc.map)).Perm (sc.out ++ (sc.map ++ [v])) :=
          List.Perm.append_left _ List.perm_append_comm
        rw [← List.append_assoc, ← List.append_assoc] at h1
        exact h1.trans (h.perm.append_right [v])
      · simp only [List.map_append, h.outSeq, List.map_cons, List.map_nil, List.length_append,
          List.length_singleton]
        rw [List.range'_concat, e, h.next]; simp
      · simp [h.next]; omega
      · intro w hw
        have h1 := h.low w hw
        have h2 := h.quiet w hw
        simp only; omega
    · exact Nat.le_refl _
  · rw [if_neg e]
    have hlow : sc.nextOut ≤ seq v := by
      -- otherwise the number was already sent
      rcases Nat.lt_or_ge (seq v) sc.nextOut with hlt | hge
      · exfalso
        have : seq v ∈ sc.out.map seq := by
          rw [h.outSeq, List.mem_range'_1]
          have := h.next; omega
        obtain ⟨w, hw, hws⟩ := List.mem_map.mp this
        exact hnew w (h.perm.mem_iff.mp (by simp [hw])) hws
      · exact hge
    have hfil : sc.map.filter (fun w => seq w != seq v) = sc.map := by
      rw [List.filter_eq_self]
      intro w hw
      simp only [bne_iff_ne, ne_eq]
      exact hnew w (h.perm.mem_iff.mp (by simp [hw]))
    simp only [hfil]
    refine ⟨⟨?_, h.outSeq, h.next, hn, ?_⟩, h.limit, ?_, ?_⟩
    · simp only
      rw [← List.append_assoc]
      exact h.perm.append_right [v]
    · intro w hw
      rcases List.mem_append.mp hw with hw | hw
      · exact h.low w hw
      · simp at hw; subst hw; exact hlow
    · have hfl := h.flag
      have hl := h.limit
      simp only [List.length_append, List.length_singleton]
      split
      · symm; rw [decide_eq_true_iff]; omega
      · rw [hfl]; congr 1; rw [eq_iff_iff]; omega
    · intro w hw
      rcases List.mem_append.mp hw with hw | hw
      · exact h.quiet w hw
      · simp at hw; subst hw; exact e

theorem inv_arrivals {first bc : Nat} (hbc : 0 < bc) {sc : SC T} {us : List T} (h : Inv seq first bc sc us)
    (vs : List T) (hn : ((us ++ vs).map seq).Nodup) (hv : ∀ v ∈ vs, first ≤ seq v) :
    Inv seq first bc (arrivals seq sc vs) (us ++ vs) := by
  induction vs generalizing sc us with
  | nil => simpa [arrivals] using h
  | cons v vs ih =>
    have e : us ++ v :: vs = (us ++ [v]) ++ vs := by simp
    have h1 : Inv seq first bc (receive seq sc v) (us ++ [v]) := by
      apply inv_receive hbc h _ (hv v (by simp))
      rw [e, List.map_append] at hn
      exact (List.nodup_append.mp hn).1
    rw [e]
    exact ih h1 (by rw [← e]; exact hn) (fun w hw => hv w (by simp [hw]))

theorem inv_new {first bc : Nat} (hbc : 0 < bc) : Inv seq first bc (new first bc : SC T) [] := by
  refine ⟨⟨by simp [new], by simp [new], by simp [new], by simp, by simp [new]⟩, rfl, ?_, by simp [new]⟩
  simp [new]; omega

/-- **C12 (order, at every point).** Whatever items with distinct numbers `≥ first` have arrived, in
whatever order, what has been emitted is some of the arrived items, each once, numbered exactly
`first, first+1, ..` with no gap, and everything that can be emitted has been: the next number has not
arrived. Nothing is lost: what is not emitted is held back. -/
theorem sequencer_in_order (first bc : Nat) (hbc : 0 < bc) (vs : List T) (hn : (vs.map seq).Nodup)
    (hv : ∀ v ∈ vs, first ≤ seq v) :
    let sc := arrivals seq (new first bc) vs
    sc.out.map seq = List.range' first sc.out.length ∧ (sc.out ++ sc.map).Perm vs ∧
      (first + sc.out.length) ∉ vs.map seq := by
  have h := inv_arrivals hbc (inv_new (seq := seq) (first := first) hbc) vs (by simpa using hn) hv
  simp only [List.nil_append] at h
  refine ⟨h.outSeq, h.perm, ?_⟩
  intro hin
  obtain ⟨w, hw, hws⟩ := List.mem_map.mp hin
  rcases List.mem_append.mp (h.perm.mem_iff.mpr hw) with ho | hm
  · have : seq w ∈ (arrivals seq (new first bc) vs).out.map seq := List.mem_map_of_mem (f := seq) ho
    rw [h.outSeq, List.mem_range'_1] at this
    omega
  · exact h.quiet w hm (by rw [hws, h.next])

/-- **C12 (completion).** Closing the input succeeds exactly when the arrived numbers are a contiguous range
starting at `first`; the closed output is then all arrived items sorted by number. Otherwise it panics. -/
theorem sequencer_close (first bc : Nat) (hbc : 0 < bc) (vs : List T) (hn : (vs.map seq).Nodup)
    (hv : ∀ v ∈ vs, first ≤ seq v) :
    ((vs.map seq).Perm (List.range' first vs.length) →
      ∃ out, close seq (arrivals seq (new first bc) vs) = some out ∧ out.Perm vs ∧
        out.map seq = List.range' first vs.length) ∧
    (¬ (vs.map seq).Perm (List.range' first vs.length) →
      close seq (arrivals seq (new first bc) vs) = none) := by
  have h0 := inv_arrivals hbc (inv_new (seq := seq) (first := first) hbc) vs (by simpa using hn) hv
  simp only [List.nil_append] at h0
  have h : Inv seq first bc (drain seq (arrivals seq (new first bc) vs).map.length
      (arrivals seq (new first bc) vs)) vs :=
    inv_drain hbc _ ⟨h0.toCore, h0.limit, h0.flag⟩ (Nat.le_refl _)
  unfold close
  generalize drain seq (arrivals seq (new first bc) vs).map.length (arrivals seq (new first bc) vs) = sc at h
  dsimp only
  have hlen : sc.out.length + sc.map.length = vs.length := by simpa using h.perm.length_eq
  constructor
  · intro hp
    have hm : sc.map = [] := by
      cases hm : sc.map with
      | nil => rfl
      | cons w l =>
        exfalso
        -- the next number is in the range, hence arrived, hence it is in the map: not quiet
        have hmem : sc.nextOut ∈ vs.map seq := by
          rw [hp.mem_iff, List.mem_range'_1]
          have h1 := h.next
          rw [hm] at hlen
          simp at hlen
          omega
        obtain ⟨u, hu, hus⟩ := List.mem_map.mp hmem
        rcases List.mem_append.mp (h.perm.mem_iff.mpr hu) with ho | hm'
        · have : seq u ∈ sc.out.map seq := List.mem_map_of_mem (f := seq) ho
          rw [h.outSeq, List.mem_range'_1] at this
          have := h.next
          omega
        · exact h.quiet u hm' hus
    refine ⟨sc.out, by simp [hm], by simpa [hm] using h.perm, ?_⟩
    rw [hm] at hlen
    rw [h.outSeq]
    congr 1
  · intro hp
    rw [if_pos]
    rcases Nat.eq_zero_or_pos sc.map.length with hz | hz
    · exfalso
      apply hp
      have hm : sc.map = [] := List.length_eq_zero_iff.mp hz
      have h1 := h.perm
      rw [hm, List.append_nil] at h1
      rw [← h1.length_eq, ← h.outSeq]
      exact (h1.map seq).symm
    · exact hz

/-- **C13.** At every quiescent point the flag is raised exactly when at least `bc` items are held back
(arrived but not emitted). -/
theorem bloated_iff_backlog (first bc : Nat) (hbc : 0 < bc) (vs : List T) (hn : (vs.map seq).Nodup)
    (hv : ∀ v ∈ vs, first ≤ seq v) :
    let sc := arrivals seq (new first bc) vs
    sc.bloated = true ↔ bc ≤ vs.length - sc.out.length := by
  have h := inv_arrivals hbc (inv_new (seq := seq) (first := first) hbc) vs (by simpa using hn) hv
  simp only [List.nil_append] at h
  have hlen : (arrivals seq (new first bc) vs).out.length + (arrivals seq (new first bc) vs).map.length =
      vs.length := by simpa using h.perm.length_eq
  simp only [h.flag, decide_eq_true_eq]
  omega

/-- Example: items 3,1,2,0,4 with limit 2: the flag goes up at the second held-back item and down again. -/
example :
    (arrivals id (new 0 2) [3, 1]).bloated = true ∧ (arrivals id (new 0 2) [3, 1, 2, 0]).bloated = false ∧
    (arrivals id (new 0 2) [3, 1, 2, 0]).out = [0, 1, 2, 3] ∧
    close id (arrivals id (new 0 2) [3, 1, 2, 0, 4]) = some [0, 1, 2, 3, 4] ∧
    close id (arrivals id (new 0 2) [3, 1, 2]) = none ∧
    ([3, 1, 2, 0, 4].map id).Nodup := by decide

/-! ### The pipeline never deadlocks -/

/-- Pipeline invariant: produced items are either in the pool or have arrived. -/
structure PInv (bc total : Nat) (p : Pipe) (vs : List Nat) : Prop where
  seqInv : Inv id 0 bc p.sc vs
  perm : (p.pool ++ vs).Perm (List.range p.next)
  le : p.next ≤ total

theorem pinv_init {bc : Nat} (hbc : 0 < bc) (total : Nat) :
    PInv bc total { next := 0, pool := [], sc := new 0 bc } [] :=
  ⟨inv_new hbc, by simp, Nat.zero_le _⟩

theorem pinv_step {bc total workers : Nat} (hbc : 0 < bc) {p p' : Pipe} {vs : List Nat}
    (h : PInv bc total p vs) (a : Act) (hs : pstep total workers p a = some p') :
    ∃ vs', PInv bc total p' vs' := by
  cases a with
  | produce =>
    simp only [pstep] at hs
    split at hs
    · rename_i hc
      simp at hs; subst hs
      refine ⟨vs, h.seqInv, ?_, hc.1⟩
      simp only
      rw [List.range_succ]
      refine List.Perm.trans ?_ (h.perm.append_right [p.next])
      rw [List.append_assoc, List.append_assoc]
      exact List.Perm.append_left _ List.perm_append_comm
    · simp at hs
  | deliver i =>
    simp only [pstep] at hs
    split at hs
    · rename_i hi
      simp at hs; subst hs
      have hp : (p.pool.erase i ++ (vs ++ [i])).Perm (List.range p.next) := by
        refine List.Perm.trans ?_ h.perm
        have h1 := (List.perm_cons_erase hi).symm
        have : (p.pool.erase i ++ (vs ++ [i])).Perm (i :: p.pool.erase i ++ vs) := by
          rw [← List.append_assoc]
          exact List.perm_append_comm.trans (by simp)
        exact this.trans (h1.append_right vs)
      refine ⟨vs ++ [i], ?_, hp, h.le⟩
      apply inv_receive hbc h.seqInv _ (Nat.zero_le _)
      have hnd := (hp.nodup_iff).mpr List.nodup_range
      rw [List.map_id]
      exact (List.nodup_append.mp hnd).2.1
    · simp at hs

theorem pinv_run {bc total workers : Nat} (hbc : 0 < bc) (sched : List Act) {p p' : Pipe} {vs : List Nat}
    (h : PInv bc total p vs) (hr : prun total workers p sched = some p') : ∃ vs', PInv bc total p' vs' := by
  induction sched generalizing p vs with
  | nil => simp [prun] at hr; exact ⟨vs, hr ▸ h⟩
  | cons a as ih =>
    simp only [prun] at hr
    cases hs : pstep total workers p a with
    | none => rw [hs] at hr; simp at hr
    | some p1 =>
      rw [hs] at hr
      obtain ⟨vs1, h1⟩ := pinv_step hbc h a hs
      exact ih h1 hr

/-- **C50.** With the valve closed whenever the sequencer says it is bloated, for every limit `≥ 1`, every
number of workers `≥ 1` and every schedule, the pipeline never deadlocks: as long as not every item has
been emitted some step is possible; and when nothing more is possible the output is `0,1,..,total-1`. -/
theorem pipeline_never_deadlocks (bc total workers : Nat) (hbc : 0 < bc) (hw : 0 < workers) (sched : List Act)
    (p : Pipe) (hr : prun total workers { next := 0, pool := [], sc := new 0 bc } sched = some p) :
    (p.sc.out.length < total → ∃ a p', pstep total workers p a = some p') ∧
      ((∀ a, pstep total workers p a = none) → p.sc.out = List.range total) := by
  obtain ⟨vs, h⟩ := pinv_run hbc sched (pinv_init hbc total) hr
  have key : p.pool = [] → p.sc.out = List.range p.next ∧ p.sc.bloated = false := by
    intro hpool
    have hperm := h.perm
    rw [hpool, List.nil_append] at hperm
    have hvl : vs.length = p.next := by simpa using hperm.length_eq
    have hm : p.sc.map = [] := by
      cases hm : p.sc.map with
      | nil => rfl
      | cons w l =>
        exfalso
        have hlen : p.sc.out.length + p.sc.map.length = vs.length := by
          simpa using h.seqInv.perm.length_eq
        rw [hm] at hlen
        simp at hlen
        have hnx := h.seqInv.next
        have hmem : p.sc.nextOut ∈ vs := by
          rw [hperm.mem_iff, List.mem_range]; omega
        rcases List.mem_append.mp (h.seqInv.perm.mem_iff.mpr hmem) with ho | hm'
        · have : id p.sc.nextOut ∈ p.sc.out.map id := List.mem_map_of_mem (f := id) ho
          rw [h.seqInv.outSeq, List.mem_range'_1] at this
          simp at this
          omega
        · exact h.seqInv.quiet _ hm' rfl
    constructor
    · have h1 := h.seqInv.outSeq
      have hlen : p.sc.out.length + p.sc.map.length = vs.length := by
        simpa using h.seqInv.perm.length_eq
      rw [hm] at hlen
      simp at hlen
      rw [List.map_id] at h1
      rw [h1, List.range_eq_range']
      congr 1
      omega
    · rw [h.seqInv.flag, hm]
      simp; omega
  have enabled : ∀ i, i ∈ p.pool → ∃ p', pstep total workers p (.deliver i) = some p' := by
    intro i hi
    exact ⟨_, by simp only [pstep]; rw [if_pos hi]⟩
  constructor
  · intro hlt
    cases hpool : p.pool with
    | cons i l =>
      obtain ⟨p', hp'⟩ := enabled i (by simp [hpool])
      exact ⟨_, _, hp'⟩
    | nil =>
      obtain ⟨h1, h2⟩ := key hpool
      have : p.next < total := by
        rw [h1] at hlt; simpa using hlt
      exact ⟨.produce, _, by simp only [pstep]; rw [if_pos ⟨this, h2, by simpa [hpool] using hw⟩]⟩
  · intro hstuck
    have hpool : p.pool = [] := by
      cases hpool : p.pool with
      | nil => rfl
      | cons i l =>
        obtain ⟨p', hp'⟩ := enabled i (by simp [hpool])
        rw [hstuck] at hp'; simp at hp'
    obtain ⟨h1, h2⟩ := key hpool
    rw [h1]
    have hn : ¬ p.next < total := by
      intro hlt
      have := hstuck .produce
      simp only [pstep] at this
      rw [if_pos ⟨hlt, h2, by simpa [hpool] using hw⟩] at this
      simp at this
    have := h.le
    congr 1
    omega

/-- Every schedule is finite: each item is produced once and delivered once. -/
theorem pipeline_schedules_bounded (bc total workers : Nat) (hbc : 0 < bc) (sched : List Act) (p : Pipe)
    (hr : prun total workers { next := 0, pool := [], sc := new 0 bc } sched = some p) :
    sched.length ≤ 2 * total := by
  have key : ∀ (sched : List Act) (p p' : Pipe) (vs : List Nat), PInv bc total p vs →
      prun total workers p sched = some p' → sched.length + (2 * p.next - p.pool.length) ≤ 2 * total ∧
        p.pool.length ≤ p.next := by
    intro sched
    induction sched with
    | nil =>
      intro p p' vs h hr
      have := h.le
      have hlen : p.pool.length + vs.length = p.next := by simpa using h.perm.length_eq
      simp; omega
    | cons a as ih =>
      intro p p' vs h hr
      simp only [prun] at hr
      cases hs : pstep total workers p a with
      | none => rw [hs] at hr; simp at hr
      | some p1 =>
        rw [hs] at hr
        obtain ⟨vs1, h1⟩ := pinv_step hbc h a hs
        have := ih p1 p' vs1 h1 hr
        have hlen : p.pool.length + vs.length = p.next := by simpa using h.perm.length_eq
        cases a with
        | produce =>
          simp only [pstep] at hs
          split at hs
          · simp at hs; subst hs
            simp at this ⊢; omega
          · simp at hs
        | deliver i =>
          simp only [pstep] at hs
          split at hs
          · rename_i hi
            simp at hs; subst hs
            simp only [List.length_erase_of_mem hi] at this
            have : 0 < p.pool.length := List.length_pos_of_mem hi
            simp; omega
          · simp at hs
  have := key sched _ p [] (pinv_init hbc total) hr
  simp at this
  exact this

example : (prun 3 2 { next := 0, pool := [], sc := new 0 1 }
    [.produce, .produce, .deliver 1, .deliver 0, .produce, .deliver 2]).map (·.sc.out) = some [0, 1, 2] := by
  decide

end Verif.Sequencer
