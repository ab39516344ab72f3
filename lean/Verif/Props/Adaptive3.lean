import Verif.Lemmas.Adaptive3

/-! # Bulk indexing in adaptive passes (C53) -/

namespace Verif.Adaptive3

open Bins WordFile HashStores HashStore3 Bulk3

/-! ## Specification -/

/-- What `sort.Slice` by descending count is trusted to do. -/
def SortDescOK (sortDesc : List Info → List Info) : Prop :=
  ∀ l, (sortDesc l).Perm l ∧ (sortDesc l).Pairwise fun a b => b.count ≤ a.count

/-- The hashes of each bin, counted. -/
def counts (p : Params) (L : List Bytes) : List Info :=
  (List.range p.numberOfBins).map fun b => ⟨b, L.countP fun h => binNum p h = b⟩

/-- Bins with at least one hash. -/
def usedBins (p : Params) (L : List Bytes) : Nat := (List.range p.numberOfBins).countP fun b => ∃ h ∈ L, binNum p h = b

/-! ## Passes -/

theorem stageOne_eq {p : Params} (hg : Good p) {L : List Bytes} (hA : Storable p L) :
    stageOne p L = some (counts p L) := by
  have := countLoop_eq p p.numberOfBins L (fun _ => 0) (fun h hh => hg.range h (hA.len32 h hh))
  simp only [Nat.zero_add] at this
  exact this

theorem unscheduled_all (l : List Info) : unscheduled (l.map fun i => (i, false)) = l := by
  induction l with
  | nil => rfl
  | cons a l ih =>
    unfold unscheduled at ih ⊢
    rw [List.map_cons, List.filter_cons_of_pos (by simp), List.map_cons, ih]

/-- **C53 (passes).** Whatever order bins of equal size are sorted in, the design loop ends, each bin of the
parameters is in exactly one pass with the number of hashes that fall in it, and a pass needs less memory
than the grant unless it consists of a single bin. -/
theorem adaptive_passes {p : Params} (hp : ParamsOK p) {L : List Bytes} (hA : Storable p L) (gb : Nat)
    {sortDesc : List Info → List Info} (hsd : SortDescOK sortDesc) :
    ∃ infos passes, stageOne p L = some infos ∧ design p gb sortDesc infos = some passes ∧
      passes.flatten.Perm ((List.range p.numberOfBins).map fun b => ⟨b, L.countP fun h => binNum p h = b⟩) ∧
      ∀ x ∈ passes, x ≠ [] ∧ (x.length = 1 ∨ total x * p.entrySize < 1024 * 1024 * 1024 * gb) := by
  have hg := hp.good
  refine ⟨counts p L, ?_⟩
  have h1 := stageOne_eq hg hA
  have hpm := (hsd (counts p L)).1
  obtain ⟨ps, q1, q2, q3⟩ := designLoop_ok (budgetOf p gb) (counts p L).length (counts p L).length 0
    ((sortDesc (counts p L)).map fun i => (i, false))
    (by rw [unscheduled_all, hpm.length_eq]; omega) (by rw [unscheduled_all, hpm.length_eq])
  refine ⟨ps, h1, q1, ?_, ?_⟩
  · rw [unscheduled_all] at q2
    exact q2.trans hpm
  · intro x hx
    obtain ⟨r1, r2⟩ := q3 x hx
    refine ⟨r1, r2.imp id ?_⟩
    intro h
    unfold budgetOf at h
    have h := Int.ofNat_lt.mp h
    rw [Nat.lt_div_iff_mul_lt (entrySize_pos p)] at h
    omega

/-! ## One pass -/

theorem sendList_mem {p : Params} {slots : List Slot} {L : List Bytes} {k : Nat} {y : Nat × Work}
    (hy : y ∈ sendList p slots k L) : (∃ sl ∈ slots, sl.bin = y.2.bin ∧ sl.worker = y.1) ∧
      ∃ h, (h, y.2.hi) ∈ L.zipIdx k ∧ y.2.sn = sortNum p h ∧ y.2.th = truncOf h := by
  induction L generalizing k with
  | nil => simp [sendList] at hy
  | cons h L ih =>
    unfold sendList at hy
    rw [List.zipIdx_cons]
    split at hy
    · obtain ⟨x0, x, x1, x2, x3⟩ := ih hy
      exact ⟨x0, x, List.mem_cons_of_mem _ x1, x2, x3⟩
    · rename_i sl hsl
      rw [List.mem_cons] at hy
      rcases hy with rfl | hy
      · exact ⟨⟨sl, List.mem_of_find?_eq_some hsl, by simpa using List.find?_some hsl, rfl⟩, h, by simp, rfl, rfl⟩
      · obtain ⟨x0, x, x1, x2, x3⟩ := ih hy
        exact ⟨x0, x, List.mem_cons_of_mem _ x1, x2, x3⟩

theorem sentTo_sendList {p : Params} {slots : List Slot} {sl : Slot} (hsl : sl ∈ slots) (L : List Bytes) (k : Nat) :
    sentTo (sendList p slots k L) sl.bin =
      ((L.zipIdx k).filter fun x => binNum p x.1 = sl.bin).map fun x => ⟨sl.bin, sortNum p x.1, x.2, truncOf x.1⟩ := by
  induction L generalizing k with
  | nil => rfl
  | cons h L ih =>
    unfold sendList
    rw [List.zipIdx_cons]
    split
    · rename_i hf
      rw [List.find?_eq_none] at hf
      have := hf sl hsl
      rw [ih, List.filter_cons_of_neg (by simpa using fun h => this (by simpa using h.symm))]
    · have hi := ih (k + 1)
      unfold sentTo at hi ⊢
      by_cases he : binNum p h = sl.bin
      · rw [List.map_cons, List.filter_cons_of_pos (by simpa using he), List.filter_cons_of_pos (by simpa using he), hi,
          List.map_cons]
        dsimp only
        rw [he]
      · rw [List.map_cons, List.filter_cons_of_neg (by simpa using he), List.filter_cons_of_neg (by simpa using he), hi]

theorem zipIdx_count (q : Bytes → Bool) (L : List Bytes) (k : Nat) :
    ((L.zipIdx k).filter fun x => q x.1).length = L.countP q := by
  induction L generalizing k with
  | nil => rfl
  | cons h L ih =>
    rw [List.zipIdx_cons, List.filter_cons, List.countP_cons, ← ih (k + 1)]
    split <;> simp_all

/-- Bins of a pass: distinct and correctly counted. -/
structure Counted (p : Params) (L : List Bytes) (items : List Info) : Prop where
  nodup : (items.map Info.bin).Nodup
  count : ∀ i ∈ items, i.count = L.countP fun h => binNum p h = i.bin

theorem replicate_ne {threads : Nat} (ht : 0 < threads) : List.replicate threads 0 ≠ [] := by
  intro h
  have := congrArg List.length h
  simp at this
  omega

theorem setup_of {p : Params} (hg : Good p) {L : List Bytes} (hA : Storable p L) {threads : Nat} (ht : 0 < threads)
    {items : List Info} (hc : Counted p L items) :
    Setup p threads (carve p (List.replicate threads 0) items).1 (carve p (List.replicate threads 0) items).2
      (sendList p (carve p (List.replicate threads 0) items).1 0 L) := by
  have C := carve_ok p items _ (replicate_ne ht)
  generalize carve p (List.replicate threads 0) items = c at C
  obtain ⟨slots, final⟩ := c
  dsimp only at C ⊢
  refine ⟨by rw [C.bins]; exact hc.nodup, fun sl h => by simpa using C.worker sl h, C.upper, C.apart, ?_, ?_, ?_⟩
  · intro sl hsl
    obtain ⟨i, i1, i2, i3⟩ := C.maxs sl hsl
    have := congrArg List.length (sentTo_sendList (p := p) hsl L 0)
    unfold sentTo at this
    rw [this, List.length_map, zipIdx_count (fun h => decide (binNum p h = sl.bin)), i3, hc.count i i1, i2, Nat.mul_comm]
  · intro y hy
    obtain ⟨_, h, h1, h2, h3⟩ := sendList_mem hy
    rw [List.mem_zipIdx_iff_getElem?] at h1
    obtain ⟨en, e1, e2, _⟩ := encode_at hg hA (x := (h, y.2.hi)) h1
    simp only at e1
    unfold Work.ok Work.enc
    rw [h2, h3, e1]
    exact ⟨rfl, e2⟩
  · intro y hy
    exact (sendList_mem hy).1

theorem saveResults_eq {p : Params} (ents : Nat → List Bytes) (rs : List (Nat × Bytes))
    (h : ∀ r ∈ rs, r.2 = (ents r.1).flatten) (f : Files) :
    saveResults p f rs = saveAll p f ((rs.map (·.1)).map fun bn => (bn, ents bn)) := by
  induction rs generalizing f with
  | nil => rfl
  | cons r rs ih =>
    obtain ⟨bn, b⟩ := r
    have h1 := h (bn, b) (by simp)
    simp only at h1
    unfold saveResults
    rw [ih (fun r hr => h r (by simp [hr])), h1]
    rfl

/-- A pass saves the final entries of its bins in some order, each bin once. -/
theorem pass_saves {p : Params} (hg : Good p) {threads : Nat} (ht : 0 < threads) {sort : List Bytes → List Bytes}
    (hsort : SortOK p sort) {L : List Bytes} (hA : Storable p L) {items : List Info} (hc : Counted p L items)
    {isFirst : Bool} {d d' : Disk} (h : Pass p sort threads L isFirst items d d') :
    ∃ order : List Nat, order.Perm (items.map Info.bin) ∧
      d' = { nums := if isFirst then writeBinNums p d.nums 0 L else d.nums
             files := saveAll p d.files (order.map fun bn => (bn, finalEntries p sort L bn)) } := by
  have S := setup_of hg hA ht hc
  have C := carve_ok p items _ (replicate_ne ht)
  unfold Pass at h
  dsimp only at h
  generalize carve p (List.replicate threads 0) items = c at S C h
  obtain ⟨slots, final⟩ := c
  dsimp only at S C h
  obtain ⟨n, s, hr, hd, rfl⟩ := h
  have I := inv_run S hr rfl
  have hperm : (s.results.mergeSort fun a b => a.1 ≤ b.1).Perm s.results := List.mergeSort_perm _ _
  refine ⟨(s.results.mergeSort fun a b => a.1 ≤ b.1).map (·.1), ?_, ?_⟩
  · refine (hperm.map _).trans ?_
    rw [← C.bins]
    apply (List.perm_ext_iff_of_nodup I.rnodup S.nodup).mpr
    intro b
    constructor
    · intro hb
      obtain ⟨r, hr, rfl⟩ := List.mem_map.mp hb
      obtain ⟨sl, h1, h2⟩ := (I.res r hr).1
      exact List.mem_map.mpr ⟨sl, h1, h2⟩
    · intro hb
      obtain ⟨sl, h1, rfl⟩ := List.mem_map.mp hb
      rcases I.out sl h1 with h2 | h2
      · rw [(hd.2.2.1 _ (S.worker sl h1)).2] at h2
        simp at h2
      · exact h2
  · congr 1
    apply saveResults_eq
    intro r hr
    obtain ⟨⟨sl, h1, h2⟩, h3⟩ := I.res r (hperm.mem_iff.mp hr)
    rw [h3, ← h2, sentTo_sendList h1, List.map_map]
    have : ((L.zipIdx 0).filter fun x => binNum p x.1 = sl.bin).map
        (Work.enc p ∘ fun x => ⟨sl.bin, sortNum p x.1, x.2, truncOf x.1⟩) = binEntries p L sl.bin := rfl
    rw [this, sortAndDedup_eq hsort (binEntries_spec hg hA _).1]
    rfl

theorem passes_save {p : Params} (hg : Good p) {threads : Nat} (ht : 0 < threads) {sort : List Bytes → List Bytes}
    (hsort : SortOK p sort) {L : List Bytes} (hA : Storable p L) {b : Bool} {xs : List (List Info)}
    {d d' : Disk} (h : Passes p sort threads L b xs d d') (hc : ∀ x ∈ xs, Counted p L x) :
    ∃ order : List Nat, order.Perm (xs.flatten.map Info.bin) ∧
      d'.files = saveAll p d.files (order.map fun bn => (bn, finalEntries p sort L bn)) ∧
      d'.nums = if b ∧ xs ≠ [] then writeBinNums p d.nums 0 L else d.nums := by
  induction h with
  | nil b d => exact ⟨[], by simp, rfl, by simp⟩
  | cons h t ih =>
    obtain ⟨o1, p1, rfl⟩ := pass_saves hg ht hsort hA (hc _ (by simp)) h
    obtain ⟨o2, p2, q2, r2⟩ := ih (fun x hx => hc x (by simp [hx]))
    refine ⟨o1 ++ o2, ?_, ?_, ?_⟩
    · rw [List.flatten_cons, List.map_append]
      exact p1.append p2
    · rw [q2, List.map_append, saveAll_append]
    · rw [r2]
      simp

theorem counted_passes {p : Params} {L : List Bytes} {passes : List (List Info)}
    (h : passes.flatten.Perm (counts p L)) : ∀ x ∈ passes, Counted p L x := by
  intro x hx
  refine ⟨?_, ?_⟩
  · have h1 : (passes.flatten.map Info.bin).Nodup := by
      have h2 : (counts p L).map Info.bin = List.range p.numberOfBins := by
        unfold counts
        rw [List.map_map]
        exact List.map_id _
      rw [(h.map Info.bin).nodup_iff, h2]
      exact List.nodup_range
    exact h1.sublist ((List.sublist_flatten_of_mem hx).map _)
  · intro i hi
    have : i ∈ counts p L := h.mem_iff.mp (List.mem_flatten.mpr ⟨x, hx, hi⟩)
    obtain ⟨b, _, rfl⟩ := List.mem_map.mp this
    rfl

/-- The store left by an adaptive run. -/
theorem adaptive_store {p : Params} (hp : ParamsOK p) {gb threads : Nat} (ht : 0 < threads)
    {sortDesc : List Info → List Info} (hsd : SortDescOK sortDesc)
    {sort : List Bytes → List Bytes} (hsort : SortOK p sort) {L : List Bytes} (hA : Storable p L) {d : Disk}
    (hrun : IndexTheHashes p gb threads sortDesc sort L d) :
    ∃ s, openStore p (WordFile.close d.nums) d.files false = some s ∧ IsBulk p sort L s := by
  have hg := hp.good
  obtain ⟨infos, passes, g1, g2, g3⟩ := hrun
  obtain ⟨infos', passes', a1, a2, a3, a4⟩ := adaptive_passes hp hA gb hsd
  rw [g1, Option.some.injEq] at a1
  subst a1
  rw [g2, Option.some.injEq] at a2
  subst a2
  obtain ⟨order, o1, o2, o3⟩ := passes_save hg ht hsort hA g3 (counted_passes a3)
  have hbins : order.Perm (List.range p.numberOfBins) := by
    refine o1.trans ((a3.map _).trans ?_)
    rw [List.map_map]
    rw [show (Info.bin ∘ fun b => (⟨b, List.countP (fun h => decide (binNum p h = b)) L⟩ : Info)) = id from rfl,
      List.map_id]
  have hne : passes ≠ [] := by
    rintro rfl
    have := a3.length_eq
    simp at this
    have hb := hg.range (zeros 32) (by simp)
    omega
  rw [if_pos ⟨rfl, hne⟩] at o3
  obtain ⟨w, ho, i1⟩ := nums_reopen hg hA
  refine ⟨{ binNums := w, files := d.files, ram := none }, ?_, rfl, i1, ?_, by dsimp only; rw [o2]; exact saved_room p _⟩
  · unfold openStore
    rw [o3, ho]; rfl
  · intro bn hbn
    dsimp only
    rw [o2]
    exact saved_once hg hsort hA order ((hbins.nodup_iff).mpr List.nodup_range)
      (fun bn => by rw [hbins.mem_iff, List.mem_range]) bn hbn

/-! ## Properties -/

/-- **C53, partial.** However the goroutines are scheduled, with any number of threads, any memory grant and any
order of bins of equal size, a completed adaptive run leaves a store that counts all hashes and gives for
every 32-byte hash the first index at which it occurs in the file, or 'absent' when it does not occur.

Missing: as for `Bulk3.bulk_first_occurrence_partial`, lists in which two different hashes share their first 8
bytes, or a bin and their last 24 bytes, and a first hash encoded as an all-zero entry. -/
theorem adaptive_first_occurrence_partial {fl : Rat → Rat} (hfl : FloatOK fl) {p : Params} (hp : ParamsOK p)
    {gb threads : Nat} (ht : 0 < threads) {sortDesc : List Info → List Info} (hsd : SortDescOK sortDesc)
    {sort : List Bytes → List Bytes} (hsort : SortOK p sort) {L : List Bytes} (hI : Indexable p L) {d : Disk}
    (hrun : IndexTheHashes p gb threads sortDesc sort L d) :
    ∃ s, openStore p (WordFile.close d.nums) d.files false = some s ∧ countHashes s = L.length ∧
      ∀ h : Bytes, h.length = 32 → ∃ r, indexOfHash fl p s h = some r ∧
        ((∃ i, r = .at i ∧ FirstAt L i h) ∨ (r = .absent ∧ h ∉ L)) := by
  obtain ⟨s, h1, h2⟩ := adaptive_store hp ht hsd hsort hI.storable hrun
  exact ⟨s, h1, h2.index hfl hp hsort hI⟩

/-- **C53, partial.** After an adaptive run `GetHashAtIndex` gives the hash of every index that is the first
occurrence of its hash, and an error past the end. Missing: later occurrences, which give the all-zero hash
(last part). -/
theorem adaptive_get_first_partial {p : Params} (hp : ParamsOK p)
    {gb threads : Nat} (ht : 0 < threads) {sortDesc : List Info → List Info} (hsd : SortDescOK sortDesc)
    {sort : List Bytes → List Bytes} (hsort : SortOK p sort) {L : List Bytes} (hI : Indexable p L) {d : Disk}
    (hrun : IndexTheHashes p gb threads sortDesc sort L d) :
    ∃ s, openStore p (WordFile.close d.nums) d.files false = some s ∧
      (∀ i h, FirstAt L i h → ∃ s', getHashAtIndex p s i = some (s', some h)) ∧
      (∀ i, L.length ≤ i → ∃ s', getHashAtIndex p s i = some (s', none)) ∧
      (∀ i j h, L[i]? = some h → L[j]? = some h → j < i → ∃ s', getHashAtIndex p s i = some (s', some (zeros 32))) := by
  obtain ⟨s, h1, h2⟩ := adaptive_store hp ht hsd hsort hI.storable hrun
  obtain ⟨h3, h4⟩ := h2.get hp hsort hI
  exact ⟨s, h1, h3, h4, fun i j h hi hj hji => h2.dup hp hsort hI hi hj hji⟩

/-! ## When runs complete -/

theorem exists_nonempty {α : Type} (threads : Nat) (q : Nat → List α) :
    (∃ w, w < threads ∧ q w ≠ []) ∨ ∀ w, w < threads → q w = [] := by
  by_cases h : ∃ w, w < threads ∧ q w ≠ []
  · exact Or.inl h
  · right
    intro w hw
    by_contra hne
    exact h ⟨w, hw, hne⟩

theorem progress {p : Params} {sort : List Bytes → List Bytes} {threads : Nat} {slots : List Slot} {final : List Nat}
    {send : List (Nat × Work)} (S : Setup p threads slots final send) {n : Nat} {s : St}
    (I : Inv p sort threads slots final send n s) (hd : ¬ s.done threads) (hc : s.crashed = false) :
    ∃ t, Step p sort threads slots s t := by
  rcases exists_nonempty threads s.queues with ⟨w, hw, hne⟩ | hq
  · obtain ⟨x, q, hq⟩ := List.exists_cons_of_ne_nil hne
    cases he : encEntry p x.th x.hi x.sn with
    | none => exact ⟨_, Step.recvPanic s w x q hc hw hq (Or.inl he)⟩
    | some e =>
      rcases Nat.lt_or_ge (s.bufs w).length (s.pos x.bin + p.entrySize) with hb | hb
      · exact ⟨_, Step.recvPanic s w x q hc hw hq (Or.inr hb)⟩
      · exact ⟨_, Step.recv s w x q e hc hw hq he hb⟩
  · cases hr : s.rest with
    | cons y r =>
      obtain ⟨w, x⟩ := y
      obtain ⟨sl, h1, h2, h3⟩ := S.route _ (I.restr (w, x) (by rw [hr]; simp))
      refine ⟨_, Step.send s w x r hc hr ?_⟩
      have hw := S.worker sl h1
      rw [h3] at hw
      rw [hq w hw]
      decide
    | nil =>
      rcases Nat.lt_or_ge s.closed threads with hcl | hcl
      · by_cases hb : ∃ sl ∈ slots, sl.worker = s.closed
        · exact ⟨_, Step.close s hc hr hcl hb⟩
        · exact ⟨_, Step.closePanic s hc hr hcl (fun sl h1 h2 => hb ⟨sl, h1, h2⟩)⟩
      · rcases exists_nonempty threads s.todo with ⟨w, hw, hne⟩ | ht
        · obtain ⟨sl, hsl⟩ := List.exists_mem_of_ne_nil _ hne
          exact ⟨_, Step.emit s w sl hc hw (by omega) (hq w hw) hsl⟩
        · exact absurd ⟨hr, Nat.le_antisymm I.cle hcl, fun w hw => ⟨hq w hw, ht w hw⟩, hc⟩ hd

theorem pass_completes {p : Params} {sort : List Bytes → List Bytes} {threads : Nat} {slots : List Slot} {final : List Nat}
    {send : List (Nat × Work)} (S : Setup p threads slots final send)
    (hbusy : ∀ w, w < threads → ∃ sl ∈ slots, sl.worker = w) (k : Nat) {n : Nat} {s : St}
    (hr : Run p sort threads slots n (start p slots final send) s)
    (hk : 2 * send.length + threads + slots.length + 1 ≤ n + k) :
    ∃ m t, Run p sort threads slots m (start p slots final send) t ∧ t.done threads := by
  have I := inv_run S hr rfl
  by_cases hd : s.done threads
  · exact ⟨n, s, hr, hd⟩
  · have hc : s.crashed = false := by
      cases hcr : s.crashed with
      | false => rfl
      | true =>
        obtain ⟨w, hw, hn⟩ := I.crash hcr
        obtain ⟨sl, h1, h2⟩ := hbusy w hw
        exact absurd h2 (hn sl h1)
    obtain ⟨t, st⟩ := progress S I hd hc
    have hr' := Run.step hr st
    have m' := (inv_run S hr' rfl).measure
    cases k with
    | zero => omega
    | succ k => exact pass_completes S hbusy k hr' (by omega)

/-- **C53 (no deadlock).** Every schedule of a pass is finite, and a schedule that can go no further has either
finished or panicked; it panics only if some worker was given no bin. -/
theorem adaptive_no_deadlock {p : Params} (hp : ParamsOK p) {threads : Nat} (ht : 0 < threads)
    {sort : List Bytes → List Bytes} {L : List Bytes} (hA : Storable p L) {items : List Info} (hc : Counted p L items)
    {n : Nat} {s : St} (hr : Run p sort threads (carve p (List.replicate threads 0) items).1 n
      (start p (carve p (List.replicate threads 0) items).1 (carve p (List.replicate threads 0) items).2
        (sendList p (carve p (List.replicate threads 0) items).1 0 L)) s) :
    n ≤ 2 * L.length + threads + items.length + 1 ∧
    (s.done threads ∨ s.crashed = true ∨ ∃ t, Step p sort threads (carve p (List.replicate threads 0) items).1 s t) ∧
    (s.crashed = true → ∃ w, w < threads ∧ ∀ sl ∈ (carve p (List.replicate threads 0) items).1, sl.worker ≠ w) := by
  have S := setup_of hp.good hA ht hc
  have C := carve_ok p items _ (replicate_ne ht)
  have I := inv_run S hr rfl
  refine ⟨?_, ?_, I.crash⟩
  · have h1 := I.measure
    have h2 : ∀ (slots : List Slot) (L : List Bytes) (k : Nat), (sendList p slots k L).length ≤ L.length := by
      intro slots L
      induction L with
      | nil => intro k; simp [sendList]
      | cons h L ih =>
        intro k
        unfold sendList
        have := ih (k + 1)
        split
        · simp; omega
        · simp; omega
    have h3 := h2 (carve p (List.replicate threads 0) items).1 L 0
    have h4 := congrArg List.length C.bins
    rw [List.length_map, List.length_map] at h4
    omega
  · by_cases hd : s.done threads
    · exact Or.inl hd
    · cases hcr : s.crashed with
      | true => exact Or.inr (Or.inl rfl)
      | false => exact Or.inr (Or.inr (progress S I hd hcr))

/-- **C53 is violated when a worker is left without a bin**: a pass has a completed schedule exactly if every
worker was given a bin; otherwise every schedule ends in the panic of closing a closed channel. -/
theorem adaptive_pass_completes_iff {p : Params} (hp : ParamsOK p) {threads : Nat} (ht : 0 < threads)
    {sort : List Bytes → List Bytes} {L : List Bytes} (hA : Storable p L) {items : List Info} (hc : Counted p L items)
    (isFirst : Bool) (d : Disk) :
    (∃ d', Pass p sort threads L isFirst items d d') ↔
      ∀ w, w < threads → ∃ sl ∈ (carve p (List.replicate threads 0) items).1, sl.worker = w := by
  have S := setup_of hp.good hA ht hc
  constructor
  · rintro ⟨d', n, s, hr, hd, _⟩ w hw
    have I := inv_run S hr rfl
    exact I.cbin w (by rw [hd.2.1]; exact hw)
  · intro h
    obtain ⟨m, t, h1, h2⟩ := pass_completes S h _ (Run.refl (sort := sort) _) (Nat.le_of_eq (Nat.zero_add _).symm)
    exact ⟨_, m, t, h1, h2, rfl⟩

/-- **C53 is violated for passes with fewer bins than threads**: no schedule completes. -/
theorem adaptive_few_bins_panics {p : Params} (hp : ParamsOK p) {threads : Nat}
    {sort : List Bytes → List Bytes} {L : List Bytes} (hA : Storable p L) {items : List Info} (hc : Counted p L items)
    (hfew : items.length < threads) (isFirst : Bool) (d d' : Disk) : ¬ Pass p sort threads L isFirst items d d' := by
  intro hp'
  have ht : 0 < threads := by omega
  have h := (adaptive_pass_completes_iff hp ht hA hc isFirst d).mp ⟨d', hp'⟩
  have C := carve_ok p items _ (replicate_ne ht)
  have h4 := congrArg List.length C.bins
  rw [List.length_map, List.length_map] at h4
  have hsub : List.range threads ⊆ (carve p (List.replicate threads 0) items).1.map Slot.worker := by
    intro w hw
    obtain ⟨sl, h1, h2⟩ := h w (List.mem_range.mp hw)
    exact List.mem_map.mpr ⟨sl, h1, h2⟩
  have := (List.subperm_of_subset List.nodup_range hsub).length_le
  rw [List.length_range, List.length_map] at this
  omega

/-- **C53 (completion).** A pass in which at least as many bins as there are threads have hashes completes. -/
theorem adaptive_pass_completes {p : Params} (hp : ParamsOK p) {threads : Nat} (ht : 0 < threads)
    {sort : List Bytes → List Bytes} {L : List Bytes} (hA : Storable p L) {items : List Info} (hc : Counted p L items)
    (hmany : threads ≤ items.countP fun i => ∃ h ∈ L, binNum p h = i.bin) (isFirst : Bool) (d : Disk) :
    ∃ d', Pass p sort threads L isFirst items d d' := by
  rw [adaptive_pass_completes_iff hp ht hA hc]
  intro w hw
  apply carve_has_bin p items _ (replicate_ne ht)
  have hb := carve_busy p items (List.replicate threads 0) (replicate_ne ht)
  have hl := (carve_ok p items _ (replicate_ne ht)).len
  have hcnt : items.countP (fun i => ∃ h ∈ L, binNum p h = i.bin) = items.countP (0 < ·.count) := by
    apply List.countP_congr
    intro i hi
    simp only [decide_eq_true_eq]
    rw [hc.count i hi, List.countP_pos_iff]
    simp
  rw [hcnt] at hmany
  rw [List.length_replicate] at hb hl
  have hz : busy (List.replicate threads 0) = 0 := by
    unfold busy
    rw [List.countP_eq_zero]
    intro x hx
    rw [List.mem_replicate] at hx
    simp [hx.2]
  have hall : busy (carve p (List.replicate threads 0) items).2 = (carve p (List.replicate threads 0) items).2.length := by
    have := List.countP_le_length (p := fun x : Nat => decide (0 < x)) (l := (carve p (List.replicate threads 0) items).2)
    unfold busy at hb hz ⊢
    omega
  unfold busy at hall
  rw [List.countP_eq_length] at hall
  rw [List.getD_eq_getElem?_getD, List.getElem?_replicate, if_pos hw, getD_lt (by omega)]
  have := hall _ (List.getElem_mem (show w < (carve p (List.replicate threads 0) items).2.length by omega))
  simpa using this

theorem passes_complete {p : Params} {threads : Nat} {sort : List Bytes → List Bytes} {L : List Bytes}
    (xs : List (List Info)) (b : Bool) (d : Disk)
    (h : ∀ x ∈ xs, ∀ b d, ∃ d', Pass p sort threads L b x d d') : ∃ d', Passes p sort threads L b xs d d' := by
  induction xs generalizing b d with
  | nil => exact ⟨d, Passes.nil b d⟩
  | cons x xs ih =>
    obtain ⟨e, he⟩ := h x (by simp) b d
    obtain ⟨g, hg⟩ := ih false e (fun y hy => h y (by simp [hy]))
    exact ⟨g, Passes.cons he hg⟩

/-- **C53 (completion).** Bulk indexing has a completed run exactly if in every pass every worker is given a
bin. -/
theorem adaptive_completes_iff {p : Params} (hp : ParamsOK p) {gb threads : Nat} (ht : 0 < threads)
    {sortDesc : List Info → List Info} (hsd : SortDescOK sortDesc) {sort : List Bytes → List Bytes} {L : List Bytes}
    (hA : Storable p L) :
    (∃ d, IndexTheHashes p gb threads sortDesc sort L d) ↔
      ∀ passes, design p gb sortDesc (counts p L) = some passes → ∀ x ∈ passes, ∀ w, w < threads →
        ∃ sl ∈ (carve p (List.replicate threads 0) x).1, sl.worker = w := by
  obtain ⟨infos, ps, a1, a2, a3, a4⟩ := adaptive_passes hp hA gb hsd
  have h1 := stageOne_eq hp.good hA
  rw [h1, Option.some.injEq] at a1
  subst a1
  have hc := counted_passes a3
  constructor
  · rintro ⟨d, infos, passes, g1, g2, g3⟩ passes' hd x hx
    rw [h1, Option.some.injEq] at g1
    subst g1
    rw [g2, Option.some.injEq] at hd a2
    subst hd
    subst a2
    clear a3 a4 g2
    generalize true = b at g3
    generalize diskStart p = d0 at g3
    induction g3 with
    | nil => simp at hx
    | cons h t ih =>
      rw [List.mem_cons] at hx
      rcases hx with rfl | hx
      · exact (adaptive_pass_completes_iff hp ht hA (hc _ (by simp)) _ _).mp ⟨_, h⟩
      · exact ih hx (fun x hx => hc x (by simp [hx]))
  · intro h
    obtain ⟨d, hd⟩ := passes_complete (p := p) (threads := threads) (sort := sort) (L := L) ps true (diskStart p)
      (fun x hx b d => (adaptive_pass_completes_iff hp ht hA (hc x hx) b d).mpr (h ps a2 x hx))
    exact ⟨d, _, ps, h1, a2, hd⟩

theorem designPass_fits (budget : Int) (l : List (Info × Bool)) (work : Int) (big : Bool)
    (h : work + total (unscheduled l) < budget) : (designPass budget work big l).1 = unscheduled l := by
  induction l generalizing work big with
  | nil => rfl
  | cons x l ih =>
    obtain ⟨wi, sched⟩ := x
    unfold designPass
    cases sched with
    | true =>
      have hu : unscheduled ((wi, true) :: l) = unscheduled l := by simp [unscheduled]
      rw [if_pos rfl, hu]
      rw [hu] at h
      exact ih work big h
    | false =>
      have hu : unscheduled ((wi, false) :: l) = wi :: unscheduled l := by simp [unscheduled]
      rw [hu] at h ⊢
      simp only [total, List.map_cons, List.sum_cons, Nat.cast_add] at h
      rw [if_neg (by simp), if_pos (by left; omega)]
      dsimp only
      rw [ih _ _ (by simp only [total]; omega)]

theorem designPass_sublist (budget : Int) (l : List (Info × Bool)) (work : Int) (big : Bool) :
    (designPass budget work big l).1.Sublist (l.map (·.1)) := by
  induction l generalizing work big with
  | nil => exact List.Sublist.refl _
  | cons x l ih =>
    obtain ⟨wi, sched⟩ := x
    unfold designPass
    split
    · exact (ih _ _).cons wi
    · split
      · exact (ih _ _).cons_cons wi
      · exact (ih _ _).cons wi

theorem total_counts {p : Params} (hg : Good p) {L : List Bytes} (hA : Storable p L) : total (counts p L) = L.length := by
  have key : ∀ N, ((List.range N).map fun b => L.countP fun h => decide (binNum p h = b)).sum =
      L.countP fun h => decide (binNum p h < N) := by
    intro N
    induction N with
    | zero => simp
    | succ N ih =>
      rw [List.range_succ, List.map_append, List.sum_append, ih]
      simp only [List.map_cons, List.map_nil, List.sum_cons, List.sum_nil, Nat.add_zero]
      clear hA ih
      induction L with
      | nil => rfl
      | cons h L ih =>
        rw [List.countP_cons, List.countP_cons, List.countP_cons, ← ih]
        by_cases h1 : binNum p h < N
        · have : ¬ binNum p h = N := by omega
          have : binNum p h < N + 1 := by omega
          simp [*]; omega
        · by_cases h2 : binNum p h = N
          · have : binNum p h < N + 1 := by omega
            simp [h2]; omega
          · have : ¬ binNum p h < N + 1 := by omega
            simp [*]
  unfold total counts
  rw [List.map_map]
  have := key p.numberOfBins
  rw [show (Info.count ∘ fun b => (⟨b, L.countP fun h => decide (binNum p h = b)⟩ : Info)) =
    fun b => L.countP fun h => decide (binNum p h = b) from rfl, this, List.countP_eq_length]
  intro h hh
  simpa using hg.range h (hA.len32 h hh)

theorem used_eq (p : Params) (L : List Bytes) : (counts p L).countP (0 < ·.count) = usedBins p L := by
  unfold counts usedBins
  rw [List.countP_map]
  apply List.countP_congr
  intro b _
  simp only [Function.comp_apply, decide_eq_true_eq, List.countP_pos_iff]

/-- **C53 (completion).** If the hashes fit the memory grant and at least as many bins as there are threads have
hashes, bulk indexing takes one pass and completes. -/
theorem adaptive_completes {p : Params} (hp : ParamsOK p) {gb threads : Nat} (ht : 0 < threads)
    {sortDesc : List Info → List Info} (hsd : SortDescOK sortDesc) {sort : List Bytes → List Bytes} {L : List Bytes}
    (hA : Storable p L) (hfit : (L.length + 1) * p.entrySize ≤ 1024 * 1024 * 1024 * gb)
    (hmany : threads ≤ usedBins p L) : ∃ d, IndexTheHashes p gb threads sortDesc sort L d := by
  obtain ⟨infos, ps, a1, a2, a3, a4⟩ := adaptive_passes hp hA gb hsd
  have h1 := stageOne_eq hp.good hA
  rw [h1, Option.some.injEq] at a1
  subst a1
  have hperm := (hsd (counts p L)).1
  have htot : total (sortDesc (counts p L)) = L.length := by
    rw [← total_counts hp.good hA]
    exact (hperm.map Info.count).sum_nat
  have hone : ps = [sortDesc (counts p L)] := by
    unfold design at a2
    have hfits := designPass_fits (budgetOf p gb) ((sortDesc (counts p L)).map fun i => (i, false)) 0 true (by
      rw [unscheduled_all, htot, Int.zero_add]
      unfold budgetOf
      apply Int.ofNat_lt.mpr
      exact (Nat.le_div_iff_mul_le (entrySize_pos p)).mpr hfit)
    rw [unscheduled_all] at hfits
    have hpos : 0 < (counts p L).length := by
      have hb := hp.good.range (zeros 32) (by simp)
      simp [counts]
      omega
    generalize hn : (counts p L).length = n at hpos
    rw [hn] at a2
    obtain ⟨m, rfl⟩ : ∃ m, n = m + 1 := ⟨n - 1, by omega⟩
    unfold designLoop at a2
    rw [if_pos (by omega)] at a2
    dsimp only at a2
    rw [hfits, hperm.length_eq, hn, Nat.zero_add] at a2
    unfold designLoop at a2
    rw [if_neg (by omega)] at a2
    simpa using a2.symm
  subst hone
  have hc := counted_passes a3 (sortDesc (counts p L)) (by simp)
  obtain ⟨d, hd⟩ := adaptive_pass_completes (sort := sort) hp ht hA hc (by
    rw [← used_eq] at hmany
    rw [← hperm.countP_eq] at hmany
    refine Nat.le_trans hmany (Nat.le_of_eq ?_)
    apply List.countP_congr
    intro i hi
    simp only [decide_eq_true_eq]
    rw [hc.count i hi, List.countP_pos_iff]
    simp) true (diskStart p)
  exact ⟨d, _, _, h1, a2, Passes.cons hd (Passes.nil _ _)⟩

theorem carve_workers (p : Params) (items : List Info) (hs : items.Pairwise fun a b => b.count ≤ a.count)
    (work : List Nat) (h : work ≠ []) :
    ∃ l : List Nat, l.length ≤ items.countP (0 < ·.count) + 1 ∧ ∀ sl ∈ (carve p work items).1, sl.worker ∈ l := by
  induction items generalizing work with
  | nil => exact ⟨[], by simp, by simp [carve]⟩
  | cons wi rest ih =>
    rw [List.pairwise_cons] at hs
    by_cases h0 : 0 < wi.count
    · have hne : work.set (leastWorker work) (work.getD (leastWorker work) 0 + wi.count) ≠ [] := by
        intro h0
        have := congrArg List.length h0
        simp at this
        exact h this
      obtain ⟨l, h1, h2⟩ := ih hs.2 _ hne
      refine ⟨leastWorker work :: l, ?_, ?_⟩
      · rw [List.countP_cons_of_pos (by simpa using h0), List.length_cons]
        omega
      · intro sl hsl
        unfold carve at hsl
        dsimp only at hsl
        rw [List.mem_cons] at hsl
        rcases hsl with rfl | hsl
        · simp
        · exact List.mem_cons_of_mem _ (h2 sl hsl)
    · refine ⟨[leastWorker work], by simp, ?_⟩
      have hz : ∀ i ∈ wi :: rest, i.count = 0 := by
        intro i hi
        rw [List.mem_cons] at hi
        rcases hi with rfl | hi
        · omega
        · have := hs.1 i hi; omega
      have key : ∀ l : List Info, (∀ i ∈ l, i.count = 0) → ∀ sl ∈ (carve p work l).1, sl.worker = leastWorker work := by
        intro l
        induction l with
        | nil => intro _; simp [carve]
        | cons a l ih =>
          intro hl sl hsl
          unfold carve at hsl
          dsimp only at hsl
          have hsame : work.set (leastWorker work) (work.getD (leastWorker work) 0 + a.count) = work := by
            rw [hl a (by simp), Nat.add_zero, getD_lt (leastWorker_lt h), List.set_getElem_self]
          rw [hsame, List.mem_cons] at hsl
          rcases hsl with rfl | hsl
          · rfl
          · exact ih (fun i hi => hl i (by simp [hi])) sl hsl
      intro sl hsl
      simp [key _ hz sl hsl]

/-- **C53 is violated when the hashes fall in few bins**: with fewer bins in use than one less than the number of
threads (for example an empty hash file and two threads, or one hash and three threads) no run completes;
every schedule panics. -/
theorem adaptive_few_used_bins_panics {p : Params} (hp : ParamsOK p) {gb threads : Nat}
    {sortDesc : List Info → List Info} (hsd : SortDescOK sortDesc) {sort : List Bytes → List Bytes} {L : List Bytes}
    (hA : Storable p L) (hfew : usedBins p L + 1 < threads) (d : Disk) :
    ¬ IndexTheHashes p gb threads sortDesc sort L d := by
  intro hrun
  have ht : 0 < threads := by omega
  obtain ⟨infos, ps, a1, a2, a3, a4⟩ := adaptive_passes hp hA gb hsd
  have h1 := stageOne_eq hp.good hA
  rw [h1, Option.some.injEq] at a1
  subst a1
  have hall := (adaptive_completes_iff hp ht hsd hA).mp ⟨d, hrun⟩ ps a2
  have hpos : 0 < (counts p L).length := by
    have hb := hp.good.range (zeros 32) (by simp)
    simp [counts]
    omega
  obtain ⟨x, xs, hps, hx⟩ : ∃ x xs, ps = x :: xs ∧ x.Sublist (sortDesc (counts p L)) := by
    unfold design at a2
    generalize hn : (counts p L).length = n at hpos
    rw [hn] at a2
    obtain ⟨m, rfl⟩ : ∃ m, n = m + 1 := ⟨n - 1, by omega⟩
    unfold designLoop at a2
    rw [if_pos (by omega)] at a2
    dsimp only at a2
    rw [Option.map_eq_some_iff] at a2
    obtain ⟨xs, _, hxs⟩ := a2
    refine ⟨_, xs, hxs.symm, ?_⟩
    have := designPass_sublist (budgetOf p gb) ((sortDesc (counts p L)).map fun i => (i, false)) 0 true
    rw [List.map_map, show ((fun x : Info × Bool => x.1) ∘ fun i => (i, false)) = id from rfl, List.map_id] at this
    exact this
  have hw := hall x (by rw [hps]; simp)
  obtain ⟨l, l1, l2⟩ := carve_workers p x ((hsd _).2.sublist hx) (List.replicate threads 0) (replicate_ne ht)
  have hsub : List.range threads ⊆ l := by
    intro w hw'
    obtain ⟨sl, h1, h2⟩ := hw w (List.mem_range.mp hw')
    exact h2 ▸ l2 sl h1
  have h5 := (List.subperm_of_subset List.nodup_range hsub).length_le
  have h6 : x.countP (0 < ·.count) ≤ usedBins p L := by
    rw [← used_eq, ← (hsd (counts p L)).1.countP_eq]
    exact hx.countP_le
  rw [List.length_range] at h5
  omega

/-! ## Examples -/

/-- A sorting function for the bins. -/
def demoSortDesc (l : List Info) : List Info := l.mergeSort fun a b => b.count ≤ a.count

theorem demoSortDesc_ok : SortDescOK demoSortDesc := by
  intro l
  refine ⟨List.mergeSort_perm _ _, ?_⟩
  have := List.pairwise_mergeSort (le := fun a b : Info => decide (b.count ≤ a.count)) (by
    intro a b c h1 h2
    simp at h1 h2 ⊢
    omega) (by
    intro a b
    simp
    omega) l
  refine this.imp ?_
  intro a b h
  simpa using h

theorem used_ge (p : Params) (L : List Bytes) (B : List Nat) (hn : B.Nodup)
    (hB : ∀ b ∈ B, b < p.numberOfBins ∧ ∃ h ∈ L, binNum p h = b) : B.length ≤ usedBins p L := by
  unfold usedBins
  rw [List.countP_eq_length_filter]
  apply (List.subperm_of_subset hn _).length_le
  intro b hb
  rw [List.mem_filter, List.mem_range]
  exact ⟨(hB b hb).1, by simpa using (hB b hb).2⟩

theorem demo_run : ∃ d, IndexTheHashes demoParams 1 2 demoSortDesc demoSort demoFile d :=
  adaptive_completes demo_paramsOK (by decide) demoSortDesc_ok demoFile_indexable.storable (by decide +kernel)
    (used_ge _ _ [0, 257] (by decide) (by decide +kernel))

example : ∃ d, IndexTheHashes demoParams 1 2 demoSortDesc demoSort demoFile d ∧
    ∃ s, openStore demoParams (WordFile.close d.nums) d.files false = some s ∧ countHashes s = 4 ∧
      ∀ h : Bytes, h.length = 32 → ∃ r, indexOfHash fl53 demoParams s h = some r ∧
        ((∃ i, r = .at i ∧ FirstAt demoFile i h) ∨ (r = .absent ∧ h ∉ demoFile)) := by
  obtain ⟨d, hd⟩ := demo_run
  exact ⟨d, hd, adaptive_first_occurrence_partial floatOK_fl53 demo_paramsOK (by decide) demoSortDesc_ok demoSort_ok
    demoFile_indexable hd⟩

example : ∃ d, IndexTheHashes demoParams 1 2 demoSortDesc demoSort demoFile d ∧
    ∃ s, openStore demoParams (WordFile.close d.nums) d.files false = some s ∧
      (∃ s', getHashAtIndex demoParams s 3 = some (s', some (List.replicate 32 2))) ∧
      (∃ s', getHashAtIndex demoParams s 2 = some (s', some (zeros 32))) := by
  obtain ⟨d, hd⟩ := demo_run
  obtain ⟨s, h1, h2, _, h3⟩ := adaptive_get_first_partial demo_paramsOK (by decide) demoSortDesc_ok demoSort_ok
    demoFile_indexable hd
  exact ⟨d, hd, s, h1, h2 3 _ ⟨rfl, by decide +kernel⟩, h3 2 0 _ rfl rfl (by decide)⟩

/-- No hashes and two threads: a panic. -/
example (d : Disk) : ¬ IndexTheHashes demoParams 1 2 demoSortDesc demoSort [] d :=
  adaptive_few_used_bins_panics demo_paramsOK demoSortDesc_ok (by
    refine ⟨by simp, by simp, by simp, by simp⟩) (by simp [usedBins]) d

/-- Two bins in one pass and three threads: a panic. -/
example (d d' : Disk) : ¬ Pass demoParams demoSort 3 demoFile true [⟨0, 2⟩, ⟨257, 1⟩] d d' :=
  adaptive_few_bins_panics demo_paramsOK demoFile_indexable.storable ⟨by decide, by decide +kernel⟩ (by decide) true d d'

example : ∃ infos passes, stageOne demoParams demoFile = some infos ∧ design demoParams 1 demoSortDesc infos = some passes ∧
    passes.flatten.Perm ((List.range demoParams.numberOfBins).map fun b => ⟨b, demoFile.countP fun h => binNum demoParams h = b⟩) ∧
    ∀ x ∈ passes, x ≠ [] ∧ (x.length = 1 ∨ total x * demoParams.entrySize < 1024 * 1024 * 1024 * 1) :=
  adaptive_passes demo_paramsOK demoFile_indexable.storable 1 demoSortDesc_ok

end Verif.Adaptive3
