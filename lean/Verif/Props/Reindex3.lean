import Verif.Model.Reindex3
import Verif.Props.Adaptive3
import Mathlib.Data.List.Dedup

/-! # Bulk indexing over an old index (C91) and of damaged hash files (C92) -/

namespace Verif.Reindex3

open Bins WordFile HashStores HashStore3 Bulk3

/-! ## Specification -/

/-- The number of different hashes of the list that fall in a bin. -/
def distinct (p : Params) (L : List Bytes) (bn : Nat) : Nat := ((L.filter fun h => binNum p h = bn).dedup).length

/-- The store answers for the list: it counts all hashes and gives for every 32-byte hash its first index in the list,
or 'absent'. -/
def Answers (fl : Rat → Rat) (p : Params) (s : Store) (L : List Bytes) : Prop :=
  countHashes s = L.length ∧ ∀ h : Bytes, h.length = 32 → ∃ r, indexOfHash fl p s h = some r ∧
    ((∃ i, r = .at i ∧ FirstAt L i h) ∨ (r = .absent ∧ h ∉ L))

/-- A sort order the indexer may use. -/
def Indexer.OK : Indexer → Prop
  | .multi _ _ => True
  | .adaptive _ sortDesc => Adaptive3.SortDescOK sortDesc

/-- The overflow files `old` that a folder can hold after any number of runs, complete or stopped half-way, by either
indexer, with the same parameters, the hash file having only grown from run to run and being `L` at the last one. -/
inductive Remains (p : Params) (sort : List Bytes → List Bytes) : List Bytes → (OvfPath → Option Bytes) → Prop
  | fresh : Remains p sort [] fun _ => none
  | run {L0 L old threads d} (ix : Indexer) (h : Remains p sort L0 old) (hL : L0 <+: L) (hI : Indexable p L)
      (ht : 0 < threads) (hix : ix.OK) (hr : Index p sort threads L old d ix) : Remains p sort L d.files.overflow
  | stopped {L0 L old threads m f} (ix : Indexer) (h : Remains p sort L0 old) (hL : L0 <+: L) (hI : Indexable p L)
      (ht : 0 < threads) (hix : ix.OK) (hr : Stopped p sort threads L old m f ix) : Remains p sort L f.overflow

/-! ## The saved bins -/

/-- Files that agree but for leftover overflow files. -/
structure Over (old : OvfPath → Option Bytes) (f g : Files) : Prop where
  starts : g.binStarts = f.binStarts
  ovf : ∀ x, g.overflow x = (f.overflow x).or (old x)

theorem Over.save {p : Params} {old : OvfPath → Option Bytes} {f g : Files} (h : Over old f g) (bn : Nat) (b : Bytes) :
    Over old (saveBin p f bn b) (saveBin p g bn b) := by
  refine ⟨?_, ?_⟩
  · unfold saveBin; dsimp only; rw [h.starts]
  · intro x
    unfold saveBin
    dsimp only
    split
    · dsimp only
      split
      · rfl
      · exact h.ovf x
    · exact h.ovf x

theorem Over.saveAll {p : Params} {old : OvfPath → Option Bytes} (l : List (Nat × List Bytes)) {f g : Files}
    (h : Over old f g) : Over old (saveAll p f l) (saveAll p g l) := by
  induction l generalizing f g with
  | nil => exact h
  | cons x l ih => exact ih (h.save _ _)

theorem over_start (p : Params) (old : OvfPath → Option Bytes) : Over old (freshFiles p) (startOver p old).files :=
  ⟨rfl, fun _ => rfl⟩

theorem tailOK_final {p : Params} (hg : Good p) {sort : List Bytes → List Bytes} (hsort : SortOK p sort)
    {L : List Bytes} (hA : Storable p L) (b : Nat) : Sized p (finalEntries p sort L b) ∧ TailOK p (finalEntries p sort L b) := by
  obtain ⟨f1, f2, f3, f4⟩ := finalEntries_sub hg hsort hA b
  refine ⟨f1, ?_⟩
  intro e he _ hz
  have hm := f4 (itemOf p e) (List.mem_map.mpr ⟨e, List.mem_of_getElem? he, rfl⟩)
  rw [hz, itemOf_zeros, mem_itemsFor] at hm
  obtain ⟨h, h1, _, h3, h4⟩ := hm
  exact hA.first h h1 ⟨h4.symm, h3.symm⟩

/-- Each bin saved at most once onto fresh files is stored. -/
theorem stored_once {p : Params} (hg : Good p) {sort : List Bytes → List Bytes} (hsort : SortOK p sort)
    {L : List Bytes} (hA : Storable p L) (order : List Nat) (hnd : order.Nodup)
    (hmem : ∀ bn ∈ order, bn < p.numberOfBins) : ∀ bn, bn < p.numberOfBins →
      Stored p (saveAll p (freshFiles p) (order.map fun bn => (bn, finalEntries p sort L bn))) bn
        (if bn ∈ order then finalEntries p sort L bn else []) := by
  intro bn hbn
  have hlast : ∀ (l : List Nat), l.Nodup → ∀ (cur : Nat → List Bytes), (∀ b ∈ l, cur b = []) →
      Growing cur (l.map fun bn => (bn, finalEntries p sort L bn)) ∧
      ∀ b, lastSaved cur (l.map fun bn => (bn, finalEntries p sort L bn)) b =
        if b ∈ l then finalEntries p sort L b else cur b := by
    intro l hnd
    induction l with
    | nil => intro cur _; exact ⟨trivial, fun b => by simp [lastSaved]⟩
    | cons a l ih =>
      intro cur hcur
      rw [List.nodup_cons] at hnd
      obtain ⟨g1, g2⟩ := ih hnd.2 (fun b => if b = a then finalEntries p sort L a else cur b) (by
        intro b hb
        have hba : b ≠ a := fun h => hnd.1 (h ▸ hb)
        rw [if_neg hba]
        exact hcur b (by simp [hb]))
      refine ⟨⟨by rw [hcur a (by simp)]; simp, g1⟩, ?_⟩
      intro b
      show lastSaved (fun b => if b = a then finalEntries p sort L a else cur b) _ b = _
      rw [g2 b]
      by_cases hbl : b ∈ l
      · rw [if_pos hbl, if_pos (by simp [hbl])]
      · rw [if_neg hbl]
        by_cases hba : b = a
        · subst hba; simp
        · simp [hba, hbl]
  obtain ⟨g1, g2⟩ := hlast order hnd (fun _ => []) (fun _ _ => rfl)
  have := (saveAll_stored hg.digits (order.map fun bn => (bn, finalEntries p sort L bn)) (by
      intro x hx
      obtain ⟨b, hb, rfl⟩ := List.mem_map.mp hx
      exact ⟨hmem b hb, (tailOK_final hg hsort hA b).1⟩) (freshFiles p) (fun _ => [])
    (fun bn hbn => ⟨stored_fresh hbn, by intro e he; simp at he⟩) g1 bn hbn).1
  rw [g2 bn] at this
  exact this

/-- What loading a bin gives when old overflow files lie around. -/
theorem load_over {p : Params} {old : OvfPath → Option Bytes} {f g : Files} (ho : Over old f g) {bn : Nat}
    {es : List Bytes} (h : Stored p f bn es) (hs : Sized p es) (ht : TailOK p es) :
    loadBin p g bn = some (es.flatten ++ if es.length = p.entriesInBinStart then (old (ovfPath p bn)).getD [] else []) := by
  have hl := load_stored h hs ht
  have hE := entrySize_pos p
  have hov := ho.ovf (ovfPath p bn)
  rw [h.ovf] at hov
  unfold loadBin at hl ⊢
  rw [ho.starts]
  rw [Option.map_eq_some_iff] at hl
  obtain ⟨b, hb, hl⟩ := hl
  rw [hb, Option.map_some]
  congr 1
  have hblen : b.length = p.entrySize * p.entriesInBinStart := by
    unfold readAt at hb
    split at hb
    · rename_i hle
      cases hb
      rw [List.length_take, List.length_drop]
      omega
    · simp at hb
  have hfl := flatten_length hs
  unfold loadBinFromSlice at hl ⊢
  dsimp only at hl ⊢
  rw [h.ovf] at hl
  rw [hov]
  by_cases hz : countZeroBytesAtEnd b / p.entrySize > 0
  · rw [if_pos hz] at hl ⊢
    rw [hl]
    have : es.length ≠ p.entriesInBinStart := by
      intro he
      have hk : 0 < p.entriesInBinStart := by
        rcases Nat.eq_zero_or_pos p.entriesInBinStart with h0 | h0
        · rw [h0] at hblen
          have : b = [] := List.length_eq_zero_iff.mp (by omega)
          rw [this] at hz
          simp [countZeroBytesAtEnd, countZeroAt, countZeroTail] at hz
        · exact h0
      have hlen := congrArg List.length hl
      rw [List.length_take, hfl, hblen, he] at hlen
      have : p.entrySize * (p.entriesInBinStart - countZeroBytesAtEnd b / p.entrySize) < p.entrySize * p.entriesInBinStart :=
        Nat.mul_lt_mul_of_pos_left (by omega) hE
      omega
    rw [if_neg this, List.append_nil]
  · rw [if_neg hz] at hl ⊢
    by_cases hgt : es.length > p.entriesInBinStart
    · rw [if_pos hgt] at hl ⊢
      simp only [Option.some_or] at hl ⊢
      rw [hl, if_neg (by omega), List.append_nil]
    · rw [if_neg hgt] at hl ⊢
      simp only [Option.none_or] at hl ⊢
      have : es.length = p.entriesInBinStart := by
        have hlen := congrArg List.length hl
        rw [hfl, hblen] at hlen
        exact (Nat.eq_of_mul_eq_mul_left hE hlen).symm
      rw [if_pos this, hl]
      cases old (ovfPath p bn) with
      | none => simp
      | some o => rfl

/-! ## Runs -/

/-- A complete run over old files saves each bin once. -/
theorem index_saves {p : Params} (hg : Good p) {threads : Nat} (ht : 0 < threads) {sort : List Bytes → List Bytes}
    (hsort : SortOK p sort) {L : List Bytes} (hA : Storable p L) (hpb : 0 < p.numberOfBins)
    (hap : ∀ gb sd, Adaptive3.SortDescOK sd → ∃ infos passes, Adaptive3.stageOne p L = some infos ∧
      Adaptive3.design p gb sd infos = some passes ∧ passes.flatten.Perm (Adaptive3.counts p L))
    {old : OvfPath → Option Bytes} {d : Disk} {ix : Indexer}
    (hix : ix.OK) (hr : Index p sort threads L old d ix) :
    d.nums = writeBinNums p (diskStart p).nums 0 L ∧
      ∃ order : List Nat, order.Nodup ∧ (∀ bn, bn ∈ order ↔ bn < p.numberOfBins) ∧
        d.files = saveAll p (startOver p old).files (order.map fun bn => (bn, finalEntries p sort L bn)) := by
  cases ix with
  | multi estimate bytesPerPass =>
    obtain ⟨xs, hpl, hps⟩ := hr
    obtain ⟨hcov, n0, ys, rfl, hys⟩ := plan_covers hpl
    obtain ⟨hf, _⟩ := passes_files hg ht hsort hA hps
    rw [hcov] at hf
    refine ⟨?_, List.range p.numberOfBins, List.nodup_range, fun bn => List.mem_range, hf⟩
    cases hps with
    | cons h t =>
      have h1 := pass_files hg ht hsort hA h
      have h2 := (passes_files hg ht hsort hA t).2 hys
      rw [h2, h1]
      dsimp only
      rw [if_pos rfl]
      rfl
  | adaptive gb sd =>
    obtain ⟨infos, passes, g1, g2, g3⟩ := hr
    obtain ⟨infos', passes', a1, a2, a3⟩ := hap gb sd hix
    rw [g1, Option.some.injEq] at a1
    subst a1
    rw [g2, Option.some.injEq] at a2
    subst a2
    obtain ⟨order, o1, o2, o3⟩ := Adaptive3.passes_save hg ht hsort hA g3 (Adaptive3.counted_passes a3)
    have hbins : order.Perm (List.range p.numberOfBins) := by
      refine o1.trans ((a3.map _).trans ?_)
      unfold Adaptive3.counts
      rw [List.map_map]
      rw [show (Adaptive3.Info.bin ∘ fun b => (⟨b, List.countP (fun h => decide (binNum p h = b)) L⟩ : Adaptive3.Info)) = id from rfl,
        List.map_id]
    have hne : passes ≠ [] := by
      rintro rfl
      have := a3.length_eq
      simp [Adaptive3.counts] at this
      omega
    rw [if_pos ⟨rfl, hne⟩] at o3
    exact ⟨o3, order, (hbins.nodup_iff).mpr List.nodup_range, fun bn => by rw [hbins.mem_iff, List.mem_range], o2⟩

theorem index_saves' {p : Params} (hp : ParamsOK p) {threads : Nat} (ht : 0 < threads) {sort : List Bytes → List Bytes}
    (hsort : SortOK p sort) {L : List Bytes} (hA : Storable p L) {old : OvfPath → Option Bytes} {d : Disk} {ix : Indexer}
    (hix : ix.OK) (hr : Index p sort threads L old d ix) :
    d.nums = writeBinNums p (diskStart p).nums 0 L ∧
      ∃ order : List Nat, order.Nodup ∧ (∀ bn, bn ∈ order ↔ bn < p.numberOfBins) ∧
        d.files = saveAll p (startOver p old).files (order.map fun bn => (bn, finalEntries p sort L bn)) := by
  refine index_saves hp.good ht hsort hA ?_ ?_ hix hr
  · have := hp.good.range (zeros 32) (by simp)
    omega
  · intro gb sd hsd
    obtain ⟨infos, passes, h1, h2, h3, _⟩ := Adaptive3.adaptive_passes hp hA gb hsd
    exact ⟨infos, passes, h1, h2, h3⟩

/-- The bins after a complete run over old overflow files. -/
theorem index_bins {p : Params} (hp : ParamsOK p) {threads : Nat} (ht : 0 < threads) {sort : List Bytes → List Bytes}
    (hsort : SortOK p sort) {L : List Bytes} (hA : Storable p L) {old : OvfPath → Option Bytes} {d : Disk} {ix : Indexer}
    (hix : ix.OK) (hr : Index p sort threads L old d ix) (bn : Nat) (hbn : bn < p.numberOfBins) :
    loadBin p d.files bn = some ((finalEntries p sort L bn).flatten ++
      if (finalEntries p sort L bn).length = p.entriesInBinStart then (old (ovfPath p bn)).getD [] else []) := by
  obtain ⟨_, order, h1, h2, h3⟩ := index_saves' hp ht hsort hA hix hr
  have hst := stored_once hp.good hsort hA order h1 (fun b hb => (h2 b).mp hb) bn hbn
  rw [if_pos ((h2 bn).mpr hbn)] at hst
  rw [h3]
  obtain ⟨t1, t2⟩ := tailOK_final hp.good hsort hA bn
  exact load_over ((over_start p old).saveAll _) hst t1 t2

/-- A run that stops has saved some bins, each once. -/
theorem stopped_saves {p : Params} (hp : ParamsOK p) {threads : Nat} (ht : 0 < threads) {sort : List Bytes → List Bytes}
    (hsort : SortOK p sort) {L : List Bytes} (hA : Storable p L) {old : OvfPath → Option Bytes} {m : Nat} {f : Files}
    {ix : Indexer} (hix : ix.OK) (hr : Stopped p sort threads L old m f ix) :
    ∃ order : List Nat, order.Nodup ∧ (∀ bn ∈ order, bn < p.numberOfBins) ∧
      f = saveAll p (startOver p old).files (order.map fun bn => (bn, finalEntries p sort L bn)) := by
  have hg := hp.good
  cases ix with
  | multi estimate bytesPerPass =>
    obtain ⟨xs, x, ys, e, k, s, n, t, hpl, hps, h1, h2, h3, h4, hm, rfl⟩ := hr
    obtain ⟨hcov, _⟩ := plan_covers hpl
    obtain ⟨hf, _⟩ := passes_files hg ht hsort hA hps
    have hb : ∀ i, i < x.2 → t.bins i = (finalEntries p sort L (x.1 + i)).flatten := by
      intro i hi
      rw [pool_result h3 h4 i hi, fan_result ht (readLoop_ok hg hA _ _) h1 h2 i, readLoop_filter p x.1 x.2 i hi]
      rw [List.map_map]
      have : ((L.zipIdx 0).filter fun y => binNum p y.1 = x.1 + i).map
          (Work.enc p ∘ fun y => ⟨i, sortNum p y.1, y.2, truncOf y.1⟩) = binEntries p L (x.1 + i) := rfl
      rw [this, sortAndDedup_eq hsort (binEntries_spec hg hA _).1]
      rfl
    have hw := writeFiles_eq (p := p) e.files x.1 t.bins (finalEntries p sort L) m 0 (fun j _ h2 => hb j (by omega))
    have hsub : ((xs.flatMap fun x => List.range' x.1 x.2) ++ List.range' x.1 m).Sublist (List.range p.numberOfBins) := by
      rw [← hcov, List.flatMap_append, List.flatMap_cons]
      refine List.Sublist.append (List.Sublist.refl _) ?_
      refine List.Sublist.trans ?_ (List.sublist_append_left _ _)
      obtain ⟨q, hq⟩ : ∃ q, x.2 = m + q := ⟨x.2 - m, by omega⟩
      rw [hq, ← List.range'_append_1]
      exact List.sublist_append_left _ _
    refine ⟨_, List.nodup_range.sublist hsub, fun bn hbn => List.mem_range.mp (hsub.subset hbn), ?_⟩
    rw [hw, hf, List.map_append, saveAll_append]
    rfl
  | adaptive gb sd =>
    obtain ⟨infos, xs, x, ys, e, n, s, g1, g2, g3, hrun, hd, rfl⟩ := hr
    obtain ⟨infos', passes', a1, a2, a3, _⟩ := Adaptive3.adaptive_passes hp hA gb hix
    rw [g1, Option.some.injEq] at a1
    subst a1
    rw [g2, Option.some.injEq] at a2
    subst a2
    have hcp := Adaptive3.counted_passes a3
    obtain ⟨order, o1, o2, o3⟩ := Adaptive3.passes_save hg ht hsort hA g3 (fun y hy => hcp y (by simp [hy]))
    have hc := hcp x (by simp)
    have S := Adaptive3.setup_of hg hA ht hc
    have C := Adaptive3.carve_ok p x _ (Adaptive3.replicate_ne ht)
    generalize Adaptive3.carve p (List.replicate threads 0) x = c at S C hrun
    obtain ⟨slots, final⟩ := c
    dsimp only at S C hrun
    have I := Adaptive3.inv_run S hrun rfl
    have hperm : (s.results.mergeSort fun a b => a.1 ≤ b.1).Perm s.results := List.mergeSort_perm _ _
    have hbins : ((s.results.mergeSort fun a b => a.1 ≤ b.1).map (·.1)).Perm (x.map Adaptive3.Info.bin) := by
      refine (hperm.map _).trans ?_
      rw [← C.bins]
      apply (List.perm_ext_iff_of_nodup I.rnodup S.nodup).mpr
      intro b
      constructor
      · intro hb
        obtain ⟨r, hr, rfl⟩ := List.mem_map.mp hb
        obtain ⟨sl, h1, h2⟩ := (I.res r hr).1
        exact List.mem_map.mpr ⟨sl, h1, h2⟩
      · intro hb
        obtain ⟨sl, h1, rfl⟩ := List.mem_map.mp hb
        rcases I.out sl h1 with h2 | h2
        · rw [(hd.2.2.1 _ (S.worker sl h1)).2] at h2
          simp at h2
        · exact h2
    have hw := Adaptive3.saveResults_eq (p := p) (finalEntries p sort L)
      ((s.results.mergeSort fun a b => a.1 ≤ b.1).take m) (by
        intro r hr
        obtain ⟨⟨sl, h1, h2⟩, h3⟩ := I.res r (hperm.mem_iff.mp (List.mem_of_mem_take hr))
        rw [h3, ← h2, Adaptive3.sentTo_sendList h1, List.map_map]
        have : ((L.zipIdx 0).filter fun x => binNum p x.1 = sl.bin).map
            (Work.enc p ∘ fun x => ⟨sl.bin, sortNum p x.1, x.2, truncOf x.1⟩) = binEntries p L sl.bin := rfl
        rw [this, sortAndDedup_eq hsort (binEntries_spec hg hA _).1]
        rfl) e.files
    have hall : (order ++ (s.results.mergeSort fun a b => a.1 ≤ b.1).map (·.1) ++ ys.flatten.map Adaptive3.Info.bin).Perm
        (List.range p.numberOfBins) := by
      have h1 := a3.map Adaptive3.Info.bin
      have h2 : (((List.range p.numberOfBins).map fun b => (⟨b, L.countP fun h => binNum p h = b⟩ : Adaptive3.Info)).map
          Adaptive3.Info.bin) = List.range p.numberOfBins := by
        rw [List.map_map]
        exact List.map_id _
      rw [h2, List.flatten_append, List.flatten_cons, List.map_append, List.map_append, ← List.append_assoc] at h1
      exact ((o1.append hbins).append (List.Perm.refl _)).trans h1
    have hsub : (order ++ ((s.results.mergeSort fun a b => a.1 ≤ b.1).take m).map (·.1)).Sublist
        (order ++ (s.results.mergeSort fun a b => a.1 ≤ b.1).map (·.1) ++ ys.flatten.map Adaptive3.Info.bin) := by
      refine List.Sublist.trans ?_ (List.sublist_append_left _ _)
      exact List.Sublist.append (List.Sublist.refl _) ((List.take_sublist _ _).map _)
    refine ⟨_, ((hall.nodup_iff).mpr List.nodup_range).sublist hsub,
      fun bn hbn => List.mem_range.mp (hall.mem_iff.mp (hsub.subset hbn)), ?_⟩
    rw [hw, o2, List.map_append, saveAll_append]

/-! ## Counting -/

/-- The number of entries kept for a bin is the number of different hashes in it. -/
theorem final_length {p : Params} (hg : Good p) {sort : List Bytes → List Bytes} (hsort : SortOK p sort)
    {L : List Bytes} (hI : Indexable p L) (bn : Nat) : (finalEntries p sort L bn).length = distinct p L bn := by
  obtain ⟨f1, f2, f3, f4⟩ := finalEntries_spec hg hsort hI bn
  obtain ⟨b1, b2⟩ := binEntries_spec hg hI.storable bn
  obtain ⟨s1, s2⟩ := hsort (binEntries p L bn)
  have hsub : (finalEntries p sort L bn).Sublist (sort (binEntries p L bn)) := dedup_sublist _
  have hnd : ((finalEntries p sort L bn).map (entIndex p)).Nodup := by
    have h0 : (binEntries p L bn).map (entIndex p) = (itemsFor p L bn).map Item.index := by
      rw [← b2, List.map_map]; rfl
    have h1 : ((binEntries p L bn).map (entIndex p)).Nodup := by rw [h0]; exact itemsFor_index_nodup p L bn
    exact (((s1.map (entIndex p)).nodup_iff).mpr h1).sublist (hsub.map _)
  have hfirst : ∀ e ∈ finalEntries p sort L bn, ∃ h, FirstAt L (entIndex p e) h ∧ binNum p h = bn := by
    intro e he
    obtain ⟨h, h1, h2, _, _⟩ := (f4 (itemOf p e)).mp (List.mem_map.mpr ⟨e, he, rfl⟩)
    exact ⟨h, h1, h2⟩
  have hperm : (((finalEntries p sort L bn).map (entIndex p)).map fun i => (L[i]?).getD []).Perm
      ((L.filter fun h => binNum p h = bn).dedup) := by
    apply (List.perm_ext_iff_of_nodup ?_ (List.nodup_dedup _)).mpr
    · intro h
      rw [List.mem_dedup, List.mem_filter]
      constructor
      · intro hh
        rw [List.map_map, List.mem_map] at hh
        obtain ⟨e, he, rfl⟩ := hh
        obtain ⟨h, h1, h2⟩ := hfirst e he
        simp only [Function.comp_apply, h1.1, Option.getD_some]
        exact ⟨List.mem_of_getElem? h1.1, by simpa using h2⟩
      · rintro ⟨h1, h2⟩
        obtain ⟨i, hi⟩ := exists_first h1
        obtain ⟨e, he, hee⟩ := List.mem_map.mp ((f4 ⟨sortNum p h, i, truncOf h⟩).mpr ⟨h, hi, by simpa using h2, rfl, rfl⟩)
        rw [List.map_map, List.mem_map]
        refine ⟨e, he, ?_⟩
        have : entIndex p e = i := congrArg Item.index hee
        simp only [Function.comp_apply, this, hi.1, Option.getD_some]
    · refine List.Nodup.map_on ?_ hnd
      intro i hi j hj hij
      obtain ⟨e, he, rfl⟩ := List.mem_map.mp hi
      obtain ⟨e', he', rfl⟩ := List.mem_map.mp hj
      obtain ⟨h, h1, _⟩ := hfirst e he
      obtain ⟨h', h1', _⟩ := hfirst e' he'
      rw [h1.1, h1'.1] at hij
      simp only [Option.getD_some] at hij
      subst hij
      rcases Nat.lt_trichotomy (entIndex p e) (entIndex p e') with hl | hl | hl
      · exact absurd h1.1 (h1'.2 _ hl)
      · exact hl
      · exact absurd h1'.1 (h1.2 _ hl)
  have := hperm.length_eq
  simpa [distinct] using this

theorem distinct_mono (p : Params) {L0 L : List Bytes} (h : L0 <+: L) (bn : Nat) : distinct p L0 bn ≤ distinct p L bn := by
  unfold distinct
  refine (List.subperm_of_subset (List.nodup_dedup _) ?_).length_le
  intro x hx
  rw [List.mem_dedup, List.mem_filter] at hx ⊢
  exact ⟨h.subset hx.1, hx.2⟩

/-- Old overflow files exist only for bins that overflow with the list `L` too. -/
def Covered (p : Params) (L : List Bytes) (old : OvfPath → Option Bytes) : Prop :=
  ∀ bn, bn < p.numberOfBins → old (ovfPath p bn) ≠ none → p.entriesInBinStart < distinct p L bn

theorem Covered.mono {p : Params} {L0 L : List Bytes} {old : OvfPath → Option Bytes} (h : Covered p L0 old)
    (hL : L0 <+: L) : Covered p L old := fun bn h1 h2 => Nat.lt_of_lt_of_le (h bn h1 h2) (distinct_mono p hL bn)

/-- Saving bins of `L` adds overflow files only for bins that overflow. -/
theorem covered_saves {p : Params} (hp : ParamsOK p) {sort : List Bytes → List Bytes}
    (hsort : SortOK p sort) {L : List Bytes} (hI : Indexable p L) {old : OvfPath → Option Bytes} (hc : Covered p L old)
    {order : List Nat} (h1 : order.Nodup) (h2 : ∀ bn ∈ order, bn < p.numberOfBins) :
    Covered p L (saveAll p (startOver p old).files (order.map fun bn => (bn, finalEntries p sort L bn))).overflow := by
  intro bn hbn hne
  have hst := stored_once hp.good hsort hI.storable order h1 h2 bn hbn
  have hov := ((over_start p old).saveAll (p := p) (order.map fun bn => (bn, finalEntries p sort L bn))).ovf (ovfPath p bn)
  rw [hov, hst.ovf] at hne
  by_cases hgt : (if bn ∈ order then finalEntries p sort L bn else []).length > p.entriesInBinStart
  · by_cases hm : bn ∈ order
    · rw [if_pos hm, final_length hp.good hsort hI] at hgt
      exact hgt
    · rw [if_neg hm] at hgt
      exact absurd hgt (by simp)
  · rw [if_neg hgt, Option.none_or] at hne
    exact hc bn hbn hne

theorem Remains.covered {p : Params} (hp : ParamsOK p) {sort : List Bytes → List Bytes} (hsort : SortOK p sort)
    {L : List Bytes} {old : OvfPath → Option Bytes} (h : Remains p sort L old) : Covered p L old := by
  induction h with
  | fresh => intro bn _ h; exact absurd rfl h
  | run ix h hL hI ht hix hr ih =>
    obtain ⟨_, order, h1, h2, h3⟩ := index_saves' hp ht hsort hI.storable hix hr
    rw [h3]
    exact covered_saves hp hsort hI (ih.mono hL) h1 (fun bn hbn => (h2 bn).mp hbn)
  | stopped ix h hL hI ht hix hr ih =>
    obtain ⟨order, h1, h2, h3⟩ := stopped_saves hp ht hsort hI.storable hix hr
    rw [h3]
    exact covered_saves hp hsort hI (ih.mono hL) h1 h2

/-! ## C91 -/

/-- The store opened after a run over old files. -/
theorem index_opens {p : Params} (hp : ParamsOK p) {threads : Nat} (ht : 0 < threads) {sort : List Bytes → List Bytes}
    (hsort : SortOK p sort) {L : List Bytes} (hA : Storable p L) {old : OvfPath → Option Bytes} {d : Disk} {ix : Indexer}
    (hix : ix.OK) (hr : Index p sort threads L old d ix) :
    ∃ w, openStore p (WordFile.close d.nums) d.files false = some { binNums := w, files := d.files, ram := none } ∧
      WordFile.Inv w (L.map fun h => (binNum p h : Int)) := by
  obtain ⟨hn, _⟩ := index_saves' hp ht hsort hA hix hr
  obtain ⟨w, ho, i1⟩ := nums_reopen hp.good hA
  refine ⟨w, ?_, i1⟩
  unfold openStore
  rw [hn, ho]; rfl

/-- **C91 (exact).** A run over old overflow files leaves every bin as a run in an empty folder leaves it, except
that a bin with exactly as many different hashes as its fixed room holds gets the bytes of its old overflow file
appended. -/
theorem reindex_bins {p : Params} (hp : ParamsOK p) {threads : Nat} (ht : 0 < threads) {sort : List Bytes → List Bytes}
    (hsort : SortOK p sort) {L : List Bytes} (hI : Indexable p L) {old : OvfPath → Option Bytes} {d d' : Disk} {ix ix' : Indexer}
    (hix : ix.OK) (hr : Index p sort threads L old d ix) {threads' : Nat} (ht' : 0 < threads') (hix' : ix'.OK)
    (hr' : Index p sort threads' L (fun _ => none) d' ix') (bn : Nat) (hbn : bn < p.numberOfBins) :
    ∃ b, loadBin p d'.files bn = some b ∧
      loadBin p d.files bn = some (b ++ if distinct p L bn = p.entriesInBinStart then (old (ovfPath p bn)).getD [] else []) := by
  have h1 := index_bins hp ht hsort hI.storable hix hr bn hbn
  have h2 := index_bins hp ht' hsort hI.storable hix' hr' bn hbn
  rw [final_length hp.good hsort hI] at h1 h2
  refine ⟨(finalEntries p sort L bn).flatten, ?_, h1⟩
  rw [h2]
  simp

/-- **C91, partial.** However often a folder was indexed before with the same parameters, by either indexer, run to
the end or stopped anywhere, with a hash file that has only grown since: a completed run leaves a store that
answers for the hash file as it is now.

Missing: a hash file with fewer hashes than before (`reindex_shrunk_file`). -/
theorem reindex_grown_partial {fl : Rat → Rat} (hfl : FloatOK fl) {p : Params} (hp : ParamsOK p) {threads : Nat}
    (ht : 0 < threads) {sort : List Bytes → List Bytes} (hsort : SortOK p sort) {L0 L : List Bytes}
    {old : OvfPath → Option Bytes} (hrem : Remains p sort L0 old) (hL : L0 <+: L) (hI : Indexable p L) {d : Disk}
    {ix : Indexer} (hix : ix.OK) (hr : Index p sort threads L old d ix) :
    ∃ s, openStore p (WordFile.close d.nums) d.files false = some s ∧ Answers fl p s L := by
  obtain ⟨w, ho, hw⟩ := index_opens hp ht hsort hI.storable hix hr
  have hc := (hrem.covered hp hsort).mono hL
  refine ⟨_, ho, ?_⟩
  refine IsBulk.index hfl hp hsort hI ⟨rfl, hw, ?_, ?_⟩
  · intro bn hbn
    have := index_bins hp ht hsort hI.storable hix hr bn hbn
    rw [final_length hp.good hsort hI] at this
    rw [this]
    by_cases he : distinct p L bn = p.entriesInBinStart
    · have : old (ovfPath p bn) = none := by
        by_contra hne
        have := hc bn hbn hne
        omega
      rw [this]
      simp
    · rw [if_neg he, List.append_nil]
  · obtain ⟨_, order, _, _, h3⟩ := index_saves' hp ht hsort hI.storable hix hr
    show _ ≤ d.files.binStarts.length
    rw [h3, ((over_start p old).saveAll (p := p) _).starts]
    exact saved_room p _

/-- Two hashes of one bin in the order of their sort numbers: what is kept for the bin. -/
theorem final_pair {p : Params} (hg : Good p) {sort : List Bytes → List Bytes} (hsort : SortOK p sort) {a b : Bytes}
    (hI : Indexable p [a, b]) (hbin : binNum p a = binNum p b) (hlt : sortNum p a < sortNum p b) :
    ∃ x y, finalEntries p sort [a, b] (binNum p b) = [x, y] ∧ finalEntries p sort [a] (binNum p b) = [x] := by
  obtain ⟨x, x1, x2, x3⟩ := encode_at hg hI.storable (x := (a, 0)) rfl
  obtain ⟨y, y1, y2, y3⟩ := encode_at hg hI.storable (x := (b, 1)) rfl
  refine ⟨x, y, ?_, ?_⟩
  · have hes : binEntries p [a, b] (binNum p b) = [x, y] := by
      simp only [binEntries, List.zipIdx_cons, List.zipIdx_nil, List.filter_cons, hbin, decide_true, if_true, List.filter_nil,
        List.map_cons, List.map_nil, Nat.zero_add]
      dsimp only at x1 y1
      rw [x1, y1]
      rfl
    obtain ⟨s1, s2⟩ := hsort (binEntries p [a, b] (binNum p b))
    have ex : entSort p x = sortNum p a := congrArg Item.sort x3
    have ey : entSort p y = sortNum p b := congrArg Item.sort y3
    rw [hes] at s1 s2
    have hst : sort [x, y] = [x, y] := by
      refine s1.eq_of_pairwise (le := fun a b => entLess p b a = false) ?_ s2 ?_
      · intro u v hu hv h1 h2
        replace hu := s1.mem_iff.mp hu
        simp only [List.mem_cons, List.not_mem_nil, or_false] at hu hv
        rcases hu with rfl | rfl <;> rcases hv with rfl | rfl
        · rfl
        · unfold entLess at h2; rw [if_pos (by omega)] at h2; simp at h2
        · unfold entLess at h1; rw [if_pos (by omega)] at h1; simp at h1
        · rfl
      · simp only [List.pairwise_cons, List.mem_cons, List.not_mem_nil, or_false, forall_eq]
        refine ⟨?_, by simp, List.Pairwise.nil⟩
        unfold entLess
        rw [if_neg (by omega), if_pos (by omega)]
    have htr : entTrunc y ≠ entTrunc x := by
      intro h
      have ex' : entTrunc x = truncOf a := congrArg Item.trunc x3
      have ey' : entTrunc y = truncOf b := congrArg Item.trunc y3
      have := hI.trunc a (by simp) b (by simp) hbin (by rw [← ex', ← ey', h])
      rw [this] at hlt
      omega
    unfold finalEntries
    rw [hes, hst]
    simp [keep, htr]
  · have hes : binEntries p [a] (binNum p b) = [x] := by
      simp only [binEntries, List.zipIdx_cons, List.zipIdx_nil, List.filter_cons, hbin, decide_true, if_true, List.filter_nil,
        List.map_cons, List.map_nil, Nat.zero_add]
      dsimp only at x1
      rw [x1]
      rfl
    unfold finalEntries
    rw [hes, List.perm_singleton.mp (hsort [x]).1]
    rfl

theorem Indexable.head {p : Params} {a b : Bytes} (h : Indexable p [a, b]) : Indexable p [a] := by
  refine ⟨⟨fun x hx => h.app.len32 x (by simp at hx; simp [hx]), ?_, ?_, ?_, ?_⟩, ?_⟩
  · have := h.app.count
    simp at this ⊢
    omega
  · simp
  · intro x hx
    exact h.app.first x (by simpa using hx)
  · intro x hx y hy
    exact h.app.noClash x (by simp at hx; simp [hx]) y (by simp at hy; simp [hy])
  · intro x hx y hy
    exact h.trunc x (by simp at hx; simp [hx]) y (by simp at hy; simp [hy])

/-- **C91 is violated for a hash file with fewer hashes than before.** With room for one entry per bin, let a file of
two hashes of one bin be indexed, then the file cut down to the first of them and indexed again, with any indexers,
threads and schedules. The store counts one hash but still finds the other one, at an index past the end. -/
theorem reindex_shrunk_file {fl : Rat → Rat} (hfl : FloatOK fl) {p : Params} (hp : ParamsOK p)
    (hroom : p.entriesInBinStart = 1) {sort : List Bytes → List Bytes} (hsort : SortOK p sort) {a b : Bytes}
    (hI : Indexable p [a, b]) (hbin : binNum p a = binNum p b) (hlt : sortNum p a < sortNum p b)
    {t0 t1 : Nat} (ht0 : 0 < t0) (ht1 : 0 < t1) {ix0 ix1 : Indexer} (hix0 : ix0.OK) (hix1 : ix1.OK) {d0 d1 : Disk}
    (h0 : Index p sort t0 [a, b] (fun _ => none) d0 ix0) (h1 : Index p sort t1 [a] d0.files.overflow d1 ix1) :
    ∃ s, openStore p (WordFile.close d1.nums) d1.files false = some s ∧ countHashes s = 1 ∧
      indexOfHash fl p s b = some (.at 1) ∧ b ∉ [a] := by
  have hg := hp.good
  have lb := hI.app.len32 b (by simp)
  have hbn := hg.range b lb
  have hne : a ≠ b := by rintro rfl; omega
  have hI1 := Indexable.head hI
  obtain ⟨x, y, e2, e1⟩ := final_pair hg hsort hI hbin hlt
  obtain ⟨s0, o0, q0, a0⟩ := reindex_grown_partial hfl hp ht0 hsort (Remains.fresh (p := p) (sort := sort))
    (List.nil_prefix) hI hix0 h0
  obtain ⟨w0, o0', _⟩ := index_opens hp ht0 hsort hI.storable hix0 h0
  rw [o0', Option.some.injEq] at o0
  subst o0
  obtain ⟨w1, o1, i1⟩ := index_opens hp ht1 hsort hI1.storable hix1 h1
  refine ⟨_, o1, ?_, ?_, by simpa using hne.symm⟩
  · have := i1.count
    exact this
  · have hov : d0.files.overflow (ovfPath p (binNum p b)) = some y := by
      obtain ⟨_, order, g1, g2, g3⟩ := index_saves' hp ht0 hsort hI.storable hix0 h0
      have hst := stored_once hg hsort hI.storable order g1 (fun b hb => (g2 b).mp hb) _ hbn
      rw [if_pos ((g2 _).mpr hbn), e2] at hst
      have := ((over_start p fun _ => none).saveAll (p := p) (order.map fun bn => (bn, finalEntries p sort [a, b] bn))).ovf
        (ovfPath p (binNum p b))
      rw [g3, this, hst.ovf, hroom]
      simp
    have hl0 := index_bins hp ht0 hsort hI.storable hix0 h0 _ hbn
    have hl1 := index_bins hp ht1 hsort hI1.storable hix1 h1 _ hbn
    rw [e2] at hl0
    rw [e1, hov] at hl1
    have hsame : loadBin p d1.files (binNum p b) = loadBin p d0.files (binNum p b) := by
      rw [hl0, hl1, hroom]
      simp
    obtain ⟨r, r1, r2⟩ := a0 b lb
    have : indexOfHash fl p { binNums := w1, files := d1.files, ram := none } b = some r := by
      rw [← r1]
      unfold indexOfHash binFor
      dsimp only
      rw [hsame]
    rw [this]
    rcases r2 with ⟨i, rfl, hf⟩ | ⟨_, hn⟩
    · match i, hf with
      | 0, hf => exact absurd (by simpa using hf.1) hne
      | 1, _ => rfl
      | (i+2), hf => exact absurd hf.1 (by simp)
    · exact absurd (by simp) hn

/-- Runs over old files complete (multi-pass, memory grant not too small). -/
theorem reindex_completes {p : Params} (hp : ParamsOK p) {estimate bytesPerPass threads : Nat} (ht : 0 < threads)
    {sort : List Bytes → List Bytes} {L : List Bytes} (hA : Storable p L) (old : OvfPath → Option Bytes)
    (hgrant : binsPerPass p estimate bytesPerPass ≠ 0) :
    ∃ d, Index p sort threads L old d (.multi estimate bytesPerPass) := by
  have hg := hp.good
  have hpass : ∀ first n d, ∃ d', Pass p threads sort L first n d d' := by
    intro first n d
    obtain ⟨k, s, h1, h2⟩ := fan_completes ht (readLoop_ok hg hA first (first + n)) _ (FanRun.refl _)
      (Nat.le_of_eq (Nat.zero_add _).symm)
    obtain ⟨m, t, h3, h4⟩ := pool_completes ht (sort := sort) (p := p) (first := first) (last := first + n)
      (bins0 := s.bins) _ (PoolRun.refl _) (Nat.le_of_eq (Nat.zero_add _).symm)
    exact ⟨_, k, s, m, t, h1, h2, h3, h4, rfl⟩
  have hpasses : ∀ xs d, ∃ d', Passes p threads sort L xs d d' := by
    intro xs
    induction xs with
    | nil => intro d; exact ⟨d, Passes.nil d⟩
    | cons x xs ih =>
      intro d
      obtain ⟨e, he⟩ := hpass x.1 x.2 d
      obtain ⟨g, hg⟩ := ih e
      exact ⟨g, Passes.cons he hg⟩
  have hpl : ∃ xs, plan p estimate bytesPerPass = some xs := by
    unfold plan
    dsimp only
    rw [if_neg hgrant]
    exact ⟨_, rfl⟩
  obtain ⟨xs, hxs⟩ := hpl
  obtain ⟨d, hd⟩ := hpasses xs (startOver p old)
  exact ⟨d, xs, hxs, hd⟩

/-! ## C92 -/

/-- The bytes are a whole number of hashes, namely `L`. -/
def Whole (f : Bytes) (L : List Bytes) : Prop := f = L.flatten ∧ ∀ h ∈ L, h.length = 32

theorem readFullLoop_whole (L : List Bytes) (h : ∀ x ∈ L, x.length = 32) : readFullLoop L.flatten = some L := by
  induction L with
  | nil => unfold readFullLoop; simp
  | cons x L ih =>
    have hx := h x (by simp)
    have hne : (x :: L).flatten ≠ [] := by
      intro h0
      have := congrArg List.length h0
      rw [List.flatten_cons, List.length_append, hx] at this
      simp at this
    unfold readFullLoop
    rw [if_neg hne, dif_neg (by rw [List.flatten_cons, List.length_append, hx]; omega), List.flatten_cons,
      List.drop_left' hx, List.take_left' hx, ih (fun y hy => h y (by simp [hy]))]
    rfl

theorem readFullLoop_sound (n : Nat) (f : Bytes) (hn : f.length ≤ n) {L : List Bytes} (h : readFullLoop f = some L) :
    Whole f L := by
  induction n generalizing f L with
  | zero =>
    have : f = [] := List.length_eq_zero_iff.mp (by omega)
    subst this
    unfold readFullLoop at h
    simp at h
    subst h
    exact ⟨rfl, by simp⟩
  | succ n ih =>
    unfold readFullLoop at h
    split at h
    · rename_i h0
      subst h0
      simp at h
      subst h
      exact ⟨rfl, by simp⟩
    · split at h
      · simp at h
      · rw [Option.map_eq_some_iff] at h
        obtain ⟨L', h1, rfl⟩ := h
        obtain ⟨i1, i2⟩ := ih (f.drop 32) (by rw [List.length_drop]; omega) h1
        refine ⟨?_, ?_⟩
        · rw [List.flatten_cons, ← i1, List.take_append_drop]
        · intro x hx
          rw [List.mem_cons] at hx
          rcases hx with rfl | hx
          · rw [List.length_take]; omega
          · exact i2 x hx

theorem whole_iff (f : Bytes) : (∃ L, Whole f L) ↔ f.length % 32 = 0 := by
  constructor
  · rintro ⟨L, rfl, h⟩
    rw [flatten_length h]
    omega
  · intro h
    obtain ⟨n, hn⟩ : ∃ n, f.length = 32 * n := ⟨f.length / 32, by omega⟩
    clear h
    induction n generalizing f with
    | zero => exact ⟨[], List.length_eq_zero_iff.mp (by omega), by simp⟩
    | succ n ih =>
      obtain ⟨L, h1, h2⟩ := ih (f.drop 32) (by rw [List.length_drop]; omega)
      refine ⟨f.take 32 :: L, ?_, ?_⟩
      · rw [List.flatten_cons, ← h1, List.take_append_drop]
      · intro x hx
        rw [List.mem_cons] at hx
        rcases hx with rfl | hx
        · rw [List.length_take]; omega
        · exact h2 x hx

theorem readFullLoop_torn {f : Bytes} (h : f.length % 32 ≠ 0) : readFullLoop f = none := by
  cases hr : readFullLoop f with
  | none => rfl
  | some L => exact absurd ((whole_iff f).mp ⟨L, readFullLoop_sound _ f (Nat.le_refl _) hr⟩) h

theorem countFile_whole (p : Params) (L : List Bytes) (h : ∀ x ∈ L, x.length = 32) (r : List Adaptive3.Info) :
    countFile p r L.flatten = match Adaptive3.countLoop p r L with | some r => .ok r | none => .panic := by
  induction L generalizing r with
  | nil => unfold countFile Adaptive3.countLoop; simp
  | cons x L ih =>
    have hx := h x (by simp)
    have hne : (x :: L).flatten ≠ [] := by
      intro h0
      have := congrArg List.length h0
      rw [List.flatten_cons, List.length_append, hx] at this
      simp at this
    unfold countFile Adaptive3.countLoop
    rw [if_neg hne, dif_neg (by rw [List.flatten_cons, List.length_append, hx]; omega), List.flatten_cons,
      List.drop_left' hx, List.take_left' hx]
    split
    · exact ih (fun y hy => h y (by simp [hy])) _
    · rfl

theorem countFile_torn {p : Params} (hg : Good p) (n : Nat) (f : Bytes) (hn : f.length ≤ n) (hf : f.length % 32 ≠ 0)
    (r : List Adaptive3.Info) (hr : r.length = p.numberOfBins) : countFile p r f = .err := by
  induction n generalizing f r with
  | zero => exact absurd (by omega) hf
  | succ n ih =>
    unfold countFile
    rw [if_neg (by rintro rfl; simp at hf)]
    split
    · rfl
    · rename_i h32
      rw [if_pos (by rw [hr]; exact hg.range _ (by rw [List.length_take]; omega))]
      exact ih (f.drop 32) (by rw [List.length_drop]; omega) (by rw [List.length_drop]; omega) _ (by simpa using hr)

/-- **C92 (multi-pass).** If the multi-pass indexer reports success, the hash file is there and is a whole number of
hashes, and the store answers for them; if the file is missing or ends inside a hash, it reports an error. -/
theorem multi_success_means_indexed {fl : Rat → Rat} (hfl : FloatOK fl) {p : Params} (hp : ParamsOK p)
    {estimate bytesPerPass threads : Nat} (ht : 0 < threads) {sort : List Bytes → List Bytes} (hsort : SortOK p sort)
    {file : Option Bytes} {res : Option Disk} (hr : MultiFile p estimate bytesPerPass threads sort file res) :
    (∀ d, res = some d → ∃ f L, file = some f ∧ Whole f L ∧ (Indexable p L →
      ∃ s, openStore p (WordFile.close d.nums) d.files false = some s ∧ Answers fl p s L)) ∧
    (res = none ↔ ∀ f, file = some f → f.length % 32 ≠ 0) := by
  obtain ⟨xs, hpl, hr⟩ := hr
  have hxs : xs ≠ [] := by
    obtain ⟨_, n, ys, h, _⟩ := plan_covers hpl
    rw [h]; simp
  rcases hr with ⟨h, _⟩ | ⟨_, hr⟩
  · exact absurd h hxs
  · cases file with
    | none =>
      dsimp only at hr
      subst hr
      exact ⟨by simp, by simp⟩
    | some f =>
      dsimp only at hr
      cases hf : readFullLoop f with
      | none =>
        rw [hf] at hr
        dsimp only at hr
        subst hr
        refine ⟨by simp, ?_, fun _ => rfl⟩
        rintro _ g hg h0
        cases hg
        obtain ⟨L, rfl, hL⟩ := (whole_iff f).mpr h0
        rw [readFullLoop_whole L hL] at hf
        simp at hf
      | some L =>
        rw [hf] at hr
        dsimp only at hr
        obtain ⟨d, rfl, hps⟩ := hr
        have hw := readFullLoop_sound _ f (Nat.le_refl _) hf
        refine ⟨?_, by simp, ?_⟩
        · intro d' hd'
          cases hd'
          refine ⟨f, L, rfl, hw, fun hI => ?_⟩
          exact bulk_first_occurrence_partial hfl hp ht hsort hI ⟨xs, hpl, hps⟩
        · intro h
          exact absurd ((whole_iff f).mp ⟨L, hw⟩) (h f rfl)

theorem design_nil (p : Params) (gb : Nat) {sd : List Adaptive3.Info → List Adaptive3.Info} (hsd : Adaptive3.SortDescOK sd) :
    Adaptive3.design p gb sd [] = some [] := by
  unfold Adaptive3.design Adaptive3.designLoop
  simp

theorem stageOneFile_damaged {p : Params} (hg : Good p) {file : Option Bytes} (h : ∀ f, file = some f → f.length % 32 ≠ 0) :
    stageOneFile p file = .err := by
  cases file with
  | none => rfl
  | some f => exact countFile_torn hg _ f (Nat.le_refl _) (h f rfl) _ (by simp)

/-- **C92, partial (adaptive).** If the hash file is a whole number of hashes and the adaptive indexer reports success,
the store answers for them.

Missing: the adaptive indexer reports success for damaged files too (`adaptive_hides_damaged_file`). -/
theorem adaptive_success_whole_file_partial {fl : Rat → Rat} (hfl : FloatOK fl) {p : Params} (hp : ParamsOK p)
    {gb threads : Nat} (ht : 0 < threads) {sd : List Adaptive3.Info → List Adaptive3.Info} (hsd : Adaptive3.SortDescOK sd)
    {sort : List Bytes → List Bytes} (hsort : SortOK p sort) {f : Bytes} {L : List Bytes} (hf : Whole f L)
    (hI : Indexable p L) {d : Disk} (hr : AdaptiveFile p gb threads sd sort (some f) d) :
    ∃ s, openStore p (WordFile.close d.nums) d.files false = some s ∧ Answers fl p s L := by
  obtain ⟨rfl, hL⟩ := hf
  obtain ⟨infos, passes, h1, h2, h3⟩ := hr
  obtain ⟨infos', passes', a1, a2, a3, a4⟩ := Adaptive3.adaptive_passes hp hI.storable gb hsd
  have hs1 : stageOneFile p (some L.flatten) = .ok infos' := by
    unfold stageOneFile
    dsimp only
    rw [countFile_whole p L hL]
    unfold Adaptive3.stageOne at a1
    rw [a1]
  have he : infos = infos' := by
    rcases h1 with h1 | ⟨h1, _⟩
    · rw [hs1] at h1
      cases h1
      rfl
    · rw [hs1] at h1
      cases h1
  subst he
  rw [h2, Option.some.injEq] at a2
  subst a2
  have hne : passes ≠ [] := by
    rintro rfl
    have := a3.length_eq
    simp at this
    have hb := hp.good.range (zeros 32) (by simp)
    omega
  rcases h3 with ⟨h3, _⟩ | ⟨L', h3, _, h4⟩
  · exact absurd h3 hne
  · unfold passReads at h3
    dsimp only at h3
    rw [readFullLoop_whole L hL, Option.some.injEq] at h3
    subst h3
    exact Adaptive3.adaptive_first_occurrence_partial hfl hp ht hsd hsort hI ⟨infos, passes, a1, h2, h4⟩

/-- **C92 is violated by the adaptive indexer.** If the hash file is missing, or ends inside a hash (however many whole
hashes come before), the adaptive indexer has a run, every run reports success, and the store it leaves opens without
error, has no hashes and reports every hash as absent. -/
theorem adaptive_hides_damaged_file {fl : Rat → Rat} (hfl : FloatOK fl) {p : Params} (hp : ParamsOK p) {gb threads : Nat}
    {sd : List Adaptive3.Info → List Adaptive3.Info} (hsd : Adaptive3.SortDescOK sd)
    {sort : List Bytes → List Bytes} (hsort : SortOK p sort) {file : Option Bytes}
    (hf : ∀ f, file = some f → f.length % 32 ≠ 0) :
    (∃ d, AdaptiveFile p gb threads sd sort file d) ∧
    ∀ d, AdaptiveFile p gb threads sd sort file d →
      ∃ s, openStore p (WordFile.close d.nums) d.files false = some s ∧ countHashes s = 0 ∧
        ∀ h : Bytes, h.length = 32 → indexOfHash fl p s h = some .absent := by
  have h1 := stageOneFile_damaged hp.good hf
  have hd := design_nil p gb hsd
  refine ⟨⟨diskStart p, [], [], Or.inr ⟨h1, rfl⟩, hd, Or.inl ⟨rfl, rfl⟩⟩, ?_⟩
  rintro d ⟨infos, passes, g1, g2, g3⟩
  have : infos = [] := by
    rcases g1 with g1 | ⟨_, g1⟩
    · rw [h1] at g1
      cases g1
    · exact g1
  subst this
  rw [hd, Option.some.injEq] at g2
  subst g2
  rcases g3 with ⟨_, rfl⟩ | ⟨_, _, g3, _⟩
  · have hI : Indexable p [] := ⟨⟨by simp, by simp, by simp, by simp, by simp⟩, by simp⟩
    obtain ⟨w, ho, i1⟩ := nums_reopen hp.good hI.storable
    have hb : IsBulk p sort [] { binNums := w, files := freshFiles p, ram := none } := by
      refine ⟨rfl, i1, ?_, ?_⟩
      · intro bn hbn
        have hfin : finalEntries p sort [] bn = [] := by
          unfold finalEntries binEntries
          simp only [List.zipIdx_nil, List.filter_nil, List.map_nil]
          have := (hsort []).1.eq_nil
          rw [this]
        rw [hfin]
        exact load_stored (stored_fresh hbn) (by intro e he; simp at he) (by intro e he; simp at he)
      · show _ ≤ (zeros _).length
        rw [zeros_length, Nat.mul_assoc, Nat.mul_comm p.entrySize]
    refine ⟨{ binNums := w, files := freshFiles p, ram := none }, ?_, ?_, ?_⟩
    · unfold openStore
      have : openWordFile p.bytesRoomForBinNum (WordFile.close (diskStart p).nums) = some w := ho
      rw [this]
      rfl
    · exact (IsBulk.index hfl hp hsort hI hb).1
    · intro h hl
      obtain ⟨r, r1, r2⟩ := (IsBulk.index hfl hp hsort hI hb).2 h hl
      rcases r2 with ⟨i, _, h7⟩ | ⟨rfl, _⟩
      · exact absurd h7.1 (by simp)
      · exact r1
  · exact absurd rfl g3

/-! ## Examples -/

/-- A sorting function for the entries of any parameter set. -/
def mergeFor (p : Params) (l : List Bytes) : List Bytes := l.mergeSort fun a b => !entLess p b a

theorem mergeFor_ok (p : Params) : SortOK p (mergeFor p) := by
  intro l
  refine ⟨List.mergeSort_perm _ _, ?_⟩
  have := List.pairwise_mergeSort (le := fun a b => !entLess p b a) (by
    intro a b c h1 h2
    simp only [entLess, Bool.not_eq_eq_eq_not, Bool.not_true] at h1 h2 ⊢
    split at h1
    · simp at h1
    · split at h2
      · simp at h2
      · rw [if_neg (by omega)]
        split
        · rfl
        · rw [if_neg (by omega)] at h1 h2
          simp at h1 h2 ⊢
          omega) (by
    intro a b
    simp only [entLess, Bool.or_eq_true, Bool.not_eq_eq_eq_not, Bool.not_true]
    by_cases h1 : entSort p b < entSort p a
    · right; rw [if_neg (by omega), if_pos (by omega)]
    · by_cases h2 : entSort p a < entSort p b
      · left; rw [if_neg (by omega), if_pos (by omega)]
      · rw [if_neg (by omega), if_neg (by omega), if_neg (by omega), if_neg (by omega)]
        simp
        omega) l
  refine this.imp ?_
  intro a b h
  simpa using h

/-- Room for one entry per bin. -/
def oneParams : Params := { demoParams with entriesInBinStart := 1 }

theorem one_paramsOK : ParamsOK oneParams :=
  ⟨⟨19, 2, 65536, 1, 6, 16, rfl, by decide, by decide, by decide⟩, by decide, by decide⟩

theorem pair_indexable : Indexable oneParams [7 :: zeros 31, 9 :: List.replicate 31 0 |>.set 31 1] := by
  refine ⟨⟨by decide +kernel, by decide, by decide, ?_, by decide +kernel⟩, by decide +kernel⟩
  intro h hh
  simp only [List.getElem?_cons_zero, Option.some.injEq] at hh
  subst hh
  decide +kernel

/-- Two hashes indexed, then only the first: the second is still found at index 1. -/
example : ∃ d0 d1, Index oneParams (mergeFor oneParams) 3 [7 :: zeros 31, 9 :: List.replicate 31 0 |>.set 31 1] (fun _ => none) d0
      (.multi 100 (1000 * 1000)) ∧
    Index oneParams (mergeFor oneParams) 2 [7 :: zeros 31] d0.files.overflow d1 (.multi 100 (1000 * 1000)) ∧
    ∃ s, openStore oneParams (WordFile.close d1.nums) d1.files false = some s ∧ countHashes s = 1 ∧
      indexOfHash fl53 oneParams s (9 :: List.replicate 31 0 |>.set 31 1) = some (.at 1) := by
  obtain ⟨d0, h0⟩ := reindex_completes one_paramsOK (estimate := 100) (bytesPerPass := 1000 * 1000) (threads := 3)
    (by decide) (sort := mergeFor oneParams) pair_indexable.storable (fun _ => none) (by decide +kernel)
  obtain ⟨d1, h1⟩ := reindex_completes one_paramsOK (estimate := 100) (bytesPerPass := 1000 * 1000) (threads := 2)
    (by decide) (sort := mergeFor oneParams) (Indexable.head pair_indexable).storable d0.files.overflow (by decide +kernel)
  obtain ⟨s, s1, s2, s3, _⟩ := reindex_shrunk_file floatOK_fl53 one_paramsOK rfl (mergeFor_ok _) pair_indexable
    (by decide +kernel) (by decide +kernel) (by decide) (by decide) (show Indexer.OK (.multi 100 (1000 * 1000)) from trivial)
    (show Indexer.OK (.multi 100 (1000 * 1000)) from trivial) h0 h1
  exact ⟨d0, d1, h0, h1, s, s1, s2, s3⟩

/-- One hash indexed, then two of the same bin: the store answers for both. -/
example : ∃ d0 d1, Index oneParams (mergeFor oneParams) 3 [7 :: zeros 31] (fun _ => none) d0 (.multi 100 (1000 * 1000)) ∧
    Index oneParams (mergeFor oneParams) 2 [7 :: zeros 31, 9 :: List.replicate 31 0 |>.set 31 1] d0.files.overflow d1
      (.multi 100 (1000 * 1000)) ∧
    ∃ s, openStore oneParams (WordFile.close d1.nums) d1.files false = some s ∧
      Answers fl53 oneParams s [7 :: zeros 31, 9 :: List.replicate 31 0 |>.set 31 1] := by
  obtain ⟨d0, h0⟩ := reindex_completes one_paramsOK (estimate := 100) (bytesPerPass := 1000 * 1000) (threads := 3)
    (by decide) (sort := mergeFor oneParams) (Indexable.head pair_indexable).storable (fun _ => none) (by decide +kernel)
  obtain ⟨d1, h1⟩ := reindex_completes one_paramsOK (estimate := 100) (bytesPerPass := 1000 * 1000) (threads := 2)
    (by decide) (sort := mergeFor oneParams) pair_indexable.storable d0.files.overflow (by decide +kernel)
  refine ⟨d0, d1, h0, h1, ?_⟩
  exact reindex_grown_partial floatOK_fl53 one_paramsOK (by decide) (mergeFor_ok _)
    (Remains.run (ix := .multi 100 (1000 * 1000)) (Remains.fresh) List.nil_prefix (Indexable.head pair_indexable)
      (by decide) trivial h0) ⟨[9 :: List.replicate 31 0 |>.set 31 1], rfl⟩ pair_indexable
    (show Indexer.OK (.multi 100 (1000 * 1000)) from trivial) h1

/-- The bin of the first example: one hash fills the room exactly. -/
example : distinct oneParams [7 :: zeros 31] 0 = oneParams.entriesInBinStart := by decide +kernel

/-- A file of 31 bytes, or none at all. -/
example : (∃ d, AdaptiveFile demoParams 1 2 Adaptive3.demoSortDesc demoSort (some (zeros 31)) d) ∧
    ∃ d, AdaptiveFile demoParams 1 2 Adaptive3.demoSortDesc demoSort none d :=
  ⟨(adaptive_hides_damaged_file floatOK_fl53 demo_paramsOK Adaptive3.demoSortDesc_ok demoSort_ok
      (by intro f hf; cases hf; decide)).1,
    (adaptive_hides_damaged_file floatOK_fl53 demo_paramsOK Adaptive3.demoSortDesc_ok demoSort_ok (by simp)).1⟩

/-- The multi-pass indexer on the same files reports an error. -/
example (res : Option Disk) (h : MultiFile demoParams 100 (1000 * 1000) 3 demoSort (some (zeros 31)) res) : res = none :=
  ((multi_success_means_indexed floatOK_fl53 demo_paramsOK (by decide) demoSort_ok h).2).mpr (by intro f hf; cases hf; decide)

/-- A whole file has runs of both indexers. -/
example : (∃ d, AdaptiveFile demoParams 1 2 Adaptive3.demoSortDesc demoSort (some demoFile.flatten) d) ∧
    ∃ d, MultiFile demoParams 100 (1000 * 1000) 3 demoSort (some demoFile.flatten) (some d) := by
  have hL : ∀ h ∈ demoFile, h.length = 32 := demoFile_indexable.app.len32
  constructor
  · obtain ⟨d, infos, passes, h1, h2, h3⟩ := Adaptive3.demo_run
    refine ⟨d, infos, passes, Or.inl ?_, h2, ?_⟩
    · unfold stageOneFile
      dsimp only
      rw [countFile_whole _ _ hL]
      unfold Adaptive3.stageOne at h1
      rw [h1]
    · by_cases hp : passes = []
      · left
        subst hp
        cases h3
        exact ⟨rfl, rfl⟩
      · right
        exact ⟨demoFile, readFullLoop_whole _ hL, hp, h3⟩
  · obtain ⟨d, xs, h1, h2⟩ := bulk_completes demo_paramsOK (estimate := 100) (bytesPerPass := 1000 * 1000) (threads := 3)
      (by decide) (sort := demoSort) demoFile_indexable.storable (by decide +kernel)
    refine ⟨d, xs, h1, Or.inr ⟨?_, ?_⟩⟩
    · obtain ⟨_, n, ys, h, _⟩ := plan_covers h1
      rw [h]; simp
    · dsimp only
      rw [readFullLoop_whole _ hL]
      exact ⟨d, rfl, h2⟩

end Verif.Reindex3
