import Verif.Lemmas.Bulk3
import Mathlib.Data.List.Sort
import Mathlib.Data.List.Nodup

/-! # Bulk indexing (C25) -/

namespace Verif.Bulk3

open Bins WordFile HashStores HashStore3

/-! ## Specification -/

/-- `i` is the first position of `h` in the list. -/
def FirstAt (L : List Bytes) (i : Nat) (h : Bytes) : Prop := L[i]? = some h ∧ ∀ j, j < i → L[j]? ≠ some h

/-- Hashes the bulk indexer can store: 32 bytes, not too many, the first one not encoded as an all-zero entry. -/
structure Storable (p : Params) (L : List Bytes) : Prop where
  len32 : ∀ h ∈ L, h.length = 32
  count : L.length ≤ 256 ^ p.bytesPerHashIndex
  count48 : L.length ≤ 2 ^ 48
  first : ∀ h, L[0]? = some h → ¬ (truncOf h = zeros 24 ∧ sortNum p h = 0)

/-- Hashes the bulk indexer can cope with: as for appending, and no two different hashes of one bin agree in
their last 24 bytes. -/
structure Indexable (p : Params) (L : List Bytes) : Prop where
  app : Appendable p L
  trunc : ∀ a ∈ L, ∀ b ∈ L, binNum p a = binNum p b → truncOf a = truncOf b → a = b

theorem Indexable.storable {p : Params} {L : List Bytes} (h : Indexable p L) : Storable p L :=
  ⟨h.app.len32, h.app.count, h.app.count48, h.app.first⟩

/-! ## Entries of a bin -/

/-- The entries sent to a bin, in file order. -/
def binEntries (p : Params) (L : List Bytes) (bn : Nat) : List Bytes :=
  (L.zipIdx.filter fun x => binNum p x.1 = bn).map fun x => (encEntry p (truncOf x.1) x.2 (sortNum p x.1)).getD []

/-- The entries after sorting and deduplication. -/
def finalEntries (p : Params) (sort : List Bytes → List Bytes) (L : List Bytes) (bn : Nat) : List Bytes :=
  match sort (binEntries p L bn) with
  | [] => []
  | x :: xs => x :: keep (entTrunc x) xs

theorem encode_at {p : Params} (hg : Good p) {L : List Bytes} (hA : Storable p L) {x : Bytes × Nat}
    (hx : L[x.2]? = some x.1) :
    ∃ en, encEntry p (truncOf x.1) x.2 (sortNum p x.1) = some en ∧ en.length = p.entrySize ∧ itemOf p en = itemAt p x := by
  refine Item.encode (x := itemAt p x) hg.widths ⟨?_, ?_, hg.sort _⟩
  · exact truncOf_length (hA.len32 _ (List.mem_of_getElem? hx))
  · have := lt_of_getElem?_some hx
    have := hA.count
    show x.2 < _
    omega

theorem binEntries_spec {p : Params} (hg : Good p) {L : List Bytes} (hA : Storable p L) (bn : Nat) :
    Sized p (binEntries p L bn) ∧ (binEntries p L bn).map (itemOf p) = itemsFor p L bn := by
  constructor
  · intro e he
    unfold binEntries at he
    rw [List.mem_map] at he
    obtain ⟨x, hx, rfl⟩ := he
    have h1 := (List.mem_filter.mp hx).1
    rw [List.mem_zipIdx_iff_getElem?] at h1
    obtain ⟨en, e1, e2, _⟩ := encode_at hg hA h1
    rw [e1]; exact e2
  · unfold binEntries itemsFor
    rw [List.map_map]
    apply List.map_congr_left
    intro x hx
    have h1 := (List.mem_filter.mp hx).1
    rw [List.mem_zipIdx_iff_getElem?] at h1
    obtain ⟨en, e1, _, e3⟩ := encode_at hg hA h1
    simp only [Function.comp_apply, e1, Option.getD_some]
    exact e3

theorem itemsFor_index_nodup (p : Params) (L : List Bytes) (bn : Nat) : ((itemsFor p L bn).map Item.index).Nodup := by
  unfold itemsFor
  rw [List.map_map]
  have : (fun x => (itemAt p x).index) = fun x : Bytes × Nat => x.2 := rfl
  rw [show (Item.index ∘ itemAt p) = fun x : Bytes × Nat => x.2 from rfl]
  refine List.Nodup.sublist (List.Sublist.map _ List.filter_sublist) ?_
  rw [show (fun x : Bytes × Nat => x.2) = Prod.snd from rfl, List.zipIdx_map_snd]
  exact List.nodup_range'

/-- The final entries come from the entries sent to the bin. -/
theorem finalEntries_sub {p : Params} (hg : Good p) {sort : List Bytes → List Bytes} (hsort : SortOK p sort)
    {L : List Bytes} (hA : Storable p L) (bn : Nat) :
    Sized p (finalEntries p sort L bn) ∧ SortedBy p (finalEntries p sort L bn) ∧
      (finalEntries p sort L bn).length ≤ 2 ^ 48 ∧
      ∀ x : Item, x ∈ (finalEntries p sort L bn).map (itemOf p) → x ∈ itemsFor p L bn := by
  obtain ⟨b1, b2⟩ := binEntries_spec hg hA bn
  obtain ⟨s1, s2⟩ := hsort (binEntries p L bn)
  have hsub : (finalEntries p sort L bn).Sublist (sort (binEntries p L bn)) := dedup_sublist _
  have hin : ∀ e ∈ finalEntries p sort L bn, e ∈ binEntries p L bn := fun e he => s1.mem_iff.mp (hsub.subset he)
  refine ⟨fun e he => b1 e (hin e he), ?_, ?_, ?_⟩
  · refine (s2.sublist hsub).imp ?_
    intro a b hab
    unfold entLess at hab
    split at hab
    · simp at hab
    · omega
  · have l1 := hsub.length_le
    have l2 := s1.length_eq
    have l3 : (binEntries p L bn).length = (itemsFor p L bn).length := by rw [← b2, List.length_map]
    have l4 := itemsFor_length (p := p) L bn
    have := hA.count48
    omega
  · intro x hx
    obtain ⟨e, he, rfl⟩ := List.mem_map.mp hx
    rw [← b2]
    exact List.mem_map.mpr ⟨e, hin e he, rfl⟩

theorem finalEntries_spec {p : Params} (hg : Good p) {sort : List Bytes → List Bytes} (hsort : SortOK p sort)
    {L : List Bytes} (hI : Indexable p L) (bn : Nat) :
    Sized p (finalEntries p sort L bn) ∧ SortedBy p (finalEntries p sort L bn) ∧
      (finalEntries p sort L bn).length ≤ 2 ^ 48 ∧
      ∀ x : Item, x ∈ (finalEntries p sort L bn).map (itemOf p) ↔
        ∃ h, FirstAt L x.index h ∧ binNum p h = bn ∧ x.sort = sortNum p h ∧ x.trunc = truncOf h := by
  have hA := hI.app
  obtain ⟨b1, b2⟩ := binEntries_spec hg hI.storable bn
  obtain ⟨s1, s2⟩ := hsort (binEntries p L bn)
  have hmem : ∀ e, e ∈ sort (binEntries p L bn) ↔ e ∈ binEntries p L bn := fun e => s1.mem_iff
  have hitem : ∀ e ∈ binEntries p L bn, ∃ h, L[entIndex p e]? = some h ∧ binNum p h = bn ∧ entSort p e = sortNum p h ∧
      entTrunc e = truncOf h := by
    intro e he
    have : itemOf p e ∈ itemsFor p L bn := by rw [← b2]; exact List.mem_map.mpr ⟨e, he, rfl⟩
    rw [mem_itemsFor] at this
    exact this
  have hnd : ((sort (binEntries p L bn)).map (entIndex p)).Nodup := by
    have h0 : (binEntries p L bn).map (entIndex p) = (itemsFor p L bn).map Item.index := by
      rw [← b2, List.map_map]; rfl
    have h1 : ((binEntries p L bn).map (entIndex p)).Nodup := by rw [h0]; exact itemsFor_index_nodup p L bn
    exact ((s1.map (entIndex p)).nodup_iff).mpr h1
  have hbefore : (sort (binEntries p L bn)).Pairwise (Before p) := by
    have h1 : (sort (binEntries p L bn)).Pairwise fun a b => entIndex p a ≠ entIndex p b := List.pairwise_map.mp hnd
    refine (s2.and h1).imp ?_
    rintro a b ⟨x1, x2⟩
    unfold entLess at x1
    unfold Before
    split at x1
    · simp at x1
    · split at x1
      · left; omega
      · right
        simp at x1
        omega
  have hkey : ∀ a ∈ sort (binEntries p L bn), ∀ b ∈ sort (binEntries p L bn),
      (entSort p a = entSort p b ↔ entTrunc a = entTrunc b) := by
    intro a ha b hb
    obtain ⟨x, x1, x2, x3, x4⟩ := hitem a ((hmem a).mp ha)
    obtain ⟨y, y1, y2, y3, y4⟩ := hitem b ((hmem b).mp hb)
    have mx := List.mem_of_getElem? x1
    have my := List.mem_of_getElem? y1
    constructor
    · intro h
      have : x = y := hA.noClash x mx y my (same_abbr (p := p) (by omega) (by omega))
      rw [x4, y4, this]
    · intro h
      have : x = y := hI.trunc x mx y my (by omega) (by rw [← x4, ← y4, h])
      rw [x3, y3, this]
  have hsub : (finalEntries p sort L bn).Sublist (sort (binEntries p L bn)) := dedup_sublist _
  have hin : ∀ e ∈ finalEntries p sort L bn, e ∈ binEntries p L bn := fun e he => (hmem e).mp (hsub.subset he)
  refine ⟨fun e he => b1 e (hin e he), ?_, ?_, ?_⟩
  · refine (hbefore.sublist hsub).imp ?_
    intro a b hab
    rcases hab with h | h <;> omega
  · have l1 := hsub.length_le
    have l2 := s1.length_eq
    have l3 : (binEntries p L bn).length = (itemsFor p L bn).length := by rw [← b2, List.length_map]
    have l4 := itemsFor_length (p := p) L bn
    have := hA.count48
    omega
  · intro x
    constructor
    · intro hx
      obtain ⟨e, he, rfl⟩ := List.mem_map.mp hx
      have hm := (mem_dedup hbefore hkey e).mp he
      obtain ⟨h, h1, h2, h3, h4⟩ := hitem e (hin e he)
      refine ⟨h, ⟨h1, ?_⟩, h2, h3, h4⟩
      intro j hj hjh
      have : (⟨sortNum p h, j, truncOf h⟩ : Item) ∈ itemsFor p L bn := mem_itemsFor.mpr ⟨h, hjh, h2, rfl, rfl⟩
      rw [← b2] at this
      obtain ⟨e', he', hee'⟩ := List.mem_map.mp this
      have t1 : entTrunc e' = truncOf h := congrArg Item.trunc hee'
      have t2 : entIndex p e' = j := congrArg Item.index hee'
      have := hm.2 e' ((hmem e').mpr he') (by rw [t1, h4])
      have hj' : j < entIndex p e := hj
      omega
    · rintro ⟨h, ⟨h1, h1'⟩, h2, h3, h4⟩
      have : x ∈ itemsFor p L bn := mem_itemsFor.mpr ⟨h, h1, h2, h3, h4⟩
      rw [← b2] at this
      obtain ⟨e, he, hee⟩ := List.mem_map.mp this
      refine List.mem_map.mpr ⟨e, ?_, hee⟩
      apply (mem_dedup hbefore hkey e).mpr
      refine ⟨(hmem e).mpr he, ?_⟩
      intro e' he' ht
      obtain ⟨h', q1, q2, q3, q4⟩ := hitem e' ((hmem e').mp he')
      have te : entTrunc e = truncOf h := by rw [← h4, ← hee]; rfl
      have ie : entIndex p e = x.index := by rw [← hee]; rfl
      have : h' = h := hI.trunc h' (List.mem_of_getElem? q1) h (List.mem_of_getElem? h1) (by omega)
        (by rw [← q4, ht, te])
      rw [this] at q1
      rcases Nat.lt_or_ge (entIndex p e') (entIndex p e) with hlt | hge
      · exact absurd q1 (h1' _ (by omega))
      · exact hge

/-! ## One pass -/

theorem readLoop_filter (p : Params) (first n i : Nat) (hi : i < n) (L : List Bytes) (k : Nat) :
    (readLoop p first (first + n) k L).filter (fun x => x.bin = i) =
      ((L.zipIdx k).filter fun x => binNum p x.1 = first + i).map
        fun x => ⟨i, sortNum p x.1, x.2, truncOf x.1⟩ := by
  induction L generalizing k with
  | nil => rfl
  | cons h L ih =>
    unfold readLoop
    dsimp only
    rw [List.zipIdx_cons]
    by_cases hb : binNum p h < first ∨ binNum p h ≥ first + n
    · rw [if_pos hb, ih, List.filter_cons_of_neg (by simp; omega)]
    · rw [if_neg hb]
      by_cases he : binNum p h = first + i
      · rw [List.filter_cons_of_pos (by simp; omega), List.filter_cons_of_pos (by simpa using he), ih, List.map_cons]
        congr 2
        omega
      · rw [List.filter_cons_of_neg (by simp; omega), List.filter_cons_of_neg (by simpa using he), ih]

theorem readLoop_mem {p : Params} {first last : Nat} {L : List Bytes} {k : Nat} {w : Work}
    (hw : w ∈ readLoop p first last k L) : ∃ h, (h, w.hi) ∈ L.zipIdx k ∧ w.sn = sortNum p h ∧ w.th = truncOf h := by
  induction L generalizing k with
  | nil => simp [readLoop] at hw
  | cons h L ih =>
    unfold readLoop at hw
    dsimp only at hw
    rw [List.zipIdx_cons]
    split at hw
    · obtain ⟨x, x1, x2, x3⟩ := ih hw
      exact ⟨x, List.mem_cons_of_mem _ x1, x2, x3⟩
    · rw [List.mem_cons] at hw
      rcases hw with rfl | hw
      · exact ⟨h, by simp, rfl, rfl⟩
      · obtain ⟨x, x1, x2, x3⟩ := ih hw
        exact ⟨x, List.mem_cons_of_mem _ x1, x2, x3⟩

theorem readLoop_ok {p : Params} (hg : Good p) {L : List Bytes} (hA : Storable p L) (first last : Nat) :
    ∀ x ∈ readLoop p first last 0 L, x.ok p := by
  intro x hx
  obtain ⟨h, h1, h2, h3⟩ := readLoop_mem hx
  rw [List.mem_zipIdx_iff_getElem?] at h1
  obtain ⟨en, e1, _, _⟩ := encode_at hg hA (x := (h, x.hi)) h1
  unfold Work.ok Work.enc
  rw [h2, h3]
  simp only at e1
  rw [e1]; rfl

theorem writeFiles_eq {p : Params} (f : Files) (first : Nat) (bins : Nat → Bytes) (ents : Nat → List Bytes) (n i : Nat)
    (h : ∀ j, i ≤ j → j < i + n → bins j = (ents (first + j)).flatten) :
    writeFiles p f first bins i n = saveAll p f ((List.range' (first + i) n).map fun bn => (bn, ents bn)) := by
  induction n generalizing i f with
  | zero => rfl
  | succ n ih =>
    unfold writeFiles
    rw [h i (Nat.le_refl _) (by omega), ih _ (i + 1) (fun j h1 h2 => h j (by omega) (by omega)), List.range'_succ,
      List.map_cons]
    rfl

/-- A pass saves the sorted and deduplicated entries of its bins, whatever the schedule. -/
theorem pass_files {p : Params} (hg : Good p) {threads : Nat} (ht : 0 < threads) {sort : List Bytes → List Bytes}
    (hsort : SortOK p sort) {L : List Bytes} (hA : Storable p L) {first n : Nat} {d d' : Disk}
    (h : Pass p threads sort L first n d d') :
    d' = { nums := if first = 0 then writeBinNums p d.nums 0 L else d.nums,
           files := saveAll p d.files ((List.range' first n).map fun bn => (bn, finalEntries p sort L bn)) } := by
  obtain ⟨k, s, m, t, h1, h2, h3, h4, rfl⟩ := h
  have hb : ∀ i, i < n → t.bins i = (finalEntries p sort L (first + i)).flatten := by
    intro i hi
    rw [pool_result h3 h4 i hi, fan_result ht (readLoop_ok hg hA _ _) h1 h2 i, readLoop_filter p first n i hi]
    rw [List.map_map]
    have : ((L.zipIdx 0).filter fun x => binNum p x.1 = first + i).map
        (Work.enc p ∘ fun x => ⟨i, sortNum p x.1, x.2, truncOf x.1⟩) = binEntries p L (first + i) := rfl
    rw [this, sortAndDedup_eq hsort (binEntries_spec hg hA _).1]
    rfl
  congr 1
  have := writeFiles_eq (p := p) d.files first t.bins (finalEntries p sort L) n 0 (fun j _ h2 => hb j (by omega))
  rw [this]; rfl

theorem saveAll_append (p : Params) (f : Files) (a b : List (Nat × List Bytes)) :
    saveAll p f (a ++ b) = saveAll p (saveAll p f a) b := by
  induction a generalizing f with
  | nil => rfl
  | cons x a ih =>
    obtain ⟨bn, es⟩ := x
    exact ih _

theorem passes_files {p : Params} (hg : Good p) {threads : Nat} (ht : 0 < threads) {sort : List Bytes → List Bytes}
    (hsort : SortOK p sort) {L : List Bytes} (hA : Storable p L) {xs : List (Nat × Nat)} {d d' : Disk}
    (h : Passes p threads sort L xs d d') :
    d'.files = saveAll p d.files ((xs.flatMap fun x => List.range' x.1 x.2).map fun bn => (bn, finalEntries p sort L bn)) ∧
    ((∀ x ∈ xs, x.1 ≠ 0) → d'.nums = d.nums) := by
  induction h with
  | nil d => exact ⟨rfl, fun _ => rfl⟩
  | cons h t ih =>
    have he := pass_files hg ht hsort hA h
    obtain ⟨i1, i2⟩ := ih
    rw [List.flatMap_cons, List.map_append, saveAll_append]
    constructor
    · rw [i1, he]
    · intro hne
      rw [i2 (fun x hx => hne x (by simp [hx])), he]
      dsimp only
      rw [if_neg (hne _ (by simp))]

/-- The passes cover every bin exactly once, in order; only the first starts at bin 0. -/
theorem plan_covers {p : Params} {estimate bytesPerPass : Nat} {xs : List (Nat × Nat)}
    (h : plan p estimate bytesPerPass = some xs) :
    (xs.flatMap fun x => List.range' x.1 x.2) = List.range p.numberOfBins ∧
    ∃ n ys, xs = (0, n) :: ys ∧ ∀ y ∈ ys, y.1 ≠ 0 := by
  unfold plan at h
  dsimp only at h
  split at h
  · simp at h
  · rename_i hk
    rw [Option.some.injEq] at h
    subst h
    generalize binsPerPass p estimate bytesPerPass = k at hk
    generalize p.numberOfBins = N
    have cover : ∀ q, q ≤ 1 + N / k → (((List.range q).map fun pass =>
        (pass * k, if pass * k + k > N then N - pass * k else k)).flatMap fun x => List.range' x.1 x.2) =
        List.range (min (q * k) N) := by
      intro q
      induction q with
      | zero => intro _; simp
      | succ q ih =>
        intro hq
        have hqk : q * k ≤ N := by
          have h1 : q ≤ N / k := by omega
          exact Nat.le_trans (Nat.mul_le_mul_right k h1) (Nat.div_mul_le_self N k)
        rw [List.range_succ, List.map_append, List.flatMap_append, ih (by omega), Nat.min_eq_left hqk]
        simp only [List.map_cons, List.map_nil, List.flatMap_cons, List.flatMap_nil, List.append_nil]
        rw [List.range_eq_range', List.range_eq_range']
        have hcat := List.range'_append_1 (s := 0) (m := q * k) (n := if q * k + k > N then N - q * k else k)
        rw [Nat.zero_add] at hcat
        rw [hcat]
        congr 1
        rw [Nat.succ_mul]
        split <;> omega
    refine ⟨?_, ?_⟩
    · rw [cover _ (Nat.le_refl _)]
      congr 1
      have h1 := Nat.div_add_mod N k
      have h2 := Nat.mod_lt N (Nat.pos_of_ne_zero hk)
      rw [Nat.add_mul, Nat.one_mul, Nat.mul_comm (N / k) k]
      omega
    · rw [Nat.add_comm, List.range_succ_eq_map, List.map_cons, Nat.zero_mul]
      refine ⟨_, _, rfl, ?_⟩
      intro y hy
      rw [List.map_map, List.mem_map] at hy
      obtain ⟨j, _, rfl⟩ := hy
      have : 0 < (j + 1) * k := Nat.mul_pos (by omega) (by omega)
      show (j + 1) * k ≠ 0
      omega

theorem writeBinNums_inv {p : Params} (hg : Good p) (L : List Bytes) (hL : ∀ h ∈ L, h.length = 32) {w : WF} {M : List Bytes}
    (hw : WordFile.Inv w (M.map fun h => (binNum p h : Int))) (hs : w.wordSize = p.bytesRoomForBinNum) :
    WordFile.Inv (writeBinNums p w M.length L) ((M ++ L).map fun h => (binNum p h : Int)) ∧
      (writeBinNums p w M.length L).wordSize = p.bytesRoomForBinNum := by
  induction L generalizing w M with
  | nil => exact ⟨by simpa [writeBinNums] using hw, hs⟩
  | cons h L ih =>
    have hf : WordFile.fits w.wordSize (binNum p h : Int) := by
      rw [hs]
      unfold WordFile.fits
      rw [if_neg (by have := hg.room.2; omega)]
      refine ⟨Int.natCast_nonneg _, ?_⟩
      rw [← natCast_pow256]
      exact Int.ofNat_lt.mpr (hg.word h (hL h (by simp)))
    have h1 := WordFile.inv_write hw M.length hf
    have e : setExt (M.map fun h => (binNum p h : Int)) M.length (binNum p h : Int) 0 =
        (M ++ [h]).map fun h => (binNum p h : Int) := by
      have := setExt_end (M.map fun h => (binNum p h : Int)) (binNum p h : Int) 0
      rw [List.length_map] at this
      rw [this]; simp
    rw [e] at h1
    obtain ⟨h2, h3⟩ := ih (fun x hx => hL x (by simp [hx])) (M := M ++ [h]) h1 hs
    rw [List.length_append, List.length_singleton, List.append_assoc, List.singleton_append] at h2
    rw [List.length_append, List.length_singleton] at h3
    exact ⟨h2, h3⟩

/-- What is known about a store made by bulk indexing of `L`. -/
structure IsBulk (p : Params) (sort : List Bytes → List Bytes) (L : List Bytes) (s : Store) : Prop where
  ram : s.ram = none
  nums : WordFile.Inv s.binNums (L.map fun h => (binNum p h : Int))
  bins : ∀ bn, bn < p.numberOfBins → loadBin p s.files bn = some (finalEntries p sort L bn).flatten
  room : p.numberOfBins * (p.entrySize * p.entriesInBinStart) ≤ s.files.binStarts.length

theorem saveAll_room (p : Params) (l : List (Nat × List Bytes)) (f : Files) : f.binStarts.length ≤ (saveAll p f l).binStarts.length := by
  induction l generalizing f with
  | nil => exact Nat.le_refl _
  | cons x l ih =>
    obtain ⟨bn, es⟩ := x
    have h1 : f.binStarts.length ≤ (saveBin p f bn es.flatten).binStarts.length := writeAt_length_ge _ _ _
    exact Nat.le_trans h1 (ih _)

theorem saved_room (p : Params) (l : List (Nat × List Bytes)) :
    p.numberOfBins * (p.entrySize * p.entriesInBinStart) ≤ (saveAll p (freshFiles p) l).binStarts.length := by
  refine Nat.le_trans (Nat.le_of_eq ?_) (saveAll_room p l _)
  show _ = (zeros _).length
  rw [zeros_length, Nat.mul_assoc, Nat.mul_comm p.entrySize]

/-- The final entries of every bin, saved once each in any order onto fresh files, load again. -/
theorem saved_once {p : Params} (hg : Good p) {sort : List Bytes → List Bytes} (hsort : SortOK p sort)
    {L : List Bytes} (hA : Storable p L) (order : List Nat) (hnd : order.Nodup)
    (hmem : ∀ bn, bn ∈ order ↔ bn < p.numberOfBins) :
    ∀ bn, bn < p.numberOfBins → loadBin p (saveAll p (freshFiles p) (order.map fun bn => (bn, finalEntries p sort L bn))) bn =
      some (finalEntries p sort L bn).flatten := by
  intro bn hbn
  have hlast : ∀ (l : List Nat), l.Nodup → ∀ (cur : Nat → List Bytes), (∀ b ∈ l, cur b = []) →
      Growing cur (l.map fun bn => (bn, finalEntries p sort L bn)) ∧
      ∀ b, lastSaved cur (l.map fun bn => (bn, finalEntries p sort L bn)) b =
        if b ∈ l then finalEntries p sort L b else cur b := by
    intro l hnd
    induction l with
    | nil => intro cur _; exact ⟨trivial, fun b => by simp [lastSaved]⟩
    | cons a l ih =>
      intro cur hcur
      rw [List.nodup_cons] at hnd
      obtain ⟨g1, g2⟩ := ih hnd.2 (fun b => if b = a then finalEntries p sort L a else cur b) (by
        intro b hb
        have hba : b ≠ a := fun h => hnd.1 (h ▸ hb)
        rw [if_neg hba]
        exact hcur b (by simp [hb]))
      refine ⟨⟨by rw [hcur a (by simp)]; simp, g1⟩, ?_⟩
      intro b
      show lastSaved (fun b => if b = a then finalEntries p sort L a else cur b) _ b = _
      rw [g2 b]
      by_cases hbl : b ∈ l
      · rw [if_pos hbl, if_pos (by simp [hbl])]
      · rw [if_neg hbl]
        by_cases hba : b = a
        · subst hba; simp
        · simp [hba, hbl]
  obtain ⟨g1, g2⟩ := hlast order hnd (fun _ => []) (fun _ _ => rfl)
  have := saved_bins_load hg.digits (order.map fun bn => (bn, finalEntries p sort L bn))
    (by
      intro x hx
      obtain ⟨b, hb, rfl⟩ := List.mem_map.mp hx
      rw [hmem] at hb
      obtain ⟨f1, f2, f3, f4⟩ := finalEntries_sub hg hsort hA b
      refine ⟨hb, f1, ?_⟩
      intro e he _ hz
      have hm := f4 (itemOf p e) (List.mem_map.mpr ⟨e, List.mem_of_getElem? he, rfl⟩)
      rw [hz, itemOf_zeros, mem_itemsFor] at hm
      obtain ⟨h, h1, _, h3, h4⟩ := hm
      exact hA.first h h1 ⟨h4.symm, h3.symm⟩) g1 bn hbn
  rw [g2 bn, if_pos ((hmem bn).mpr hbn)] at this
  exact this

/-- The bin numbers written from a fresh file survive closing and opening. -/
theorem nums_reopen {p : Params} (hg : Good p) {L : List Bytes} (hA : Storable p L) :
    ∃ w, openWordFile p.bytesRoomForBinNum (WordFile.close (writeBinNums p (diskStart p).nums 0 L)) = some w ∧
      WordFile.Inv w (L.map fun h => (binNum p h : Int)) := by
  have hr := hg.room
  have hnums : WordFile.Inv (writeBinNums p (diskStart p).nums 0 L) (L.map fun h => (binNum p h : Int)) ∧
      (writeBinNums p (diskStart p).nums 0 L).wordSize = p.bytesRoomForBinNum := by
    have ho : openWordFile p.bytesRoomForBinNum [] =
        some (new (AppendOpt.openFile []) p.bytesRoomForBinNum (0 / p.bytesRoomForBinNum)) := by
      simp [openWordFile, fileWordCount]
    obtain ⟨i1, i2⟩ := WordFile.inv_open (by omega) ho
    have hz : wordsOf p.bytesRoomForBinNum [] = [] := by
      apply List.length_eq_zero_iff.mp; rw [wordsOf_length]; simp
    rw [hz, Nat.zero_div] at i1
    exact writeBinNums_inv hg L hA.len32 (M := []) i1 rfl
  obtain ⟨hn1, hn2⟩ := hnums
  obtain ⟨plain, hpl2, hm, hl⟩ := hn1.file
  rw [hn2] at hm hl
  have hc : WordFile.close (writeBinNums p (diskStart p).nums 0 L) = plain := (AppendOpt.inv_flush hpl2).2.1
  have ho : openWordFile p.bytesRoomForBinNum plain =
      some (new (AppendOpt.openFile plain) p.bytesRoomForBinNum (plain.length / p.bytesRoomForBinNum)) := by
    simp [openWordFile, fileWordCount, hm]
  obtain ⟨i1, i2⟩ := WordFile.inv_open (by omega) ho
  rw [hl] at i1
  rw [hc]
  exact ⟨_, ho, i1⟩

/-- The store left by a bulk run. -/
theorem bulk_store {p : Params} (hp : ParamsOK p) {estimate bytesPerPass threads : Nat} (ht : 0 < threads)
    {sort : List Bytes → List Bytes} (hsort : SortOK p sort) {L : List Bytes} (hA : Storable p L) {d : Disk}
    (hrun : IndexTheHashes p estimate bytesPerPass threads sort L d) :
    ∃ s, openStore p (WordFile.close d.nums) d.files false = some s ∧ IsBulk p sort L s := by
  have hg := hp.good
  obtain ⟨xs, hpl, hps⟩ := hrun
  obtain ⟨hcov, n0, ys, rfl, hys⟩ := plan_covers hpl
  obtain ⟨hf, _⟩ := passes_files hg ht hsort hA hps
  rw [hcov] at hf
  have hnums : d.nums = writeBinNums p (diskStart p).nums 0 L := by
    cases hps with
    | cons h t =>
      have h1 := pass_files hg ht hsort hA h
      have h2 := (passes_files hg ht hsort hA t).2 hys
      rw [h2, h1]
      dsimp only
      rw [if_pos rfl]
  obtain ⟨w, ho, i1⟩ := nums_reopen hg hA
  refine ⟨{ binNums := w, files := d.files, ram := none }, ?_, rfl, i1, ?_, by dsimp only; rw [hf]; exact saved_room p _⟩
  · unfold openStore
    rw [hnums, ho]; rfl
  · intro bn hbn
    dsimp only
    rw [hf]
    exact saved_once hg hsort hA _ List.nodup_range (fun bn => List.mem_range) bn hbn

/-! ## Properties -/

/-- A hash of the list has a first position. -/
theorem exists_first {L : List Bytes} {h : Bytes} (hm : h ∈ L) : ∃ i, FirstAt L i h := by
  obtain ⟨j, hj⟩ := List.mem_iff_getElem?.mp hm
  induction j using Nat.strongRecOn with
  | ind j ih =>
    by_cases hx : ∃ k, k < j ∧ L[k]? = some h
    · obtain ⟨k, hk, hk2⟩ := hx
      exact ih k hk hk2
    · exact ⟨j, hj, fun k hk hk2 => hx ⟨k, hk, hk2⟩⟩

/-- Lookups in a bulk-indexed store. -/
theorem IsBulk.index {fl : Rat → Rat} (hfl : FloatOK fl) {p : Params} (hp : ParamsOK p)
    {sort : List Bytes → List Bytes} (hsort : SortOK p sort) {L : List Bytes} (hI : Indexable p L) {s : Store}
    (hs : IsBulk p sort L s) : countHashes s = L.length ∧
      ∀ h : Bytes, h.length = 32 → ∃ r, indexOfHash fl p s h = some r ∧
        ((∃ i, r = .at i ∧ FirstAt L i h) ∨ (r = .absent ∧ h ∉ L)) := by
  have hg := hp.good
  obtain ⟨h2, h3, h4, _⟩ := hs
  refine ⟨?_, ?_⟩
  · have := h3.count
    rw [List.length_map] at this
    exact this
  · intro h hl
    obtain ⟨f1, f2, f3, f4⟩ := finalEntries_spec hg hsort hI (binNum p h)
    have hidx : indexOfHash fl p s h =
        lookupByHash fl p (finalEntries p sort L (binNum p h)).flatten (truncOf h) (sortNum p h) := by
      unfold indexOfHash binFor
      rw [h2]
      dsimp only
      rw [h4 _ (hg.range h hl)]
    have hhit : ∀ hi, (⟨sortNum p h, hi, truncOf h⟩ : Item) ∈ (finalEntries p sort L (binNum p h)).map (itemOf p) ↔
        FirstAt L hi h := by
      intro hi
      rw [f4]
      constructor
      · rintro ⟨x, x1, x2, x3, x4⟩
        have : x = h := split_injective (hI.app.len32 x (List.mem_of_getElem? x1.1)) hl x2 x3.symm x4.symm
        rw [← this]; exact x1
      · intro hx
        exact ⟨h, hx, rfl, rfl, rfl⟩
    by_cases hin : h ∈ L
    · obtain ⟨r, r1, r2⟩ := lookup_complete_es hfl f1 f2 f3 (truncOf h) (sortNum p h) (by
        intro x hx hs
        obtain ⟨y, y1, y2, y3, y4⟩ := (f4 x).mp hx
        rw [y4, hI.app.noClash y (List.mem_of_getElem? y1.1) h hin (same_abbr y2 (by omega))])
      simp only [hhit] at r2
      refine ⟨r, by rw [hidx]; exact r1, ?_⟩
      rcases r2 with ⟨hi, rfl, h7⟩ | ⟨rfl, h7⟩
      · exact Or.inl ⟨hi, rfl, h7⟩
      · obtain ⟨i, hi⟩ := exists_first hin
        exact absurd hi (h7 i)
    · obtain ⟨r, r1, r2⟩ := lookup_sound_es hfl f1 f2 f3 (truncOf h) (sortNum p h)
      simp only [hhit] at r2
      refine ⟨r, by rw [hidx]; exact r1, ?_⟩
      rcases r2 with rfl | ⟨hi, rfl, h7⟩
      · exact Or.inr ⟨rfl, hin⟩
      · exact absurd (List.mem_of_getElem? h7.1) hin

/-- **C25, partial.** However the goroutines are scheduled, with any number of threads, any memory grant and
any hash count estimate (any split of the bins into passes), a completed bulk run leaves a store that counts
all hashes and gives for every 32-byte hash the first index at which it occurs in the file, or 'absent' when
it does not occur.

Missing: lists in which two different hashes share their first 8 bytes, or share a bin and their last 24
bytes, and a first hash encoded as an all-zero entry; `bulk_loses_hash` and `bulk_drops_same_tail` show the
code wrong there. -/
theorem bulk_first_occurrence_partial {fl : Rat → Rat} (hfl : FloatOK fl) {p : Params} (hp : ParamsOK p)
    {estimate bytesPerPass threads : Nat} (ht : 0 < threads)
    {sort : List Bytes → List Bytes} (hsort : SortOK p sort) {L : List Bytes} (hI : Indexable p L) {d : Disk}
    (hrun : IndexTheHashes p estimate bytesPerPass threads sort L d) :
    ∃ s, openStore p (WordFile.close d.nums) d.files false = some s ∧ countHashes s = L.length ∧
      ∀ h : Bytes, h.length = 32 → ∃ r, indexOfHash fl p s h = some r ∧
        ((∃ i, r = .at i ∧ FirstAt L i h) ∨ (r = .absent ∧ h ∉ L)) := by
  obtain ⟨s, h1, h2⟩ := bulk_store hp ht hsort hI.storable hrun
  exact ⟨s, h1, h2.index hfl hp hsort hI⟩

/-- `GetHashAtIndex` in a bulk-indexed store. -/
theorem IsBulk.get {p : Params} (hp : ParamsOK p)
    {sort : List Bytes → List Bytes} (hsort : SortOK p sort) {L : List Bytes} (hI : Indexable p L) {s : Store}
    (hs : IsBulk p sort L s) :
      (∀ i h, FirstAt L i h → ∃ s', getHashAtIndex p s i = some (s', some h)) ∧
      (∀ i, L.length ≤ i → ∃ s', getHashAtIndex p s i = some (s', none)) := by
  have hg := hp.good
  obtain ⟨h2, h3, h4, _⟩ := hs
  refine ⟨?_, ?_⟩
  · intro i h hfirst
    obtain ⟨r1, r2⟩ := WordFile.inv_read h3 i
    rw [List.getElem?_map, hfirst.1, Option.map_some] at r2
    have hl := hI.app.len32 h (List.mem_of_getElem? hfirst.1)
    obtain ⟨f1, f2, f3, f4⟩ := finalEntries_spec hg hsort hI (binNum p h)
    unfold getHashAtIndex
    rcases hr : readWordAt s.binNums i with ⟨w, v⟩
    rw [hr] at r2
    simp only at r2
    subst r2
    dsimp only
    rw [Int.toNat_natCast, h4 _ (hg.range h hl)]
    dsimp only
    rw [lookupByIndex_eq f1]
    have hx : (⟨sortNum p h, i, truncOf h⟩ : Item) ∈ (finalEntries p sort L (binNum p h)).map (itemOf p) :=
      (f4 _).mpr ⟨h, hfirst, rfl, rfl, rfl⟩
    obtain ⟨e, he, hee⟩ := List.mem_map.mp hx
    cases hf : (finalEntries p sort L (binNum p h)).find? fun e => decide (entIndex p e = i) with
    | none =>
      rw [List.find?_eq_none] at hf
      have := hf e he
      have h8 := congrArg Item.index hee
      simp [itemOf] at h8
      simp [h8] at this
    | some e' =>
      have g1 : entIndex p e' = i := by simpa using List.find?_some hf
      obtain ⟨y, y1, y2, y3, y4⟩ := (f4 (itemOf p e')).mp (List.mem_map.mpr ⟨e', List.mem_of_find?_eq_some hf, rfl⟩)
      have y1' := y1.1
      simp only [itemOf] at y1' y3 y4
      rw [g1, hfirst.1] at y1'
      cases y1'
      refine ⟨{ s with binNums := w }, ?_⟩
      dsimp only
      rw [y3, y4, hash_reconstructed p h hl]
  · intro i hi
    obtain ⟨r1, r2⟩ := WordFile.inv_read h3 i
    rw [List.getElem?_map, List.getElem?_eq_none hi, Option.map_none] at r2
    unfold getHashAtIndex
    rcases hr : readWordAt s.binNums i with ⟨w, v⟩
    rw [hr] at r2
    simp only at r2
    subst r2
    exact ⟨_, rfl⟩

/-- `GetHashAtIndex` of a repeated hash in a bulk-indexed store. -/
theorem IsBulk.dup {p : Params} (hp : ParamsOK p)
    {sort : List Bytes → List Bytes} (hsort : SortOK p sort) {L : List Bytes} (hI : Indexable p L) {s : Store}
    (hs : IsBulk p sort L s) {i j : Nat} {h : Bytes} (hi : L[i]? = some h)
    (hj : L[j]? = some h) (hji : j < i) : ∃ s', getHashAtIndex p s i = some (s', some (zeros 32)) := by
  have hg := hp.good
  obtain ⟨h2, h3, h4, _⟩ := hs
  obtain ⟨r1, r2⟩ := WordFile.inv_read h3 i
  rw [List.getElem?_map, hi, Option.map_some] at r2
  have hl := hI.app.len32 h (List.mem_of_getElem? hi)
  obtain ⟨f1, f2, f3, f4⟩ := finalEntries_spec hg hsort hI (binNum p h)
  unfold getHashAtIndex
  rcases hr : readWordAt s.binNums i with ⟨w, v⟩
  rw [hr] at r2
  simp only at r2
  subst r2
  dsimp only
  rw [Int.toNat_natCast, h4 _ (hg.range h hl)]
  dsimp only
  rw [lookupByIndex_eq f1]
  cases hf : (finalEntries p sort L (binNum p h)).find? fun e => decide (entIndex p e = i) with
  | none => exact ⟨_, rfl⟩
  | some e' =>
    have g1 : entIndex p e' = i := by simpa using List.find?_some hf
    obtain ⟨y, y1, y2, y3, y4⟩ := (f4 (itemOf p e')).mp (List.mem_map.mpr ⟨e', List.mem_of_find?_eq_some hf, rfl⟩)
    have y1' := y1.1
    have y1'' := y1.2
    simp only [itemOf] at y1' y1''
    rw [g1] at y1' y1''
    rw [hi] at y1'
    cases y1'
    exact absurd hj (y1'' j hji)

/-- **C55, partial.** After a bulk run, `GetHashAtIndex` gives the hash of every index that is the first
occurrence of its hash. Missing: later occurrences, for which the code returns the all-zero hash
(`bulk_get_duplicate_is_zero`). -/
theorem bulk_get_first_partial {p : Params} (hp : ParamsOK p)
    {estimate bytesPerPass threads : Nat} (ht : 0 < threads)
    {sort : List Bytes → List Bytes} (hsort : SortOK p sort) {L : List Bytes} (hI : Indexable p L) {d : Disk}
    (hrun : IndexTheHashes p estimate bytesPerPass threads sort L d) :
    ∃ s, openStore p (WordFile.close d.nums) d.files false = some s ∧
      (∀ i h, FirstAt L i h → ∃ s', getHashAtIndex p s i = some (s', some h)) ∧
      (∀ i, L.length ≤ i → ∃ s', getHashAtIndex p s i = some (s', none)) := by
  obtain ⟨s, h1, h2⟩ := bulk_store hp ht hsort hI.storable hrun
  exact ⟨s, h1, h2.get hp hsort hI⟩

/-- **C55 is violated for repeated hashes.** After any bulk run over a list in which index `i` repeats an
earlier hash, `GetHashAtIndex(i)` returns the all-zero hash without an error. -/
theorem bulk_get_duplicate_is_zero {p : Params} (hp : ParamsOK p)
    {estimate bytesPerPass threads : Nat} (ht : 0 < threads)
    {sort : List Bytes → List Bytes} (hsort : SortOK p sort) {L : List Bytes} (hI : Indexable p L) {d : Disk}
    (hrun : IndexTheHashes p estimate bytesPerPass threads sort L d) {i j : Nat} {h : Bytes} (hi : L[i]? = some h)
    (hj : L[j]? = some h) (hji : j < i) :
    ∃ s, openStore p (WordFile.close d.nums) d.files false = some s ∧
      ∃ s', getHashAtIndex p s i = some (s', some (zeros 32)) := by
  obtain ⟨s, h1, h2⟩ := bulk_store hp ht hsort hI.storable hrun
  exact ⟨s, h1, h2.dup hp hsort hI hi hj hji⟩

/-! ## Every run completes -/

theorem exists_queue {threads : Nat} {q : Nat → List Work} (h : queued threads q ≠ 0) :
    ∃ w, w < threads ∧ q w ≠ [] := by
  by_contra hc
  apply h
  unfold queued
  apply List.sum_eq_zero
  intro x hx
  obtain ⟨w, hw, rfl⟩ := List.mem_map.mp hx
  rw [List.mem_range] at hw
  by_contra h0
  exact hc ⟨w, hw, fun h1 => h0 (by rw [h1]; rfl)⟩

/-- In every reachable state of the fan-out that is not finished some goroutine can move. -/
theorem fan_progress {p : Params} {threads : Nat} (ht : 0 < threads) {work : List Work}
    {n : Nat} {s : Fan} (h : FanInv p threads work n s) (hd : ¬ s.done threads) : ∃ t, FanStep p threads s t := by
  have recv : ∀ w, w < threads → s.queues w ≠ [] → ∃ t, FanStep p threads s t := by
    intro w hw hne
    obtain ⟨x, q, hq⟩ := List.exists_cons_of_ne_nil hne
    cases hb : appendBinEntry p (s.bins x.bin) x.sn x.hi x.th with
    | none => exact ⟨_, FanStep.panic s w x q h.up hw hq hb⟩
    | some b => exact ⟨_, FanStep.recv s w x q b h.up hw hq hb⟩
  by_cases hq : ∃ w, w < threads ∧ s.queues w ≠ []
  · obtain ⟨w, hw, hne⟩ := hq
    exact recv w hw hne
  · cases hr : s.rest with
    | nil =>
      refine absurd ⟨hr, ?_, h.up⟩ hd
      intro w hw
      by_contra h1
      exact hq ⟨w, hw, h1⟩
    | cons x r =>
      refine ⟨_, FanStep.send s x r h.up hr ?_⟩
      have : s.queues (x.bin % threads) = [] := by
        by_contra h1
        exact hq ⟨_, Nat.mod_lt _ ht, h1⟩
      rw [this]; decide

/-- From every reachable state of the fan-out the end is reachable. -/
theorem fan_completes {p : Params} {threads : Nat} (ht : 0 < threads) {work : List Work} (hok : ∀ x ∈ work, x.ok p)
    (k : Nat) {n : Nat} {s : Fan} (hr : FanRun p threads n (fanStart work) s) (hk : 2 * work.length ≤ n + k) :
    ∃ m t, FanRun p threads m (fanStart work) t ∧ t.done threads := by
  have I := fan_run ht hok hr rfl
  by_cases hd : s.done threads
  · exact ⟨n, s, hr, hd⟩
  · obtain ⟨t, st⟩ := fan_progress ht I hd
    have hr' := FanRun.step hr st
    have I' := (fan_run ht hok hr' rfl).measure
    cases k with
    | zero => omega
    | succ k => exact fan_completes ht hok k hr' (by omega)

/-- From every reachable state of the sorting pool the end is reachable. -/
theorem pool_completes {p : Params} {threads : Nat} (ht : 0 < threads) {sort : List Bytes → List Bytes}
    {first last : Nat} {bins0 : Nat → Bytes} (k : Nat) {n : Nat} {s : Pool}
    (hr : PoolRun p threads sort first last n ⟨first, [], bins0⟩ s) (hk : 2 * (last - first) ≤ n + k) :
    ∃ m t, PoolRun p threads sort first last m ⟨first, [], bins0⟩ t ∧ t.done last := by
  have I := pool_run hr rfl
  by_cases hd : s.done last
  · exact ⟨n, s, hr, hd⟩
  · have : ∃ t, PoolStep p threads sort first last s t := by
      cases hc : s.claimed with
      | nil =>
        refine ⟨_, PoolStep.claim s ?_ (by rw [hc]; exact ht)⟩
        by_contra h
        exact hd ⟨by omega, hc⟩
      | cons b bs => exact ⟨_, PoolStep.finish s b (by rw [hc]; simp)⟩
    obtain ⟨t, st⟩ := this
    have hr' := PoolRun.step hr st
    have I' := pool_run hr' rfl
    have m1 := I'.measure
    have m2 := I'.hi
    have m3 := I'.lo
    cases k with
    | zero => omega
    | succ k => exact pool_completes ht k hr' (by omega)

/-- **C25 (completion).** With a positive number of threads no schedule deadlocks and every schedule is finite:
as long as the reader or a worker is not finished some goroutine can take a step, no worker panics, and a
schedule has at most two steps per hash (fan-out) and per bin (sorting). -/
theorem bulk_no_deadlock {p : Params} (hp : ParamsOK p) {threads : Nat} (ht : 0 < threads)
    {sort : List Bytes → List Bytes} {L : List Bytes} (hA : Storable p L) (first last : Nat) :
    (∀ n s, FanRun p threads n (fanStart (readLoop p first last 0 L)) s →
      n ≤ 2 * L.length ∧ s.crashed = false ∧ (¬ s.done threads → ∃ t, FanStep p threads s t)) ∧
    (∀ bins n s, PoolRun p threads sort first last n ⟨first, [], bins⟩ s →
      n ≤ 2 * (last - first) ∧ (¬ s.done last → ∃ t, PoolStep p threads sort first last s t)) := by
  have hg := hp.good
  have hlen : ∀ (L : List Bytes) k, (readLoop p first last k L).length ≤ L.length := by
    intro L
    induction L with
    | nil => intro k; simp [readLoop]
    | cons h L ih =>
      intro k
      unfold readLoop
      dsimp only
      have := ih (k + 1)
      split <;> simp <;> omega
  constructor
  · intro n s hr
    have I := fan_run ht (readLoop_ok hg hA _ _) hr rfl
    refine ⟨?_, I.up, fan_progress ht I⟩
    have := I.measure
    have := hlen L 0
    omega
  · intro bins n s hr
    have I := pool_run hr rfl
    refine ⟨?_, ?_⟩
    · have m1 := I.measure
      have m2 := I.hi
      omega
    · intro hd
      cases hc : s.claimed with
      | nil =>
        refine ⟨_, PoolStep.claim s ?_ (by rw [hc]; exact ht)⟩
        by_contra h
        exact hd ⟨by omega, hc⟩
      | cons b bs => exact ⟨_, PoolStep.finish s b (by rw [hc]; simp)⟩

/-- **C25 (completion).** Unless the memory grant is less than one bin (`bulk_small_grant_panics`) there is a
completed run. -/
theorem bulk_completes {p : Params} (hp : ParamsOK p) {estimate bytesPerPass threads : Nat} (ht : 0 < threads)
    {sort : List Bytes → List Bytes} {L : List Bytes} (hA : Storable p L)
    (hgrant : binsPerPass p estimate bytesPerPass ≠ 0) :
    ∃ d, IndexTheHashes p estimate bytesPerPass threads sort L d := by
  have hg := hp.good
  have hpass : ∀ first n d, ∃ d', Pass p threads sort L first n d d' := by
    intro first n d
    obtain ⟨k, s, h1, h2⟩ := fan_completes ht (readLoop_ok hg hA first (first + n)) _ (FanRun.refl _)
      (Nat.le_of_eq (Nat.zero_add _).symm)
    obtain ⟨m, t, h3, h4⟩ := pool_completes ht (sort := sort) (p := p) (first := first) (last := first + n)
      (bins0 := s.bins) _ (PoolRun.refl _) (Nat.le_of_eq (Nat.zero_add _).symm)
    exact ⟨_, k, s, m, t, h1, h2, h3, h4, rfl⟩
  have hpasses : ∀ xs d, ∃ d', Passes p threads sort L xs d d' := by
    intro xs
    induction xs with
    | nil => intro d; exact ⟨d, Passes.nil d⟩
    | cons x xs ih =>
      intro d
      obtain ⟨e, he⟩ := hpass x.1 x.2 d
      obtain ⟨g, hg⟩ := ih e
      exact ⟨g, Passes.cons he hg⟩
  have hpl : ∃ xs, plan p estimate bytesPerPass = some xs := by
    unfold plan
    dsimp only
    rw [if_neg hgrant]
    exact ⟨_, rfl⟩
  obtain ⟨xs, hxs⟩ := hpl
  obtain ⟨d, hd⟩ := hpasses xs (diskStart p)
  exact ⟨d, xs, hxs, hd⟩

/-- **C25 is violated for small memory grants**: with fewer bytes per pass than an average bin needs, the
number of bins per pass is 0 and the division for the number of passes panics; no run completes. -/
theorem bulk_small_grant_panics {p : Params} {estimate bytesPerPass threads : Nat}
    {sort : List Bytes → List Bytes} {L : List Bytes}
    (hgrant : bytesPerPass < p.entrySize * (estimate / p.numberOfBins)) (d : Disk) :
    plan p estimate bytesPerPass = none ∧ ¬ IndexTheHashes p estimate bytesPerPass threads sort L d := by
  have h0 : plan p estimate bytesPerPass = none := by
    have h1 : binsPerPass p estimate bytesPerPass = 0 := by
      unfold binsPerPass
      dsimp only
      rw [if_neg (by intro h; rw [h] at hgrant; simp at hgrant), Nat.div_eq_of_lt hgrant]
    unfold plan
    dsimp only
    rw [if_pos h1]
  refine ⟨h0, ?_⟩
  rintro ⟨xs, h1, _⟩
  rw [h0] at h1
  simp at h1

/-! ## Where the code loses hashes -/

/-- **C25 is violated when two hashes of a bin agree in their last 24 bytes**: deduplication compares only
those bytes, so after any run one of the two is reported absent. For all parameters and such hashes. -/
theorem bulk_drops_same_tail {fl : Rat → Rat} (hfl : FloatOK fl) {p : Params} (hp : ParamsOK p)
    {estimate bytesPerPass threads : Nat} (ht : 0 < threads)
    {sort : List Bytes → List Bytes} (hsort : SortOK p sort) {a b : Bytes} (hA : Storable p [a, b]) (hne : a ≠ b)
    (hbin : binNum p a = binNum p b) (htail : truncOf a = truncOf b) {d : Disk}
    (hrun : IndexTheHashes p estimate bytesPerPass threads sort [a, b] d) :
    ∃ s, openStore p (WordFile.close d.nums) d.files false = some s ∧
      (indexOfHash fl p s a = some .absent ∨ indexOfHash fl p s b = some .absent) := by
  have hg := hp.good
  obtain ⟨s, h1, ⟨h2, h3, h4⟩⟩ := bulk_store hp ht hsort hA hrun
  refine ⟨s, h1, ?_⟩
  have la := hA.len32 a (by simp)
  have lb := hA.len32 b (by simp)
  obtain ⟨f1, f2, f3, f4⟩ := finalEntries_sub hg hsort hA (binNum p a)
  obtain ⟨b1, b2⟩ := binEntries_spec hg hA (binNum p a)
  obtain ⟨s1, s2⟩ := hsort (binEntries p [a, b] (binNum p a))
  have hidx : ∀ h, h.length = 32 → binNum p h = binNum p a → indexOfHash fl p s h =
      lookupByHash fl p (finalEntries p sort [a, b] (binNum p a)).flatten (truncOf h) (sortNum p h) := by
    intro h hl hb
    unfold indexOfHash binFor
    rw [h2]
    dsimp only
    rw [hb, h4 _ (hg.range a la)]
  have hitems : itemsFor p [a, b] (binNum p a) = [itemAt p (a, 0), itemAt p (b, 1)] := by
    simp [itemsFor, List.zipIdx_cons, hbin]
  have hlen : (sort (binEntries p [a, b] (binNum p a))).length = 2 := by
    rw [s1.length_eq]
    have : ((binEntries p [a, b] (binNum p a)).map (itemOf p)).length = 2 := by rw [b2, hitems]; rfl
    simpa using this
  have htr : ∀ e ∈ sort (binEntries p [a, b] (binNum p a)), entTrunc e = truncOf a := by
    intro e he
    have : itemOf p e ∈ itemsFor p [a, b] (binNum p a) := by
      rw [← b2]; exact List.mem_map.mpr ⟨e, s1.mem_iff.mp he, rfl⟩
    rw [hitems] at this
    simp only [List.mem_cons, List.not_mem_nil, or_false] at this
    rcases this with h | h
    · exact congrArg Item.trunc h
    · rw [htail]; exact congrArg Item.trunc h
  have hfin : ∃ x, finalEntries p sort [a, b] (binNum p a) = [x] := by
    unfold finalEntries
    revert hlen htr
    generalize sort (binEntries p [a, b] (binNum p a)) = l
    intro hlen htr
    match l, hlen with
    | [x, y], _ =>
      refine ⟨x, ?_⟩
      dsimp only
      simp [keep, htr x (by simp), htr y (by simp)]
  obtain ⟨x, hx⟩ := hfin
  have habs : ∀ h i, (h, i) = (a, 0) ∨ (h, i) = (b, 1) → itemOf p x ≠ itemAt p (h, i) →
      indexOfHash fl p s h = some .absent := by
    intro h i hhi hxne
    have hlb : h.length = 32 ∧ binNum p h = binNum p a := by
      rcases hhi with h1 | h1 <;> cases h1
      · exact ⟨la, rfl⟩
      · exact ⟨lb, hbin.symm⟩
    obtain ⟨r, r1, r2⟩ := lookup_sound_es hfl f1 f2 f3 (truncOf h) (sortNum p h)
    rw [hidx h hlb.1 hlb.2, r1]
    rcases r2 with rfl | ⟨hi, rfl, h7⟩
    · rfl
    · exfalso
      have h8 := f4 _ h7
      rw [mem_itemsFor] at h8
      obtain ⟨y, y1, y2, y3, y4⟩ := h8
      simp only at y1 y3 y4
      have ly := hA.len32 y (List.mem_of_getElem? y1)
      have hy : y = h := split_injective ly hlb.1 (by rw [y2, hlb.2]) y3.symm y4.symm
      rw [hx] at h7
      simp only [List.map_cons, List.map_nil, List.mem_cons, List.not_mem_nil, or_false] at h7
      apply hxne
      rw [← h7]
      have hii : hi = i := by
        match hi, y1 with
        | 0, y1 =>
          simp at y1
          rcases hhi with h1 | h1 <;> cases h1
          · rfl
          · exact absurd (y1.trans hy) hne
        | 1, y1 =>
          simp at y1
          rcases hhi with h1 | h1 <;> cases h1
          · exact absurd (y1.trans hy).symm hne
          · rfl
      rw [hii]; rfl
  by_cases hxa : itemOf p x = itemAt p (a, 0)
  · right
    refine habs b 1 (Or.inr rfl) ?_
    rw [hxa]
    intro h
    exact absurd (congrArg Item.index h) (by simp [itemAt])
  · left
    exact habs a 0 (Or.inl rfl) hxa

/-- Four hashes of one bin, the second and third with the same first 8 bytes. -/
def clashHashes : List Bytes :=
  [leEnc 8 0 ++ List.replicate 24 1, leEnc 8 6 ++ List.replicate 24 3, leEnc 8 6 ++ List.replicate 24 4,
   leEnc 8 9 ++ List.replicate 24 2]

theorem clash_storable : Storable demoParams clashHashes := by
  refine ⟨by decide +kernel, by decide, by decide, ?_⟩
  intro h hh
  simp only [clashHashes, List.getElem?_cons_zero, Option.some.injEq] at hh
  subst hh
  decide +kernel

/-- **C25 is violated when two hashes share their first 8 bytes**: after every run over these four hashes, with
any float64 rounding, the second is reported absent. -/
theorem bulk_loses_hash {fl : Rat → Rat} (hfl : FloatOK fl) {estimate bytesPerPass threads : Nat} (ht : 0 < threads)
    {sort : List Bytes → List Bytes} (hsort : SortOK demoParams sort) {d : Disk}
    (hrun : IndexTheHashes demoParams estimate bytesPerPass threads sort clashHashes d) :
    ∃ s, openStore demoParams (WordFile.close d.nums) d.files false = some s ∧
      indexOfHash fl demoParams s (leEnc 8 6 ++ List.replicate 24 3) = some .absent := by
  obtain ⟨s, h1, ⟨h2, h3, h4⟩⟩ := bulk_store demo_paramsOK ht hsort clash_storable hrun
  refine ⟨s, h1, ?_⟩
  have hbn : binNum demoParams (leEnc 8 6 ++ List.replicate 24 3) = 0 := by decide +kernel
  have hsn : sortNum demoParams (leEnc 8 6 ++ List.replicate 24 3) = 6 := by decide +kernel
  have htn : truncOf (leEnc 8 6 ++ List.replicate 24 3) = List.replicate 24 3 := by decide +kernel
  have hes : binEntries demoParams clashHashes 0 =
      [demoEntry 0 0 1, demoEntry 6 1 3, demoEntry 6 2 4, demoEntry 9 3 2] := by decide +kernel
  obtain ⟨s1, s2⟩ := hsort (binEntries demoParams clashHashes 0)
  rw [hes] at s1 s2
  have hord : ([demoEntry 0 0 1, demoEntry 6 1 3, demoEntry 6 2 4, demoEntry 9 3 2]).Pairwise
      fun a b => entLess demoParams b a = false := by decide +kernel
  have hst : sort [demoEntry 0 0 1, demoEntry 6 1 3, demoEntry 6 2 4, demoEntry 9 3 2] =
      [demoEntry 0 0 1, demoEntry 6 1 3, demoEntry 6 2 4, demoEntry 9 3 2] := by
    refine s1.eq_of_pairwise (le := fun a b => entLess demoParams b a = false) ?_ s2 hord
    intro a b ha hb hab hba
    replace ha := s1.mem_iff.mp ha
    have key : ∀ a ∈ [demoEntry 0 0 1, demoEntry 6 1 3, demoEntry 6 2 4, demoEntry 9 3 2],
        ∀ b ∈ [demoEntry 0 0 1, demoEntry 6 1 3, demoEntry 6 2 4, demoEntry 9 3 2],
        entLess demoParams b a = false → entLess demoParams a b = false → a = b := by decide +kernel
    exact key a ha b hb hab hba
  have hfin : finalEntries demoParams sort clashHashes 0 =
      [demoEntry 0 0 1, demoEntry 6 1 3, demoEntry 6 2 4, demoEntry 9 3 2] := by
    unfold finalEntries
    rw [hes, hst]
    decide +kernel
  unfold indexOfHash binFor
  rw [h2, hbn, hsn, htn]
  dsimp only
  rw [h4 0 (by decide), hfin]
  dsimp only
  unfold lookupByHash
  rw [demo_find hfl _ 3 (Or.inr rfl) (by decide +kernel) (by decide +kernel) (by decide +kernel) (by decide +kernel)
    (by decide +kernel)]
  decide +kernel

/-! ## Examples -/

/-- A sorting function. -/
def demoSort (l : List Bytes) : List Bytes := l.mergeSort fun a b => !entLess demoParams b a

theorem demoSort_ok : SortOK demoParams demoSort := by
  intro l
  refine ⟨List.mergeSort_perm _ _, ?_⟩
  have := List.pairwise_mergeSort (le := fun a b => !entLess demoParams b a) (by
    intro a b c h1 h2
    simp only [entLess, Bool.not_eq_eq_eq_not, Bool.not_true] at h1 h2 ⊢
    split at h1
    · simp at h1
    · split at h2
      · simp at h2
      · rw [if_neg (by omega)]
        split
        · rfl
        · rw [if_neg (by omega)] at h1 h2
          simp at h1 h2 ⊢
          omega) (by
    intro a b
    simp only [entLess, Bool.or_eq_true, Bool.not_eq_eq_eq_not, Bool.not_true]
    by_cases h1 : entSort demoParams b < entSort demoParams a
    · right; rw [if_neg (by omega), if_pos (by omega)]
    · by_cases h2 : entSort demoParams a < entSort demoParams b
      · left; rw [if_neg (by omega), if_pos (by omega)]
      · rw [if_neg (by omega), if_neg (by omega), if_neg (by omega), if_neg (by omega)]
        simp
        omega) l
  refine this.imp ?_
  intro a b h
  simpa using h

/-- Two hashes of one bin and one of another, the first repeated. -/
def demoFile : List Bytes := [7 :: zeros 31, 9 :: List.replicate 31 1, 7 :: zeros 31, List.replicate 32 2]

theorem demoFile_indexable : Indexable demoParams demoFile := by
  refine ⟨⟨by decide +kernel, by decide, by decide, ?_, by decide +kernel⟩, by decide +kernel⟩
  intro h hh
  simp only [demoFile, List.getElem?_cons_zero, Option.some.injEq] at hh
  subst hh
  decide +kernel

example : ∃ d, IndexTheHashes demoParams 100 (1000 * 1000) 3 demoSort demoFile d ∧
    ∃ s, openStore demoParams (WordFile.close d.nums) d.files false = some s ∧ countHashes s = 4 ∧
      ∀ h : Bytes, h.length = 32 → ∃ r, indexOfHash fl53 demoParams s h = some r ∧
        ((∃ i, r = .at i ∧ FirstAt demoFile i h) ∨ (r = .absent ∧ h ∉ demoFile)) := by
  obtain ⟨d, hd⟩ := bulk_completes demo_paramsOK (estimate := 100) (bytesPerPass := 1000 * 1000) (threads := 3)
    (by decide) (sort := demoSort) demoFile_indexable.storable (by decide +kernel)
  exact ⟨d, hd, bulk_first_occurrence_partial floatOK_fl53 demo_paramsOK (by decide) demoSort_ok demoFile_indexable hd⟩

example : ∃ d, IndexTheHashes demoParams 100 (1000 * 1000) 3 demoSort demoFile d ∧
    ∃ s, openStore demoParams (WordFile.close d.nums) d.files false = some s ∧
      ∃ s', getHashAtIndex demoParams s 2 = some (s', some (zeros 32)) := by
  obtain ⟨d, hd⟩ := bulk_completes demo_paramsOK (estimate := 100) (bytesPerPass := 1000 * 1000) (threads := 3)
    (by decide) (sort := demoSort) demoFile_indexable.storable (by decide +kernel)
  exact ⟨d, hd, bulk_get_duplicate_is_zero demo_paramsOK (by decide) demoSort_ok demoFile_indexable hd
    (i := 2) (j := 0) rfl rfl (by decide)⟩

example : ∃ d, IndexTheHashes demoParams 100 (1000 * 1000) 3 demoSort demoFile d ∧
    ∃ s, openStore demoParams (WordFile.close d.nums) d.files false = some s ∧
      (∀ i h, FirstAt demoFile i h → ∃ s', getHashAtIndex demoParams s i = some (s', some h)) ∧
      (∀ i, demoFile.length ≤ i → ∃ s', getHashAtIndex demoParams s i = some (s', none)) := by
  obtain ⟨d, hd⟩ := bulk_completes demo_paramsOK (estimate := 100) (bytesPerPass := 1000 * 1000) (threads := 3)
    (by decide) (sort := demoSort) demoFile_indexable.storable (by decide +kernel)
  exact ⟨d, hd, bulk_get_first_partial demo_paramsOK (by decide) demoSort_ok demoFile_indexable hd⟩

example : ∃ d, IndexTheHashes demoParams 100 (1000 * 1000) 3 demoSort clashHashes d ∧
    ∃ s, openStore demoParams (WordFile.close d.nums) d.files false = some s ∧
      indexOfHash fl53 demoParams s (leEnc 8 6 ++ List.replicate 24 3) = some .absent := by
  obtain ⟨d, hd⟩ := bulk_completes demo_paramsOK (estimate := 100) (bytesPerPass := 1000 * 1000) (threads := 3)
    (by decide) (sort := demoSort) clash_storable (by decide +kernel)
  exact ⟨d, hd, bulk_loses_hash floatOK_fl53 (by decide) demoSort_ok hd⟩

/-- Two hashes of one bin that differ in their first byte only. -/
def tailHashes : List Bytes := [1 :: List.replicate 31 0, 2 :: List.replicate 31 0]

theorem tail_storable : Storable demoParams [1 :: List.replicate 31 0, 2 :: List.replicate 31 0] := by
  refine ⟨by decide +kernel, by decide, by decide, ?_⟩
  intro h hh
  simp only [List.getElem?_cons_zero, Option.some.injEq] at hh
  subst hh
  decide +kernel

example : ∃ d, IndexTheHashes demoParams 100 (1000 * 1000) 3 demoSort tailHashes d ∧
    ∃ s, openStore demoParams (WordFile.close d.nums) d.files false = some s ∧
      (indexOfHash fl53 demoParams s (1 :: List.replicate 31 0) = some .absent ∨
        indexOfHash fl53 demoParams s (2 :: List.replicate 31 0) = some .absent) := by
  obtain ⟨d, hd⟩ := bulk_completes demo_paramsOK (estimate := 100) (bytesPerPass := 1000 * 1000) (threads := 3)
    (by decide) (sort := demoSort) tail_storable (by decide +kernel)
  exact ⟨d, hd, bulk_drops_same_tail floatOK_fl53 demo_paramsOK (by decide) demoSort_ok tail_storable (by decide)
    (by decide +kernel) (by decide +kernel) hd⟩

example (n : Nat) (s : Fan) (h : FanRun demoParams 3 n (fanStart (readLoop demoParams 0 10 0 demoFile)) s) :
    n ≤ 8 ∧ s.crashed = false ∧ (¬ s.done 3 → ∃ t, FanStep demoParams 3 s t) :=
  (bulk_no_deadlock demo_paramsOK (by decide) (sort := demoSort) demoFile_indexable.storable 0 10).1 n s h

example (sort : List Bytes → List Bytes) (L : List Bytes) (d : Disk) :
    plan demoParams (10 * 65536) 100 = none ∧ ¬ IndexTheHashes demoParams (10 * 65536) 100 4 sort L d :=
  bulk_small_grant_panics (by decide) d

end Verif.Bulk3
