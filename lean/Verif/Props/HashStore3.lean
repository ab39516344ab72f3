import Verif.Model.HashStore3
import Verif.Props.BinFiles
import Verif.Props.Bins
import Verif.Props.WordFile

/-! # The binned hash store (C24) -/

namespace Verif.HashStore3

open Bins HashStores WordFile

/-! ## Specification -/

/-- Parameters as `NewHashStoreParams` makes them, with a power-of-two number of bins and widths wide enough
for sort numbers and hash indices. -/
structure ParamsOK (p : Params) : Prop where
  made : ∃ bits digits bins room bsn k, newParams bits digits bins room bsn = some p ∧ bins = 2 ^ k ∧ bins ≤ 2 ^ 56 ∧
    0 < digits
  sortFits : p.divider ≤ 256 ^ p.bytesPerSortNum
  index8 : p.bytesPerHashIndex ≤ 8

/-- The list of hashes appended so far, after one more operation. -/
def after (L : List Bytes) : Op → List Bytes
  | .append h => L ++ [h]
  | _ => L

/-- What the client should observe when the hashes appended so far are `L`. -/
def OutOK (L : List Bytes) : Op → Out → Prop
  | .append _, .index i => i = some L.length
  | .indexOf h, .found (.at i) => L[i]? = some h
  | .indexOf h, .found .absent => h ∉ L
  | .get i, .hash r => r = L[i]?
  | .count, .count n => n = L.length
  | .sync, .unit => True
  | .reopen, .unit => True
  | _, _ => False

/-- Every observation of a session is right. -/
def SessionOK (L : List Bytes) : List Op → List Out → Prop
  | [], [] => True
  | op :: ops, o :: os => OutOK L op o ∧ SessionOK (after L op) ops os
  | _, _ => False

/-- The hashes appended by a session. -/
def appended : List Op → List Bytes
  | [] => []
  | .append h :: ops => h :: appended ops
  | _ :: ops => appended ops

/-- Hashes the store can cope with: 32 bytes, not too many, the first one not encoded as an all-zero entry, and
no two different ones with the same bin and sort number (that is, the same first 8 bytes). -/
structure Appendable (p : Params) (L : List Bytes) : Prop where
  len32 : ∀ h ∈ L, h.length = 32
  count : L.length ≤ 256 ^ p.bytesPerHashIndex
  count48 : L.length ≤ 2 ^ 48
  first : ∀ h, L[0]? = some h → ¬ (truncOf h = zeros 24 ∧ sortNum p h = 0)
  noClash : ∀ a ∈ L, ∀ b ∈ L, abbrOf a = abbrOf b → a = b

/-! ## Invariant -/

/-- Facts about parameters used in the proofs. -/
structure Good (p : Params) : Prop where
  range : ∀ h : Bytes, h.length = 32 → binNum p h < p.numberOfBins
  word : ∀ h : Bytes, h.length = 32 → binNum p h < 256 ^ p.bytesRoomForBinNum
  room : 1 ≤ p.bytesRoomForBinNum ∧ p.bytesRoomForBinNum ≤ 7
  widths : p.Widths
  sort : ∀ h : Bytes, sortNum p h < 256 ^ p.bytesPerSortNum
  digits : 0 < p.digitsPerNumberedFolder

theorem newParams_digits {bits digits bins room bsn : Nat} {p : Params}
    (h : newParams bits digits bins room bsn = some p) : p.digitsPerNumberedFolder = digits := by
  unfold newParams at h
  split at h
  · simp at h
  · split at h
    · simp at h
    · split at h
      · simp at h
      · simp at h; rw [← h]

theorem ParamsOK.good {p : Params} (h : ParamsOK p) : Good p := by
  obtain ⟨⟨bits, digits, bins, room, bsn, k, h1, h2, h3, h4⟩, h5, h6⟩ := h
  obtain ⟨f1, f2, f3, f4, f5⟩ := newParams_facts h1
  refine ⟨fun x hx => ?_, fun x hx => (bin_num_fits_word h1 h3 h2 x hx).1, ?_, ⟨h6, by omega⟩, fun x => ?_, ?_⟩
  · rw [f1]; exact (bin_in_range_iff h1 (by omega)).mpr ⟨k, h2⟩ x hx
  · exact (bin_num_fits_word h1 h3 h2 (zeros 32) (by simp)).2
  · exact Nat.lt_of_lt_of_le (Nat.mod_lt _ (divider_pos (by omega) (by omega))) h5
  · rw [newParams_digits h1]; exact h4

/-- The entry of a hash with its index. -/
def itemAt (p : Params) (x : Bytes × Nat) : Item := ⟨sortNum p x.1, x.2, truncOf x.1⟩

/-- The items of a bin. -/
def itemsFor (p : Params) (L : List Bytes) (bn : Nat) : List Item :=
  (L.zipIdx.filter fun x => binNum p x.1 = bn).map (itemAt p)

/-- Coupling of the store with the list of appended hashes. -/
structure Inv (p : Params) (s : Store) (L : List Bytes) : Prop where
  nums : WordFile.Inv s.binNums (L.map fun h => (binNum p h : Int))
  wsize : s.binNums.wordSize = p.bytesRoomForBinNum
  ram : s.ram = none
  bins : ∀ bn, bn < p.numberOfBins → ∃ es, Stored p s.files bn es ∧ Sized p es ∧ SortedBy p es ∧
    (es.map (itemOf p)).Perm (itemsFor p L bn)

theorem mem_itemsFor {p : Params} {L : List Bytes} {bn : Nat} {x : Item} :
    x ∈ itemsFor p L bn ↔ ∃ h, L[x.index]? = some h ∧ binNum p h = bn ∧ x.sort = sortNum p h ∧ x.trunc = truncOf h := by
  unfold itemsFor
  simp only [List.mem_map, List.mem_filter, decide_eq_true_eq]
  constructor
  · rintro ⟨⟨h, i⟩, ⟨h1, h2⟩, rfl⟩
    exact ⟨h, by rw [List.mem_zipIdx_iff_getElem?] at h1; exact h1, h2, rfl, rfl⟩
  · rintro ⟨h, h1, h2, h3, h4⟩
    refine ⟨(h, x.index), ⟨by rw [List.mem_zipIdx_iff_getElem?]; exact h1, h2⟩, ?_⟩
    unfold itemAt
    rw [← h3, ← h4]

theorem itemsFor_append {p : Params} (L : List Bytes) (h : Bytes) (bn : Nat) :
    itemsFor p (L ++ [h]) bn = itemsFor p L bn ++ if binNum p h = bn then [itemAt p (h, L.length)] else [] := by
  unfold itemsFor
  rw [List.zipIdx_append, List.filter_append, List.map_append]
  congr 1
  by_cases hb : binNum p h = bn <;> simp [List.zipIdx, hb]

theorem itemsFor_length {p : Params} (L : List Bytes) (bn : Nat) : (itemsFor p L bn).length ≤ L.length := by
  unfold itemsFor
  rw [List.length_map]
  exact Nat.le_trans (List.length_filter_le _ _) (by simp)

theorem truncOf_length {h : Bytes} (hl : h.length = 32) : (truncOf h).length = 24 := by
  unfold truncOf; rw [List.length_take, List.length_drop, hl]; rfl

theorem itemOf_zeros {p : Params} : itemOf p (zeros p.entrySize) = ⟨0, 0, zeros 24⟩ := by
  have hz : ∀ n k : Nat, leDec (slice (zeros p.entrySize) n k) = 0 := by
    intro n k
    unfold slice zeros
    rw [List.drop_replicate, List.take_replicate]
    exact leDec_zeros _
  unfold itemOf entSort entIndex entTrunc
  rw [hz, hz]
  unfold zeros
  rw [List.take_replicate, Nat.min_eq_left (by unfold Params.entrySize; omega)]

theorem Appendable.tail {p : Params} {L : List Bytes} (hA : Appendable p L) {bn : Nat} {es : List Bytes}
    (hp : (es.map (itemOf p)).Perm (itemsFor p L bn)) : TailOK p es := by
  intro e he _ hz
  have hm : itemOf p e ∈ itemsFor p L bn := hp.mem_iff.mp (List.mem_map.mpr ⟨e, List.mem_of_getElem? he, rfl⟩)
  rw [hz, itemOf_zeros, mem_itemsFor] at hm
  obtain ⟨h, h1, _, h3, h4⟩ := hm
  exact hA.first h h1 ⟨h4.symm, h3.symm⟩

theorem Appendable.prefix {p : Params} {L M : List Bytes} (hA : Appendable p (L ++ M)) : Appendable p L := by
  refine ⟨fun h hh => hA.len32 h (by simp [hh]), ?_, ?_, ?_, ?_⟩
  · have := hA.count; rw [List.length_append] at this; omega
  · have := hA.count48; rw [List.length_append] at this; omega
  · intro h hh
    refine hA.first h ?_
    rw [List.getElem?_append_left (lt_of_getElem?_some hh)]; exact hh
  · exact fun a ha b hb => hA.noClash a (by simp [ha]) b (by simp [hb])

theorem same_abbr {p : Params} {a b : Bytes} (h1 : binNum p a = binNum p b) (h2 : sortNum p a = sortNum p b) :
    abbrOf a = abbrOf b := by
  unfold binNum at h1
  unfold sortNum at h2
  rw [← Nat.div_add_mod (abbrOf a) p.divider, ← Nat.div_add_mod (abbrOf b) p.divider, h1, h2]

/-- Loading a bin. -/
theorem Inv.load {p : Params} {s : Store} {L : List Bytes} (hI : Inv p s L) (hA : Appendable p L) {bn : Nat}
    (hbn : bn < p.numberOfBins) :
    ∃ es, loadBin p s.files bn = some es.flatten ∧ Stored p s.files bn es ∧ Sized p es ∧ SortedBy p es ∧
      (es.map (itemOf p)).Perm (itemsFor p L bn) ∧ es.length ≤ 2 ^ 48 := by
  obtain ⟨es, h1, h2, h3, h4⟩ := hI.bins bn hbn
  refine ⟨es, load_stored h1 h2 (hA.tail h4), h1, h2, h3, h4, ?_⟩
  have e1 := h4.length_eq
  rw [List.length_map] at e1
  have e2 := itemsFor_length (p := p) L bn
  have := hA.count48
  omega

theorem append_ok {fl : Rat → Rat} (hfl : FloatOK fl) {p : Params} (hg : Good p) {s : Store} {L : List Bytes}
    (hI : Inv p s L) {h : Bytes} (hA : Appendable p (L ++ [h])) :
    ∃ s', appendHash fl p s h = some (s', some L.length) ∧ Inv p s' (L ++ [h]) := by
  have hl : h.length = 32 := hA.len32 h (by simp)
  have hA' := hA.prefix
  have hbn := hg.range h hl
  obtain ⟨es, h1, h2, h3, h4, h5, h6⟩ := hI.load hA' hbn
  have hcnt : countWords s.binNums = L.length := by
    have := hI.nums.count
    rw [List.length_map] at this
    exact this
  have hfit : (itemAt p (h, L.length)).Fits p := by
    refine ⟨truncOf_length hl, ?_, hg.sort h⟩
    have := hA.count
    rw [List.length_append, List.length_singleton] at this
    show L.length < _
    omega
  obtain ⟨en, e1, e2, e3⟩ := Item.encode hg.widths hfit
  obtain ⟨i, i1, i2⟩ := insert_ok hfl h3 h4 h6 e1 e2
  have hsz : Sized p (es.take i ++ en :: es.drop i) := by
    intro e he
    rw [List.mem_append, List.mem_cons] at he
    rcases he with he | rfl | he
    · exact h3 e (List.mem_of_mem_take he)
    · exact e2
    · exact h3 e (List.mem_of_mem_drop he)
  have hperm : (es.take i ++ en :: es.drop i).Perm (en :: es) := by
    have := List.perm_middle (a := en) (l₁ := es.take i) (l₂ := es.drop i)
    rwa [List.take_append_drop] at this
  have hso : SortedBy p (es.take i ++ en :: es.drop i) :=
    sorted_insert h4 (by have := congrArg Item.sort e3; exact this) i2
  refine ⟨{ s with binNums := writeWordAt s.binNums (binNum p h) L.length,
                   files := saveBin p s.files (binNum p h) (es.take i ++ en :: es.drop i).flatten }, ?_, ?_⟩
  · unfold appendHash
    rw [hI.ram]
    simp only [Option.isSome_none, Bool.false_eq_true, if_false, hcnt, h1]
    simp only [itemAt] at i1
    rw [i1]
  · refine ⟨?_, ?_, hI.ram, ?_⟩
    · have hf : WordFile.fits s.binNums.wordSize (binNum p h : Int) := by
        rw [hI.wsize]
        unfold WordFile.fits
        rw [if_neg (by have := hg.room.2; omega)]
        refine ⟨Int.natCast_nonneg _, ?_⟩
        rw [← natCast_pow256]
        exact Int.ofNat_lt.mpr (hg.word h hl)
      have := WordFile.inv_write hI.nums L.length hf
      have e : setExt (L.map fun h => (binNum p h : Int)) L.length (binNum p h : Int) 0 =
          (L ++ [h]).map fun h => (binNum p h : Int) := by
        have := setExt_end (L.map fun h => (binNum p h : Int)) (binNum p h : Int) 0
        rw [List.length_map] at this
        rw [this]; simp
      rw [e] at this
      exact this
    · exact hI.wsize
    · intro bn' hbn'
      rw [itemsFor_append]
      by_cases hb : binNum p h = bn'
      · subst hb
        rw [if_pos rfl]
        refine ⟨_, save_stored h2 h3 hsz ?_, hsz, hso, ?_⟩
        · rw [hperm.length_eq, List.length_cons]; omega
        · refine (hperm.map (itemOf p)).trans ?_
          rw [List.map_cons, e3]
          exact (List.perm_append_singleton _ _).symm.trans (h5.append_right _)
      · rw [if_neg hb, List.append_nil]
        obtain ⟨es', g1, g2, g3, g4⟩ := hI.bins bn' hbn'
        exact ⟨es', save_other hg.digits g1 hb hsz, g2, g3, g4⟩

theorem indexOf_ok {fl : Rat → Rat} (hfl : FloatOK fl) {p : Params} (hg : Good p) {s : Store} {L : List Bytes}
    (hI : Inv p s L) (hA : Appendable p L) {h : Bytes} (hl : h.length = 32) :
    ∃ r, indexOfHash fl p s h = some r ∧ OutOK L (.indexOf h) (.found r) := by
  obtain ⟨es, h1, h2, h3, h4, h5, h6⟩ := hI.load hA (hg.range h hl)
  have hidx : indexOfHash fl p s h = lookupByHash fl p es.flatten (truncOf h) (sortNum p h) := by
    unfold indexOfHash binFor
    rw [hI.ram]
    dsimp only
    rw [h1]
  have hhit : ∀ hi, (⟨sortNum p h, hi, truncOf h⟩ : Item) ∈ itemsFor p L (binNum p h) ↔ L[hi]? = some h := by
    intro hi
    rw [mem_itemsFor]
    constructor
    · rintro ⟨x, x1, x2, x3, x4⟩
      rw [x1, split_injective (hA.len32 x (List.mem_of_getElem? x1)) hl x2 x3.symm x4.symm]
    · intro hx
      exact ⟨h, hx, rfl, rfl, rfl⟩
  by_cases hin : h ∈ L
  · obtain ⟨r, r1, r2⟩ := lookup_complete_es hfl h3 h4 h6 (truncOf h) (sortNum p h) (by
      intro x hx hs
      rw [h5.mem_iff, mem_itemsFor] at hx
      obtain ⟨y, y1, y2, y3, y4⟩ := hx
      rw [y4, hA.noClash y (List.mem_of_getElem? y1) h hin (same_abbr y2 (by omega))])
    simp only [h5.mem_iff, hhit] at r2
    refine ⟨r, by rw [hidx]; exact r1, ?_⟩
    rcases r2 with ⟨hi, rfl, h7⟩ | ⟨rfl, h7⟩
    · exact h7
    · obtain ⟨i, hi⟩ := List.mem_iff_getElem?.mp hin
      exact absurd hi (h7 i)
  · obtain ⟨r, r1, r2⟩ := lookup_sound_es hfl h3 h4 h6 (truncOf h) (sortNum p h)
    simp only [h5.mem_iff, hhit] at r2
    refine ⟨r, by rw [hidx]; exact r1, ?_⟩
    rcases r2 with rfl | ⟨hi, rfl, h7⟩
    · exact hin
    · exact h7

theorem get_ok {p : Params} (hg : Good p) {s : Store} {L : List Bytes}
    (hI : Inv p s L) (hA : Appendable p L) (i : Nat) :
    ∃ s', getHashAtIndex p s i = some (s', L[i]?) ∧ Inv p s' L := by
  obtain ⟨h1, h2⟩ := WordFile.inv_read hI.nums i
  have hws : (readWordAt s.binNums i).1.wordSize = s.binNums.wordSize := by
    unfold readWordAt; dsimp only; split <;> rfl
  have hI' : Inv p { s with binNums := (readWordAt s.binNums i).1 } L :=
    ⟨h1, by rw [← hI.wsize]; exact hws, hI.ram, hI.bins⟩
  refine ⟨_, ?_, hI'⟩
  unfold getHashAtIndex
  rcases hr : readWordAt s.binNums i with ⟨w, v⟩
  rw [hr] at h2
  simp only at h2
  rw [List.getElem?_map] at h2
  cases hLi : L[i]? with
  | none =>
    rw [hLi] at h2
    simp only [Option.map_none] at h2
    subst h2
    rfl
  | some h =>
    rw [hLi] at h2
    simp only [Option.map_some] at h2
    subst h2
    dsimp only
    have hmem := List.mem_of_getElem? hLi
    have hl := hA.len32 h hmem
    obtain ⟨es, e1, e2, e3, e4, e5, e6⟩ := hI.load hA (hg.range h hl)
    rw [Int.toNat_natCast, e1]
    dsimp only
    rw [lookupByIndex_eq e3]
    have hx : (⟨sortNum p h, i, truncOf h⟩ : Item) ∈ es.map (itemOf p) := by
      rw [e5.mem_iff, mem_itemsFor]; exact ⟨h, hLi, rfl, rfl, rfl⟩
    obtain ⟨e, he, hee⟩ := List.mem_map.mp hx
    cases hf : es.find? fun e => decide (entIndex p e = i) with
    | none =>
      rw [List.find?_eq_none] at hf
      have := hf e he
      have h8 := congrArg Item.index hee
      simp [itemOf] at h8
      simp [h8] at this
    | some e' =>
      have f1 : entIndex p e' = i := by simpa using List.find?_some hf
      have f2 : itemOf p e' ∈ itemsFor p L (binNum p h) :=
        e5.mem_iff.mp (List.mem_map.mpr ⟨e', List.mem_of_find?_eq_some hf, rfl⟩)
      rw [mem_itemsFor] at f2
      obtain ⟨y, y1, y2, y3, y4⟩ := f2
      simp only [itemOf] at y1 y3 y4
      rw [f1, hLi] at y1
      cases y1
      dsimp only
      rw [y3, y4, hash_reconstructed p h hl]

theorem reopen_ok {p : Params} (hg : Good p) {s : Store} {L : List Bytes} (hI : Inv p s L) :
    ∃ s', openStore p (close s).1 (close s).2 false = some s' ∧ Inv p s' L := by
  obtain ⟨plain, hp, hm, hl⟩ := hI.nums.file
  rw [hI.wsize] at hm hl
  have hc : (close s).1 = plain := (AppendOpt.inv_flush hp).2.1
  have ho : openWordFile p.bytesRoomForBinNum plain =
      some (new (AppendOpt.openFile plain) p.bytesRoomForBinNum (plain.length / p.bytesRoomForBinNum)) := by
    simp [openWordFile, fileWordCount, hm]
  have hr := hg.room
  obtain ⟨i1, i2⟩ := WordFile.inv_open (by omega) ho
  rw [hl] at i1
  refine ⟨{ binNums := new (AppendOpt.openFile plain) p.bytesRoomForBinNum (plain.length / p.bytesRoomForBinNum),
            files := s.files, ram := none }, ?_, ⟨i1, i2, rfl, hI.bins⟩⟩
  unfold openStore
  rw [hc, ho]
  rfl

theorem step_ok {fl : Rat → Rat} (hfl : FloatOK fl) {p : Params} (hg : Good p) {s : Store} {L : List Bytes}
    (hI : Inv p s L) (op : Op) (hA : Appendable p (after L op)) (hq : ∀ h, op = .indexOf h → h.length = 32) :
    ∃ s' o, step fl p s op = some (s', o) ∧ OutOK L op o ∧ Inv p s' (after L op) := by
  cases op with
  | append h =>
    obtain ⟨s', h1, h2⟩ := append_ok hfl hg hI hA
    exact ⟨s', .index (some L.length), by simp [step, h1], rfl, h2⟩
  | indexOf h =>
    obtain ⟨r, h1, h2⟩ := indexOf_ok hfl hg hI hA (hq h rfl)
    exact ⟨s, .found r, by simp [step, h1], h2, hI⟩
  | get i =>
    obtain ⟨s', h1, h2⟩ := get_ok hg hI hA i
    exact ⟨s', .hash L[i]?, by simp [step, h1], rfl, h2⟩
  | count =>
    refine ⟨s, .count (countHashes s), rfl, ?_, hI⟩
    have := hI.nums.count
    rw [List.length_map] at this
    exact this
  | sync =>
    obtain ⟨h1, _, h3⟩ := WordFile.inv_step hI.nums .sync trivial
    exact ⟨_, .unit, rfl, trivial, ⟨h1, by rw [← hI.wsize]; exact h3, hI.ram, hI.bins⟩⟩
  | reopen =>
    obtain ⟨s', h1, h2⟩ := reopen_ok hg hI
    exact ⟨s', .unit, by simp [step, h1], trivial, h2⟩

theorem after_appended (L : List Bytes) (op : Op) (ops : List Op) :
    L ++ appended (op :: ops) = after L op ++ appended ops := by
  cases op <;> simp [appended, after]

theorem run_ok {fl : Rat → Rat} (hfl : FloatOK fl) {p : Params} (hg : Good p) (ops : List Op) {s : Store}
    {L : List Bytes} (hI : Inv p s L) (hA : Appendable p (L ++ appended ops))
    (hq : ∀ h, Op.indexOf h ∈ ops → h.length = 32) :
    ∃ s' os, run fl p s ops = some (s', os) ∧ SessionOK L ops os ∧ Inv p s' (L ++ appended ops) := by
  induction ops generalizing s L with
  | nil => exact ⟨s, [], rfl, trivial, by simpa [appended] using hI⟩
  | cons op ops ih =>
    rw [after_appended] at hA ⊢
    obtain ⟨s1, o, h1, h2, h3⟩ := step_ok hfl hg hI op hA.prefix (fun h hh => hq h (by simp [hh]))
    obtain ⟨s2, os, h4, h5, h6⟩ := ih h3 hA (fun h hh => hq h (by simp [hh]))
    exact ⟨s2, o :: os, by simp [run, h1, h4], ⟨h2, h5⟩, h6⟩

theorem inv_fresh {p : Params} (hg : Good p) :
    ∃ s, openStore p [] (freshFiles p) false = some s ∧ Inv p s [] := by
  have hr := hg.room
  have ho : openWordFile p.bytesRoomForBinNum [] =
      some (new (AppendOpt.openFile []) p.bytesRoomForBinNum (0 / p.bytesRoomForBinNum)) := by
    simp [openWordFile, fileWordCount]
  obtain ⟨i1, i2⟩ := WordFile.inv_open (by omega) ho
  refine ⟨_, by unfold openStore; rw [ho]; rfl, ⟨?_, i2, rfl, ?_⟩⟩
  · have : wordsOf p.bytesRoomForBinNum [] = [] := by
      apply List.length_eq_zero_iff.mp; rw [wordsOf_length]; simp
    rw [this] at i1; exact i1
  · intro bn hbn
    exact ⟨[], stored_fresh hbn, by intro e he; simp at he, List.Pairwise.nil, by simp [itemsFor]⟩

/-! ## Properties -/

/-- **C24, partial.** On the files made by the preloader (room for every bin), every session of appends,
lookups, reads, counts, syncs and close-and-reopen runs without panic or error and every answer is right:
`AppendHash` returns the number of hashes before, `IndexOfHash` an index at which the hash was appended or -1
exactly if it never was, `GetHashAtIndex` the hash appended at that index (an error beyond the end),
`CountHashes` the number of appends.

Missing: hashes that share their first 8 bytes (`noClash`, see `bin_lookup_misses`), a first hash encoded as
an all-zero entry (`zero_hash_not_found`), and stores made by `CreateHashStore`
(`created_store_rejects_appends`): there the code is wrong. -/
theorem binned_store_partial {fl : Rat → Rat} (hfl : FloatOK fl) {p : Params} (hp : ParamsOK p) (ops : List Op)
    (hA : Appendable p (appended ops)) (hq : ∀ h, Op.indexOf h ∈ ops → h.length = 32) :
    ∃ s, openStore p [] (freshFiles p) false = some s ∧
      ∃ s' os, run fl p s ops = some (s', os) ∧ SessionOK [] ops os := by
  obtain ⟨s, h1, h2⟩ := inv_fresh hp.good
  obtain ⟨s', os, h3, h4, _⟩ := run_ok hfl hp.good ops h2 (by simpa using hA) hq
  exact ⟨s, h1, s', os, h3, h4⟩

theorem demo_paramsOK : ParamsOK demoParams :=
  ⟨⟨19, 2, 65536, 9, 6, 16, rfl, by decide, by decide, by decide⟩, by decide, by decide⟩

/-- Two hashes of one bin and one of another. -/
def demoHashes : List Bytes := [7 :: zeros 31, 9 :: zeros 31, List.replicate 32 1]

theorem demo_appendable : Appendable demoParams demoHashes := by
  refine ⟨?_, by decide, by decide, ?_, ?_⟩
  · decide
  · intro h hh
    simp only [demoHashes, List.getElem?_cons_zero, Option.some.injEq] at hh
    subst hh
    decide +kernel
  · decide +kernel

example : ∃ s, openStore demoParams [] (freshFiles demoParams) false = some s ∧
    ∃ s' os, run fl53 demoParams s [.append (7 :: zeros 31), .append (9 :: zeros 31), .reopen,
        .append (List.replicate 32 1), .indexOf (9 :: zeros 31), .get 2] = some (s', os) ∧
      SessionOK [] [.append (7 :: zeros 31), .append (9 :: zeros 31), .reopen,
        .append (List.replicate 32 1), .indexOf (9 :: zeros 31), .get 2] os :=
  binned_store_partial floatOK_fl53 demo_paramsOK _ demo_appendable (by
    intro h hh; simp at hh; subst hh; rfl)

/-- **C24 is violated for stores made by `CreateHashStore`.** Its bin-starts file has room for one bin only:
appending any hash of another bin returns an error, and yet the hash count goes up. For all parameters. -/
theorem created_store_rejects_appends (fl : Rat → Rat) {p : Params} (hp : ParamsOK p) (hr : 0 < p.entriesInBinStart)
    {h : Bytes} (hb : 1 ≤ binNum p h) :
    ∃ s, openStore p (createHashStore p).1 (createHashStore p).2 false = some s ∧ countHashes s = 0 ∧
      ∃ s', appendHash fl p s h = some (s', none) ∧ countHashes s' = 1 := by
  have hrm := hp.good.room
  have ho : openWordFile p.bytesRoomForBinNum [] =
      some (new (AppendOpt.openFile []) p.bytesRoomForBinNum (0 / p.bytesRoomForBinNum)) := by
    simp [openWordFile, fileWordCount]
  refine ⟨_, by unfold openStore createHashStore; rw [ho]; rfl, by simp [countHashes, countWords, new], ?_⟩
  have hload : loadBin p (createHashStore p).2 (binNum p h) = none := by
    unfold loadBin readAt createHashStore
    rw [if_neg, Option.map_none]
    rw [zeros_length, Nat.mul_assoc]
    have hpos : 0 < p.entrySize * p.entriesInBinStart := Nat.mul_pos (entrySize_pos p) hr
    have := Nat.mul_le_mul_right (p.entrySize * p.entriesInBinStart) hb
    omega
  unfold appendHash
  unfold createHashStore at hload
  simp only [Option.isSome_none, Bool.false_eq_true, if_false] at hload ⊢
  rw [hload]
  exact ⟨_, rfl, by simp [countHashes, countWords, writeWordAt, new]⟩

example : ∃ s, openStore demoParams (createHashStore demoParams).1 (createHashStore demoParams).2 false = some s ∧
    countHashes s = 0 ∧ ∃ s', appendHash fl53 demoParams s (List.replicate 32 1) = some (s', none) ∧ countHashes s' = 1 :=
  created_store_rejects_appends fl53 demo_paramsOK (by decide) (by decide +kernel)

/-- **C24 is violated for a first hash encoded as zero.** On a fresh store, appending the all-zero hash
succeeds with index 0, and the hash is then reported absent. For all parameters. -/
theorem zero_hash_not_found (fl : Rat → Rat) {p : Params} (hp : ParamsOK p) (hr : 0 < p.entriesInBinStart) :
    ∃ s, openStore p [] (freshFiles p) false = some s ∧
      ∃ s', appendHash fl p s (zeros 32) = some (s', some 0) ∧
        indexOfHash fl p s' (zeros 32) = some .absent := by
  have hg := hp.good
  obtain ⟨s, h1, hI⟩ := inv_fresh hg
  refine ⟨s, h1, ?_⟩
  have hab : abbrOf (zeros 32) = 0 := by decide
  have hbn : binNum p (zeros 32) = 0 := by unfold binNum; rw [hab]; simp
  have hsn : sortNum p (zeros 32) = 0 := by unfold sortNum; rw [hab]; simp
  have htr : truncOf (zeros 32) = zeros 24 := by decide
  have hbins : 0 < p.numberOfBins := by
    have := hg.range (zeros 32) (by simp); omega
  have hf : s.files = freshFiles p := by
    have hrm := hg.room
    have ho : openWordFile p.bytesRoomForBinNum [] =
        some (new (AppendOpt.openFile []) p.bytesRoomForBinNum (0 / p.bytesRoomForBinNum)) := by
      simp [openWordFile, fileWordCount]
    unfold openStore at h1
    rw [ho] at h1
    simp at h1
    rw [← h1]
  have hload : loadBin p s.files 0 = some [] := by
    have := load_stored (p := p) (f := freshFiles p) (bn := 0) (es := []) (stored_fresh hbins)
      (fun e he => by simp at he) (fun e he => by simp at he)
    rw [hf]; exact this
  have hcnt : countWords s.binNums = 0 := hI.nums.count
  have hins : insertBinEntry fl p [] 0 0 (zeros 24) = some (zeros p.entrySize, 0) := by
    unfold insertBinEntry
    rw [encEntry_eq hg.widths.1 hg.widths.2 (by simp) (Nat.pow_pos (by decide)) (Nat.pow_pos (by decide))]
    have : zeros 24 ++ leEnc p.bytesPerHashIndex 0 ++ leEnc p.bytesPerSortNum 0 = zeros p.entrySize := by
      rw [leEnc_zero, leEnc_zero]
      unfold zeros Params.entrySize
      rw [List.replicate_append_replicate, List.replicate_append_replicate]
      congr 1; omega
    rw [this]
    simp [findIndex]
  refine ⟨{ s with binNums := writeWordAt s.binNums (0 : Nat) 0,
                   files := saveBin p s.files 0 (zeros p.entrySize) }, ?_, ?_⟩
  · unfold appendHash
    rw [hI.ram]
    simp only [Option.isSome_none, Bool.false_eq_true, if_false, hcnt, hbn, hsn, htr, hload, hins]
  · unfold indexOfHash binFor
    dsimp only
    rw [hI.ram, hf]
    dsimp only
    rw [hbn, zero_entry_lost hr hbins]
    unfold lookupByHash findIndex
    simp [scanHash, binLen]

example : ∃ s, openStore demoParams [] (freshFiles demoParams) false = some s ∧
    ∃ s', appendHash fl53 demoParams s (zeros 32) = some (s', some 0) ∧
      indexOfHash fl53 demoParams s' (zeros 32) = some .absent :=
  zero_hash_not_found fl53 demo_paramsOK (by decide)

/-- **C54 (through the store).** A store opened with its bins in memory answers every hash lookup as the
store that reads its files, whenever the bin-starts file has room for all bins and the bin number file is
whole; appending to it panics. -/
theorem ram_store_agrees (fl : Rat → Rat) {p : Params} (hp : ParamsOK p) {nums : Bytes} {f : Files} {s : Store}
    (hs : openStore p nums f false = some s)
    (hlen : p.numberOfBins * (p.entrySize * p.entriesInBinStart) ≤ f.binStarts.length) :
    ∃ s', openStore p nums f true = some s' ∧
      (∀ h : Bytes, h.length = 32 → indexOfHash fl p s' h = indexOfHash fl p s h) ∧
      (∀ i, (getHashAtIndex p s' i).map (·.2) = (getHashAtIndex p s i).map (·.2)) ∧
      ∀ h, appendHash fl p s' h = none := by
  obtain ⟨l, h1, h2, h3⟩ := load_all_agrees hlen
  unfold openStore at hs ⊢
  cases ho : openWordFile p.bytesRoomForBinNum nums with
  | none => rw [ho] at hs; simp at hs
  | some w =>
    rw [ho] at hs
    simp only [Bool.false_eq_true, if_false, Option.some.injEq] at hs
    subst hs
    simp only [if_true, h1, Option.map_some]
    refine ⟨_, rfl, ?_, ?_, ?_⟩
    · intro h hl
      have hb := hp.good.range h hl
      unfold indexOfHash binFor
      dsimp only
      rw [h3 _ hb, List.getElem?_eq_getElem (by omega)]
      rfl
    · intro i
      unfold getHashAtIndex
      dsimp only
      rcases readWordAt w i with ⟨w', _ | v⟩
      · rfl
      · dsimp only
        cases loadBin p f v.toNat with
        | none => rfl
        | some b =>
          dsimp only
          cases lookupByIndex p b i v.toNat <;> rfl
    · intro h
      rfl

example : ∃ s', openStore smallParams [] (freshFiles smallParams) true = some s' ∧
    ∀ h, appendHash fl53 smallParams s' h = none := by
  obtain ⟨s', h1, _, _, h2⟩ := ram_store_agrees fl53 (p := smallParams) (nums := []) (f := freshFiles smallParams)
    ⟨⟨8, 2, 4, 2, 8, 2, rfl, by decide, by decide, by decide⟩, by decide, by decide⟩ rfl (by decide +kernel)
  exact ⟨s', h1, h2⟩

end Verif.HashStore3
