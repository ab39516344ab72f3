import Verif.Model.BinDisk
import Verif.Props.HashStore3

/-! # The binned hash store on a disk that can fail (C120) -/

namespace Verif.BinDisk

open Bins HashStores WordFile
open HashStore3 (Store Good ParamsOK Appendable itemAt itemsFor mem_itemsFor truncOf_length itemOf_zeros same_abbr)

/-! ## Specification -/

/-- The disk fails, if at all, before any byte of a bin is written, and no overflow file that is there is unreadable. -/
def Early (ft : Fates) : Prop := ft.ovfRead = true ∧ (ft.ovfWrite = .ok ∨ ft.ovfWrite = .refused) ∧ ft.startWrite = none

/-- The calls of `AppendHash` so far: each hash, and whether nil was returned. -/
abbrev Slots := List (Bytes × Bool)

/-- The calls of `AppendHash` after one more operation, going by what it answered. -/
def after (L : Slots) : Op → HashStore3.Out → Slots
  | .append h _, .index r => L ++ [(h, r.isSome)]
  | _, _ => L

/-- What the client should observe after the calls `L`. An error comes only if the disk failed. A call that returned an error
has used up its index: it is counted, and a hash of zeros is found there. -/
def OutOK (L : Slots) : Op → HashStore3.Out → Prop
  | .append _ _, .index (some i) => i = L.length
  | .append _ ft, .index none => ft ≠ .fine
  | .indexOf h _, .found (.at i) => L[i]? = some (h, true)
  | .indexOf h _, .found .absent => (h, true) ∉ L
  | .indexOf _ ft, .found .err => ft ≠ .fine
  | .get i ft, .hash none => L.length ≤ i ∨ ft ≠ .fine
  | .get i _, .hash (some x) => ∃ h ok, L[i]? = some (h, ok) ∧ x = if ok = true then h else zeros 32
  | .count, .count n => n = L.length
  | .sync, .unit => True
  | .reopen, .unit => True
  | _, _ => False

/-- Every observation of a session is right. -/
def SessionOK (L : Slots) : List Op → List HashStore3.Out → Prop
  | [], [] => True
  | op :: ops, o :: os => OutOK L op o ∧ SessionOK (after L op o) ops os
  | _, _ => False

/-- The hashes of the appends of a session, those that fail included. -/
def tried : List Op → List Bytes
  | [] => []
  | .append h _ :: ops => h :: tried ops
  | _ :: ops => tried ops

/-- What the disk does in an operation. -/
def Op.fates : Op → Option Fates
  | .append _ ft => some ft
  | .indexOf _ ft => some ft
  | .get _ ft => some ft
  | _ => none

/-! ## Invariant -/

/-- The items of a bin: those of the appends that returned nil. -/
def itemsOk (p : Params) (L : Slots) (bn : Nat) : List Item :=
  (L.zipIdx.filter fun x => x.1.2 && decide (binNum p x.1.1 = bn)).map fun x => itemAt p (x.1.1, x.2)

/-- Coupling of the store with the calls so far. -/
structure Inv (p : Params) (s : Store) (L : Slots) : Prop where
  nums : WordFile.Inv s.binNums (L.map fun x => (binNum p x.1 : Int))
  wsize : s.binNums.wordSize = p.bytesRoomForBinNum
  ram : s.ram = none
  bins : ∀ bn, bn < p.numberOfBins → ∃ es, Stored p s.files bn es ∧ Sized p es ∧ SortedBy p es ∧
    (es.map (itemOf p)).Perm (itemsOk p L bn)

theorem mem_itemsOk {p : Params} {L : Slots} {bn : Nat} {x : Item} :
    x ∈ itemsOk p L bn ↔
      ∃ h, L[x.index]? = some (h, true) ∧ binNum p h = bn ∧ x.sort = sortNum p h ∧ x.trunc = truncOf h := by
  unfold itemsOk
  simp only [List.mem_map, List.mem_filter, Bool.and_eq_true, decide_eq_true_eq]
  constructor
  · rintro ⟨⟨⟨h, b⟩, i⟩, ⟨h1, h2, h3⟩, rfl⟩
    simp only at h2 h3
    subst h2
    exact ⟨h, by rw [List.mem_zipIdx_iff_getElem?] at h1; exact h1, h3, rfl, rfl⟩
  · rintro ⟨h, h1, h2, h3, h4⟩
    refine ⟨((h, true), x.index), ⟨by rw [List.mem_zipIdx_iff_getElem?]; exact h1, rfl, h2⟩, ?_⟩
    unfold itemAt
    rw [← h3, ← h4]

theorem itemsOk_append {p : Params} (L : Slots) (h : Bytes) (ok : Bool) (bn : Nat) :
    itemsOk p (L ++ [(h, ok)]) bn =
      itemsOk p L bn ++ if ok = true ∧ binNum p h = bn then [itemAt p (h, L.length)] else [] := by
  unfold itemsOk
  rw [List.zipIdx_append, List.filter_append, List.map_append]
  congr 1
  cases ok <;> by_cases hb : binNum p h = bn <;> simp [List.zipIdx, hb]

theorem itemsOk_length {p : Params} (L : Slots) (bn : Nat) : (itemsOk p L bn).length ≤ L.length := by
  unfold itemsOk
  rw [List.length_map]
  exact Nat.le_trans (List.length_filter_le _ _) (by simp)

/-- Every entry of a bin is that of a hash of `M`, under its index. -/
def Covered (p : Params) (M : List Bytes) (bn : Nat) (es : List Bytes) : Prop :=
  ∀ e ∈ es, ∃ h, M[entIndex p e]? = some h ∧ binNum p h = bn ∧ entSort p e = sortNum p h ∧ entTrunc e = truncOf h

theorem Covered.tail {p : Params} {M : List Bytes} {bn : Nat} {es : List Bytes} (hc : Covered p M bn es)
    (hA : Appendable p M) : TailOK p es := by
  intro e he _ hz
  obtain ⟨h, h1, _, h3, h4⟩ := hc e (List.mem_of_getElem? he)
  have hi : itemOf p e = ⟨0, 0, zeros 24⟩ := by rw [hz, itemOf_zeros]
  have i1 : entSort p e = 0 := congrArg Item.sort hi
  have i2 : entIndex p e = 0 := congrArg Item.index hi
  have i3 : entTrunc e = zeros 24 := congrArg Item.trunc hi
  rw [i2] at h1
  exact hA.first h h1 ⟨by rw [← h4, i3], by rw [← h3, i1]⟩

theorem covered_ok {p : Params} {L : Slots} {bn : Nat} {es : List Bytes}
    (hp : (es.map (itemOf p)).Perm (itemsOk p L bn)) : Covered p (L.map Prod.fst) bn es := by
  intro e he
  have hm : itemOf p e ∈ itemsOk p L bn := hp.mem_iff.mp (List.mem_map.mpr ⟨e, he, rfl⟩)
  rw [mem_itemsOk] at hm
  obtain ⟨h, h1, h2, h3, h4⟩ := hm
  exact ⟨h, by rw [List.getElem?_map]; simp only [itemOf] at h1; rw [h1]; rfl, h2, h3, h4⟩

/-- Loading a bin. -/
theorem Inv.load {p : Params} {s : Store} {L : Slots} (hI : Inv p s L) (hA : Appendable p (L.map Prod.fst)) {bn : Nat}
    (hbn : bn < p.numberOfBins) :
    ∃ es, Bins.loadBin p s.files bn = some es.flatten ∧ Stored p s.files bn es ∧ Sized p es ∧ SortedBy p es ∧
      (es.map (itemOf p)).Perm (itemsOk p L bn) ∧ es.length ≤ 2 ^ 48 := by
  obtain ⟨es, h1, h2, h3, h4⟩ := hI.bins bn hbn
  refine ⟨es, load_stored h1 h2 ((covered_ok h4).tail hA), h1, h2, h3, h4, ?_⟩
  have e1 := h4.length_eq
  rw [List.length_map] at e1
  have e2 := itemsOk_length (p := p) L bn
  have := hA.count48
  rw [List.length_map] at this
  omega

theorem loadBin_early {ft : Fates} (he : ft.ovfRead = true) (p : Params) (f : Files) (bn : Nat) :
    loadBin ft p f bn = if ft.startRead = true then Bins.loadBin p f bn else none := by
  unfold loadBin seen
  rw [if_pos he]

theorem saveBin_early {ft : Fates} (he : Early ft) (p : Params) (f : Files) (bn : Nat) (b : Bytes) :
    (saveBin ft p f bn b = (f, false) ∧ ft ≠ .fine) ∨ saveBin ft p f bn b = (Bins.saveBin p f bn b, true) := by
  obtain ⟨_, h2, h3⟩ := he
  unfold saveBin Bins.saveBin writeStart
  rw [h3]
  dsimp only
  by_cases hg : binLen p b > p.entriesInBinStart
  · simp only [if_pos hg]
    by_cases hd : ft.dir = false
    · left
      rw [if_pos hd]
      exact ⟨rfl, fun h => by rw [h] at hd; simp [Fates.fine] at hd⟩
    · rw [if_neg hd]
      rcases h2 with h2 | h2
      · right; simp only [h2]
      · left; simp only [h2]
        exact ⟨trivial, fun h => by rw [h] at h2; simp [Fates.fine] at h2⟩
  · right
    simp only [if_neg hg]

/-- On a disk that works this is the store of C24. -/
theorem fine_is_the_store (fl : Rat → Rat) (p : Params) (s : Store) (h : Bytes) :
    appendHash .fine fl p s h = HashStore3.appendHash fl p s h := by
  unfold appendHash HashStore3.appendHash
  by_cases hr : s.ram.isSome = true
  · rw [if_pos hr, if_pos hr]
  · rw [if_neg hr, if_neg hr]
    dsimp only
    rw [loadBin_early rfl, if_pos (show Fates.fine.startRead = true from rfl)]
    cases Bins.loadBin p s.files (binNum p h) with
    | none => rfl
    | some b =>
      dsimp only
      cases insertBinEntry fl p b (sortNum p h) (countWords s.binNums) (truncOf h) with
      | none => rfl
      | some x =>
        obtain ⟨b', _⟩ := x
        dsimp only
        rcases saveBin_early (ft := .fine) ⟨rfl, .inl rfl, rfl⟩ p s.files (binNum p h) b' with ⟨_, hne⟩ | hs
        · exact absurd rfl hne
        · rw [hs]

/-- The word file of bin numbers after a call of `AppendHash`. -/
theorem nums_append {p : Params} (hg : Good p) {w : WF} {M : List Bytes} (hn : WordFile.Inv w (M.map fun h => (binNum p h : Int)))
    (hw : w.wordSize = p.bytesRoomForBinNum) {h : Bytes} (hl : h.length = 32) :
    WordFile.Inv (writeWordAt w (binNum p h) M.length) ((M ++ [h]).map fun h => (binNum p h : Int)) := by
  have hf : WordFile.fits w.wordSize (binNum p h : Int) := by
    rw [hw]
    unfold WordFile.fits
    rw [if_neg (by have := hg.room.2; omega)]
    refine ⟨Int.natCast_nonneg _, ?_⟩
    rw [← natCast_pow256]
    exact Int.ofNat_lt.mpr (hg.word h hl)
  have := WordFile.inv_write hn M.length hf
  have e : setExt (M.map fun h => (binNum p h : Int)) M.length (binNum p h : Int) 0 =
      (M ++ [h]).map fun h => (binNum p h : Int) := by
    have := setExt_end (M.map fun h => (binNum p h : Int)) (binNum p h : Int) 0
    rw [List.length_map] at this
    rw [this]; simp
  rw [e] at this
  exact this

theorem Inv.count {p : Params} {s : Store} {L : Slots} (hI : Inv p s L) : countWords s.binNums = L.length := by
  have := hI.nums.count
  rw [List.length_map] at this
  exact this

/-- A call that fails before it has written any of the bin. -/
theorem inv_failed {p : Params} (hg : Good p) {s : Store} {L : Slots} (hI : Inv p s L) {h : Bytes} (hl : h.length = 32) :
    Inv p { s with binNums := writeWordAt s.binNums (binNum p h) L.length } (L ++ [(h, false)]) := by
  refine ⟨?_, hI.wsize, hI.ram, ?_⟩
  · have := nums_append hg (M := L.map Prod.fst) (by rw [List.map_map]; exact hI.nums) hI.wsize hl
    rw [List.length_map] at this
    simpa [Function.comp_def] using this
  · intro bn hbn
    obtain ⟨es, g1, g2, g3, g4⟩ := hI.bins bn hbn
    exact ⟨es, g1, g2, g3, by rw [itemsOk_append]; simpa using g4⟩

theorem append_early {fl : Rat → Rat} (hfl : FloatOK fl) {p : Params} (hg : Good p) {s : Store} {L : Slots}
    (hI : Inv p s L) {h : Bytes} (hA : Appendable p (L.map Prod.fst ++ [h])) {ft : Fates} (hft : Early ft) :
    ∃ s' r, appendHash ft fl p s h = some (s', r) ∧ OutOK L (.append h ft) (.index r) ∧
      Inv p s' (L ++ [(h, r.isSome)]) := by
  have hl : h.length = 32 := hA.len32 h (by simp)
  have hA' := hA.prefix
  have hbn := hg.range h hl
  obtain ⟨es, h1, h2, h3, h4, h5, h6⟩ := hI.load hA' hbn
  have hcnt := hI.count
  by_cases hsr : ft.startRead = true
  case neg =>
    refine ⟨_, none, ?_, ?_, inv_failed hg hI hl⟩
    · unfold appendHash
      rw [hI.ram]
      simp only [Option.isSome_none, Bool.false_eq_true, if_false, hcnt]
      rw [loadBin_early hft.1, if_neg hsr]
    · exact fun h => hsr (by rw [h]; rfl)
  have hfit : (itemAt p (h, L.length)).Fits p := by
    refine ⟨truncOf_length hl, ?_, hg.sort h⟩
    have := hA.count
    rw [List.length_append, List.length_singleton, List.length_map] at this
    show L.length < _
    omega
  obtain ⟨en, e1, e2, e3⟩ := Item.encode hg.widths hfit
  obtain ⟨i, i1, i2⟩ := insert_ok hfl h3 h4 h6 e1 e2
  have hap : appendHash ft fl p s h =
      match saveBin ft p s.files (binNum p h) (es.take i ++ en :: es.drop i).flatten with
      | (f, false) => some ({ s with binNums := writeWordAt s.binNums (binNum p h) L.length, files := f }, none)
      | (f, true) => some ({ s with binNums := writeWordAt s.binNums (binNum p h) L.length, files := f }, some L.length) := by
    unfold appendHash
    rw [hI.ram]
    simp only [Option.isSome_none, Bool.false_eq_true, if_false, hcnt]
    rw [loadBin_early hft.1, if_pos hsr, h1]
    simp only [itemAt] at i1
    simp only [i1]
    rcases saveBin ft p s.files (binNum p h) (es.take i ++ en :: es.drop i).flatten with ⟨f, _ | _⟩ <;> rfl
  rcases saveBin_early hft p s.files (binNum p h) (es.take i ++ en :: es.drop i).flatten with ⟨hs, hne⟩ | hs
  · rw [hs] at hap
    exact ⟨_, none, hap, hne, inv_failed hg hI hl⟩
  rw [hs] at hap
  refine ⟨_, some L.length, hap, rfl, ?_, hI.wsize, hI.ram, ?_⟩
  · have := nums_append hg (M := L.map Prod.fst) (by rw [List.map_map]; exact hI.nums) hI.wsize hl
    rw [List.length_map] at this
    simpa [Function.comp_def] using this
  have hsz : Sized p (es.take i ++ en :: es.drop i) := by
    intro e he
    rw [List.mem_append, List.mem_cons] at he
    rcases he with he | rfl | he
    · exact h3 e (List.mem_of_mem_take he)
    · exact e2
    · exact h3 e (List.mem_of_mem_drop he)
  have hperm : (es.take i ++ en :: es.drop i).Perm (en :: es) := by
    have := List.perm_middle (a := en) (l₁ := es.take i) (l₂ := es.drop i)
    rwa [List.take_append_drop] at this
  have hso : SortedBy p (es.take i ++ en :: es.drop i) :=
    sorted_insert h4 (by have := congrArg Item.sort e3; exact this) i2
  intro bn' hbn'
  rw [itemsOk_append]
  by_cases hb : binNum p h = bn'
  · subst hb
    rw [if_pos ⟨rfl, rfl⟩]
    refine ⟨_, save_stored h2 h3 hsz ?_, hsz, hso, ?_⟩
    · rw [hperm.length_eq, List.length_cons]; omega
    · refine (hperm.map (itemOf p)).trans ?_
      rw [List.map_cons, e3]
      exact (List.perm_append_singleton _ _).symm.trans (h5.append_right _)
  · rw [if_neg (fun h => hb h.2), List.append_nil]
    obtain ⟨es', g1, g2, g3, g4⟩ := hI.bins bn' hbn'
    exact ⟨es', save_other hg.digits g1 hb hsz, g2, g3, g4⟩

theorem indexOf_early {fl : Rat → Rat} (hfl : FloatOK fl) {p : Params} (hg : Good p) {s : Store} {L : Slots}
    (hI : Inv p s L) (hA : Appendable p (L.map Prod.fst)) {h : Bytes} (hl : h.length = 32) {ft : Fates} (hft : Early ft) :
    ∃ r, indexOfHash ft fl p s h = some r ∧ OutOK L (.indexOf h ft) (.found r) := by
  obtain ⟨es, h1, h2, h3, h4, h5, h6⟩ := hI.load hA (hg.range h hl)
  unfold indexOfHash
  rw [loadBin_early hft.1]
  by_cases hsr : ft.startRead = true
  case neg =>
    rw [if_neg hsr]
    exact ⟨.err, rfl, fun h => hsr (by rw [h]; rfl)⟩
  rw [if_pos hsr, h1]
  dsimp only
  have hhit : ∀ hi, (⟨sortNum p h, hi, truncOf h⟩ : Item) ∈ itemsOk p L (binNum p h) ↔ L[hi]? = some (h, true) := by
    intro hi
    rw [mem_itemsOk]
    constructor
    · rintro ⟨x, x1, x2, x3, x4⟩
      have : x ∈ L.map Prod.fst := List.mem_map.mpr ⟨(x, true), List.mem_of_getElem? x1, rfl⟩
      simp only at x1
      rw [x1, split_injective (hA.len32 x this) hl x2 x3.symm x4.symm]
    · intro hx
      exact ⟨h, hx, rfl, rfl, rfl⟩
  by_cases hin : (h, true) ∈ L
  · have hin' : h ∈ L.map Prod.fst := List.mem_map.mpr ⟨_, hin, rfl⟩
    obtain ⟨r, r1, r2⟩ := lookup_complete_es hfl h3 h4 h6 (truncOf h) (sortNum p h) (by
      intro x hx hs
      rw [h5.mem_iff, mem_itemsOk] at hx
      obtain ⟨y, y1, y2, y3, y4⟩ := hx
      have : y ∈ L.map Prod.fst := List.mem_map.mpr ⟨(y, true), List.mem_of_getElem? y1, rfl⟩
      rw [y4, hA.noClash y this h hin' (same_abbr y2 (by omega))])
    simp only [h5.mem_iff, hhit] at r2
    refine ⟨r, r1, ?_⟩
    rcases r2 with ⟨hi, rfl, h7⟩ | ⟨rfl, h7⟩
    · exact h7
    · obtain ⟨i, hi⟩ := List.mem_iff_getElem?.mp hin
      exact absurd hi (h7 i)
  · obtain ⟨r, r1, r2⟩ := lookup_sound_es hfl h3 h4 h6 (truncOf h) (sortNum p h)
    simp only [h5.mem_iff, hhit] at r2
    refine ⟨r, r1, ?_⟩
    rcases r2 with rfl | ⟨hi, rfl, h7⟩
    · exact hin
    · exact h7

theorem get_early {p : Params} (hg : Good p) {s : Store} {L : Slots} (hI : Inv p s L)
    (hA : Appendable p (L.map Prod.fst)) (i : Nat) {ft : Fates} (hft : Early ft) :
    ∃ s' r, getHashAtIndex ft p s i = some (s', r) ∧ OutOK L (.get i ft) (.hash r) ∧ Inv p s' L := by
  obtain ⟨h1, h2⟩ := WordFile.inv_read hI.nums i
  have hws : (readWordAt s.binNums i).1.wordSize = s.binNums.wordSize := by
    unfold readWordAt; dsimp only; split <;> rfl
  have hI' : Inv p { s with binNums := (readWordAt s.binNums i).1 } L :=
    ⟨h1, by rw [← hI.wsize]; exact hws, hI.ram, hI.bins⟩
  unfold getHashAtIndex
  rcases hr : readWordAt s.binNums i with ⟨w, v⟩
  rw [hr] at h2 hI'
  simp only at h2
  rw [List.getElem?_map] at h2
  cases hLi : L[i]? with
  | none =>
    rw [hLi] at h2
    simp only [Option.map_none] at h2
    subst h2
    exact ⟨_, none, rfl, .inl (List.getElem?_eq_none_iff.mp hLi), hI'⟩
  | some x =>
    obtain ⟨h, ok⟩ := x
    rw [hLi] at h2
    simp only [Option.map_some] at h2
    subst h2
    dsimp only
    have hl := hA.len32 h (List.mem_map.mpr ⟨(h, ok), List.mem_of_getElem? hLi, rfl⟩)
    rw [Int.toNat_natCast, loadBin_early hft.1]
    by_cases hsr : ft.startRead = true
    case neg =>
      rw [if_neg hsr]
      exact ⟨_, none, rfl, .inr (fun h => hsr (by rw [h]; rfl)), hI'⟩
    obtain ⟨es, e1, e2, e3, e4, e5, e6⟩ := hI.load hA (hg.range h hl)
    rw [if_pos hsr, e1]
    dsimp only
    rw [lookupByIndex_eq e3]
    refine ⟨_, some _, rfl, ⟨h, ok, hLi, ?_⟩, hI'⟩
    cases hf : es.find? fun e => decide (entIndex p e = i) with
    | none =>
      dsimp only
      rw [List.find?_eq_none] at hf
      cases ok with
      | false => rfl
      | true =>
        exfalso
        have hx : (⟨sortNum p h, i, truncOf h⟩ : Item) ∈ es.map (itemOf p) := by
          rw [e5.mem_iff, mem_itemsOk]; exact ⟨h, hLi, rfl, rfl, rfl⟩
        obtain ⟨e, he, hee⟩ := List.mem_map.mp hx
        have := hf e he
        have h8 := congrArg Item.index hee
        simp [itemOf] at h8
        simp [h8] at this
    | some e' =>
      have f1 : entIndex p e' = i := by simpa using List.find?_some hf
      have f2 : itemOf p e' ∈ itemsOk p L (binNum p h) :=
        e5.mem_iff.mp (List.mem_map.mpr ⟨e', List.mem_of_find?_eq_some hf, rfl⟩)
      rw [mem_itemsOk] at f2
      obtain ⟨y, y1, y2, y3, y4⟩ := f2
      simp only [itemOf] at y1 y3 y4
      rw [f1, hLi] at y1
      cases y1
      dsimp only
      rw [if_pos rfl, y3, y4, hash_reconstructed p h hl]

theorem reopen_early {p : Params} (hg : Good p) {s : Store} {L : Slots} (hI : Inv p s L) :
    ∃ s', HashStore3.openStore p (HashStore3.close s).1 (HashStore3.close s).2 false = some s' ∧ Inv p s' L := by
  obtain ⟨plain, hp, hm, hl⟩ := hI.nums.file
  rw [hI.wsize] at hm hl
  have hc : (HashStore3.close s).1 = plain := (AppendOpt.inv_flush hp).2.1
  have ho : openWordFile p.bytesRoomForBinNum plain =
      some (new (AppendOpt.openFile plain) p.bytesRoomForBinNum (plain.length / p.bytesRoomForBinNum)) := by
    simp [openWordFile, fileWordCount, hm]
  have hr := hg.room
  obtain ⟨i1, i2⟩ := WordFile.inv_open (by omega) ho
  rw [hl] at i1
  refine ⟨{ binNums := new (AppendOpt.openFile plain) p.bytesRoomForBinNum (plain.length / p.bytesRoomForBinNum),
            files := s.files, ram := none }, ?_, ⟨i1, i2, rfl, hI.bins⟩⟩
  unfold HashStore3.openStore
  rw [hc, ho]
  rfl

theorem step_early {fl : Rat → Rat} (hfl : FloatOK fl) {p : Params} (hg : Good p) {s : Store} {L : Slots}
    (hI : Inv p s L) (op : Op) (hA : Appendable p (L.map Prod.fst ++ tried [op])) (hq : ∀ h ft, op = .indexOf h ft → h.length = 32)
    (hft : ∀ ft, op.fates = some ft → Early ft) :
    ∃ s' o, step fl p s op = some (s', o) ∧ OutOK L op o ∧ Inv p s' (after L op o) ∧
      (after L op o).map Prod.fst = L.map Prod.fst ++ tried [op] := by
  cases op with
  | append h ft =>
    obtain ⟨s', r, h1, h2, h3⟩ := append_early hfl hg hI hA (hft ft rfl)
    exact ⟨s', .index r, by simp [step, h1], h2, h3, by simp [after, tried]⟩
  | indexOf h ft =>
    obtain ⟨r, h1, h2⟩ := indexOf_early hfl hg hI hA.prefix (hq h ft rfl) (hft ft rfl)
    exact ⟨s, .found r, by simp [step, h1], h2, hI, by simp [after, tried]⟩
  | get i ft =>
    obtain ⟨s', r, h1, h2, h3⟩ := get_early hg hI hA.prefix i (hft ft rfl)
    exact ⟨s', .hash r, by simp [step, h1], h2, h3, by simp [after, tried]⟩
  | count =>
    exact ⟨s, .count (HashStore3.countHashes s), rfl, hI.count, hI, by simp [after, tried]⟩
  | sync =>
    obtain ⟨h1, _, h3⟩ := WordFile.inv_step hI.nums .sync trivial
    exact ⟨_, .unit, rfl, trivial, ⟨h1, by rw [← hI.wsize]; exact h3, hI.ram, hI.bins⟩, by simp [after, tried]⟩
  | reopen =>
    obtain ⟨s', h1, h2⟩ := reopen_early hg hI
    exact ⟨s', .unit, by simp [step, h1], trivial, h2, by simp [after, tried]⟩

theorem tried_cons (op : Op) (ops : List Op) : tried (op :: ops) = tried [op] ++ tried ops := by
  cases op <;> rfl

theorem run_early {fl : Rat → Rat} (hfl : FloatOK fl) {p : Params} (hg : Good p) (ops : List Op) {s : Store}
    {L : Slots} (hI : Inv p s L) (hA : Appendable p (L.map Prod.fst ++ tried ops))
    (hq : ∀ h ft, Op.indexOf h ft ∈ ops → h.length = 32) (hft : ∀ op ∈ ops, ∀ ft, op.fates = some ft → Early ft) :
    ∃ s' os, run fl p s ops = some (s', os) ∧ SessionOK L ops os := by
  induction ops generalizing s L with
  | nil => exact ⟨s, [], rfl, trivial⟩
  | cons op ops ih =>
    rw [tried_cons, ← List.append_assoc] at hA
    obtain ⟨s1, o, h1, h2, h3, h4⟩ := step_early hfl hg hI op hA.prefix (fun h ft hh => hq h ft (by simp [hh]))
      (hft op (by simp))
    rw [← h4] at hA
    obtain ⟨s2, os, h5, h6⟩ := ih h3 hA (fun h ft hh => hq h ft (by simp [hh])) (fun op' ho => hft op' (by simp [ho]))
    exact ⟨s2, o :: os, by simp [run, h1, h5], h2, h6⟩

theorem inv_of_sound {p : Params} {s : Store} {L : List Bytes} (hI : HashStore3.Inv p s L) :
    Inv p s (L.map fun h => (h, true)) := by
  refine ⟨by rw [List.map_map]; exact hI.nums, hI.wsize, hI.ram, ?_⟩
  intro bn hbn
  obtain ⟨es, h1, h2, h3, h4⟩ := hI.bins bn hbn
  refine ⟨es, h1, h2, h3, ?_⟩
  have : itemsOk p (L.map fun h => (h, true)) bn = itemsFor p L bn := by
    unfold itemsOk itemsFor
    rw [List.zipIdx_map, List.filter_map, List.map_map]
    rfl
  rw [this]; exact h4

/-! ## Properties -/

/-- **C120, partial.** On a disk whose failures come before a bin is written to (a bin start that cannot be read, a folder that
cannot be made, an overflow file that cannot be opened for writing), in any session from the preloader's files, nothing panics
and nothing that was stored is harmed: an append that returns nil gives its hash the next index, is found there for ever, and
`IndexOfHash` gives -1 exactly for hashes no append of which returned nil. An error means that the disk failed. An append that
failed may be repeated. It has used up an index though, which is counted and reads as a hash of zeros.

Missing: writes that fail half way (`a_cut_write_loses_a_stored_hash`), overflow files that cannot be read
(`an_unreadable_overflow_file_is_overwritten`), where the code is wrong, and what C24 is missing. -/
theorem early_failures_harm_nothing_partial {fl : Rat → Rat} (hfl : FloatOK fl) {p : Params} (hp : ParamsOK p) (ops : List Op)
    (hA : Appendable p (tried ops)) (hq : ∀ h ft, Op.indexOf h ft ∈ ops → h.length = 32)
    (hft : ∀ op ∈ ops, ∀ ft, op.fates = some ft → Early ft) :
    ∃ s, HashStore3.openStore p [] (freshFiles p) false = some s ∧
      ∃ s' os, run fl p s ops = some (s', os) ∧ SessionOK [] ops os := by
  obtain ⟨s, h1, h2⟩ := HashStore3.inv_fresh hp.good
  obtain ⟨s', os, h3, h4⟩ := run_early hfl hp.good ops (L := []) (inv_of_sound h2) (by simpa using hA) hq hft
  exact ⟨s, h1, s', os, h3, h4⟩

theorem small_paramsOK : ParamsOK smallParams :=
  ⟨⟨8, 2, 4, 2, 8, 2, rfl, by decide, by decide, by decide⟩, by decide, by decide⟩

/-- Four hashes of one bin, whose start has room for two. -/
def four : List Bytes := [7 :: zeros 31, 9 :: zeros 31, 11 :: zeros 31, 5 :: zeros 31]

theorem four_appendable : Appendable smallParams four := by
  refine ⟨?_, by decide, by decide, ?_, ?_⟩
  · decide
  · intro h hh
    simp only [four, List.getElem?_cons_zero, Option.some.injEq] at hh
    subst hh
    decide +kernel
  · decide +kernel

/-- The folder of the overflow file cannot be made when the third hash is appended, it is appended again, and the fourth cannot have its
bin read. -/
example : ∃ s, HashStore3.openStore smallParams [] (freshFiles smallParams) false = some s ∧
    ∃ s' os, run fl53 smallParams s [.append (7 :: zeros 31) .fine, .append (9 :: zeros 31) .fine,
        .append (11 :: zeros 31) ⟨true, true, false, .ok, none⟩, .count, .append (11 :: zeros 31) .fine, .reopen,
        .append (5 :: zeros 31) ⟨false, true, true, .ok, none⟩, .get 2 .fine, .indexOf (11 :: zeros 31) .fine] = some (s', os) ∧
      SessionOK [] [.append (7 :: zeros 31) .fine, .append (9 :: zeros 31) .fine,
        .append (11 :: zeros 31) ⟨true, true, false, .ok, none⟩, .count, .append (11 :: zeros 31) .fine, .reopen,
        .append (5 :: zeros 31) ⟨false, true, true, .ok, none⟩, .get 2 .fine, .indexOf (11 :: zeros 31) .fine] os := by
  refine early_failures_harm_nothing_partial floatOK_fl53 small_paramsOK _ ?_ ?_ ?_
  · refine ⟨?_, by decide, by decide, ?_, ?_⟩
    · decide
    · intro h hh
      simp only [tried, List.getElem?_cons_zero, Option.some.injEq] at hh
      subst hh
      decide +kernel
    · decide +kernel
  · intro h ft hh
    simp at hh
    rw [hh.1]; rfl
  · intro op hop ft hf
    simp only [List.mem_cons, List.not_mem_nil, or_false] at hop
    rcases hop with rfl | rfl | rfl | rfl | rfl | rfl | rfl | rfl | rfl <;>
      simp only [Op.fates, Option.some.injEq, reduceCtorEq] at hf <;> subst hf <;>
      exact ⟨rfl, .inl rfl, rfl⟩

/-! ## Where the code is wrong -/

/-- A hash whose entry is not in its bin is not found, and its index reads as zeros. -/
theorem gone {fl : Rat → Rat} (hfl : FloatOK fl) {p : Params} {s : Store} {M es : List Bytes} {a : Bytes} {i : Nat}
    (hn : WordFile.Inv s.binNums (M.map fun h => (binNum p h : Int)))
    (hload : Bins.loadBin p s.files (binNum p a) = some es.flatten) (hs : Sized p es) (hso : SortedBy p es)
    (hlen : es.length ≤ 2 ^ 48) (hc : Covered p M (binNum p a) es) (h32 : ∀ h ∈ M, h.length = 32) (hi : M[i]? = some a)
    (hu : ∀ j, M[j]? = some a → j = i) (hno : ∀ e ∈ es, entIndex p e ≠ i) :
    indexOfHash .fine fl p s a = some .absent ∧ ∃ t, getHashAtIndex .fine p s i = some (t, some (zeros 32)) := by
  constructor
  · unfold indexOfHash
    rw [loadBin_early rfl, if_pos (show Fates.fine.startRead = true from rfl), hload]
    dsimp only
    obtain ⟨r, r1, r2⟩ := lookup_sound_es hfl hs hso hlen (truncOf a) (sortNum p a)
    rw [r1]
    rcases r2 with rfl | ⟨j, rfl, h7⟩
    · rfl
    · exfalso
      obtain ⟨e, he, hee⟩ := List.mem_map.mp h7
      obtain ⟨y, y1, y2, y3, y4⟩ := hc e he
      have i1 : entSort p e = sortNum p a := congrArg Item.sort hee
      have i2 : entTrunc e = truncOf a := congrArg Item.trunc hee
      have : y = a := split_injective (h32 y (List.mem_of_getElem? y1)) (h32 a (List.mem_of_getElem? hi)) y2
        (by rw [← y3, i1]) (by rw [← y4, i2])
      subst this
      exact hno e he (hu _ y1)
  · obtain ⟨_, h2⟩ := WordFile.inv_read hn i
    unfold getHashAtIndex
    rcases hr : readWordAt s.binNums i with ⟨w, v⟩
    rw [hr] at h2
    simp only at h2
    rw [List.getElem?_map, hi] at h2
    simp only [Option.map_some] at h2
    subst h2
    dsimp only
    rw [Int.toNat_natCast, loadBin_early rfl, if_pos (show Fates.fine.startRead = true from rfl), hload]
    dsimp only
    rw [lookupByIndex_eq hs]
    have : es.find? (fun e => decide (entIndex p e = i)) = none := by
      rw [List.find?_eq_none]
      intro e he
      simpa using hno e he
    rw [this]
    exact ⟨_, rfl⟩

theorem covered_sound {p : Params} {L : List Bytes} {bn : Nat} {es : List Bytes}
    (hp : (es.map (itemOf p)).Perm (itemsFor p L bn)) : Covered p L bn es := by
  intro e he
  have hm : itemOf p e ∈ itemsFor p L bn := hp.mem_iff.mp (List.mem_map.mpr ⟨e, he, rfl⟩)
  rw [mem_itemsFor] at hm
  exact hm

theorem Covered.grow {p : Params} {M : List Bytes} {bn : Nat} {es : List Bytes} (hc : Covered p M bn es) (N : List Bytes) :
    Covered p (M ++ N) bn es := by
  intro e he
  obtain ⟨h, h1, h2⟩ := hc e he
  exact ⟨h, by rw [List.getElem?_append_left (lt_of_getElem?_some h1)]; exact h1, h2⟩

/-- No two entries of a bin have one index. -/
theorem indices_nodup {p : Params} {L : List Bytes} {bn : Nat} {es : List Bytes}
    (hp : (es.map (itemOf p)).Perm (itemsFor p L bn)) : (es.map (entIndex p)).Nodup := by
  have h1 : es.map (entIndex p) = (es.map (itemOf p)).map Item.index := by rw [List.map_map]; rfl
  rw [h1, (hp.map Item.index).nodup_iff]
  unfold itemsFor
  rw [List.map_map]
  have h2 : (Item.index ∘ itemAt p) = (Prod.snd : Bytes × Nat → Nat) := rfl
  rw [h2]
  refine List.Nodup.sublist ((List.filter_sublist).map _) ?_
  rw [List.zipIdx_map_snd]
  exact List.nodup_range'

theorem itemsFor_count {p : Params} (L : List Bytes) (bn : Nat) :
    (itemsFor p L bn).length = (L.filter fun x => decide (binNum p x = bn)).length := by
  unfold itemsFor
  rw [List.length_map]
  have : L.filter (fun x => decide (binNum p x = bn)) =
      (L.zipIdx.filter fun x => decide (binNum p x.1 = bn)).map Prod.fst := by
    conv_lhs => rw [← List.zipIdx_map_fst 0 L]
    rw [List.filter_map]
    rfl
  rw [this, List.length_map]

/-- The state of a store in which `L` was appended without any failure. -/
structure Ready (p : Params) (s : Store) (L : List Bytes) (h : Bytes) (es : List Bytes) (en : Bytes) : Prop where
  load : Bins.loadBin p s.files (binNum p h) = some es.flatten
  stored : Stored p s.files (binNum p h) es
  sized : Sized p es
  sorted : SortedBy p es
  perm : (es.map (itemOf p)).Perm (itemsFor p L (binNum p h))
  enc : encEntry p (truncOf h) L.length (sortNum p h) = some en
  len : en.length = p.entrySize
  item : itemOf p en = itemAt p (h, L.length)
  small : es.length + 1 ≤ 2 ^ 48

theorem ready {p : Params} (hg : Good p) {s : Store} {L : List Bytes} (hI : HashStore3.Inv p s L) {h : Bytes}
    (hA : Appendable p (L ++ [h])) : ∃ es en, Ready p s L h es en := by
  have hl : h.length = 32 := hA.len32 h (by simp)
  obtain ⟨es, h1, h2, h3, h4, h5, h6⟩ := hI.load hA.prefix (hg.range h hl)
  have hfit : (itemAt p (h, L.length)).Fits p := by
    refine ⟨truncOf_length hl, ?_, hg.sort h⟩
    have := hA.count
    rw [List.length_append, List.length_singleton] at this
    show L.length < _
    omega
  obtain ⟨en, e1, e2, e3⟩ := Item.encode hg.widths hfit
  refine ⟨es, en, h1, h2, h3, h4, h5, e1, e2, e3, ?_⟩
  have g1 := h5.length_eq
  rw [List.length_map] at g1
  have g2 := HashStore3.itemsFor_length (p := p) L (binNum p h)
  have g3 := hA.count48
  rw [List.length_append, List.length_singleton] at g3
  omega

theorem covered_insert {p : Params} {L : List Bytes} {h : Bytes} {es : List Bytes} {en : Bytes} {i : Nat}
    (hc : Covered p L (binNum p h) es) (hit : itemOf p en = itemAt p (h, L.length)) :
    Covered p (L ++ [h]) (binNum p h) (es.take i ++ en :: es.drop i) := by
  intro e he
  rw [List.mem_append, List.mem_cons] at he
  rcases he with he | rfl | he
  · exact hc.grow [h] e (List.mem_of_mem_take he)
  · have i1 : entSort p e = sortNum p h := congrArg Item.sort hit
    have i2 : entIndex p e = L.length := congrArg Item.index hit
    have i3 : entTrunc e = truncOf h := congrArg Item.trunc hit
    exact ⟨h, by rw [i2]; simp, rfl, i1, i3⟩
  · exact hc.grow [h] e (List.mem_of_mem_drop he)

theorem sized_insert {p : Params} {es : List Bytes} {en : Bytes} {i : Nat} (h : Sized p es) (he : en.length = p.entrySize) :
    Sized p (es.take i ++ en :: es.drop i) := by
  intro e hm
  rw [List.mem_append, List.mem_cons] at hm
  rcases hm with hm | rfl | hm
  · exact h e (List.mem_of_mem_take hm)
  · exact he
  · exact h e (List.mem_of_mem_drop hm)

theorem append_state {ft : Fates} {fl : Rat → Rat} {p : Params} {s : Store} {L : List Bytes} {h : Bytes} {b b' : Bytes} {i : Nat}
    (hI : HashStore3.Inv p s L) (hl : loadBin ft p s.files (binNum p h) = some b)
    (hins : insertBinEntry fl p b (sortNum p h) L.length (truncOf h) = some (b', i)) {f : Files} {ok : Bool}
    (hsv : saveBin ft p s.files (binNum p h) b' = (f, ok)) :
    appendHash ft fl p s h = some ({ s with binNums := writeWordAt s.binNums (binNum p h) L.length, files := f },
      if ok = true then some L.length else none) := by
  have hcnt : countWords s.binNums = L.length := by
    have := hI.nums.count
    rw [List.length_map] at this
    exact this
  unfold appendHash
  rw [hI.ram]
  simp only [Option.isSome_none, Bool.false_eq_true, if_false, hcnt, hl, hins, hsv]
  cases ok <;> rfl

/-- The loss when an overflow file cannot be read, from any sound state. -/
theorem overwritten {fl : Rat → Rat} (hfl : FloatOK fl) {p : Params} (hg : Good p) {s : Store} {L : List Bytes} {h : Bytes}
    (hI : HashStore3.Inv p s L) (hA : Appendable p (L ++ [h])) (hnd : L.Nodup) (hh : h ∉ L)
    (hroom : p.entriesInBinStart < (L.filter fun x => decide (binNum p x = binNum p h)).length) :
    ∃ s', appendHash .unreadable fl p s h = some (s', some L.length) ∧
      ∃ lost : List Bytes, lost.Nodup ∧ (∀ a ∈ lost, a ∈ L) ∧
        lost.length = (L.filter fun x => decide (binNum p x = binNum p h)).length - p.entriesInBinStart ∧
        ∀ a ∈ lost, indexOfHash .fine fl p s' a = some .absent ∧
          ∀ i, L[i]? = some a → ∃ t, getHashAtIndex .fine p s' i = some (t, some (zeros 32)) := by
  have hl : h.length = 32 := hA.len32 h (by simp)
  obtain ⟨es, en, R⟩ := ready hg hI hA
  have hcount : es.length = (L.filter fun x => decide (binNum p x = binNum p h)).length := by
    have := R.perm.length_eq
    rw [List.length_map, itemsFor_count] at this
    exact this
  have hgt : p.entriesInBinStart < es.length := by omega
  have hc := covered_sound R.perm
  have hnod := indices_nodup R.perm
  -- what is loaded is the start only
  have hst : Stored p { s.files with overflow := fun _ => none } (binNum p h) (es.take p.entriesInBinStart) := by
    refine ⟨R.stored.fits, ?_, ?_⟩
    · have := R.stored.start
      rw [show p.entriesInBinStart - es.length = 0 by omega] at this
      rw [List.length_take, show p.entriesInBinStart - min p.entriesInBinStart es.length = 0 by omega, List.take_take, Nat.min_self]
      exact this
    · rw [List.length_take, if_neg (by omega)]
  have hsz0 : Sized p (es.take p.entriesInBinStart) := sized_take R.sized _
  have hc0 : Covered p L (binNum p h) (es.take p.entriesInBinStart) := fun e he => hc e (List.mem_of_mem_take he)
  have hload : loadBin Fates.unreadable p s.files (binNum p h) = some (es.take p.entriesInBinStart).flatten := by
    unfold loadBin seen
    rw [if_pos (show Fates.unreadable.startRead = true from rfl), if_neg (show ¬ Fates.unreadable.ovfRead = true by decide)]
    exact load_stored hst hsz0 (hc0.tail hA.prefix)
  have hso0 : SortedBy p (es.take p.entriesInBinStart) := List.Pairwise.sublist (List.take_sublist _ _) R.sorted
  obtain ⟨i, i1, i2⟩ := insert_ok hfl hsz0 hso0 (by have := R.small; rw [List.length_take]; omega) R.enc R.len
  have hlen1 : ((es.take p.entriesInBinStart).take i ++ en :: (es.take p.entriesInBinStart).drop i).length =
      p.entriesInBinStart + 1 := by
    have := i2.le
    rw [List.length_take] at this
    simp only [List.length_append, List.length_cons, List.length_take, List.length_drop]
    omega
  have hmem1 : ∀ e ∈ (es.take p.entriesInBinStart).take i ++ en :: (es.take p.entriesInBinStart).drop i,
      e ∈ es.take p.entriesInBinStart ∨ e = en := by
    intro e he
    rw [List.mem_append, List.mem_cons] at he
    rcases he with he | he | he
    · exact .inl (List.mem_of_mem_take he)
    · exact .inr he
    · exact .inl (List.mem_of_mem_drop he)
  have hsz1 := sized_insert (i := i) hsz0 R.len
  have hc1 := covered_insert (i := i) hc0 R.item
  have hso1 := sorted_insert hso0 (by have := congrArg Item.sort R.item; exact this) i2
  generalize (es.take p.entriesInBinStart).take i ++ en :: (es.take p.entriesInBinStart).drop i = es1 at *
  have hsv : saveBin Fates.unreadable p s.files (binNum p h) es1.flatten =
      (Bins.saveBin p s.files (binNum p h) es1.flatten, true) := by
    unfold saveBin Bins.saveBin writeStart
    have : binLen p es1.flatten > p.entriesInBinStart := by rw [binLen_flatten hsz1]; omega
    simp [Fates.unreadable, this]
  refine ⟨_, append_state hI hload i1 hsv, ?_⟩
  have hst1 : Stored p (Bins.saveBin p s.files (binNum p h) es1.flatten) (binNum p h) es1 := by
    have := save_stored hst hsz0 hsz1 (by rw [List.length_take]; omega)
    refine ⟨this.fits, this.start, ?_⟩
    rw [← this.ovf]
    unfold Bins.saveBin
    have : binLen p es1.flatten > p.entriesInBinStart := by rw [binLen_flatten hsz1]; omega
    simp [this]
  have hload1 := load_stored hst1 hsz1 (hc1.tail hA)
  have hsub : ∀ e ∈ es.drop p.entriesInBinStart, e ∈ es := fun e he => List.mem_of_mem_drop he
  have hget : ∀ e ∈ es, ∃ x, L[entIndex p e]? = some x ∧ binNum p x = binNum p h := by
    intro e he
    obtain ⟨x, x1, x2, _⟩ := hc e he
    exact ⟨x, x1, x2⟩
  have huniq : ∀ (a : Bytes) (i j : Nat), L[i]? = some a → L[j]? = some a → i = j := by
    intro a i j hi hj
    obtain ⟨hi', rfl⟩ := List.getElem?_eq_some_iff.mp hi
    obtain ⟨hj', e⟩ := List.getElem?_eq_some_iff.mp hj
    exact ((List.Nodup.getElem_inj_iff hnd).mp e).symm
  have hsplit : (es.take p.entriesInBinStart).map (entIndex p) ++ (es.drop p.entriesInBinStart).map (entIndex p) =
      es.map (entIndex p) := by rw [← List.map_append, List.take_append_drop]
  rw [← hsplit, List.nodup_append] at hnod
  obtain ⟨_, hnd2, hdis⟩ := hnod
  refine ⟨(es.drop p.entriesInBinStart).map fun e => (L[entIndex p e]?).getD [], ?_, ?_, ?_, ?_⟩
  · rw [List.Nodup, List.pairwise_map]
    rw [List.Nodup, List.pairwise_map] at hnd2
    refine List.Pairwise.imp_of_mem ?_ hnd2
    intro e e' he he' hne heq
    obtain ⟨x, x1, _⟩ := hget e (hsub e he)
    obtain ⟨x', x1', _⟩ := hget e' (hsub e' he')
    rw [x1, x1'] at heq
    simp only [Option.getD_some] at heq
    subst heq
    exact hne (huniq _ _ _ x1 x1')
  · intro a ha
    obtain ⟨e, he, rfl⟩ := List.mem_map.mp ha
    obtain ⟨x, x1, _⟩ := hget e (hsub e he)
    rw [x1]
    exact List.mem_of_getElem? x1
  · rw [List.length_map, List.length_drop, hcount]
  · intro a ha
    obtain ⟨e, he, rfl⟩ := List.mem_map.mp ha
    obtain ⟨x, x1, x2⟩ := hget e (hsub e he)
    rw [x1]
    simp only [Option.getD_some]
    have hxL := List.mem_of_getElem? x1
    have G := gone hfl (p := p) (s := Store.mk (writeWordAt s.binNums (binNum p h) L.length)
        (Bins.saveBin p s.files (binNum p h) es1.flatten) s.ram) (M := L ++ [h]) (es := es1) (a := x) (i := entIndex p e)
      (nums_append hg hI.nums hI.wsize hl) (by rw [x2]; exact hload1) hsz1 hso1 (by have := R.small; omega)
      (by rw [x2]; exact hc1) hA.len32 (by rw [List.getElem?_append_left (lt_of_getElem?_some x1)]; exact x1)
      (by
        intro j hj
        by_cases hjl : j < L.length
        · rw [List.getElem?_append_left hjl] at hj
          exact huniq _ _ _ hj x1
        · rw [List.getElem?_append_right (by omega)] at hj
          have : x ∈ [h] := List.mem_of_getElem? hj
          rw [List.mem_singleton] at this
          exact absurd (this ▸ hxL) hh)
      (by
        intro e' he' heq
        rcases hmem1 e' he' with h' | rfl
        · exact hdis _ (List.mem_map.mpr ⟨e', h', rfl⟩) _ (List.mem_map.mpr ⟨e, he, rfl⟩) heq
        · have i2 : entIndex p e' = L.length := congrArg Item.index R.item
          have := lt_of_getElem?_some x1
          omega)
    refine ⟨G.1, ?_⟩
    intro i' hi'
    rw [huniq _ _ _ hi' x1]
    exact G.2

/-- **C120 is violated: an overflow file that cannot be read is overwritten.** After any session on a healthy disk with more hashes in
the bin of `h` than a bin start has room for, let the overflow file of that bin be unreadable for a moment (out of file
handles, a read error) while `h` is appended. `AppendHash` returns nil and the right index, and every hash the overflow file held
is gone for good: `IndexOfHash` gives -1 and `GetHashAtIndex` a hash of zeros, both with a nil error, on a disk that works again.
For all parameters, sessions and hashes. -/
theorem an_unreadable_overflow_file_is_overwritten {fl : Rat → Rat} (hfl : FloatOK fl) {p : Params} (hp : ParamsOK p)
    (ops : List HashStore3.Op) (h : Bytes) (hA : Appendable p (HashStore3.appended ops ++ [h]))
    (hq : ∀ x, HashStore3.Op.indexOf x ∈ ops → x.length = 32) (hnd : (HashStore3.appended ops).Nodup)
    (hh : h ∉ HashStore3.appended ops)
    (hroom : p.entriesInBinStart < ((HashStore3.appended ops).filter fun x => decide (binNum p x = binNum p h)).length) :
    ∃ s0 s os, HashStore3.openStore p [] (freshFiles p) false = some s0 ∧ HashStore3.run fl p s0 ops = some (s, os) ∧
      ∃ s', appendHash .unreadable fl p s h = some (s', some (HashStore3.appended ops).length) ∧
        ∃ lost : List Bytes, lost.Nodup ∧ (∀ a ∈ lost, a ∈ HashStore3.appended ops) ∧
          lost.length = ((HashStore3.appended ops).filter fun x => decide (binNum p x = binNum p h)).length - p.entriesInBinStart ∧
          ∀ a ∈ lost, indexOfHash .fine fl p s' a = some .absent ∧
            ∀ i, (HashStore3.appended ops)[i]? = some a → ∃ t, getHashAtIndex .fine p s' i = some (t, some (zeros 32)) := by
  obtain ⟨s0, h1, h2⟩ := HashStore3.inv_fresh hp.good
  obtain ⟨s, os, h3, _, h5⟩ := HashStore3.run_ok hfl hp.good ops h2 (by simpa using hA.prefix) hq
  rw [List.nil_append] at h5
  obtain ⟨s', g1, g2⟩ := overwritten hfl hp.good h5 hA hnd hh hroom
  exact ⟨s0, s, os, h1, h3, s', g1, g2⟩

example : ∃ s0 s os, HashStore3.openStore smallParams [] (freshFiles smallParams) false = some s0 ∧
    HashStore3.run fl53 smallParams s0 [.append (7 :: zeros 31), .append (9 :: zeros 31), .append (11 :: zeros 31)] = some (s, os) ∧
      ∃ s', appendHash .unreadable fl53 smallParams s (5 :: zeros 31) = some (s', some 3) ∧
        ∃ a ∈ [7 :: zeros 31, 9 :: zeros 31, 11 :: zeros 31], indexOfHash .fine fl53 smallParams s' a = some .absent := by
  obtain ⟨s0, s, os, h1, h2, s', h3, lost, _, h5, h6, h7⟩ := an_unreadable_overflow_file_is_overwritten floatOK_fl53 small_paramsOK
    [.append (7 :: zeros 31), .append (9 :: zeros 31), .append (11 :: zeros 31)] (5 :: zeros 31) four_appendable (by simp)
    (by decide) (by decide) (by decide +kernel)
  refine ⟨s0, s, os, h1, h2, s', h3, ?_⟩
  cases lost with
  | nil => exact absurd h6 (by decide +kernel)
  | cons a l => exact ⟨a, h5 a (by simp), (h7 a (by simp)).1⟩

/-- The loss when the write of a bin start is cut, from any sound state. -/
theorem cut_away {fl : Rat → Rat} (hfl : FloatOK fl) {p : Params} (hg : Good p) {s : Store} {L : List Bytes} {h : Bytes}
    (hI : HashStore3.Inv p s L) (hA : Appendable p (L ++ [h])) (hnd : L.Nodup) (hh : h ∉ L)
    (hroom : (L.filter fun x => decide (binNum p x = binNum p h)).length < p.entriesInBinStart)
    {b : Bytes} (hb : b ∈ L) (hbb : binNum p b = binNum p h) (hbs : sortNum p h < sortNum p b) :
    ∃ s' m, appendHash (.cutAt m) fl p s h = some (s', none) ∧
      ∃ a i, L[i]? = some a ∧ indexOfHash .fine fl p s' a = some .absent ∧
        ∃ t, getHashAtIndex .fine p s' i = some (t, some (zeros 32)) := by
  have hl : h.length = 32 := hA.len32 h (by simp)
  obtain ⟨es, en, R⟩ := ready hg hI hA
  have hcount : es.length = (L.filter fun x => decide (binNum p x = binNum p h)).length := by
    have := R.perm.length_eq
    rw [List.length_map, itemsFor_count] at this
    exact this
  have hlt : es.length < p.entriesInBinStart := by omega
  have hc := covered_sound R.perm
  have hload : loadBin (Fates.cutAt (es.length * p.entrySize)) p s.files (binNum p h) = some es.flatten := by
    rw [loadBin_early rfl, if_pos (show (Fates.cutAt (es.length * p.entrySize)).startRead = true from rfl)]; exact R.load
  obtain ⟨i, i1, i2⟩ := insert_ok hfl R.sized R.sorted (by have := R.small; omega) R.enc R.len
  -- the insertion point is before the end
  have hilt : i < es.length := by
    obtain ⟨j, hj⟩ := List.mem_iff_getElem?.mp hb
    have hx : (⟨sortNum p b, j, truncOf b⟩ : Item) ∈ es.map (itemOf p) := by
      rw [R.perm.mem_iff, mem_itemsFor]; exact ⟨b, hj, hbb, rfl, rfl⟩
    obtain ⟨e, he, hee⟩ := List.mem_map.mp hx
    have hs : entSort p e = sortNum p b := congrArg Item.sort hee
    obtain ⟨k, hk⟩ := List.mem_iff_getElem?.mp he
    by_cases hki : k < i
    · have := i2.before k e hki hk
      omega
    · have := lt_of_getElem?_some hk
      omega
  have hlen1 : (es.take i ++ en :: es.drop i).length = es.length + 1 := by
    simp only [List.length_append, List.length_cons, List.length_take, List.length_drop]
    omega
  have hlast : (es.take i ++ en :: es.drop i)[es.length]? = es[es.length - 1]? := by
    rw [List.getElem?_append_right (by rw [List.length_take]; omega), List.length_take, Nat.min_eq_left (by omega),
      show es.length - i = (es.length - i - 1) + 1 by omega, List.getElem?_cons_succ, List.getElem?_drop]
    congr 1; omega
  have hperm1 : (es.take i ++ en :: es.drop i).Perm (en :: es) := by
    have := List.perm_middle (a := en) (l₁ := es.take i) (l₂ := es.drop i)
    rwa [List.take_append_drop] at this
  have hsz1 := sized_insert (i := i) R.sized R.len
  have hc1 := covered_insert (i := i) hc R.item
  have hso1 := sorted_insert R.sorted (by have := congrArg Item.sort R.item; exact this) i2
  have hnod : ((es.take i ++ en :: es.drop i).map (entIndex p)).Nodup := by
    rw [(hperm1.map _).nodup_iff, List.map_cons, List.nodup_cons]
    refine ⟨?_, indices_nodup R.perm⟩
    intro hm
    obtain ⟨e, he, hee⟩ := List.mem_map.mp hm
    obtain ⟨x, x1, _⟩ := hc e he
    have i3 : entIndex p en = L.length := congrArg Item.index R.item
    have := lt_of_getElem?_some x1
    omega
  generalize es.take i ++ en :: es.drop i = es1 at *
  have hsz2 : Sized p (es1.take es.length) := sized_take hsz1 _
  have hlen2 : (es1.take es.length).length = es.length := by rw [List.length_take]; omega
  have hsv : saveBin (Fates.cutAt (es.length * p.entrySize)) p s.files (binNum p h) es1.flatten =
      (Bins.saveBin p s.files (binNum p h) (es1.take es.length).flatten, false) := by
    unfold saveBin Bins.saveBin writeStart
    have e1 : ¬ binLen p es1.flatten > p.entriesInBinStart := by rw [binLen_flatten hsz1]; omega
    have e2 : ¬ binLen p (es1.take es.length).flatten > p.entriesInBinStart := by rw [binLen_flatten hsz2]; omega
    simp only [if_neg e1, if_neg e2]
    rw [binLen_flatten hsz1, binLen_flatten hsz2, hlen2, hlen1]
    have e3 : (es1.flatten.take ((es.length + 1) * p.entrySize)).take (es.length * p.entrySize) =
        (es1.take es.length).flatten.take (es.length * p.entrySize) := by
      rw [List.take_take, Nat.min_eq_left (Nat.mul_le_mul_right _ (by omega)), Nat.mul_comm, flatten_take hsz1]
      symm
      apply List.take_of_length_le
      rw [flatten_length hsz2, hlen2]
    simp only [Fates.cutAt, e3]
  refine ⟨_, _, append_state hI hload i1 hsv, ?_⟩
  have hst2 := save_stored R.stored R.sized hsz2 (by omega)
  have hc2 : Covered p (L ++ [h]) (binNum p h) (es1.take es.length) := fun e he => hc1 e (List.mem_of_mem_take he)
  have hso2 : SortedBy p (es1.take es.length) := List.Pairwise.sublist (List.take_sublist _ _) hso1
  have hload2 := load_stored hst2 hsz2 (hc2.tail hA)
  have hl1 : es.length - 1 < es.length := by omega
  obtain ⟨x, x1, x2, _⟩ := hc _ (List.getElem_mem hl1)
  have hxL := List.mem_of_getElem? x1
  refine ⟨x, _, x1, ?_⟩
  refine gone hfl (M := L ++ [h]) (es := es1.take es.length)
    (nums_append hg hI.nums hI.wsize hl) (by rw [x2]; exact hload2) hsz2 hso2 (by have := R.small; omega)
    (by rw [x2]; exact hc2) hA.len32 (by rw [List.getElem?_append_left (lt_of_getElem?_some x1)]; exact x1) ?_ ?_
  · intro j hj
    by_cases hjl : j < L.length
    · rw [List.getElem?_append_left hjl] at hj
      obtain ⟨hi', e1⟩ := List.getElem?_eq_some_iff.mp hj
      obtain ⟨hj', e2⟩ := List.getElem?_eq_some_iff.mp x1
      exact (List.Nodup.getElem_inj_iff hnd).mp (e1.trans e2.symm)
    · rw [List.getElem?_append_right (by omega)] at hj
      have : x ∈ [h] := List.mem_of_getElem? hj
      rw [List.mem_singleton] at this
      exact absurd (this ▸ hxL) hh
  · intro e he heq
    have hsp : es1 = es1.take es.length ++ [es[es.length - 1]] := by
      have hlt1 : es.length < es1.length := by omega
      rw [List.getElem?_eq_getElem hlt1, List.getElem?_eq_getElem hl1] at hlast
      rw [← Option.some.inj hlast, ← List.take_succ_eq_append_getElem hlt1, List.take_of_length_le (by omega)]
    rw [hsp, List.map_append, List.nodup_append] at hnod
    exact hnod.2.2 _ (List.mem_map.mpr ⟨e, he, rfl⟩) _ (by simp) heq

/-- **C120 is violated: a cut write loses a hash stored long before.** After any session on a healthy disk whose bin of `h` has room
left in its start and holds a hash with a greater sort number, appending `h` can fail such that a hash stored before, not only
`h`, is gone: the entries are moved up in place, and the write ends between two of them. For all parameters, sessions and hashes. -/
theorem a_cut_write_loses_a_stored_hash {fl : Rat → Rat} (hfl : FloatOK fl) {p : Params} (hp : ParamsOK p)
    (ops : List HashStore3.Op) (h : Bytes) (hA : Appendable p (HashStore3.appended ops ++ [h]))
    (hq : ∀ x, HashStore3.Op.indexOf x ∈ ops → x.length = 32) (hnd : (HashStore3.appended ops).Nodup)
    (hh : h ∉ HashStore3.appended ops)
    (hroom : ((HashStore3.appended ops).filter fun x => decide (binNum p x = binNum p h)).length < p.entriesInBinStart)
    (hb : ∃ b ∈ HashStore3.appended ops, binNum p b = binNum p h ∧ sortNum p h < sortNum p b) :
    ∃ s0 s os, HashStore3.openStore p [] (freshFiles p) false = some s0 ∧ HashStore3.run fl p s0 ops = some (s, os) ∧
      ∃ s' m, appendHash (.cutAt m) fl p s h = some (s', none) ∧
        ∃ a i, (HashStore3.appended ops)[i]? = some a ∧ indexOfHash .fine fl p s' a = some .absent ∧
          ∃ t, getHashAtIndex .fine p s' i = some (t, some (zeros 32)) := by
  obtain ⟨s0, h1, h2⟩ := HashStore3.inv_fresh hp.good
  obtain ⟨s, os, h3, _, h5⟩ := HashStore3.run_ok hfl hp.good ops h2 (by simpa using hA.prefix) hq
  rw [List.nil_append] at h5
  obtain ⟨b, b1, b2, b3⟩ := hb
  obtain ⟨s', m, g1, g2⟩ := cut_away hfl hp.good h5 hA hnd hh hroom b1 b2 b3
  exact ⟨s0, s, os, h1, h3, s', m, g1, g2⟩

example : ∃ s0 s os, HashStore3.openStore demoParams [] (freshFiles demoParams) false = some s0 ∧
    HashStore3.run fl53 demoParams s0 [.append (7 :: zeros 31), .append (9 :: zeros 31)] = some (s, os) ∧
      ∃ s' m, appendHash (.cutAt m) fl53 demoParams s (8 :: zeros 31) = some (s', none) ∧
        ∃ a i, [7 :: zeros 31, 9 :: zeros 31][i]? = some a ∧ indexOfHash .fine fl53 demoParams s' a = some .absent ∧
          ∃ t, getHashAtIndex .fine demoParams s' i = some (t, some (zeros 32)) :=
  a_cut_write_loses_a_stored_hash floatOK_fl53 HashStore3.demo_paramsOK [.append (7 :: zeros 31), .append (9 :: zeros 31)]
    (8 :: zeros 31) ⟨by decide, by decide, by decide, by
      intro h hh
      simp only [HashStore3.appended, List.cons_append, List.getElem?_cons_zero, Option.some.injEq] at hh
      subst hh
      decide +kernel, by decide +kernel⟩ (by simp) (by decide) (by decide) (by decide +kernel)
    ⟨9 :: zeros 31, by simp [HashStore3.appended], by decide +kernel, by decide +kernel⟩

end Verif.BinDisk
