import Verif.Props.BinKillBetween

/-! # What a failing disk does to a binned hash store stays within the bin that was being written (C120) -/

namespace Verif.BinDisk

open Bins HashStores WordFile
open HashStore3 (Store Good ParamsOK Appendable itemAt itemsFor mem_itemsFor truncOf_length itemOf_zeros same_abbr)

/-! ## Specification -/

/-- The bins after one more operation in which the disk has failed an append by more than an early failure. -/
def hit (p : Params) (D : Nat → Prop) : Op → Nat → Prop
  | .append h ft, bn => D bn ∨ (¬ Early ft ∧ binNum p h = bn)
  | _, bn => D bn

/-- What the client should observe after the calls `L`, if the bins `D` have been hit. Of operations on those bins nothing is said,
and of operations in which the disk fails by more than an early failure. -/
def SparedOK (p : Params) (D : Nat → Prop) (L : Slots) : Op → HashStore3.Out → Prop
  | .append h ft, o => Early ft → ¬ D (binNum p h) → OutOK L (.append h ft) o
  | .indexOf h ft, o => Early ft → ¬ D (binNum p h) → OutOK L (.indexOf h ft) o
  | .get i ft, o => Early ft → (∀ x, L[i]? = some x → ¬ D (binNum p x.1)) → OutOK L (.get i ft) o
  | op, o => OutOK L op o

/-- Every observation of a session is right, as far as the bins hit before it do not matter. -/
def SparedSession (p : Params) (D : Nat → Prop) (L : Slots) : List Op → List HashStore3.Out → Prop
  | [], [] => True
  | op :: ops, o :: os => SparedOK p D L op o ∧ SparedSession p (hit p D op) (after L op o) ops os
  | _, _ => False

/-! ## Invariant -/

/-- Coupling of the store with the calls so far, but for the bins `D`. -/
structure InvBut (p : Params) (s : Store) (L : Slots) (D : Nat → Prop) : Prop where
  nums : WordFile.Inv s.binNums (L.map fun x => (binNum p x.1 : Int))
  wsize : s.binNums.wordSize = p.bytesRoomForBinNum
  ram : s.ram = none
  bins : ∀ bn, bn < p.numberOfBins → ¬ D bn → ∃ es, Stored p s.files bn es ∧ Sized p es ∧ SortedBy p es ∧
    (es.map (itemOf p)).Perm (itemsOk p L bn)

theorem InvBut.mono {p : Params} {s : Store} {L : Slots} {D D' : Nat → Prop} (hI : InvBut p s L D) (h : ∀ bn, D bn → D' bn) :
    InvBut p s L D' := ⟨hI.nums, hI.wsize, hI.ram, fun bn hb hd => hI.bins bn hb fun e => hd (h bn e)⟩

theorem InvBut.count {p : Params} {s : Store} {L : Slots} {D : Nat → Prop} (hI : InvBut p s L D) : countWords s.binNums = L.length := by
  have := hI.nums.count
  rw [List.length_map] at this
  exact this

theorem InvBut.load {p : Params} {s : Store} {L : Slots} {D : Nat → Prop} (hI : InvBut p s L D) (hA : Appendable p (L.map Prod.fst))
    {bn : Nat} (hbn : bn < p.numberOfBins) (hD : ¬ D bn) :
    ∃ es, Bins.loadBin p s.files bn = some es.flatten ∧ Stored p s.files bn es ∧ Sized p es ∧ SortedBy p es ∧
      (es.map (itemOf p)).Perm (itemsOk p L bn) ∧ es.length ≤ 2 ^ 48 := by
  obtain ⟨es, h1, h2, h3, h4⟩ := hI.bins bn hbn hD
  refine ⟨es, load_stored h1 h2 ((covered_ok h4).tail hA), h1, h2, h3, h4, ?_⟩
  have e1 := h4.length_eq
  rw [List.length_map] at e1
  have e2 := itemsOk_length (p := p) L bn
  have := hA.count48
  rw [List.length_map] at this
  omega

theorem nums_but {p : Params} (hg : Good p) {s : Store} {L : Slots} {D : Nat → Prop} (hI : InvBut p s L D) {h : Bytes} (ok : Bool)
    (hl : h.length = 32) :
    WordFile.Inv (writeWordAt s.binNums (binNum p h) L.length) ((L ++ [(h, ok)]).map fun x => (binNum p x.1 : Int)) := by
  have := nums_append hg (M := L.map Prod.fst) (by rw [List.map_map]; exact hI.nums) hI.wsize hl
  rw [List.length_map] at this
  simpa [Function.comp_def] using this

/-- An append, whatever the disk does, leaves the bins of other hashes as they are. -/
theorem append_any {fl : Rat → Rat} {p : Params} (hg : Good p) {s s' : Store} {L : Slots} {D : Nat → Prop} (hI : InvBut p s L D)
    {h : Bytes} (hl : h.length = 32) {ft : Fates} {r : Option Nat} (ha : appendHash ft fl p s h = some (s', r)) :
    InvBut p s' (L ++ [(h, r.isSome)]) (fun bn => D bn ∨ binNum p h = bn) := by
  have hcnt := hI.count
  obtain ⟨k1, k2, k3⟩ : s'.binNums = writeWordAt s.binNums (binNum p h) L.length ∧ s'.ram = none ∧
      ∀ bn es, Stored p s.files bn es → bn ≠ binNum p h → Stored p s'.files bn es := by
    unfold appendHash at ha
    simp only [hI.ram, Option.isSome_none, Bool.false_eq_true, if_false, hcnt] at ha
    cases hb : loadBin ft p s.files (binNum p h) with
    | none =>
      simp only [hb, Option.some.injEq, Prod.mk.injEq] at ha
      obtain ⟨rfl, _⟩ := ha
      exact ⟨rfl, by first | rfl | exact hI.ram, fun _ _ a _ => a⟩
    | some b =>
      simp only [hb] at ha
      cases hi : insertBinEntry fl p b (sortNum p h) L.length (truncOf h) with
      | none => simp [hi] at ha
      | some x =>
        obtain ⟨nb, k⟩ := x
        simp only [hi] at ha
        have hs : ∀ bn es, Stored p s.files bn es → bn ≠ binNum p h →
            Stored p (saveBin ft p s.files (binNum p h) nb).1 bn es :=
          fun bn es a c => BinKill.save_other_any ft hg.digits a c nb
        rcases hsv : saveBin ft p s.files (binNum p h) nb with ⟨f, _ | _⟩
        all_goals
          rw [hsv] at hs
          simp only [hsv, Option.some.injEq, Prod.mk.injEq] at ha
          obtain ⟨rfl, _⟩ := ha
          exact ⟨rfl, by first | rfl | exact hI.ram, hs⟩
  refine ⟨by rw [k1]; exact nums_but hg hI _ hl, by rw [k1]; exact hI.wsize, k2, ?_⟩
  intro bn hbn hd
  obtain ⟨es, g1, g2, g3, g4⟩ := hI.bins bn hbn fun e => hd (.inl e)
  refine ⟨es, k3 bn es g1 fun e => hd (.inr e.symm), g2, g3, ?_⟩
  rw [itemsOk_append, if_neg fun e => hd (.inr e.2), List.append_nil]
  exact g4

theorem failed_but {p : Params} (hg : Good p) {s : Store} {L : Slots} {D : Nat → Prop} (hI : InvBut p s L D) {h : Bytes}
    (hl : h.length = 32) :
    InvBut p { s with binNums := writeWordAt s.binNums (binNum p h) L.length } (L ++ [(h, false)]) D := by
  refine ⟨nums_but hg hI _ hl, hI.wsize, hI.ram, ?_⟩
  intro bn hbn hd
  obtain ⟨es, g1, g2, g3, g4⟩ := hI.bins bn hbn hd
  exact ⟨es, g1, g2, g3, by rw [itemsOk_append]; simpa using g4⟩

theorem append_but {fl : Rat → Rat} (hfl : FloatOK fl) {p : Params} (hg : Good p) {s : Store} {L : Slots} {D : Nat → Prop}
    (hI : InvBut p s L D) {h : Bytes} (hA : Appendable p (L.map Prod.fst ++ [h])) {ft : Fates} (hft : Early ft)
    (hD : ¬ D (binNum p h)) :
    ∃ s' r, appendHash ft fl p s h = some (s', r) ∧ OutOK L (.append h ft) (.index r) ∧
      InvBut p s' (L ++ [(h, r.isSome)]) D := by
  have hl : h.length = 32 := hA.len32 h (by simp)
  have hA' := hA.prefix
  have hbn := hg.range h hl
  obtain ⟨es, h1, h2, h3, h4, h5, h6⟩ := hI.load hA' hbn hD
  have hcnt := hI.count
  by_cases hsr : ft.startRead = true
  case neg =>
    refine ⟨_, none, ?_, ?_, failed_but hg hI hl⟩
    · unfold appendHash
      rw [hI.ram]
      simp only [Option.isSome_none, Bool.false_eq_true, if_false, hcnt]
      rw [loadBin_early hft.1, if_neg hsr]
    · exact fun h => hsr (by rw [h]; rfl)
  have hfit : (itemAt p (h, L.length)).Fits p := by
    refine ⟨truncOf_length hl, ?_, hg.sort h⟩
    have := hA.count
    rw [List.length_append, List.length_singleton, List.length_map] at this
    show L.length < _
    omega
  obtain ⟨en, e1, e2, e3⟩ := Item.encode hg.widths hfit
  obtain ⟨i, i1, i2⟩ := insert_ok hfl h3 h4 h6 e1 e2
  have hap : appendHash ft fl p s h =
      match saveBin ft p s.files (binNum p h) (es.take i ++ en :: es.drop i).flatten with
      | (f, false) => some ({ s with binNums := writeWordAt s.binNums (binNum p h) L.length, files := f }, none)
      | (f, true) => some ({ s with binNums := writeWordAt s.binNums (binNum p h) L.length, files := f }, some L.length) := by
    unfold appendHash
    rw [hI.ram]
    simp only [Option.isSome_none, Bool.false_eq_true, if_false, hcnt]
    rw [loadBin_early hft.1, if_pos hsr, h1]
    simp only [itemAt] at i1
    simp only [i1]
    rcases saveBin ft p s.files (binNum p h) (es.take i ++ en :: es.drop i).flatten with ⟨f, _ | _⟩ <;> rfl
  rcases saveBin_early hft p s.files (binNum p h) (es.take i ++ en :: es.drop i).flatten with ⟨hs, hne⟩ | hs
  · rw [hs] at hap
    exact ⟨_, none, hap, hne, failed_but hg hI hl⟩
  rw [hs] at hap
  refine ⟨_, some L.length, hap, rfl, ?_, hI.wsize, hI.ram, ?_⟩
  · exact nums_but hg hI _ hl
  have hsz : Sized p (es.take i ++ en :: es.drop i) := by
    intro e he
    rw [List.mem_append, List.mem_cons] at he
    rcases he with he | rfl | he
    · exact h3 e (List.mem_of_mem_take he)
    · exact e2
    · exact h3 e (List.mem_of_mem_drop he)
  have hperm : (es.take i ++ en :: es.drop i).Perm (en :: es) := by
    have := List.perm_middle (a := en) (l₁ := es.take i) (l₂ := es.drop i)
    rwa [List.take_append_drop] at this
  have hso : SortedBy p (es.take i ++ en :: es.drop i) :=
    sorted_insert h4 (by have := congrArg Item.sort e3; exact this) i2
  intro bn' hbn' hd'
  rw [itemsOk_append]
  by_cases hb : binNum p h = bn'
  · subst hb
    rw [if_pos ⟨rfl, rfl⟩]
    refine ⟨_, save_stored h2 h3 hsz ?_, hsz, hso, ?_⟩
    · rw [hperm.length_eq, List.length_cons]; omega
    · refine (hperm.map (itemOf p)).trans ?_
      rw [List.map_cons, e3]
      exact (List.perm_append_singleton _ _).symm.trans (h5.append_right _)
  · rw [if_neg (fun h => hb h.2), List.append_nil]
    obtain ⟨es', g1, g2, g3, g4⟩ := hI.bins bn' hbn' hd'
    exact ⟨es', save_other hg.digits g1 hb hsz, g2, g3, g4⟩

theorem indexOf_but {fl : Rat → Rat} (hfl : FloatOK fl) {p : Params} (hg : Good p) {s : Store} {L : Slots} {D : Nat → Prop}
    (hI : InvBut p s L D) (hA : Appendable p (L.map Prod.fst)) {h : Bytes} (hl : h.length = 32) {ft : Fates} (hft : Early ft)
    (hD : ¬ D (binNum p h)) :
    ∃ r, indexOfHash ft fl p s h = some r ∧ OutOK L (.indexOf h ft) (.found r) := by
  obtain ⟨es, h1, h2, h3, h4, h5, h6⟩ := hI.load hA (hg.range h hl) hD
  unfold indexOfHash
  rw [loadBin_early hft.1]
  by_cases hsr : ft.startRead = true
  case neg =>
    rw [if_neg hsr]
    exact ⟨.err, rfl, fun h => hsr (by rw [h]; rfl)⟩
  rw [if_pos hsr, h1]
  dsimp only
  have hhit : ∀ hi, (⟨sortNum p h, hi, truncOf h⟩ : Item) ∈ itemsOk p L (binNum p h) ↔ L[hi]? = some (h, true) := by
    intro hi
    rw [mem_itemsOk]
    constructor
    · rintro ⟨x, x1, x2, x3, x4⟩
      have : x ∈ L.map Prod.fst := List.mem_map.mpr ⟨(x, true), List.mem_of_getElem? x1, rfl⟩
      simp only at x1
      rw [x1, split_injective (hA.len32 x this) hl x2 x3.symm x4.symm]
    · intro hx
      exact ⟨h, hx, rfl, rfl, rfl⟩
  by_cases hin : (h, true) ∈ L
  · have hin' : h ∈ L.map Prod.fst := List.mem_map.mpr ⟨_, hin, rfl⟩
    obtain ⟨r, r1, r2⟩ := lookup_complete_es hfl h3 h4 h6 (truncOf h) (sortNum p h) (by
      intro x hx hs
      rw [h5.mem_iff, mem_itemsOk] at hx
      obtain ⟨y, y1, y2, y3, y4⟩ := hx
      have : y ∈ L.map Prod.fst := List.mem_map.mpr ⟨(y, true), List.mem_of_getElem? y1, rfl⟩
      rw [y4, hA.noClash y this h hin' (same_abbr y2 (by omega))])
    simp only [h5.mem_iff, hhit] at r2
    refine ⟨r, r1, ?_⟩
    rcases r2 with ⟨hi, rfl, h7⟩ | ⟨rfl, h7⟩
    · exact h7
    · obtain ⟨i, hi⟩ := List.mem_iff_getElem?.mp hin
      exact absurd hi (h7 i)
  · obtain ⟨r, r1, r2⟩ := lookup_sound_es hfl h3 h4 h6 (truncOf h) (sortNum p h)
    simp only [h5.mem_iff, hhit] at r2
    refine ⟨r, r1, ?_⟩
    rcases r2 with rfl | ⟨hi, rfl, h7⟩
    · exact hin
    · exact h7

theorem get_but {p : Params} (hg : Good p) {s : Store} {L : Slots} {D : Nat → Prop} (hI : InvBut p s L D)
    (hA : Appendable p (L.map Prod.fst)) (i : Nat) {ft : Fates} (hft : Early ft)
    (hD : ∀ x, L[i]? = some x → ¬ D (binNum p x.1)) :
    ∃ s' r, getHashAtIndex ft p s i = some (s', r) ∧ OutOK L (.get i ft) (.hash r) ∧ InvBut p s' L D := by
  obtain ⟨h1, h2⟩ := WordFile.inv_read hI.nums i
  have hws : (readWordAt s.binNums i).1.wordSize = s.binNums.wordSize := by
    unfold readWordAt; dsimp only; split <;> rfl
  have hI' : InvBut p { s with binNums := (readWordAt s.binNums i).1 } L D :=
    ⟨h1, by rw [← hI.wsize]; exact hws, hI.ram, hI.bins⟩
  unfold getHashAtIndex
  rcases hr : readWordAt s.binNums i with ⟨w, v⟩
  rw [hr] at h2 hI'
  simp only at h2
  rw [List.getElem?_map] at h2
  cases hLi : L[i]? with
  | none =>
    rw [hLi] at h2
    simp only [Option.map_none] at h2
    subst h2
    exact ⟨_, none, rfl, .inl (List.getElem?_eq_none_iff.mp hLi), hI'⟩
  | some x =>
    obtain ⟨h, ok⟩ := x
    rw [hLi] at h2
    simp only [Option.map_some] at h2
    subst h2
    dsimp only
    have hl := hA.len32 h (List.mem_map.mpr ⟨(h, ok), List.mem_of_getElem? hLi, rfl⟩)
    rw [Int.toNat_natCast, loadBin_early hft.1]
    by_cases hsr : ft.startRead = true
    case neg =>
      rw [if_neg hsr]
      exact ⟨_, none, rfl, .inr (fun h => hsr (by rw [h]; rfl)), hI'⟩
    obtain ⟨es, e1, e2, e3, e4, e5, e6⟩ := hI.load hA (hg.range h hl) (hD _ hLi)
    rw [if_pos hsr, e1]
    dsimp only
    rw [lookupByIndex_eq e3]
    refine ⟨_, some _, rfl, ⟨h, ok, hLi, ?_⟩, hI'⟩
    cases hf : es.find? fun e => decide (entIndex p e = i) with
    | none =>
      dsimp only
      rw [List.find?_eq_none] at hf
      cases ok with
      | false => rfl
      | true =>
        exfalso
        have hx : (⟨sortNum p h, i, truncOf h⟩ : Item) ∈ es.map (itemOf p) := by
          rw [e5.mem_iff, mem_itemsOk]; exact ⟨h, hLi, rfl, rfl, rfl⟩
        obtain ⟨e, he, hee⟩ := List.mem_map.mp hx
        have := hf e he
        have h8 := congrArg Item.index hee
        simp [itemOf] at h8
        simp [h8] at this
    | some e' =>
      have f1 : entIndex p e' = i := by simpa using List.find?_some hf
      have f2 : itemOf p e' ∈ itemsOk p L (binNum p h) :=
        e5.mem_iff.mp (List.mem_map.mpr ⟨e', List.mem_of_find?_eq_some hf, rfl⟩)
      rw [mem_itemsOk] at f2
      obtain ⟨y, y1, y2, y3, y4⟩ := f2
      simp only [itemOf] at y1 y3 y4
      rw [f1, hLi] at y1
      cases y1
      dsimp only
      rw [if_pos rfl, y3, y4, hash_reconstructed p h hl]

theorem reopen_but {p : Params} (hg : Good p) {s : Store} {L : Slots} {D : Nat → Prop} (hI : InvBut p s L D) :
    ∃ s', HashStore3.openStore p (HashStore3.close s).1 (HashStore3.close s).2 false = some s' ∧ InvBut p s' L D := by
  obtain ⟨plain, hp, hm, hl⟩ := hI.nums.file
  rw [hI.wsize] at hm hl
  have hc : (HashStore3.close s).1 = plain := (AppendOpt.inv_flush hp).2.1
  have ho : openWordFile p.bytesRoomForBinNum plain =
      some (new (AppendOpt.openFile plain) p.bytesRoomForBinNum (plain.length / p.bytesRoomForBinNum)) := by
    simp [openWordFile, fileWordCount, hm]
  have hr := hg.room
  obtain ⟨i1, i2⟩ := WordFile.inv_open (by omega) ho
  rw [hl] at i1
  refine ⟨{ binNums := new (AppendOpt.openFile plain) p.bytesRoomForBinNum (plain.length / p.bytesRoomForBinNum),
            files := s.files, ram := none }, ?_, ⟨i1, i2, rfl, hI.bins⟩⟩
  unfold HashStore3.openStore
  rw [hc, ho]
  rfl

/-- A read keeps the coupling, whatever the disk does. -/
theorem get_any {p : Params} {s s' : Store} {L : Slots} {D : Nat → Prop} (hI : InvBut p s L D) {i : Nat} {ft : Fates}
    {r : Option Bytes} (h : getHashAtIndex ft p s i = some (s', r)) : InvBut p s' L D := by
  obtain ⟨h1, _⟩ := WordFile.inv_read hI.nums i
  have hws : (readWordAt s.binNums i).1.wordSize = s.binNums.wordSize := by
    unfold readWordAt; dsimp only; split <;> rfl
  have hI' : InvBut p { s with binNums := (readWordAt s.binNums i).1 } L D :=
    ⟨h1, by rw [← hI.wsize]; exact hws, hI.ram, hI.bins⟩
  unfold getHashAtIndex at h
  rcases hr : readWordAt s.binNums i with ⟨w, v⟩
  rw [hr] at hI'
  simp only [hr] at h
  cases v with
  | none =>
    simp only [Option.some.injEq, Prod.mk.injEq] at h
    obtain ⟨rfl, _⟩ := h
    exact hI'
  | some bn =>
    dsimp only at h
    cases hb : loadBin ft p s.files bn.toNat with
    | none =>
      simp only [hb, Option.some.injEq, Prod.mk.injEq] at h
      obtain ⟨rfl, _⟩ := h
      exact hI'
    | some b =>
      simp only [hb] at h
      cases hk : lookupByIndex p b i bn.toNat with
      | none => simp [hk] at h
      | some x =>
        simp only [hk, Option.some.injEq, Prod.mk.injEq] at h
        obtain ⟨rfl, _⟩ := h
        exact hI'

theorem step_but {fl : Rat → Rat} (hfl : FloatOK fl) {p : Params} (hg : Good p) {s s' : Store} {L : Slots} {D : Nat → Prop}
    (hI : InvBut p s L D) {op : Op} (hA : Appendable p (L.map Prod.fst ++ tried [op]))
    (hq : ∀ h ft, op = .indexOf h ft → h.length = 32) {o : HashStore3.Out} (hs : step fl p s op = some (s', o)) :
    SparedOK p D L op o ∧ InvBut p s' (after L op o) (hit p D op) ∧ (after L op o).map Prod.fst = L.map Prod.fst ++ tried [op] := by
  cases op with
  | append h ft =>
    have hl : h.length = 32 := hA.len32 h (by simp [tried])
    simp only [step, Option.map_eq_some_iff] at hs
    obtain ⟨⟨t, r⟩, h1, h2⟩ := hs
    simp only [Prod.mk.injEq] at h2
    obtain ⟨rfl, rfl⟩ := h2
    have hany := append_any hg hI hl h1
    refine ⟨?_, ?_, by simp [after, tried]⟩
    · intro hft hD
      obtain ⟨t', r', g1, g2, _⟩ := append_but hfl hg hI hA hft hD
      rw [h1] at g1
      cases g1
      exact g2
    · by_cases hft : Early ft
      · by_cases hD : D (binNum p h)
        · refine hany.mono ?_
          rintro bn (e | e)
          · exact .inl e
          · exact .inl (e ▸ hD)
        · obtain ⟨t', r', g1, _, g3⟩ := append_but hfl hg hI hA hft hD
          rw [h1] at g1
          cases g1
          exact g3.mono fun bn e => .inl e
      · refine hany.mono ?_
        rintro bn (e | e)
        · exact .inl e
        · exact .inr ⟨hft, e⟩
  | indexOf h ft =>
    simp only [step, Option.map_eq_some_iff] at hs
    obtain ⟨r, h1, h2⟩ := hs
    simp only [Prod.mk.injEq] at h2
    obtain ⟨rfl, rfl⟩ := h2
    refine ⟨?_, hI, by simp [after, tried]⟩
    intro hft hD
    obtain ⟨r', g1, g2⟩ := indexOf_but hfl hg hI hA.prefix (hq h ft rfl) hft hD
    rw [h1] at g1
    cases g1
    exact g2
  | get i ft =>
    simp only [step, Option.map_eq_some_iff] at hs
    obtain ⟨⟨t, r⟩, h1, h2⟩ := hs
    simp only [Prod.mk.injEq] at h2
    obtain ⟨rfl, rfl⟩ := h2
    refine ⟨?_, get_any hI h1, by simp [after, tried]⟩
    intro hft hD
    obtain ⟨t', r', g1, g2, _⟩ := get_but hg hI hA.prefix i hft hD
    rw [h1] at g1
    cases g1
    exact g2
  | count =>
    simp only [step, Option.some.injEq, Prod.mk.injEq] at hs
    obtain ⟨rfl, rfl⟩ := hs
    exact ⟨hI.count, hI, by simp [after, tried]⟩
  | sync =>
    simp only [step, Option.some.injEq, Prod.mk.injEq] at hs
    obtain ⟨rfl, rfl⟩ := hs
    obtain ⟨h1, _, h3⟩ := WordFile.inv_step hI.nums .sync trivial
    exact ⟨trivial, ⟨h1, by rw [← hI.wsize]; exact h3, hI.ram, hI.bins⟩, by simp [after, tried]⟩
  | reopen =>
    obtain ⟨t, h1, h2⟩ := reopen_but hg hI
    simp only [step, h1, Option.map_some, Option.some.injEq, Prod.mk.injEq] at hs
    obtain ⟨rfl, rfl⟩ := hs
    exact ⟨trivial, h2, by simp [after, tried]⟩

theorem run_but {fl : Rat → Rat} (hfl : FloatOK fl) {p : Params} (hg : Good p) (ops : List Op) {s s' : Store} {L : Slots}
    {D : Nat → Prop} (hI : InvBut p s L D) (hA : Appendable p (L.map Prod.fst ++ tried ops))
    (hq : ∀ h ft, Op.indexOf h ft ∈ ops → h.length = 32) {os : List HashStore3.Out} (hr : run fl p s ops = some (s', os)) :
    SparedSession p D L ops os := by
  induction ops generalizing s L D os with
  | nil =>
    simp only [run, Option.some.injEq, Prod.mk.injEq] at hr
    obtain ⟨_, rfl⟩ := hr
    trivial
  | cons op ops ih =>
    rw [tried_cons, ← List.append_assoc] at hA
    simp only [run] at hr
    cases h1 : step fl p s op with
    | none => simp [h1] at hr
    | some x =>
      obtain ⟨t, o⟩ := x
      simp only [h1, Option.map_eq_some_iff] at hr
      obtain ⟨⟨u, os'⟩, h2, h3⟩ := hr
      simp only [Prod.mk.injEq] at h3
      obtain ⟨rfl, rfl⟩ := h3
      obtain ⟨g1, g2, g3⟩ := step_but hfl hg hI hA.prefix (fun h ft e => hq h ft (by simp [e])) h1
      exact ⟨g1, ih g2 (by rw [g3]; exact hA) (fun h ft e => hq h ft (List.mem_cons_of_mem _ e)) h2⟩

/-- **C120, failures stay in their bin.** In any session on a new store, whatever the disk does in any of its operations, every
answer about a bin is right as long as no append to that bin has failed by more than an early failure: the appends
give the next index, `IndexOfHash` and `GetHashAtIndex` tell the truth, and `CountHashes` is right always. A cut write or an
unreadable overflow file harms the bin that was being written and no other. For all parameters, sessions and hashes. -/
theorem failures_stay_in_their_bin {fl : Rat → Rat} (hfl : FloatOK fl) {p : Params} (hp : ParamsOK p) (ops : List Op)
    (hA : Appendable p (tried ops)) (hq : ∀ h ft, Op.indexOf h ft ∈ ops → h.length = 32) :
    ∃ s, HashStore3.openStore p [] (freshFiles p) false = some s ∧
      ∀ s' os, run fl p s ops = some (s', os) → SparedSession p (fun _ => False) [] ops os := by
  obtain ⟨s, h1, h2⟩ := HashStore3.inv_fresh hp.good
  have hI := inv_of_sound h2
  exact ⟨s, h1, fun s' os hr => run_but hfl hp.good ops (L := []) ⟨hI.nums, hI.wsize, hI.ram, fun bn hb _ => hI.bins bn hb⟩
    (by simpa using hA) hq hr⟩

/-! ### Example: three hashes of one bin and one of another; of the bin start with the fourth 40 bytes are written -/

/-- The session; the append after the failed one goes to the bin that was hit. -/
def sparedOps : List Op :=
  [.append (7 :: zeros 31) .fine, .append (9 :: zeros 31) .fine, .append BinKill.elsewhere .fine,
    .append (5 :: zeros 31) ⟨true, true, true, .ok, some 40⟩, .append (11 :: zeros 31) .fine, .indexOf BinKill.elsewhere .fine,
    .get 2 .fine, .count, .reopen, .get 2 .fine]

set_option maxRecDepth 10000 in
example : ((HashStore3.openStore smallParams [] (freshFiles smallParams) false).bind fun s => run fl53 smallParams s sparedOps).map
      (fun x => x.2) =
    some [.index (some 0), .index (some 1), .index (some 2), .index none, .index (some 4), .found (.at 2),
      .hash (some BinKill.elsewhere), .count 5, .unit, .hash (some BinKill.elsewhere)] := by decide +kernel

example : ∃ s, HashStore3.openStore smallParams [] (freshFiles smallParams) false = some s ∧
    ∀ s' os, run fl53 smallParams s sparedOps = some (s', os) → SparedSession smallParams (fun _ => False) [] sparedOps os := by
  refine failures_stay_in_their_bin floatOK_fl53 small_paramsOK sparedOps ?_ ?_
  · refine ⟨by decide, by decide, by decide, ?_, by decide +kernel⟩
    intro h hh
    simp only [tried, sparedOps, List.getElem?_cons_zero, Option.some.injEq] at hh
    subst hh
    decide +kernel
  · intro h ft hh
    simp only [sparedOps, List.mem_cons, reduceCtorEq, Op.indexOf.injEq, List.not_mem_nil, false_or, or_false] at hh
    rw [hh.1]
    rfl

end Verif.BinDisk
