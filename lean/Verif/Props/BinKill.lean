import Verif.Model.BinKill
import Verif.Props.BinDisk
import Verif.Props.Killed

/-! # The binned hash store whose process is killed (C121) -/

namespace Verif.BinKill

open Bins HashStores WordFile
open HashStore3 (Store Good ParamsOK itemAt truncOf_length itemOf_zeros same_abbr getHashAtIndex indexOfHash appendHash openStore)

/-! ## Specification -/

/-- What a client knows. `listed`: the hashes the store lists, by index. `safe`: how many of them were on disk when the store was
last synced, read by index or opened. `given`: every hash ever appended, with the index its append returned. -/
structure View where
  listed : List Bytes
  safe : Nat
  given : List (Bytes × Nat)

/-- The bytes of the bin number file (`w` bytes a word) that have left the 4096 byte buffer since the last sync. -/
def left (w : Nat) (v : View) : Nat := 4096 * (((v.listed.length - v.safe) * w - 1) / 4096)

/-- How many hashes are listed after a kill. -/
def kept (w : Nat) (v : View) : Nat := v.safe + left w v / w

/-- The view after an operation. -/
def after (w : Nat) (v : View) : Op → View
  | .call (.append h) => ⟨v.listed ++ [h], v.safe, v.given ++ [(h, v.listed.length)]⟩
  | .call (.get _) => { v with safe := v.listed.length }
  | .call .sync => { v with safe := v.listed.length }
  | .call .reopen => { v with safe := v.listed.length }
  | .kill => ⟨v.listed.take (kept w v), kept w v, v.given⟩
  | _ => v

/-- What the client should observe. -/
def OutOK (w : Nat) (v : View) : Op → Out → Prop
  | .call (.append _), .call (.index i) => i = some v.listed.length
  | .call (.indexOf h), .call (.found (.at i)) => (h, i) ∈ v.given
  | .call (.indexOf h), .call (.found .absent) => ∀ i, (h, i) ∉ v.given
  | .call (.get i), .call (.hash none) => v.listed.length ≤ i
  | .call (.get i), .call (.hash (some h)) => i < v.listed.length ∧ (h, i) ∈ v.given
  | .call .count, .call (.count n) => n = v.listed.length
  | .call .sync, .call .unit => True
  | .call .reopen, .call .unit => True
  | .kill, .opened b => b = true ↔ left w v % w = 0
  | _, _ => False

/-- Every observation of a session is right; nothing follows a store that cannot be opened. -/
def SessionOK (w : Nat) (v : View) : List Op → List Out → Prop
  | [], [] => True
  | op :: ops, o :: os => OutOK w v op o ∧
    match o with
    | .opened false => os = []
    | _ => SessionOK w (after w v op) ops os
  | _, _ => False

/-- The hashes appended by a session. -/
def appended : List Op → List Bytes
  | [] => []
  | .call (.append h) :: ops => h :: appended ops
  | _ :: ops => appended ops

/-- Hashes the store can cope with: 32 bytes, not too many, none encoded as an all-zero entry, and no two different ones with
the same first 8 bytes. -/
structure Usable (p : Params) (H : List Bytes) : Prop where
  len32 : ∀ h ∈ H, h.length = 32
  count : H.length ≤ 256 ^ p.bytesPerHashIndex
  count48 : H.length ≤ 2 ^ 48
  nonzero : ∀ h ∈ H, ¬ (truncOf h = zeros 24 ∧ sortNum p h = 0)
  noClash : ∀ a ∈ H, ∀ b ∈ H, abbrOf a = abbrOf b → a = b

/-! ## Invariant -/

/-- The items of a bin. -/
def items (p : Params) (E : List (Bytes × Nat)) (bn : Nat) : List Item :=
  (E.filter fun x => binNum p x.1 = bn).map (itemAt p)

/-- Coupling of the store with the view. -/
structure Inv (p : Params) (s : Store) (v : View) : Prop where
  nums : WordFile.Inv s.binNums (v.listed.map fun h => (binNum p h : Int))
  buf : Killed.Buf s.binNums p.bytesRoomForBinNum v.listed.length (v.listed.length - v.safe)
  safe : v.safe ≤ v.listed.length
  ram : s.ram = none
  bins : ∀ bn, bn < p.numberOfBins → ∃ es, Stored p s.files bn es ∧ Sized p es ∧ SortedBy p es ∧
    (es.map (itemOf p)).Perm (items p v.given bn)
  given : ∀ i h, v.listed[i]? = some h → (h, i) ∈ v.given
  le : v.listed.length ≤ v.given.length

theorem mem_items {p : Params} {E : List (Bytes × Nat)} {bn : Nat} {x : Item} :
    x ∈ items p E bn ↔ ∃ h, (h, x.index) ∈ E ∧ binNum p h = bn ∧ x.sort = sortNum p h ∧ x.trunc = truncOf h := by
  unfold items
  simp only [List.mem_map, List.mem_filter, decide_eq_true_eq]
  constructor
  · rintro ⟨⟨h, i⟩, ⟨h1, h2⟩, rfl⟩
    exact ⟨h, h1, h2, rfl, rfl⟩
  · rintro ⟨h, h1, h2, h3, h4⟩
    refine ⟨(h, x.index), ⟨h1, h2⟩, ?_⟩
    unfold itemAt
    rw [← h3, ← h4]

theorem items_append {p : Params} (E : List (Bytes × Nat)) (h : Bytes) (i bn : Nat) :
    items p (E ++ [(h, i)]) bn = items p E bn ++ if binNum p h = bn then [itemAt p (h, i)] else [] := by
  unfold items
  rw [List.filter_append, List.map_append]
  congr 1
  by_cases hb : binNum p h = bn <;> simp [hb]

theorem items_length {p : Params} (E : List (Bytes × Nat)) (bn : Nat) : (items p E bn).length ≤ E.length := by
  unfold items
  rw [List.length_map]
  exact List.length_filter_le _ _

theorem Usable.prefix {p : Params} {L M : List Bytes} (hA : Usable p (L ++ M)) : Usable p L := by
  refine ⟨fun h hh => hA.len32 h (by simp [hh]), ?_, ?_, fun h hh => hA.nonzero h (by simp [hh]),
    fun a ha b hb => hA.noClash a (by simp [ha]) b (by simp [hb])⟩
  · have := hA.count; rw [List.length_append] at this; omega
  · have := hA.count48; rw [List.length_append] at this; omega

theorem mem_hashes {E : List (Bytes × Nat)} {h : Bytes} {i : Nat} (hm : (h, i) ∈ E) : h ∈ E.map Prod.fst :=
  List.mem_map.mpr ⟨(h, i), hm, rfl⟩

theorem Usable.tail {p : Params} {E : List (Bytes × Nat)} (hA : Usable p (E.map Prod.fst)) {bn : Nat} {es : List Bytes}
    (hp : (es.map (itemOf p)).Perm (items p E bn)) : TailOK p es := by
  intro e he _ hz
  have hm : itemOf p e ∈ items p E bn := hp.mem_iff.mp (List.mem_map.mpr ⟨e, List.mem_of_getElem? he, rfl⟩)
  rw [hz, itemOf_zeros, mem_items] at hm
  obtain ⟨h, h1, _, h3, h4⟩ := hm
  exact hA.nonzero h (mem_hashes h1) ⟨h4.symm, h3.symm⟩

/-- Loading a bin. -/
theorem Inv.load {p : Params} {s : Store} {v : View} (hI : Inv p s v) (hA : Usable p (v.given.map Prod.fst)) {bn : Nat}
    (hbn : bn < p.numberOfBins) :
    ∃ es, loadBin p s.files bn = some es.flatten ∧ Stored p s.files bn es ∧ Sized p es ∧ SortedBy p es ∧
      (es.map (itemOf p)).Perm (items p v.given bn) ∧ es.length ≤ 2 ^ 48 := by
  obtain ⟨es, h1, h2, h3, h4⟩ := hI.bins bn hbn
  refine ⟨es, load_stored h1 h2 (hA.tail h4), h1, h2, h3, h4, ?_⟩
  have e1 := h4.length_eq
  rw [List.length_map] at e1
  have e2 := items_length (p := p) v.given bn
  have := hA.count48
  rw [List.length_map] at this
  omega

theorem Inv.count {p : Params} {s : Store} {v : View} (hI : Inv p s v) : countWords s.binNums = v.listed.length := by
  have := hI.nums.count
  rw [List.length_map] at this
  exact this

theorem append_ok {fl : Rat → Rat} (hfl : FloatOK fl) {p : Params} (hg : Good p) {s : Store} {v : View}
    (hI : Inv p s v) {h : Bytes} (hA : Usable p (v.given.map Prod.fst ++ [h])) :
    ∃ s', appendHash fl p s h = some (s', some v.listed.length) ∧
      Inv p s' (after p.bytesRoomForBinNum v (.call (.append h))) := by
  have hl : h.length = 32 := hA.len32 h (by simp)
  have hA' := hA.prefix
  have hbn := hg.range h hl
  obtain ⟨es, h1, h2, h3, h4, h5, h6⟩ := hI.load hA' hbn
  have hcnt := hI.count
  have hle := hI.le
  have hfit : (itemAt p (h, v.listed.length)).Fits p := by
    refine ⟨truncOf_length hl, ?_, hg.sort h⟩
    have := hA.count
    rw [List.length_append, List.length_singleton, List.length_map] at this
    show v.listed.length < _
    omega
  obtain ⟨en, e1, e2, e3⟩ := Item.encode hg.widths hfit
  obtain ⟨i, i1, i2⟩ := insert_ok hfl h3 h4 h6 e1 e2
  have hsz : Sized p (es.take i ++ en :: es.drop i) := by
    intro e he
    rw [List.mem_append, List.mem_cons] at he
    rcases he with he | rfl | he
    · exact h3 e (List.mem_of_mem_take he)
    · exact e2
    · exact h3 e (List.mem_of_mem_drop he)
  have hperm : (es.take i ++ en :: es.drop i).Perm (en :: es) := by
    have := List.perm_middle (a := en) (l₁ := es.take i) (l₂ := es.drop i)
    rwa [List.take_append_drop] at this
  have hso : SortedBy p (es.take i ++ en :: es.drop i) :=
    sorted_insert h4 (by have := congrArg Item.sort e3; exact this) i2
  refine ⟨{ s with binNums := writeWordAt s.binNums (binNum p h) v.listed.length,
                   files := saveBin p s.files (binNum p h) (es.take i ++ en :: es.drop i).flatten }, ?_, ?_⟩
  · unfold appendHash
    rw [hI.ram]
    simp only [Option.isSome_none, Bool.false_eq_true, if_false, hcnt, h1]
    simp only [itemAt] at i1
    rw [i1]
  · have hr := hg.room
    refine ⟨?_, ?_, ?_, hI.ram, ?_, ?_, ?_⟩
    · have hf : WordFile.fits s.binNums.wordSize (binNum p h : Int) := by
        rw [hI.buf.size]
        unfold WordFile.fits
        rw [if_neg (by omega)]
        refine ⟨Int.natCast_nonneg _, ?_⟩
        rw [← natCast_pow256]
        exact Int.ofNat_lt.mpr (hg.word h hl)
      have := WordFile.inv_write hI.nums v.listed.length hf
      have e : setExt (v.listed.map fun h => (binNum p h : Int)) v.listed.length (binNum p h : Int) 0 =
          (v.listed ++ [h]).map fun h => (binNum p h : Int) := by
        have := setExt_end (v.listed.map fun h => (binNum p h : Int)) (binNum p h : Int) 0
        rw [List.length_map] at this
        rw [this]; simp
      rw [e] at this
      exact this
    · have := hI.buf.write (by omega) (binNum p h : Int)
      have hs := hI.safe
      simp only [after, List.length_append, List.length_singleton]
      rw [show v.listed.length + 1 - v.safe = v.listed.length - v.safe + 1 by omega]
      exact this
    · have := hI.safe
      simp only [after, List.length_append, List.length_singleton]
      omega
    · intro bn' hbn'
      simp only [after]
      rw [items_append]
      by_cases hb : binNum p h = bn'
      · subst hb
        rw [if_pos rfl]
        refine ⟨_, save_stored h2 h3 hsz ?_, hsz, hso, ?_⟩
        · rw [hperm.length_eq, List.length_cons]; omega
        · refine (hperm.map (itemOf p)).trans ?_
          rw [List.map_cons, e3]
          exact (List.perm_append_singleton _ _).symm.trans (h5.append_right _)
      · rw [if_neg hb, List.append_nil]
        obtain ⟨es', g1, g2, g3, g4⟩ := hI.bins bn' hbn'
        exact ⟨es', save_other hg.digits g1 hb hsz, g2, g3, g4⟩
    · intro j x hx
      simp only [after] at hx ⊢
      rw [List.mem_append]
      by_cases hj : j < v.listed.length
      · rw [List.getElem?_append_left hj] at hx
        exact .inl (hI.given j x hx)
      · have hlt := lt_of_getElem?_some hx
        rw [List.length_append, List.length_singleton] at hlt
        have : j = v.listed.length := by omega
        subst this
        rw [List.getElem?_append_right (Nat.le_refl _)] at hx
        simp at hx
        subst hx
        exact .inr (by simp)
    · simp only [after, List.length_append, List.length_singleton]
      omega

theorem indexOf_ok {fl : Rat → Rat} (hfl : FloatOK fl) {p : Params} (hg : Good p) {s : Store} {v : View}
    (hI : Inv p s v) (hA : Usable p (v.given.map Prod.fst)) {h : Bytes} (hl : h.length = 32) :
    ∃ r, indexOfHash fl p s h = some r ∧
      ((∃ i, r = .at i ∧ (h, i) ∈ v.given) ∨ (r = .absent ∧ ∀ i, (h, i) ∉ v.given)) := by
  obtain ⟨es, h1, h2, h3, h4, h5, h6⟩ := hI.load hA (hg.range h hl)
  have hidx : indexOfHash fl p s h = lookupByHash fl p es.flatten (truncOf h) (sortNum p h) := by
    unfold indexOfHash HashStore3.binFor
    rw [hI.ram]
    dsimp only
    rw [h1]
  have hhit : ∀ hi, (⟨sortNum p h, hi, truncOf h⟩ : Item) ∈ items p v.given (binNum p h) ↔ (h, hi) ∈ v.given := by
    intro hi
    rw [mem_items]
    constructor
    · rintro ⟨x, x1, x2, x3, x4⟩
      rw [split_injective (hA.len32 x (mem_hashes x1)) hl x2 x3.symm x4.symm] at x1
      exact x1
    · intro hx
      exact ⟨h, hx, rfl, rfl, rfl⟩
  by_cases hin : h ∈ v.given.map Prod.fst
  · obtain ⟨r, r1, r2⟩ := lookup_complete_es hfl h3 h4 h6 (truncOf h) (sortNum p h) (by
      intro x hx hs
      rw [h5.mem_iff, mem_items] at hx
      obtain ⟨y, y1, y2, y3, y4⟩ := hx
      rw [y4, hA.noClash y (mem_hashes y1) h hin (same_abbr y2 (by omega))])
    simp only [h5.mem_iff, hhit] at r2
    exact ⟨r, by rw [hidx]; exact r1, r2⟩
  · obtain ⟨r, r1, r2⟩ := lookup_sound_es hfl h3 h4 h6 (truncOf h) (sortNum p h)
    simp only [h5.mem_iff, hhit] at r2
    refine ⟨r, by rw [hidx]; exact r1, ?_⟩
    rcases r2 with rfl | h7
    · exact .inr ⟨rfl, fun i hi => hin (mem_hashes hi)⟩
    · exact .inl h7

theorem buf_read {wf : WF} {w N m : Nat} (h : Killed.Buf wf w N m) (off : Nat) : Killed.Buf (readWordAt wf off).1 w N 0 := by
  have hs := h.sync
  have hr := Killed.step_read wf off
  have e : ∀ a b : WF, a.file = b.file → a.wordSize = b.wordSize → Killed.Buf a w N 0 → Killed.Buf b w N 0 := by
    rintro a b h1 h2 ⟨c1, c2, c3, c4, c5⟩
    exact ⟨by rw [← h2, c1], by rw [← h1, c2], c3, by rw [← h1]; exact c4, by rw [← h1]; exact c5⟩
  exact e (WordFile.step wf .sync).1 _ hr.1.symm hr.2.symm hs

/-- What is at an index. -/
theorem get_ok {p : Params} (hg : Good p) {s : Store} {v : View} (hI : Inv p s v) (hA : Usable p (v.given.map Prod.fst))
    (i : Nat) :
    ∃ s' r, getHashAtIndex p s i = some (s', r) ∧ Inv p s' { v with safe := v.listed.length } ∧
      match v.listed[i]? with
      | none => r = none
      | some h => ∃ es e, loadBin p s.files (binNum p h) = some es.flatten ∧ Sized p es ∧ SortedBy p es ∧
          (es.map (itemOf p)).Perm (items p v.given (binNum p h)) ∧
          es.find? (fun e => decide (entIndex p e = i)) = some e ∧
          ∃ x, (x, i) ∈ v.given ∧ binNum p x = binNum p h ∧ entSort p e = sortNum p x ∧ r = some x := by
  obtain ⟨h1, h2⟩ := WordFile.inv_read hI.nums i
  have hI' : Inv p { s with binNums := (readWordAt s.binNums i).1 } { v with safe := v.listed.length } :=
    ⟨h1, by rw [Nat.sub_self]; exact buf_read hI.buf i, Nat.le_refl _, hI.ram, hI.bins, hI.given, hI.le⟩
  unfold getHashAtIndex
  rcases hr : readWordAt s.binNums i with ⟨w, x⟩
  rw [hr] at h2 hI'
  simp only at h2
  rw [List.getElem?_map] at h2
  cases hLi : v.listed[i]? with
  | none =>
    rw [hLi] at h2
    simp only [Option.map_none] at h2
    subst h2
    exact ⟨_, none, rfl, hI', rfl⟩
  | some h =>
    rw [hLi] at h2
    simp only [Option.map_some] at h2
    subst h2
    dsimp only
    have hgv := hI.given i h hLi
    have hl := hA.len32 h (mem_hashes hgv)
    obtain ⟨es, e1, e2, e3, e4, e5, e6⟩ := hI.load hA (hg.range h hl)
    rw [Int.toNat_natCast, e1]
    dsimp only
    rw [lookupByIndex_eq e3]
    cases hf : es.find? fun e => decide (entIndex p e = i) with
    | none =>
      exfalso
      have hx : (⟨sortNum p h, i, truncOf h⟩ : Item) ∈ es.map (itemOf p) := by
        rw [e5.mem_iff, mem_items]; exact ⟨h, hgv, rfl, rfl, rfl⟩
      obtain ⟨e, he, hee⟩ := List.mem_map.mp hx
      rw [List.find?_eq_none] at hf
      have := hf e he
      have h8 := congrArg Item.index hee
      simp [itemOf] at h8
      simp [h8] at this
    | some e' =>
      have f1 : entIndex p e' = i := by simpa using List.find?_some hf
      have f2 : itemOf p e' ∈ items p v.given (binNum p h) :=
        e5.mem_iff.mp (List.mem_map.mpr ⟨e', List.mem_of_find?_eq_some hf, rfl⟩)
      rw [mem_items] at f2
      obtain ⟨y, y1, y2, y3, y4⟩ := f2
      simp only [itemOf] at y1 y3 y4
      rw [f1] at y1
      refine ⟨_, _, rfl, hI', es, e', rfl, e3, e4, e5, hf, y, y1, y2, y3, ?_⟩
      dsimp only
      rw [y3, y4, ← y2, hash_reconstructed p y (hA.len32 y (mem_hashes y1))]

theorem buf_open {w N : Nat} {data : Bytes} {wf : WF} (h : openWordFile w data = some wf) (hd : data.length = N * w) :
    Killed.Buf wf w N 0 := by
  unfold openWordFile fileWordCount at h
  split at h
  · simp at h
  · simp only [Option.some.injEq] at h
    subst h
    refine ⟨rfl, hd, Nat.zero_le _, fun _ => ⟨rfl, hd⟩, by omega⟩

theorem reopen_ok {p : Params} (hg : Good p) {s : Store} {v : View} (hI : Inv p s v) :
    ∃ s', openStore p (HashStore3.close s).1 (HashStore3.close s).2 false = some s' ∧
      Inv p s' { v with safe := v.listed.length } := by
  obtain ⟨plain, hp, hm, hl⟩ := hI.nums.file
  rw [hI.buf.size] at hm hl
  have hc : (HashStore3.close s).1 = plain := (AppendOpt.inv_flush hp).2.1
  have ho : openWordFile p.bytesRoomForBinNum plain =
      some (new (AppendOpt.openFile plain) p.bytesRoomForBinNum (plain.length / p.bytesRoomForBinNum)) := by
    simp [openWordFile, fileWordCount, hm]
  have hr := hg.room
  obtain ⟨i1, i2⟩ := WordFile.inv_open (by omega) ho
  rw [hl] at i1
  have hlen : plain.length = v.listed.length * p.bytesRoomForBinNum := by rw [← hp.total, hI.buf.total]
  refine ⟨{ binNums := new (AppendOpt.openFile plain) p.bytesRoomForBinNum (plain.length / p.bytesRoomForBinNum),
            files := s.files, ram := none }, ?_,
    ⟨i1, by rw [Nat.sub_self]; exact buf_open ho hlen, Nat.le_refl _, rfl, hI.bins, hI.given, hI.le⟩⟩
  unfold openStore
  rw [hc, ho]
  rfl

/-- How long the bin number file is on disk. -/
theorem disk_len {p : Params} {s : Store} {v : View} (hI : Inv p s v) :
    (disk s).1.length = v.safe * p.bytesRoomForBinNum + left p.bytesRoomForBinNum v := by
  have hs := hI.safe
  unfold disk left
  dsimp only
  by_cases hm : v.listed.length - v.safe = 0
  · rw [(hI.buf.clean hm).2, hm]
    simp
    omega
  · obtain ⟨pend, k, _, _, _, b4, b5, b6, b7⟩ := hI.buf.dirty (by omega)
    rw [b4, show v.listed.length - (v.listed.length - v.safe) = v.safe by omega]
    have : k = ((v.listed.length - v.safe) * p.bytesRoomForBinNum - 1) / 4096 := by omega
    rw [this]

theorem left_le (w : Nat) (v : View) : left w v ≤ (v.listed.length - v.safe) * w := by
  unfold left
  omega

theorem wordsOf_prefix {w : Nat} (hw : 0 < w) {a b : Bytes} :
    wordsOf w a = (wordsOf w (a ++ b)).take (a.length / w) := by
  apply List.ext_getElem?
  intro j
  unfold wordsOf
  rw [List.getElem?_map, List.getElem?_take]
  by_cases hj : j < a.length / w
  · rw [if_pos hj, List.getElem?_map, recs_getElem?, if_pos hj, recs_getElem?, if_pos (Nat.lt_of_lt_of_le hj
      (Nat.div_le_div_right (by simp)))]
    have h1 : (j + 1) * w ≤ a.length := (Nat.le_div_iff_mul_le hw).mp hj
    rw [Nat.add_mul, Nat.one_mul] at h1
    congr 2
    unfold slice
    rw [List.drop_append_of_le_length (by omega), List.take_append_of_le_length (by rw [List.length_drop]; omega)]
  · rw [if_neg hj, recs_getElem?, if_neg hj, Option.map_none]

/-- Killing the process and opening the store again. -/
theorem kill_ok {p : Params} (hg : Good p) {s : Store} {v : View} (hI : Inv p s v) :
    (left p.bytesRoomForBinNum v % p.bytesRoomForBinNum = 0 ∧ ∃ s', openStore p (disk s).1 (disk s).2 false = some s' ∧
      Inv p s' (after p.bytesRoomForBinNum v .kill)) ∨
    (left p.bytesRoomForBinNum v % p.bytesRoomForBinNum ≠ 0 ∧ openStore p (disk s).1 (disk s).2 false = none) := by
  have hr := hg.room
  have hlen := disk_len hI
  have hmod : (disk s).1.length % p.bytesRoomForBinNum = left p.bytesRoomForBinNum v % p.bytesRoomForBinNum := by
    rw [hlen, Nat.add_comm, Nat.add_mul_mod_self_right]
  by_cases hm : left p.bytesRoomForBinNum v % p.bytesRoomForBinNum = 0
  · left
    refine ⟨hm, ?_⟩
    have ho : openWordFile p.bytesRoomForBinNum (disk s).1 =
        some (new (AppendOpt.openFile (disk s).1) p.bytesRoomForBinNum ((disk s).1.length / p.bytesRoomForBinNum)) := by
      simp [openWordFile, fileWordCount, hmod, hm]
    obtain ⟨i1, _⟩ := WordFile.inv_open (by omega) ho
    have hk : (disk s).1.length = kept p.bytesRoomForBinNum v * p.bytesRoomForBinNum := by
      rw [hlen, kept, Nat.add_mul, Nat.div_mul_cancel (Nat.dvd_of_mod_eq_zero hm)]
    have hkd : (disk s).1.length / p.bytesRoomForBinNum = kept p.bytesRoomForBinNum v := by
      rw [hk, Nat.mul_div_cancel _ (by omega)]
    have hkle : kept p.bytesRoomForBinNum v ≤ v.listed.length := by
      have h1 := left_le p.bytesRoomForBinNum v
      have h2 : left p.bytesRoomForBinNum v / p.bytesRoomForBinNum ≤ v.listed.length - v.safe := by
        rw [Nat.div_le_iff_le_mul_add_pred (by omega), Nat.mul_comm]; omega
      have := hI.safe
      unfold kept
      omega
    have hwords : wordsOf p.bytesRoomForBinNum (disk s).1 =
        (v.listed.take (kept p.bytesRoomForBinNum v)).map fun h => (binNum p h : Int) := by
      obtain ⟨plain, hp, _, hl⟩ := hI.nums.file
      rw [hI.buf.size] at hl
      rw [wordsOf_prefix (by omega) (b := s.binNums.file.buf.getD []), hkd, List.map_take, ← hl]
      congr 2
      exact hp.data
    rw [hwords] at i1
    have htl : (v.listed.take (kept p.bytesRoomForBinNum v)).length = kept p.bytesRoomForBinNum v := by
      rw [List.length_take]; omega
    refine ⟨{ binNums := _, files := s.files, ram := none }, by unfold openStore; rw [ho]; rfl, ⟨i1, ?_, ?_, rfl, hI.bins, ?_, ?_⟩⟩
    · simp only [after]
      rw [htl, Nat.sub_self]
      exact buf_open ho hk
    · simp only [after]
      rw [htl]
    · intro i h hh
      simp only [after] at hh ⊢
      rw [List.getElem?_take] at hh
      split at hh
      · exact hI.given i h hh
      · simp at hh
    · simp only [after]
      rw [htl]
      exact Nat.le_trans hkle hI.le
  · right
    refine ⟨hm, ?_⟩
    unfold openStore openWordFile fileWordCount
    rw [if_pos (by rw [hmod]; exact hm)]

theorem step_ok {fl : Rat → Rat} (hfl : FloatOK fl) {p : Params} (hg : Good p) {s : Store} {v : View} (hI : Inv p s v) (op : Op)
    (hA : Usable p (v.given.map Prod.fst ++ appended [op])) (hq : ∀ h, op = .call (.indexOf h) → h.length = 32) :
    (∃ s' o, step fl p s op = some (some s', o) ∧ o ≠ .opened false ∧ OutOK p.bytesRoomForBinNum v op o ∧
      Inv p s' (after p.bytesRoomForBinNum v op)) ∨
    (step fl p s op = some (none, .opened false) ∧ OutOK p.bytesRoomForBinNum v op (.opened false)) := by
  cases op with
  | kill =>
    rcases kill_ok hg hI with ⟨h1, s', h2, h3⟩ | ⟨h1, h2⟩
    · refine .inl ⟨s', .opened true, by simp only [step, h2], by simp, ?_, h3⟩
      simp [OutOK, h1]
    · refine .inr ⟨by simp only [step, h2], ?_⟩
      simp [OutOK, h1]
  | call op =>
    left
    cases op with
    | append h =>
      obtain ⟨s', h1, h2⟩ := append_ok hfl hg hI hA
      exact ⟨s', .call (.index (some v.listed.length)), by simp [step, HashStore3.step, h1], by simp, rfl, h2⟩
    | indexOf h =>
      obtain ⟨r, h1, h2⟩ := indexOf_ok hfl hg hI hA.prefix (hq h rfl)
      refine ⟨s, .call (.found r), by simp [step, HashStore3.step, h1], by simp, ?_, hI⟩
      rcases h2 with ⟨i, rfl, h2⟩ | ⟨rfl, h2⟩
      · exact h2
      · exact h2
    | get i =>
      obtain ⟨s', r, h1, h2, h3⟩ := get_ok hg hI hA.prefix i
      refine ⟨s', .call (.hash r), by simp [step, HashStore3.step, h1], by simp, ?_, h2⟩
      cases hv : v.listed[i]? with
      | none =>
        rw [hv] at h3
        simp only at h3
        subst h3
        exact List.getElem?_eq_none_iff.mp hv
      | some h =>
        rw [hv] at h3
        simp only at h3
        obtain ⟨_, _, _, _, _, _, _, x, x1, _, _, rfl⟩ := h3
        exact ⟨lt_of_getElem?_some hv, x1⟩
    | count => exact ⟨s, _, rfl, by simp, hI.count, hI⟩
    | sync =>
      obtain ⟨h1, _, _⟩ := WordFile.inv_step hI.nums .sync trivial
      exact ⟨_, _, rfl, by simp, trivial, ⟨h1, by simp only [after]; rw [Nat.sub_self]; exact hI.buf.sync, Nat.le_refl _, hI.ram, hI.bins, hI.given, hI.le⟩⟩
    | reopen =>
      obtain ⟨s', h1, h2⟩ := reopen_ok hg hI
      exact ⟨s', .call .unit, by simp [step, HashStore3.step, h1], by simp, trivial, h2⟩

theorem appended_cons (op : Op) (ops : List Op) : appended (op :: ops) = appended [op] ++ appended ops := by
  rcases op with ⟨_ | _ | _ | _ | _ | _⟩ | _ <;> rfl

theorem given_after (w : Nat) (v : View) (op : Op) :
    (after w v op).given.map Prod.fst = v.given.map Prod.fst ++ appended [op] := by
  rcases op with ⟨_ | _ | _ | _ | _ | _⟩ | _ <;> simp [after, appended]

theorem run_ok {fl : Rat → Rat} (hfl : FloatOK fl) {p : Params} (hg : Good p) (ops : List Op) {s : Store} {v : View}
    (hI : Inv p s v) (hA : Usable p (v.given.map Prod.fst ++ appended ops))
    (hq : ∀ h, Op.call (.indexOf h) ∈ ops → h.length = 32) :
    ∃ os, run fl p s ops = some os ∧ SessionOK p.bytesRoomForBinNum v ops os := by
  induction ops generalizing s v with
  | nil => exact ⟨[], rfl, trivial⟩
  | cons op ops ih =>
    rw [appended_cons, ← List.append_assoc] at hA
    rcases step_ok hfl hg hI op hA.prefix (fun h hh => hq h (by simp [hh])) with ⟨s1, o, h1, h2, h3, h4⟩ | ⟨h1, h2⟩
    · rw [← given_after p.bytesRoomForBinNum] at hA
      obtain ⟨os, h5, h6⟩ := ih h4 hA (fun h hh => hq h (by simp [hh]))
      refine ⟨o :: os, by simp [run, h1, h5], h3, ?_⟩
      split
      · exact absurd rfl h2
      · exact h6
    · exact ⟨[.opened false], by simp [run, h1], h2, rfl⟩

theorem inv_fresh {p : Params} (hg : Good p) :
    ∃ s, openStore p [] (freshFiles p) false = some s ∧ Inv p s ⟨[], 0, []⟩ := by
  obtain ⟨s, h1, h2⟩ := HashStore3.inv_fresh hg
  refine ⟨s, h1, h2.nums, ?_, Nat.le_refl _, h2.ram, ?_, by simp, Nat.le_refl _⟩
  · unfold openStore at h1
    cases ho : openWordFile p.bytesRoomForBinNum [] with
    | none => rw [ho] at h1; simp at h1
    | some wf =>
      rw [ho] at h1
      simp only [Bool.false_eq_true, if_false, Option.some.injEq] at h1
      subst h1
      exact buf_open ho (by simp)
  · intro bn hbn
    obtain ⟨es, a, b, c, d⟩ := h2.bins bn hbn
    exact ⟨es, a, b, c, by simpa [HashStore3.itemsFor, items] using d⟩

theorem run_calls (fl : Rat → Rat) (p : Params) (ops : List HashStore3.Op) (rest : List Op) (s : Store) :
    run fl p s (ops.map Op.call ++ rest) =
      (HashStore3.run fl p s ops).bind fun r => (run fl p r.1 rest).map fun os => r.2.map Out.call ++ os := by
  induction ops generalizing s with
  | nil => simp [HashStore3.run]
  | cons op ops ih =>
    simp only [List.map_cons, List.cons_append, run, step, HashStore3.run]
    cases h : HashStore3.step fl p s op with
    | none => rfl
    | some r =>
      obtain ⟨s', o⟩ := r
      simp only [Option.map_some]
      rw [ih]
      cases HashStore3.run fl p s' ops with
      | none => rfl
      | some r =>
        simp only [Option.map_some, Option.bind_some, Option.map_map]
        rfl

theorem appended_append (a b : List HashStore3.Op) :
    HashStore3.appended (a ++ b) = HashStore3.appended a ++ HashStore3.appended b := by
  induction a with
  | nil => rfl
  | cons op a ih => cases op <;> simp [HashStore3.appended, ih]

theorem session_append {L : List Bytes} {a b : List HashStore3.Op} {os os' : List HashStore3.Out}
    (h1 : HashStore3.SessionOK L a os) (h2 : HashStore3.SessionOK (L ++ HashStore3.appended a) b os') :
    HashStore3.SessionOK L (a ++ b) (os ++ os') := by
  induction a generalizing L os with
  | nil =>
    cases os with
    | nil => simpa [HashStore3.appended] using h2
    | cons _ _ => exact h1.elim
  | cons op a ih =>
    cases os with
    | nil => exact h1.elim
    | cons o os =>
      rw [HashStore3.after_appended] at h2
      exact ⟨h1.1, ih h1.2 h2⟩

/-! ## Properties -/

/-- **C121, partial.** A binned hash store made by the preloader, used in any session of appends, lookups, reads, counts, syncs,
closings and kills of the process, each followed by opening the store again. Nothing panics. A kill costs the store exactly the
listed hashes whose bin numbers had not left the buffer: what was synced is always listed afterwards. `IndexOfHash` finds every
hash ever appended, and no other, and gives an index its append returned. `GetHashAtIndex` gives an error exactly beyond the
listed hashes, and otherwise a hash that was given this index: the right one, if no other was given it too.

Missing: opening can fail (`a_killed_store_cannot_be_opened`), a hash can be found that is not listed and then shares its index
with another (`an_index_is_given_twice_after_a_kill`), where the code is wrong; a kill within a call (see Props/BinKillInside); and what C24 is missing. -/
theorem killed_store_partial {fl : Rat → Rat} (hfl : FloatOK fl) {p : Params} (hp : ParamsOK p) (ops : List Op)
    (hA : Usable p (appended ops)) (hq : ∀ h, Op.call (.indexOf h) ∈ ops → h.length = 32) :
    ∃ s, openStore p [] (freshFiles p) false = some s ∧
      ∃ os, run fl p s ops = some os ∧ SessionOK p.bytesRoomForBinNum ⟨[], 0, []⟩ ops os := by
  obtain ⟨s, h1, h2⟩ := inv_fresh hp.good
  exact ⟨s, h1, run_ok hfl hp.good ops h2 (by simpa using hA) hq⟩

theorem usable_demo : Usable demoParams HashStore3.demoHashes := by
  refine ⟨?_, by decide, by decide, ?_, ?_⟩
  · decide
  · decide +kernel
  · decide +kernel

/-- Two hashes are synced, a third is not, and the process is killed. -/
example : ∃ s, openStore demoParams [] (freshFiles demoParams) false = some s ∧
    ∃ os, run fl53 demoParams s [.call (.append (7 :: zeros 31)), .call (.append (9 :: zeros 31)), .call .sync,
        .call (.append (List.replicate 32 1)), .kill, .call .count, .call (.indexOf (List.replicate 32 1)), .call (.get 1)] = some os ∧
      SessionOK 2 ⟨[], 0, []⟩ [.call (.append (7 :: zeros 31)), .call (.append (9 :: zeros 31)), .call .sync,
        .call (.append (List.replicate 32 1)), .kill, .call .count, .call (.indexOf (List.replicate 32 1)), .call (.get 1)] os :=
  killed_store_partial floatOK_fl53 HashStore3.demo_paramsOK _ usable_demo (by
    intro h hh; simp at hh; subst hh; rfl)

/-- **C121, synced stores.** After `Sync`, a kill does no harm: the session goes on as if it had not happened. -/
theorem a_synced_store_survives_a_kill {fl : Rat → Rat} (hfl : FloatOK fl) {p : Params} (hp : ParamsOK p)
    (ops ops' : List HashStore3.Op) (hA : HashStore3.Appendable p (HashStore3.appended (ops ++ ops')))
    (hq : ∀ h, HashStore3.Op.indexOf h ∈ ops ++ ops' → h.length = 32) :
    ∃ s, openStore p [] (freshFiles p) false = some s ∧
      ∃ os os', run fl p s (ops.map Op.call ++ .call .sync :: .kill :: ops'.map Op.call) =
          some (os.map Out.call ++ .call .unit :: .opened true :: os'.map Out.call) ∧
        HashStore3.SessionOK [] (ops ++ ops') (os ++ os') := by
  have hg := hp.good
  obtain ⟨s, h1, h2⟩ := HashStore3.inv_fresh hg
  rw [appended_append] at hA
  obtain ⟨s1, os, h3, h4, h5⟩ := HashStore3.run_ok hfl hg ops h2 (by simpa using hA.prefix)
    (fun h hh => hq h (by simp [hh]))
  rw [List.nil_append] at h5
  have hd : disk (HashStore3.sync s1) = HashStore3.close s1 := rfl
  obtain ⟨s2, h6, h7⟩ := HashStore3.reopen_ok hg h5
  obtain ⟨s3, os', h8, h9, _⟩ := HashStore3.run_ok hfl hg ops' h7 hA (fun h hh => hq h (by simp [hh]))
  refine ⟨s, h1, os, os', ?_, session_append h4 (by simpa using h9)⟩
  have hrest : run fl p s2 (ops'.map Op.call) = some (os'.map Out.call) := by
    have := run_calls fl p ops' [] s2
    rw [List.append_nil, h8] at this
    rw [this]
    simp [run]
  rw [run_calls, h3]
  simp only [Option.bind_some, run, step, HashStore3.step, Option.map_some]
  rw [hd, h6]
  simp only [hrest, Option.map_some]

example : ∃ s, openStore demoParams [] (freshFiles demoParams) false = some s ∧
    ∃ os os', run fl53 demoParams s [.call (.append (7 :: zeros 31)), .call (.append (9 :: zeros 31)), .call .sync, .kill,
        .call (.append (List.replicate 32 1)), .call (.get 1)] = some (os.map Out.call ++ .call .unit :: .opened true :: os'.map Out.call) ∧
      HashStore3.SessionOK [] [.append (7 :: zeros 31), .append (9 :: zeros 31), .append (List.replicate 32 1), .get 1] (os ++ os') :=
  a_synced_store_survives_a_kill floatOK_fl53 HashStore3.demo_paramsOK [.append (7 :: zeros 31), .append (9 :: zeros 31)]
    [.append (List.replicate 32 1), .get 1] HashStore3.demo_appendable (by intro h hh; simp at hh)

/-! ## Where the code is wrong -/

/-- Appending the hashes of a list one by one. -/
theorem append_all {fl : Rat → Rat} (hfl : FloatOK fl) {p : Params} (hg : Good p) {s : Store} (M L : List Bytes)
    (hI : Inv p s ⟨M, 0, M.zipIdx⟩) (hA : Usable p (M ++ L)) :
    ∃ s1 os, HashStore3.run fl p s (L.map .append) = some (s1, os) ∧ Inv p s1 ⟨M ++ L, 0, (M ++ L).zipIdx⟩ := by
  induction L generalizing s M with
  | nil => exact ⟨s, [], rfl, by simpa using hI⟩
  | cons h L ih =>
    have e : M ++ h :: L = (M ++ [h]) ++ L := by simp
    have hz : (M ++ [h]).zipIdx = M.zipIdx ++ [(h, M.length)] := by simp [List.zipIdx_append, List.zipIdx]
    rw [e] at hA ⊢
    obtain ⟨s1, h1, h2⟩ := append_ok hfl hg hI (h := h) (by simpa [List.zipIdx_map_fst] using hA.prefix)
    simp only [after] at h2
    rw [← hz] at h2
    obtain ⟨s2, os, h3, h4⟩ := ih _ h2 hA
    exact ⟨s2, .index (some M.length) :: os, by simp [HashStore3.run, HashStore3.step, h1, h3], h4⟩

/-- **C121 is violated: a killed store may not open again.** Hashes are appended to a new store, and the process is killed before
a sync, when a whole number of buffers of 4096 bytes has been written that is not a whole number of bin numbers. Then the store
cannot be opened any more. For all parameters, all hashes. -/
theorem a_killed_store_cannot_be_opened {fl : Rat → Rat} (hfl : FloatOK fl) {p : Params} (hp : ParamsOK p) {L : List Bytes}
    (hA : Usable p L)
    (hrag : 4096 * ((L.length * p.bytesRoomForBinNum - 1) / 4096) % p.bytesRoomForBinNum ≠ 0) :
    ∃ s s1 os, openStore p [] (freshFiles p) false = some s ∧ HashStore3.run fl p s (L.map .append) = some (s1, os) ∧
      openStore p (disk s1).1 (disk s1).2 false = none := by
  have hg := hp.good
  obtain ⟨s, h1, h2⟩ := inv_fresh hg
  obtain ⟨s1, os, h3, h4⟩ := append_all hfl hg [] L h2 (by simpa using hA)
  refine ⟨s, s1, os, h1, h3, ?_⟩
  rcases kill_ok hg h4 with ⟨h5, _⟩ | ⟨_, h5⟩
  · exact absurd h5 hrag
  · exact h5

/-- The parameters `NewHashStoreParams` makes for addresses over 16 years of blocks: 2^24 bins, bin numbers of three bytes. -/
def addressParams : Params := (newParams 32 2 16777216 236 5).getD demoParams

theorem address_paramsOK : ParamsOK addressParams :=
  ⟨⟨32, 2, 16777216, 236, 5, 24, rfl, by decide, by decide, by decide⟩, by decide, by decide⟩

/-- `n` different hashes. -/
def many (n : Nat) : List Bytes := (List.range n).map fun i => leEnc 8 i ++ List.replicate 24 1

theorem many_abbr (i : Nat) (hi : i < 2 ^ 64) : abbrOf (leEnc 8 i ++ List.replicate 24 1) = i := by
  have h8 : (leEnc 8 i).length = 8 := leEnc_length _ _
  unfold abbrOf
  rw [List.take_left' h8, leDec_leEnc_of_lt hi]

theorem many_usable {p : Params} {n : Nat} (h1 : n ≤ 256 ^ p.bytesPerHashIndex) (h2 : n ≤ 2 ^ 48) : Usable p (many n) := by
  refine ⟨?_, by simpa [many] using h1, by simpa [many] using h2, ?_, ?_⟩
  · intro h hh
    obtain ⟨i, _, rfl⟩ := List.mem_map.mp hh
    simp [leEnc_length]
  · intro h hh hz
    obtain ⟨i, _, rfl⟩ := List.mem_map.mp hh
    have h8 : (leEnc 8 i).length = 8 := leEnc_length _ _
    have := hz.1
    unfold truncOf at this
    rw [List.drop_left' h8] at this
    exact absurd this (by decide)
  · intro a ha b hb hab
    obtain ⟨i, hi, rfl⟩ := List.mem_map.mp ha
    obtain ⟨j, hj, rfl⟩ := List.mem_map.mp hb
    rw [List.mem_range] at hi hj
    rw [many_abbr i (by omega), many_abbr j (by omega)] at hab
    rw [hab]

/-- 1366 addresses are enough. -/
example : ∃ s s1 os, openStore addressParams [] (freshFiles addressParams) false = some s ∧
    HashStore3.run fl53 addressParams s ((many 1366).map .append) = some (s1, os) ∧
      openStore addressParams (disk s1).1 (disk s1).2 false = none :=
  a_killed_store_cannot_be_opened floatOK_fl53 address_paramsOK (many_usable (by decide) (by decide)) (by
    rw [show (many 1366).length = 1366 by simp [many], show addressParams.bytesRoomForBinNum = 3 from rfl]
    decide)

/-- **C121 is violated: an index is given twice after a kill.** Any hashes, all different, are appended to a new store and the
process is killed before a sync. If the store opens again, then it counts `c` hashes, fewer than were appended, and gives an
error for index `c`; and yet `IndexOfHash` says that hash `a`, the one appended under `c`, has index `c`. A new hash `b` appended
now gets index `c` too, and `IndexOfHash` then gives `c` for both. `GetHashAtIndex` of `c` gives `b` or, if `a` is in the same bin
and has the smaller sort number, `a`. For all parameters, all hashes. -/
theorem an_index_is_given_twice_after_a_kill {fl : Rat → Rat} (hfl : FloatOK fl) {p : Params} (hp : ParamsOK p) {L : List Bytes}
    {b : Bytes} (hA : Usable p (L ++ [b])) (hd : (L ++ [b]).Nodup) (hne : L ≠ []) {c : Nat}
    (hc : c * p.bytesRoomForBinNum = 4096 * ((L.length * p.bytesRoomForBinNum - 1) / 4096)) :
    ∃ s s1 s2 s3 s4 s5 os a, openStore p [] (freshFiles p) false = some s ∧
      HashStore3.run fl p s (L.map .append) = some (s1, os) ∧ openStore p (disk s1).1 (disk s1).2 false = some s2 ∧
      L[c]? = some a ∧ HashStore3.countHashes s2 = c ∧ getHashAtIndex p s2 c = some (s3, none) ∧
      indexOfHash fl p s2 a = some (.at c) ∧ appendHash fl p s2 b = some (s4, some c) ∧
      indexOfHash fl p s4 a = some (.at c) ∧ indexOfHash fl p s4 b = some (.at c) ∧
      getHashAtIndex p s4 c = some (s5, some (if binNum p a = binNum p b ∧ sortNum p a < sortNum p b then a else b)) := by
  have hg := hp.good
  have hr := hg.room
  obtain ⟨s, h1, h2⟩ := inv_fresh hg
  obtain ⟨s1, os, h3, h4⟩ := append_all hfl hg [] L h2 (by simpa using hA.prefix)
  rw [List.nil_append] at h4
  have hleft : left p.bytesRoomForBinNum ⟨L, 0, L.zipIdx⟩ = c * p.bytesRoomForBinNum := by rw [hc]; rfl
  have hkept : kept p.bytesRoomForBinNum ⟨L, 0, L.zipIdx⟩ = c := by
    unfold kept
    rw [hleft, Nat.mul_div_cancel _ (by omega)]
    exact Nat.zero_add c
  have hn : 0 < L.length := List.length_pos_iff.mpr hne
  have hclt : c < L.length := by
    have hpos : 0 < L.length * p.bytesRoomForBinNum := Nat.mul_pos hn (by omega)
    have : c * p.bytesRoomForBinNum < L.length * p.bytesRoomForBinNum := by rw [hc]; omega
    exact Nat.lt_of_mul_lt_mul_right this
  obtain ⟨s2, h5, h6⟩ : ∃ s', openStore p (disk s1).1 (disk s1).2 false = some s' ∧ Inv p s' ⟨L.take c, c, L.zipIdx⟩ := by
    rcases kill_ok hg h4 with ⟨_, s', g1, g2⟩ | ⟨g1, _⟩
    · simp only [after, hkept] at g2
      exact ⟨s', g1, g2⟩
    · rw [hleft] at g1
      simp at g1
  have htl : (L.take c).length = c := by rw [List.length_take]; omega
  have hzmap : L.zipIdx.map Prod.fst = L := List.zipIdx_map_fst _ _
  have hA2 : Usable p ((View.mk (L.take c) c L.zipIdx).given.map Prod.fst) := by
    show Usable p (L.zipIdx.map Prod.fst)
    rw [hzmap]; exact hA.prefix
  have hLc : L[c]? = some L[c] := List.getElem?_eq_getElem hclt
  generalize L[c] = a at hLc
  have ha : a ∈ L := List.mem_of_getElem? hLc
  have hal : a.length = 32 := hA.len32 a (by simp [ha])
  have hbl : b.length = 32 := hA.len32 b (by simp)
  have hbL : b ∉ L := by
    intro hb
    exact (List.nodup_append.mp hd).2.2 b hb b (by simp) rfl
  have hLn : L.Nodup := (List.nodup_append.mp hd).1
  have huniq : ∀ i, (a, i) ∈ L.zipIdx → i = c := by
    intro i hi
    rw [List.mem_zipIdx_iff_getElem?] at hi
    obtain ⟨i1, i2⟩ := List.getElem?_eq_some_iff.mp hi
    obtain ⟨j1, j2⟩ := List.getElem?_eq_some_iff.mp hLc
    exact (hLn.getElem_inj_iff).mp (i2.trans j2.symm)
  have hin : (a, c) ∈ L.zipIdx := by rw [List.mem_zipIdx_iff_getElem?]; exact hLc
  obtain ⟨s4, h7, h8⟩ := append_ok hfl hg h6 (h := b) (by
    show Usable p (L.zipIdx.map Prod.fst ++ [b])
    rw [hzmap]; exact hA)
  simp only [after, htl] at h7 h8
  have hA4 : Usable p ((View.mk (L.take c ++ [b]) c (L.zipIdx ++ [(b, c)])).given.map Prod.fst) := by
    show Usable p ((L.zipIdx ++ [(b, c)]).map Prod.fst)
    rw [List.map_append, hzmap]; exact hA
  obtain ⟨s3, r3, g1, _, g3⟩ := get_ok hg h6 hA2 c
  have hnone : (L.take c)[c]? = none := List.getElem?_eq_none_iff.mpr (by omega)
  simp only [hnone] at g3
  subst g3
  obtain ⟨s5, r5, g4, _, g6⟩ := get_ok hg h8 hA4 c
  have hsome : (L.take c ++ [b])[c]? = some b := by
    rw [List.getElem?_append_right (by omega), htl]; simp
  simp only [hsome] at g6
  obtain ⟨es, e, _, _, k3, k4, k5, x, x1, x2, x3, rfl⟩ := g6
  have hidx : ∀ (t : Store) (v : View) (h : Bytes), Inv p t v → Usable p (v.given.map Prod.fst) → h.length = 32 →
      (h, c) ∈ v.given → (∀ i, (h, i) ∈ v.given → i = c) → indexOfHash fl p t h = some (.at c) := by
    intro t v h hI hU hl hm hu
    obtain ⟨r, r1, r2⟩ := indexOf_ok hfl hg hI hU hl
    rw [r1]
    rcases r2 with ⟨i, rfl, r2⟩ | ⟨_, r2⟩
    · rw [hu i r2]
    · exact absurd hm (r2 c)
  have hab : a ≠ b := fun h => hbL (h ▸ ha)
  have hx : x = if binNum p a = binNum p b ∧ sortNum p a < sortNum p b then a else b := by
    have hxab : x = a ∨ x = b := by
      rcases List.mem_append.mp x1 with h | h
      · left
        rw [List.mem_zipIdx_iff_getElem?] at h
        rw [show L[c]? = some x from h] at hLc
        exact Option.some.inj hLc
      · right
        simp at h
        exact h
    -- the entries of both hashes
    have hfirst : ∀ y, (y, c) ∈ L.zipIdx ++ [(b, c)] → binNum p y = binNum p b → entSort p e ≤ sortNum p y := by
      intro y hy hyb
      have hm : (⟨sortNum p y, c, truncOf y⟩ : Item) ∈ es.map (itemOf p) := by
        rw [k4.mem_iff, mem_items]; exact ⟨y, hy, hyb, rfl, rfl⟩
      obtain ⟨e', he', hee⟩ := List.mem_map.mp hm
      have i1 : entSort p e' = sortNum p y := congrArg Item.sort hee
      have i2 : entIndex p e' = c := congrArg Item.index hee
      obtain ⟨_, as, bs, rfl, hall⟩ := List.find?_eq_some_iff_append.mp k5
      rcases List.mem_append.mp he' with h | h
      · have := hall e' h
        simp [i2] at this
      · rcases List.mem_cons.mp h with rfl | h
        · exact Nat.le_of_eq i1
        · have hp2 := (List.pairwise_append.mp k3).2.1
          rw [List.pairwise_cons] at hp2
          rw [← i1]
          exact hp2.1 e' h
    have hcl : ∀ y z, y ∈ L ++ [b] → z ∈ L ++ [b] → binNum p y = binNum p z → sortNum p y = sortNum p z → y = z :=
      fun y z hy hz h1 h2 => hA.noClash y hy z hz (same_abbr h1 h2)
    have haL : a ∈ L ++ [b] := by simp [ha]
    have hbL' : b ∈ L ++ [b] := by simp
    split
    · rename_i hcond
      rcases hxab with h | h
      · exact h
      · exfalso
        subst h
        have := hfirst a (by simp [hin]) hcond.1
        omega
    · rename_i hcond
      rcases hxab with h | h
      · exfalso
        subst h
        have h9 := hfirst b (by simp) rfl
        rw [x3] at h9
        have : sortNum p x ≠ sortNum p b := fun h => hab (hcl x b haL hbL' x2 h)
        exact hcond ⟨x2, by omega⟩
      · exact h
  refine ⟨s, s1, s2, s3, s4, s5, os, a, h1, h3, h5, hLc, ?_, g1, ?_, h7, ?_, ?_, by rw [← hx]; exact g4⟩
  · have := h6.count
    rw [htl] at this
    exact this
  · exact hidx s2 _ a h6 hA2 hal hin huniq
  · refine hidx s4 _ a h8 hA4 hal (List.mem_append.mpr (.inl hin)) ?_
    intro i hi
    rcases List.mem_append.mp hi with h | h
    · exact huniq i h
    · simp at h
      exact absurd h.1 hab
  · refine hidx s4 _ b h8 hA4 hbl (by simp) ?_
    intro i hi
    rcases List.mem_append.mp hi with h | h
    · rw [List.mem_zipIdx_iff_getElem?] at h
      exact absurd (List.mem_of_getElem? h) hbL
    · simp at h
      exact h

/-- One hash is appended and lost, and another of the same bin is appended: the index of the new one gives the old one. -/
example : ∃ s s1 s2 s3 s4 s5 os a, openStore demoParams [] (freshFiles demoParams) false = some s ∧
    HashStore3.run fl53 demoParams s ([7 :: zeros 31].map .append) = some (s1, os) ∧
    openStore demoParams (disk s1).1 (disk s1).2 false = some s2 ∧
    [7 :: zeros 31][0]? = some a ∧ HashStore3.countHashes s2 = 0 ∧ getHashAtIndex demoParams s2 0 = some (s3, none) ∧
    indexOfHash fl53 demoParams s2 a = some (.at 0) ∧ appendHash fl53 demoParams s2 (9 :: zeros 31) = some (s4, some 0) ∧
    indexOfHash fl53 demoParams s4 a = some (.at 0) ∧ indexOfHash fl53 demoParams s4 (9 :: zeros 31) = some (.at 0) ∧
    getHashAtIndex demoParams s4 0 = some (s5, some (7 :: zeros 31)) := by
  obtain ⟨s, s1, s2, s3, s4, s5, os, a, h1, h2, h3, h4, h5⟩ := an_index_is_given_twice_after_a_kill floatOK_fl53 HashStore3.demo_paramsOK
    (L := [7 :: zeros 31]) (b := 9 :: zeros 31) (c := 0)
    (Usable.prefix (M := [List.replicate 32 1]) usable_demo) (by decide) (by simp) (by decide)
  have ha : a = 7 :: zeros 31 := by simpa using h4.symm
  subst ha
  rw [if_pos (by decide +kernel)] at h5
  exact ⟨s, s1, s2, s3, s4, s5, os, _, h1, h2, h3, h4, h5⟩

end Verif.BinKill
