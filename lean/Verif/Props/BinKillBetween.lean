import Verif.Props.BinKillInside

/-! # The binned hash store whose process is killed between the two files of a bin, or at any moment of an append (C121) -/

namespace Verif.BinKill

open Bins HashStores WordFile
open HashStore3 (Store Good ParamsOK itemAt openStore itemsFor)
open BinDisk (Covered Ready Fates)

/-- A bin that has the entries of all its hashes, and perhaps that of one more: they are found, and read. -/
theorem still_there {fl : Rat → Rat} (hfl : FloatOK fl) {p : Params} {s : Store} {L es : List Bytes} {a h : Bytes} {i : Nat}
    (hn : WordFile.Inv s.binNums (L.map fun h => (binNum p h : Int)))
    (hload : Bins.loadBin p s.files (binNum p a) = some es.flatten) (hs : Sized p es) (hso : SortedBy p es)
    (hlen : es.length ≤ 2 ^ 48) (hA : Usable p (L ++ [h])) (hh : h ≠ a) (hc : Covered p (L ++ [h]) (binNum p a) es)
    (hi : L[i]? = some a) (hin : (⟨sortNum p a, i, truncOf a⟩ : Item) ∈ es.map (itemOf p)) :
    (∃ j, L[j]? = some a ∧ BinDisk.indexOfHash .fine fl p s a = some (.at j)) ∧
      ∃ t, BinDisk.getHashAtIndex .fine p s i = some (t, some a) := by
  have haL := List.mem_of_getElem? hi
  have hal : a.length = 32 := hA.len32 a (by simp [haL])
  have hold : ∀ (j : Nat) (x : Bytes), (L ++ [h])[j]? = some x → x = a → L[j]? = some a := by
    intro j x hx e
    by_cases hj : j < L.length
    · rw [List.getElem?_append_left hj] at hx
      rw [hx, e]
    · rw [List.getElem?_append_right (by omega)] at hx
      have := List.mem_singleton.mp (List.mem_of_getElem? hx)
      exact absurd (by rw [← this, e]) hh
  constructor
  · unfold BinDisk.indexOfHash
    rw [BinDisk.loadBin_early rfl, if_pos (show Fates.fine.startRead = true from rfl), hload]
    dsimp only
    obtain ⟨r, r1, r2⟩ := lookup_complete_es hfl hs hso hlen (truncOf a) (sortNum p a) (by
      intro x hx hxs
      obtain ⟨e, he, rfl⟩ := List.mem_map.mp hx
      obtain ⟨y, y1, y2, y3, y4⟩ := hc e he
      have hb : abbrOf y = abbrOf a := by
        have e1 : binNum p y = binNum p a := y2
        have e2 : sortNum p y = sortNum p a := by rw [← y3]; exact hxs
        unfold binNum at e1
        unfold sortNum at e2
        rw [← Nat.div_add_mod (abbrOf y) p.divider, ← Nat.div_add_mod (abbrOf a) p.divider, e1, e2]
      have : y = a := hA.noClash y (List.mem_of_getElem? y1) a (by simp [haL]) hb
      subst this
      exact y4)
    rw [r1]
    rcases r2 with ⟨j, rfl, h7⟩ | ⟨_, h7⟩
    · obtain ⟨e, he, hee⟩ := List.mem_map.mp h7
      obtain ⟨y, y1, y2, y3, y4⟩ := hc e he
      have i1 : entSort p e = sortNum p a := congrArg Item.sort hee
      have i2 : entTrunc e = truncOf a := congrArg Item.trunc hee
      have i3 : entIndex p e = j := congrArg Item.index hee
      have : y = a := split_injective (hA.len32 y (List.mem_of_getElem? y1)) hal y2 (by rw [← y3, i1]) (by rw [← y4, i2])
      rw [i3] at y1
      exact ⟨j, hold j y y1 this, rfl⟩
    · exact absurd hin (h7 i)
  · obtain ⟨_, h2⟩ := WordFile.inv_read hn i
    unfold BinDisk.getHashAtIndex
    rcases hr : readWordAt s.binNums i with ⟨w, v⟩
    rw [hr] at h2
    simp only at h2
    rw [List.getElem?_map, hi] at h2
    simp only [Option.map_some] at h2
    subst h2
    dsimp only
    rw [Int.toNat_natCast, BinDisk.loadBin_early rfl, if_pos (show Fates.fine.startRead = true from rfl), hload]
    dsimp only
    rw [lookupByIndex_eq hs]
    cases hf : es.find? fun e => decide (entIndex p e = i) with
    | none =>
      exfalso
      obtain ⟨e, he, hee⟩ := List.mem_map.mp hin
      rw [List.find?_eq_none] at hf
      have := hf e he
      have h8 : entIndex p e = i := congrArg Item.index hee
      simp [h8] at this
    | some e' =>
      have f1 : entIndex p e' = i := by simpa using List.find?_some hf
      obtain ⟨y, y1, y2, y3, y4⟩ := hc e' (List.mem_of_find?_eq_some hf)
      rw [f1, List.getElem?_append_left (lt_of_getElem?_some hi), hi] at y1
      cases y1
      refine ⟨{ s with binNums := w }, ?_⟩
      dsimp only
      rw [y3, y4, hash_reconstructed p a hal]

/-- In such a bin nothing else is found: a hash that was not appended is absent, and the one more is absent or under the next index. -/
theorem nothing_else {fl : Rat → Rat} (hfl : FloatOK fl) {p : Params} {s : Store} {L es : List Bytes} {b h : Bytes}
    (hload : Bins.loadBin p s.files (binNum p b) = some es.flatten) (hs : Sized p es) (hso : SortedBy p es)
    (hlen : es.length ≤ 2 ^ 48) (hA : Usable p (L ++ [h] ++ [b])) (hb : b ∉ L) (hc : Covered p (L ++ [h]) (binNum p b) es) :
    BinDisk.indexOfHash .fine fl p s b = some .absent ∨
      (b = h ∧ BinDisk.indexOfHash .fine fl p s b = some (.at L.length)) := by
  have hbl : b.length = 32 := hA.len32 b (by simp)
  unfold BinDisk.indexOfHash
  rw [BinDisk.loadBin_early rfl, if_pos (show Fates.fine.startRead = true from rfl), hload]
  dsimp only
  obtain ⟨r, r1, r2⟩ := lookup_complete_es hfl hs hso hlen (truncOf b) (sortNum p b) (by
    intro x hx hxs
    obtain ⟨e, he, rfl⟩ := List.mem_map.mp hx
    obtain ⟨y, y1, y2, y3, y4⟩ := hc e he
    have hab : abbrOf y = abbrOf b := by
      have e1 : binNum p y = binNum p b := y2
      have e2 : sortNum p y = sortNum p b := by rw [← y3]; exact hxs
      unfold binNum at e1
      unfold sortNum at e2
      rw [← Nat.div_add_mod (abbrOf y) p.divider, ← Nat.div_add_mod (abbrOf b) p.divider, e1, e2]
    have : y = b := hA.noClash y (List.mem_append_left _ (List.mem_of_getElem? y1)) b (by simp) hab
    subst this
    exact y4)
  rw [r1]
  rcases r2 with ⟨j, rfl, h7⟩ | ⟨rfl, _⟩
  · right
    obtain ⟨e, he, hee⟩ := List.mem_map.mp h7
    obtain ⟨y, y1, y2, y3, y4⟩ := hc e he
    have i1 : entSort p e = sortNum p b := congrArg Item.sort hee
    have i2 : entTrunc e = truncOf b := congrArg Item.trunc hee
    have i3 : entIndex p e = j := congrArg Item.index hee
    have : y = b := split_injective (hA.len32 y (List.mem_append_left _ (List.mem_of_getElem? y1))) hbl y2 (by rw [← y3, i1]) (by rw [← y4, i2])
    subst this
    rw [i3] at y1
    by_cases hj : j < L.length
    · rw [List.getElem?_append_left hj] at y1
      exact absurd (List.mem_of_getElem? y1) hb
    · rw [List.getElem?_append_right (by omega)] at y1
      have hl := lt_of_getElem?_some y1
      simp only [List.length_singleton] at hl
      have hj' : j = L.length := by omega
      exact ⟨List.mem_singleton.mp (List.mem_of_getElem? y1), by rw [hj']⟩
  · exact Or.inl rfl

/-- The entries of a bin of which the overflow file has been written and the start has not. -/
def halfSaved (p : Params) (es es1 : List Bytes) : List Bytes :=
  if p.entriesInBinStart ≤ es.length then es.take p.entriesInBinStart ++ es1.drop p.entriesInBinStart else es

theorem halfSaved_spec {p : Params} {L : List Bytes} {h : Bytes} {s : Store} {es : List Bytes} {en : Bytes} {i : Nat}
    (R : Ready p s L h es en) (hi : SearchSpec p es (sortNum p h) i) :
    Sized p (halfSaved p es (es.take i ++ en :: es.drop i)) ∧ SortedBy p (halfSaved p es (es.take i ++ en :: es.drop i)) ∧
    (halfSaved p es (es.take i ++ en :: es.drop i)).length ≤ es.length + 1 ∧
    Covered p (L ++ [h]) (binNum p h) (halfSaved p es (es.take i ++ en :: es.drop i)) ∧
    ∀ e ∈ es, e ∈ halfSaved p es (es.take i ++ en :: es.drop i) := by
  have hc := BinDisk.covered_sound R.perm
  have hc1 := BinDisk.covered_insert (i := i) hc R.item
  have hsz1 := BinDisk.sized_insert (i := i) R.sized R.len
  have hso1 := sorted_insert R.sorted (by have := congrArg Item.sort R.item; exact this) hi
  have hile := hi.le
  have hlen1 : (es.take i ++ en :: es.drop i).length = es.length + 1 := by
    simp only [List.length_append, List.length_cons, List.length_take, List.length_drop]
    omega
  unfold halfSaved
  by_cases hE : p.entriesInBinStart ≤ es.length
  · rw [if_pos hE]
    have hcase : es.take p.entriesInBinStart ++ (es.take i ++ en :: es.drop i).drop p.entriesInBinStart = es.take i ++ en :: es.drop i ∨
        (i < p.entriesInBinStart ∧ (es.take i ++ en :: es.drop i).drop p.entriesInBinStart = es.drop (p.entriesInBinStart - 1)) := by
      by_cases hiE : p.entriesInBinStart ≤ i
      · left
        have : es.take p.entriesInBinStart = (es.take i ++ en :: es.drop i).take p.entriesInBinStart := by
          rw [List.take_append_of_le_length (by rw [List.length_take]; omega), List.take_take, Nat.min_eq_left hiE]
        rw [this, List.take_append_drop]
      · right
        refine ⟨by omega, ?_⟩
        rw [List.drop_append, List.drop_eq_nil_of_le (by rw [List.length_take]; omega), List.nil_append, List.length_take,
          Nat.min_eq_left hile, show p.entriesInBinStart - i = (p.entriesInBinStart - i - 1) + 1 by omega, List.drop_succ_cons,
          List.drop_drop]
        congr 1
        omega
    refine ⟨?_, ?_, ?_, ?_, ?_⟩
    · intro e he
      rcases List.mem_append.mp he with he | he
      · exact R.sized e (List.mem_of_mem_take he)
      · exact hsz1 e (List.mem_of_mem_drop he)
    · rcases hcase with e1 | ⟨hiE, e1⟩
      · rw [e1]
        exact hso1
      · rw [e1]
        refine List.pairwise_append.mpr ⟨List.Pairwise.sublist (List.take_sublist _ _) R.sorted,
          List.Pairwise.sublist (List.drop_sublist _ _) R.sorted, ?_⟩
        intro a ha b hb
        obtain ⟨j, hj⟩ := List.mem_iff_getElem?.mp ha
        obtain ⟨k, hk⟩ := List.mem_iff_getElem?.mp hb
        have hjE := lt_of_getElem?_some hj
        rw [List.length_take] at hjE
        rw [List.getElem?_take_of_lt (by omega)] at hj
        rw [List.getElem?_drop] at hk
        exact R.sorted.le (by omega) hj hk
    · rw [List.length_append, List.length_take, List.length_drop, hlen1]
      omega
    · intro e he
      rcases List.mem_append.mp he with he | he
      · exact hc.grow [h] e (List.mem_of_mem_take he)
      · exact hc1 e (List.mem_of_mem_drop he)
    · intro e he
      rcases hcase with e1 | ⟨hiE, e1⟩
      · rw [e1]
        rw [← List.take_append_drop i es] at he
        rcases List.mem_append.mp he with he | he
        · exact List.mem_append_left _ he
        · exact List.mem_append_right _ (List.mem_cons_of_mem _ he)
      · rw [e1]
        rw [← List.take_append_drop p.entriesInBinStart es] at he
        rcases List.mem_append.mp he with he | he
        · exact List.mem_append_left _ he
        · refine List.mem_append_right _ ?_
          rw [show p.entriesInBinStart = (p.entriesInBinStart - 1) + 1 by omega, ← List.drop_drop] at he
          exact List.mem_of_mem_drop he
  · rw [if_neg hE]
    exact ⟨R.sized, R.sorted, by omega, hc.grow [h], fun e he => he⟩

/-- The files of the bins when the overflow file of one has been written and its start has not. -/
def halfFiles (p : Params) (f : Files) (bn : Nat) (es es1 : List Bytes) : Files :=
  if p.entriesInBinStart ≤ es.length then
    { f with overflow := fun path => if path = ovfPath p bn then some (es1.drop p.entriesInBinStart).flatten else f.overflow path }
  else f

theorem halfFiles_same {p : Params} {f : Files} {bn : Nat} {es es1 : List Bytes} (hst : Stored p f bn es) (hl : es1.length = es.length + 1) :
    Stored p (halfFiles p f bn es es1) bn (halfSaved p es es1) := by
  unfold halfFiles halfSaved
  by_cases hE : p.entriesInBinStart ≤ es.length
  · rw [if_pos hE, if_pos hE]
    have ht : (es.take p.entriesInBinStart).length = p.entriesInBinStart := by rw [List.length_take]; omega
    have hlen : (es.take p.entriesInBinStart ++ es1.drop p.entriesInBinStart).length = es.length + 1 := by
      rw [List.length_append, ht, List.length_drop, hl]
      omega
    refine ⟨hst.fits, ?_, ?_⟩
    · have := hst.start
      rw [List.take_left' ht, hlen, show p.entriesInBinStart - (es.length + 1) = p.entriesInBinStart - es.length by omega]
      exact this
    · rw [hlen, if_pos (by omega), List.drop_left' ht]
      dsimp only
      rw [if_pos rfl]
  · rw [if_neg hE, if_neg hE]
    exact hst

theorem halfFiles_other {p : Params} (hd : 0 < p.digitsPerNumberedFolder) {f : Files} {bn bn' : Nat} {es es1 es' : List Bytes}
    (hst : Stored p f bn' es') (hne : bn' ≠ bn) : Stored p (halfFiles p f bn es es1) bn' es' := by
  unfold halfFiles
  by_cases hE : p.entriesInBinStart ≤ es.length
  · rw [if_pos hE]
    refine ⟨hst.fits, hst.start, ?_⟩
    dsimp only
    rw [if_neg fun e => hne (ovfPath_inj hd e)]
    exact hst.ovf
  · rw [if_neg hE]
    exact hst

/-- **C121, a kill within an append, between the two files of a bin.** Any hashes are appended to a new store and it is synced. Then
another one is being appended, and the process is killed when the overflow file of its bin has been written, if the bin has one, and
the start of the bin has not. The store opens again, counts the synced hashes, finds each of them under an index at which it
was appended, and reads each of them under its index: nothing is lost. And nothing is made up: a hash that was not synced is not
found, unless it is the one being appended, which may be found under the index it was to have. For all parameters, all hashes. -/
theorem a_kill_between_the_files_loses_nothing {fl : Rat → Rat} (hfl : FloatOK fl) {p : Params} (hp : ParamsOK p)
    {L : List Bytes} {h : Bytes} (hA : Usable p (L ++ [h])) (hh : h ∉ L) :
    ∃ s s1 os d s2, openStore p [] (freshFiles p) false = some s ∧ HashStore3.run fl p s (L.map .append) = some (s1, os) ∧
      during startNotWritten fl p (HashStore3.sync s1) h = some d ∧ openStore p d.1 d.2 false = some s2 ∧
      HashStore3.countHashes s2 = L.length ∧
      (∀ i a, L[i]? = some a → (∃ j, L[j]? = some a ∧ BinDisk.indexOfHash .fine fl p s2 a = some (.at j)) ∧
        ∃ t, BinDisk.getHashAtIndex .fine p s2 i = some (t, some a)) ∧
      ∀ b, Usable p (L ++ [h] ++ [b]) → b ∉ L → BinDisk.indexOfHash .fine fl p s2 b = some .absent ∨
        (b = h ∧ BinDisk.indexOfHash .fine fl p s2 b = some (.at L.length)) := by
  have hg := hp.good
  obtain ⟨s, s1, os, h1, h2, h3⟩ := synced_store hfl hg hA.prefix
  obtain ⟨es, en, R⟩ := BinDisk.ready hg h3.sound hA.appendable
  generalize hS : HashStore3.sync s1 = S at *
  obtain ⟨i, i1, i2⟩ := insert_ok hfl R.sized R.sorted (by have := R.small; omega) R.enc R.len
  have hsz1 := BinDisk.sized_insert (i := i) R.sized R.len
  have hlen1 : (es.take i ++ en :: es.drop i).length = es.length + 1 := by
    have := i2.le
    simp only [List.length_append, List.length_cons, List.length_take, List.length_drop]
    omega
  obtain ⟨q1, q2, q3, q4, q5⟩ := halfSaved_spec R i2
  have hload : BinDisk.loadBin startNotWritten p S.files (binNum p h) = some es.flatten := by
    rw [BinDisk.loadBin_early rfl, if_pos (show startNotWritten.startRead = true from rfl)]; exact R.load
  have hst := halfFiles_same R.stored hlen1
  have hother : ∀ {bn' es'}, Stored p S.files bn' es' → bn' ≠ binNum p h →
      Stored p (halfFiles p S.files (binNum p h) es (es.take i ++ en :: es.drop i)) bn' es' := fun a b => halfFiles_other hg.digits a b
  have hsv : BinDisk.saveBin startNotWritten p S.files (binNum p h) (es.take i ++ en :: es.drop i).flatten =
      (halfFiles p S.files (binNum p h) es (es.take i ++ en :: es.drop i), false) := by
    unfold BinDisk.saveBin halfFiles BinDisk.writeStart
    rw [binLen_flatten hsz1, hlen1]
    dsimp only
    by_cases hE : p.entriesInBinStart ≤ es.length
    · simp only [if_pos hE, if_pos (show es.length + 1 > p.entriesInBinStart by omega), startNotWritten, Bool.true_eq_false, if_false,
        List.take_zero, writeAt, if_true, flatten_drop hsz1]
    · simp only [if_neg hE, if_neg (show ¬ es.length + 1 > p.entriesInBinStart by omega), startNotWritten,
        List.take_zero, writeAt, if_true]
  have happ := BinDisk.append_state h3.sound hload i1 hsv
  obtain ⟨w, h4, h5, h6⟩ := reopened_nums hfl hg h3 hA (halfFiles p S.files (binNum p h) es (es.take i ++ en :: es.drop i))
  refine ⟨s, s1, os, _, _, h1, h2, by unfold during; rw [hS, happ]; rfl, h4, ?_, ?_, ?_⟩
  · have := h5.count
    rw [List.length_map] at this
    exact this
  rotate_left
  · intro b hB hb
    by_cases hbn : binNum p b = binNum p h
    · refine nothing_else hfl (es := halfSaved p es (es.take i ++ en :: es.drop i)) ?_ q1 q2 (by have := R.small; omega) hB hb
        (by rw [hbn]; exact q4)
      rw [hbn]
      exact load_stored hst q1 (q4.tail hA.appendable)
    · obtain ⟨es', g1, g2, g3, g4, g5, g6⟩ := h3.sound.load hA.appendable.prefix (hg.range b (hB.len32 b (by simp)))
      have hc' := BinDisk.covered_sound g5
      exact nothing_else hfl (es := es') (load_stored (hother g2 hbn) g3 ((hc'.grow [h]).tail hA.appendable)) g3 g4 g6 hB hb
        (hc'.grow [h])
  intro k a hk
  by_cases hb : binNum p a = binNum p h
  · refine still_there hfl (es := halfSaved p es (es.take i ++ en :: es.drop i)) h5 ?_ q1 q2 (by have := R.small; omega) hA
      (fun e => hh (e ▸ List.mem_of_getElem? hk)) (by rw [hb]; exact q4) hk ?_
    · rw [hb]
      exact load_stored hst q1 (q4.tail hA.appendable)
    · have : (⟨sortNum p a, k, truncOf a⟩ : Item) ∈ es.map (itemOf p) := by
        rw [R.perm.mem_iff, HashStore3.mem_itemsFor]
        exact ⟨a, hk, hb, rfl, rfl⟩
      obtain ⟨e, he, hee⟩ := List.mem_map.mp this
      exact List.mem_map.mpr ⟨e, q5 e he, hee⟩
  · have hal : a.length = 32 := hA.len32 a (by simp [List.mem_of_getElem? hk])
    obtain ⟨es', g1, g2, g3, g4, g5, g6⟩ := h3.sound.load hA.appendable.prefix (hg.range a hal)
    have hc' := BinDisk.covered_sound g5
    refine still_there hfl (es := es') h5 (load_stored (hother g2 hb) g3 ((hc'.grow [h]).tail hA.appendable)) g3 g4 g6 hA
      (fun e => hb (by rw [e])) (hc'.grow [h]) hk ?_
    rw [g5.mem_iff, HashStore3.mem_itemsFor]
    exact ⟨a, hk, rfl, rfl, rfl⟩

/-- Three hashes of one bin, of which the third is in an overflow file, are synced; the fourth comes before them, and would move
the second to the overflow file. -/
example : ∃ s s1 os d s2, openStore smallParams [] (freshFiles smallParams) false = some s ∧
    HashStore3.run fl53 smallParams s (three.map .append) = some (s1, os) ∧
      during startNotWritten fl53 smallParams (HashStore3.sync s1) (5 :: zeros 31) = some d ∧
      openStore smallParams d.1 d.2 false = some s2 ∧ HashStore3.countHashes s2 = 3 ∧
      (∀ i a, three[i]? = some a → (∃ j, three[j]? = some a ∧ BinDisk.indexOfHash .fine fl53 smallParams s2 a = some (.at j)) ∧
        ∃ t, BinDisk.getHashAtIndex .fine smallParams s2 i = some (t, some a)) ∧
      ∀ b, Usable smallParams (three ++ [5 :: zeros 31] ++ [b]) → b ∉ three →
        BinDisk.indexOfHash .fine fl53 smallParams s2 b = some .absent ∨
          (b = 5 :: zeros 31 ∧ BinDisk.indexOfHash .fine fl53 smallParams s2 b = some (.at 3)) :=
  a_kill_between_the_files_loses_nothing floatOK_fl53 BinDisk.small_paramsOK usable_four (by decide)

/-- A fifth hash of that bin, of which the theorem says that it is absent. -/
example : Usable smallParams (three ++ [5 :: zeros 31] ++ [8 :: zeros 31]) ∧ (8 :: zeros 31) ∉ three ∧
    binNum smallParams (8 :: zeros 31) = binNum smallParams (5 :: zeros 31) :=
  ⟨⟨by decide, by decide, by decide, by decide +kernel, by decide +kernel⟩, by decide, by decide +kernel⟩

/-! ## A kill at any moment of an append: the other bins -/

/-- A write within the start of a bin leaves the other bins as they are. -/
theorem start_other {p : Params} {f : Files} {bn bn' : Nat} {es : List Bytes} (hst : Stored p f bn' es) (hne : bn' ≠ bn) {d : Bytes}
    (hd : d.length ≤ p.entriesInBinStart * p.entrySize) :
    Stored p { f with binStarts := writeAt f.binStarts (bn * p.entriesInBinStart * p.entrySize) d } bn' es := by
  obtain ⟨h1, h2, h3⟩ := hst
  rw [Nat.mul_assoc]
  refine ⟨Nat.le_trans h1 (writeAt_length_ge _ _ _), ?_, h3⟩
  rw [← h2]
  by_cases hnil : d = []
  · rw [hnil]; simp [writeAt]
  · rcases Nat.lt_or_ge bn' bn with hlt | hge
    · have := Nat.mul_le_mul_right (p.entriesInBinStart * p.entrySize) hlt
      rw [Nat.succ_mul] at this h1
      exact slice_writeAt_before hnil (by omega) (by omega)
    · have := Nat.mul_le_mul_right (p.entriesInBinStart * p.entrySize) (show bn + 1 ≤ bn' by omega)
      rw [Nat.succ_mul] at this
      exact slice_writeAt_after hnil (by omega)

/-- So does whatever becomes of its overflow file. -/
theorem overflow_other {p : Params} (hd : 0 < p.digitsPerNumberedFolder) {f : Files} {bn bn' : Nat} {es : List Bytes}
    (hst : Stored p f bn' es) (hne : bn' ≠ bn) (o : Bytes) :
    Stored p { f with overflow := fun path => if path = ovfPath p bn then some o else f.overflow path } bn' es := by
  refine ⟨hst.fits, hst.start, ?_⟩
  dsimp only
  rw [if_neg fun e => hne (ovfPath_inj hd e)]
  exact hst.ovf

/-- Saving a bin, whatever is done of it and whatever its bytes, leaves the other bins as they are. -/
theorem save_other_any (ft : Fates) {p : Params} (hd : 0 < p.digitsPerNumberedFolder) {f : Files} {bn bn' : Nat} {es : List Bytes}
    (hst : Stored p f bn' es) (hne : bn' ≠ bn) (b : Bytes) : Stored p (BinDisk.saveBin ft p f bn b).1 bn' es := by
  have hw : ∀ (g : Files) (d : Bytes), Stored p g bn' es → d.length ≤ p.entriesInBinStart * p.entrySize →
      Stored p (BinDisk.writeStart ft p g bn d).1 bn' es := by
    intro g d hg hl
    unfold BinDisk.writeStart
    cases ft.startWrite with
    | none => exact start_other hg hne hl
    | some m => exact start_other hg hne (Nat.le_trans (by rw [List.length_take]; omega) hl)
  unfold BinDisk.saveBin
  dsimp only
  by_cases hE : binLen p b > p.entriesInBinStart
  · rw [if_pos hE]
    by_cases hdir : ft.dir = false
    · rw [if_pos hdir]
      exact hst
    · rw [if_neg hdir]
      cases ft.ovfWrite with
      | refused => exact hst
      | cut m => exact overflow_other hd hst hne _
      | ok => exact hw _ _ (overflow_other hd hst hne _) (by rw [List.length_take]; omega)
  · rw [if_neg hE]
    refine hw _ _ hst (Nat.le_trans (by rw [List.length_take]; exact Nat.min_le_left _ _) (Nat.mul_le_mul_right _ (by omega)))

/-- What is on disk after a kill at any moment of an append: the bin numbers handed over, and the other bins as they were. -/
theorem during_other {fl : Rat → Rat} (hfl : FloatOK fl) {p : Params} (hg : Good p) {S : Store} {L : List Bytes} {n : Nat} {h : Bytes}
    (h3 : Inv p S ⟨L, n, L.zipIdx⟩) (hA : Usable p (L ++ [h])) {ft : Fates} (hft : ft.ovfRead = true) :
    ∃ f, during ft fl p S h = some ((writeWordAt S.binNums (binNum p h) L.length).file.file.data, f) ∧
      ∀ {bn' es'}, Stored p S.files bn' es' → bn' ≠ binNum p h → Stored p f bn' es' := by
  obtain ⟨es, en, R⟩ := BinDisk.ready hg h3.sound hA.appendable
  by_cases hr : ft.startRead = true
  · obtain ⟨i, i1, i2⟩ := insert_ok hfl R.sized R.sorted (by have := R.small; omega) R.enc R.len
    have hload : BinDisk.loadBin ft p S.files (binNum p h) = some es.flatten := by
      rw [BinDisk.loadBin_early hft, if_pos hr]; exact R.load
    have happ := BinDisk.append_state (ft := ft) h3.sound hload i1 rfl
    refine ⟨_, by unfold during; rw [happ]; rfl, fun a b => save_other_any ft hg.digits a b _⟩
  · have hload : BinDisk.loadBin ft p S.files (binNum p h) = none := by
      rw [BinDisk.loadBin_early hft, if_neg hr]
    refine ⟨S.files, ?_, fun a _ => a⟩
    have hcnt : countWords S.binNums = L.length := h3.count
    have hram := h3.ram
    unfold during BinDisk.appendHash
    rw [hram]
    simp only [Option.isSome_none, Bool.false_eq_true, if_false, hcnt, hload]
    rfl

/-- **C121, a kill at any moment of an append: the other bins are spared.** Any hashes are appended to a new store and it is synced.
Then another one is being appended, and the process is killed: before or after any of the calls, or with a write of which any
number of bytes has been done. The store opens again and counts the synced hashes. Those of other bins than that of the new hash
are found under an index at which they were appended, and read under their index; and a hash of such a bin that was not synced is not
found. For all parameters, all hashes. -/
theorem a_kill_within_an_append_spares_the_other_bins {fl : Rat → Rat} (hfl : FloatOK fl) {p : Params} (hp : ParamsOK p)
    {L : List Bytes} {h : Bytes} (hA : Usable p (L ++ [h])) (ft : Fates) (hft : ft.ovfRead = true) :
    ∃ s s1 os d s2, openStore p [] (freshFiles p) false = some s ∧ HashStore3.run fl p s (L.map .append) = some (s1, os) ∧
      during ft fl p (HashStore3.sync s1) h = some d ∧ openStore p d.1 d.2 false = some s2 ∧
      HashStore3.countHashes s2 = L.length ∧
      (∀ i a, L[i]? = some a → binNum p a ≠ binNum p h →
        (∃ j, L[j]? = some a ∧ BinDisk.indexOfHash .fine fl p s2 a = some (.at j)) ∧
          ∃ t, BinDisk.getHashAtIndex .fine p s2 i = some (t, some a)) ∧
      ∀ b, Usable p (L ++ [h] ++ [b]) → b ∉ L → binNum p b ≠ binNum p h →
        BinDisk.indexOfHash .fine fl p s2 b = some .absent := by
  have hg := hp.good
  obtain ⟨s, s1, os, h1, h2, h3⟩ := synced_store hfl hg hA.prefix
  generalize hS : HashStore3.sync s1 = S at *
  obtain ⟨f, hd, hf⟩ := during_other hfl hg h3 hA hft
  obtain ⟨w, h4, h5, h6⟩ := reopened_nums hfl hg h3 hA f
  refine ⟨s, s1, os, _, _, h1, h2, by rw [hS]; exact hd, h4, ?_, ?_, ?_⟩
  · have := h5.count
    rw [List.length_map] at this
    exact this
  · intro k a hk hb
    have hal : a.length = 32 := hA.len32 a (by simp [List.mem_of_getElem? hk])
    obtain ⟨es', g1, g2, g3, g4, g5, g6⟩ := h3.sound.load hA.appendable.prefix (hg.range a hal)
    have hc' := BinDisk.covered_sound g5
    refine still_there hfl (es := es') h5 (load_stored (hf g2 hb) g3 ((hc'.grow [h]).tail hA.appendable)) g3 g4 g6 hA
      (fun e => hb (by rw [e])) (hc'.grow [h]) hk ?_
    rw [g5.mem_iff, HashStore3.mem_itemsFor]
    exact ⟨a, hk, rfl, rfl, rfl⟩
  · intro b hB hb hbn
    obtain ⟨es', g1, g2, g3, g4, g5, g6⟩ := h3.sound.load hA.appendable.prefix (hg.range b (hB.len32 b (by simp)))
    have hc' := BinDisk.covered_sound g5
    rcases nothing_else hfl (es := es') (L := L) (h := h) (s := ⟨w, f, none⟩) (load_stored (hf g2 hbn) g3 ((hc'.grow [h]).tail hA.appendable)) g3 g4 g6 hB hb
      (hc'.grow [h]) with e | ⟨e, _⟩
    · exact e
    · exact absurd (by rw [e]) hbn

/-- Three hashes of one bin and one of another are synced. Of the bin start with the fifth hash 40 bytes are written, an entry and a
part of the next. -/
def elsewhere : Bytes := zeros 7 ++ 200 :: zeros 24

example : ∃ s s1 os d s2, openStore smallParams [] (freshFiles smallParams) false = some s ∧
    HashStore3.run fl53 smallParams s ((three ++ [elsewhere]).map .append) = some (s1, os) ∧
      during ⟨true, true, true, .ok, some 40⟩ fl53 smallParams (HashStore3.sync s1) (5 :: zeros 31) = some d ∧
      openStore smallParams d.1 d.2 false = some s2 ∧ HashStore3.countHashes s2 = 4 ∧
      ∃ t, BinDisk.getHashAtIndex .fine smallParams s2 3 = some (t, some elsewhere) := by
  have hu : Usable smallParams (three ++ [elsewhere] ++ [5 :: zeros 31]) :=
    ⟨by decide, by decide, by decide, by decide +kernel, by decide +kernel⟩
  obtain ⟨s, s1, os, d, s2, h1, h2, h3, h4, h5, h6, _⟩ :=
    a_kill_within_an_append_spares_the_other_bins floatOK_fl53 BinDisk.small_paramsOK hu ⟨true, true, true, .ok, some 40⟩ rfl
  exact ⟨s, s1, os, d, s2, h1, h2, h3, h4, h5, (h6 3 elsewhere rfl (by decide +kernel)).2⟩

end Verif.BinKill
