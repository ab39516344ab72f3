import Verif.Props.BinKill

/-! # The binned hash store whose process is killed within an append (C121) -/

namespace Verif.BinKill

open Bins HashStores WordFile
open HashStore3 (Store Good ParamsOK itemAt openStore itemsFor)
open BinDisk (Covered Ready Fates)

theorem Usable.appendable {p : Params} {L : List Bytes} (h : Usable p L) : HashStore3.Appendable p L :=
  ⟨h.len32, h.count, h.count48, fun a ha => h.nonzero a (List.mem_of_getElem? ha), h.noClash⟩

/-- A store whose hashes are all listed is sound. -/
theorem Inv.sound {p : Params} {s : Store} {L : List Bytes} {n : Nat} (hI : Inv p s ⟨L, n, L.zipIdx⟩) : HashStore3.Inv p s L :=
  ⟨hI.nums, hI.buf.size, hI.ram, hI.bins⟩

/-- Hashes are appended to a new store, and it is synced. -/
theorem synced_store {fl : Rat → Rat} (hfl : FloatOK fl) {p : Params} (hg : Good p) {L : List Bytes} (hA : Usable p L) :
    ∃ s s1 os, openStore p [] (freshFiles p) false = some s ∧ HashStore3.run fl p s (L.map .append) = some (s1, os) ∧
      Inv p (HashStore3.sync s1) ⟨L, L.length, L.zipIdx⟩ := by
  obtain ⟨s, h1, h2⟩ := inv_fresh hg
  obtain ⟨s1, os, h3, h4⟩ := append_all hfl hg [] L h2 (by simpa using hA)
  refine ⟨s, s1, os, h1, h3, ?_⟩
  rw [List.nil_append] at h4
  obtain ⟨g1, _, _⟩ := WordFile.inv_step h4.nums .sync trivial
  exact ⟨g1, by dsimp only; rw [Nat.sub_self]; exact h4.buf.sync, Nat.le_refl _, h4.ram, h4.bins, h4.given, h4.le⟩

/-- The bin number of one more hash is in the buffer; after a kill the file of bin numbers is as it was. -/
theorem reopened_nums {fl : Rat → Rat} (hfl : FloatOK fl) {p : Params} (hg : Good p) {s : Store} {L : List Bytes} {h : Bytes}
    (hI : Inv p s ⟨L, L.length, L.zipIdx⟩) (hA : Usable p (L ++ [h])) (f : Files) :
    ∃ w, openStore p (writeWordAt s.binNums (binNum p h) L.length).file.file.data f false = some ⟨w, f, none⟩ ∧
      WordFile.Inv w (L.map fun h => (binNum p h : Int)) ∧ Killed.Buf w p.bytesRoomForBinNum L.length 0 := by
  have hr := hg.room
  have hcnt : countWords s.binNums = L.length := hI.count
  obtain ⟨s', h1, h2⟩ := append_ok hfl hg hI (h := h) (by simpa [List.zipIdx_map_fst] using hA)
  have hnum : s'.binNums = writeWordAt s.binNums (binNum p h) L.length := by
    simp only [HashStore3.appendHash, hI.ram] at h1
    simp only [Option.isSome_none, Bool.false_eq_true, if_false, hcnt] at h1
    split at h1
    · simp at h1
    · split at h1
      · simp at h1
      · simp only [Option.some.injEq, Prod.mk.injEq] at h1
        rw [← h1.1]
  simp only [after] at h2
  have hk : left p.bytesRoomForBinNum ⟨L ++ [h], L.length, L.zipIdx ++ [(h, L.length)]⟩ = 0 := by
    unfold left
    simp only [List.length_append, List.length_singleton]
    rw [show L.length + 1 - L.length = 1 by omega]
    have : (1 * p.bytesRoomForBinNum - 1) / 4096 = 0 := by omega
    rw [this]
  rcases kill_ok hg h2 with ⟨_, s2, g1, g2⟩ | ⟨g1, _⟩
  · have hkept : kept p.bytesRoomForBinNum ⟨L ++ [h], L.length, L.zipIdx ++ [(h, L.length)]⟩ = L.length := by
      unfold kept; rw [hk]; simp
    simp only [after, hkept] at g2
    rw [List.take_left' rfl] at g2
    have hb := g2.buf
    simp only [Nat.sub_self] at hb
    refine ⟨s2.binNums, ?_, g2.nums, hb⟩
    rw [← hnum]
    unfold openStore disk at g1
    unfold openStore
    dsimp only at g1
    split at g1
    · simp at g1
    · rename_i w hw
      simp only [Bool.false_eq_true, if_false, Option.some.injEq] at g1 ⊢
      rw [← g1]
  · rw [hk] at g1
    simp at g1

/-- **C121, a kill within an append, before the bin.** Hashes are appended to a new store and it is synced; then one more is being
appended, and the process is killed after its bin number has been written and before its bin. The store opens again and goes
on, in any session, as if the append had not been tried. -/
theorem a_kill_before_the_bin_is_written_does_no_harm {fl : Rat → Rat} (hfl : FloatOK fl) {p : Params} (hp : ParamsOK p)
    {L : List Bytes} {h : Bytes} (ops : List Op) (hA : Usable p (L ++ [h])) (hA' : Usable p (L ++ appended ops))
    (hq : ∀ h, Op.call (.indexOf h) ∈ ops → h.length = 32) :
    ∃ s s1 os d s2, openStore p [] (freshFiles p) false = some s ∧ HashStore3.run fl p s (L.map .append) = some (s1, os) ∧
      during beforeTheBin fl p (HashStore3.sync s1) h = some d ∧ openStore p d.1 d.2 false = some s2 ∧
      ∃ os', run fl p s2 ops = some os' ∧ SessionOK p.bytesRoomForBinNum ⟨L, L.length, L.zipIdx⟩ ops os' := by
  have hg := hp.good
  obtain ⟨s, s1, os, h1, h2, h3⟩ := synced_store hfl hg hA.prefix
  have hcnt : countWords (HashStore3.sync s1).binNums = L.length := h3.count
  obtain ⟨w, h4, h5, h6⟩ := reopened_nums hfl hg h3 hA (HashStore3.sync s1).files
  refine ⟨s, s1, os, (_, _), _, h1, h2, ?_, h4, ?_⟩
  · unfold during BinDisk.appendHash
    have : (HashStore3.sync s1).ram.isSome = false := by rw [h3.ram]; rfl
    simp only [this, Bool.false_eq_true, if_false, BinDisk.loadBin, beforeTheBin, Option.map_some, disk, hcnt]
  · exact run_ok hfl hg ops ⟨h5, by dsimp only; rw [Nat.sub_self]; exact h6, Nat.le_refl _, rfl, h3.bins, h3.given, h3.le⟩
      (by simpa [List.zipIdx_map_fst] using hA') hq

/-- Three hashes of one bin, whose start has room for two. -/
def three : List Bytes := [7 :: zeros 31, 9 :: zeros 31, 11 :: zeros 31]

theorem usable_four : Usable smallParams (three ++ [5 :: zeros 31]) := by
  refine ⟨?_, by decide, by decide, ?_, ?_⟩
  · decide
  · decide +kernel
  · decide +kernel

/-- Three hashes are synced; a fourth is being appended when the process is killed, and is appended again. -/
example : ∃ s s1 os d s2, openStore smallParams [] (freshFiles smallParams) false = some s ∧
    HashStore3.run fl53 smallParams s (three.map .append) = some (s1, os) ∧
      during beforeTheBin fl53 smallParams (HashStore3.sync s1) (5 :: zeros 31) = some d ∧
      openStore smallParams d.1 d.2 false = some s2 ∧
      ∃ os', run fl53 smallParams s2 [.call (.append (5 :: zeros 31)), .call (.get 3), .call (.indexOf (9 :: zeros 31))] =
          some os' ∧
        SessionOK smallParams.bytesRoomForBinNum ⟨three, 3, three.zipIdx⟩
          [.call (.append (5 :: zeros 31)), .call (.get 3), .call (.indexOf (9 :: zeros 31))] os' :=
  a_kill_before_the_bin_is_written_does_no_harm floatOK_fl53 BinDisk.small_paramsOK _ usable_four usable_four (by
    intro h hh; simp at hh; subst hh; rfl)

/-- The bin whose overflow file is empty is its start. -/
theorem load_emptied {p : Params} {f : Files} {bn : Nat} {es : List Bytes} (hst : Stored p f bn es) (hs : Sized p es)
    (hgt : p.entriesInBinStart < es.length) (ht : TailOK p (es.take p.entriesInBinStart)) :
    Bins.loadBin p { f with overflow := fun path => if path = ovfPath p bn then some [] else f.overflow path } bn =
      some (es.take p.entriesInBinStart).flatten := by
  have h0 : Stored p { f with overflow := fun _ => none } bn (es.take p.entriesInBinStart) := by
    refine ⟨hst.fits, ?_, ?_⟩
    · have := hst.start
      rw [show p.entriesInBinStart - es.length = 0 by omega] at this
      rw [List.length_take, show p.entriesInBinStart - min p.entriesInBinStart es.length = 0 by omega, List.take_take, Nat.min_self]
      exact this
    · rw [List.length_take, if_neg (by omega)]
  have hl := load_stored h0 (sized_take hs _) ht
  rw [← hl]
  unfold Bins.loadBin
  dsimp only
  congr 1
  funext b
  unfold loadBinFromSlice
  by_cases hz : countZeroBytesAtEnd b / p.entrySize > 0
  · simp only [if_pos hz]
  · simp only [if_neg hz, if_true, List.append_nil]

/-- **C121 is violated: a kill within an append loses hashes that were synced.** Any hashes, all different, are appended to a new
store and it is synced; more of them are in the bin of `h` than a bin start has room for. Then `h` is being appended, and the
process is killed when the overflow file of that bin has been opened for writing. The store opens again, and every hash the
overflow file held is gone for good: it is still counted, but `IndexOfHash` gives -1 and `GetHashAtIndex` a hash of zeros. For all
parameters, all hashes. -/
theorem a_kill_within_an_append_loses_synced_hashes {fl : Rat → Rat} (hfl : FloatOK fl) {p : Params} (hp : ParamsOK p)
    {L : List Bytes} {h : Bytes} (hA : Usable p (L ++ [h])) (hnd : L.Nodup)
    (hroom : p.entriesInBinStart < (L.filter fun x => decide (binNum p x = binNum p h)).length) :
    ∃ s s1 os d s2, openStore p [] (freshFiles p) false = some s ∧ HashStore3.run fl p s (L.map .append) = some (s1, os) ∧
      during overflowEmptied fl p (HashStore3.sync s1) h = some d ∧ openStore p d.1 d.2 false = some s2 ∧
      HashStore3.countHashes s2 = L.length ∧
      ∃ lost : List Bytes, lost.Nodup ∧ (∀ a ∈ lost, a ∈ L) ∧
        lost.length = (L.filter fun x => decide (binNum p x = binNum p h)).length - p.entriesInBinStart ∧
        ∀ a ∈ lost, BinDisk.indexOfHash .fine fl p s2 a = some .absent ∧
          ∀ i, L[i]? = some a → ∃ t, BinDisk.getHashAtIndex .fine p s2 i = some (t, some (zeros 32)) := by
  have hg := hp.good
  have hl : h.length = 32 := hA.len32 h (by simp)
  obtain ⟨s, s1, os, h1, h2, h3⟩ := synced_store hfl hg hA.prefix
  obtain ⟨es, en, R⟩ := BinDisk.ready hg h3.sound hA.appendable
  generalize hS : HashStore3.sync s1 = S at *
  have hcnt : countWords S.binNums = L.length := h3.count
  have hcount : es.length = (L.filter fun x => decide (binNum p x = binNum p h)).length := by
    have := R.perm.length_eq
    rw [List.length_map, BinDisk.itemsFor_count] at this
    exact this
  have hgt : p.entriesInBinStart < es.length := by omega
  have hc := BinDisk.covered_sound R.perm
  have hnod := BinDisk.indices_nodup R.perm
  have hsz0 : Sized p (es.take p.entriesInBinStart) := sized_take R.sized _
  have hc0 : Covered p L (binNum p h) (es.take p.entriesInBinStart) := fun e he => hc e (List.mem_of_mem_take he)
  have hso0 : SortedBy p (es.take p.entriesInBinStart) := List.Pairwise.sublist (List.take_sublist _ _) R.sorted
  obtain ⟨i, i1, i2⟩ := insert_ok hfl R.sized R.sorted (by have := R.small; omega) R.enc R.len
  have hsz1 := BinDisk.sized_insert (i := i) R.sized R.len
  have hlen1 : (es.take i ++ en :: es.drop i).length = es.length + 1 := by
    have := i2.le
    simp only [List.length_append, List.length_cons, List.length_take, List.length_drop]
    omega
  have hload : BinDisk.loadBin overflowEmptied p S.files (binNum p h) = some es.flatten := by
    rw [BinDisk.loadBin_early rfl, if_pos (show overflowEmptied.startRead = true from rfl)]; exact R.load
  have hsv : BinDisk.saveBin overflowEmptied p S.files (binNum p h) (es.take i ++ en :: es.drop i).flatten =
      ({ S.files with overflow := fun path => if path = ovfPath p (binNum p h) then some [] else S.files.overflow path }, false) := by
    unfold BinDisk.saveBin
    have e1 : binLen p (es.take i ++ en :: es.drop i).flatten > p.entriesInBinStart := by rw [binLen_flatten hsz1]; omega
    simp only [if_pos e1, overflowEmptied, Bool.true_eq_false, if_false, List.take_zero]
  have happ := BinDisk.append_state h3.sound hload i1 hsv
  obtain ⟨w, h4, h5, h6⟩ := reopened_nums hfl hg h3 hA
    { S.files with overflow := fun path => if path = ovfPath p (binNum p h) then some [] else S.files.overflow path }
  refine ⟨s, s1, os, _, _, h1, h2, by unfold during; rw [hS, happ]; rfl, h4, ?_, ?_⟩
  · have := h5.count
    rw [List.length_map] at this
    exact this
  have hload1 := load_emptied R.stored R.sized hgt (hc0.tail hA.appendable.prefix)
  have hsub : ∀ e ∈ es.drop p.entriesInBinStart, e ∈ es := fun e he => List.mem_of_mem_drop he
  have hget : ∀ e ∈ es, ∃ x, L[entIndex p e]? = some x ∧ binNum p x = binNum p h := by
    intro e he
    obtain ⟨x, x1, x2, _⟩ := hc e he
    exact ⟨x, x1, x2⟩
  have huniq : ∀ (a : Bytes) (i j : Nat), L[i]? = some a → L[j]? = some a → i = j := by
    intro a i j hi hj
    obtain ⟨hi', rfl⟩ := List.getElem?_eq_some_iff.mp hi
    obtain ⟨hj', e⟩ := List.getElem?_eq_some_iff.mp hj
    exact ((List.Nodup.getElem_inj_iff hnd).mp e).symm
  have hsplit : (es.take p.entriesInBinStart).map (entIndex p) ++ (es.drop p.entriesInBinStart).map (entIndex p) =
      es.map (entIndex p) := by rw [← List.map_append, List.take_append_drop]
  rw [← hsplit, List.nodup_append] at hnod
  obtain ⟨_, hnd2, hdis⟩ := hnod
  refine ⟨(es.drop p.entriesInBinStart).map fun e => (L[entIndex p e]?).getD [], ?_, ?_, ?_, ?_⟩
  · rw [List.Nodup, List.pairwise_map]
    rw [List.Nodup, List.pairwise_map] at hnd2
    refine List.Pairwise.imp_of_mem ?_ hnd2
    intro e e' he he' hne heq
    obtain ⟨x, x1, _⟩ := hget e (hsub e he)
    obtain ⟨x', x1', _⟩ := hget e' (hsub e' he')
    rw [x1, x1'] at heq
    simp only [Option.getD_some] at heq
    subst heq
    exact hne (huniq _ _ _ x1 x1')
  · intro a ha
    obtain ⟨e, he, rfl⟩ := List.mem_map.mp ha
    obtain ⟨x, x1, _⟩ := hget e (hsub e he)
    rw [x1]
    exact List.mem_of_getElem? x1
  · rw [List.length_map, List.length_drop, hcount]
  · intro a ha
    obtain ⟨e, he, rfl⟩ := List.mem_map.mp ha
    obtain ⟨x, x1, x2⟩ := hget e (hsub e he)
    rw [x1]
    simp only [Option.getD_some]
    have G := BinDisk.gone hfl (p := p) (s := Store.mk w _ none) (M := L) (es := es.take p.entriesInBinStart) (a := x)
      (i := entIndex p e) h5 (by rw [x2]; exact hload1) hsz0 hso0 (by have := R.small; rw [List.length_take]; omega)
      (by rw [x2]; exact hc0) (fun a ha => hA.len32 a (by simp [ha])) x1 (fun j hj => huniq _ _ _ hj x1)
      (fun e' he' heq => hdis _ (List.mem_map.mpr ⟨e', he', rfl⟩) _ (List.mem_map.mpr ⟨e, he, rfl⟩) heq)
    refine ⟨G.1, ?_⟩
    intro i' hi'
    rw [huniq _ _ _ hi' x1]
    exact G.2

/-- The third of the three hashes was in the overflow file. -/
example : ∃ s s1 os d s2, openStore smallParams [] (freshFiles smallParams) false = some s ∧
    HashStore3.run fl53 smallParams s (three.map .append) = some (s1, os) ∧
      during overflowEmptied fl53 smallParams (HashStore3.sync s1) (5 :: zeros 31) = some d ∧
      openStore smallParams d.1 d.2 false = some s2 ∧
      ∃ a ∈ three, BinDisk.indexOfHash .fine fl53 smallParams s2 a = some .absent := by
  obtain ⟨s, s1, os, d, s2, h1, h2, h3, h4, _, lost, _, h6, h7, h8⟩ := a_kill_within_an_append_loses_synced_hashes floatOK_fl53
    BinDisk.small_paramsOK usable_four (by decide) (by decide +kernel)
  refine ⟨s, s1, os, d, s2, h1, h2, h3, h4, ?_⟩
  cases lost with
  | nil => exact absurd h7 (by decide +kernel)
  | cons a l => exact ⟨a, h6 a (by simp), (h8 a (by simp)).1⟩

end Verif.BinKill
