import Verif.Model.CakeFiles
import Verif.Lemmas.CakeCascade

/-!
# A tier that has got more bytes than it knows of
-/

namespace Verif.Cake

open Verif.ShallowTree Verif.Chunk Verif.SingleTree Verif.DonutForest Verif.TierTop

/-! ## Opening -/

theorem sliceU64_more {m e : Bytes} {a n : Nat} {x : Bytes} (h : sliceU64 m a n = some x) : sliceU64 (m ++ e) a n = some x := by
  unfold sliceU64 at h ⊢
  split at h
  · next hc =>
    rw [if_pos ⟨hc.1, by rw [List.length_append]; omega⟩, ← h]
    congr 1
    unfold slice
    rw [List.drop_append_of_le_length (by omega), List.take_append_of_le_length (by rw [List.length_drop]; omega)]
  · cases h

/-- Level by level more bytes. -/
def More (maps maps' : List Bytes) : Prop := ∀ (i : Nat) (m : Bytes), maps[i]? = some m → ∃ e : Bytes, maps'[i]? = some (m ++ e)

theorem More.length {maps maps' : List Bytes} (h : More maps maps') : maps.length ≤ maps'.length := by
  rcases Nat.lt_or_ge maps'.length maps.length with hlt | hge
  · obtain ⟨e, he⟩ := h maps'.length _ (List.getElem?_eq_getElem hlt)
    rw [List.getElem?_eq_none (Nat.le_refl _)] at he
    cases he
  · exact hge

theorem readLevels_more {maps maps' : List Bytes} (hm : More maps maps') : ∀ (k n : Nat) (rest : Bytes) (acc : Nat → Nat)
    {r : List Level × Bytes × (Nat → Nat)}, readLevels maps k n rest acc = .ok r → readLevels maps' k n rest acc = .ok r
  | 0, _, _, _, _, h => h
  | k + 1, n, rest, acc, r, h => by
    rw [readLevels] at h ⊢
    split at h
    · cases h
    next hlen =>
    rw [if_neg hlen]
    split at h
    · cases h
    next m hmn =>
    obtain ⟨e, he⟩ := hm n m hmn
    rw [he]
    dsimp only at h ⊢
    split at h
    · next index nodes h1 h2 =>
      rw [sliceU64_more h1, sliceU64_more h2]
      dsimp only
      split at h
      · next lvs r' hr =>
        rw [readLevels_more hm k _ _ _ hr]
        exact h
      · cases h
      · cases h
    · cases h

theorem readForests_more {quota : Nat} {maps maps' : List Bytes} (hm : More maps maps') : ∀ (fuel : Nat) (rest : Bytes) (acc : Nat → Nat)
    (k : Nat) {fs : List (Int × List Level)}, readForests quota maps fuel rest acc k = .ok fs →
    readForests quota maps' fuel rest acc k = .ok fs
  | fuel, [], acc, k, fs, h => by rw [readForests] at h ⊢; exact h
  | 0, _ :: _, _, _, _, h => by rw [readForests] at h; cases h
  | fuel + 1, b :: bs, acc, k, fs, h => by
    simp only [readForests] at h ⊢
    split at h
    · cases h
    next h1 =>
    rw [if_neg h1]
    split at h
    · cases h
    next h2 =>
    rw [if_neg h2]
    split at h
    · cases h
    next count rest' h3 =>
    split at h
    · cases h
    next h4 =>
    have := hm.length
    rw [if_neg (by omega)]
    split at h
    · next lvs rest'' acc' h5 =>
      rw [readLevels_more hm _ _ _ _ h5]
      dsimp only
      split at h
      · next fs' h6 =>
        rw [readForests_more hm fuel _ _ _ h6]
        exact h
      · cases h
      · cases h
    · cases h
    · cases h

theorem readInfo_more {quota : Nat} {maps maps' : List Bytes} (hm : More maps maps') {bytes : Bytes} {fs : List (Int × List Level)}
    (hne : bytes ≠ []) (h : readInfo quota maps bytes = .ok fs) : readInfo quota maps' bytes = .ok fs := by
  unfold readInfo at h ⊢
  have h0 : ¬ bytes.length = 0 := fun hc => hne (List.length_eq_zero_iff.1 hc)
  rw [if_neg h0] at h ⊢
  exact readForests_more hm _ _ _ _ h

theorem mapLevels_more {d d' : DonutForest.Folder} (hl : ∀ n b, d.level n = some b → ∃ e, d'.level n = some (b ++ e))
    (hne : ∀ n, n < 65 → d'.level n ≠ some []) : ∀ (k n : Nat) {maps : List Bytes}, n + k ≤ 65 → mapLevels d k n true = some maps →
    ∃ maps', mapLevels d' k n true = some maps' ∧ More maps maps'
  | 0, n, maps, _, h => by
    injection h with h
    subst h
    exact ⟨[], rfl, fun i m hi => (by simp at hi)⟩
  | k + 1, n, maps, hb, h => by
    have hsome : ∀ (k n : Nat), n + k ≤ 65 → ∃ maps', mapLevels d' k n true = some maps' := by
      intro k
      induction k with
      | zero => intro n _; exact ⟨_, rfl⟩
      | succ k ih =>
        intro n hb
        rw [mapLevels]
        split
        · exact ⟨_, rfl⟩
        · next hx =>
          unfold hexLevel at hx
          split at hx
          · exact absurd hx (hne _ (by omega))
          · cases hx
        · obtain ⟨maps', h⟩ := ih (n + 1) (by omega)
          rw [h]
          exact ⟨_, rfl⟩
    rw [mapLevels] at h
    split at h
    · injection h with h
      subst h
      obtain ⟨maps', h'⟩ := hsome (k + 1) n hb
      exact ⟨maps', h', fun i m hi => (by simp at hi)⟩
    · cases h
    · next b bs hx =>
      cases hr : mapLevels d k (n + 1) true with
      | none => rw [hr] at h; cases h
      | some maps0 =>
        rw [hr] at h
        injection h with h
        subst h
        obtain ⟨maps', h1, h2⟩ := mapLevels_more hl hne k (n + 1) (by omega) hr
        have hx' : ∃ e, hexLevel d' n = some (b :: (bs ++ e)) := by
          unfold hexLevel at hx ⊢
          split at hx
          · next hc =>
            rw [if_pos hc]
            exact hl _ _ hx
          · cases hx
        obtain ⟨e, he⟩ := hx'
        refine ⟨(b :: (bs ++ e)) :: maps', by rw [mapLevels, he]; simp only [h1]; rfl, ?_⟩
        intro i m hi
        match i with
        | 0 =>
          rw [List.getElem?_cons_zero] at hi
          injection hi with hi
          subst hi
          exact ⟨e, rfl⟩
        | i + 1 =>
          rw [List.getElem?_cons_succ] at hi ⊢
          exact h2 i m hi

/-- A tier that has a file for level 0 and has got more bytes, no level being empty, opens as before, but for the bytes at the
end of the jump table and the hashes at the end. -/
theorem openTier_more {quota : Nat} {d d' : DonutForest.Folder} {t : Tier} (h0 : d.level 0 ≠ none)
    (hl : ∀ n b, d.level n = some b → ∃ e, d'.level n = some (b ++ e)) (hne : ∀ n, n < 65 → d'.level n ≠ some [])
    (hi : d'.info = d.info) {je : Bytes} (hj : d'.jumps = d.jumps.map (· ++ je)) {he : List Bytes}
    (hh : d'.hashes = d.hashes.map (· ++ he)) (hb : d.info ≠ some []) (ht : openTier quota d = .ok t) :
    openTier quota d' = .ok ⟨t.forests, t.jumps ++ je, t.hashes ++ he⟩ := by
  have hstart : ∀ {x : DonutForest.Folder}, x.level 0 ≠ none → mapLevels x 65 0 false = mapLevels x 65 0 true := by
    intro x hx
    have : hexLevel x 0 = x.level 0 := by unfold hexLevel; rw [if_pos (by omega)]
    rw [mapLevels_start (by rw [this]; exact hx), mapLevels_found]
  have h0' : d'.level 0 ≠ none := by
    match hq : d.level 0 with
    | none => exact absurd hq h0
    | some b =>
      obtain ⟨e, he⟩ := hl 0 b hq
      rw [he]; simp
  unfold openTier at ht ⊢
  rw [hstart h0] at ht
  rw [hstart h0']
  split at ht
  · cases ht
  next maps hmaps =>
  obtain ⟨maps', m1, m2⟩ := mapLevels_more hl hne 65 0 (by omega) hmaps
  rw [m1]
  dsimp only
  split at ht
  · cases ht
  · cases ht
  next j js hjs =>
  rw [hj, hjs]
  simp only [Option.map_some, List.cons_append]
  split at ht
  · cases ht
  next bytes hbytes =>
  rw [hi, hbytes]
  dsimp only
  split at ht
  · cases ht
  · cases ht
  next fs hfs =>
  rw [readInfo_more m2 (by intro hc; rw [hc] at hbytes; exact hb hbytes) hfs]
  dsimp only
  split at ht
  · cases ht
  next hashes hhs =>
  injection ht with ht
  subst ht
  rw [hh, hhs]
  rfl

/-! ## Looking up -/

theorem readAt_more {b e : Bytes} {i n : Nat} {x : Bytes} (h : readAt b i n = some x) : readAt (b ++ e) i n = some x := by
  unfold readAt at h ⊢
  split at h
  · next hc =>
    rw [if_pos (by rw [List.length_append]; omega), ← h]
    congr 1
    rw [List.drop_append_of_le_length (by omega), List.take_append_of_le_length (by rw [List.length_drop]; omega)]
  · cases h

theorem tryForests_more {c : Config} {pre : Nat} {jumps je : Bytes} {h : Bytes} : ∀ (fs : List (Int × List Level)) (k : Nat)
    {r : Option Int}, tryForests c pre jumps h k fs = some r → tryForests c pre (jumps ++ je) h k fs = some r
  | [], _, _, hr => hr
  | f :: fs, k, r, hr => by
    rw [tryForests] at hr ⊢
    have hone : ∀ {x}, tryForest c pre jumps k f h = some x → tryForest c pre (jumps ++ je) k f h = some x := by
      intro x hx
      unfold tryForest at hx ⊢
      split at hx
      · cases hx
      · next bs hb => rw [readAt_more hb]; exact hx
    split at hr
    · cases hr
    · next g hg => rw [hone hg]; exact hr
    · next hg => rw [hone hg]; exact tryForests_more fs (k + 1) hr

theorem openBelows_congr {disk disk' : Disk} : ∀ (cfgs : List TierConfig) (i : Nat), (∀ j, i ≤ j → disk' j = disk j) →
    openBelows disk' i cfgs = openBelows disk i cfgs
  | [], _, _ => rfl
  | cfg :: cfgs, i, h => by
    rw [openBelows, openBelows, h i (Nat.le_refl _), openBelows_congr cfgs (i + 1) fun j hj => h j (by omega)]

theorem mapLevels_empty_file {d : DonutForest.Folder} : ∀ (k n j : Nat) (found : Bool), n ≤ j → j < n + k →
    (∀ i, n ≤ i → i < j → hexLevel d i ≠ none) → hexLevel d j = some [] → mapLevels d k n found = none
  | 0, n, j, _, h1, h2, _, _ => by omega
  | k + 1, n, j, found, h1, h2, h3, h4 => by
    rw [mapLevels]
    by_cases hnj : n = j
    · subst hnj
      rw [h4]
    · split
      · next hx => exact absurd hx (h3 n (Nat.le_refl _) (by omega))
      · rfl
      · rw [mapLevels_empty_file k (n + 1) j true (by omega) (by omega) (fun i hi hj => h3 i (by omega) hj) h4]
        rfl

end Verif.Cake
