import Verif.Lemmas.DonutForest
import Verif.Props.ChunkFiles

/-!
# The files of a tier
-/

namespace Verif.DonutForest

open Verif.ShallowTree Verif.Chunk Verif.SingleTree

/-! ## Writing -/

/-- Forests added one after the other, each with its hashes. -/
def addAll (d : Folder) (fs : List (Forest × List Bytes)) : Folder := fs.foldl (fun d f => addForest d f.1 f.2) d

/-- The forests as chunks. -/
def chunks (c : Config) (fs : List (Forest × List Bytes)) : List Chunk := fs.map fun f => asChunk c f.1

theorem infoOf_eq (c : Config) {f : Forest} (h : Neat f) : infoOf f = infoBytes (asChunk c f) := by
  unfold infoOf infoBytes asChunk
  rw [h.sizes]
  dsimp only
  rw [List.length_map, List.flatMap_map]
  rfl

theorem addAll_ok (c : Config) : ∀ (fs done : List (Forest × List Bytes)), (∀ f ∈ fs, Neat f.1) → done ≠ [] →
    ∀ d : Folder, d.level = levelFile (chunks c done) → d.jumps = some (done.flatMap (·.1.jumps)) →
      d.info = some ((chunks c done).flatMap infoBytes) → d.hashes = some (done.flatMap (·.2)) →
      (addAll d fs).level = levelFile (chunks c (done ++ fs)) ∧
      (addAll d fs).jumps = some ((done ++ fs).flatMap (·.1.jumps)) ∧
      (addAll d fs).info = some ((chunks c (done ++ fs)).flatMap infoBytes) ∧
      (addAll d fs).hashes = some ((done ++ fs).flatMap (·.2)) := by
  intro fs
  induction fs with
  | nil => intro done _ _ d h1 h2 h3 h4; simpa using ⟨h1, h2, h3, h4⟩
  | cons f fs ih =>
    intro done hn hne d h1 h2 h3 h4
    have := ih (done ++ [f]) (fun g hg => hn g (by simp [hg])) (by simp) (addForest d f.1 f.2)
      (by
        unfold addForest
        dsimp only
        rw [h1, show f.1.levels = (asChunk c f.1).levels from rfl, levelFile_append]
        simp [chunks])
      (by simp [addForest, h2])
      (by simp [addForest, h3, infoOf_eq c (hn f (by simp)), chunks])
      (by simp [addForest, h4])
    simpa [addAll] using this

theorem addAll_empty (c : Config) {fs : List (Forest × List Bytes)} (hne : fs ≠ []) (hn : ∀ f ∈ fs, Neat f.1) :
    (addAll noFolder fs).level = levelFile (chunks c fs) ∧ (addAll noFolder fs).jumps = some (fs.flatMap (·.1.jumps)) ∧
    (addAll noFolder fs).info = some ((chunks c fs).flatMap infoBytes) ∧ (addAll noFolder fs).hashes = some (fs.flatMap (·.2)) := by
  match fs with
  | [] => exact absurd rfl hne
  | f :: fs =>
    have h0 : noFolder.level = levelFile (chunks c []) := by
      funext n
      simp [noFolder, levelFile, chunks]
    have := addAll_ok c fs [f] (fun g hg => hn g (by simp [hg])) (by simp) (addForest noFolder f.1 f.2)
      (by
        unfold addForest
        dsimp only
        rw [h0, show f.1.levels = (asChunk c f.1).levels from rfl, levelFile_append]
        simp [chunks])
      (by simp [addForest, noFolder])
      (by simp [addForest, noFolder, infoOf_eq c (hn f (by simp)), chunks])
      (by simp [addForest, noFolder])
    simpa [addAll] using this

/-! ## Opening -/

theorem mapLevels_found (d : Folder) : ∀ (k n : Nat), mapLevels d k n true = mapFrom (hexLevel d) k n := by
  intro k
  induction k with
  | zero => intro n; rfl
  | succ k ih =>
    intro n
    rw [mapLevels, mapFrom]
    match hexLevel d n with
    | none => rfl
    | some [] => rfl
    | some (b :: bs) => simp [ih]

theorem mapLevels_start {d : Folder} (h : hexLevel d 0 ≠ none) (k : Nat) : mapLevels d k 0 false = mapFrom (hexLevel d) k 0 := by
  match k with
  | 0 => rfl
  | k + 1 =>
    rw [mapLevels, mapFrom]
    match hd : hexLevel d 0 with
    | none => exact absurd hd h
    | some [] => rfl
    | some (b :: bs) => simp [mapLevels_found]

theorem mapFrom_stop {f : Nat → Option Bytes} : ∀ (k n m : Nat), n ≤ m → m ≤ n + k → (∀ i, f i ≠ some []) → f m = none →
    (∀ i, n ≤ i → i < m → f i = none → f (i + 1) = none) →
    ∃ maps, mapFrom f k n = some maps ∧ ∀ i, maps[i]? = if n + i < m then f (n + i) else none := by
  intro k
  induction k with
  | zero =>
    intro n m h1 h2 _ _ _
    exact ⟨[], rfl, fun i => by rw [if_neg (by omega)]; rfl⟩
  | succ k ih =>
    intro n m h1 h2 hne hm hstop
    rw [mapFrom]
    match hf : f n with
    | none =>
      refine ⟨[], rfl, fun i => ?_⟩
      have hall : ∀ j, n + j < m → f (n + j) = none := by
        intro j
        induction j with
        | zero => intro _; exact hf
        | succ j ihj => intro hj; exact hstop (n + j) (by omega) (by omega) (ihj (by omega))
      split
      · next hlt => rw [hall i hlt]; rfl
      · rfl
    | some [] => exact absurd hf (hne n)
    | some (b :: bs) =>
      have hnm : n ≠ m := by rintro rfl; rw [hm] at hf; cases hf
      obtain ⟨maps, e1, e2⟩ := ih (n + 1) m (by omega) (by omega) hne hm (fun i h h' => hstop i (by omega) h')
      refine ⟨(b :: bs) :: maps, by simp [e1], ?_⟩
      intro i
      match i with
      | 0 => rw [if_pos (by omega), List.getElem?_cons_zero]; exact hf.symm
      | i + 1 => rw [List.getElem?_cons_succ, e2, show n + 1 + i = n + (i + 1) by omega]

theorem readForests_eq {quota : Nat} {maps : List Bytes} {cs : List Chunk}
    (hmaps : ∀ i : Nat, maps[i]? = if i < 10 then levelFile cs i else none)
    (hsize : ∀ n, (column cs n).length < 2 ^ 64)
    (hfirst : ∀ ch ∈ cs, -2 ^ 63 ≤ ch.first ∧ ch.first < 2 ^ 63) (hlev : ∀ ch ∈ cs, ch.levels.length ≤ 255) :
    ∀ (todo done : List Chunk) (fuel : Nat) (acc : Nat → Nat) (k : Nat), done ++ todo = cs →
      (∀ n, acc n = (column done n).length) → todo.length ≤ fuel →
      readForests quota maps fuel (todo.flatMap infoBytes) acc k =
        if (∀ ch ∈ todo, ch.levels.length ≤ 10) ∧ (todo = [] ∨ k + todo.length ≤ quota) then
          .ok (todo.map fun ch => (ch.first, ch.levels)) else .panic := by
  have hshort : maps.length ≤ 10 := by
    by_cases h : maps.length ≤ 10
    · exact h
    · have := hmaps 10
      rw [if_neg (by omega), List.getElem?_eq_getElem (by omega)] at this
      cases this
  intro todo
  induction todo with
  | nil => intro done fuel acc k _ _ _; simp [readForests]
  | cons ch todo ih =>
    intro done fuel acc k hcs hacc hfuel
    match fuel with
    | 0 => simp at hfuel
    | fuel + 1 =>
      have hmem : ch ∈ cs := by rw [← hcs]; simp
      have hl := hlev ch hmem
      have hcat : (ch :: todo).flatMap infoBytes = leEnc 8 (toU64 ch.first) ++
          (UInt8.ofNat ch.levels.length :: (ch.levels.flatMap lengthBytes ++ todo.flatMap infoBytes)) := by
        simp [infoBytes]
      have hlen8 : (leEnc 8 (toU64 ch.first)).length = 8 := by simp
      have hd : ((ch :: todo).flatMap infoBytes).drop 8 =
          UInt8.ofNat ch.levels.length :: (ch.levels.flatMap lengthBytes ++ todo.flatMap infoBytes) := by
        rw [hcat, List.drop_append_of_le_length (by omega), List.drop_of_length_le (by omega), List.nil_append]
      have ht : ((ch :: todo).flatMap infoBytes).take 8 = leEnc 8 (toU64 ch.first) := by
        rw [hcat, List.take_append_of_le_length (by omega), List.take_of_length_le (by omega)]
      have hbig : ¬ ((ch :: todo).flatMap infoBytes).length < 8 := by rw [hcat]; simp
      have hnat : (UInt8.ofNat ch.levels.length).toNat = ch.levels.length := by
        rw [UInt8.toNat_ofNat']; omega
      have hfirst' : ofU64 (leDec (leEnc 8 (toU64 ch.first))) = ch.first := by
        rw [leDec_leEnc_of_lt (by have := toU64_lt ch.first; omega)]
        exact ofU64_toU64 (hfirst ch hmem).1 (hfirst ch hmem).2
      match hrest : (ch :: todo).flatMap infoBytes with
      | [] => rw [hrest] at hbig; simp at hbig
      | b :: bs =>
        rw [readForests]
        by_cases hq : k ≥ quota
        · rw [if_pos hq, if_neg]
          rintro ⟨-, h | h⟩
          · simp at h
          · simp at h
            omega
        rw [if_neg hq, ← hrest, if_neg hbig, hd]
        dsimp only
        rw [hnat]
        by_cases h10 : ch.levels.length ≤ 10
        · have hpieces : ∀ (i : Nat) (lv : Level), ch.levels[i]? = some lv → ∃ a b : Bytes,
              maps[0 + i]? = some (a ++ (lv.index ++ lv.nodes) ++ b) ∧ acc (0 + i) = a.length ∧
              (a ++ (lv.index ++ lv.nodes) ++ b).length < 2 ^ 64 := by
            intro i lv hi
            have hi10 : i < 10 := by
              have := (List.getElem?_eq_some_iff.1 hi).1
              omega
            have hcol : column cs i = column done i ++ (lv.index ++ lv.nodes) ++ column todo i := by
              have h1 : column [ch] i = lv.index ++ lv.nodes := by
                unfold column
                rw [List.flatMap_cons, List.flatMap_nil, List.append_nil, hi]
              rw [← hcs, show done ++ ch :: todo = done ++ ([ch] ++ todo) from rfl, column_append, column_append, h1]
              simp only [List.append_assoc]
            refine ⟨column done i, column todo i, ?_, ?_, ?_⟩
            · rw [Nat.zero_add, hmaps i, if_pos hi10]
              unfold levelFile
              rw [if_pos, hcol]
              exact List.any_eq_true.2 ⟨ch, hmem, by simpa using (List.getElem?_eq_some_iff.1 hi).1⟩
            · rw [Nat.zero_add]; exact hacc i
            · rw [← hcol]; exact hsize i
          have hmapslen : ¬ maps.length < ch.levels.length := by
            intro hlt
            obtain ⟨a, b, h1, -⟩ := hpieces maps.length _ (List.getElem?_eq_getElem hlt)
            rw [Nat.zero_add] at h1
            simp at h1
          rw [if_neg hmapslen, readLevels_ok ch.levels 0 _ acc hpieces]
          dsimp only
          rw [ht, hfirst', ih (done ++ [ch]) fuel _ (k + 1) (by simpa using hcs) (by
            intro n
            rw [column_append, List.length_append, column_cons_length, hacc n]) (by simpa using hfuel)]
          by_cases hcond : (∀ ch ∈ todo, ch.levels.length ≤ 10) ∧ (todo = [] ∨ k + 1 + todo.length ≤ quota)
          · rw [if_pos hcond, if_pos]
            · rfl
            · refine ⟨?_, .inr ?_⟩
              · intro x hx
                rcases List.mem_cons.1 hx with rfl | hx
                · exact h10
                · exact hcond.1 x hx
              · rcases hcond.2 with rfl | h
                · simp; omega
                · simp; omega
          · rw [if_neg hcond, if_neg]
            rintro ⟨g1, g2⟩
            refine hcond ⟨fun x hx => g1 x (by simp [hx]), ?_⟩
            rcases g2 with g2 | g2
            · cases g2
            · right
              simp at g2
              omega
        · rw [if_pos (by omega), if_neg]
          rintro ⟨h, -⟩
          exact h10 (h ch (by simp))

/-- What becomes of opening a tier of forests: it works exactly if none has more than ten levels, and there are no more
than allowed. -/
theorem openTier_eq {quota : Nat} {fs : List (Forest × List Bytes)} (hne : fs ≠ []) (hn : ∀ f ∈ fs, Neat f.1)
    (hj : ∀ f ∈ fs, f.1.jumps ≠ []) (hcount : fs.length ≤ 2 ^ 19) :
    openTier quota (addAll noFolder fs) =
      if (∀ f ∈ fs, f.1.levels.length ≤ 10) ∧ fs.length ≤ quota then
        .ok ⟨fs.map fun f => (f.1.first, f.1.levels), fs.flatMap (·.1.jumps), fs.flatMap (·.2)⟩ else .panic := by
  let c : Config := ⟨0, 0, 0, 0, 0, true⟩
  obtain ⟨h1, h2, h3, h4⟩ := addAll_empty c hne hn
  have hlev : ∀ ch ∈ chunks c fs, Neat ⟨ch.first, ch.levels, ch.levels.map fun lv => (lv.index.length, lv.nodes.length), []⟩ := by
    intro ch hch
    obtain ⟨f, hf, rfl⟩ := List.mem_map.1 hch
    have := hn f hf
    exact ⟨this.nonempty, this.few, rfl, this.level, this.first⟩
  have hcs : chunks c fs ≠ [] := by simpa [chunks] using hne
  have h00 : levelFile (chunks c fs) 0 ≠ none := by
    intro h
    obtain ⟨ch, hch⟩ := List.exists_mem_of_ne_nil _ hcs
    have h5 := levelFile_none h ch hch
    exact (hlev ch hch).nonempty (List.length_eq_zero_iff.1 (by dsimp only; omega))
  have hnem : ∀ n, levelFile (chunks c fs) n ≠ some [] := by
    intro n h
    unfold levelFile at h
    split at h
    · next ha =>
      injection h with h
      obtain ⟨ch, b1, b2⟩ := List.any_eq_true.1 ha
      have hlt : n < ch.levels.length := by simpa using b2
      unfold column at h
      rw [List.flatMap_eq_nil_iff] at h
      have := h ch b1
      rw [List.getElem?_eq_getElem hlt] at this
      dsimp only at this
      exact ((hlev ch b1).level _ (List.getElem_mem hlt)).1 (List.append_eq_nil_iff.1 this).1
    · cases h
  have hhex : ∀ n, n < 10 → hexLevel (addAll noFolder fs) n = levelFile (chunks c fs) n := by
    intro n hnn
    unfold hexLevel
    rw [if_pos (by omega), h1]
    congr 1
    omega
  have hexne : ∀ n, hexLevel (addAll noFolder fs) n ≠ some [] := by
    intro n
    unfold hexLevel
    split
    · rw [h1]; exact hnem _
    · simp
  obtain ⟨maps, m1, m2⟩ := mapFrom_stop (f := hexLevel (addAll noFolder fs)) 65 0 10 (by omega) (by omega) hexne
    (by unfold hexLevel; rw [if_neg (by omega)])
    (by
      intro i _ hi hnone
      by_cases h9 : i = 9
      · subst h9
        unfold hexLevel
        rw [if_neg (by omega)]
      · rw [hhex i hi] at hnone
        rw [hhex (i + 1) (by omega)]
        exact levelFile_none_of fun ch hch => by
          have := levelFile_none hnone ch hch
          omega)
  have m2' : ∀ i : Nat, maps[i]? = if i < 10 then levelFile (chunks c fs) i else none := by
    intro i
    rw [m2, Nat.zero_add]
    by_cases hi : i < 10
    · rw [if_pos hi, if_pos hi, hhex i hi]
    · rw [if_neg hi, if_neg hi]
  have hcol : ∀ n, (column (chunks c fs) n).length < 2 ^ 64 := by
    intro n
    have hb : ∀ cs : List Chunk, (∀ ch ∈ cs, Neat ⟨ch.first, ch.levels, ch.levels.map fun lv => (lv.index.length, lv.nodes.length), []⟩) →
        (column cs n).length ≤ cs.length * 2 ^ 44 := by
      intro cs
      induction cs with
      | nil => intro _; simp [column]
      | cons ch cs ih =>
        intro h
        have h' := ih fun x hx => h x (by simp [hx])
        have hx : (column [ch] n).length ≤ 2 ^ 44 := by
          rw [column_cons_length]
          unfold sizeAt
          rw [if_pos (by omega), Nat.sub_zero]
          split
          · next lv hlv =>
            have h9 := ((h ch (by simp)).level lv (List.mem_of_getElem? hlv)).2
            exact Nat.le_of_lt h9
          · omega
        rw [show ch :: cs = [ch] ++ cs from rfl, column_append, List.length_append]
        simp only [List.length_append, List.length_singleton]
        omega
    have := hb _ hlev
    have : (chunks c fs).length ≤ 2 ^ 19 := by simpa [chunks] using hcount
    omega
  have hpos : (chunks c fs).length ≤ ((chunks c fs).flatMap infoBytes).length := by
    have : ∀ cs : List Chunk, cs.length ≤ (cs.flatMap infoBytes).length := by
      intro cs
      induction cs with
      | nil => simp
      | cons ch cs ih =>
        have : 1 ≤ (infoBytes ch).length := by simp only [infoBytes, List.length_append, leEnc_length]; omega
        rw [List.flatMap_cons, List.length_append, List.length_cons]
        omega
    exact this _
  have hread := readForests_eq (quota := quota) m2' hcol
    (fun ch hch => by have := (hlev ch hch).first; dsimp only at this; omega)
    (fun ch hch => by have := (hlev ch hch).few; dsimp only at this; omega) (chunks c fs) []
    _ (fun _ => 0) 0 rfl (fun n => rfl) hpos
  have hjne : fs.flatMap (·.1.jumps) ≠ [] := by
    intro h
    obtain ⟨f, hf⟩ := List.exists_mem_of_ne_nil _ hne
    exact hj f hf (List.flatMap_eq_nil_iff.1 h f hf)
  have hlen : (chunks c fs).length ≠ 0 := fun h => hcs (List.length_eq_zero_iff.1 h)
  unfold openTier
  rw [mapLevels_start (by rw [hhex 0 (by omega)]; exact h00), m1]
  dsimp only
  rw [h2]
  obtain ⟨j, js, hjj⟩ := List.exists_cons_of_ne_nil hjne
  rw [hjj]
  dsimp only
  rw [h3]
  dsimp only
  unfold readInfo
  rw [if_neg (by omega), hread, h4]
  have hiff : ((∀ ch ∈ chunks c fs, ch.levels.length ≤ 10) ∧ (chunks c fs = [] ∨ 0 + (chunks c fs).length ≤ quota)) ↔
      ((∀ f ∈ fs, f.1.levels.length ≤ 10) ∧ fs.length ≤ quota) := by
    have e1 : (chunks c fs).length = fs.length := by simp [chunks]
    rw [e1, Nat.zero_add]
    constructor
    · rintro ⟨g1, g2 | g2⟩
      · exact absurd g2 hcs
      · exact ⟨fun f hf => g1 _ (List.mem_map.2 ⟨f, hf, rfl⟩), g2⟩
    · rintro ⟨g1, g2⟩
      refine ⟨?_, .inr g2⟩
      intro ch hch
      obtain ⟨f, hf, rfl⟩ := List.mem_map.1 hch
      exact g1 f hf
  by_cases hcond : (∀ f ∈ fs, f.1.levels.length ≤ 10) ∧ fs.length ≤ quota
  · rw [if_pos hcond, if_pos (hiff.2 hcond)]
    dsimp only
    have : (chunks c fs).map (fun ch => (ch.first, ch.levels)) = fs.map fun f => (f.1.first, f.1.levels) := by
      simp [chunks, asChunk]
    rw [this]
  · rw [if_neg hcond, if_neg (fun h => hcond (hiff.1 h))]

end Verif.DonutForest
