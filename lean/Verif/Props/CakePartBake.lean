import Verif.Lemmas.CakePartBake
import Verif.Props.CakeCascade
import Verif.Props.CakeFiles

/-!
# A cake killed while it bakes a batch that is not the first

The bytes which the forest has got on the levels and in the jump table are not described anywhere yet.
-/

namespace Verif.Cake

open Verif.ShallowTree Verif.Chunk Verif.SingleTree Verif.DonutForest Verif.TierTop

/-- The files of a killed cake: what has reached the top tier's file, and the first tier as it is. -/
def leftFiles (k : Cake) (file : List Bytes) (d : DonutForest.Folder) : Files := ⟨some file, some k.top.first, setFolder k.disk 0 d⟩

theorem setFolder_self (disk : Disk) : setFolder disk 0 (disk 0) = disk := by
  funext i
  unfold setFolder
  split
  · next h => rw [h]
  · rfl

/-- **C95: partial.** Killed while a batch is baked that is not the first in its tier, before the forest has been described, and
not while the file of a new level is empty: the cake opens, and every question that would be answered if the bake had not
been begun is answered in the same way. But if all hashes of the top tier had reached the disk no hash can ever be appended
to it again. Missing: that it goes on (`killed_bake_spoils_the_next`), and the empty files (`killed_at_new_level`). -/
theorem killed_in_later_bake_partial {ent : List Entry → Nat → Nat} {s : Settings} (hcap : 0 < s.cap) {ops : List Op}
    (hl : (appended ops).length < 2 ^ 63) {k0 k : Cake} {given : List Int} (h0 : newCake s = .ok k0)
    (hr : run ent s k0 ops = .ok (k, given)) {h : Bytes} {m : Nat} {file : List Bytes} (hf : file = (k.top.file ++ [h]).take m)
    {forest : Forest} {d : DonutForest.Folder} (hd : PartBake (k.disk 0) forest file d) (hlater : (k.disk 0).level 0 ≠ none)
    (hne : ∀ n, n < 65 → d.level n ≠ some []) {kr : Cake} (ho : (leftFiles k file (k.disk 0)).openCake s = .ok kr) :
    ∃ kk, (leftFiles k file d).openCake s = .ok kk ∧ (∀ q g, indexOfHash kr q = some g → indexOfHash kk q = some g) ∧
      (∀ mem g a, getHashAtIndex mem kr g = some a → getHashAtIndex mem kk g = some a) ∧
      (s.cap ≤ file.length → ∀ mem c, append ent s mem kk c = .panic) := by
  have hk := (run_kept ops k0 [] (kept_new hcap h0).1 (by simpa using hl) hr).1
  rw [List.nil_append] at hk
  dsimp only at hk
  obtain ⟨⟨below, e1, e2, -, e4, -⟩, -, -, -⟩ := hk
  have hbl : below.length < 2 ^ 63 := by rw [e1, List.length_append] at hl; omega
  unfold Files.openCake leftFiles Verif.Cake.openCake at ho
  dsimp only at ho
  rw [setFolder_self] at ho
  unfold Files.openCake leftFiles Verif.Cake.openCake
  dsimp only
  split at ho
  · cases ho
  next top htop =>
  have htf : top.first = k.top.first ∧ top.cells.length = file.length := by
    unfold openTop at htop
    split at htop
    · cases htop
    · injection htop with htop
      rw [← htop]
      exact ⟨rfl, List.length_map _⟩
  have hpanic : ∀ (disk : Disk) (bs : List Below), s.cap ≤ file.length → ∀ mem c, append ent s mem ⟨top, disk, bs⟩ c = .panic := by
    intro disk bs hfull mem c
    unfold append
    dsimp only
    rw [htf.2, if_pos hfull]
  match hts : s.tiers with
  | [] =>
    rw [hts] at ho
    rw [openBelows] at ho ⊢
    injection ho with ho
    subst ho
    exact ⟨_, rfl, fun _ _ h => h, fun _ _ _ h => h, hpanic _ _⟩
  | cfg :: cfgs =>
    rw [hts] at ho e4
    obtain ⟨deep, own, f1, -, f3⟩ := e4
    have hnot : ¬ k.disk 0 = noFolder := by
      intro hc
      rw [hc] at hlater
      exact hlater rfl
    rcases f3 with ⟨hc, -⟩ | ⟨f3, rest, f4⟩
    · exact absurd hc hnot
    have hhold : Holds (k.disk 0) deep.length own := .inr ⟨f3, rest, f4⟩
    rw [openBelows] at ho ⊢
    obtain ⟨hp, hp1, hp2⟩ := hd.hashes
    obtain ⟨jp, -, jp2⟩ := hd.jumps
    have hd0 : setFolder k.disk 0 d 0 = d := by unfold setFolder; rw [if_pos rfl]
    rw [openBelows_congr (disk := k.disk) cfgs (0 + 1) fun j hj => by unfold setFolder; rw [if_neg (by omega)], hd0, hp2]
    rw [f3] at ho
    dsimp only at ho ⊢
    split at ho
    · next bs0 ho' =>
      split at ho'
      · cases ho'
      · cases ho'
      next t ht =>
      have hjs : ∃ j, (k.disk 0).jumps = some j := by
        unfold openTier at ht
        split at ht
        · cases ht
        split at ht
        · cases ht
        · cases ht
        · next hj => exact ⟨_, hj⟩
      obtain ⟨j, hj⟩ := hjs
      have ht' := openTier_more (d' := d) (je := jp) (he := hp) hlater (by
          intro n b hb
          rcases hd.levels n with hx | ⟨-, p, -, hx⟩
          · exact ⟨[], by rw [hx, hb, List.append_nil]⟩
          · exact ⟨p, by rw [hx, hb]; rfl⟩) hne (by rw [hd.info, f4]; rfl) (by rw [jp2, hj]; rfl) (by rw [hp2, f3]; rfl)
        (by
          rw [f4]
          intro hc
          injection hc with hc
          have := congrArg List.length hc
          rw [List.length_append, leEnc_length] at this
          simp at this) ht
      rw [ht']
      dsimp only
      split at ho'
      · next bs hbs =>
        injection ho' with ho'
        subst ho'
        injection ho with ho
        subst ho
        obtain ⟨g1, f, fs, g2, g3⟩ := opened_holds hhold ht (by rw [f1, List.length_append] at hbl; omega)
        refine ⟨_, rfl, ?_, ?_, hpanic _ _⟩
        · intro q g hq
          unfold indexOfHash at hq ⊢
          dsimp only at hq ⊢
          split at hq
          · cases hq
          · exact hq
          next htop' =>
          rw [searchBelow] at hq ⊢
          have hb : ∀ {r}, belowIndexOf (openedBelow 0 cfg t) q = some r →
              belowIndexOf (openedBelow 0 cfg ⟨t.forests, t.jumps ++ jp, t.hashes ++ hp⟩) q = some r := by
            intro r hr
            unfold belowIndexOf openedBelow at hr ⊢
            dsimp only at hr ⊢
            split at hr
            · cases hr
            next h8 =>
            rw [if_neg h8]
            rw [g2] at hr ⊢
            dsimp only at hr ⊢
            unfold DonutForest.tryIndexOfHash at hr ⊢
            rw [if_neg h8] at hr ⊢
            exact tryForests_more _ _ hr
          cases hx : belowIndexOf (openedBelow 0 cfg t) q with
          | none => rw [hx] at hq; cases hq
          | some r => rw [hb hx]; rw [hx] at hq; exact hq
        · intro mem g a hq
          unfold getHashAtIndex at hq ⊢
          dsimp only at hq ⊢
          split at hq
          · cases hq
          · exact hq
          next htop' =>
          rw [hashBelow] at hq ⊢
          have hout : ¬ ((below.length : Int) ≤ g ∧ g < below.length + file.length) := by
            intro hc
            unfold TierTop.tryGetHashAtIndex at htop'
            rw [if_neg (by
              unfold withinRange
              rw [htf.1, htf.2, e2]
              simp
              omega)] at htop'
            dsimp only at htop'
            split at htop'
            · cases htop'
            · split at htop' <;> cases htop'
          have hplen := hp1.length_le
          have hb : belowHashAt (openedBelow 0 cfg ⟨t.forests, t.jumps ++ jp, t.hashes ++ hp⟩) g = belowHashAt (openedBelow 0 cfg t) g := by
            unfold belowHashAt openedBelow
            dsimp only
            rw [g2, g1]
            dsimp only
            unfold DonutForest.tryGetHashAtIndex
            dsimp only
            rw [g3]
            rw [f1, List.length_append] at hout
            by_cases hin : g ≥ deep.length ∧ g < deep.length + own.length
            · rw [if_pos hin, if_pos ⟨hin.1, by rw [List.length_append]; omega⟩, List.getElem?_append_left (by omega)]
            · rw [if_neg hin, if_neg (by rw [List.length_append]; omega)]
          rw [hb]
          exact hq
      · cases ho'
      · cases ho'
    · cases ho
    · cases ho

/-- **C95: violated.** Killed when the file of a new level has been made and nothing has been written to it, the cake cannot be
opened. -/
theorem killed_at_new_level {s : Settings} {k : Cake} {file : List Bytes} (hfile : file.length ≤ 65535) (hts : s.tiers ≠ []) {forest : Forest}
    {d : DonutForest.Folder} (hd : PartBake (k.disk 0) forest file d) {n : Nat} (hn : n < 10) (he : d.level n = some [])
    (hbelow : ∀ i, i < n → (k.disk 0).level i ≠ none) :
    (leftFiles k file d).exist = true ∧ (leftFiles k file d).openCake s = .error := by
  refine ⟨rfl, ?_⟩
  unfold Files.openCake leftFiles Verif.Cake.openCake openTop
  dsimp only
  rw [if_neg (by omega)]
  dsimp only
  match hq : s.tiers with
  | [] => exact absurd hq hts
  | cfg :: cfgs =>
    rw [openBelows]
    have hd0 : setFolder k.disk 0 d 0 = d := by unfold setFolder; rw [if_pos rfl]
    obtain ⟨hp, -, hp2⟩ := hd.hashes
    rw [hd0, hp2]
    dsimp only
    have hhex : ∀ i, i < 10 → hexLevel d i = d.level i := by
      intro i hi
      unfold hexLevel
      rw [if_pos (by omega)]
      congr 1
      omega
    have : openTier cfg.quota d = .error := by
      unfold openTier
      rw [mapLevels_empty_file 65 0 n false (by omega) (by omega) (by
        intro i _ hi
        rw [hhex i (by omega)]
        rcases hd.levels i with hx | ⟨-, p, -, hx⟩
        · rw [hx]; exact hbelow i hi
        · rw [hx]; simp) (by rw [hhex n hn]; exact he)]
    rw [this]

/-- The moments between the opening of the files and the description are among those which the theorems are about. -/
theorem moments_are_part_bakes (k : Cake) (h : Bytes) (forest : Forest) (m : Nat) :
    (∃ d, PartBake (k.disk 0) forest ((k.top.file ++ [h]).take m) d ∧
      filesAt k h forest (.opened m) = leftFiles k ((k.top.file ++ [h]).take m) d) ∧
    (∃ d, PartBake (k.disk 0) forest ((k.top.file ++ [h]).take m) d ∧
      filesAt k h forest (.levels m) = leftFiles k ((k.top.file ++ [h]).take m) d) ∧
    (∃ d, PartBake (k.disk 0) forest ((k.top.file ++ [h]).take m) d ∧
      filesAt k h forest (.jumps m) = leftFiles k ((k.top.file ++ [h]).take m) d) ∧
    ∃ d, PartBake (k.disk 0) forest (k.top.file ++ [h]) d ∧ filesAt k h forest .copied = leftFiles k (k.top.file ++ [h]) d := by
  have hlv : ∀ n, appendLevels 0 forest.levels (k.disk 0).level n = (k.disk 0).level n ∨ (n < forest.levels.length ∧
      ∃ p, p <+: levelBytes forest n ∧ appendLevels 0 forest.levels (k.disk 0).level n = some (((k.disk 0).level n).getD [] ++ p)) := by
    intro n
    rw [appendLevels_eq]
    unfold levelBytes
    rw [if_pos (Nat.zero_le n), Nat.sub_zero]
    cases hx : forest.levels[n]? with
    | none => exact .inl rfl
    | some lv =>
      refine .inr ⟨(List.getElem?_eq_some_iff.mp hx).1, lv.index ++ lv.nodes, List.prefix_refl _, ?_⟩
      simp
  refine ⟨⟨openedFolder (k.disk 0), ⟨fun n => .inl rfl, ⟨[], List.nil_prefix, ?_⟩, rfl, ⟨[], List.nil_prefix, ?_⟩⟩, rfl⟩,
    ⟨_, ⟨hlv, ⟨[], List.nil_prefix, ?_⟩, rfl, ⟨[], List.nil_prefix, ?_⟩⟩, rfl⟩,
    ⟨_, ⟨hlv, ⟨_, List.prefix_refl _, rfl⟩, rfl, ⟨[], List.nil_prefix, ?_⟩⟩, rfl⟩,
    ⟨_, ⟨hlv, ⟨_, List.prefix_refl _, rfl⟩, rfl, ⟨_, List.prefix_refl _, rfl⟩⟩, rfl⟩⟩ <;>
  simp [openedFolder]

/-- What is seen of a cake that is killed in an append of `h` after `ops`, opened and used again: the indices given before,
the answers about `qs` when it is opened, the indices given afterwards and the answers then. -/
def seenKilled (s : Settings) (ops : List Op) (h : Bytes) (p : Moment) (more : List Op) (qs : List Bytes) :
    Option (List Int × List (Option Int) × List Int × List (Option Int)) :=
  match newCake s with
  | .ok k0 =>
    match run demoEnt s k0 ops with
    | .ok (k, given) =>
      match killedBaking demoEnt s k h p with
      | some fs =>
        match fs.openCake s with
        | .ok kk =>
          match run demoEnt s kk more with
          | .ok (k2, given2) => some (given, qs.map (indexOfHash kk), given2, qs.map (indexOfHash k2))
          | _ => none
        | _ => none
      | none => none
    | _ => none
  | _ => none

/-- **C95: violated.** A cake for two hashes at a time has got three. It is killed in the append of the fourth, when the
forest's bytes are in the files, the third hash has reached the top tier's file and the fourth has not. It opens and answers
for three hashes. Another hash is appended and gets the index 3. From then on the cake says of the fourth hash, which it had
said it did not have, that it is at index 3, and to ask for the appended hash is a panic. -/
theorem killed_bake_spoils_the_next :
    seenKilled demoSettings (demoOps.take 3) (demoH 4) (.jumps 1) [.append (demoH 5)] [demoH 1, demoH 2, demoH 3, demoH 4, demoH 5] =
      some ([0, 1, 2], [some 0, some 1, some 2, some (-1), some (-1)], [3], [some 0, some 1, some 2, some 3, none]) := by
  decide +kernel

/-- Three hashes in a cake for two at a time, and the files at the moment `p` of the append of the fourth: the conditions of
`killed_in_later_bake_partial`. -/
def demoCheck (p : Moment) : Bool :=
  match newCake demoSettings with
  | .ok k0 =>
    match run demoEnt demoSettings k0 (demoOps.take 3) with
    | .ok (k, _) =>
      match forestOf demoEnt demoSettings k (demoH 4) with
      | some f =>
        ((k.disk 0).level 0).isSome && ((List.range 65).all fun n => !(((filesAt k (demoH 4) f p).tiers 0).level n == some [])) &&
          (match (leftFiles k ((k.top.file ++ [demoH 4]).take 1) (k.disk 0)).openCake demoSettings with
            | .ok kr => indexOfHash kr (demoH 1) == some 0 && indexOfHash kr (demoH 3) == some 2
            | _ => false)
      | none => false
    | _ => false
  | _ => false

theorem demoCheck_jumps : demoCheck (.jumps 1) = true := by decide +kernel

example : ∃ k0 k kk : Cake, ∃ given f, newCake demoSettings = .ok k0 ∧ run demoEnt demoSettings k0 (demoOps.take 3) = .ok (k, given) ∧
    forestOf demoEnt demoSettings k (demoH 4) = some f ∧ (filesAt k (demoH 4) f (.jumps 1)).openCake demoSettings = .ok kk ∧
    indexOfHash kk (demoH 1) = some 0 ∧ indexOfHash kk (demoH 3) = some 2 := by
  have hc := demoCheck_jumps
  unfold demoCheck at hc
  split at hc
  · next k0 h0 =>
    split at hc
    · next k given hr =>
      split at hc
      · next f hf =>
        rw [Bool.and_eq_true, Bool.and_eq_true] at hc
        obtain ⟨⟨c1, c2⟩, c3⟩ := hc
        split at c3
        · next kr hkr =>
          rw [Bool.and_eq_true, beq_iff_eq, beq_iff_eq] at c3
          obtain ⟨-, -, ⟨d, p1, p2⟩, -⟩ := moments_are_part_bakes k (demoH 4) f 1
          rw [p2] at c2
          have hlv : (leftFiles k ((k.top.file ++ [demoH 4]).take 1) d).tiers 0 = d := by
            unfold leftFiles setFolder
            dsimp only
            rw [if_pos rfl]
          rw [hlv] at c2
          obtain ⟨kk, a1, a2, -, -⟩ := killed_in_later_bake_partial (by decide) (by decide) h0 hr rfl p1
            (by intro hc; rw [hc] at c1; cases c1)
            (by
              intro n hn hc
              have := List.all_eq_true.1 c2 n (List.mem_range.2 hn)
              rw [hc] at this
              cases this) hkr
          exact ⟨k0, k, kk, given, f, h0, hr, hf, by rw [p2]; exact a1, a2 _ _ c3.1, a2 _ _ c3.2⟩
        · cases c3
      · cases hc
    · cases hc
  · cases hc

/-- A tier of which the file of level 1 has just been made. -/
def demoNewLevel : DonutForest.Folder :=
  ⟨fun n => if n = 0 then some [7] else if n = 1 then some [] else none, some [], some [], some []⟩

example : (leftFiles ⟨⟨0, [], fun _ => none, []⟩, fun i => if i = 0 then ⟨fun n => if n = 0 then some [7] else none, none, none, none⟩ else noFolder,
    []⟩ [demoH 1] demoNewLevel).openCake demoSettings = .error :=
  (killed_at_new_level (s := demoSettings) (forest := ⟨0, [⟨[], []⟩, ⟨[], [1]⟩], [], []⟩) (by decide) (by decide)
    ⟨fun n => by
      match n with
      | 0 => exact .inl rfl
      | 1 => exact .inr ⟨by decide, [], List.nil_prefix, rfl⟩
      | n + 2 => exact .inl rfl, ⟨[], List.nil_prefix, rfl⟩, rfl, ⟨[], List.nil_prefix, rfl⟩⟩
    (n := 1) (by decide) rfl (by
      intro i hi
      match i with
      | 0 => decide)).2

end Verif.Cake
