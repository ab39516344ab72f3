import Verif.Lemmas.CakeCascade

/-!
# How many batches there are in the tiers of a cake
-/

namespace Verif.Cake

open Verif.ShallowTree Verif.Chunk Verif.SingleTree Verif.DonutForest Verif.TierTop

/-! ## The descriptions of forests -/

/-- The bytes are `m` descriptions of forests. -/
def Records : Nat → Bytes → Prop
  | 0, b => b = []
  | m + 1, b => ∃ (first : Bytes) (count : UInt8) (sizes rest : Bytes),
      b = first ++ count :: (sizes ++ rest) ∧ first.length = 8 ∧ sizes.length = 16 * count.toNat ∧ Records m rest

theorem records_append : ∀ (m : Nat) {b c : Bytes}, Records m b → Records 1 c → Records (m + 1) (b ++ c)
  | 0, b, c, hb, hc => by
    have hb : b = [] := hb
    subst hb
    exact hc
  | m + 1, b, c, ⟨first, count, sizes, rest, e1, e2, e3, e4⟩, hc =>
    ⟨first, count, sizes, rest ++ c, by rw [e1]; simp, e2, e3, records_append m e4 hc⟩

theorem chooseLevels_length {c : Config} : ∀ {ss : List Shape} {gss : List (List Group)}, chooseLevels c ss = some gss → gss.length = ss.length
  | [], _, h => by injection h with h; subst h; rfl
  | s :: ss, gss, h => by
    rw [chooseLevels] at h
    split at h
    · cases h
    · cases hr : chooseLevels c ss with
      | none => rw [hr] at h; cases h
      | some r =>
        rw [hr] at h
        injection h with h
        rw [← h, List.length_cons, List.length_cons, chooseLevels_length hr]

theorem initLevels_length {c : Config} : ∀ {gss : List (List Group)} {fs : List LevelFormat}, initLevels c gss = some fs → fs.length = gss.length
  | [], _, h => by injection h with h; subst h; rfl
  | gs :: gss, fs, h => by
    rw [initLevels] at h
    split at h
    · cases h
    · cases hr : initLevels c gss with
      | none => rw [hr] at h; cases h
      | some r =>
        rw [hr] at h
        injection h with h
        rw [← h, List.length_cons, List.length_cons, initLevels_length hr]

theorem bake_sizes {ent : List Entry → Nat → Nat} {c : Config} {pre : Nat} {first : Int} {source : List (List Entry)} {f : Forest}
    (h : bake ent c pre first source = some f) : f.sizes.length ≤ 65 := by
  unfold bake at h
  split at h
  · cases h
  split at h
  · cases h
  next fs hd =>
  split at h
  · cases h
  split at h
  · cases h
  injection h with h
  rw [← h]
  dsimp only
  rw [List.length_map]
  unfold designForest at hd
  split at hd
  · cases hd
  next ss hs =>
  split at hd
  · cases hd
  next gss hc =>
  rw [initLevels_length hd]
  unfold chooseFormats at hc
  split at hc
  · cases hc
  rw [chooseLevels_length hc]
  unfold shapes at hs
  dsimp only at hs
  split at hs
  · cases hs
  injection hs with hs
  rw [← hs, List.length_map, List.length_range]
  omega

theorem records_infoOf {f : Forest} (h : f.sizes.length ≤ 65) : Records 1 (infoOf f) := by
  refine ⟨leEnc 8 (toU64 f.first), UInt8.ofNat f.sizes.length, f.sizes.flatMap fun s => leEnc 8 s.1 ++ leEnc 8 s.2, [], ?_, leEnc_length _ _, ?_, rfl⟩
  · unfold infoOf; rw [List.append_nil]
  · have h1 : (UInt8.ofNat f.sizes.length).toNat = f.sizes.length := by
      rw [UInt8.toNat_ofNat']
      omega
    rw [h1]
    generalize f.sizes = l
    induction l with
    | nil => rfl
    | cons x l ih => rw [List.flatMap_cons, List.length_append, List.length_append, leEnc_length, leEnc_length, ih, List.length_cons]; omega

theorem readLevels_rest {maps : List Bytes} : ∀ (k n : Nat) (rest : Bytes) (acc : Nat → Nat) {r : List Level × Bytes × (Nat → Nat)},
    readLevels maps k n rest acc = .ok r → r.2.1 = rest.drop (16 * k)
  | 0, _, rest, _, r, h => by
    injection h with h
    rw [← h]
    simp
  | k + 1, n, rest, acc, r, h => by
    rw [readLevels] at h
    split at h
    · cases h
    split at h
    · cases h
    dsimp only at h
    split at h
    · split at h
      · next lvs r' hr =>
        injection h with h
        rw [← h]
        have := readLevels_rest k (n + 1) _ _ hr
        dsimp only at this ⊢
        rw [this, List.drop_drop]
        congr 1
        omega
      · cases h
      · cases h
    · cases h

theorem readForests_count {quota : Nat} {maps : List Bytes} : ∀ (fuel m : Nat) {bytes : Bytes} {acc : Nat → Nat} {k : Nat}
    {fs : List (Int × List Level)}, Records m bytes → readForests quota maps fuel bytes acc k = .ok fs → fs.length = m
  | fuel, 0, bytes, acc, k, fs, hr, h => by
    have hr : bytes = [] := hr
    subst hr
    cases fuel <;> (injection h with h; rw [← h]; rfl)
  | 0, m + 1, bytes, acc, k, fs, ⟨first, count, sizes, rest, e1, e2, e3, e4⟩, h => by
    match bytes with
    | [] =>
      have := congrArg List.length e1
      simp at this
    | b :: bs => rw [readForests] at h; cases h
  | fuel + 1, m + 1, bytes, acc, k, fs, ⟨first, count, sizes, rest, e1, e2, e3, e4⟩, h => by
    have hdrop : bytes.drop 8 = count :: (sizes ++ rest) := by rw [e1, List.drop_left' e2]
    match bytes with
    | [] =>
      have := congrArg List.length e1
      simp at this
    | b :: bs =>
      simp only [readForests] at h
      rw [hdrop] at h
      split at h
      · cases h
      split at h
      · cases h
      dsimp only at h
      split at h
      · cases h
      split at h
      · next lvs rest'' acc' hl =>
        have h1 := readLevels_rest _ _ _ _ hl
        dsimp only at h1
        rw [List.drop_left' e3] at h1
        subst h1
        split at h
        · next fs' hf =>
          injection h with h
          rw [← h, List.length_cons, readForests_count fuel m e4 hf]
        · cases h
        · cases h
      · cases h
      · cases h

/-! ## The digits -/

/-- The folder is of a tier with `m` forests of `w` hashes each. -/
def Batched (d : DonutForest.Folder) (m w : Nat) : Prop :=
  (d = noFolder ∧ m = 0) ∨ (0 < m ∧ (∃ own : List Bytes, d.hashes = some own ∧ own.length = m * w) ∧ ∃ b, d.info = some b ∧ Records m b)

theorem batched_add {d : DonutForest.Folder} {m w : Nat} {f : Forest} {file : List Bytes} (h : Batched d m w) (hs : f.sizes.length ≤ 65)
    (hf : file.length = w) : Batched (addForest d f file) (m + 1) w := by
  refine .inr ⟨by omega, ?_⟩
  rcases h with ⟨rfl, rfl⟩ | ⟨-, ⟨own, h1, h2⟩, b, h3, h4⟩
  · exact ⟨⟨file, rfl, by omega⟩, infoOf f, rfl, records_infoOf hs⟩
  · refine ⟨⟨own ++ file, by simp only [addForest, h1, Option.getD_some], ?_⟩, b ++ infoOf f, by simp only [addForest, h3, Option.getD_some],
      records_append m h4 (records_infoOf hs)⟩
    rw [List.length_append, h2, hf, Nat.add_mul, Nat.one_mul]

theorem opened_count {quota : Nat} {d : DonutForest.Folder} {t : Tier} {m w : Nat} (h : Batched d m w) (ht : openTier quota d = .ok t) :
    t.forests.length = m := by
  unfold openTier at ht
  split at ht
  · cases ht
  split at ht
  · cases ht
  · cases ht
  split at ht
  · cases ht
  next bytes hb =>
  split at ht
  · cases ht
  · cases ht
  next fs hfs =>
  split at ht
  · cases ht
  injection ht with ht
  subst ht
  dsimp only
  rcases h with ⟨rfl, rfl⟩ | ⟨hm, -, b, h3, h4⟩
  · cases hb
  · rw [h3] at hb
    injection hb with hb
    subst hb
    unfold readInfo at hfs
    have hb0 : b.length ≠ 0 := by
      intro hc
      match m, h4 with
      | 0, _ => omega
      | m + 1, ⟨first, count, sizes, rest, e1, e2, e3, e4⟩ => rw [e1] at hc; simp at hc
    rw [if_neg hb0] at hfs
    exact readForests_count _ _ h4 hfs

/-- The tiers from `i` on, of which the first has batches of `w` hashes, hold `n` hashes together. -/
def Digits (disk : Disk) : Nat → List TierConfig → Nat → Nat → Prop
  | _, [], _, n => n = 0
  | i, cfg :: cfgs, w, n => ∃ m deep, n = m * w + deep ∧ m < cfg.quota ∧ Batched (disk i) m w ∧ Digits disk (i + 1) cfgs (w * cfg.quota) deep

theorem digits_congr {d d' : Disk} : ∀ {cfgs : List TierConfig} {i w n : Nat}, (∀ j, i ≤ j → d' j = d j) → Digits d i cfgs w n → Digits d' i cfgs w n
  | [], _, _, _, _, h => h
  | _ :: _, i, _, _, he, ⟨m, deep, h1, h2, h3, h4⟩ =>
    ⟨m, deep, h1, h2, by rw [he i (Nat.le_refl _)]; exact h3, digits_congr (fun j hj => he j (by omega)) h4⟩

theorem digits_none : ∀ (cfgs : List TierConfig) (i w : Nat), (∀ c ∈ cfgs, 0 < c.quota) → Digits (fun _ => noFolder) i cfgs w 0
  | [], _, _, _ => rfl
  | c :: cfgs, i, w, h => ⟨0, 0, by simp, h c List.mem_cons_self, .inl ⟨rfl, rfl⟩, digits_none cfgs (i + 1) _ fun c hc => h c (List.mem_cons_of_mem _ hc)⟩

theorem writeBelow_digits {ent : List Entry → Nat → Nat} : ∀ (cfgs : List TierConfig) {disk d : Disk} {i w deep : Nat} {c0 : TierConfig}
    {t : Tier} {below bs : List Below}, 0 < c0.quota → Batched (disk i) c0.quota w → Digits disk (i + 1) cfgs (w * c0.quota) deep →
    writeBelow ent cfgs disk (openedBelow i c0 t) below = .ok (d, bs) →
    Digits d i (c0 :: cfgs) w (c0.quota * w + deep) ∧ ∀ j, j < i → d j = disk j
  | [], _, _, _, _, _, _, _, _, _, _, _, _, hw => by rw [writeBelow] at hw; cases hw
  | cfg :: cfgs, disk, d, i, w, deep, c0, t, below, bs, hq, hb, ⟨m, deep2, h1, h2, h3, h4⟩, hw => by
    have hown : ∃ own : List Bytes, (disk i).hashes = some own ∧ own.length = w * c0.quota := by
      rcases hb with ⟨-, h⟩ | ⟨-, ⟨own, e1, e2⟩, -⟩
      · omega
      · exact ⟨own, e1, by rw [e2, Nat.mul_comm]⟩
    obtain ⟨own, o1, o2⟩ := hown
    rw [writeBelow] at hw
    dsimp only [openedBelow] at hw
    split at hw
    · split at hw
      · cases hw
      split at hw
      · cases hw
      next forest hbake =>
      rw [o1] at hw
      dsimp only at hw
      have hadd := batched_add (file := own) h3 (bake_sizes hbake) o2
      generalize hd2 : setFolder (setFolder disk (i + 1) (addForest (disk (i + 1)) forest own)) i noFolder = disk2 at hw
      have hat : disk2 (i + 1) = addForest (disk (i + 1)) forest own := by
        rw [← hd2]; unfold setFolder; rw [if_neg (by omega), if_pos rfl]
      have hat0 : disk2 i = noFolder := by rw [← hd2]; unfold setFolder; rw [if_pos rfl]
      have hother : ∀ j, j ≠ i → j ≠ i + 1 → disk2 j = disk j := by
        intro j h1 h2; rw [← hd2]; unfold setFolder; rw [if_neg h1, if_neg h2]
      rw [← hat] at hadd
      have h4' : Digits disk2 (i + 1 + 1) cfgs (w * c0.quota * cfg.quota) deep2 :=
        digits_congr (fun j hj => hother j (by omega) (by omega)) h4
      have hsum : c0.quota * w + deep = (m + 1) * (w * c0.quota) + deep2 := by
        rw [h1, Nat.add_mul, Nat.one_mul, Nat.mul_comm c0.quota w]; omega
      split at hw
      · cases hw
      · cases hw
      next t2 ht2 =>
      have hcount := opened_count hadd ht2
      split at hw
      · next hfull =>
        have hfull : t2.forests.length = cfg.quota := hfull
        split at hw
        · next d' bs' hrec =>
          injection hw with hw
          injection hw with hw1 hw2
          subst hw1
          rw [hcount] at hfull
          rw [hfull] at hadd hsum
          obtain ⟨g1, g2⟩ := writeBelow_digits cfgs (by omega) hadd h4' hrec
          refine ⟨⟨0, _, by rw [hsum]; simp, hq, .inl ⟨by rw [g2 i (by omega)]; exact hat0, rfl⟩, g1⟩, ?_⟩
          intro j hj
          rw [g2 j (by omega)]
          exact hother j (by omega) (by omega)
        · cases hw
        · cases hw
      · next hfull =>
        have hfull : ¬ t2.forests.length = cfg.quota := hfull
        injection hw with hw
        injection hw with hw1 hw2
        subst hw1
        refine ⟨⟨0, _, by simp, hq, .inl ⟨hat0, rfl⟩, m + 1, deep2, hsum, by omega, hadd, h4'⟩, ?_⟩
        intro j hj
        exact hother j (by omega) (by omega)
    · cases hw

/-- The cake's digits: `n` hashes have been appended. -/
structure Counted (s : Settings) (k : Cake) (n : Nat) : Prop where
  parts : ∃ below, n = below + k.top.file.length ∧ Digits k.disk 0 s.tiers s.cap below
  small : k.top.file.length < s.cap
  cells : k.top.cells.length = k.top.file.length

theorem counted_append {ent : List Entry → Nat → Nat} {s : Settings} {m : Memory} {k k' : Cake} {a : Cell} {g : Int} {n : Nat}
    (hq : ∀ c ∈ s.tiers, 0 < c.quota) (hk : Counted s k n) (ha : append ent s m k a = .ok (k', g)) : Counted s k' (n + 1) := by
  obtain ⟨⟨below, e1, e2⟩, hsm, hcl⟩ := hk
  unfold append at ha
  dsimp only at ha
  split at ha
  · cases ha
  split at ha
  · cases ha
  split at ha
  · next hfull =>
    split at ha
    · next k1 hw =>
      injection ha with ha
      injection ha with ha1 ha2
      subst ha1
      unfold writeTop at hw
      split at hw
      · cases hw
      next cfg cfgs hcfg =>
      rw [hcfg] at e2 hq
      split at hw
      · cases hw
      next forest hbake =>
      dsimp only at hw
      split at hw
      · cases hw
      next top htop =>
      unfold makeEmpty create openTop at htop
      rw [if_neg (by simp)] at htop
      injection htop with htop
      have htf : top.file = [] ∧ top.cells = [] := by rw [← htop]; exact ⟨rfl, rfl⟩
      split at hw
      · cases hw
      · cases hw
      next t ht =>
      obtain ⟨q, deep, h1, h2, h3, h4⟩ := e2
      have hlen : (k.top.file ++ [a.read m]).length = s.cap := by
        rw [List.length_append, List.length_singleton, ← hcl]; exact hfull
      have hadd := batched_add (file := k.top.file ++ [a.read m]) h3 (bake_sizes hbake) hlen
      generalize hd1 : setFolder k.disk 0 (addForest (k.disk 0) forest (k.top.file ++ [a.read m])) = disk1 at hw ht
      have hat : disk1 0 = addForest (k.disk 0) forest (k.top.file ++ [a.read m]) := by
        rw [← hd1]; unfold setFolder; rw [if_pos rfl]
      rw [← hat] at hadd
      have h4' : Digits disk1 (0 + 1) cfgs (s.cap * cfg.quota) deep := by
        refine digits_congr (fun j hj => ?_) h4
        rw [← hd1]; unfold setFolder; rw [if_neg (by omega)]
      have hn : n + 1 = (q + 1) * s.cap + deep := by
        rw [List.length_append, List.length_singleton] at hlen
        rw [e1, h1, Nat.add_mul, Nat.one_mul]
        omega
      have hcount := opened_count hadd ht
      have hpos : 0 < s.cap := by omega
      split at hw
      · next hfull' =>
        have hfull' : t.forests.length = cfg.quota := hfull'
        split at hw
        · next d bs hrec =>
          injection hw with hw
          subst hw
          rw [hcount] at hfull'
          rw [hfull'] at hadd hn
          obtain ⟨g1, -⟩ := writeBelow_digits cfgs (hq cfg List.mem_cons_self) hadd h4' hrec
          refine ⟨⟨n + 1, ?_, by rw [hn, hcfg]; exact g1⟩, ?_, ?_⟩
          · show n + 1 = n + 1 + top.file.length
            rw [htf.1]; rfl
          · show top.file.length < s.cap
            rw [htf.1]; exact hpos
          · show top.cells.length = top.file.length
            rw [htf.1, htf.2]; rfl
        · cases hw
        · cases hw
      · next hfull' =>
        have hfull' : ¬ t.forests.length = cfg.quota := hfull'
        injection hw with hw
        subst hw
        refine ⟨⟨n + 1, ?_, by rw [hcfg]; exact ⟨q + 1, deep, hn, by omega, hadd, h4'⟩⟩, ?_, ?_⟩
        · show n + 1 = n + 1 + top.file.length
          rw [htf.1]; rfl
        · show top.file.length < s.cap
          rw [htf.1]; exact hpos
        · show top.cells.length = top.file.length
          rw [htf.1, htf.2]; rfl
    · cases ha
    · cases ha
  · next hfull =>
    injection ha with ha
    injection ha with ha1 ha2
    subst ha1
    refine ⟨⟨below, ?_, e2⟩, ?_, ?_⟩
    · simp only [List.length_append, List.length_singleton]; omega
    · simp only [List.length_append, List.length_singleton]; omega
    · simp only [List.length_append, List.length_singleton]; omega

theorem counted_reopen {s : Settings} {k k' : Cake} {n : Nat} (hk : Counted s k n) (ho : reopen s k = .ok k') : Counted s k' n := by
  obtain ⟨⟨below, e1, e2⟩, hsm, hcl⟩ := hk
  unfold reopen openCake openTop at ho
  split at ho
  · cases ho
  next top htop =>
  split at htop
  · cases htop
  injection htop with htop
  subst htop
  split at ho
  · injection ho with ho
    subst ho
    exact ⟨⟨below, e1, e2⟩, hsm, List.length_map _⟩
  · cases ho
  · cases ho

theorem counted_new {s : Settings} {k : Cake} (hcap : 0 < s.cap) (hq : ∀ c ∈ s.tiers, 0 < c.quota) (h : newCake s = .ok k) : Counted s k 0 := by
  unfold newCake openCake openTop at h
  rw [if_neg (by simp)] at h
  dsimp only at h
  split at h
  · injection h with h
    subst h
    exact ⟨⟨0, rfl, digits_none _ _ _ hq⟩, hcap, rfl⟩
  · cases h
  · cases h

end Verif.Cake
