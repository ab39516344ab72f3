import Verif.Lemmas.Cake

/-!
# What the folders of a cake hold when its tiers are filled and emptied into the next
-/

namespace Verif.Cake

open Verif.ShallowTree Verif.Chunk Verif.SingleTree Verif.DonutForest Verif.TierTop

/-! ## Folders -/

/-- A folder that is not there, or holds the hashes `own` with indices from `start` on. -/
def Holds (d : DonutForest.Folder) (start : Nat) (own : List Bytes) : Prop :=
  (d = noFolder ∧ own = []) ∨ (d.hashes = some own ∧ ∃ rest, d.info = some (leEnc 8 (toU64 start) ++ rest))

/-- The folders from `i` on hold the hashes, those of the lowest indices in the deepest. -/
def Slices (disk : Disk) : Nat → List TierConfig → List Bytes → Prop
  | _, [], l => l = []
  | i, _ :: cfgs, l => ∃ deep own, l = deep ++ own ∧ Slices disk (i + 1) cfgs deep ∧ Holds (disk i) deep.length own

theorem slices_none : ∀ (cfgs : List TierConfig) (i : Nat), Slices (fun _ => noFolder) i cfgs []
  | [], _ => rfl
  | _ :: cfgs, i => ⟨[], [], rfl, slices_none cfgs (i + 1), .inl ⟨rfl, rfl⟩⟩

theorem slices_congr {d d' : Disk} : ∀ {cfgs : List TierConfig} {i : Nat} {l : List Bytes}, (∀ j, i ≤ j → d' j = d j) →
    Slices d i cfgs l → Slices d' i cfgs l
  | [], _, _, _, h => h
  | _ :: _, i, _, he, ⟨deep, own, h1, h2, h3⟩ =>
    ⟨deep, own, h1, slices_congr (fun j hj => he j (by omega)) h2, by rw [he i (Nat.le_refl _)]; exact h3⟩

theorem holds_add {d : DonutForest.Folder} {start : Nat} {own file : List Bytes} {f : Forest} (h : Holds d start own)
    (hf : f.first = (start + own.length : Nat)) : Holds (addForest d f file) start (own ++ file) := by
  refine .inr ?_
  rcases h with ⟨rfl, rfl⟩ | ⟨h1, rest, h2⟩
  · refine ⟨rfl, ?_⟩
    simp only [addForest, noFolder, Option.getD_none, List.nil_append, infoOf, hf, List.length_nil, Nat.add_zero]
    exact ⟨_, rfl⟩
  · refine ⟨by simp only [addForest, h1, Option.getD_some], ?_⟩
    simp only [addForest, h2, Option.getD_some, List.append_assoc]
    exact ⟨_, rfl⟩

theorem bake_first {ent : List Entry → Nat → Nat} {c : Config} {pre : Nat} {first : Int} {source : List (List Entry)} {f : Forest}
    (h : bake ent c pre first source = some f) : f.first = first := by
  unfold bake at h
  split at h
  · cases h
  split at h
  · cases h
  split at h
  · cases h
  split at h
  · cases h
  injection h with h
  rw [← h]

theorem readForests_head {quota : Nat} {maps : List Bytes} {fuel : Nat} {bytes : Bytes} {acc : Nat → Nat} {k : Nat}
    {fs : List (Int × List Level)} (h : readForests quota maps fuel bytes acc k = .ok fs) (hne : bytes ≠ []) :
    ∃ f fs', fs = f :: fs' ∧ f.1 = ofU64 (leDec (bytes.take 8)) := by
  match fuel, bytes with
  | _, [] => exact absurd rfl hne
  | 0, _ :: _ => rw [readForests] at h; cases h
  | fuel + 1, b :: bs =>
    simp only [readForests] at h
    split at h
    · cases h
    split at h
    · cases h
    split at h
    · cases h
    split at h
    · cases h
    split at h
    · split at h
      · injection h with h
        exact ⟨_, _, h.symm, rfl⟩
      · cases h
      · cases h
    · cases h
    · cases h

theorem opened_holds {quota : Nat} {d : DonutForest.Folder} {t : Tier} {start : Nat} {own : List Bytes} (h : Holds d start own)
    (ht : openTier quota d = .ok t) (hs : start < 2 ^ 63) :
    t.hashes = own ∧ ∃ f fs, t.forests = f :: fs ∧ f.1 = start := by
  unfold openTier at ht
  split at ht
  · cases ht
  split at ht
  · cases ht
  · cases ht
  split at ht
  · cases ht
  next bytes hb =>
  split at ht
  · cases ht
  · cases ht
  next fs hfs =>
  split at ht
  · cases ht
  next hashes hh =>
  injection ht with ht
  subst ht
  rcases h with ⟨rfl, rfl⟩ | ⟨h1, rest, h2⟩
  · cases hh
  · rw [h1] at hh
    injection hh with hh
    rw [h2] at hb
    injection hb with hb
    refine ⟨hh.symm, ?_⟩
    dsimp only
    have hlen : (leEnc 8 (toU64 start)).length = 8 := leEnc_length _ _
    have hb0 : bytes.length ≠ 0 := by rw [← hb, List.length_append, hlen]; omega
    unfold readInfo at hfs
    rw [if_neg hb0] at hfs
    obtain ⟨f, fs', e1, e2⟩ := readForests_head hfs (by intro hc; rw [hc] at hb0; exact hb0 rfl)
    refine ⟨f, fs', e1, ?_⟩
    have hs' : ((start : Nat) : Int) < 2 ^ 63 := by omega
    have htake : bytes.take 8 = leEnc 8 (toU64 start) := by rw [← hb]; exact List.take_left' hlen
    rw [e2, htake, leDec_leEnc_of_lt (Nat.lt_of_lt_of_eq (toU64_lt start) (by decide))]
    exact ofU64_toU64 (by have := Int.natCast_nonneg start; omega) hs'

/-! ## Objects in the chain -/

/-- What a tier object says is so; `hs` are the hashes in the order of their indices. -/
def Sound (hs : List Bytes) (b : Below) : Prop :=
  ∀ f fs l, b.forests = f :: fs → b.hashes = some l → ∃ st : Nat, f.1 = st ∧ ∀ n x, l[n]? = some x → hs[st + n]? = some x

/-- A closed object that is asked for hashes panics. -/
def Stuck (b : Below) : Prop := b.forests ≠ [] ∧ b.hashes = none

/-- The object answers for the index `n`. -/
def Covers (b : Below) (n : Nat) : Prop :=
  ∃ f fs l, ∃ st : Nat, b.forests = f :: fs ∧ b.hashes = some l ∧ f.1 = st ∧ st ≤ n ∧ n < st + l.length

/-- The chain does not say that there is no hash at `n`. -/
def Ans (chain : List Below) (n : Nat) : Prop := ∃ b ∈ chain, Stuck b ∨ Covers b n

theorem sound_empty (hs : List Bytes) (i : Nat) (cfg : TierConfig) : Sound hs (emptyBelow i cfg) := by
  intro f fs l h; cases h

theorem sound_close (hs : List Bytes) (b : Below) : Sound hs (closeBelow b) := by
  intro f fs l _ h; cases h

theorem Sound.mono {hs more : List Bytes} {b : Below} (h : Sound hs b) : Sound (hs ++ more) b := by
  intro f fs l h1 h2
  obtain ⟨st, e1, e2⟩ := h f fs l h1 h2
  refine ⟨st, e1, fun n x hx => ?_⟩
  have h3 := e2 n x hx
  rw [List.getElem?_append_left (by obtain ⟨h, -⟩ := List.getElem?_eq_some_iff.1 h3; exact h)]
  exact h3

theorem sound_closeNext {hs : List Bytes} {chain : List Below} (h : ∀ b ∈ chain, Sound hs b) : ∀ b ∈ closeNext chain, Sound hs b := by
  cases chain with
  | nil => exact h
  | cons c cs =>
    intro b hb
    rcases List.mem_cons.1 hb with rfl | hb
    · exact sound_close hs c
    · exact h b (List.mem_cons_of_mem _ hb)

theorem ans_closeNext {chain : List Below} {n : Nat} (h : Ans chain n) : Ans (closeNext chain) n := by
  cases chain with
  | nil => exact h
  | cons c cs =>
    obtain ⟨b, hb, h⟩ := h
    rcases List.mem_cons.1 hb with rfl | hb
    · refine ⟨closeBelow b, List.mem_cons_self, .inl ⟨?_, rfl⟩⟩
      rcases h with h | ⟨f, fs, l, st, h, -⟩
      · exact h.1
      · show b.forests ≠ []
        rw [h]; simp
    · exact ⟨b, List.mem_cons_of_mem _ hb, h⟩

theorem Ans.cons {chain : List Below} {n : Nat} (b : Below) (h : Ans chain n) : Ans (b :: chain) n := by
  obtain ⟨c, hc, h⟩ := h
  exact ⟨c, List.mem_cons_of_mem _ hc, h⟩

theorem hashBelow_sound {hs : List Bytes} {g : Int} : ∀ {chain : List Below}, (∀ b ∈ chain, Sound hs b) → ∀ {x : Bytes},
    hashBelow g chain = some (some x) → ∃ n : Nat, g = n ∧ hs[n]? = some x
  | [], _, _, h => by cases h
  | b :: bs, hb, x, h => by
    rw [hashBelow] at h
    split at h
    · cases h
    · next y hy =>
      injection h with h
      injection h with h
      subst h
      unfold belowHashAt at hy
      split at hy
      · cases hy
      · next f fs hf =>
        split at hy
        · cases hy
        · next l hl =>
          injection hy with hy
          simp only [DonutForest.tryGetHashAtIndex, hf] at hy
          split at hy
          · next hr =>
            obtain ⟨st, e1, e2⟩ := hb b List.mem_cons_self f fs l hf hl
            refine ⟨st + (g - f.1).toNat, by omega, e2 _ _ hy⟩
          · cases hy
    · exact hashBelow_sound (fun c hc => hb c (List.mem_cons_of_mem _ hc)) h

theorem hashBelow_not_found {n : Nat} : ∀ {chain : List Below}, hashBelow (n : Int) chain = some none → ¬ Ans chain n
  | [], _ => by rintro ⟨b, hb, -⟩; cases hb
  | b :: bs, h => by
    rw [hashBelow] at h
    split at h
    · cases h
    · cases h
    next hy =>
    have ih := hashBelow_not_found h
    rintro ⟨c, hc, ha⟩
    rcases List.mem_cons.1 hc with rfl | hc
    · unfold belowHashAt at hy
      rcases ha with ⟨h1, h2⟩ | ⟨f, fs, l, st, h1, h2, h3, h4, h5⟩
      · split at hy
        · next h0 => exact h1 h0
        · rw [h2] at hy; cases hy
      · rw [h1, h2] at hy
        dsimp only at hy
        injection hy with hy
        simp only [DonutForest.tryGetHashAtIndex] at hy
        rw [if_pos (by omega)] at hy
        have := List.getElem?_eq_none_iff.1 hy
        omega
    · exact ih ⟨c, hc, ha⟩

theorem opened_sound {quota i : Nat} {cfg : TierConfig} {d : DonutForest.Folder} {t : Tier} {deep own more : List Bytes}
    (h : Holds d deep.length own) (ht : openTier quota d = .ok t) (hl : deep.length < 2 ^ 63) :
    Sound (deep ++ own ++ more) (openedBelow i cfg t) := by
  obtain ⟨e1, f, fs, e2, e3⟩ := opened_holds h ht hl
  intro f' fs' l hf hl'
  have hf : t.forests = f' :: fs' := hf
  have hl' : some t.hashes = some l := hl'
  rw [e2] at hf
  injection hf with hf _
  injection hl' with hl'
  rw [e1] at hl'
  subst hf hl'
  refine ⟨deep.length, e3, fun n x hx => ?_⟩
  obtain ⟨hn, -⟩ := List.getElem?_eq_some_iff.1 hx
  rw [List.append_assoc, List.getElem?_append_right (by omega), List.getElem?_append_left (by omega), Nat.add_sub_cancel_left, hx]

theorem opened_covers {quota i : Nat} {cfg : TierConfig} {d : DonutForest.Folder} {t : Tier} {start : Nat} {own : List Bytes}
    (h : Holds d start own) (ht : openTier quota d = .ok t) (hl : start < 2 ^ 63) {n : Nat} :
    Covers (openedBelow i cfg t) n ↔ start ≤ n ∧ n < start + own.length := by
  obtain ⟨e1, f, fs, e2, e3⟩ := opened_holds h ht hl
  constructor
  · rintro ⟨f', fs', l, st, h1, h2, h3, h4, h5⟩
    have h1 : t.forests = f' :: fs' := h1
    have h2 : some t.hashes = some l := h2
    rw [e2] at h1
    injection h1 with h1 _
    injection h2 with h2
    rw [e1] at h2
    subst h1 h2
    omega
  · rintro ⟨h1, h2⟩
    exact ⟨f, fs, own, start, e2, congrArg some e1, e3, h1, h2⟩

/-! ## Emptying a tier into the next -/

/-- What a write leaves, from the source tier on. -/
structure Written (i : Nat) (cfgs : List TierConfig) (l : List Bytes) (disk d : Disk) (chain bs : List Below) : Prop where
  slices : Slices d i cfgs l
  frame : ∀ j, j < i → d j = disk j
  sound : ∀ more, (∀ b ∈ chain, Sound (l ++ more) b) → ∀ b ∈ bs, Sound (l ++ more) b
  ans : ∀ n, Ans chain n → Ans bs n

theorem writeBelow_written {ent : List Entry → Nat → Nat} : ∀ (cfgs : List TierConfig) {disk d : Disk} {i quota : Nat} {c0 : TierConfig}
    {t : Tier} {below bs : List Below} {l : List Bytes}, Slices disk i (c0 :: cfgs) l → openTier quota (disk i) = .ok t → l.length < 2 ^ 63 →
    writeBelow ent cfgs disk (openedBelow i c0 t) below = .ok (d, bs) →
    Written i (c0 :: cfgs) l disk d (openedBelow i c0 t :: below) bs
  | [], _, _, _, _, _, _, _, _, _, _, _, _, hw => by rw [writeBelow] at hw; cases hw
  | cfg :: cfgs, disk, d, i, quota, c0, t, below, bs, l, hsl, ht, hl, hw => by
    obtain ⟨deep, own, rfl, ⟨deep2, own2, rfl, hs2, hh2⟩, hh⟩ := hsl
    rw [List.length_append, List.length_append] at hl
    obtain ⟨e1, f, fs, e2, e3⟩ := opened_holds hh ht (by rw [List.length_append]; omega)
    rw [writeBelow] at hw
    simp only [openedBelow, e2, e1] at hw
    split at hw
    · cases hw
    split at hw
    · cases hw
    next forest hbake =>
    split at hw
    · cases hw
    next file hfile =>
    have hfown : file = own := by
      rcases hh with ⟨h1, -⟩ | ⟨h1, -⟩
      · rw [h1] at hfile; cases hfile
      · rw [h1] at hfile; injection hfile with hfile; exact hfile.symm
    subst hfown
    have hff : forest.first = (deep2.length + own2.length : Nat) := by rw [bake_first hbake, e3, List.length_append]
    have hadd := holds_add (file := file) hh2 hff
    generalize hd2 : setFolder (setFolder disk (i + 1) (addForest (disk (i + 1)) forest file)) i noFolder = disk2 at hw
    have hat : disk2 (i + 1) = addForest (disk (i + 1)) forest file := by
      rw [← hd2]; unfold setFolder; rw [if_neg (by omega), if_pos rfl]
    have hat0 : disk2 i = noFolder := by rw [← hd2]; unfold setFolder; rw [if_pos rfl]
    have hother : ∀ j, j ≠ i → j ≠ i + 1 → disk2 j = disk j := by
      intro j h1 h2; rw [← hd2]; unfold setFolder; rw [if_neg h1, if_neg h2]
    have hsl2 : Slices disk2 (i + 1) (cfg :: cfgs) (deep2 ++ (own2 ++ file)) :=
      ⟨deep2, own2 ++ file, rfl, slices_congr (fun j hj => hother j (by omega) (by omega)) hs2, by rw [hat]; exact hadd⟩
    split at hw
    · cases hw
    · cases hw
    next t2 ht2 =>
    have hhold2 : Holds (disk2 (i + 1)) deep2.length (own2 ++ file) := by rw [hat]; exact hadd
    have hl2 : deep2.length < 2 ^ 63 := by omega
    -- the new object in place of the source
    have key : ∀ n, Ans (openedBelow i c0 t :: below) n → Ans (openedBelow (i + 1) cfg t2 :: closeNext below) n := by
      rintro n ⟨b, hb, ha⟩
      rcases List.mem_cons.1 hb with rfl | hb
      · rcases ha with ⟨-, ha⟩ | ha
        · cases ha
        · rw [opened_covers hh ht (by rw [List.length_append]; omega), List.length_append] at ha
          refine ⟨_, List.mem_cons_self, .inr ((opened_covers hhold2 ht2 hl2).2 ?_)⟩
          rw [List.length_append]; omega
      · exact (ans_closeNext ⟨b, hb, ha⟩).cons _
    have ksound : ∀ more, (∀ b ∈ openedBelow i c0 t :: below, Sound (deep2 ++ own2 ++ file ++ more) b) →
        ∀ b ∈ openedBelow (i + 1) cfg t2 :: closeNext below, Sound (deep2 ++ own2 ++ file ++ more) b := by
      intro more h b hb
      rcases List.mem_cons.1 hb with rfl | hb
      · have := opened_sound (i := i + 1) (cfg := cfg) (more := more) hhold2 ht2 hl2
        rwa [← List.append_assoc deep2] at this
      · exact sound_closeNext (fun c hc => h c (List.mem_cons_of_mem _ hc)) b hb
    have hslices : ∀ d' : Disk, Slices d' (i + 1) (cfg :: cfgs) (deep2 ++ (own2 ++ file)) → d' i = noFolder →
        Slices d' i (c0 :: cfg :: cfgs) (deep2 ++ own2 ++ file) := by
      intro d' h1 h2
      exact ⟨deep2 ++ (own2 ++ file), [], by rw [List.append_nil, List.append_assoc], h1, .inl ⟨h2, rfl⟩⟩
    split at hw
    · split at hw
      · next d' bs' hrec =>
        injection hw with hw
        injection hw with hw1 hw2
        subst hw1 hw2
        have ih := writeBelow_written cfgs hsl2 ht2 (by rw [List.length_append, List.length_append]; omega) hrec
        refine ⟨hslices _ ih.slices (by rw [ih.frame i (by omega)]; exact hat0), ?_, ?_, ?_⟩
        · intro j hj
          rw [ih.frame j (by omega)]
          exact hother j (by omega) (by omega)
        · intro more h b hb
          rcases List.mem_cons.1 hb with rfl | hb
          · exact sound_empty _ _ _
          · have h2 := ksound more h
            rw [List.append_assoc deep2] at h2 ⊢
            exact ih.sound more h2 b hb
        · intro n ha
          exact (ih.ans n (key n ha)).cons _
      · cases hw
      · cases hw
    · injection hw with hw
      injection hw with hw1 hw2
      subst hw1 hw2
      refine ⟨hslices _ hsl2 hat0, ?_, ?_, ?_⟩
      · intro j hj
        exact hother j (by omega) (by omega)
      · intro more h b hb
        rcases List.mem_cons.1 hb with rfl | hb
        · exact sound_empty _ _ _
        · exact ksound more h b hb
      · intro n ha
        exact (key n ha).cons _

/-! ## The whole cake -/

/-- Where the hashes of a cake are; `hs` are all, in the order of their indices. -/
structure Kept (s : Settings) (k : Cake) (hs : List Bytes) : Prop where
  parts : ∃ below, hs = below ++ k.top.file ∧ k.top.first = below.length ∧ s.cap ∣ below.length ∧ Slices k.disk 0 s.tiers below ∧
    ∀ n, n < below.length → Ans k.chain n
  small : k.top.file.length < s.cap
  cells : k.top.cells = k.top.file.map .own
  sound : ∀ b ∈ k.chain, Sound hs b

theorem kept_append {ent : List Entry → Nat → Nat} {s : Settings} {m : Memory} {k k' : Cake} {h : Bytes} {g : Int} {hs : List Bytes}
    (hk : Kept s k hs) (hl : hs.length + 1 < 2 ^ 63) (ha : append ent s m k (.own h) = .ok (k', g)) :
    Kept s k' (hs ++ [h]) ∧ g = hs.length := by
  obtain ⟨⟨below, e1, e2, e3, e4, e5⟩, hsm, hc, hso⟩ := hk
  have hlen : hs.length = below.length + k.top.file.length := by rw [e1, List.length_append]
  have hcl : k.top.cells.length = k.top.file.length := by rw [hc, List.length_map]
  have hg : globalOfTop k.top.cells.length k.top.first = hs.length := by
    unfold globalOfTop; rw [e2, hcl, hlen]; omega
  unfold append at ha
  dsimp only at ha
  rw [hg] at ha
  split at ha
  · cases ha
  split at ha
  · cases ha
  split at ha
  · next hfull =>
    split at ha
    · next k1 hw =>
      injection ha with ha
      injection ha with ha1 ha2
      subst ha1
      refine ⟨?_, ha2.symm⟩
      unfold writeTop at hw
      split at hw
      · cases hw
      next cfg cfgs hcfg =>
      split at hw
      · cases hw
      next forest hbake =>
      dsimp only at hw
      split at hw
      · cases hw
      next top htop =>
      unfold makeEmpty create openTop at htop
      rw [if_neg (by simp)] at htop
      injection htop with htop
      dsimp only [Cell.read] at htop
      split at hw
      · cases hw
      · cases hw
      next t ht =>
      rw [hcfg] at e4
      obtain ⟨deep, own, f1, f2, f3⟩ := e4
      have hff : forest.first = (deep.length + own.length : Nat) := by rw [bake_first hbake, e2, f1, List.length_append]
      dsimp only [Cell.read] at hw ht
      have hadd := holds_add (file := k.top.file ++ [h]) f3 hff
      generalize hd1 : setFolder k.disk 0 (addForest (k.disk 0) forest (k.top.file ++ [h])) = disk1 at hw ht
      have hat : disk1 0 = addForest (k.disk 0) forest (k.top.file ++ [h]) := by
        rw [← hd1]; unfold setFolder; rw [if_pos rfl]
      have hhold : Holds (disk1 0) deep.length (own ++ (k.top.file ++ [h])) := by rw [hat]; exact hadd
      have hall : deep ++ (own ++ (k.top.file ++ [h])) = hs ++ [h] := by rw [e1, f1]; simp
      have hsl : Slices disk1 0 (cfg :: cfgs) (hs ++ [h]) := by
        refine ⟨deep, own ++ (k.top.file ++ [h]), hall.symm, slices_congr (fun j hj => ?_) f2, hhold⟩
        rw [← hd1]; unfold setFolder; rw [if_neg (by omega)]
      have hdl : deep.length < 2 ^ 63 := by
        rw [f1, List.length_append] at hlen; omega
      have hans : ∀ n, n < (hs ++ [h]).length → Ans (openedBelow 0 cfg t :: closeNext k.chain) n := by
        intro n hn
        by_cases hlt : n < below.length
        · exact (ans_closeNext (e5 n hlt)).cons _
        · refine ⟨_, List.mem_cons_self, .inr ((opened_covers hhold ht hdl).2 ?_)⟩
          rw [← hall, List.length_append] at hn
          rw [f1, List.length_append] at hlt
          omega
      have hsound : ∀ b ∈ openedBelow 0 cfg t :: closeNext k.chain, Sound (hs ++ [h]) b := by
        intro b hb
        rcases List.mem_cons.1 hb with rfl | hb
        · have := opened_sound (i := 0) (cfg := cfg) (more := []) hhold ht hdl
          rwa [List.append_nil, hall] at this
        · exact sound_closeNext (fun c hc => (hso c hc).mono) b hb
      have htl : top.file = [] ∧ top.cells = [] ∧ top.first = (hs ++ [h]).length := by
        rw [← htop]
        refine ⟨rfl, rfl, ?_⟩
        dsimp only
        rw [e2, List.length_append, List.length_append, hlen]
        simp only [List.length_singleton]
        omega
      have hdiv : s.cap ∣ (hs ++ [h]).length := by
        rw [List.length_append, hlen, List.length_singleton, Nat.add_assoc, ← hcl, hfull]
        exact Nat.dvd_add e3 (Nat.dvd_refl _)
      have hdone : ∀ (d : Disk) (bs : List Below), Slices d 0 s.tiers (hs ++ [h]) → (∀ n, n < (hs ++ [h]).length → Ans bs n) →
          (∀ b ∈ bs, Sound (hs ++ [h]) b) → Kept s ⟨top, d, bs⟩ (hs ++ [h]) := by
        intro d bs h1 h2 h3
        obtain ⟨t1, t2, t3⟩ := htl
        refine ⟨⟨hs ++ [h], ?_, t3, hdiv, h1, h2⟩, ?_, ?_, h3⟩
        · show hs ++ [h] = hs ++ [h] ++ top.file
          rw [t1, List.append_nil]
        · show top.file.length < s.cap
          rw [t1]; simp; omega
        · show top.cells = top.file.map .own
          rw [t1, t2]; rfl
      split at hw
      · split at hw
        · next d bs hrec =>
          injection hw with hw
          subst hw
          have hwr := writeBelow_written cfgs hsl ht (by rw [List.length_append]; simpa using hl) hrec
          refine hdone d bs (by rw [hcfg]; exact hwr.slices) (fun n hn => hwr.ans n (hans n hn)) ?_
          have := hwr.sound [] (by rw [List.append_nil]; exact hsound)
          rwa [List.append_nil] at this
        · cases hw
        · cases hw
      · injection hw with hw
        subst hw
        exact hdone _ _ (by rw [hcfg]; exact hsl) hans hsound
    · cases ha
    · cases ha
  · next hfull =>
    injection ha with ha
    injection ha with ha1 ha2
    subst ha1
    refine ⟨⟨⟨below, ?_, e2, e3, e4, e5⟩, ?_, ?_, fun b hb => (hso b hb).mono⟩, ha2.symm⟩
    · simp only [Cell.read]; rw [e1, List.append_assoc]
    · simp only [List.length_append, List.length_singleton]; rw [hcl] at hfull; omega
    · simp only [Cell.read, hc, List.map_append, List.map_cons, List.map_nil]

theorem openBelows_kept {disk : Disk} : ∀ {cfgs : List TierConfig} {i : Nat} {bs : List Below} {l : List Bytes}, Slices disk i cfgs l →
    l.length < 2 ^ 63 → openBelows disk i cfgs = .ok bs →
    (∀ more, ∀ b ∈ bs, Sound (l ++ more) b) ∧ (∀ n, n < l.length → ∃ b ∈ bs, Covers b n) ∧ ∀ b ∈ bs, ¬ Stuck b
  | [], _, bs, l, hsl, _, ho => by
    have hsl : l = [] := hsl
    injection ho with ho
    subst ho hsl
    exact ⟨fun _ b hb => (by cases hb), fun n hn => (by cases hn), fun b hb => (by cases hb)⟩
  | cfg :: cfgs, i, bs, l, hsl, hl, ho => by
    obtain ⟨deep, own, rfl, h2, h3⟩ := hsl
    rw [List.length_append] at hl
    rw [openBelows] at ho
    split at ho
    · next hnone =>
      split at ho
      · next bs' hr =>
        injection ho with ho
        subst ho
        obtain ⟨g1, g2, g3⟩ := openBelows_kept h2 (by omega) hr
        have hown : own = [] := by
          rcases h3 with ⟨-, h⟩ | ⟨h, -⟩
          · exact h
          · rw [hnone] at h; cases h
        subst hown
        rw [List.append_nil]
        refine ⟨fun more b hb => ?_, fun n hn => ?_, fun b hb => ?_⟩
        · rcases List.mem_cons.1 hb with rfl | hb
          · exact sound_empty _ _ _
          · exact g1 more b hb
        · obtain ⟨b, hb, hc⟩ := g2 n hn
          exact ⟨b, List.mem_cons_of_mem _ hb, hc⟩
        · rcases List.mem_cons.1 hb with rfl | hb
          · rintro ⟨h, -⟩; exact h rfl
          · exact g3 b hb
      · cases ho
      · cases ho
    · split at ho
      · cases ho
      · cases ho
      next t ht =>
      split at ho
      · next bs' hr =>
        injection ho with ho
        subst ho
        obtain ⟨g1, g2, g3⟩ := openBelows_kept h2 (by omega) hr
        refine ⟨fun more b hb => ?_, fun n hn => ?_, fun b hb => ?_⟩
        · rcases List.mem_cons.1 hb with rfl | hb
          · exact opened_sound h3 ht (by omega)
          · rw [List.append_assoc]
            exact g1 _ b hb
        · rw [List.length_append] at hn
          by_cases hlt : n < deep.length
          · obtain ⟨b, hb, hc⟩ := g2 n hlt
            exact ⟨b, List.mem_cons_of_mem _ hb, hc⟩
          · exact ⟨_, List.mem_cons_self, (opened_covers h3 ht (by omega)).2 (by omega)⟩
        · rcases List.mem_cons.1 hb with rfl | hb
          · rintro ⟨-, h⟩; cases h
          · exact g3 b hb
      · cases ho
      · cases ho

theorem kept_reopen {s : Settings} {k k' : Cake} {hs : List Bytes} (hk : Kept s k hs) (hl : hs.length < 2 ^ 63)
    (ho : reopen s k = .ok k') : Kept s k' hs ∧ (∀ b ∈ k'.chain, ¬ Stuck b) := by
  obtain ⟨⟨below, e1, e2, e3, e4, e5⟩, hsm, hc, hso⟩ := hk
  unfold reopen openCake openTop at ho
  split at ho
  · cases ho
  next top htop =>
  split at htop
  · cases htop
  injection htop with htop
  subst htop
  split at ho
  · next bs hb =>
    injection ho with ho
    subst ho
    obtain ⟨g1, g2, g3⟩ := openBelows_kept e4 (by rw [e1, List.length_append] at hl; omega) hb
    refine ⟨⟨⟨below, e1, e2, e3, e4, fun n hn => ?_⟩, hsm, rfl, ?_⟩, g3⟩
    · obtain ⟨b, hb, hc⟩ := g2 n hn
      exact ⟨b, hb, .inr hc⟩
    · rw [e1]; exact g1 _
  · cases ho
  · cases ho

theorem kept_new {s : Settings} {k : Cake} (hcap : 0 < s.cap) (h : newCake s = .ok k) : Kept s k [] ∧ (∀ b ∈ k.chain, ¬ Stuck b) := by
  unfold newCake openCake openTop at h
  rw [if_neg (by simp)] at h
  dsimp only at h
  split at h
  · next bs hb =>
    injection h with h
    subst h
    obtain ⟨g1, g2, g3⟩ := openBelows_kept (slices_none s.tiers 0) (by simp) hb
    exact ⟨⟨⟨[], rfl, rfl, ⟨0, rfl⟩, slices_none _ _, fun n hn => (by cases hn)⟩, hcap, rfl, by simpa using g1 []⟩, g3⟩
  · cases h
  · cases h

end Verif.Cake
