import Verif.Lemmas.CakeCascade
import Verif.Props.Cake

/-!
# Reading a cake by index while its tiers fill up and are emptied into the next

`Verif.Props.Cake` stops before the first tier is full. Here there is no such limit, and nothing is asked of the settings
or of the hashes.
-/

namespace Verif.Cake

open Verif.ShallowTree Verif.Chunk Verif.SingleTree Verif.DonutForest Verif.TierTop

/-! ## Histories -/

theorem run_kept {ent : List Entry → Nat → Nat} {s : Settings} : ∀ (ops : List Op) (k : Cake) (pre : List Bytes) {r : Cake × List Int},
    Kept s k pre → (pre ++ appended ops).length < 2 ^ 63 → run ent s k ops = .ok r →
    Kept s r.1 (pre ++ appended ops) ∧ r.2 = (List.range' pre.length (appended ops).length).map Int.ofNat := by
  intro ops
  induction ops with
  | nil =>
    intro k pre r hk _ hr
    injection hr with hr
    subst hr
    rw [appended, List.append_nil]
    exact ⟨hk, rfl⟩
  | cons op ops ih =>
    intro k pre r hk hl hr
    cases op with
    | reopen =>
      simp only [run] at hr
      split at hr
      · next k' ho =>
        have hl' : pre.length < 2 ^ 63 := by rw [List.length_append] at hl; omega
        exact ih k' pre (kept_reopen hk hl' ho).1 hl hr
      · cases hr
      · cases hr
    | append h =>
      simp only [run] at hr
      split at hr
      · next k' g ha =>
        split at hr
        · next k'' gs hrun =>
          injection hr with hr
          subst hr
          have happ : pre ++ appended (.append h :: ops) = (pre ++ [h]) ++ appended ops := by simp [appended]
          rw [happ] at hl ⊢
          have hl' : pre.length + 1 < 2 ^ 63 := by
            rw [List.length_append, List.length_append, List.length_singleton] at hl; omega
          obtain ⟨h1, h2⟩ := kept_append hk hl' ha
          obtain ⟨h3, h4⟩ := ih k' (pre ++ [h]) h1 hl hrun
          refine ⟨h3, ?_⟩
          dsimp only at h4 ⊢
          rw [h2, h4, List.length_append, List.length_singleton, appended, List.length_cons, List.range'_succ, List.map_cons]
          rfl
        · cases hr
        · cases hr
      · cases hr
      · cases hr

theorem run_snoc_reopen {ent : List Entry → Nat → Nat} {s : Settings} : ∀ (ops : List Op) (k : Cake) {r : Cake × List Int},
    run ent s k (ops ++ [.reopen]) = .ok r → ∃ k', run ent s k ops = .ok (k', r.2) ∧ reopen s k' = .ok r.1 := by
  intro ops
  induction ops with
  | nil =>
    intro k r hr
    simp only [List.nil_append, run] at hr
    split at hr
    · next k' ho =>
      injection hr with hr
      subst hr
      exact ⟨k, rfl, ho⟩
    · cases hr
    · cases hr
  | cons op ops ih =>
    intro k r hr
    cases op with
    | reopen =>
      simp only [List.cons_append, run] at hr ⊢
      split at hr
      · next k' ho =>
        exact ih k' hr
      · cases hr
      · cases hr
    | append h =>
      simp only [List.cons_append, run] at hr ⊢
      split at hr
      · next k' g ha =>
        split at hr
        · next k'' gs hrun =>
          injection hr with hr
          subst hr
          obtain ⟨k3, h1, h2⟩ := ih k' hrun
          exact ⟨k3, by rw [h1], h2⟩
        · cases hr
        · cases hr
      · cases hr
      · cases hr

theorem appended_reopen (ops : List Op) : appended (ops ++ [.reopen]) = appended ops := by
  induction ops with
  | nil => rfl
  | cons op ops ih => cases op <;> simp [appended, ih]

/-! ## Numbering -/

/-- **C116, and C64 without limit on the number of hashes.** Whatever the settings, the hashes and the tiers filled on the way: if no
operation fails, the appends return 0, 1, 2, .... -/
theorem every_append_is_numbered {ent : List Entry → Nat → Nat} {s : Settings} (hcap : 0 < s.cap) {ops : List Op}
    (hl : (appended ops).length < 2 ^ 63) {k0 k : Cake} {given : List Int} (h0 : newCake s = .ok k0)
    (hr : run ent s k0 ops = .ok (k, given)) : given = (List.range (appended ops).length).map Int.ofNat := by
  have := (run_kept ops k0 [] (kept_new hcap h0).1 (by simpa using hl) hr).2
  rw [List.range_eq_range']
  exact this

/-! ## The hash at an index -/

/-- What the top tier says. -/
theorem top_hash {s : Settings} {k : Cake} {hs below : List Bytes} (hcap : 0 < s.cap) (e1 : hs = below ++ k.top.file)
    (e2 : k.top.first = below.length) (e3 : s.cap ∣ below.length) (hsm : k.top.file.length < s.cap)
    (hc : k.top.cells = k.top.file.map .own) (m : Memory) (g : Int) :
    TierTop.tryGetHashAtIndex m k.top g =
      if (below.length : Int) ≤ g ∧ g < hs.length then if below = [] then some hs[g.toNat]? else none else some none := by
  have hcl : k.top.cells.length = k.top.file.length := by rw [hc, List.length_map]
  have hlen : hs.length = below.length + k.top.file.length := by rw [e1, List.length_append]
  have hw : withinRange g k.top.first k.top.cells.length = decide ((below.length : Int) ≤ g ∧ g < hs.length) := by
    unfold withinRange
    rw [e2, hcl, hlen, Bool.eq_iff_iff]
    simp
  unfold TierTop.tryGetHashAtIndex
  rw [hw]
  by_cases hin : (below.length : Int) ≤ g ∧ g < hs.length
  · rw [if_neg (by simpa using hin), if_pos hin]
    dsimp only
    unfold topOfGlobal
    rw [e2]
    by_cases hb : below = []
    · subst hb
      rw [if_pos rfl]
      rw [List.nil_append] at e1
      simp only [List.length_nil] at hin ⊢
      rw [if_neg (by omega)]
      have h1 : (g - -((0 : Nat) : Int)).toNat = g.toNat := by omega
      rw [h1, hc, List.getElem?_map, ← e1]
      have h2 : g.toNat < hs.length := by omega
      rw [List.getElem?_eq_getElem h2]
      rfl
    · rw [if_neg hb]
      have hpos : 0 < below.length := List.length_pos_iff.2 hb
      have hle := Nat.le_of_dvd hpos e3
      rw [if_neg (by omega), List.getElem?_eq_none (by omega)]
  · rw [if_pos (by simpa using hin), if_neg hin]

/-- The hash at an index, the hashes being as told: what should come back. -/
def shouldBe (hs : List Bytes) (g : Int) : Option Bytes := if g < 0 then none else hs[g.toNat]?

/-- **C116.** In a cake that has come through any history, whatever tiers have been filled: an answer to the question for
the hash at an index is the right one, be it a hash or 'not found'. (There may be none: `recent_hash_unreadable`,
`unknown_index_crashes`.) -/
theorem never_a_wrong_hash {ent : List Entry → Nat → Nat} {s : Settings} (hcap : 0 < s.cap) {ops : List Op}
    (hl : (appended ops).length < 2 ^ 63) {k0 k : Cake} {given : List Int} (h0 : newCake s = .ok k0)
    (hr : run ent s k0 ops = .ok (k, given)) (m : Memory) {g : Int} {a : Option Bytes} (ha : getHashAtIndex m k g = some a) :
    a = shouldBe (appended ops) g := by
  have hk := (run_kept ops k0 [] (kept_new hcap h0).1 (by simpa using hl) hr).1
  rw [List.nil_append] at hk
  dsimp only at hk
  generalize appended ops = hs at *
  obtain ⟨⟨below, e1, e2, e3, e4, e5⟩, hsm, hc, hso⟩ := hk
  unfold getHashAtIndex at ha
  rw [top_hash hcap e1 e2 e3 hsm hc m g] at ha
  unfold shouldBe
  by_cases hin : (below.length : Int) ≤ g ∧ g < hs.length
  · rw [if_pos hin] at ha
    rw [if_neg (by omega)]
    by_cases hb : below = []
    · rw [if_pos hb, List.getElem?_eq_getElem (show g.toNat < hs.length by omega)] at ha
      dsimp only at ha
      injection ha with ha
      rw [List.getElem?_eq_getElem (show g.toNat < hs.length by omega), ha]
    · rw [if_neg hb] at ha
      cases ha
  · rw [if_neg hin] at ha
    dsimp only at ha
    cases a with
    | some x =>
      obtain ⟨n, rfl, hx⟩ := hashBelow_sound hso ha
      rw [if_neg (by omega), Int.toNat_natCast, hx]
    | none =>
      by_cases hneg : g < 0
      · rw [if_pos hneg]
      · rw [if_neg hneg]
        obtain ⟨n, rfl⟩ : ∃ n : Nat, g = n := ⟨g.toNat, by omega⟩
        have hnot := hashBelow_not_found ha
        rw [Int.toNat_natCast]
        refine (List.getElem?_eq_none ?_).symm
        by_cases hlt : n < below.length
        · exact absurd (e5 n hlt) hnot
        · omega

theorem hashBelow_answers {g : Int} : ∀ {chain : List Below}, (∀ b ∈ chain, ¬ Stuck b) → hashBelow g chain ≠ none
  | [], _ => by simp [hashBelow]
  | b :: bs, h => by
    rw [hashBelow]
    split
    · next hy =>
      exfalso
      unfold belowHashAt at hy
      split at hy
      · cases hy
      · next f fs hf =>
        split at hy
        · next hn => exact h b List.mem_cons_self ⟨by rw [hf]; simp, hn⟩
        · cases hy
    · simp
    · exact hashBelow_answers fun c hc => h c (List.mem_cons_of_mem _ hc)

/-- **C116.** In a cake that has just been opened, whatever tiers were filled before: the question for the hash at an index
is answered, and rightly, unless the index is that of a hash still in the top tier of a cake with other hashes below; for
those the program crashes. -/
theorem reopened_cake_gives_every_hash {ent : List Entry → Nat → Nat} {s : Settings} (hcap : 0 < s.cap) {ops : List Op}
    (hl : (appended ops).length < 2 ^ 63) {k0 k : Cake} {given : List Int} (h0 : newCake s = .ok k0)
    (hr : run ent s k0 (ops ++ [.reopen]) = .ok (k, given)) (m : Memory) (g : Int) :
    getHashAtIndex m k g =
      if s.cap ≤ (appended ops).length ∧ (((appended ops).length / s.cap * s.cap : Nat) : Int) ≤ g ∧ g < (appended ops).length then none
      else some (shouldBe (appended ops) g) := by
  have hright := fun a => never_a_wrong_hash (a := a) hcap (by rw [appended_reopen]; exact hl) h0 hr m (g := g)
  rw [appended_reopen] at hright
  obtain ⟨k1, hr1, ho⟩ := run_snoc_reopen ops k0 hr
  have hk := (run_kept ops k0 [] (kept_new hcap h0).1 (by simpa using hl) hr1).1
  rw [List.nil_append] at hk
  dsimp only at hk ho
  generalize appended ops = hs at *
  obtain ⟨⟨⟨below, e1, e2, e3, e4, e5⟩, hsm, hc, hso⟩, hst⟩ := kept_reopen hk hl ho
  have hlen : hs.length = below.length + k.top.file.length := by rw [e1, List.length_append]
  have hdiv : hs.length / s.cap * s.cap = below.length := by
    obtain ⟨q, hq⟩ := e3
    rw [hlen, hq, Nat.mul_comm s.cap q, div_batches hsm]
  rw [hdiv]
  have hcases : s.cap ≤ hs.length ↔ below ≠ [] := by
    constructor
    · rintro h rfl
      simp only [List.length_nil, Nat.zero_add] at hlen
      omega
    · intro h
      have := Nat.le_of_dvd (List.length_pos_iff.2 h) e3
      omega
  simp only [hcases]
  have htop := top_hash hcap e1 e2 e3 hsm hc m g
  by_cases hp : below ≠ [] ∧ (below.length : Int) ≤ g ∧ g < hs.length
  · rw [if_pos hp]
    unfold getHashAtIndex
    rw [htop, if_pos hp.2, if_neg hp.1]
  · rw [if_neg hp]
    have hans : getHashAtIndex m k g ≠ none := by
      unfold getHashAtIndex
      rw [htop]
      by_cases hin : (below.length : Int) ≤ g ∧ g < hs.length
      · have hb : below = [] := Classical.byContradiction fun h => hp ⟨h, hin⟩
        rw [if_pos hin, if_pos hb, List.getElem?_eq_getElem (show g.toNat < hs.length by omega)]
        simp
      · rw [if_neg hin]
        exact hashBelow_answers hst
    cases hq : getHashAtIndex m k g with
    | none => exact absurd hq hans
    | some a => rw [hright a hq]

/-! ## Not vacuous -/

/-- A top tier that is full with one hash, a first tier below that is full with two forests. -/
def demoCascade : Settings := ⟨1, [⟨demoTier, 0, 2⟩, ⟨demoTier, 0, 5⟩]⟩

/-- The second append fills the first tier, and what is in it goes to the second tier. -/
def demoCascadeOps : List Op := [.append (demoHash [1]), .append (demoHash [2]), .append (demoHash [3])]

/-- What comes of a history: the indices returned, and the hashes at some indices. -/
def seen (s : Settings) (ops : List Op) (is : List Int) : Option (List Int × List (Option (Option Bytes))) :=
  match newCake s with
  | .ok k0 =>
    match run demoEnt s k0 ops with
    | .ok (k, gs) => some (gs, is.map fun i => getHashAtIndex (fun _ => []) k i)
    | _ => none
  | _ => none

/-- After opening again. -/
theorem demo_seen : seen demoCascade (demoCascadeOps ++ [.reopen]) [-1, 0, 1, 2, 3] =
    some ([0, 1, 2], [some none, some (some (demoHash [1])), some (some (demoHash [2])), some (some (demoHash [3])), some none]) := by
  decide +kernel

/-- Before: a closed tier is in the way of the answer for an index nothing has. -/
example : seen demoCascade demoCascadeOps [-1, 0, 1, 2, 3] =
    some ([0, 1, 2], [none, some (some (demoHash [1])), some (some (demoHash [2])), some (some (demoHash [3])), none]) := by
  decide +kernel

/-- The theorems are about such histories. -/
example : ∃ k0 k : Cake, newCake demoCascade = .ok k0 ∧ run demoEnt demoCascade k0 (demoCascadeOps ++ [.reopen]) = .ok (k, [0, 1, 2]) ∧
    ∀ m g, getHashAtIndex m k g = some (shouldBe [demoHash [1], demoHash [2], demoHash [3]] g) := by
  have hsome : (seen demoCascade (demoCascadeOps ++ [.reopen]) [-1, 0, 1, 2, 3]).isSome = true := by rw [demo_seen]; rfl
  unfold seen at hsome
  split at hsome
  · next k0 h0 =>
    split at hsome
    · next k gs hr =>
      have hn := every_append_is_numbered (by decide) (by decide +kernel) h0 hr
      refine ⟨k0, k, h0, ?_, fun m g => ?_⟩
      · rw [hr, hn]; rfl
      · rw [reopened_cake_gives_every_hash (ops := demoCascadeOps) (by decide) (by decide +kernel) h0 hr m g, if_neg]
        · rfl
        · rintro ⟨-, h1, h2⟩
          have e1 : (appended demoCascadeOps).length / demoCascade.cap * demoCascade.cap = 3 := by decide
          have e2 : (appended demoCascadeOps).length = 3 := by decide
          rw [e1] at h1
          rw [e2] at h2
          omega
    · cases hsome
  · cases hsome

/-! ## Taking the hashes out of a full tier -/

theorem takeOut_iff {cfg : TierConfig} {t : Tier} {n i : Nat} {l : List (List Entry)} : takeOut cfg t n i = some l ↔
    l.length = n ∧ ∀ k es, l[k]? = some es → getHashesAtIndex cfg.c cfg.pre t (i + k) = some es := by
  induction n generalizing i l with
  | zero =>
    rw [takeOut]
    constructor
    · intro h
      cases h
      exact ⟨rfl, fun k es hk => by simp at hk⟩
    · rintro ⟨h, _⟩
      rw [List.length_eq_zero_iff.mp h]
  | succ n ih =>
    rw [takeOut]
    constructor
    · intro h
      cases hg : getHashesAtIndex cfg.c cfg.pre t i with
      | none => simp [hg] at h
      | some es =>
        simp only [hg, Option.map_eq_some_iff] at h
        obtain ⟨l', h1, rfl⟩ := h
        obtain ⟨h2, h3⟩ := ih.mp h1
        refine ⟨by rw [List.length_cons, h2], fun k es' hk => ?_⟩
        cases k with
        | zero =>
          simp only [List.getElem?_cons_zero, Option.some.injEq] at hk
          rw [Nat.add_zero, hg, hk]
        | succ k =>
          rw [List.getElem?_cons_succ] at hk
          have := h3 k es' hk
          rwa [show i + 1 + k = i + (k + 1) by omega] at this
    · rintro ⟨h1, h2⟩
      cases l with
      | nil => simp at h1
      | cons es l' =>
        have h0 := h2 0 es rfl
        rw [Nat.add_zero] at h0
        have : takeOut cfg t n (i + 1) = some l' := by
          refine ih.mpr ⟨by simpa using h1, fun k es' hk => ?_⟩
          have := h2 (k + 1) es' (by rw [List.getElem?_cons_succ]; exact hk)
          rwa [show i + (k + 1) = i + 1 + k by omega] at this
        simp only [h0, this, Option.map_some]

/-- **C63, the part that is right.** When a full tier is emptied into the next, every one of its buckets is read, once and in the order
of their prefixes, and nothing else is: whatever the number of prefix bytes, the lists handed on are those which reading
each bucket gives, and there is a list for each. (What reading a bucket gives is wrong from two buckets on: `two_buckets_mixed_up`.) -/
theorem every_bucket_is_taken_out {cfg : TierConfig} {t : Tier} {l : List (List Entry)} : takeOut cfg t (256 ^ cfg.pre) 0 = some l ↔
    l.length = 256 ^ cfg.pre ∧ ∀ k es, l[k]? = some es → getHashesAtIndex cfg.c cfg.pre t k = some es := by
  rw [takeOut_iff]
  simp only [Nat.zero_add]

/-- A tier with one prefix byte and no forests has 256 empty buckets. -/
example (cfg : TierConfig) (h : cfg.pre = 1) (j : _) (hs : _) :
    takeOut cfg ⟨[], j, hs⟩ (256 ^ cfg.pre) 0 = some (List.replicate 256 []) := by
  rw [every_bucket_is_taken_out, h]
  refine ⟨by rw [List.length_replicate, Nat.pow_one], fun k es hk => ?_⟩
  rw [List.getElem?_replicate] at hk
  by_cases h1 : k < 256
  case neg => simp [h1] at hk
  simp only [h1, if_true, Option.some.injEq] at hk
  subst hk
  unfold getHashesAtIndex
  rw [if_neg (by omega)]

/-- A tier with one prefix byte and two hashes, both in bucket 7. -/
example : ((bake demoEnt demoPrefixConfig 1 0 [entriesOf 0 [[7, 1, 1, 1, 1, 1, 1, 1], [7, 2, 1, 1, 1, 1, 1, 1]]]).bind fun f =>
      (takeOut ⟨demoPrefixConfig, 1, 1⟩ ⟨[(f.first, f.levels)], f.jumps, [[7, 1, 1, 1, 1, 1, 1, 1], [7, 2, 1, 1, 1, 1, 1, 1]]⟩
        (256 ^ 1) 0).map fun l => (l.length, (l.map List.length).findIdx (fun n => n != 0), (l.map List.length).sum)) =
    some (256, 7, 2) := by decide +kernel

end Verif.Cake
