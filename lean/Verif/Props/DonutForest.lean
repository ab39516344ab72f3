import Verif.Lemmas.TierSearch
import Verif.Lemmas.TreePath

/-!
# Properties of a tier of donut forests
-/

namespace Verif.DonutForest

open Verif.ShallowTree Verif.Chunk Verif.SingleTree

/-! ## Specification -/

/-- Configurations considered: hashes of 8 to 63 bytes, ids of 2 to 4 bytes. -/
structure Sane (c : Config) : Prop where
  ids : ConfigOK c
  package : c.back = true
  specs : 5 ≤ c.specs ∧ c.specs ≤ 255
  length : 8 ≤ c.hl ∧ c.hl ≤ 63
  reassurance : c.r ≤ c.hl

/-- Batches of hashes, the first having the index `first`: at least one batch, each small enough for the widths of the
ids and without duplicates, indices not too large for an int64. -/
structure Batches (c : Config) (first : Int) (batches : List (List Bytes)) : Prop where
  nonempty : batches ≠ []
  batch : ∀ b ∈ batches, Batch c b
  start : 0 ≤ first
  total : first + batches.flatten.length < 2 ^ 63
  count : batches.length ≤ 2 ^ 19

/-- The batches go into the tier one after the other: each is baked into a forest, which is added to the folder with the
hashes. -/
def bakeAll (ent : List Entry → Nat → Nat) (c : Config) (pre : Nat) : Int → List (List Bytes) → Folder → Option Folder
  | _, [], d => some d
  | first, b :: bs, d =>
    match bake ent c pre first [entriesOf first b] with
    | none => none
    | some f => bakeAll ent c pre (first + b.length) bs (addForest d f b)

/-- What is wanted of lookups: the index of the hash's first appearance, nothing if it was never put in. -/
def Exact (c : Config) (pre : Nat) (tier : Tier) (first : Int) (hashes : List Bytes) : Prop :=
  ∀ q : Bytes, q.length = c.hl →
    tryIndexOfHash c pre tier q = some (if q ∈ hashes then some (first + hashes.idxOf q) else none)

/-! ## Baking and opening -/

theorem bakeAll_ok {ent : List Entry → Nat → Nat} (he : EntropyOK ent) {c : Config} (hc : Sane c) :
    ∀ (bs : List (List Bytes)) (first : Int) (d : Folder), (∀ b ∈ bs, Batch c b) → 0 ≤ first →
    first + bs.flatten.length < 2 ^ 63 →
    ∃ fs, GrownAll c first bs fs ∧ bakeAll ent c 0 first bs d = some (addAll d (fs.zip bs)) := by
  intro bs
  induction bs with
  | nil => intro first d _ _ _; exact ⟨[], trivial, rfl⟩
  | cons b bs ih =>
    intro first d hb h0 hm
    rw [List.flatten_cons, List.length_append] at hm
    obtain ⟨f, e1, e2⟩ := grown_of_batch he hc.ids hc.package hc.specs.1 hc.specs.2 (by have := hc.length; omega)
      hc.length.2 hc.reassurance h0 (by omega) (hb b (by simp))
    obtain ⟨fs, g1, g2⟩ := ih (first + b.length) (addForest d f b) (fun x hx => hb x (by simp [hx])) (by omega) (by omega)
    refine ⟨f :: fs, ⟨⟨hb b (by simp), e2⟩, g1⟩, ?_⟩
    rw [bakeAll, e1]
    dsimp only
    rw [g2]
    rfl

theorem zip_left {α β : Type} : ∀ {a : List α} {b : List β}, a.length = b.length → (a.zip b).map (·.1) = a := by
  intro a
  induction a with
  | nil => intro b _; rfl
  | cons x a ih => intro b h; match b with | [] => simp at h | y :: b => simp [ih (by simpa using h)]

theorem zip_right {α β : Type} : ∀ {a : List α} {b : List β}, a.length = b.length → (a.zip b).map (·.2) = b := by
  intro a
  induction a with
  | nil => intro b h; match b with | [] => rfl | _ :: _ => simp at h
  | cons x a ih => intro b h; match b with | [] => simp at h | y :: b => simp [ih (by simpa using h)]

/-- Everything about baking batches and opening the tier. -/
theorem bake_and_open {ent : List Entry → Nat → Nat} (he : EntropyOK ent) {c : Config} (hc : Sane c) {first : Int}
    {bs : List (List Bytes)} (hb : Batches c first bs) :
    ∃ d fs, bakeAll ent c 0 first bs noFolder = some d ∧ GrownAll c first bs fs ∧ ∀ quota, openTier quota d =
      if (∀ f ∈ fs, f.levels.length ≤ 10) ∧ bs.length ≤ quota then
        .ok ⟨fs.map fun f => (f.first, f.levels), fs.flatMap (·.jumps), bs.flatten⟩ else .panic := by
  obtain ⟨fs, hg, e1⟩ := bakeAll_ok he hc bs first noFolder hb.batch hb.start hb.total
  refine ⟨_, fs, e1, hg, ?_⟩
  have hlen := hg.length
  have hmem : ∀ x ∈ fs.zip bs, x.1 ∈ fs := fun x hx => (List.of_mem_zip (a := x.1) (b := x.2) hx).1
  intro quota
  rw [openTier_eq (quota := quota) (fs := fs.zip bs) (by
      intro h
      have := congrArg List.length h
      rw [List.length_zip, hlen] at this
      exact hb.nonempty (List.length_eq_zero_iff.1 (by simpa using this)))
    (fun x hx => (hg.neat _ (hmem x hx)).1) (fun x hx h => by
      have := (hg.neat _ (hmem x hx)).2
      rw [h] at this
      have := hc.ids.wlo
      simp at *
      omega) (by rw [List.length_zip, hlen]; simpa using hb.count)]
  have hl : (fs.zip bs).map (·.1) = fs := zip_left hlen
  have hr : (fs.zip bs).map (·.2) = bs := zip_right hlen
  have h1 : ((fs.zip bs).map fun f => (f.1.first, f.1.levels)) = fs.map fun f => (f.first, f.levels) := by
    conv_rhs => rw [← hl]
    rw [List.map_map]
    rfl
  have h2 : ((fs.zip bs).flatMap fun f => f.1.jumps) = fs.flatMap (·.jumps) := by
    conv_rhs => rw [← hl]
    rw [List.flatMap_map]
  have h3 : ((fs.zip bs).flatMap fun f => f.2) = bs.flatten := by
    conv_rhs => rw [← hr]
    rw [List.flatMap_def]
  have h4 : (∀ f ∈ fs.zip bs, f.1.levels.length ≤ 10) ↔ ∀ f ∈ fs, f.levels.length ≤ 10 := by
    conv_rhs => rw [← hl]
    simp
  rw [h1, h2, h3, List.length_zip, hlen, Nat.min_self]
  simp only [h4]

/-! ## Looking up -/

/-- **C58: partial.** Any batches are baked without panic. If the tier can then be opened, looking up any hash of the
right length does not panic; either the hash is said not to be there, which is true; or the index given is that of a hash
`h` of the first batch in which there is one the query looks like (`Plausible`), and no earlier batch has the query.
Missing: that `h` is the query (false, see `one_byte_off_is_found`), and that the tier can be opened (false, see
`deep_forest_cannot_be_opened`). -/
theorem tier_lookup_partial {ent : List Entry → Nat → Nat} (he : EntropyOK ent) {c : Config} (hc : Sane c) {first : Int}
    {bs : List (List Bytes)} (hb : Batches c first bs) :
    ∃ d, bakeAll ent c 0 first bs noFolder = some d ∧ ∀ quota tier, openTier quota d = .ok tier →
      ∀ q : Bytes, q.length = c.hl →
        (tryIndexOfHash c 0 tier q = some none ∧ q ∉ bs.flatten) ∨
        ∃ (pre : List (List Bytes)) (b : List Bytes) (post : List (List Bytes)) (i : Nat) (h : Bytes), bs = pre ++ b :: post ∧
          b[i]? = some h ∧ Plausible c b h q ∧ (∀ b' ∈ pre, q ∉ b') ∧
          tryIndexOfHash c 0 tier q = some (some (first + pre.flatten.length + i)) := by
  obtain ⟨d, fs, e1, hg, ho⟩ := bake_and_open he hc hb
  refine ⟨d, e1, fun quota tier ht q hq => ?_⟩
  rw [ho] at ht
  split at ht
  · injection ht with ht
    subst ht
    have h8 : tryIndexOfHash c 0 ⟨fs.map fun f => (f.first, f.levels), fs.flatMap (·.jumps), bs.flatten⟩ q =
        tryForests c 0 (fs.flatMap (·.jumps)) q 0 (fs.map fun f => (f.first, f.levels)) := by
      unfold tryIndexOfHash
      rw [if_neg (by have := hc.length; omega)]
    rw [h8]
    rcases grownAll_search hc.ids hc.length.2 hq bs fs first 0 hg (by
      intro i f hi
      rw [Nat.zero_add]
      exact jumps_at (fun f hf => (hg.neat f hf).2) hi) with ⟨g1, g2⟩ | h
    · left
      refine ⟨g1, ?_⟩
      rw [List.mem_flatten]
      rintro ⟨b, hbb, hqb⟩
      exact g2 b hbb hqb
    · right; exact h
  · cases ht

/-- With as many reassurance bytes as the hash has, what looks like a hash is that hash. -/
theorem Plausible.eq {c : Config} {b : List Bytes} {h q : Bytes} (hp : Plausible c b h q) (hr : c.hl ≤ c.r)
    (hh : h.length = c.hl) (hq : q.length = c.hl) : q = h := by
  obtain ⟨ex, -, h1, -, h3⟩ := hp
  have hall : ∀ i < c.hl, byteAt q i = byteAt h i := by
    intro i hi
    by_cases hx : i ∈ ex
    · exact (h1 i hx).2
    · refine h3 i ?_
      rw [List.take_of_length_le]
      · rw [List.mem_filter, List.mem_range]
        exact ⟨hi, by simpa using hx⟩
      · exact Nat.le_trans (List.length_filter_le _ _) (by rw [List.length_range]; exact hr)
  apply List.ext_getElem (by omega)
  intro i g1 g2
  have := hall i (by omega)
  simpa [byteAt, List.getD, g1, g2] using this

/-- **C58: partial.** If there are as many reassurance bytes as a hash has bytes, lookups in an opened tier are exact.
Missing: fewer reassurance bytes (`one_byte_off_is_found`), tiers that cannot be opened. -/
theorem tier_exact_if_all_reassured_partial {ent : List Entry → Nat → Nat} (he : EntropyOK ent) {c : Config} (hc : Sane c)
    (hr : c.r = c.hl) {first : Int} {bs : List (List Bytes)} (hb : Batches c first bs) :
    ∃ d, bakeAll ent c 0 first bs noFolder = some d ∧ ∀ quota tier, openTier quota d = .ok tier →
      Exact c 0 tier first bs.flatten := by
  obtain ⟨d, e1, h⟩ := tier_lookup_partial he hc hb
  refine ⟨d, e1, fun quota tier ht q hq => ?_⟩
  rcases h quota tier ht q hq with ⟨g1, g2⟩ | ⟨pre, b, post, i, x, g1, g2, g3, g4, g5⟩
  · rw [g1, if_neg g2]
  · have hbm : b ∈ bs := by rw [g1]; simp
    have hx := List.mem_of_getElem? g2
    have hqx := g3.eq (by omega) ((hb.batch b hbm).len x hx) hq
    subst hqx
    have hmem : q ∈ bs.flatten := List.mem_flatten.2 ⟨b, hbm, hx⟩
    rw [g5, if_pos hmem]
    have hpre : q ∉ pre.flatten := by
      rw [List.mem_flatten]
      rintro ⟨b', h1, h2⟩
      exact g4 b' h1 h2
    have hi : b.idxOf q = i := by
      obtain ⟨hlt, hget⟩ := List.getElem?_eq_some_iff.1 g2
      have := List.Nodup.idxOf_getElem (hb.batch b hbm).nodup i hlt
      rw [hget] at this
      exact this
    rw [g1, List.flatten_append, List.flatten_cons, List.idxOf_append, if_neg hpre, List.idxOf_append, if_pos hx, hi]
    congr 2
    omega

/-- **C58 fails.** In any tier that has been opened, if there are at least ten reassurance bytes fewer than bytes in a
hash, every hash of the first batch has others, different from it in one byte, that are said to be at its index. -/
theorem one_byte_off_is_found {ent : List Entry → Nat → Nat} (he : EntropyOK ent) {c : Config} (hc : Sane c)
    (hr : c.r + 10 ≤ c.hl) {first : Int} {b : List Bytes} {bs : List (List Bytes)} (hb : Batches c first (b :: bs)) :
    ∃ d, bakeAll ent c 0 first (b :: bs) noFolder = some d ∧ ∀ quota tier, openTier quota d = .ok tier →
      ∀ (i : Nat) (h : Bytes), b[i]? = some h → ∃ j < c.hl, ∀ v : UInt8,
        tryIndexOfHash c 0 tier (h.set j v) = some (some (first + i)) := by
  obtain ⟨d, fs, e1, hg, ho⟩ := bake_and_open he hc hb
  refine ⟨d, e1, fun quota tier ht i h hi => ?_⟩
  rw [ho] at ht
  split at ht
  · next hcond =>
    injection ht with ht
    subst ht
    match fs, hg with
    | f :: fs, hg =>
      obtain ⟨⟨hbt, hgr⟩, -⟩ := hg
      obtain ⟨t, m, root, g1, ⟨g2, g3⟩, g4, hB, hL, hm, hfits⟩ := hgr.tree
      have hlev := hcond.1 f (by simp)
      have hhl : h.length = c.hl := hbt.len h (List.mem_of_getElem? hi)
      have h63 := hc.length.2
      have hmem : (⟨h, (i : Int) + 1⟩ : Entry) ∈ localEntries first (entriesOf first b) := by
        refine List.mem_map.2 ⟨⟨h, first + i⟩, mem_entriesOf.2 ⟨i, hi, rfl⟩, ?_⟩
        dsimp only
        congr 1
        omega
      obtain ⟨j, hj, hall⟩ := taken_for (by omega) hB (by omega) hmem hhl
      refine ⟨j, hj, fun v => ?_⟩
      have hne : localEntries first (entriesOf first b) ≠ [] := List.ne_nil_of_mem hmem
      have hfind := find_ok hc.ids (h := h.set j v) (by rw [List.length_set, hhl]) (by omega) hfits f.levels 0 m [] t _ _ root hL
        (root_at hB hne) hB (by intro i hi; simpa [allUnused] using hi) (localEntries_ids hbt.ids) hm
      rw [hall v] at hfind
      unfold tryIndexOfHash
      have h8 := hc.length.1
      rw [if_neg (by rw [List.length_set]; omega), List.map_cons]
      unfold tryForests tryForest tableSize prefixIndex
      rw [Nat.pow_zero, Nat.one_mul, Nat.zero_mul, Nat.zero_add, List.take_zero, show leDec [] = 0 from rfl, Nat.zero_mul,
        List.flatMap_cons, g1]
      have hrd : readAt (leEnc c.w root ++ fs.flatMap (·.jumps)) 0 c.w = some (leEnc c.w root) := by
        have := readAt_mid (a := []) (b := leEnc c.w root) (d := fs.flatMap (·.jumps)) (off := 0) (n := c.w) rfl (by simp)
        simpa using this
      rw [hrd]
      dsimp only
      rw [leDec_leEnc_of_lt g3, if_neg (by omega), afterPrefix_zero, List.drop_zero, hfind, Option.map_some]
      dsimp only
      have h1 : toId ((i : Int) + 1) = i + 1 := by unfold toId; rw [if_neg (by omega)]; omega
      rw [h1, if_neg (by omega), hgr.start]
      unfold globalOfId
      rw [if_neg (by omega)]
      dsimp only
      congr 2
      omega
  · cases ht

/-- **C58, the negation.** With at least ten reassurance bytes fewer than bytes in a hash, no tier opened after baking is
exact. -/
theorem opened_tier_is_not_exact {ent : List Entry → Nat → Nat} (he : EntropyOK ent) {c : Config} (hc : Sane c)
    (hr : c.r + 10 ≤ c.hl) {first : Int} {bs : List (List Bytes)} (hb : Batches c first bs) {d : Folder} {quota : Nat} {tier : Tier}
    (hd : bakeAll ent c 0 first bs noFolder = some d) (ht : openTier quota d = .ok tier) :
    ¬ Exact c 0 tier first bs.flatten := by
  match bs, hb with
  | b :: bs, hb =>
    obtain ⟨d', e1, hall⟩ := one_byte_off_is_found he hc hr hb
    rw [hd] at e1
    obtain rfl := Option.some.inj e1
    have hbt := hb.batch b (by simp)
    obtain ⟨h, b', rfl⟩ := List.exists_cons_of_ne_nil hbt.nonempty
    obtain ⟨j, hj, hv⟩ := hall quota tier ht 0 h rfl
    have hhl := hbt.len h (by simp)
    intro hex
    have h1 := hv (otherByte (byteAt h j))
    have h2 := hex (h.set j (otherByte (byteAt h j))) (by rw [List.length_set, hhl])
    rw [h1] at h2
    have hne : h.set j (otherByte (byteAt h j)) ≠ h := by
      intro heq
      have := byteAt_set (h := h) (j := j) (by omega) (otherByte (byteAt h j)) j
      rw [heq, if_pos rfl] at this
      exact otherByte_ne _ this.symm
    injection h2 with h2
    split at h2
    · injection h2 with h2
      have hz : ((h :: b') :: bs).flatten.idxOf (h.set j (otherByte (byteAt h j))) = 0 := by omega
      rw [List.flatten_cons, List.cons_append, List.idxOf_cons] at hz
      rw [beq_eq_false_iff_ne.2 (fun h => hne h.symm)] at hz
      simp at hz
    · cases h2

/-! ## The hash at an index -/

/-- **C59.** In an opened tier the hash at an index is the hash that was put in under it; for indices outside there is
none. -/
theorem tier_hash_at_index {ent : List Entry → Nat → Nat} (he : EntropyOK ent) {c : Config} (hc : Sane c) {first : Int}
    {bs : List (List Bytes)} (hb : Batches c first bs) :
    ∃ d, bakeAll ent c 0 first bs noFolder = some d ∧ ∀ quota tier, openTier quota d = .ok tier →
      (∀ p : Nat, tryGetHashAtIndex tier (first + p) = bs.flatten[p]?) ∧ ∀ g < first, tryGetHashAtIndex tier g = none := by
  obtain ⟨d, fs, e1, hg, ho⟩ := bake_and_open he hc hb
  refine ⟨d, e1, fun quota tier ht => ?_⟩
  rw [ho] at ht
  split at ht
  · injection ht with ht
    subst ht
    match bs, fs, hg, hb.nonempty with
    | b :: bs, f :: fs, hg, _ =>
      have hf := hg.1.2.start
      unfold tryGetHashAtIndex
      rw [List.map_cons]
      dsimp only
      rw [hf]
      refine ⟨fun p => ?_, fun g hgl => if_neg (by omega)⟩
      by_cases hp : p < (b :: bs).flatten.length
      · rw [if_pos (by omega)]
        congr 1
        omega
      · rw [if_neg (by omega), List.getElem?_eq_none (by omega)]
  · cases ht

/-! ## Taking the hashes out -/

/-- **C60.** The hashes taken out of an opened tier without prefix bytes, to be put into the next, are exactly those put
in, with their indices (in some order). -/
theorem tier_gives_back_all_hashes {ent : List Entry → Nat → Nat} (he : EntropyOK ent) {c : Config} (hc : Sane c) {first : Int}
    {bs : List (List Bytes)} (hb : Batches c first bs) :
    ∃ d, bakeAll ent c 0 first bs noFolder = some d ∧ ∀ quota tier, openTier quota d = .ok tier →
      ∃ es, getHashesAtIndex c 0 tier 0 = some es ∧ es.Perm (entriesOf first bs.flatten) := by
  obtain ⟨d, fs, e1, hg, ho⟩ := bake_and_open he hc hb
  refine ⟨d, e1, fun quota tier ht => ?_⟩
  rw [ho] at ht
  split at ht
  · injection ht with ht
    match bs, fs, hg, hb.nonempty with
    | b :: bs, f :: fs, hg, _ =>
      have hf := hg.1.2.start
      obtain ⟨es, g1, g2⟩ := grownAll_hashes hc.ids hc.length.2 (t := tier) (base := first) (b :: bs) (f :: fs) first 0 [] hg
        (by
          intro i f' hi
          rw [Nat.zero_add, ← ht]
          exact jumps_at (fun f hf => (hg.neat f hf).2) hi)
        (by rw [← ht]; rfl) (by simp)
      refine ⟨es, ?_, g2⟩
      unfold getHashesAtIndex
      rw [if_neg (by simp)]
      have hfo : tier.forests = (f.first, f.levels) :: fs.map fun f => (f.first, f.levels) := by rw [← ht]; rfl
      rw [hfo]
      dsimp only
      rw [hf, ← hf, ← List.map_cons (f := fun f : Forest => (f.first, f.levels)), hf]
      exact g1
  · cases ht

/-! ## Opening -/

/-- **C61: partial.** Any batches are baked without panic, and the tier is opened without error or panic exactly if there
are not more forests than the quota and none has more than ten levels. Missing: that it can be opened whatever the hashes
(`deep_forest_cannot_be_opened`). -/
theorem tier_opens_if_shallow_partial {ent : List Entry → Nat → Nat} (he : EntropyOK ent) {c : Config} (hc : Sane c) {first : Int}
    {bs : List (List Bytes)} (hb : Batches c first bs) :
    ∃ d fs, bakeAll ent c 0 first bs noFolder = some d ∧ GrownAll c first bs fs ∧ ∀ quota,
      ((∃ tier, openTier quota d = .ok tier) ↔ bs.length ≤ quota ∧ ∀ f ∈ fs, f.levels.length ≤ 10) ∧
      ((¬ ∃ tier, openTier quota d = .ok tier) → openTier quota d = .panic) := by
  obtain ⟨d, fs, e1, hg, ho⟩ := bake_and_open he hc hb
  refine ⟨d, fs, e1, hg, fun quota => ?_⟩
  rw [ho]
  split
  · next h => exact ⟨⟨fun _ => ⟨h.2, h.1⟩, fun _ => ⟨_, rfl⟩⟩, fun h' => absurd ⟨_, rfl⟩ h'⟩
  · next h =>
    refine ⟨⟨?_, fun h' => absurd ⟨h'.2, h'.1⟩ h⟩, fun _ => rfl⟩
    rintro ⟨_, h'⟩
    cases h'

/-- How many levels there are at least. -/
theorem grown_levels_gt {c : Config} {first : Int} {b : List Bytes} {f : Forest} (hg : Grown c first b f) {h : Bytes}
    (hh : h ∈ b) {places : List Nat} (hn : places.Nodup)
    (hv : ∀ i ∈ places, ∃ h' ∈ b, h' ≠ h ∧ ∀ j, j ≠ i → byteAt h' j = byteAt h j) : places.length < f.levels.length := by
  obtain ⟨t, m, root, -, -, g4, hB, -⟩ := hg.tree
  have hloc : ∀ x ∈ b, ∃ e ∈ localEntries first (entriesOf first b), e.hash = x := by
    intro x hx
    obtain ⟨i, hi⟩ := List.getElem?_of_mem hx
    exact ⟨_, List.mem_map.2 ⟨⟨x, first + i⟩, mem_entriesOf.2 ⟨i, hi, rfl⟩, rfl⟩, rfl⟩
  obtain ⟨e, he, rfl⟩ := hloc h hh
  rw [g4]
  refine deep_path hB he hn ?_
  intro i hi
  obtain ⟨h', h1, h2, h3⟩ := hv i hi
  obtain ⟨e', he', rfl⟩ := hloc h' h1
  exact ⟨e', he', h2, h3⟩

theorem GrownAll.mem {c : Config} : ∀ {first : Int} {bs : List (List Bytes)} {fs : List Forest}, GrownAll c first bs fs →
    ∀ b ∈ bs, ∃ f ∈ fs, ∃ first', Grown c first' b f := by
  intro first bs
  induction bs generalizing first with
  | nil => intro fs _ b hb; simp at hb
  | cons b bs ih =>
    intro fs h
    match fs with
    | [] => exact h.elim
    | f :: fs =>
      intro b' hb'
      rcases List.mem_cons.1 hb' with rfl | hb'
      · exact ⟨f, by simp, first, h.1.2⟩
      · obtain ⟨f', h1, h2⟩ := ih h.2 b' hb'
        exact ⟨f', by simp [h1], h2⟩

/-- **C61 fails.** If a batch has a hash and, for ten places or more, another that differs from it in that place only,
the tier is baked and can never be opened: the program panics. (Level files are named with decimal numbers when written
and looked for under hexadecimal ones, so those from the eleventh on are not found.) -/
theorem deep_forest_cannot_be_opened {ent : List Entry → Nat → Nat} (he : EntropyOK ent) {c : Config} (hc : Sane c)
    {first : Int} {bs : List (List Bytes)} (hb : Batches c first bs) {b : List Bytes} (hbm : b ∈ bs) {h : Bytes} (hh : h ∈ b)
    {places : List Nat} (hn : places.Nodup) (h10 : 10 ≤ places.length)
    (hv : ∀ i ∈ places, ∃ h' ∈ b, h' ≠ h ∧ ∀ j, j ≠ i → byteAt h' j = byteAt h j) :
    ∃ d, bakeAll ent c 0 first bs noFolder = some d ∧ ∀ quota, openTier quota d = .panic := by
  obtain ⟨d, fs, e1, hg, ho⟩ := bake_and_open he hc hb
  refine ⟨d, e1, fun quota => ?_⟩
  rw [ho, if_neg]
  rintro ⟨hall, -⟩
  obtain ⟨f, hf, first', hgr⟩ := hg.mem b hbm
  have := grown_levels_gt hgr hh hn hv
  have := hall f hf
  omega

/-- Every node has fewer nodes above it than the tree has hashes. -/
theorem path_lt {r hl : Nat} {l : List Entry} {f : Flags} {t : Tree} (hB : Built r hl l f t) :
    ∀ (p : List UInt8), ∀ n ∈ preorder p t, n.1.length < p.length + l.length := by
  induction hB with
  | empty => intro p n hn; simp [preorder] at hn
  | leaf =>
    intro p n hn
    simp only [preorder, List.mem_singleton] at hn
    subst hn
    simp
  | @slots l f bi next runs h1 h2 h3 hp hb ih =>
    intro p n hn
    obtain ⟨x, hx, y, hy, hxy⟩ := h3
    simp only [preorder, List.mem_cons, List.mem_flatMap] at hn
    rcases hn with rfl | ⟨b, -, hn⟩
    · have := List.length_pos_of_mem hx
      dsimp only
      omega
    · have h4 := ih b _ n hn
      have h5 : (runs b).length < l.length := by
        rw [(hp b).length_eq, ← List.countP_eq_length_filter]
        rcases Nat.lt_or_ge (l.countP fun e => decide (byteAt e.hash bi = b)) l.length with h | h
        · exact h
        · have hall := List.countP_eq_length.1 (Nat.le_antisymm List.countP_le_length h)
          have e1 := hall x hx
          have e2 := hall y hy
          simp only [decide_eq_true_eq] at e1 e2
          exact absurd (e1.trans e2.symm) hxy
      simp only [List.length_append, List.length_cons, List.length_nil] at h4
      omega

theorem GrownAll.mem_batch {c : Config} : ∀ {first : Int} {bs : List (List Bytes)} {fs : List Forest}, GrownAll c first bs fs →
    ∀ f ∈ fs, ∃ b ∈ bs, ∃ first', Grown c first' b f := by
  intro first bs
  induction bs generalizing first with
  | nil => intro fs h; match fs with | [] => simp | _ :: _ => exact h.elim
  | cons b bs ih =>
    intro fs h
    match fs with
    | [] => exact h.elim
    | f :: fs =>
      intro f' hf'
      rcases List.mem_cons.1 hf' with rfl | hf'
      · exact ⟨b, by simp, first, h.1.2⟩
      · obtain ⟨b', h1, h2⟩ := ih h.2 f' hf'
        exact ⟨b', by simp [h1], h2⟩

/-- **C61: partial.** A tier can be opened if its hashes have at most nine bytes, or its batches at most ten hashes. -/
theorem small_tier_opens_partial {ent : List Entry → Nat → Nat} (he : EntropyOK ent) {c : Config} (hc : Sane c) {first : Int}
    {bs : List (List Bytes)} (hb : Batches c first bs) (hsmall : c.hl ≤ 9 ∨ ∀ b ∈ bs, b.length ≤ 10) {quota : Nat}
    (hq : bs.length ≤ quota) :
    ∃ d tier, bakeAll ent c 0 first bs noFolder = some d ∧ openTier quota d = .ok tier := by
  obtain ⟨d, fs, e1, hg, ho⟩ := bake_and_open he hc hb
  refine ⟨d, ⟨fs.map fun f => (f.first, f.levels), fs.flatMap (·.jumps), bs.flatten⟩, e1, ?_⟩
  rw [ho, if_pos]
  refine ⟨?_, hq⟩
  intro f hf
  obtain ⟨b, hbm, first', hgr⟩ := hg.mem_batch f hf
  obtain ⟨t, m, root, -, -, g4, hB, -⟩ := hgr.tree
  rw [g4]
  have hle := levelCount_le hB
  rcases hsmall with h | h
  · omega
  · have h1 := h b hbm
    unfold levelCount
    refine (levelCount_fold (visitAll t) 0).2.2 10 (by omega) ?_
    intro n hn
    rw [visitAll_eq] at hn
    have := path_lt hB [] n hn
    rw [localEntries, List.length_map, entriesOf_length] at this
    simp only [List.length_nil] at this
    omega

/-- The number of places in which two hashes have the same byte. -/
def agreements (hl : Nat) (x y : Bytes) : Nat := (List.range hl).countP fun i => decide (byteAt x i = byteAt y i)

/-- No two different hashes of the batch have the same byte in nine or more places. -/
def Spread (hl : Nat) (b : List Bytes) : Prop := ∀ x ∈ b, ∀ y ∈ b, x ≠ y → agreements hl x y < 9

theorem levels_le_of_spread {c : Config} {first : Int} {b : List Bytes} {f : Forest} (hg : Grown c first b f) (hs : Spread c.hl b) :
    f.levels.length ≤ 10 := by
  obtain ⟨t, m, root, -, -, g4, hB, -⟩ := hg.tree
  rw [g4]
  refine levels_of_spread hB (d := 9) ?_
  have hloc : ∀ e ∈ localEntries first (entriesOf first b), e.hash ∈ b := by
    intro e he
    obtain ⟨x, hx, rfl⟩ := List.mem_map.1 he
    obtain ⟨i, h1, -⟩ := mem_entriesOf.1 hx
    exact List.mem_of_getElem? h1
  intro x hx y hy hne
  exact hs _ (hloc x hx) _ (hloc y hy) hne

/-- **C61: partial.** A tier can be opened if in no batch two hashes agree in nine or more bytes, as is to be expected of
65535 hashes that are random. -/
theorem tier_opens_if_spread_partial {ent : List Entry → Nat → Nat} (he : EntropyOK ent) {c : Config} (hc : Sane c) {first : Int}
    {bs : List (List Bytes)} (hb : Batches c first bs) (hs : ∀ b ∈ bs, Spread c.hl b) {quota : Nat} (hq : bs.length ≤ quota) :
    ∃ d tier, bakeAll ent c 0 first bs noFolder = some d ∧ openTier quota d = .ok tier := by
  obtain ⟨d, fs, e1, hg, ho⟩ := bake_and_open he hc hb
  refine ⟨d, ⟨fs.map fun f => (f.first, f.levels), fs.flatMap (·.jumps), bs.flatten⟩, e1, ?_⟩
  rw [ho, if_pos]
  refine ⟨?_, hq⟩
  intro f hf
  obtain ⟨b, hbm, first', hgr⟩ := hg.mem_batch f hf
  exact levels_le_of_spread hgr (hs b hbm)

/-! ## Duplicates -/

/-- **C62.** Baking a batch of hashes of the right length, few enough, panics exactly if two of them are equal. -/
theorem bake_panics_iff_duplicates {ent : List Entry → Nat → Nat} (he : EntropyOK ent) {c : Config} (hc : Sane c) {first : Int}
    {b : List Bytes} (h0 : 0 ≤ first) (hm : first < 2 ^ 63) (hne : b ≠ []) (hlen : ∀ h ∈ b, h.length = c.hl)
    (hids : b.length < 256 ^ c.hw) (hcount : b.length < 256 ^ c.w) :
    bake ent c 0 first [entriesOf first b] = none ↔ ¬ b.Nodup := by
  have hl := hc.length
  constructor
  · intro h hn
    obtain ⟨f, e, -⟩ := grown_of_batch he hc.ids hc.package hc.specs.1 hc.specs.2 (by omega) hl.2 hc.reassurance h0 hm
      (b := b) ⟨hne, hlen, hn, hids, hcount⟩
    rw [h] at e
    cases e
  · intro hn
    unfold bake
    have hs : [entriesOf first b].flatMap (split 0) = [entriesOf first b] := by simp [split]
    rw [hs, allTrees]
    have ht : treeOf ent c 0 first (entriesOf first b) = none := by
      unfold treeOf
      split
      · rfl
      · next loc hloc =>
        split
        · rfl
        · rw [toLocal_ok (c := c) (first := first)] at hloc
          · injection hloc with hloc
            have hmap : loc.map (·.hash) = b := by
              rw [← hloc, localEntries, List.map_map]
              exact entriesOf_hash first b
            unfold generateSingle
            split
            · rfl
            split
            · rfl
            split
            · rfl
            split
            · rfl
            match loc, hmap with
            | [], h => exact absurd h.symm hne
            | [e], h => rw [← h] at hn; simp at hn
            | x :: y :: l, h =>
              dsimp only
              cases hg : gen ent c.r c.hl (c.hl + 1) (x :: y :: l) (afterPrefix c.hl 0) with
              | none => rfl
              | some t =>
                have := gen_nodup _ _ _ _ hg
                rw [h] at this
                exact absurd this hn
          · intro e hee
            obtain ⟨i, g1, g2⟩ := mem_entriesOf.1 hee
            have hi := (List.getElem?_eq_some_iff.1 g1).1
            have hw32 := pow256_le hc.ids.hwhi
            have := c.wrap_ge
            unfold Config.max
            omega
    rw [ht]

/-! ## Prefix bytes -/

/-- What is wanted of a forest with prefix bytes: it is made, and every hash is found in a tier of it alone. `source` has
the hashes by the prefix the source tier has them under. -/
def Found (ent : List Entry → Nat → Nat) (c : Config) (pre : Nat) (first : Int) (source : List (List Entry)) : Prop :=
  ∃ f, bake ent c pre first source = some f ∧ ∀ l ∈ source, ∀ e ∈ l,
    tryIndexOfHash c pre ⟨[(f.first, f.levels)], f.jumps, []⟩ e.hash = some (some e.pi)

/-- An empty tree has no root. -/
theorem treeLevels_empty {c : Config} {pre : Nat} : ∀ (fs : List LevelFormat) (level : Nat) (s : Serialized),
    treeLevels c pre .empty level fs = some s → s.root = 0 := by
  intro fs
  induction fs with
  | nil =>
    intro level s h
    rw [treeLevels] at h
    injection h with h
    subst h
    rfl
  | cons lf fs ih =>
    intro level s h
    have hno : nodesOn pre .empty level = [] := by
      unfold nodesOn nodesAt
      split
      · rfl
      · simp [visitAll_eq, preorder]
    rw [treeLevels] at h
    split at h
    · cases h
    · next s' hs' =>
      rw [hno, allocRun] at h
      dsimp only at h
      split at h
      · cases h
      · split at h
        · cases h
        · injection h with h
          subst h
          dsimp only
          split
          · simp [idMap]
          · exact ih _ _ hs'

/-- The jump table: for each tree an entry; for an empty one it is 0. -/
theorem writeTrees_jumps {c : Config} {pre : Nat} : ∀ (ts : List Tree) (fs : List LevelFormat) (nodes : List Bytes) (jumps : Bytes),
    writeTrees c pre ts fs = some (nodes, jumps) → ∃ roots : List Nat, jumps = roots.flatMap (leEnc c.w) ∧
      roots.length = ts.length ∧ ∀ k : Nat, ts[k]? = some .empty → roots[k]? = some 0 := by
  intro ts
  induction ts with
  | nil =>
    intro fs nodes jumps h
    rw [writeTrees] at h
    injection h with h
    injection h with _ h
    subst h
    exact ⟨[], rfl, rfl, by simp⟩
  | cons t ts ih =>
    intro fs nodes jumps h
    rw [writeTrees] at h
    split at h
    · cases h
    · next s hs =>
      obtain ⟨⟨ns, js⟩, e1, e2⟩ := Option.map_eq_some_iff.1 h
      injection e2 with _ e2
      obtain ⟨roots, g1, g2, g3⟩ := ih _ _ _ e1
      refine ⟨s.root :: roots, ?_, by simp [g2], ?_⟩
      · rw [← e2]
        dsimp only
        rw [g1]
        rfl
      · intro k hk
        match k with
        | 0 =>
          simp only [List.getElem?_cons_zero, Option.some.injEq] at hk
          subst hk
          rw [treeLevels_empty _ _ _ hs]
          rfl
        | k + 1 => exact g3 k hk

theorem allTrees_get {ent : List Entry → Nat → Nat} {c : Config} {pre : Nat} {first : Int} : ∀ (buckets : List (List Entry))
    (ts : List Tree), allTrees ent c pre first buckets = some ts → ts.length = buckets.length ∧
    ∀ k : Nat, buckets[k]? = some [] → ts[k]? = some .empty := by
  intro buckets
  induction buckets with
  | nil =>
    intro ts h
    rw [allTrees] at h
    injection h with h
    subst h
    simp
  | cons b bs ih =>
    intro ts h
    rw [allTrees] at h
    split at h
    · cases h
    · next t ht =>
      obtain ⟨ts', e1, rfl⟩ := Option.map_eq_some_iff.1 h
      obtain ⟨g1, g2⟩ := ih _ e1
      refine ⟨by simp [g1], ?_⟩
      intro k hk
      match k with
      | 0 =>
        simp only [List.getElem?_cons_zero, Option.some.injEq] at hk
        subst hk
        have : treeOf ent c pre first [] = some t := ht
        unfold treeOf at this
        simp only [toLocal, List.any_nil, Bool.false_eq_true, if_false] at this
        unfold generateSingle at this
        split at this
        · cases this
        split at this
        · cases this
        split at this
        · cases this
        simp at this
        simp [this]
      | k + 1 => exact g2 k hk

/-- The hashes by their first byte, as the tier with one prefix byte has them. -/
def byFirst (l : List Entry) : List (List Entry) := allBytes.map fun b => l.filter fun e => byteAt e.hash 0 = b

/-- The bucket for two prefix bytes has the place the writer gives it. -/
theorem bucket_place (l : List Entry) (a b : UInt8) : ((byFirst l).flatMap (split 2))[256 * a.toNat + b.toNat]? =
    some (l.filter fun e => decide (byteAt e.hash 1 = b) && decide (byteAt e.hash 0 = a)) := by
  have hlen : ∀ x ∈ byFirst l, (split 2 x).length = 256 := by
    intro x _
    simp [split, allBytes]
  have hgen : ∀ (xs : List (List Entry)) (i j : Nat) (x : List Entry), (∀ x ∈ xs, (split 2 x).length = 256) → xs[i]? = some x → j < 256 →
      (xs.flatMap (split 2))[256 * i + j]? = (split 2 x)[j]? := by
    intro xs
    induction xs with
    | nil => intro i j x _ h; simp at h
    | cons y ys ih =>
      intro i j x hl hx hj
      have hy := hl y (by simp)
      rw [List.flatMap_cons]
      match i with
      | 0 =>
        simp only [List.getElem?_cons_zero, Option.some.injEq] at hx
        subst hx
        rw [Nat.mul_zero, Nat.zero_add, List.getElem?_append_left (by omega)]
      | i + 1 =>
        rw [List.getElem?_append_right (by omega), hy, show 256 * (i + 1) + j - 256 = 256 * i + j by omega]
        exact ih i j x (fun x hx => hl x (by simp [hx])) (by simpa using hx) hj
  have ha := a.toNat_lt
  have hb := b.toNat_lt
  have hab : ∀ (v : UInt8), allBytes[v.toNat]? = some v := by
    intro v
    have hv := v.toNat_lt
    unfold allBytes
    rw [List.getElem?_map, List.getElem?_range (by omega)]
    simp
  rw [hgen (byFirst l) a.toNat b.toNat (l.filter fun e => byteAt e.hash 0 = a) hlen (by simp [byFirst, hab]) hb]
  unfold split
  rw [if_neg (by omega), List.getElem?_map, hab]
  simp [List.filter_filter]

/-- **C63 fails for two prefix bytes.** A hash beginning with `a`, `b` cannot be found if no hash begins with `b`, `a`
(the buckets are numbered with the first byte as the more significant one, the jump table is read with the second as the
more significant). -/
theorem two_prefix_bytes_swapped (ent : List Entry → Nat → Nat) {c : Config} {first : Int} {l : List Entry} {e : Entry}
    (he : e ∈ l) {a b : UInt8} {rest : Bytes} (h : e.hash = a :: b :: rest)
    (hno : ∀ e' ∈ l, byteAt e'.hash 0 = b → byteAt e'.hash 1 ≠ a) : ¬ Found ent c 2 first (byFirst l) := by
  rintro ⟨f, hf, hall⟩
  have hsrc : (l.filter fun e => byteAt e.hash 0 = a) ∈ byFirst l := List.mem_map.2 ⟨a, mem_allBytes a, rfl⟩
  have h1 := hall _ hsrc e (List.mem_filter.2 ⟨he, by simp [h, byteAt]⟩)
  unfold bake at hf
  split at hf
  · cases hf
  · next trees ht =>
    split at hf
    · cases hf
    · next fs hd =>
      split at hf
      · cases hf
      · split at hf
        · cases hf
        · next nodes jumps hw =>
          injection hf with hf
          subst hf
          obtain ⟨roots, g1, g2, g3⟩ := writeTrees_jumps _ _ _ _ hw
          obtain ⟨t1, t2⟩ := allTrees_get _ _ ht
          have hplace := bucket_place l b a
          have hemp : (l.filter fun e => decide (byteAt e.hash 1 = a) && decide (byteAt e.hash 0 = b)) = [] := by
            rw [List.filter_eq_nil_iff]
            intro x hx hxx
            simp only [Bool.and_eq_true, decide_eq_true_eq] at hxx
            exact hno x hx hxx.2 hxx.1
          rw [hemp] at hplace
          have hroot := g3 _ (t2 _ hplace)
          have hread := readAt_records (leEnc c.w) c.w roots _ 0 hroot (fun _ _ => leEnc_length _ _) [] []
          simp only [List.nil_append, List.append_nil, List.length_nil, Nat.zero_add] at hread
          unfold tryIndexOfHash at h1
          split at h1
          · cases h1
          · unfold tryForests tryForest at h1
            have hpi : prefixIndex 2 e.hash = 256 * b.toNat + a.toNat := by
              rw [h]
              simp [prefixIndex, leDec]
              omega
            dsimp only at h1
            rw [hpi, Nat.zero_mul, Nat.zero_add, g1, hread] at h1
            dsimp only at h1
            rw [leDec_leEnc_of_lt (Nat.pow_pos (by decide)), if_pos rfl, tryForests] at h1
            cases h1

/-! ## Examples -/

/-- Hashes of eight bytes, two reassurance bytes, the id widths of the tier with one prefix byte. -/
def demoPrefixConfig : Config := ⟨8, 1, 5, 3, 3, true⟩

/-- Two hashes beginning with 7 and one with 8. -/
def demoPrefixHashes : List Bytes := [[7, 1, 1, 1, 1, 1, 1, 1], [7, 2, 1, 1, 1, 1, 1, 1], [8, 8, 1, 1, 1, 1, 1, 1]]

/-- **C63 fails for one prefix byte.** Of three hashes in two buckets the first cannot be found: the search for it panics.
(A level has a node of each of two formats, in different trees. The nodes are numbered by format, but the bytes are written
tree by tree.) -/
theorem two_buckets_mixed_up : Sane demoPrefixConfig ∧ Batch demoPrefixConfig demoPrefixHashes ∧
    ¬ Found demoEnt demoPrefixConfig 1 0 [entriesOf 0 demoPrefixHashes] := by
  have h : (match bake demoEnt demoPrefixConfig 1 0 [entriesOf 0 demoPrefixHashes] with
      | none => true
      | some f => decide (tryIndexOfHash demoPrefixConfig 1 ⟨[(f.first, f.levels)], f.jumps, []⟩ [7, 1, 1, 1, 1, 1, 1, 1] = none)) =
      true := by decide +kernel
  refine ⟨⟨⟨by decide, by decide, by decide, by decide, by decide⟩, rfl, by decide, by decide, by decide⟩,
    ⟨by decide, by decide, by decide, by decide, by decide⟩, ?_⟩
  rintro ⟨f, hf, hall⟩
  rw [hf] at h
  have := hall (entriesOf 0 demoPrefixHashes) (by simp) ⟨[7, 1, 1, 1, 1, 1, 1, 1], 0⟩ (by
    rw [mem_entriesOf]
    exact ⟨0, rfl, rfl⟩)
  simp only [decide_eq_true_eq] at h
  rw [h] at this
  cases this

example : ¬ Found demoEnt ⟨8, 1, 5, 4, 4, true⟩ 2 0 (byFirst (entriesOf 0 demoPrefixHashes)) :=
  two_prefix_bytes_swapped demoEnt (e := ⟨[7, 1, 1, 1, 1, 1, 1, 1], 0⟩) (a := 7) (b := 1) (rest := [1, 1, 1, 1, 1, 1])
    (by rw [mem_entriesOf]; exact ⟨0, rfl, rfl⟩) rfl (by decide)

/-- The first tier below the top, for hashes of 32 bytes, with four reassurance bytes. -/
def demoTier : Config := ⟨32, 4, 10, 2, 2, true⟩

theorem demoTier_sane : Sane demoTier :=
  ⟨⟨by decide, by decide, by decide, by decide, by decide⟩, rfl, by decide, by decide, by decide⟩

/-- A hash of 32 bytes beginning with the given ones. -/
def demoHash (l : Bytes) : Bytes := l ++ zeros (32 - l.length)

/-- Two batches, with a hash in both. -/
def demoBatches : List (List Bytes) :=
  [[demoHash [1, 2, 3], demoHash [1, 9, 3], demoHash [7, 2, 200]], [demoHash [5], demoHash [1, 9, 3]]]

theorem demoBatches_ok : Batches demoTier 10 demoBatches :=
  ⟨by decide, fun b hb => ⟨by revert b hb; decide, by revert b hb; decide, by revert b hb; decide, by revert b hb; decide,
    by revert b hb; decide⟩, by decide, by decide, by decide⟩

example : ∃ d tier, bakeAll demoEnt demoTier 0 10 demoBatches noFolder = some d ∧ openTier 5 d = .ok tier ∧
    (∀ p : Nat, tryGetHashAtIndex tier (10 + p) = demoBatches.flatten[p]?) ∧
    (∃ es, getHashesAtIndex demoTier 0 tier 0 = some es ∧ es.Perm (entriesOf 10 demoBatches.flatten)) ∧
    ¬ Exact demoTier 0 tier 10 demoBatches.flatten := by
  obtain ⟨d, tier, e1, e2⟩ := small_tier_opens_partial demoEnt_ok demoTier_sane demoBatches_ok (.inr (by decide)) (quota := 5)
    (by decide)
  obtain ⟨d', e1', h1⟩ := tier_hash_at_index demoEnt_ok demoTier_sane demoBatches_ok
  obtain ⟨d'', e1'', h2⟩ := tier_gives_back_all_hashes demoEnt_ok demoTier_sane demoBatches_ok
  rw [e1] at e1' e1''
  obtain rfl := Option.some.inj e1'
  obtain rfl := Option.some.inj e1''
  exact ⟨d, tier, e1, e2, (h1 5 tier e2).1, h2 5 tier e2,
    opened_tier_is_not_exact demoEnt_ok demoTier_sane (by decide) demoBatches_ok e1 e2⟩

/-- All 32 bytes reassured: exact. -/
example : ∃ d tier, bakeAll demoEnt ⟨32, 32, 10, 2, 2, true⟩ 0 10 demoBatches noFolder = some d ∧ openTier 5 d = .ok tier ∧
    Exact ⟨32, 32, 10, 2, 2, true⟩ 0 tier 10 demoBatches.flatten := by
  have hs : Sane ⟨32, 32, 10, 2, 2, true⟩ :=
    ⟨⟨by decide, by decide, by decide, by decide, by decide⟩, rfl, by decide, by decide, by decide⟩
  have hb : Batches ⟨32, 32, 10, 2, 2, true⟩ 10 demoBatches :=
    ⟨by decide, fun b hb => ⟨by revert b hb; decide, by revert b hb; decide, by revert b hb; decide, by revert b hb; decide,
      by revert b hb; decide⟩, by decide, by decide, by decide⟩
  obtain ⟨d, tier, e1, e2⟩ := small_tier_opens_partial demoEnt_ok hs hb (.inr (by decide)) (quota := 5) (by decide)
  obtain ⟨d', e1', h1⟩ := tier_exact_if_all_reassured_partial demoEnt_ok hs rfl hb
  rw [e1] at e1'
  obtain rfl := Option.some.inj e1'
  exact ⟨d, tier, e1, e2, h1 5 tier e2⟩

/-- Hashes that agree nowhere. -/
def demoSpread : List Bytes := (List.range 12).map fun i => List.replicate 32 (UInt8.ofNat i)

example : Spread 32 demoSpread ∧ ∃ d tier, bakeAll demoEnt demoTier 0 0 [demoSpread] noFolder = some d ∧ openTier 5 d = .ok tier := by
  have hs : Spread 32 demoSpread := by unfold Spread; decide +kernel
  exact ⟨hs, tier_opens_if_spread_partial demoEnt_ok demoTier_sane
    ⟨by decide, fun b hb => ⟨by revert b hb; decide, by revert b hb; decide, by revert b hb; decide, by revert b hb; decide,
      by revert b hb; decide⟩, by decide, by decide, by decide⟩ (by
        intro b hb
        rw [List.mem_singleton] at hb
        subst hb
        exact hs) (by decide)⟩

/-- The hash of zeros, and ten that differ from it in one byte each. -/
def demoDeep : List Bytes := zeros 32 :: (List.range 10).map fun i => (zeros 32).set i 1

example : ∃ d, bakeAll demoEnt demoTier 0 0 [demoDeep] noFolder = some d ∧ ∀ quota, openTier quota d = .panic :=
  deep_forest_cannot_be_opened demoEnt_ok demoTier_sane
    ⟨by decide, fun b hb => ⟨by revert b hb; decide, by revert b hb; decide, by revert b hb; decide, by revert b hb; decide,
      by revert b hb; decide⟩, by decide, by decide, by decide⟩
    (b := demoDeep) (by simp) (h := zeros 32) (by simp [demoDeep]) (places := List.range 10) List.nodup_range (by simp) (by
      intro i hi
      refine ⟨(zeros 32).set i 1, by simp only [demoDeep, List.mem_cons, List.mem_map]; exact .inr ⟨i, hi, rfl⟩, ?_, ?_⟩
      · rw [List.mem_range] at hi
        intro h
        have := byteAt_set (h := zeros 32) (j := i) (by simp; omega) 1 i
        rw [h, if_pos rfl] at this
        have hz : ∀ i < 10, byteAt (zeros 32) i = 0 := by decide
        rw [hz i hi] at this
        exact absurd this (by decide)
      · intro j hj
        rw [List.mem_range] at hi
        rw [byteAt_set (by simp; omega), if_neg hj])

example : bake demoEnt demoTier 0 0 [entriesOf 0 [demoHash [1], demoHash [2], demoHash [1]]] = none :=
  (bake_panics_iff_duplicates demoEnt_ok demoTier_sane (by decide) (by decide) (by decide) (by decide) (by decide)
    (by decide)).2 (by decide)

end Verif.DonutForest
