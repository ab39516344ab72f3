import Verif.Lemmas.ForestLeaves
import Verif.Lemmas.TierFiles

/-!
# Looking up in a tier of forests of one tree
-/

namespace Verif.DonutForest

open Verif.ShallowTree Verif.Chunk Verif.SingleTree

/-- The entries of a batch of hashes, numbered from `first` on. -/
def entriesOf (first : Int) (b : List Bytes) : List Entry := b.mapIdx fun i h => ⟨h, first + i⟩

theorem mem_entriesOf {first : Int} {b : List Bytes} {e : Entry} :
    e ∈ entriesOf first b ↔ ∃ i : Nat, b[i]? = some e.hash ∧ e.pi = first + i := by
  unfold entriesOf
  rw [List.mem_mapIdx]
  constructor
  · rintro ⟨i, h, rfl⟩
    exact ⟨i, by simp [h], rfl⟩
  · rintro ⟨i, h1, h2⟩
    obtain ⟨h, e1⟩ := List.getElem?_eq_some_iff.1 h1
    refine ⟨i, h, ?_⟩
    cases e
    simp_all

theorem entriesOf_hash (first : Int) (b : List Bytes) : (entriesOf first b).map (·.hash) = b := by
  unfold entriesOf
  apply List.ext_getElem?
  intro i
  cases h : b[i]? <;> simp [h]

theorem entriesOf_length (first : Int) (b : List Bytes) : (entriesOf first b).length = b.length := by simp [entriesOf]

/-- A query that looks like a hash of a batch: it has the same bytes at some places examined, which tell that hash from
all others in the batch, and at the first `r` of the other places. -/
def Plausible (c : Config) (b : List Bytes) (h q : Bytes) : Prop :=
  ∃ examined : List Nat, examined.Nodup ∧ (∀ i ∈ examined, i < c.hl ∧ byteAt q i = byteAt h i) ∧
    (∀ h' ∈ b, h' ≠ h → ∃ i ∈ examined, byteAt h' i ≠ byteAt q i) ∧
    ∀ i ∈ ((List.range c.hl).filter fun i => decide (i ∉ examined)).take c.r, byteAt q i = byteAt h i

theorem Plausible.eq_of_mem {c : Config} {b : List Bytes} {h q : Bytes} (hp : Plausible c b h q) (hq : q ∈ b) : q = h := by
  obtain ⟨ex, -, h1, h2, -⟩ := hp
  by_cases hne : q = h
  · exact hne
  · obtain ⟨i, -, hi⟩ := h2 q hq hne
    exact absurd rfl hi

theorem filter_unused (hl : Nat) (h64 : hl ≤ 64) (ex : List Nat) :
    ((List.range 64).filter fun i => allUnused hl i && decide (i ∉ ex)) = (List.range hl).filter fun i => decide (i ∉ ex) := by
  have hr : List.range 64 = List.range hl ++ (List.range' hl (64 - hl)) := by
    rw [List.range_eq_range', List.range_eq_range']
    have := List.range'_append_1 (s := 0) (m := hl) (n := 64 - hl)
    rw [Nat.zero_add] at this
    rw [this]
    congr 1
    omega
  rw [hr, List.filter_append]
  have h1 : ((List.range hl).filter fun i => allUnused hl i && decide (i ∉ ex)) =
      (List.range hl).filter fun i => decide (i ∉ ex) := by
    apply List.filter_congr
    intro i hi
    rw [List.mem_range] at hi
    simp [allUnused, hi]
  have h2 : ((List.range' hl (64 - hl)).filter fun i => allUnused hl i && decide (i ∉ ex)) = [] := by
    rw [List.filter_eq_nil_iff]
    intro i hi
    rw [List.mem_range'_1] at hi
    simp [allUnused]
    omega
  rw [h1, h2, List.append_nil]

/-- A forest of one tree, made of a batch of hashes. -/
structure Grown (c : Config) (first : Int) (b : List Bytes) (f : Forest) : Prop where
  start : f.first = first
  neat : Neat f
  tree : ∃ t m root, f.jumps = leEnc c.w root ∧ (0 < root ∧ root < 256 ^ c.w) ∧ f.levels.length = levelCount (visitAll t) ∧
    Built c.r c.hl (localEntries first (entriesOf first b)) (allUnused c.hl) t ∧ LevelsOK c t 0 f.levels m ∧
    m [] = some root ∧ ∀ level, LevelFits c (nodesAt t level)

/-- A batch of which a forest can be made. -/
structure Batch (c : Config) (b : List Bytes) : Prop where
  nonempty : b ≠ []
  len : ∀ h ∈ b, h.length = c.hl
  nodup : b.Nodup
  ids : b.length < 256 ^ c.hw
  count : b.length < 256 ^ c.w

theorem localEntries_ids {c : Config} {first : Int} {b : List Bytes} (hb : b.length < 256 ^ c.hw) :
    ∀ e ∈ localEntries first (entriesOf first b), 0 < e.pi ∧ e.pi < 256 ^ c.hw := by
  intro e hee
  obtain ⟨x, hx, rfl⟩ := List.mem_map.1 hee
  obtain ⟨i, h1, h2⟩ := mem_entriesOf.1 hx
  have hi := (List.getElem?_eq_some_iff.1 h1).1
  have hnat : ((256 ^ c.hw : Nat) : Int) = 256 ^ c.hw := by rw [Int.natCast_pow]; rfl
  dsimp only
  omega

theorem grown_of_batch {ent : List Entry → Nat → Nat} (he : EntropyOK ent) {c : Config} (hc : ConfigOK c) (hb : c.back = true)
    (h5 : 5 ≤ c.specs) (hspecs : c.specs ≤ 255) (h1 : 1 ≤ c.hl) (h63 : c.hl ≤ 63) (hr : c.r ≤ c.hl) {first : Int}
    (h0 : 0 ≤ first) (hm : first < 2 ^ 63) {b : List Bytes} (hbt : Batch c b) :
    ∃ f, bake ent c 0 first [entriesOf first b] = some f ∧ Grown c first b f := by
  have hnat : ((256 ^ c.hw : Nat) : Int) = 256 ^ c.hw := by rw [Int.natCast_pow]; rfl
  obtain ⟨f, t, m, root, e1, e2, e3, e4, e5, e6, e7, e8, e9, e10⟩ := bake_ok he hc hb h5 hspecs h1 h63 hr (first := first)
    (l := entriesOf first b) (by
      refine ⟨?_, ?_, ?_, ⟨h0, hm⟩, ?_, ?_⟩
      · intro h
        have := congrArg List.length h
        rw [entriesOf_length] at this
        exact hbt.nonempty (List.length_eq_zero_iff.1 this)
      · intro e hee
        obtain ⟨i, g1, -⟩ := mem_entriesOf.1 hee
        exact hbt.len _ (List.mem_of_getElem? g1)
      · rw [entriesOf_hash]; exact hbt.nodup
      · intro e hee
        obtain ⟨i, g1, g2⟩ := mem_entriesOf.1 hee
        have hi := (List.getElem?_eq_some_iff.1 g1).1
        have := hbt.ids
        omega
      · rw [entriesOf_length]; exact hbt.count)
  exact ⟨f, e1, e2, e3, t, m, root, e4, e5, e6, e7, e8, e9, e10⟩

theorem grown_jumps {c : Config} {first : Int} {b : List Bytes} {f : Forest} (h : Grown c first b f) : f.jumps.length = c.w := by
  obtain ⟨t, m, root, e, -⟩ := h.tree
  rw [e, leEnc_length]

theorem root_at {c : Config} {l : List Entry} {f : Flags} {t : Tree} (hB : Built c.r c.hl l f t) (h : l ≠ []) :
    (([], t) : Named) ∈ nodesAt t 0 := by
  have hne : t.isEmpty = false := by
    have : ¬ t.isEmpty = true := by rw [built_isEmpty hB]; exact h
    simpa using this
  rw [mem_nodesAt]
  refine ⟨?_, rfl⟩
  cases t with
  | empty => simp [Tree.isEmpty] at hne
  | leaf _ _ => simp [preorder]
  | slots _ _ => simp [preorder]

/-- What the `k`-th forest says of a hash. -/
theorem grown_search {c : Config} (hc : ConfigOK c) (h63 : c.hl ≤ 63) {first : Int} {b : List Bytes} {f : Forest}
    (hb : Batch c b) (hg : Grown c first b f) {jumps : Bytes} {k : Nat} (hj : readAt jumps (k * c.w) c.w = some f.jumps)
    {q : Bytes} (hq : q.length = c.hl) :
    (tryForest c 0 jumps k (f.first, f.levels) q = some none ∧ q ∉ b) ∨
    ∃ (i : Nat) (h : Bytes), b[i]? = some h ∧ Plausible c b h q ∧
      tryForest c 0 jumps k (f.first, f.levels) q = some (some (first + i)) := by
  obtain ⟨t, m, root, e1, ⟨e2, e3⟩, -, hB, hL, hm, hfits⟩ := hg.tree
  have hne : localEntries first (entriesOf first b) ≠ [] := by
    intro h
    have := congrArg List.length h
    rw [localEntries, List.length_map, entriesOf_length] at this
    exact hb.nonempty (List.length_eq_zero_iff.1 this)
  have hfind := find_ok hc hq (by omega) hfits f.levels 0 m [] t _ _ root hL (root_at hB hne) hB
    (by intro i hi; simpa [allUnused] using hi) (localEntries_ids hb.ids) hm
  have htry : tryForest c 0 jumps k (f.first, f.levels) q = match lookupFrom q t (allUnused c.hl) with
      | none => none
      | some x => if toId x = 0 then some none else some (some (globalOfId first (toId x))) := by
    unfold tryForest tableSize prefixIndex
    rw [Nat.pow_zero, Nat.one_mul, List.take_zero, show leDec [] = 0 from rfl, Nat.zero_mul, Nat.add_zero, hj]
    dsimp only
    rw [e1, leDec_leEnc_of_lt e3, if_neg (by omega), afterPrefix_zero, List.drop_zero, hfind, hg.start]
    cases lookupFrom q t (allUnused c.hl) <;> rfl
  rcases lookup_sound hB q with hs | ⟨e, ex, hs, hmt⟩
  · left
    rw [htry, hs]
    refine ⟨rfl, ?_⟩
    intro hqb
    obtain ⟨i, hi⟩ := List.getElem?_of_mem hqb
    have hmem : (⟨q, (i : Int) + 1⟩ : Entry) ∈ localEntries first (entriesOf first b) := by
      refine List.mem_map.2 ⟨⟨q, first + i⟩, mem_entriesOf.2 ⟨i, hi, rfl⟩, ?_⟩
      dsimp only
      congr 1
      omega
    have := lookup_found hB _ hmem
    dsimp only at this
    rw [this] at hs
    injection hs with hs
    omega
  · right
    obtain ⟨x, hx, rfl⟩ := List.mem_map.1 hmt.mem
    obtain ⟨i, g1, g2⟩ := mem_entriesOf.1 hx
    refine ⟨i, x.hash, g1, ⟨ex, hmt.nodup, ?_, ?_, ?_⟩, ?_⟩
    · intro j hj
      exact ⟨by simpa [allUnused] using hmt.unused j hj, hmt.agree j hj⟩
    · intro h' hh' hne'
      obtain ⟨i', hi'⟩ := List.getElem?_of_mem hh'
      refine hmt.others ⟨h', (i' : Int) + 1⟩ ?_ ?_
      · refine List.mem_map.2 ⟨⟨h', first + i'⟩, mem_entriesOf.2 ⟨i', hi', rfl⟩, ?_⟩
        dsimp only
        congr 1
        omega
      · intro h
        exact hne' (congrArg Entry.hash h)
    · intro j hj
      refine hmt.reassure j ?_
      rw [filter_unused c.hl (by omega)]
      exact hj
    · rw [htry, hs]
      dsimp only
      have : toId (x.pi - first + 1) ≠ 0 := by unfold toId; rw [if_neg (by omega)]; omega
      rw [if_neg this, globalOfId_toId (by omega), g2]

/-- Forests made of batches, one after the other. -/
def GrownAll (c : Config) : Int → List (List Bytes) → List Forest → Prop
  | _, [], [] => True
  | first, b :: bs, f :: fs => (Batch c b ∧ Grown c first b f) ∧ GrownAll c (first + b.length) bs fs
  | _, _, _ => False

theorem GrownAll.length {c : Config} : ∀ {first : Int} {bs : List (List Bytes)} {fs : List Forest}, GrownAll c first bs fs →
    fs.length = bs.length := by
  intro first bs
  induction bs generalizing first with
  | nil => intro fs h; match fs with | [] => rfl | _ :: _ => exact h.elim
  | cons b bs ih =>
    intro fs h
    match fs with
    | [] => exact h.elim
    | f :: fs => simp [ih h.2]

theorem GrownAll.neat {c : Config} : ∀ {first : Int} {bs : List (List Bytes)} {fs : List Forest}, GrownAll c first bs fs →
    ∀ f ∈ fs, Neat f ∧ f.jumps.length = c.w := by
  intro first bs
  induction bs generalizing first with
  | nil => intro fs h; match fs with | [] => simp | _ :: _ => exact h.elim
  | cons b bs ih =>
    intro fs h
    match fs with
    | [] => exact h.elim
    | f :: fs =>
      intro f' hf'
      rcases List.mem_cons.1 hf' with rfl | hf'
      · exact ⟨h.1.2.neat, grown_jumps h.1.2⟩
      · exact ih h.2 f' hf'

/-- What the forests from the `k`-th on say of a hash. -/
theorem grownAll_search {c : Config} (hc : ConfigOK c) (h63 : c.hl ≤ 63) {jumps : Bytes} {q : Bytes} (hq : q.length = c.hl) :
    ∀ (bs : List (List Bytes)) (fs : List Forest) (first : Int) (k : Nat), GrownAll c first bs fs →
    (∀ (i : Nat) (f : Forest), fs[i]? = some f → readAt jumps ((k + i) * c.w) c.w = some f.jumps) →
    (tryForests c 0 jumps q k (fs.map fun f => (f.first, f.levels)) = some none ∧ ∀ b ∈ bs, q ∉ b) ∨
    ∃ (pre : List (List Bytes)) (b : List Bytes) (post : List (List Bytes)) (i : Nat) (h : Bytes), bs = pre ++ b :: post ∧
      b[i]? = some h ∧ Plausible c b h q ∧ (∀ b' ∈ pre, q ∉ b') ∧
      tryForests c 0 jumps q k (fs.map fun f => (f.first, f.levels)) = some (some (first + pre.flatten.length + i)) := by
  intro bs
  induction bs with
  | nil =>
    intro fs first k h _
    match fs with
    | [] => exact .inl ⟨rfl, by simp⟩
    | _ :: _ => exact h.elim
  | cons b bs ih =>
    intro fs first k h hj
    match fs with
    | [] => exact h.elim
    | f :: fs =>
      obtain ⟨⟨hb, hg⟩, hrest⟩ := h
      have hj0 := hj 0 f rfl
      rw [Nat.add_zero] at hj0
      rw [List.map_cons]
      unfold tryForests
      rcases grown_search hc h63 hb hg hj0 hq with ⟨e1, e2⟩ | ⟨i, h, e1, e2, e3⟩
      · rw [e1]
        dsimp only
        rcases ih fs (first + b.length) (k + 1) hrest (by
          intro i f' hf'
          rw [show k + 1 + i = k + (i + 1) by omega]
          exact hj (i + 1) f' hf') with ⟨g1, g2⟩ | ⟨pre, b', post, i, h, g1, g2, g3, g4, g5⟩
        · left
          refine ⟨g1, ?_⟩
          intro b' hb'
          rcases List.mem_cons.1 hb' with rfl | hb'
          · exact e2
          · exact g2 b' hb'
        · right
          refine ⟨b :: pre, b', post, i, h, by rw [g1]; rfl, g2, g3, ?_, ?_⟩
          · intro b'' hb''
            rcases List.mem_cons.1 hb'' with rfl | hb''
            · exact e2
            · exact g4 b'' hb''
          · rw [g5, List.flatten_cons, List.length_append]
            congr 2
            omega
      · right
        rw [e3]
        dsimp only
        refine ⟨[], b, bs, i, h, rfl, e1, e2, by simp, ?_⟩
        simp

/-- The root of a batch's tree in the jump table of all of them. -/
theorem jumps_at {c : Config} {fs : List Forest} (h : ∀ f ∈ fs, f.jumps.length = c.w) {i : Nat} {f : Forest}
    (hi : fs[i]? = some f) : readAt (fs.flatMap (·.jumps)) (i * c.w) c.w = some f.jumps := by
  have := readAt_records (fun f : Forest => f.jumps) c.w fs i f hi h [] []
  simpa using this

/-! ## Taking the hashes out -/

theorem entriesOf_append (first : Int) (a b : List Bytes) :
    entriesOf first (a ++ b) = entriesOf first a ++ entriesOf (first + a.length) b := by
  unfold entriesOf
  rw [List.mapIdx_append]
  congr 1
  apply List.ext_getElem?
  intro i
  simp only [List.getElem?_mapIdx]
  cases b[i]? with
  | none => rfl
  | some h =>
    simp only [Option.map_some, Option.some.injEq, Entry.mk.injEq, true_and]
    omega

theorem hashesOf_ok {t : Tier} {base first : Int} {g : Nat → Entry} : ∀ ids : List Nat,
    (∀ id ∈ ids, hashOf t base first id = some (g id)) → hashesOf t base first ids = some (ids.map g) := by
  intro ids
  induction ids with
  | nil => intro _; rfl
  | cons id ids ih =>
    intro h
    rw [hashesOf, h id (by simp)]
    dsimp only
    rw [ih fun x hx => h x (by simp [hx])]
    rfl

/-- The hashes of one forest. -/
theorem grown_hashes {c : Config} (hc : ConfigOK c) (h63 : c.hl ≤ 63) {first base : Int} {b : List Bytes} {f : Forest}
    (hb : Batch c b) (hg : Grown c first b f) {t : Tier} {done rest : List Bytes} (hh : t.hashes = done ++ (b ++ rest))
    (hbase : first = base + done.length) :
    ∃ root ids es, f.jumps = leEnc c.w root ∧ (0 < root ∧ root < 256 ^ c.w) ∧ leaves c f.levels root = some ids ∧
      hashesOf t base first ids = some es ∧ es.Perm (entriesOf first b) := by
  obtain ⟨tr, m, root, e1, e2, -, hB, hL, hm, hfits⟩ := hg.tree
  have hne : localEntries first (entriesOf first b) ≠ [] := by
    intro h
    have := congrArg List.length h
    rw [localEntries, List.length_map, entriesOf_length] at this
    exact hb.nonempty (List.length_eq_zero_iff.1 this)
  obtain ⟨ids, e3, e4⟩ := leaves_ok hc (by omega) hfits f.levels 0 m [] tr _ _ root hL (root_at hB hne) hB
    (localEntries_ids hb.ids) hm
  let g : Nat → Entry := fun id => ⟨b.getD (id - 1) [], first + ((id : Int) - 1)⟩
  have hids : (localEntries first (entriesOf first b)).map (fun e => e.pi.toNat) = List.range' 1 b.length := by
    apply List.ext_getElem?
    intro i
    rw [List.getElem?_map, localEntries, List.getElem?_map, entriesOf, List.getElem?_mapIdx]
    by_cases hi : i < b.length
    · rw [List.getElem?_eq_getElem hi, List.getElem?_range' hi]
      simp only [Option.map_some, Option.some.injEq]
      omega
    · rw [List.getElem?_eq_none (by omega), List.getElem?_eq_none (by simpa using hi)]
      rfl
  rw [hids] at e4
  refine ⟨root, ids, ids.map g, e1, e2, e3, hashesOf_ok ids ?_, ?_⟩
  · intro id hid
    have h1 := e4.mem_iff.1 hid
    rw [List.mem_range'_1] at h1
    unfold hashOf globalOfId
    dsimp only
    rw [if_neg (by omega), if_neg (by omega)]
    have hidx : ((id : Int) - 1 + first - base).toNat = done.length + (id - 1) := by omega
    have hlt : id - 1 < b.length := by omega
    rw [hidx, hh, List.getElem?_append_right (by omega), Nat.add_sub_cancel_left, List.getElem?_append_left hlt,
      List.getElem?_eq_getElem hlt]
    dsimp only
    simp only [g, Option.some.injEq, Entry.mk.injEq]
    refine ⟨?_, by omega⟩
    simp [List.getD, List.getElem?_eq_getElem hlt]
  · refine (e4.map g).trans ?_
    have : (List.range' 1 b.length).map g = entriesOf first b := by
      apply List.ext_getElem?
      intro i
      rw [List.getElem?_map, entriesOf, List.getElem?_mapIdx]
      by_cases hi : i < b.length
      · rw [List.getElem?_range' hi, List.getElem?_eq_getElem hi]
        simp only [Option.map_some, Option.some.injEq, g, Entry.mk.injEq]
        refine ⟨?_, by omega⟩
        rw [show 1 + 1 * i - 1 = i by omega]
        simp [List.getD, List.getElem?_eq_getElem hi]
      · rw [List.getElem?_eq_none (by simpa using hi), List.getElem?_eq_none (by omega)]
        rfl
    rw [this]

/-- The hashes of the forests from the `k`-th on. -/
theorem grownAll_hashes {c : Config} (hc : ConfigOK c) (h63 : c.hl ≤ 63) {t : Tier} {base : Int} :
    ∀ (bs : List (List Bytes)) (fs : List Forest) (first : Int) (k : Nat) (done : List Bytes), GrownAll c first bs fs →
    (∀ (i : Nat) (f : Forest), fs[i]? = some f → readAt t.jumps ((k + i) * c.w) c.w = some f.jumps) →
    t.hashes = done ++ bs.flatten → first = base + done.length →
    ∃ es, hashesFrom c 0 t base 0 k (fs.map fun f => (f.first, f.levels)) = some es ∧ es.Perm (entriesOf first bs.flatten) := by
  intro bs
  induction bs with
  | nil =>
    intro fs first k done h _ _ _
    match fs with
    | [] => exact ⟨[], rfl, .refl _⟩
    | _ :: _ => exact h.elim
  | cons b bs ih =>
    intro fs first k done h hj hh hbase
    match fs with
    | [] => exact h.elim
    | f :: fs =>
      obtain ⟨⟨hb, hg⟩, hrest⟩ := h
      have hj0 := hj 0 f rfl
      rw [Nat.add_zero] at hj0
      obtain ⟨root, ids, es, e1, e2, e3, e4, e5⟩ := grown_hashes hc h63 hb hg (t := t) (done := done) (rest := bs.flatten)
        (by rw [hh, List.flatten_cons]) hbase
      obtain ⟨es', g1, g2⟩ := ih fs (first + b.length) (k + 1) (done ++ b) hrest
        (by
          intro i f' hf'
          rw [show k + 1 + i = k + (i + 1) by omega]
          exact hj (i + 1) f' hf')
        (by rw [hh, List.flatten_cons, List.append_assoc]) (by rw [List.length_append]; omega)
      refine ⟨es ++ es', ?_, ?_⟩
      · rw [List.map_cons]
        unfold hashesFrom tableSize
        rw [Nat.pow_zero, Nat.one_mul, Nat.zero_mul, Nat.add_zero, hj0]
        dsimp only
        rw [e1, leDec_leEnc_of_lt e2.2, if_neg (by omega), List.drop_zero, e3]
        dsimp only
        rw [hg.start, e4]
        dsimp only
        rw [g1]
        rfl
      · rw [List.flatten_cons, entriesOf_append]
        exact e5.append g2

end Verif.DonutForest
