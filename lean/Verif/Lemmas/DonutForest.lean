import Verif.Model.DonutForest
import Verif.Lemmas.ChunkFiles
import Verif.Props.Chunk
import Verif.Props.SingleTree

/-!
# Forests of one tree
-/

namespace Verif.DonutForest

open Verif.ShallowTree Verif.Chunk Verif.SingleTree

theorem allocRun_fst (gs : List Group) : ∀ (ns : List Named) (as : List Alloc),
    allocAll gs ns as = (allocRun gs ns as).map (·.1) := by
  intro ns
  induction ns with
  | nil => intro as; rfl
  | cons n ns ih =>
    intro as
    rw [allocAll, allocRun]
    match allocate gs as (activeSlots n.2) with
    | none => rfl
    | some (id, as') =>
      dsimp only
      rw [ih, Option.map_map, Option.map_map]
      rfl

/-- What of one tree's serialization goes into a forest made of it alone. -/
theorem treeLevels_ok {c : Config} (hc : ConfigOK c) (hspecs : c.specs ≤ 255) {t : Tree}
    (hfits : ∀ level, LevelFits c (nodesAt t level)) : ∀ (gss : List (List Group)) (level : Nat) (lvs : List Level) (m : IdMap),
    serializeLevels c t level gss = some (lvs, m) →
    (∀ i gs, gss[i]? = some gs → GroupsOK c (shapeOf (nodesAt t (level + i))) gs) →
    ∃ fs s, initLevels c gss = some fs ∧ fs.map (·.groups) = gss ∧ treeLevels c 0 t level fs = some s ∧
      s.bytes = lvs.map (·.nodes) ∧ s.formats.length = gss.length ∧ s.ids = m ∧
      s.root = if level = 0 ∧ gss ≠ [] then (m []).getD 0 else 0 := by
  intro gss
  induction gss with
  | nil =>
    intro level lvs m h _
    rw [serializeLevels] at h
    injection h with h
    injection h with h1 h2
    subst h1 h2
    exact ⟨[], ⟨[], [], fun _ => none, 0⟩, rfl, rfl, rfl, rfl, rfl, rfl, by simp⟩
  | cons gs gss ih =>
    intro level lvs m h hg
    rw [serializeLevels] at h
    split at h
    · cases h
    · next lvs' below hb =>
      split at h
      · cases h
      · next lv m' hs =>
        injection h with h
        injection h with h1 h2
        subst h1 h2
        obtain ⟨fs, s, e1, e2, e3, e4, e5, e6, e7⟩ := ih (level + 1) lvs' below hb (by
          intro i gs' hi
          rw [show level + 1 + i = level + (i + 1) by omega]
          exact hg (i + 1) gs' (by simpa using hi))
        have hgo := hg 0 gs rfl
        rw [Nat.add_zero] at hgo
        have hl : gs.length ≤ 255 := Nat.le_trans hgo.few hspecs
        obtain ⟨hf, -⟩ := fit_of_groupsOK hgo (by omega)
        obtain ⟨hsum, -⟩ := sum_le_of_groupsOK hc hgo (by omega)
        have hids := (hfits level).ids
        have hlt := (hfits level).nodes
        obtain ⟨as, ids, a1, a2, a3, a4⟩ := ids_ok (c := c) hf (by omega)
        have hsmall : ¬ ids.any (fun id => decide (id ≥ 256 ^ c.w)) = true := by
          intro ha
          obtain ⟨id, b1, b2⟩ := List.any_eq_true.1 ha
          obtain ⟨i, hi⟩ := List.getElem?_of_mem b1
          have hi' : i < (nodesAt t level).length := by rw [← a3]; exact (List.getElem?_eq_some_iff.1 hi).1
          obtain ⟨j, c1, -, c3, -⟩ := a4 i _ (List.getElem?_eq_getElem hi')
          rw [hi] at c1
          injection c1 with c1
          have : id ≥ 256 ^ c.w := by simpa using b2
          omega
        unfold serializeLevel at hs
        rw [a1] at hs
        dsimp only at hs
        rw [a2] at hs
        dsimp only at hs
        split at hs
        · cases hs
        · next bs hbs =>
          split at hs
          · cases hs
          · injection hs with hs
            injection hs with h1 h2
            rw [allocRun_fst] at a2
            obtain ⟨⟨ids', as'⟩, a5, a6⟩ := Option.map_eq_some_iff.1 a2
            dsimp only at a6
            subst a6
            refine ⟨⟨gs, as⟩ :: fs, ⟨bs :: s.bytes, ⟨gs, as'⟩ :: s.formats, m', if level = 0 then (m' []).getD 0 else s.root⟩, ?_,
              by simp [e2], ?_, ?_, by simp [e5], rfl, ?_⟩
            · rw [initLevels, a1]
              dsimp only
              rw [e1]
              rfl
            · rw [treeLevels, e3]
              dsimp only
              have hno : nodesOn 0 t level = nodesAt t level := by simp [nodesOn]
              rw [hno, a5]
              dsimp only
              rw [if_neg hsmall, e6, hbs]
              dsimp only
              rw [h2]
            · rw [e4, ← h1]
              rfl
            · dsimp only
              rw [e7]
              by_cases h0 : level = 0 <;> simp [h0]

theorem shapes_one {c : Config} (hb : c.back = true) (t : Tree) (he : t.isEmpty = false) : shapes c 0 [t] = countShapes c t := by
  unfold shapes countShapes
  have hd : (([t].map (depth 0)).foldl max 0) = levelCount (visitAll t) := by simp [depth, he]
  dsimp only
  rw [hd, hb]
  by_cases h : levelCount (visitAll t) ≥ 66
  · rw [if_pos (by omega), if_pos (by simpa using h)]
  · rw [if_neg (by omega), if_neg (by simpa using h)]
    simp

theorem designForest_one {c : Config} (hb : c.back = true) (t : Tree) (he : t.isEmpty = false) :
    designForest c 0 [t] = (design c t).bind (initLevels c) := by
  unfold designForest design
  rw [shapes_one hb t he]
  cases countShapes c t with
  | none => rfl
  | some ss => dsimp only; cases chooseFormats c ss <;> rfl

/-- The chunk with the same levels as a forest. -/
def asChunk (c : Config) (f : Forest) : Chunk := ⟨c, f.first, f.levels⟩

/-- A forest as it should be: on few levels, whose sizes are as recorded, none without an index, of few bytes. -/
structure Neat (f : Forest) : Prop where
  nonempty : f.levels ≠ []
  few : f.levels.length ≤ 65
  sizes : f.sizes = f.levels.map fun lv => (lv.index.length, lv.nodes.length)
  level : ∀ lv ∈ f.levels, lv.index ≠ [] ∧ lv.index.length + lv.nodes.length < 2 ^ 44
  first : 0 ≤ f.first ∧ f.first < 2 ^ 63

theorem indexBytes_length (c : Config) (gs : List Group) : (indexBytes c gs).length = 2 + gs.length * (c.w + 4) := by
  unfold indexBytes
  rw [List.length_append, leEnc_length, List.length_flatMap]
  congr 1
  induction gs with
  | nil => simp
  | cons g gs ih =>
    simp only [List.map_cons, List.sum_cons, List.length_append, leEnc_length, List.length_cons] at ih ⊢
    rw [ih, Nat.succ_mul]
    omega

theorem zipWith_level (c : Config) : ∀ (fs : List LevelFormat) (lvs : List Level),
    lvs.length = fs.length → (∀ (i : Nat) (lv : Level), lvs[i]? = some lv → ∃ lf, fs[i]? = some lf ∧ lv.index = indexBytes c lf.groups) →
    List.zipWith (fun lf bs => (⟨indexBytes c lf.groups, bs⟩ : Level)) fs (lvs.map (·.nodes)) = lvs := by
  intro fs
  induction fs with
  | nil => intro lvs h _; rw [List.length_eq_zero_iff.1 h]; rfl
  | cons lf fs ih =>
    intro lvs h hi
    match lvs with
    | [] => simp at h
    | lv :: lvs =>
      rw [List.map_cons, List.zipWith_cons_cons, ih lvs (by simpa using h) (fun i lv' hlv => by
        simpa using hi (i + 1) lv' (by simpa using hlv))]
      obtain ⟨lf', h1, h2⟩ := hi 0 lv rfl
      simp only [List.getElem?_cons_zero, Option.some.injEq] at h1
      subst h1
      rw [← h2]

theorem pow256_lt_wrap {w : Nat} (h : w ≤ 4) : (256 : Nat) ^ w * (17 + 128 * w) < 2 ^ 42 := by
  have := pow256_le h
  have h2 : 17 + 128 * w ≤ 529 := by omega
  have : 256 ^ w * (17 + 128 * w) ≤ 2 ^ 32 * 529 := Nat.mul_le_mul this h2
  omega

theorem afterPrefix_zero (hl : Nat) : afterPrefix hl 0 = allUnused hl := by funext i; simp [afterPrefix, allUnused]

/-- Entries of which a forest can be made: at least one; different; of the right length; with indices from the forest's
first on, which fit. -/
structure Bakeable (c : Config) (first : Int) (l : List Entry) : Prop where
  nonempty : l ≠ []
  len : ∀ e ∈ l, e.hash.length = c.hl
  nodup : (l.map (·.hash)).Nodup
  start : 0 ≤ first ∧ first < 2 ^ 63
  index : ∀ e ∈ l, first ≤ e.pi ∧ e.pi - first + 1 < 256 ^ c.hw
  count : l.length < 256 ^ c.w

/-- A forest of one tree: it is made; and the tree. -/
theorem bake_ok {ent : List Entry → Nat → Nat} (he : EntropyOK ent) {c : Config} (hc : ConfigOK c) (hb : c.back = true)
    (h5 : 5 ≤ c.specs) (hspecs : c.specs ≤ 255) (h1 : 1 ≤ c.hl) (h63 : c.hl ≤ 63) (hr : c.r ≤ c.hl) {first : Int}
    {l : List Entry} (hl : Bakeable c first l) :
    ∃ f t m root, bake ent c 0 first [l] = some f ∧ f.first = first ∧ Neat f ∧ f.jumps = leEnc c.w root ∧
      (0 < root ∧ root < 256 ^ c.w) ∧ f.levels.length = levelCount (visitAll t) ∧
      Built c.r c.hl (localEntries first l) (allUnused c.hl) t ∧ LevelsOK c t 0 f.levels m ∧ m [] = some root ∧
      ∀ level, LevelFits c (nodesAt t level) := by
  have hwrap : c.wrap = 2 ^ 64 := by unfold Config.wrap; rw [hb]; rfl
  have h32 := pow256_le hc.hwhi
  have hw32 := pow256_le hc.whi
  have hnat : ((256 ^ c.hw : Nat) : Int) = 256 ^ c.hw := by rw [Int.natCast_pow]; rfl
  have hloc := toLocal_ok (c := c) (first := first) l (by
    intro e hee
    obtain ⟨a1, a2⟩ := hl.index e hee
    have := hl.start.1
    refine ⟨by omega, a1, ?_⟩
    unfold Config.max
    omega)
  have hmap : (localEntries first l).map (·.hash) = l.map (·.hash) := by
    unfold localEntries
    rw [List.map_map]
    rfl
  have hlen' : ∀ e ∈ localEntries first l, e.hash.length = c.hl := by
    intro e hee
    obtain ⟨x, hx, rfl⟩ := List.mem_map.1 hee
    exact hl.len x hx
  have hpi' : ∀ e ∈ localEntries first l, 0 < e.pi ∧ e.pi < 256 ^ c.hw := by
    intro e hee
    obtain ⟨x, hx, rfl⟩ := List.mem_map.1 hee
    obtain ⟨a1, a2⟩ := hl.index x hx
    exact ⟨by dsimp only; omega, a2⟩
  obtain ⟨t, ht, hB⟩ := single_built he (l := localEntries first l) (hl := c.hl) (pre := 0) (r := c.r) h1 (by omega) (by omega)
    hr ⟨hlen', by rw [hmap]; exact hl.nodup, by intro i hi; omega⟩ (.inl rfl)
  rw [afterPrefix_zero] at hB
  have hne : t.isEmpty = false := by
    have : ¬ t.isEmpty = true := by
      rw [built_isEmpty hB]
      intro h
      exact hl.nonempty (by simpa [localEntries] using h)
    simpa using this
  have hll : (localEntries first l).length = l.length := by simp [localEntries]
  have hsmall := pow256_lt_wrap hc.whi
  have hmul : l.length * (17 + 128 * c.w) ≤ 256 ^ c.w * (17 + 128 * c.w) := Nat.mul_le_mul_right _ (Nat.le_of_lt hl.count)
  have hfits := fits_of_count hc hB (by rw [hll]; exact hl.count) (by rw [hll]; unfold Config.max; omega)
  have hbytes : ∀ level, ((nodesAt t level).countP fun n => decide (activeSlots n.2 ≠ 0)) * (34 + 256 * c.w) +
      ((nodesAt t level).countP fun n => decide (activeSlots n.2 = 0)) * (c.r + c.hw) < 2 ^ 43 := by
    intro level
    have := (nodesAt t level).countP_le_length (p := fun n => decide (activeSlots n.2 ≠ 0))
    have := (nodesAt t level).countP_le_length (p := fun n => decide (activeSlots n.2 = 0))
    have hns := (hfits level).nodes
    have hw4 := hc.whi
    have hhw := hc.hwhi
    have hr64 := hc.r
    have m1 : ((nodesAt t level).countP fun n => decide (activeSlots n.2 ≠ 0)) * (34 + 256 * c.w) ≤
        2 ^ 32 * (34 + 256 * 4) := Nat.mul_le_mul (by omega) (by omega)
    have m2 : ((nodesAt t level).countP fun n => decide (activeSlots n.2 = 0)) * (c.r + c.hw) ≤
        2 ^ 32 * (64 + 4) := Nat.mul_le_mul (by omega) (by omega)
    omega
  have hlev := levelCount_le hB
  have hs := built_sound (by omega) hB hpi' []
  obtain ⟨gss, e1, e2, hg⟩ := design_ok hc h5 hs hfits (by omega)
  obtain ⟨lvs, m, e3, e4, hL⟩ := levels_ok hc hspecs hs hfits gss 0 (nodesAt_levelCount t (by omega)) (by
    intro i gs hi
    rw [Nat.zero_add]
    exact hg i gs hi)
  obtain ⟨fs, s, f1, f2, f3, f4, f5, f6, f7⟩ := treeLevels_ok hc hspecs hfits gss 0 lvs m e3 (by
    intro i gs hi
    rw [Nat.zero_add]
    exact hg i gs hi)
  have hroot : ([], t) ∈ nodesAt t 0 := by
    rw [mem_nodesAt]
    refine ⟨?_, rfl⟩
    cases t with
    | empty => simp [Tree.isEmpty] at hne
    | leaf _ _ => simp [preorder]
    | slots _ _ => simp [preorder]
  obtain ⟨root, r1, r2, r3⟩ := LevelsOK.ids hL (hfits 0).nodes _ hroot
  dsimp only at r1
  have hgss : gss ≠ [] := by
    intro h
    subst h
    have : lvs = [] := List.length_eq_zero_iff.1 e4
    subst this
    unfold LevelsOK at hL
    rw [hL] at hroot
    simp at hroot
  have hrt : s.root = root := by
    rw [f7, if_pos ⟨rfl, hgss⟩, r1]
    rfl
  obtain ⟨g1, g2⟩ := serializeLevels_levels _ _ _ _ e3
  have hfl : fs.length = gss.length := by rw [← f2, List.length_map]
  have hfs : ∀ (i : Nat) (gs : List Group), gss[i]? = some gs → ∃ lf, fs[i]? = some lf ∧ lf.groups = gs := by
    intro i gs hi
    rw [← f2, List.getElem?_map] at hi
    exact Option.map_eq_some_iff.1 hi
  have hfs' : ∀ (i : Nat) (lf : LevelFormat), fs[i]? = some lf → gss[i]? = some lf.groups := by
    intro i lf hi
    rw [← f2, List.getElem?_map, hi]
    rfl
  have hidx : ∀ (i : Nat) (lv : Level), lvs[i]? = some lv → ∃ lf, fs[i]? = some lf ∧ lv.index = indexBytes c lf.groups := by
    intro i lv hi
    obtain ⟨gs, k1, k2, k3, k4⟩ := g2 i lv hi
    obtain ⟨lf, k5, k6⟩ := hfs i gs k1
    exact ⟨lf, k5, by rw [k6]; exact k3⟩
  have hsum : ∀ (i : Nat) (gs : List Group), gss[i]? = some gs → (gs.map (·.nodes)).sum = (nodesAt t i).length ∧ gs.length ≤ 255 ∧
      (gs.map (·.bytes)).sum < 2 ^ 43 := by
    intro i gs hi
    have hgo := hg i gs hi
    have hfew := hgo.few
    obtain ⟨k1, k2⟩ := sum_le_of_groupsOK hc hgo (by omega)
    have k3 := hbytes i
    have : (gs.map fun g => g.nodes * byteSize c g.spec) = gs.map (·.bytes) :=
      List.map_congr_left fun g hgm => (hgo.each g hgm).bytes.symm
    rw [this] at k2
    exact ⟨k1, by omega, by omega⟩
  have hcounts : ¬ fs.any (fun lf : LevelFormat => lf.groups.any fun g => decide (g.nodes ≥ 256 ^ c.w)) = true := by
    intro ha
    obtain ⟨lf, b1, b2⟩ := List.any_eq_true.1 ha
    obtain ⟨g, b3, b4⟩ := List.any_eq_true.1 b2
    obtain ⟨i, hi⟩ := List.getElem?_of_mem b1
    have b5 := (hsum i _ (hfs' i lf hi)).1
    have b6 : g.nodes ≤ (lf.groups.map (·.nodes)).sum := le_sum_nat (List.mem_map.2 ⟨g, b3, rfl⟩)
    have b7 := (hfits i).nodes
    have : g.nodes ≥ 256 ^ c.w := by simpa using b4
    omega
  have hzip := zipWith_level c fs lvs (by omega) hidx
  have hz2 : List.zipWith (· ++ ·) s.bytes (s.formats.map fun _ => ([] : Bytes)) = lvs.map (·.nodes) := by
    rw [f4]
    have : ∀ (a : List Bytes) (b : List LevelFormat), a.length = b.length →
        List.zipWith (· ++ ·) a (b.map fun _ => ([] : Bytes)) = a := by
      intro a
      induction a with
      | nil => intro b _; simp
      | cons x a ih =>
        intro b hb
        match b with
        | [] => simp at hb
        | y :: b => simp [ih b (by simpa using hb)]
    exact this _ _ (by rw [List.length_map, f5]; omega)
  refine ⟨⟨first, lvs, fs.map fun lf => levelSizes c lf.groups, leEnc c.w root⟩, t, m, root, ?_, rfl, ?_, rfl, ⟨r2, r3⟩, by
    dsimp only; omega, hB, hL, r1, hfits⟩
  · unfold bake
    have hsp : [l].flatMap (split 0) = [l] := by simp [split]
    rw [hsp, allTrees, treeOf, hloc]
    dsimp only
    rw [if_neg, ht]
    · dsimp only [allTrees, Option.map_some]
      rw [designForest_one hb t hne, e1, Option.bind_some, f1]
      dsimp only
      rw [if_neg hcounts, writeTrees, f3]
      dsimp only
      rw [writeTrees, Option.map_some]
      dsimp only
      rw [hz2, hzip, hrt, List.append_nil]
    · intro ha
      obtain ⟨e, b1, b2⟩ := List.any_eq_true.1 ha
      have := (hpi' e b1).2
      have : e.pi ≥ 256 ^ c.hw := by simpa using b2
      omega
  · refine ⟨?_, by dsimp only; omega, ?_, ?_, hl.start⟩
    · intro h
      dsimp only at h
      subst h
      exact hgss (List.length_eq_zero_iff.1 (by rw [← e4]; rfl))
    · dsimp only
      apply List.ext_getElem?
      intro i
      rw [List.getElem?_map, List.getElem?_map]
      match hi : lvs[i]? with
      | none =>
        have : lvs.length ≤ i := List.getElem?_eq_none_iff.1 hi
        rw [List.getElem?_eq_none (by omega)]
        rfl
      | some lv =>
        obtain ⟨gs, k1, k2, k3, k4⟩ := g2 i lv hi
        obtain ⟨lf, k5, k6⟩ := hfs i gs k1
        rw [k5, Option.map_some, Option.map_some, levelSizes, k6, k3, k4, indexBytes_length]
    · intro lv hlv
      dsimp only at hlv
      obtain ⟨i, hi⟩ := List.getElem?_of_mem hlv
      obtain ⟨gs, k1, k2, k3, k4⟩ := g2 i lv hi
      obtain ⟨-, k5, k6⟩ := hsum i gs k1
      refine ⟨k2, ?_⟩
      rw [k3, k4, indexBytes_length]
      have hw4 := hc.whi
      have : gs.length * (c.w + 4) ≤ 255 * 8 := Nat.mul_le_mul k5 (by omega)
      omega

end Verif.DonutForest
