import Verif.Lemmas.ChunkTotal
import Verif.Lemmas.NodeSizes
import Verif.Props.ShallowTree

/-!
# Properties of chunks
-/

namespace Verif.Chunk

open Verif.ShallowTree

/-! ## C28: node ids -/

/-- What ids are for, on one level: every node has one; they are from 1 up to the number of nodes; no two nodes have the
same. The nodes of a format group have the ids following those of the groups before it, in the order visited. And the
reader, given a node's id, comes up with the format and exactly the bytes made for that node. -/
structure Located (c : Config) (gs : List Group) (ns : List Named) (below : IdMap) (lv : Level) (m : IdMap) : Prop where
  range : ∀ n ∈ ns, ∃ id, m n.1 = some id ∧ 1 ≤ id ∧ id ≤ ns.length
  distinct : ∀ n ∈ ns, ∀ n' ∈ ns, m n.1 = m n'.1 → n = n'
  place : ∀ (i : Nat) (n : Named), ns[i]? = some n → ∃ (k : Nat) (g : Group) (bs : Bytes) (id : Nat), gs[k]? = some g ∧
    (g.start ≤ activeSlots n.2 ∧ activeSlots n.2 < g.stop) ∧ m n.1 = some id ∧
    id = 1 + ((gs.take k).map (·.nodes)).sum +
      ((ns.take i).countP fun x => decide (g.start ≤ activeSlots x.2 ∧ activeSlots x.2 < g.stop)) ∧
    nodeBytes c g.spec below n = some bs ∧ bs.length = byteSize c g.spec ∧ extract c lv id = some (specWord c g.spec, bs)

/-- **C28.** For every level (nodes told apart by their paths) whose nodes can be numbered and whose bytes can be
counted: if the level is serialized in the formats chosen for it, every node is found where it was put. -/
theorem ids_locate_nodes {c : Config} (hc : ConfigOK c) (hspecs : c.specs ≤ 255) {ns : List Named} {gs : List Group}
    {below m : IdMap} {lv : Level} (hn : (ns.map (·.1)).Nodup) (hr : ∀ n ∈ ns, ReassuranceFits c n.2)
    (hg : chooseLevel c (shapeOf ns) = some gs) (hlen : ns.length < 256 ^ c.w) (hbytes : (gs.map (·.bytes)).sum < c.wrap)
    (h : serializeLevel c gs ns below = some (lv, m)) : Located c gs ns below lv m := by
  have hw4 := pow256_le hc.whi
  have hr256 : c.r < 256 := by have := hc.r; omega
  have htot : sumOn (shapeOf ns) 0 257 < c.wrap := by
    rw [sumOn_shapeOf]
    have : ns.countP (fun n => decide (0 ≤ activeSlots n.2 ∧ activeSlots n.2 < 257)) ≤ ns.length := List.countP_le_length
    have := c.wrap_ge
    omega
  have hgo := chooseLevel_sound htot hg
  have hl : gs.length ≤ 255 := Nat.le_trans hgo.few hspecs
  obtain ⟨hf, hwithin⟩ := fit_of_groupsOK hgo (by omega)
  obtain ⟨hsum, -⟩ := sum_le_of_groupsOK hc hgo (by omega)
  unfold serializeLevel at h
  split at h
  · cases h
  · next as hi =>
    have hmax := initAllocs_bound c gs 1 as hi (by have := c.wrap_ge; unfold Config.max; omega)
    split at h
    · cases h
    · next ids ha =>
      split at h
      · cases h
      · next bs hb =>
        have hw := writable_of_some hr256 hr hb
        split at h
        · cases h
        · injection h with h
          injection h with h1 h2
          obtain ⟨as', ids', e1, e2, e3, hids⟩ := ids_ok hf hmax
          rw [hi] at e1
          injection e1 with e1
          subst e1
          rw [ha] at e2
          injection e2 with e2
          subst e2
          have e4 := groupBytes_ok hw gs [] rfl
          rw [show ([] : List Group).length = 0 from rfl, List.drop_zero, hb] at e4
          injection e4 with e4
          have hmap : ∀ (i : Nat) (n : Named), ns[i]? = some n → ∃ j, m n.1 = some (j + 1) ∧ (ordered gs ns)[j]? = some n ∧
              j < ns.length ∧ j = before gs (grp gs n) + cnt gs (ns.take i) (grp gs n) := by
            intro i n hin
            obtain ⟨j, a1, a2, a3, a4⟩ := hids i n hin
            refine ⟨j, ?_, a2, by omega, a4⟩
            rw [← h2]
            exact idMap_ok hn hin a1
          refine ⟨?_, ?_, ?_⟩
          · intro n hnn
            obtain ⟨i, hin⟩ := List.getElem?_of_mem hnn
            obtain ⟨j, a1, -, a3, -⟩ := hmap i n hin
            exact ⟨j + 1, a1, by omega, by omega⟩
          · intro n hnn n' hnn' heq
            obtain ⟨i, hin⟩ := List.getElem?_of_mem hnn
            obtain ⟨i', hin'⟩ := List.getElem?_of_mem hnn'
            obtain ⟨j, a1, a2, -, -⟩ := hmap i n hin
            obtain ⟨j', b1, b2, -, -⟩ := hmap i' n' hin'
            rw [a1, b1] at heq
            injection heq with heq
            have : j = j' := by omega
            subst this
            rw [a2] at b2
            injection b2
          · intro i n hin
            have hnn : n ∈ ns := List.mem_of_getElem? hin
            obtain ⟨j, a1, -, -, a4⟩ := hmap i n hin
            obtain ⟨g, hgg, hwg⟩ := hwithin n hnn
            obtain ⟨bs', b1, b2⟩ := hw n hnn g hgg
            have hex := extract_ok hf hw (fun g' hg' => by
                have hgo' := hgo.each g' hg'
                have := hgo'.le
                rw [hgo'.spec]
                exact wordOK hc (by omega))
              (fun g' hg' => by
                have : g'.nodes ≤ (gs.map (·.nodes)).sum := le_sum_nat (List.mem_map.2 ⟨g', hg', rfl⟩)
                omega) hmax (by
                  have : (gs.map fun g => g.nodes * byteSize c g.spec) = gs.map (·.bytes) :=
                    List.map_congr_left fun g hg => (hgo.each g hg).bytes.symm
                  rw [this]
                  unfold Config.max
                  omega) (by omega) hin hgg
            have hwr : written c gs below n = bs' := by
              unfold written
              rw [hgg]
              dsimp only
              rw [b1]
              rfl
            have hcnt : cnt gs (ns.take i) (grp gs n) =
                (ns.take i).countP fun x => decide (g.start ≤ activeSlots x.2 ∧ activeSlots x.2 < g.stop) := by
              unfold cnt
              apply List.countP_congr
              intro x hx
              have hxn : x ∈ ns := List.mem_of_mem_take hx
              simp only [decide_eq_true_eq]
              constructor
              · intro he
                obtain ⟨g', hg', hw'⟩ := hwithin x hxn
                rw [he, hgg] at hg'
                injection hg' with hg'
                subst hg'
                exact hw'
              · intro he
                exact groupOf_eq hgo.apart (by omega) hgg he
            refine ⟨grp gs n, g, bs', j + 1, hgg, hwg, a1, ?_, b1, b2, ?_⟩
            · rw [← hcnt, a4]
              unfold before
              omega
            · rw [← h1, e4, show j + 1 = 1 + before gs (grp gs n) + cnt gs (ns.take i) (grp gs n) by omega, ← hwr]
              exact hex

/-! ## C29: the bytes and the tree give the same answers -/

/-- **C29.** The tree made of entries whose indices fit, laid out over at most 64 levels which fit: it is laid out
without panic, and looking up any hash of the right length in the bytes gives the index the tree gives, or 0 if the tree
gives -1 (no match). -/
theorem bytes_agree_with_tree {ent : List Entry → Nat → Nat} (he : EntropyOK ent) {c : Config} (hc : ConfigOK c)
    (h5 : 5 ≤ c.specs) (hspecs : c.specs ≤ 255) (h1 : 1 ≤ c.hl) (h64 : c.hl ≤ 64) (hr : c.r ≤ c.hl) {l : List Entry}
    (hlen : ∀ e ∈ l, e.hash.length = c.hl) (hn : (l.map (·.hash)).Nodup) (hpi : ∀ e ∈ l, 0 < e.pi ∧ e.pi < 256 ^ c.hw)
    {t : Tree} (ht : generate ent l c.hl c.r = some t) (hfits : ∀ level, LevelFits c (nodesAt t level))
    (hl : ∀ n ∈ visitAll t, n.1.length < 64) :
    ∃ formats lvs m, design c t = some formats ∧ serializeLevels c t 0 formats = some (lvs, m) ∧
      ∀ (first : Int) (h : Bytes), h.length = c.hl → ∃ x, lookup c.hl t h = some x ∧
        lookupId ⟨c, first, lvs⟩ h = some (if x = -1 then 0 else x.toNat) := by
  obtain ⟨t', ht', hB⟩ := generate_built he h1 h64 hr hlen hn
  rw [ht'] at ht
  obtain rfl := Option.some.inj ht
  obtain ⟨fs, lvs, m, e1, e2, hall⟩ := serialize_ok hc h5 hspecs h64 hB hpi hfits
    ((levelCount_fold (visitAll t') 0).2.2 64 (by omega) hl) h1
  refine ⟨fs, lvs, m, e1, e2, fun first h hh => ?_⟩
  have hx : ∃ x, lookup c.hl t' h = some x := by
    unfold lookup
    rw [if_neg (by simpa using hh)]
    rcases lookup_sound hB h with hs | ⟨e, _, hs, _⟩
    · exact ⟨_, hs⟩
    · exact ⟨_, hs⟩
  obtain ⟨x, hx⟩ := hx
  refine ⟨x, hx, ?_⟩
  rw [hall first h hh, hx]
  rfl

/-! ## What a serialized chunk is made of -/

theorem serializeLevel_index {c : Config} {gs : List Group} {ns : List Named} {below m : IdMap} {lv : Level}
    (h : serializeLevel c gs ns below = some (lv, m)) : lv.index ≠ [] ∧ lv.index = indexBytes c gs ∧
      lv.nodes.length = (gs.map (·.bytes)).sum := by
  unfold serializeLevel at h
  split at h
  · cases h
  split at h
  · cases h
  split at h
  · cases h
  split at h
  · cases h
  · next hlen =>
    injection h with h
    injection h with h _
    subst h
    refine ⟨?_, rfl, by simpa using hlen⟩
    intro h0
    have := congrArg List.length h0
    simp [indexBytes] at this

theorem serializeLevels_levels {c : Config} {t : Tree} : ∀ (fs : List (List Group)) (level : Nat) (lvs : List Level) (m : IdMap),
    serializeLevels c t level fs = some (lvs, m) → lvs.length = fs.length ∧
    ∀ (i : Nat) (lv : Level), lvs[i]? = some lv → ∃ gs, fs[i]? = some gs ∧ lv.index ≠ [] ∧ lv.index = indexBytes c gs ∧
      lv.nodes.length = (gs.map (·.bytes)).sum := by
  intro fs
  induction fs with
  | nil =>
    intro level lvs m h
    rw [serializeLevels] at h
    injection h with h
    injection h with h _
    subst h
    simp
  | cons gs fs ih =>
    intro level lvs m h
    rw [serializeLevels] at h
    split at h
    · cases h
    · next lvs' below hb =>
      split at h
      · cases h
      · next lv' m' hs =>
        injection h with h
        injection h with h _
        subst h
        obtain ⟨h1, h2⟩ := ih _ _ _ hb
        refine ⟨by simp [h1], ?_⟩
        intro i lv hi
        match i with
        | 0 =>
          injection hi with hi
          subst hi
          exact ⟨gs, rfl, serializeLevel_index hs⟩
        | i + 1 =>
          rw [List.getElem?_cons_succ] at hi ⊢
          exact h2 i lv hi

/-! ## C57: preparing a chunk and looking up in it -/

/-- The hashes of a chunk: different, of the configured length, with non-negative indices from that of the first on which
fit the configured width; and the package is weddingcake. -/
structure Presentable (c : Config) (first : Int) (l : List Entry) : Prop where
  package : c.back = false
  len : ∀ e ∈ l, e.hash.length = c.hl
  nodup : (l.map (·.hash)).Nodup
  nonneg : 0 ≤ first
  index : ∀ e ∈ l, first ≤ e.pi ∧ e.pi - first + 1 < 256 ^ c.hw

/-- A chunk of few levels, none of them without an index, and of few bytes on each. -/
structure Made (c : Config) (ch : Chunk) : Prop where
  config : ch.config = c
  few : ch.levels.length ≤ 64
  level : ∀ lv ∈ ch.levels, lv.index ≠ [] ∧ lv.index.length + lv.nodes.length < 2 ^ 33

theorem prepare_ok {ent : List Entry → Nat → Nat} (he : EntropyOK ent) {c : Config} (hc : ConfigOK c)
    (h5 : 5 ≤ c.specs) (hspecs : c.specs ≤ 255) (h1 : 1 ≤ c.hl) (h63 : c.hl ≤ 63) (hr : c.r ≤ c.hl) {e₀ : Entry}
    {l : List Entry} (hp : Presentable c e₀.pi (e₀ :: l)) (hcount : (e₀ :: l).length < 256 ^ c.w)
    (hbytes : (e₀ :: l).length * (17 + 128 * c.w) < 2 ^ 32) :
    ∃ ch t, prepare ent c (e₀ :: l) = some ch ∧ (ch.first = e₀.pi ∧ Made c ch) ∧
      Built c.r c.hl (localEntries e₀.pi (e₀ :: l)) (allUnused c.hl) t ∧
      ∀ h : Bytes, h.length = c.hl → lookupHash ch h = (lookup c.hl t h).map fun x => globalOfId e₀.pi (toId x) := by
  have h32 := pow256_le hc.hwhi
  have hwrap : c.wrap = 2 ^ 32 := by unfold Config.wrap; rw [hp.package]; rfl
  have hnat : ((256 ^ c.hw : Nat) : Int) = 256 ^ c.hw := by rw [Int.natCast_pow]; rfl
  have hloc := toLocal_ok (c := c) (first := e₀.pi) (e₀ :: l) (by
    intro e hee
    obtain ⟨a1, a2⟩ := hp.index e hee
    have := hp.nonneg
    refine ⟨by omega, a1, ?_⟩
    unfold Config.max
    omega)
  have hmap : (localEntries e₀.pi (e₀ :: l)).map (·.hash) = (e₀ :: l).map (·.hash) := by
    unfold localEntries
    rw [List.map_map]
    rfl
  have hlen' : ∀ e ∈ localEntries e₀.pi (e₀ :: l), e.hash.length = c.hl := by
    intro e hee
    obtain ⟨x, hx, rfl⟩ := List.mem_map.1 hee
    exact hp.len x hx
  have hpi' : ∀ e ∈ localEntries e₀.pi (e₀ :: l), 0 < e.pi ∧ e.pi < 256 ^ c.hw := by
    intro e hee
    obtain ⟨x, hx, rfl⟩ := List.mem_map.1 hee
    obtain ⟨a1, a2⟩ := hp.index x hx
    exact ⟨by dsimp only; omega, a2⟩
  obtain ⟨t, ht, hB⟩ := generate_built he h1 (by omega) hr hlen' (by rw [hmap]; exact hp.nodup)
  have hll : (localEntries e₀.pi (e₀ :: l)).length = (e₀ :: l).length := by simp [localEntries]
  have hfits := fits_of_count hc hB (by rw [hll]; exact hcount) (by rw [hll]; unfold Config.max; omega)
  have hlev := levelCount_le hB
  obtain ⟨fs, lvs, m, e1, e2, hall⟩ := serialize_ok hc h5 hspecs (by omega) hB hpi' hfits (by omega) h1
  have hv := verify_ok hc (built_sound (by omega) hB hpi' [])
  obtain ⟨fs', f1, f2, f3⟩ := design_ok hc h5 (built_sound (by omega) hB hpi' []) hfits (by omega)
  rw [e1] at f1
  obtain rfl := Option.some.inj f1
  obtain ⟨g1, g2⟩ := serializeLevels_levels _ _ _ _ e2
  have hmade : Made c ⟨c, e₀.pi, lvs⟩ := by
    refine ⟨rfl, by dsimp only; omega, ?_⟩
    intro lv hlv
    obtain ⟨i, hi⟩ := List.getElem?_of_mem hlv
    obtain ⟨gs, k1, k2, k3, k4⟩ := g2 i lv hi
    refine ⟨k2, ?_⟩
    have hg := f3 i gs k1
    have hfew := hg.few
    obtain ⟨-, k5⟩ := sum_le_of_groupsOK hc hg (by omega)
    have k6 := (hfits i).bytes
    have : (gs.map fun g => g.nodes * byteSize c g.spec) = gs.map (·.bytes) :=
      List.map_congr_left fun g hgm => (hg.each g hgm).bytes.symm
    rw [this, ← k4] at k5
    have k7 : lv.index.length ≤ 2 + 255 * 8 := by
      rw [k3, indexBytes, List.length_append, leEnc_length, List.length_flatMap]
      have : ∀ gs : List Group, (gs.map fun g => (leEnc c.w g.nodes ++ leEnc 4 (specWord c g.spec)).length).sum ≤ gs.length * 8 := by
        intro gs
        induction gs with
        | nil => simp
        | cons g gs ih =>
          have := hc.whi
          simp only [List.map_cons, List.sum_cons, List.length_append, leEnc_length, List.length_cons] at ih ⊢
          omega
      have := this gs
      omega
    unfold Config.max at k6
    omega
  refine ⟨⟨c, e₀.pi, lvs⟩, t, ?_, ⟨rfl, hmade⟩, hB, ?_⟩
  · unfold prepare
    dsimp only
    rw [hloc]
    dsimp only
    rw [ht]
    dsimp only
    rw [if_pos hv, e1]
    dsimp only
    rw [e2]
  · intro h hh
    unfold lookupHash
    rw [hall e₀.pi h hh, Option.map_map]
    rfl

theorem globalOfId_toId {first pi : Int} (h : first ≤ pi) : globalOfId first (toId (pi - first + 1)) = pi := by
  have h1 : toId (pi - first + 1) = (pi - first + 1).toNat := by unfold toId; rw [if_neg (by omega)]
  unfold globalOfId
  rw [h1, if_neg (by omega)]
  omega

/-- **C57.** A chunk is prepared, without panic, of any hashes (at most 63 bytes each) few enough for the width of the
node ids, and every hash looked up in the chunk's bytes has the index it was presented with. -/
theorem chunk_finds_every_hash {ent : List Entry → Nat → Nat} (he : EntropyOK ent) {c : Config} (hc : ConfigOK c)
    (h5 : 5 ≤ c.specs) (hspecs : c.specs ≤ 255) (h1 : 1 ≤ c.hl) (h63 : c.hl ≤ 63) (hr : c.r ≤ c.hl) {e₀ : Entry}
    {l : List Entry} (hp : Presentable c e₀.pi (e₀ :: l)) (hcount : (e₀ :: l).length < 256 ^ c.w)
    (hbytes : (e₀ :: l).length * (17 + 128 * c.w) < 2 ^ 32) :
    ∃ ch, prepare ent c (e₀ :: l) = some ch ∧ ∀ e ∈ e₀ :: l, lookupHash ch e.hash = some e.pi := by
  obtain ⟨ch, t, e1, -, hB, hlk⟩ := prepare_ok he hc h5 hspecs h1 h63 hr hp hcount hbytes
  refine ⟨ch, e1, fun e hin => ?_⟩
  rw [hlk e.hash (hp.len e hin)]
  obtain ⟨a1, -⟩ := hp.index e hin
  have hmem : (⟨e.hash, e.pi - e₀.pi + 1⟩ : Entry) ∈ localEntries e₀.pi (e₀ :: l) := List.mem_map.2 ⟨e, hin, rfl⟩
  have hf := lookup_found hB _ hmem
  unfold lookup
  rw [if_neg (by simpa using hp.len e hin)]
  dsimp only at hf
  rw [hf, Option.map_some, globalOfId_toId a1]

/-- **C57.** With the id widths of a chunk of up to 65535 hashes (two bytes for node ids and for hash ids, as in
`ID16`), with indices in a row: nothing else is needed. -/
theorem chunk_of_65534_finds_every_hash {ent : List Entry → Nat → Nat} (he : EntropyOK ent) {hl r specs : Nat}
    (h5 : 5 ≤ specs) (hspecs : specs ≤ 255) (h1 : 1 ≤ hl) (h63 : hl ≤ 63) (hr : r ≤ hl) {first : Nat} {hashes : List Bytes}
    (hlen : ∀ h ∈ hashes, h.length = hl) (hn : hashes.Nodup) (hpos : hashes ≠ []) (hcount : hashes.length ≤ 65534) :
    ∃ ch, prepare ent ⟨hl, r, specs, 2, 2, false⟩ (hashes.mapIdx fun i h => ⟨h, first + i⟩) = some ch ∧
      ∀ (i : Nat) (h : Bytes), hashes[i]? = some h → lookupHash ch h = some (first + i) := by
  match hashes, hpos with
  | h₀ :: hs, _ =>
    have hc : ConfigOK ⟨hl, r, specs, 2, 2, false⟩ := ⟨by simp, by simp, by simp, by simp, by dsimp only; omega⟩
    have hmap : ((h₀ :: hs).mapIdx fun i h => (⟨h, first + i⟩ : Entry)).map (·.hash) = h₀ :: hs := by
      apply List.ext_getElem
      · simp
      · intro i _ _
        rw [List.getElem_map, List.getElem_mapIdx]
    have hmem : ∀ e ∈ (h₀ :: hs).mapIdx (fun i h => (⟨h, first + i⟩ : Entry)), ∃ i, i < (h₀ :: hs).length ∧
        (h₀ :: hs)[i]? = some e.hash ∧ e.pi = first + i := by
      intro e hee
      obtain ⟨i, hi, rfl⟩ := List.mem_mapIdx.1 hee
      exact ⟨i, hi, by simp [List.getElem?_eq_getElem hi], rfl⟩
    have hlen2 : ((h₀ :: hs).mapIdx fun i h => (⟨h, first + i⟩ : Entry)).length = (h₀ :: hs).length := by simp
    have hcons : (h₀ :: hs).mapIdx (fun i h => (⟨h, first + i⟩ : Entry)) =
        ⟨h₀, first + (0 : Nat)⟩ :: hs.mapIdx fun i h => (⟨h, first + (i + 1 : Nat)⟩ : Entry) := by simp [List.mapIdx_cons]
    rw [hcons] at hmap hmem hlen2 ⊢
    obtain ⟨ch, e1, hall⟩ := chunk_finds_every_hash he hc h5 hspecs h1 h63 hr (e₀ := ⟨h₀, first + (0 : Nat)⟩)
      (l := hs.mapIdx fun i h => (⟨h, first + (i + 1 : Nat)⟩ : Entry))
      (by
        refine ⟨rfl, ?_, ?_, by dsimp only; omega, ?_⟩
        · intro e hee
          obtain ⟨i, -, a, -⟩ := hmem e hee
          exact hlen _ (List.mem_of_getElem? a)
        · rw [hmap]
          exact hn
        · intro e hee
          obtain ⟨i, hi, -, a⟩ := hmem e hee
          dsimp only
          omega)
      (by rw [hlen2]; dsimp only; omega) (by rw [hlen2]; dsimp only; omega)
    refine ⟨ch, e1, fun i h hi => ?_⟩
    have hi' : i < (h₀ :: hs).length := (List.getElem?_eq_some_iff.1 hi).1
    have := hall ⟨h, first + i⟩ (by
      rw [← hcons, List.mem_mapIdx]
      refine ⟨i, hi', ?_⟩
      rw [(List.getElem?_eq_some_iff.1 hi).2])
    exact this

/-- **C57, absence.** Looking up any hash of the right length gives -1 or the index of a hash of the chunk that has the
same bytes in examined positions that tell it from every other, and in the first `r` other positions. -/
theorem chunk_match_is_plausible {ent : List Entry → Nat → Nat} (he : EntropyOK ent) {c : Config} (hc : ConfigOK c)
    (h5 : 5 ≤ c.specs) (hspecs : c.specs ≤ 255) (h1 : 1 ≤ c.hl) (h63 : c.hl ≤ 63) (hr : c.r ≤ c.hl) {e₀ : Entry}
    {l : List Entry} (hp : Presentable c e₀.pi (e₀ :: l)) (hcount : (e₀ :: l).length < 256 ^ c.w)
    (hbytes : (e₀ :: l).length * (17 + 128 * c.w) < 2 ^ 32) :
    ∃ ch, prepare ent c (e₀ :: l) = some ch ∧ ∀ q : Bytes, q.length = c.hl →
      lookupHash ch q = some (-1) ∨ ∃ e ∈ e₀ :: l, lookupHash ch q = some e.pi ∧ ∃ examined : List Nat,
        (∀ i ∈ examined, i < c.hl ∧ byteAt q i = byteAt e.hash i) ∧
        (∀ e' ∈ e₀ :: l, e'.hash ≠ e.hash → ∃ i ∈ examined, byteAt e'.hash i ≠ byteAt q i) ∧
        ∀ i ∈ ((List.range 64).filter fun i => allUnused c.hl i && decide (i ∉ examined)).take c.r, byteAt q i = byteAt e.hash i := by
  obtain ⟨ch, t, e1, -, hB, hlk⟩ := prepare_ok he hc h5 hspecs h1 h63 hr hp hcount hbytes
  refine ⟨ch, e1, fun q hq => ?_⟩
  rw [hlk q hq]
  unfold lookup
  rw [if_neg (by simpa using hq)]
  rcases lookup_sound hB q with h | ⟨e, ex, h, hm⟩
  · left
    rw [h]
    rfl
  · right
    obtain ⟨x, hx, hxe⟩ := List.mem_map.1 hm.mem
    subst hxe
    obtain ⟨a1, -⟩ := hp.index x hx
    refine ⟨x, hx, ?_, ex, ?_, ?_, hm.reassure⟩
    · rw [h, Option.map_some, globalOfId_toId a1]
    · intro i hi
      exact ⟨by simpa [allUnused] using hm.unused i hi, hm.agree i hi⟩
    · intro e' he' hne
      obtain ⟨i, hi, hd⟩ := hm.others ⟨e'.hash, e'.pi - e₀.pi + 1⟩ (List.mem_map.2 ⟨e', he', rfl⟩)
        (by intro h; injection h with h; exact hne h)
      exact ⟨i, hi, hd⟩

/-! ## Where it fails -/

/-- The hash with a one at a position (all zero for 64 and beyond). -/
def unit64 (i : Nat) : Bytes := (List.range 64).map fun j => if j = i then 1 else 0

theorem byteAt_unit {i j : Nat} (hj : j < 64) : byteAt (unit64 i) j = if j = i then 1 else 0 := by
  simp [byteAt, unit64, List.getD, hj]

/-- If the hashes are those, the tree has a node below as many others as there are bytes. -/
theorem deep_node {r : Nat} {l : List Entry} {f : Flags} {t : Tree} (hB : Built r 64 l f t) :
    ∀ (p : List UInt8), (∃ e ∈ l, e.hash = unit64 64) → (∀ i < 64, f i = true → ∃ e ∈ l, e.hash = unit64 i) →
    ∃ n ∈ preorder p t, n.1.length = p.length + unusedCount f 64 := by
  induction hB with
  | empty => intro p h; simp at h
  | @leaf e f =>
    intro p hz hu
    refine ⟨(p, .leaf (reassurance f r e.hash) e.pi), by simp [preorder], ?_⟩
    have : unusedCount f 64 = 0 := by
      unfold unusedCount
      rw [List.countP_eq_zero]
      intro i hi hf
      rw [List.mem_range] at hi
      obtain ⟨a, ha, ea⟩ := hz
      obtain ⟨b, hb, eb⟩ := hu i hi hf
      rw [List.mem_singleton] at ha hb
      subst ha hb
      have h1 := byteAt_unit (i := 64) hi
      have h2 := byteAt_unit (i := i) hi
      rw [← ea, eb, h2] at h1
      rw [if_pos rfl, if_neg (by omega)] at h1
      exact absurd h1 (by decide)
    rw [this]
    rfl
  | @slots l f bi next runs h1 h2 h3 hp hb ih =>
    intro p hz hu
    obtain ⟨n, hn, hlen⟩ := ih 0 (p ++ [0])
      (by
        obtain ⟨e, hee, eq⟩ := hz
        refine ⟨e, (hp 0).mem_iff.2 (List.mem_filter.2 ⟨hee, ?_⟩), eq⟩
        rw [eq, byteAt_unit h1, if_neg (by omega)]
        rfl)
      (by
        intro i hi hf
        have hne : i ≠ bi := by
          rintro rfl
          simp [ShallowTree.flip, h2] at hf
        obtain ⟨e, hee, eq⟩ := hu i hi (by simpa [ShallowTree.flip, hne] using hf)
        refine ⟨e, (hp 0).mem_iff.2 (List.mem_filter.2 ⟨hee, ?_⟩), eq⟩
        rw [eq, byteAt_unit h1, if_neg (by omega)]
        rfl)
    refine ⟨n, ?_, ?_⟩
    · simp only [preorder, List.mem_cons, List.mem_flatMap]
      exact .inr ⟨0, by simp [mem_allBytes], hn⟩
    · have := unusedCount_flip h1 h2
      rw [List.length_append] at hlen
      simp only [List.length_singleton] at hlen
      omega

/-- The 65 hashes. -/
def deepHashes : List Entry := (List.range 65).map fun i => ⟨unit64 i, i⟩

theorem deepHashes_nodup : (deepHashes.map (·.hash)).Nodup := by decide +kernel

/-- **C29, the limit of 64 levels is real.** For 64-byte hashes, which the program accepts, there are 65 different hashes
of which no chunk can be prepared, whatever the configuration: counting the shapes of the levels panics. -/
theorem sixty_five_levels_panic : deepHashes.length = 65 ∧ (∀ e ∈ deepHashes, e.hash.length = 64) ∧
    (deepHashes.map (·.hash)).Nodup ∧
    ∀ (ent : List Entry → Nat → Nat), EntropyOK ent → ∀ c : Config, c.back = false → c.hl = 64 → c.r ≤ 64 →
      (∃ t, generate ent deepHashes c.hl c.r = some t) ∧ prepare ent c deepHashes = none := by
  have hlen : ∀ e ∈ deepHashes, e.hash.length = 64 := by
    intro e he
    obtain ⟨i, -, rfl⟩ := List.mem_map.1 he
    simp [unit64]
  refine ⟨by simp [deepHashes], hlen, deepHashes_nodup, ?_⟩
  intro ent he c hback hl hr
  refine ⟨?_, ?_⟩
  · obtain ⟨t, ht, -⟩ := generate_built he (l := deepHashes) (hl := c.hl) (r := c.r) (by omega) (by omega) (by omega)
      (by rw [hl]; exact hlen) deepHashes_nodup
    exact ⟨t, ht⟩
  · have hhead : deepHashes = ⟨unit64 0, 0⟩ :: (List.range' 1 64).map fun i => ⟨unit64 i, i⟩ := by
      unfold deepHashes
      rw [List.range_eq_range']
      rfl
    have hloc : toLocal c 0 deepHashes = some (localEntries 0 deepHashes) := by
      apply toLocal_ok
      intro e hee
      obtain ⟨i, hi, rfl⟩ := List.mem_map.1 hee
      rw [List.mem_range] at hi
      dsimp only
      refine ⟨by omega, by omega, ?_⟩
      have := c.wrap_ge
      unfold Config.max
      omega
    have hmap : (localEntries 0 deepHashes).map (·.hash) = deepHashes.map (·.hash) := by
      unfold localEntries
      rw [List.map_map]
      rfl
    obtain ⟨t, ht, hB⟩ := generate_built he (l := localEntries 0 deepHashes) (hl := 64) (r := c.r) (by omega) (by omega) hr
      (by
        intro e hee
        obtain ⟨x, hx, rfl⟩ := List.mem_map.1 hee
        exact hlen x hx) (by rw [hmap]; exact deepHashes_nodup)
    have hin : ∀ i < 65, ∃ e ∈ localEntries 0 deepHashes, e.hash = unit64 i := by
      intro i hi
      exact ⟨⟨unit64 i, i - 0 + 1⟩, List.mem_map.2 ⟨⟨unit64 i, i⟩, List.mem_map.2 ⟨i, List.mem_range.2 hi, rfl⟩, rfl⟩, rfl⟩
    obtain ⟨n, hn, hnl⟩ := deep_node hB [] (hin 64 (by omega)) (fun i hi _ => hin i (by omega))
    have h64 : unusedCount (allUnused 64) 64 = 64 := by decide +kernel
    rw [h64, List.length_nil] at hnl
    have hcount : levelCount (visitAll t) ≥ 65 := by
      have := (levelCount_fold (visitAll t) 0).2.1 n (by rw [visitAll_eq]; exact hn)
      unfold levelCount
      omega
    have hd : design c t = none := by
      unfold design countShapes
      dsimp only
      rw [if_pos (by rw [hback]; exact hcount)]
    rw [hhead]
    unfold prepare
    dsimp only
    rw [← hhead, hloc]
    dsimp only
    rw [hl, ht]
    dsimp only
    rw [hd]
    split <;> rfl

/-! ## Examples -/

/-- Two bytes to a hash; three hashes that need two levels, with a node of two slots and leaves. -/
def demoChunkConfig : Config := ⟨3, 1, 5, 2, 2, false⟩

example : ∃ ch, prepare demoEnt demoChunkConfig demoEntries = some ch ∧
    ∀ e ∈ demoEntries, lookupHash ch e.hash = some e.pi :=
  chunk_finds_every_hash demoEnt_ok ⟨by decide, by decide, by decide, by decide, by decide⟩ (by decide) (by decide)
    (by decide) (by decide) (by decide)
    ⟨rfl, by decide, by decide, by decide, by decide⟩ (by decide) (by decide)

/-- The bytes of the chunk: three levels. -/
example : (prepare demoEnt demoChunkConfig demoEntries).map (·.levels.map fun lv => (lv.index.length, lv.nodes.length)) =
    some [(8, 7), (14, 10), (8, 6)] := by decide +kernel

example : ((prepare demoEnt demoChunkConfig demoEntries).bind fun ch => lookupHash ch [7, 2, 200]) = some 12 ∧
    ((prepare demoEnt demoChunkConfig demoEntries).bind fun ch => lookupHash ch [1, 8, 3]) = some (-1) := by decide +kernel

/-- A level of two leaves and a branching node between them, and the ids below. -/
def demoNodes : List Named :=
  [([1], .leaf [5] 1), ([2], .slots 0 fun b => if b = 3 then .leaf [7] 2 else if b = 4 then .leaf [8] 3 else .empty),
    ([3], .leaf [6] 4)]

def demoBelow : IdMap := fun p => if p = [2, 3] then some 1 else if p = [2, 4] then some 2 else none

example : ∃ gs lv m, chooseLevel demoChunkConfig (shapeOf demoNodes) = some gs ∧
    serializeLevel demoChunkConfig gs demoNodes demoBelow = some (lv, m) ∧ lv.nodes = [5, 1, 0, 6, 4, 0, 0, 3, 1, 0, 4, 2, 0] ∧
    (m [1] = some 1 ∧ m [2] = some 3 ∧ m [3] = some 2) ∧ Located demoChunkConfig gs demoNodes demoBelow lv m := by
  have h : ((chooseLevel demoChunkConfig (shapeOf demoNodes)).bind fun gs =>
      (serializeLevel demoChunkConfig gs demoNodes demoBelow).map fun x =>
        (x.1.nodes, x.2 [1], x.2 [2], x.2 [3], decide ((gs.map (·.bytes)).sum < demoChunkConfig.wrap))) =
      some ([5, 1, 0, 6, 4, 0, 0, 3, 1, 0, 4, 2, 0], some 1, some 3, some 2, true) := by decide +kernel
  obtain ⟨gs, e1, h⟩ := Option.bind_eq_some_iff.1 h
  obtain ⟨⟨lv, m⟩, e2, h⟩ := Option.map_eq_some_iff.1 h
  simp only [Prod.mk.injEq, decide_eq_true_eq] at h
  refine ⟨gs, lv, m, e1, e2, h.1, ⟨h.2.1, h.2.2.1, h.2.2.2.1⟩, ?_⟩
  refine ids_locate_nodes ⟨by decide, by decide, by decide, by decide, by decide⟩ (by decide) (by decide) ?_ e1 (by decide)
    h.2.2.2.2 e2
  intro n hn
  simp only [demoNodes, List.mem_cons, List.not_mem_nil, or_false] at hn
  rcases hn with rfl | rfl | rfl <;> simp [ReassuranceFits, demoChunkConfig]

example : ∃ t formats lvs m, generate demoEnt (localEntries 10 demoEntries) 3 1 = some t ∧ design demoChunkConfig t = some formats ∧
    serializeLevels demoChunkConfig t 0 formats = some (lvs, m) ∧ ∀ h : Bytes, h.length = 3 → ∃ x, lookup 3 t h = some x ∧
      lookupId ⟨demoChunkConfig, 10, lvs⟩ h = some (if x = -1 then 0 else x.toNat) := by
  have hc : ConfigOK demoChunkConfig := ⟨by decide, by decide, by decide, by decide, by decide⟩
  obtain ⟨t, ht, hB⟩ := generate_built demoEnt_ok (l := localEntries 10 demoEntries) (hl := 3) (r := 1) (by omega) (by omega)
    (by omega) (by decide) (by decide)
  obtain ⟨fs, lvs, m, e1, e2, h⟩ := bytes_agree_with_tree demoEnt_ok hc (by decide) (by decide) (by decide) (by decide) (by decide)
    (l := localEntries 10 demoEntries) (by decide) (by decide) (by decide) ht
    (fits_of_count (c := demoChunkConfig) hc hB (by decide) (by decide)) (by
      intro n hn
      have h1 := (levelCount_fold (visitAll t) 0).2.1 n hn
      have h2 := levelCount_le hB
      unfold levelCount at h2
      omega)
  exact ⟨t, fs, lvs, m, ht, e1, e2, h 10⟩

/-- **C29/C57, the bound on the indices is real.** With two-byte hash ids, a hash whose index is 65535 past the first's
has the id 65536, which is written as 0: the chunk is made, and the hash is not found in it. -/
theorem id_truncated : ∃ ch, prepare demoEnt demoChunkConfig [⟨[1, 2, 3], 0⟩, ⟨[7, 2, 3], 65535⟩] = some ch ∧
    lookupHash ch [1, 2, 3] = some 0 ∧ lookupHash ch [7, 2, 3] = some (-1) := by
  have h : ((prepare demoEnt demoChunkConfig [⟨[1, 2, 3], 0⟩, ⟨[7, 2, 3], 65535⟩]).map fun ch =>
      (lookupHash ch [1, 2, 3], lookupHash ch [7, 2, 3])) = some (some 0, some (-1)) := by decide +kernel
  obtain ⟨ch, e, h2⟩ := Option.map_eq_some_iff.1 h
  injection h2 with a b
  exact ⟨ch, e, a, b⟩

end Verif.Chunk
