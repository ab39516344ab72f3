import Verif.Lemmas.NodeCodec
import Verif.Lemmas.Visit

/-!
# The levels of a chunk, and searching them
-/

namespace Verif.Chunk

open Verif.ShallowTree

/-! ## One level -/

/-- What the nodes of a tree over entries look like. -/
def Sound (c : Config) : Tree → Prop
  | .empty => False
  | .leaf re pi => (∃ f x, re = reassurance f c.r x) ∧ 0 < pi ∧ pi < 256 ^ c.hw
  | .slots bi next => bi < 64 ∧ 2 ≤ activeSlots (.slots bi next)

/-- The nodes below the nodes of a level have ids. -/
def AllKnown (c : Config) (below : IdMap) (ns : List Named) : Prop :=
  ∀ p bi next, (p, Tree.slots bi next) ∈ ns → Known c below p next

/-- The node is stored in the level under the id, in a suitable format. -/
def Stored (c : Config) (lv : Level) (below : IdMap) (n : Named) (id : Nat) : Prop :=
  ∃ S bs, S ≤ 256 ∧ activeSlots n.2 ≤ S ∧ fmtOf (activeSlots n.2) = fmtOf S ∧ nodeBytes c (specOf S) below n = some bs ∧
    extract c lv id = some (specWord c (specOf S), bs)

theorem node_writable {c : Config} (hc : ConfigOK c) {below : IdMap} {n : Named} (hs : Sound c n.2)
    (hk : ∀ bi next, n.2 = .slots bi next → Known c below n.1 next) {S : Nat} (hS : S ≤ 256) (hle : activeSlots n.2 ≤ S)
    (hf : fmtOf (activeSlots n.2) = fmtOf S) :
    ∃ bs, nodeBytes c (specOf S) below n = some bs ∧ bs.length = byteSize c (specOf S) := by
  obtain ⟨p, t⟩ := n
  cases t with
  | empty => exact absurd hs (by simp [Sound])
  | leaf re pi =>
    obtain ⟨⟨f, x, rfl⟩, h1, h2⟩ := hs
    have hS0 : S = 0 := by
      have h0 : fmtOf S = .leaf := hf.symm
      exact fmtOf_bounds.1 h0
    subst hS0
    obtain ⟨bs, e1, e2, -, -⟩ := leaf_read hc (f := fun i => f i) (x := x) (h := zeros 64) (m := below) (p := p) h1 h2 (by
      intro i hi
      simp [setBits] at hi
      simp [hi.1])
    exact ⟨bs, e1, e2⟩
  | slots bi next =>
    obtain ⟨h1, h2⟩ := hs
    obtain ⟨bs, e1, e2, -⟩ := branch_read hc (hk bi next rfl) (bi := bi) (by omega) hS hle (by omega)
    exact ⟨bs, e1, e2⟩

theorem idMap_ok {ns : List Named} {ids : List Nat} (hn : (ns.map (·.1)).Nodup) : ∀ {i : Nat} {n : Named} {id : Nat},
    ns[i]? = some n → ids[i]? = some id → idMap ns ids n.1 = some id := by
  unfold idMap
  induction ns generalizing ids with
  | nil => intro i n id h; simp at h
  | cons x ns ih =>
    intro i n id h1 h2
    cases ids with
    | nil => simp at h2
    | cons y ids =>
      rw [List.map_cons, List.nodup_cons] at hn
      cases i with
      | zero =>
        simp only [List.getElem?_cons_zero, Option.some.injEq] at h1 h2
        subst h1 h2
        rw [List.zip_cons_cons, List.find?_cons_of_pos (by simp)]
        rfl
      | succ i =>
        simp only [List.getElem?_cons_succ] at h1 h2
        have hne : x.1 ≠ n.1 := fun h => hn.1 (h ▸ List.mem_map.2 ⟨n, List.mem_of_getElem? h1, rfl⟩)
        rw [List.zip_cons_cons, List.find?_cons_of_neg (by simpa using hne)]
        exact ih hn.2 h1 h2

theorem pow256_le {w : Nat} (h : w ≤ 4) : (256 : Nat) ^ w ≤ 2 ^ 32 := by
  have : (256 : Nat) ^ w ≤ 256 ^ 4 := Nat.pow_le_pow_right (by decide) h
  omega

theorem le_sum_nat : ∀ {l : List Nat} {a : Nat}, a ∈ l → a ≤ l.sum := by
  intro l
  induction l with
  | nil => intro a h; simp at h
  | cons x l ih =>
    intro a h
    rw [List.sum_cons]
    rcases List.mem_cons.1 h with rfl | h
    · omega
    · have := ih h
      omega

theorem level_ok {c : Config} (hc : ConfigOK c) (hspecs : c.specs ≤ 255) {ns : List Named} {gs : List Group} {below : IdMap}
    (hn : (ns.map (·.1)).Nodup) (hfits : LevelFits c ns) (hs : ∀ n ∈ ns, Sound c n.2) (hg : GroupsOK c (shapeOf ns) gs)
    (hk : AllKnown c below ns) :
    ∃ lv m, serializeLevel c gs ns below = some (lv, m) ∧
      ∀ n ∈ ns, ∃ id, m n.1 = some id ∧ 0 < id ∧ id ≤ ns.length ∧ Stored c lv below n id := by
  have hl : gs.length ≤ 255 := Nat.le_trans hg.few hspecs
  obtain ⟨hf, hwithin⟩ := fit_of_groupsOK hg (by omega)
  obtain ⟨hsum, hbytes⟩ := sum_le_of_groupsOK hc hg (by omega)
  have h32 := pow256_le hc.whi
  have hlt := hfits.nodes
  have hfb := hfits.bytes
  have hgroup : ∀ n ∈ ns, ∀ g, gs[grp gs n]? = some g → ∃ S, g.spec = specOf S ∧ S ≤ 256 ∧ activeSlots n.2 ≤ S ∧
      fmtOf (activeSlots n.2) = fmtOf S := by
    intro n hnn g hgg
    obtain ⟨g', hg', hw⟩ := hwithin n hnn
    rw [hgg] at hg'
    injection hg' with hg'
    subst hg'
    have hgo := hg.each g (List.mem_of_getElem? hgg)
    have := hgo.le
    have h2 := hw.2
    refine ⟨g.stop - 1, hgo.spec, by omega, by omega, ?_⟩
    rw [hgo.fmt _ hw.1 hw.2, hgo.spec]
    rfl
  have hw : Writable c gs below ns := by
    intro n hnn g hgg
    obtain ⟨S, e, h1, h2, h3⟩ := hgroup n hnn g hgg
    rw [e]
    refine node_writable hc (hs n hnn) (fun bi next hb => ?_) h1 h2 h3
    exact hk n.1 bi next (by rw [← hb]; exact hnn)
  have hmax : 1 + (gs.map (·.nodes)).sum ≤ c.max := by
    rw [hsum]
    have := hfits.ids
    omega
  obtain ⟨as, ids, e1, e2, e3, hids⟩ := ids_ok hf hmax
  have e4 := groupBytes_ok hw gs [] rfl
  rw [show ([] : List Group).length = 0 from rfl, List.drop_zero] at e4
  have hlen := blocks_bytes_length hf hw gs.length (Nat.le_refl _)
  rw [show (blocks gs ns).take gs.length = blocks gs ns from List.take_of_length_le (by simp [blocks])] at hlen
  have hbs : bytesBefore c gs gs.length = (gs.map (·.bytes)).sum := by
    unfold bytesBefore
    rw [List.take_length]
    congr 1
    apply List.map_congr_left
    intro g hgg
    exact (hg.each g hgg).bytes.symm
  refine ⟨⟨indexBytes c gs, (ordered gs ns).flatMap (written c gs below)⟩, idMap ns ids, ?_, ?_⟩
  · unfold serializeLevel
    rw [e1]
    dsimp only
    rw [e2]
    dsimp only
    rw [e4]
    dsimp only
    rw [if_neg (by rw [hlen, hbs]; simp)]
    rfl
  · intro n hnn
    obtain ⟨i, hi⟩ := List.getElem?_of_mem hnn
    obtain ⟨j, h1, h2, h3, h4⟩ := hids i n hi
    refine ⟨j + 1, idMap_ok hn hi h1, by omega, by omega, ?_⟩
    obtain ⟨g, hgg, -⟩ := hwithin n hnn
    obtain ⟨S, e, hS, hle, hfm⟩ := hgroup n hnn g hgg
    have hex := extract_ok hf hw (fun g' hg' => by
        have hgo := hg.each g' hg'
        have := hgo.le
        rw [hgo.spec]
        exact wordOK hc (by omega))
      (fun g' hg' => by
        have : g'.nodes ≤ (gs.map (·.nodes)).sum := le_sum_nat (List.mem_map.2 ⟨g', hg', rfl⟩)
        omega) hmax (by omega) (by omega) hi hgg
    obtain ⟨bs, hb1, -⟩ := hw n hnn g hgg
    refine ⟨S, bs, hS, hle, hfm, by rw [← e]; exact hb1, ?_⟩
    have hwr : written c gs below n = bs := by
      unfold written
      rw [hgg]
      dsimp only
      rw [hb1]
      rfl
    rw [show j + 1 = 1 + before gs (grp gs n) + cnt gs (ns.take i) (grp gs n) by omega, hex, hwr, e]

/-! ## All levels -/

/-- Every node of the levels from `level` on is stored, and the ids are those of `m`. -/
def LevelsOK (c : Config) (t : Tree) : Nat → List Level → IdMap → Prop
  | level, [], _ => nodesAt t level = []
  | level, lv :: lvs, m => ∃ below, LevelsOK c t (level + 1) lvs below ∧
      ∀ n ∈ nodesAt t level, ∃ id, m n.1 = some id ∧ 0 < id ∧ id ≤ (nodesAt t level).length ∧ Stored c lv below n id

theorem mem_nodesAt {t : Tree} {level : Nat} {n : Named} : n ∈ nodesAt t level ↔ n ∈ preorder [] t ∧ n.1.length = level := by
  unfold nodesAt
  rw [List.mem_filter, visitAll_eq]
  simp

theorem nodesAt_nodup (t : Tree) (level : Nat) : ((nodesAt t level).map (·.1)).Nodup := by
  unfold nodesAt
  rw [visitAll_eq]
  exact preorder_nodup.sublist (List.filter_sublist.map _)

theorem child_at {t : Tree} {level : Nat} {p : List UInt8} {bi : Nat} {next : UInt8 → Tree} {b : UInt8}
    (h : (p, Tree.slots bi next) ∈ nodesAt t level) (hb : (next b).isEmpty = false) :
    (p ++ [b], next b) ∈ nodesAt t (level + 1) := by
  rw [mem_nodesAt] at h ⊢
  refine ⟨preorder_child h.1 hb, ?_⟩
  have := h.2
  simp only [List.length_append, List.length_singleton] at this ⊢
  omega

theorem LevelsOK.ids {c : Config} {t : Tree} {level : Nat} {lvs : List Level} {m : IdMap} (h : LevelsOK c t level lvs m)
    (hf : (nodesAt t level).length < 256 ^ c.w) : ∀ n ∈ nodesAt t level, ∃ id, m n.1 = some id ∧ 0 < id ∧ id < 256 ^ c.w := by
  intro n hn
  cases lvs with
  | nil =>
    unfold LevelsOK at h
    rw [h] at hn
    simp at hn
  | cons lv lvs =>
    unfold LevelsOK at h
    obtain ⟨below, -, hall⟩ := h
    obtain ⟨id, h1, h2, h3, -⟩ := hall n hn
    exact ⟨id, h1, h2, by omega⟩

theorem levels_ok {c : Config} (hc : ConfigOK c) (hspecs : c.specs ≤ 255) {t : Tree} (hs : ∀ n ∈ preorder [] t, Sound c n.2)
    (hfits : ∀ level, LevelFits c (nodesAt t level)) : ∀ (formats : List (List Group)) (level : Nat),
    nodesAt t (level + formats.length) = [] →
    (∀ i gs, formats[i]? = some gs → GroupsOK c (shapeOf (nodesAt t (level + i))) gs) →
    ∃ lvs m, serializeLevels c t level formats = some (lvs, m) ∧ lvs.length = formats.length ∧ LevelsOK c t level lvs m := by
  intro formats
  induction formats with
  | nil =>
    intro level hend _
    exact ⟨[], fun _ => none, rfl, rfl, by unfold LevelsOK; simpa using hend⟩
  | cons gs rest ih =>
    intro level hend hgs
    obtain ⟨lvs, below, e1, e2, h1⟩ := ih (level + 1)
      (by rw [← hend, List.length_cons]; congr 1; omega)
      (by
        intro i gs' hi
        have := hgs (i + 1) gs' (by simpa using hi)
        rw [show level + 1 + i = level + (i + 1) by omega]
        exact this)
    have hk : AllKnown c below (nodesAt t level) := by
      intro p bi next hp b hb
      exact LevelsOK.ids h1 (hfits (level + 1)).nodes _ (child_at hp hb)
    obtain ⟨lv, m, e3, h2⟩ := level_ok hc hspecs (nodesAt_nodup t level) (hfits level)
      (fun n hn => hs n (mem_nodesAt.1 hn).1) (hgs 0 gs rfl) hk
    refine ⟨lv :: lvs, m, ?_, by simp [e2], ⟨below, h1, h2⟩⟩
    unfold serializeLevels
    rw [e1]
    dsimp only
    rw [e3]

/-! ## Searching -/

/-- The id stored for the answer of the tree: 0 for none. -/
def toId (x : Int) : Nat := if x = -1 then 0 else x.toNat

theorem built_isEmpty {r hl : Nat} {l : List Entry} {f : Flags} {t : Tree} (h : Built r hl l f t) : t.isEmpty = true ↔ l = [] := by
  cases h with
  | empty => simp [Tree.isEmpty]
  | leaf => simp [Tree.isEmpty]
  | slots runs h1 h2 h3 hp hb =>
    obtain ⟨x, hx, -⟩ := h3
    simp only [Tree.isEmpty, Bool.false_eq_true, false_iff]
    rintro rfl
    simp at hx

theorem two_le_length {α : Type} {l : List α} {a b : α} (ha : a ∈ l) (hb : b ∈ l) (hne : a ≠ b) : 2 ≤ l.length := by
  match l, ha, hb with
  | [x], ha, hb =>
    rw [List.mem_singleton] at ha hb
    exact absurd (ha.trans hb.symm) hne
  | _ :: _ :: _, _, _ => simp

theorem built_active {r hl : Nat} {l : List Entry} {f : Flags} {bi : Nat} {next : UInt8 → Tree}
    (h : Built r hl l f (.slots bi next)) : 2 ≤ activeSlots (.slots bi next) := by
  cases h with
  | slots runs h1 h2 h3 hp hb =>
    have hmem : ∀ x ∈ l, byteAt x.hash bi ∈ allBytes.filter fun b => !(next b).isEmpty := by
      intro x hx
      rw [List.mem_filter]
      refine ⟨mem_allBytes _, ?_⟩
      have hr : x ∈ runs (byteAt x.hash bi) := (hp _).mem_iff.2 (by simp [List.mem_filter, hx])
      have hne : ¬ (next (byteAt x.hash bi)).isEmpty = true := by
        rw [built_isEmpty (hb (byteAt x.hash bi))]
        intro h
        rw [h] at hr
        simp at hr
      simpa using hne
    obtain ⟨x, hx, y, hy, hxy⟩ := h3
    unfold activeSlots
    dsimp only
    rw [List.countP_eq_length_filter]
    exact two_le_length (hmem x hx) (hmem y hy) hxy

theorem built_sound {c : Config} (h64 : c.hl ≤ 64) {l : List Entry} {f : Flags} {t : Tree} (hB : Built c.r c.hl l f t)
    (hpi : ∀ e ∈ l, 0 < e.pi ∧ e.pi < 256 ^ c.hw) : ∀ p, ∀ n ∈ preorder p t, Sound c n.2 := by
  induction hB with
  | empty => intro p n hn; simp [preorder] at hn
  | @leaf e f =>
    intro p n hn
    simp only [preorder, List.mem_singleton] at hn
    subst hn
    have := hpi e (by simp)
    exact ⟨⟨f, e.hash, rfl⟩, this.1, this.2⟩
  | @slots l f bi next runs h1 h2 h3 hp hb ih =>
    intro p n hn
    simp only [preorder, List.mem_cons, List.mem_flatMap] at hn
    rcases hn with rfl | ⟨b, _, hn⟩
    · exact ⟨by omega, built_active (.slots runs h1 h2 h3 hp hb)⟩
    · refine ih b ?_ _ n hn
      intro e he
      exact hpi e (List.mem_filter.1 ((hp b).mem_iff.1 he)).1

theorem find_ok {c : Config} (hc : ConfigOK c) {t : Tree} {h : Bytes} (hh : h.length = c.hl) (h64 : c.hl ≤ 64)
    (hfits : ∀ level, LevelFits c (nodesAt t level)) :
    ∀ (lvs : List Level) (level : Nat) (m : IdMap) (p : List UInt8) (s : Tree) (l : List Entry) (f : Flags) (id : Nat),
    LevelsOK c t level lvs m → (p, s) ∈ nodesAt t level → Built c.r c.hl l f s → (∀ i, f i = true → i < c.hl) →
    (∀ e ∈ l, 0 < e.pi ∧ e.pi < 256 ^ c.hw) → m p = some id →
    find c h lvs id f = (lookupFrom h s f).map toId := by
  intro lvs
  induction lvs with
  | nil =>
    intro level m p s l f id hL hp
    unfold LevelsOK at hL
    rw [hL] at hp
    simp at hp
  | cons lv lvs ih =>
    intro level m p s l f id hL hp hB hf hpi hm
    have hL' := hL
    unfold LevelsOK at hL'
    obtain ⟨below, hbelow, hall⟩ := hL'
    obtain ⟨id', e1, hpos, -, S, bs, hS, hle, hfm, e2, e3⟩ := hall _ hp
    rw [hm] at e1
    injection e1 with e1
    subst e1
    unfold find
    rw [e3]
    dsimp only
    cases hB with
    | empty =>
      have := preorder_ne_empty _ (mem_nodesAt.1 hp).1
      simp [Tree.isEmpty] at this
    | @leaf e f =>
      obtain ⟨h1, h2⟩ := hpi e (by simp)
      have hS0 : S = 0 := fmtOf_bounds.1 (hfm.symm : fmtOf S = .leaf)
      subst hS0
      obtain ⟨bs', r1, -, r3, r4⟩ := leaf_read hc (f := f) (x := e.hash) (h := h) (m := below) (p := p) h1 h2 (by
        intro i hi
        simp only [setBits, List.mem_filter] at hi
        rw [hh]
        exact hf i hi.2)
      rw [e2] at r1
      injection r1 with r1
      subst r1
      rw [if_pos r3, r4, lookupFrom]
      cases checkReassurance h (reassurance f c.r e.hash) (setBits f) with
      | none => rfl
      | some ok =>
        cases ok
        · rfl
        · show some e.pi.toNat = some (toId e.pi)
          unfold toId
          rw [if_neg (by omega)]
    | @slots l f bi next runs h1 h2 h3 hperm hb =>
      have hk : Known c below p next := fun b hbe => LevelsOK.ids hbelow (hfits (level + 1)).nodes _ (child_at hp hbe)
      have h0 : activeSlots (.slots bi next) ≠ 0 := by
        have := built_active (.slots runs h1 h2 h3 hperm hb)
        omega
      obtain ⟨bs', r1, -, r3, md, tn, r4, r5⟩ := branch_read hc hk (bi := bi) (by omega) hS hle h0
      rw [e2] at r1
      injection r1 with r1
      subst r1
      have hbi : bi < h.length := by omega
      have hbyte : h[bi]? = some (byteAt h bi) := by simp [byteAt, List.getD, List.getElem?_eq_getElem hbi]
      rw [if_neg r3, r4]
      dsimp only
      rw [hbyte]
      dsimp only
      rw [if_neg (by simp [h2]), r5]
      dsimp only
      rw [lookupFrom]
      by_cases he : (next (byteAt h bi)).isEmpty = true
      · have : slotId below p next (byteAt h bi) = 0 := by simp [slotId, he]
        rw [if_pos this]
        cases hn : next (byteAt h bi) with
        | empty => rfl
        | leaf _ _ => rw [hn] at he; simp [Tree.isEmpty] at he
        | slots _ _ => rw [hn] at he; simp [Tree.isEmpty] at he
      · obtain ⟨cid, m1, m2, -⟩ := hk _ (by simpa using he)
        have hs : slotId below p next (byteAt h bi) = cid := by simp [slotId, he, m1]
        rw [hs, if_neg (by omega), if_neg (by simp [h2])]
        refine ih (level + 1) below (p ++ [byteAt h bi]) (next (byteAt h bi)) (runs (byteAt h bi)) (flip f bi) cid hbelow
          (child_at hp (by simpa using he)) (hb _) ?_ ?_ m1
        · intro i hi
          by_cases hib : i = bi
          · omega
          · exact hf i (by simpa [ShallowTree.flip, hib] using hi)
        · intro e hee
          have := (hperm _).mem_iff.1 hee
          exact hpi e (List.mem_filter.1 this).1

end Verif.Chunk
