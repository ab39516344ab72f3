import Verif.Lemmas.NodeFormat
import Verif.Lemmas.Visit
import Verif.Lemmas.Records

/-!
# Node ids: allocation by the writer, extraction by the reader
-/

namespace Verif.Chunk

open Verif.ShallowTree

/-! ## Lists of lists -/

theorem flatten_getElem? {α : Type} : ∀ (L : List (List α)) (k j : Nat) (b : List α), L[k]? = some b → j < b.length →
    L.flatten[((L.take k).map List.length).sum + j]? = b[j]? := by
  intro L
  induction L with
  | nil => intro k j b h; simp at h
  | cons x L ih =>
    intro k j b h hj
    cases k with
    | zero =>
      simp only [List.getElem?_cons_zero, Option.some.injEq] at h
      subst h
      simp only [List.take_zero, List.map_nil, List.sum_nil, Nat.zero_add, List.flatten_cons]
      rw [List.getElem?_append_left hj]
    | succ k =>
      rw [List.getElem?_cons_succ] at h
      rw [List.take_succ_cons, List.map_cons, List.sum_cons, List.flatten_cons,
        List.getElem?_append_right (by omega), show x.length + ((L.take k).map List.length).sum + j - x.length =
          ((L.take k).map List.length).sum + j by omega]
      exact ih k j b h hj

theorem filter_getElem? {α : Type} (q : α → Bool) : ∀ (l : List α) (i : Nat) (a : α), l[i]? = some a → q a = true →
    (l.filter q)[(l.take i).countP q]? = some a := by
  intro l
  induction l with
  | nil => intro i a h; simp at h
  | cons x l ih =>
    intro i a h hq
    cases i with
    | zero =>
      simp only [List.getElem?_cons_zero, Option.some.injEq] at h
      subst h
      rw [List.filter_cons_of_pos hq]
      simp
    | succ i =>
      rw [List.getElem?_cons_succ] at h
      rw [List.take_succ_cons, List.countP_cons]
      by_cases hx : q x = true
      · rw [List.filter_cons_of_pos hx, if_pos hx, List.getElem?_cons_succ]
        exact ih i a h hq
      · rw [List.filter_cons_of_neg hx, if_neg hx]
        exact ih i a h hq

/-! ## Groups -/

/-- The group of a node. -/
def grp (gs : List Group) (n : Named) : Nat := groupOf gs (activeSlots n.2)

/-- The groups have as many nodes as there are. -/
structure Fit (gs : List Group) (ns : List Named) : Prop where
  lt : ∀ n ∈ ns, grp gs n < gs.length
  nodes : ∀ k g, gs[k]? = some g → g.nodes = ns.countP fun n => grp gs n = k

/-- The nodes group by group. -/
def blocks (gs : List Group) (ns : List Named) : List (List Named) :=
  (List.range gs.length).map fun k => ns.filter fun n => grp gs n = k

/-- The order in which the nodes are written. -/
def ordered (gs : List Group) (ns : List Named) : List Named := (blocks gs ns).flatten

/-- The number of nodes of the groups before the `k`-th. -/
def before (gs : List Group) (k : Nat) : Nat := ((gs.take k).map (·.nodes)).sum

theorem blocks_getElem? {gs : List Group} {ns : List Named} {k : Nat} (h : k < gs.length) :
    (blocks gs ns)[k]? = some (ns.filter fun n => grp gs n = k) := by
  simp [blocks, h]

theorem blocks_length_eq {gs : List Group} {ns : List Named} (hf : Fit gs ns) :
    (blocks gs ns).map List.length = gs.map (·.nodes) := by
  apply List.ext_getElem
  · simp [blocks]
  · intro k h1 h2
    simp only [List.length_map] at h2
    rw [List.getElem_map, List.getElem_map, hf.nodes k _ (List.getElem?_eq_getElem h2)]
    simp [blocks, List.countP_eq_length_filter]

theorem ordered_getElem? {gs : List Group} {ns : List Named} (hf : Fit gs ns) {k j : Nat} (hk : k < gs.length)
    (hj : j < ns.countP fun n => grp gs n = k) :
    (ordered gs ns)[before gs k + j]? = (ns.filter fun n => grp gs n = k)[j]? := by
  have := flatten_getElem? (blocks gs ns) k j _ (blocks_getElem? hk) (by rwa [← List.countP_eq_length_filter])
  rw [List.map_take, blocks_length_eq hf, ← List.map_take] at this
  exact this

theorem ordered_length {gs : List Group} {ns : List Named} (hf : Fit gs ns) : (ordered gs ns).length = before gs gs.length := by
  unfold ordered before
  rw [List.length_flatten, blocks_length_eq hf, List.take_length]

/-! ## Allocation -/

theorem initAllocs_ok (c : Config) : ∀ (gs : List Group) (id : Nat), id + (gs.map (·.nodes)).sum ≤ c.max →
    ∃ as, initAllocs c id gs = some as ∧ as.length = gs.length ∧
      ∀ (k : Nat) (g : Group), gs[k]? = some g → as[k]? = some (⟨id + before gs k, g.nodes⟩ : Alloc) := by
  intro gs
  induction gs with
  | nil => intro id _; exact ⟨[], rfl, rfl, fun k g h => by simp at h⟩
  | cons g gs ih =>
    intro id h
    rw [List.map_cons, List.sum_cons] at h
    obtain ⟨as, e, hl, hk⟩ := ih (id + g.nodes) (by omega)
    refine ⟨⟨id, g.nodes⟩ :: as, ?_, by simp [hl], ?_⟩
    · unfold initAllocs
      rw [if_neg (by omega), e]
      rfl
    · intro k g' hg
      cases k with
      | zero =>
        simp only [List.getElem?_cons_zero, Option.some.injEq] at hg
        subst hg
        simp [before]
      | succ k =>
        rw [List.getElem?_cons_succ] at hg ⊢
        rw [hk k g' hg]
        simp [before, Nat.add_assoc]

/-- Only as many ids as fit are given out. -/
theorem initAllocs_bound (c : Config) : ∀ (gs : List Group) (id : Nat) (as : List Alloc), initAllocs c id gs = some as → id ≤ c.max →
    id + (gs.map (·.nodes)).sum ≤ c.max := by
  intro gs
  induction gs with
  | nil => intro id as _ h; simpa using h
  | cons g gs ih =>
    intro id as e h
    unfold initAllocs at e
    split at e
    · cases e
    · next hb =>
      obtain ⟨as', e', -⟩ := Option.map_eq_some_iff.1 e
      have := ih _ as' e' (by omega)
      rw [List.map_cons, List.sum_cons]
      omega

/-- The number of nodes of a group in a list. -/
def cnt (gs : List Group) (ns : List Named) (k : Nat) : Nat := ns.countP fun n => grp gs n = k

theorem allocAll_ok {gs : List Group} : ∀ (post pre : List Named) (as : List Alloc), Fit gs (pre ++ post) →
    (∀ (k : Nat) (g : Group), gs[k]? = some g →
      as[k]? = some (⟨1 + before gs k + cnt gs pre k, g.nodes - cnt gs pre k⟩ : Alloc)) →
    ∃ ids, allocAll gs post as = some ids ∧ ids.length = post.length ∧
      ∀ (i : Nat) (n : Named), post[i]? = some n →
        ids[i]? = some (1 + before gs (grp gs n) + cnt gs (pre ++ post.take i) (grp gs n)) := by
  intro post
  induction post with
  | nil => intro pre as _ _; exact ⟨[], rfl, rfl, fun i n h => by simp at h⟩
  | cons n post ih =>
    intro pre as hf has
    have hk : grp gs n < gs.length := hf.lt n (by simp)
    obtain ⟨g, hg⟩ : ∃ g, gs[grp gs n]? = some g := ⟨_, List.getElem?_eq_getElem hk⟩
    have ha := has _ _ hg
    have hn : g.nodes = cnt gs (pre ++ n :: post) (grp gs n) := hf.nodes _ _ hg
    have hcnt : cnt gs (pre ++ n :: post) (grp gs n) = cnt gs pre (grp gs n) + 1 + cnt gs post (grp gs n) := by
      simp [cnt, List.countP_append]
      omega
    obtain ⟨ids, e, hlen, hids⟩ := ih (pre ++ [n])
      (as.set (grp gs n) ⟨1 + before gs (grp gs n) + cnt gs pre (grp gs n) + 1, g.nodes - cnt gs pre (grp gs n) - 1⟩)
      (by rw [List.append_assoc]; exact hf) (by
        intro k g' hg'
        have hlt : k < as.length := (List.getElem?_eq_some_iff.1 (has k g' hg')).1
        by_cases hkn : k = grp gs n
        · subst hkn
          rw [List.getElem?_set_self hlt, hg] at *
          injection hg' with hg'
          subst hg'
          simp only [cnt, List.countP_append, List.countP_cons, List.countP_nil, decide_true, if_true, Option.some.injEq, Alloc.mk.injEq]
          omega
        · rw [List.getElem?_set_ne (by omega), has k g' hg']
          have : cnt gs (pre ++ [n]) k = cnt gs pre k := by
            simp [cnt, List.countP_append, show ¬ grp gs n = k by omega]
          rw [this])
    refine ⟨(1 + before gs (grp gs n) + cnt gs pre (grp gs n)) :: ids, ?_, by simp [hlen], ?_⟩
    · have hal : allocate gs as (activeSlots n.2) = some (1 + before gs (grp gs n) + cnt gs pre (grp gs n),
          as.set (grp gs n) ⟨1 + before gs (grp gs n) + cnt gs pre (grp gs n) + 1, g.nodes - cnt gs pre (grp gs n) - 1⟩) := by
        unfold allocate
        rw [show groupOf gs (activeSlots n.2) = grp gs n from rfl, ha]
        dsimp only
        rw [if_neg (by omega)]
      unfold allocAll
      rw [hal]
      dsimp only
      rw [e]
      rfl
    · intro i n' hi
      cases i with
      | zero =>
        simp only [List.getElem?_cons_zero, Option.some.injEq] at hi
        subst hi
        simp
      | succ i =>
        rw [List.getElem?_cons_succ] at hi ⊢
        rw [hids i n' hi, List.take_succ_cons]
        simp

/-- The id of a node is its place in the order of writing, counted from 1. -/
theorem ids_ok {c : Config} {gs : List Group} {ns : List Named} (hf : Fit gs ns) (hb : 1 + (gs.map (·.nodes)).sum ≤ c.max) :
    ∃ as ids, initAllocs c 1 gs = some as ∧ allocAll gs ns as = some ids ∧ ids.length = ns.length ∧
      ∀ (i : Nat) (n : Named), ns[i]? = some n →
        ∃ j, ids[i]? = some (j + 1) ∧ (ordered gs ns)[j]? = some n ∧ j < (gs.map (·.nodes)).sum ∧
          j = before gs (grp gs n) + cnt gs (ns.take i) (grp gs n) := by
  obtain ⟨as, e1, hl, has⟩ := initAllocs_ok c gs 1 hb
  obtain ⟨ids, e2, hlen, hids⟩ := allocAll_ok ns [] as hf (by
    intro k g hg
    rw [has k g hg]
    simp [cnt])
  refine ⟨as, ids, e1, e2, hlen, fun i n hi => ?_⟩
  have hlt : i < ns.length := (List.getElem?_eq_some_iff.1 hi).1
  have hin : n ∈ ns := List.mem_of_getElem? hi
  have hsplit : ns = ns.take i ++ n :: ns.drop (i + 1) := by
    have h2 : n = ns[i] := (List.getElem?_eq_some_iff.1 hi).2.symm
    subst h2
    rw [← List.drop_eq_getElem_cons hlt, List.take_append_drop]
  have hcnt : cnt gs ns (grp gs n) = cnt gs (ns.take i) (grp gs n) + 1 + cnt gs (ns.drop (i + 1)) (grp gs n) := by
    conv => lhs; rw [hsplit]
    simp [cnt, List.countP_append]
    omega
  have hord := ordered_getElem? hf (k := grp gs n) (j := cnt gs (ns.take i) (grp gs n)) (hf.lt n hin) (by
    change _ < cnt gs ns (grp gs n)
    omega)
  refine ⟨before gs (grp gs n) + cnt gs (ns.take i) (grp gs n), ?_, ?_, ?_, rfl⟩
  · rw [hids i n hi]
    simp
    omega
  · rw [hord]
    exact filter_getElem? _ ns i n hi (by simp)
  · obtain ⟨g, hg⟩ : ∃ g, gs[grp gs n]? = some g := ⟨_, List.getElem?_eq_getElem (hf.lt n hin)⟩
    have h1 : g.nodes = cnt gs ns (grp gs n) := hf.nodes _ _ hg
    have h2 : (gs.map (·.nodes)).sum = before gs (grp gs n) + (g.nodes + ((gs.drop (grp gs n + 1)).map (·.nodes)).sum) := by
      have hg' := (List.getElem?_eq_some_iff.1 hg)
      conv => lhs; rw [← List.take_append_drop (grp gs n) gs, List.drop_eq_getElem_cons (hf.lt n hin)]
      rw [List.map_append, List.sum_append, List.map_cons, List.sum_cons, hg'.2]
      rfl
    omega

/-! ## Serialized nodes -/

/-- What is written for a node. -/
def written (c : Config) (gs : List Group) (m : IdMap) (n : Named) : Bytes :=
  match gs[grp gs n]? with
  | some g => (nodeBytes c g.spec m n).getD []
  | none => []

/-- Every node can be written, and takes the space foreseen. -/
def Writable (c : Config) (gs : List Group) (m : IdMap) (ns : List Named) : Prop :=
  ∀ n ∈ ns, ∀ g, gs[grp gs n]? = some g → ∃ bs, nodeBytes c g.spec m n = some bs ∧ bs.length = byteSize c g.spec

theorem allNodeBytes_ok {c : Config} {spec : Spec} {m : IdMap} : ∀ (ns : List Named),
    (∀ n ∈ ns, (nodeBytes c spec m n).isSome = true) →
    allNodeBytes c spec m ns = some (ns.flatMap fun n => (nodeBytes c spec m n).getD []) := by
  intro ns
  induction ns with
  | nil => intro _; rfl
  | cons n ns ih =>
    intro h
    obtain ⟨bs, hb⟩ := Option.isSome_iff_exists.1 (h n (by simp))
    unfold allNodeBytes
    rw [hb]
    dsimp only
    rw [ih fun x hx => h x (by simp [hx])]
    simp [hb]

theorem groupBytes_ok {c : Config} {gs : List Group} {m : IdMap} {ns : List Named} (hw : Writable c gs m ns) :
    ∀ (rest done : List Group), gs = done ++ rest → groupBytes c gs m ns done.length rest =
      some (((blocks gs ns).drop done.length).flatten.flatMap (written c gs m)) := by
  intro rest
  induction rest with
  | nil =>
    intro done hd
    have : (blocks gs ns).length ≤ done.length := by simp [blocks, hd]
    rw [List.drop_eq_nil_of_le this]
    rfl
  | cons g rest ih =>
    intro done hd
    have hk : gs[done.length]? = some g := by rw [hd]; simp
    have hlt : done.length < gs.length := (List.getElem?_eq_some_iff.1 hk).1
    have hn : ∀ n ∈ ns.filter (fun n => groupOf gs (activeSlots n.2) = done.length), n ∈ ns ∧ grp gs n = done.length := by
      intro n hn
      rw [List.mem_filter] at hn
      exact ⟨hn.1, by unfold grp; simpa using hn.2⟩
    have hfirst := allNodeBytes_ok (c := c) (spec := g.spec) (m := m)
      (ns.filter fun n => groupOf gs (activeSlots n.2) = done.length) (by
        intro n hn'
        obtain ⟨h1, h2⟩ := hn n hn'
        obtain ⟨bs, hb, -⟩ := hw n h1 g (by rw [h2]; exact hk)
        rw [hb]; rfl)
    have hrec := ih (done ++ [g]) (by rw [hd]; simp)
    rw [List.length_append, List.length_singleton] at hrec
    unfold groupBytes
    rw [hfirst]
    dsimp only
    rw [hrec, List.drop_eq_getElem_cons (i := done.length) (by simpa [blocks] using hlt)]
    simp only [Option.map_some, Option.some.injEq, List.flatten_cons, List.flatMap_append]
    congr 1
    have hbk : (blocks gs ns)[done.length]'(by simpa [blocks] using hlt) =
        ns.filter fun n => groupOf gs (activeSlots n.2) = done.length := by
      simp [blocks, grp]
    rw [hbk]
    rw [List.flatMap_def, List.flatMap_def]
    congr 1
    apply List.map_congr_left
    intro n hn'
    obtain ⟨h1, h2⟩ := hn n hn'
    unfold written
    rw [h2, hk]

/-! ## Extraction -/

/-- The description of a format gives its size in the low half. -/
structure WordOK (c : Config) (s : Spec) : Prop where
  lt : specWord c s < 2 ^ 32
  size : specWord c s % 2 ^ 16 = byteSize c s

theorem readAt_mid {a b d : Bytes} {off n : Nat} (h1 : a.length = off) (h2 : b.length = n) : readAt (a ++ b ++ d) off n = some b := by
  subst h1 h2
  unfold readAt
  rw [if_pos (by simp), List.append_assoc, List.drop_left, List.take_left]

/-- The entry of a group in the index. -/
def entry (c : Config) (g : Group) : Bytes := leEnc c.w g.nodes ++ leEnc 4 (specWord c g.spec)

theorem entry_length (c : Config) (g : Group) : (entry c g).length = c.w + 4 := by simp [entry]

theorem flatMap_length_const {α β : Type} (g : α → List β) (k : Nat) (h : ∀ a, (g a).length = k) : ∀ l : List α,
    (l.flatMap g).length = l.length * k := by
  intro l
  induction l with
  | nil => simp
  | cons x l ih => rw [List.flatMap_cons, List.length_append, ih, h, List.length_cons, Nat.add_mul]; omega

/-- The number of bytes of the groups before the `k`-th. -/
def bytesBefore (c : Config) (gs : List Group) (k : Nat) : Nat := ((gs.take k).map fun g => g.nodes * byteSize c g.spec).sum

theorem sum_take_succ {α : Type} (f : α → Nat) {l : List α} {k : Nat} {a : α} (h : l[k]? = some a) :
    ((l.take (k + 1)).map f).sum = ((l.take k).map f).sum + f a := by
  rw [List.take_add_one, h]
  simp

theorem sum_take_le {α : Type} (f : α → Nat) (l : List α) (k : Nat) : ((l.take k).map f).sum ≤ (l.map f).sum := by
  conv => rhs; rw [← List.take_append_drop k l, List.map_append, List.sum_append]
  omega

theorem extractLoop_ok {c : Config} {gs : List Group} {id : Nat} (hword : ∀ g ∈ gs, WordOK c g.spec)
    (hcount : ∀ g ∈ gs, g.nodes < 256 ^ c.w) (hn : 1 + (gs.map (·.nodes)).sum ≤ c.max)
    (hb : (gs.map fun g => g.nodes * byteSize c g.spec).sum ≤ c.max) {k : Nat} {g : Group} (hk : gs[k]? = some g)
    (h1 : 1 + before gs k ≤ id) (h2 : id < 1 + before gs k + g.nodes) :
    ∀ (d i : Nat), i + d = k →
      extractLoop c (indexBytes c gs) id (gs.length - i) (2 + i * (c.w + 4)) (1 + before gs i) (bytesBefore c gs i) =
        some (some (specWord c g.spec, bytesBefore c gs k + (id - (1 + before gs k)) * byteSize c g.spec)) := by
  have hstep : ∀ i x, gs[i]? = some x → readAt (indexBytes c gs) (2 + i * (c.w + 4)) c.w = some (leEnc c.w x.nodes) ∧
      readAt (indexBytes c gs) (2 + i * (c.w + 4) + c.w) 4 = some (leEnc 4 (specWord c x.spec)) := by
    intro i x hx
    have hlt : i < gs.length := (List.getElem?_eq_some_iff.1 hx).1
    have hsplit : indexBytes c gs = (leEnc 2 gs.length ++ (gs.take i).flatMap (entry c)) ++
        (leEnc c.w x.nodes ++ leEnc 4 (specWord c x.spec)) ++ (gs.drop (i + 1)).flatMap (entry c) := by
      have hs : gs.flatMap (entry c) = (gs.take i).flatMap (entry c) ++ (entry c x ++ (gs.drop (i + 1)).flatMap (entry c)) := by
        conv => lhs; rw [← List.take_append_drop i gs, List.drop_eq_getElem_cons hlt]
        rw [List.flatMap_append, List.flatMap_cons, (List.getElem?_eq_some_iff.1 hx).2]
      unfold indexBytes
      change leEnc 2 gs.length ++ gs.flatMap (entry c) = _
      rw [hs]
      simp [entry]
    have hlen : (leEnc 2 gs.length ++ (gs.take i).flatMap (entry c)).length = 2 + i * (c.w + 4) := by
      rw [List.length_append, leEnc_length, flatMap_length_const _ _ (entry_length c), List.length_take,
        Nat.min_eq_left (by omega)]
    refine ⟨?_, ?_⟩
    · rw [hsplit, ← List.append_assoc, List.append_assoc _ (leEnc 4 _)]
      exact readAt_mid hlen (by simp)
    · rw [hsplit, ← List.append_assoc]
      exact readAt_mid (by rw [List.length_append, hlen, leEnc_length]) (by simp)
  have hle : ∀ i x, gs[i]? = some x → before gs i + x.nodes ≤ (gs.map (·.nodes)).sum ∧
      bytesBefore c gs i + x.nodes * byteSize c x.spec ≤ (gs.map fun g => g.nodes * byteSize c g.spec).sum := by
    intro i x hx
    have a1 := sum_take_le (fun g : Group => g.nodes) gs (i + 1)
    have a2 := sum_take_le (fun g : Group => g.nodes * byteSize c g.spec) gs (i + 1)
    rw [sum_take_succ _ hx] at a1 a2
    exact ⟨a1, a2⟩
  intro d
  induction d with
  | zero =>
    intro i hi
    have hik : i = k := by omega
    subst hik
    have hlt : i < gs.length := (List.getElem?_eq_some_iff.1 hk).1
    obtain ⟨r1, r2⟩ := hstep i g hk
    obtain ⟨l1, l2⟩ := hle i g hk
    have hm : g ∈ gs := List.mem_of_getElem? hk
    have hword := hword g hm
    rw [show gs.length - i = (gs.length - i - 1) + 1 by omega]
    unfold extractLoop
    rw [r1, r2]
    dsimp only
    rw [leDec_leEnc_of_lt (hcount g hm), leDec_leEnc_of_lt (by have := hword.lt; omega), hword.size]
    have hmul : (id - (1 + before gs i)) * byteSize c g.spec ≤ g.nodes * byteSize c g.spec :=
      Nat.mul_le_mul_right _ (by omega)
    have hwp := c.wrap_pos
    unfold Config.max at hn hb
    rw [if_pos (by rw [Nat.mod_eq_of_lt (by omega)]; omega)]
    have e1 : (id + c.wrap - (1 + before gs i)) % c.wrap = id - (1 + before gs i) := by
      rw [show id + c.wrap - (1 + before gs i) = id - (1 + before gs i) + c.wrap by omega, Nat.add_mod_right]
      exact Nat.mod_eq_of_lt (by omega)
    rw [e1, Nat.mod_eq_of_lt (a := (id - (1 + before gs i)) * byteSize c g.spec) (by omega), Nat.mod_eq_of_lt (by omega)]
  | succ d ih =>
    intro i hi
    have hlt : k < gs.length := (List.getElem?_eq_some_iff.1 hk).1
    obtain ⟨x, hx⟩ : ∃ x, gs[i]? = some x := ⟨_, List.getElem?_eq_getElem (by omega)⟩
    obtain ⟨r1, r2⟩ := hstep i x hx
    obtain ⟨l1, l2⟩ := hle i x hx
    have hm : x ∈ gs := List.mem_of_getElem? hx
    have hword := hword x hm
    have hle' : before gs (i + 1) ≤ before gs k := by
      unfold before
      have := sum_take_le (fun g : Group => g.nodes) (gs.take k) (i + 1)
      rwa [List.take_take, Nat.min_eq_left (by omega)] at this
    have hs1 : before gs (i + 1) = before gs i + x.nodes := sum_take_succ _ hx
    have hs2 : bytesBefore c gs (i + 1) = bytesBefore c gs i + x.nodes * byteSize c x.spec := sum_take_succ _ hx
    have hrec := ih (i + 1) (by omega)
    rw [show gs.length - i = (gs.length - (i + 1)) + 1 by omega]
    unfold extractLoop
    rw [r1, r2]
    dsimp only
    rw [leDec_leEnc_of_lt (hcount x hm), leDec_leEnc_of_lt (by have := hword.lt; omega), hword.size]
    have hwp := c.wrap_pos
    unfold Config.max at hn hb
    rw [if_neg (by rw [Nat.mod_eq_of_lt (by omega)]; omega), Nat.mod_eq_of_lt (a := 1 + before gs i + x.nodes) (by omega),
      Nat.mod_eq_of_lt (a := x.nodes * byteSize c x.spec) (by omega), Nat.mod_eq_of_lt (by omega)]
    rw [hs1, hs2] at hrec
    rw [show 2 + i * (c.w + 4) + c.w + 4 = 2 + (i + 1) * (c.w + 4) by rw [Nat.add_mul]; omega,
      show 1 + before gs i + x.nodes = 1 + (before gs i + x.nodes) by omega]
    exact hrec

theorem flatMap_length_of {α β : Type} (g : α → List β) (k : Nat) : ∀ l : List α, (∀ a ∈ l, (g a).length = k) →
    (l.flatMap g).length = l.length * k := by
  intro l
  induction l with
  | nil => intro _; simp
  | cons x l ih =>
    intro h
    rw [List.flatMap_cons, List.length_append, ih (fun a ha => h a (by simp [ha])), h x (by simp), List.length_cons, Nat.add_mul]
    omega

/-- Records of one size one after the other: the `j`-th. -/
theorem readAt_records {α : Type} (g : α → Bytes) (k : Nat) : ∀ (l : List α) (j : Nat) (a : α), l[j]? = some a →
    (∀ x ∈ l, (g x).length = k) → ∀ (pre post : Bytes), readAt (pre ++ l.flatMap g ++ post) (pre.length + j * k) k = some (g a) := by
  intro l j a hj h pre post
  have hlt : j < l.length := (List.getElem?_eq_some_iff.1 hj).1
  have e : pre ++ l.flatMap g ++ post = (pre ++ (l.take j).flatMap g) ++ g a ++ ((l.drop (j + 1)).flatMap g ++ post) := by
    conv => lhs; rw [← List.take_append_drop j l, List.drop_eq_getElem_cons hlt]
    rw [List.flatMap_append, List.flatMap_cons, (List.getElem?_eq_some_iff.1 hj).2]
    simp
  rw [e]
  apply readAt_mid
  · rw [List.length_append, flatMap_length_of g k _ (fun x hx => h x (List.mem_of_mem_take hx)), List.length_take,
      Nat.min_eq_left (by omega)]
  · exact h a (List.mem_of_getElem? hj)

theorem blocks_bytes_length {c : Config} {gs : List Group} {m : IdMap} {ns : List Named} (hf : Fit gs ns)
    (hw : Writable c gs m ns) : ∀ k ≤ gs.length,
    (((blocks gs ns).take k).flatten.flatMap (written c gs m)).length = bytesBefore c gs k := by
  intro k
  induction k with
  | zero => intro _; simp [bytesBefore]
  | succ k ih =>
    intro hk
    obtain ⟨g, hg⟩ : ∃ g, gs[k]? = some g := ⟨_, List.getElem?_eq_getElem (by omega)⟩
    have hlen : ∀ n ∈ ns.filter (fun n => grp gs n = k), (written c gs m n).length = byteSize c g.spec := by
      intro n hn
      rw [List.mem_filter] at hn
      have h2 : grp gs n = k := by simpa using hn.2
      obtain ⟨bs, hb, hbl⟩ := hw n hn.1 g (by rw [h2]; exact hg)
      unfold written
      rw [h2, hg]
      dsimp only
      rw [hb]
      exact hbl
    rw [List.take_add_one, blocks_getElem? (by omega)]
    simp only [Option.toList_some, List.flatten_append, List.flatten_cons, List.flatten_nil, List.append_nil,
      List.flatMap_append, List.length_append]
    rw [ih (by omega), flatMap_length_of _ _ _ hlen, ← List.countP_eq_length_filter, ← hf.nodes k g hg]
    exact (sum_take_succ (fun g : Group => g.nodes * byteSize c g.spec) hg).symm

/-- The reader finds, for the id of a node, exactly the bytes written for it. -/
theorem extract_ok {c : Config} {gs : List Group} {m : IdMap} {ns : List Named} (hf : Fit gs ns) (hw : Writable c gs m ns)
    (hword : ∀ g ∈ gs, WordOK c g.spec) (hcount : ∀ g ∈ gs, g.nodes < 256 ^ c.w)
    (hn : 1 + (gs.map (·.nodes)).sum ≤ c.max) (hb : (gs.map fun g => g.nodes * byteSize c g.spec).sum ≤ c.max)
    (hlen : gs.length < 2 ^ 16) {n : Named} {i : Nat} (hi : ns[i]? = some n) {g : Group} (hg : gs[grp gs n]? = some g) :
    extract c ⟨indexBytes c gs, (ordered gs ns).flatMap (written c gs m)⟩
      (1 + before gs (grp gs n) + cnt gs (ns.take i) (grp gs n)) = some (specWord c g.spec, written c gs m n) := by
  have hlt : i < ns.length := (List.getElem?_eq_some_iff.1 hi).1
  have hin : n ∈ ns := List.mem_of_getElem? hi
  have hgk := hf.lt n hin
  have hsplit : ns = ns.take i ++ n :: ns.drop (i + 1) := by
    have h2 : n = ns[i] := (List.getElem?_eq_some_iff.1 hi).2.symm
    subst h2
    rw [← List.drop_eq_getElem_cons hlt, List.take_append_drop]
  have hcnt : cnt gs ns (grp gs n) = cnt gs (ns.take i) (grp gs n) + 1 + cnt gs (ns.drop (i + 1)) (grp gs n) := by
    conv => lhs; rw [hsplit]
    simp [cnt, List.countP_append]
    omega
  have hgn : g.nodes = cnt gs ns (grp gs n) := hf.nodes _ _ hg
  have hm : g ∈ gs := List.mem_of_getElem? hg
  unfold extract
  have hr0 : readAt (indexBytes c gs) 0 2 = some (leEnc 2 gs.length) := by
    unfold indexBytes
    exact readAt_mid (a := []) rfl (by simp)
  dsimp only
  rw [hr0]
  dsimp only
  rw [leDec_leEnc_of_lt (by omega)]
  have hloop := extractLoop_ok (c := c) (gs := gs) (id := 1 + before gs (grp gs n) + cnt gs (ns.take i) (grp gs n)) hword hcount
    hn hb hg (by omega) (by omega) (grp gs n) 0 (by omega)
  simp only [Nat.sub_zero, Nat.zero_mul, Nat.add_zero] at hloop
  rw [show before gs 0 = 0 from rfl, show bytesBefore c gs 0 = 0 from rfl, Nat.add_zero] at hloop
  rw [hloop]
  dsimp only
  rw [(hword g hm).size, show 1 + before gs (grp gs n) + cnt gs (ns.take i) (grp gs n) - (1 + before gs (grp gs n)) =
    cnt gs (ns.take i) (grp gs n) by omega]
  have hord : (ordered gs ns).flatMap (written c gs m) = ((blocks gs ns).take (grp gs n)).flatten.flatMap (written c gs m) ++
      (ns.filter fun x => grp gs x = grp gs n).flatMap (written c gs m) ++
      ((blocks gs ns).drop (grp gs n + 1)).flatten.flatMap (written c gs m) := by
    unfold ordered
    have hbl : grp gs n < (blocks gs ns).length := by simpa [blocks] using hgk
    conv => lhs; rw [← List.take_append_drop (grp gs n) (blocks gs ns), List.drop_eq_getElem_cons hbl]
    rw [List.flatten_append, List.flatten_cons, List.flatMap_append, List.flatMap_append,
      (List.getElem?_eq_some_iff.1 (blocks_getElem? (ns := ns) hgk)).2, List.append_assoc]
  rw [hord]
  have hrec := readAt_records (written c gs m) (byteSize c g.spec) (ns.filter fun x => grp gs x = grp gs n)
    (cnt gs (ns.take i) (grp gs n)) n (filter_getElem? _ ns i n hi (by simp)) (by
      intro x hx
      rw [List.mem_filter] at hx
      have h2 : grp gs x = grp gs n := by simpa using hx.2
      obtain ⟨bs, hb, hbl⟩ := hw x hx.1 g (by rw [h2]; exact hg)
      unfold written
      rw [h2, hg]
      dsimp only
      rw [hb]
      exact hbl)
    (((blocks gs ns).take (grp gs n)).flatten.flatMap (written c gs m))
    (((blocks gs ns).drop (grp gs n + 1)).flatten.flatMap (written c gs m))
  rw [blocks_bytes_length hf hw _ (by omega)] at hrec
  rw [hrec]
  rfl

end Verif.Chunk
