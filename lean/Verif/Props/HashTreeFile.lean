import Verif.Lemmas.HashTreeFile
import Verif.Props.HashTree

/-!
# Properties of the container of nodes as bytes
-/

namespace Verif.HashTree

open Verif.ShallowTree (Entry Flags byteAt allBytes mem_allBytes allUnused EntropyOK unusedCount unusedCount_flip)

/-! ## Specification -/

/-- No hash was presented more than once while another presented hash differs from it in exactly one byte. -/
def Separated (input : List Entry) : Prop :=
  ∀ e ∈ input, times input e.hash = 1 ∨ ∀ x ∈ input, ¬ OneByteOff x.hash e.hash

/-- Not a single hash that begins with a zero byte. -/
def NotLoneZero (input : List Entry) : Prop := ∀ e, input = [e] → byteAt e.hash 0 ≠ 0

/-- The container with the bytes of the first `k` levels only. -/
def Container.truncate (c : Container) (k : Nat) : Container := { c with bytes := (c.levelBytes.take k).flatten }

/-! ## Lemmas -/

theorem Rep.lt {P : List Node} {first : Int} {count i level : Nat} {l : List Entry} {f : Flags}
    (hR : Rep P first count i level l f) : i < P.length := by
  by_contra hge
  have hnone : P[i]? = none := List.getElem?_eq_none (by omega)
  cases hR with
  | lone h => rw [hnone] at h; simp at h
  | dup h _ _ => rw [hnone] at h; simp at h
  | branch _ _ _ _ h _ _ => rw [hnone] at h; simp at h

theorem nodeOK_of_rep {p : Pool} (hc : p.count < 65536) {i level : Nat} {l : List Entry} {f : Flags}
    (hR : Rep p.nodes p.first p.count i level l f) (hrange : ∀ e ∈ l, p.first ≤ e.pi ∧ e.pi < p.first + p.count) :
    ∃ n, p.nodes[i]? = some n ∧ n.level = level ∧ NodeOK p n ∧ (2 ≤ l.length → Padded n) ∧
      (n.hbi = 32 → 2 ≤ l.length ∧ ∀ x ∈ l, ∀ y ∈ l, x.hash = y.hash) ∧ (n.hbi ≠ 32 → 2 ≤ l.length → 0 < unusedCount f 32) := by
  cases hR with
  | @lone _ e _ hP =>
    have hv : u16 (e.pi - p.first + 1) ≤ p.count := by
      have := hrange e (by simp)
      unfold u16; omega
    refine ⟨_, hP, rfl, ⟨by dsimp only; omega, fun b => ?_, fun b => ?_⟩, by simp, by simp, by simp⟩
    · dsimp only [put, noLookups]; split <;> omega
    · dsimp only [put, noLookups]; split <;> omega
  | @dup _ _ e es _ hP hes hsame =>
    have hv : u16 (lowest e.pi es - p.first + 1) ≤ p.count := by
      obtain ⟨hl1, hl2, hl3⟩ := lowest_spec es e.pi
      have hlow : p.first ≤ lowest e.pi es ∧ lowest e.pi es < p.first + p.count := by
        rcases hl1 with h | ⟨x, hx, h⟩
        · rw [h]; exact hrange e (by simp)
        · rw [h]; exact hrange x (by simp [hx])
      unfold u16; omega
    refine ⟨_, hP, rfl, ⟨by dsimp only; omega, fun b => ?_, fun b => ?_⟩, fun _ h => absurd rfl h, fun _ => ⟨?_, hsame⟩,
      fun h => absurd rfl h⟩
    · dsimp only [put, noLookups]; split <;> omega
    · dsimp only [put, noLookups]; split <;> omega
    · have := List.length_pos_iff.mpr hes
      rw [List.length_cons]; omega
  | @branch _ _ _ _ bi lk kids b1 b2 b3 hP hs hk =>
    have hval : ∀ b, lk b < 65536 ∧ (p.count < lk b → 65536 - lk b < p.nodes.length) ∧ (runs bi l b ≠ [] → lk b ≠ 0) := by
      intro b
      match hrun : runs bi l b with
      | [] =>
        have := (hs b).nil hrun
        exact ⟨by omega, by omega, by simp⟩
      | [e] =>
        have h1 := (hs b).one e hrun
        have := hrange e (mem_runs.mp (by rw [hrun]; simp : e ∈ runs bi l b)).1
        unfold u16 at h1
        exact ⟨by omega, by omega, by omega⟩
      | e :: e' :: es =>
        have h2 : 2 ≤ (runs bi l b).length := by rw [hrun]; simp
        obtain ⟨s1, s2, s3, s4⟩ := (hs b).more h2
        refine ⟨by omega, fun _ => ?_, by omega⟩
        have hkid := (hk b h2).lt
        omega
    refine ⟨_, hP, rfl, ⟨by dsimp only; omega, fun b => (hval b).1, fun b => (hval b).2.1⟩, fun _ _ => .inl ?_,
      fun h => by dsimp only at h; omega, fun _ _ => ?_⟩
    · obtain ⟨x, hx, y, hy, hxy⟩ := b3
      refine countP_two (mem_allBytes (byteAt x.hash bi)) (mem_allBytes (byteAt y.hash bi)) hxy ?_ ?_
      · simpa using (hval _).2.2 (List.ne_nil_of_mem (mem_runs.mpr ⟨hx, rfl⟩))
      · simpa using (hval _).2.2 (List.ne_nil_of_mem (mem_runs.mpr ⟨hy, rfl⟩))
    · have := unusedCount_flip b1 b2
      omega

theorem Filled.range {input : List Entry} {p : Pool} (hb : Batch input) (hf : Filled input p) :
    ∀ e ∈ input, p.first ≤ e.pi ∧ e.pi < p.first + p.count := by
  intro e he
  match input, hf.ne, hf.first, hf.count, hb.range, he with
  | a :: rest, _, hfi, hco, hr, he =>
    rw [hfi a rfl, hco]
    exact hr e he a rfl

theorem filled_nodes {input : List Entry} {p : Pool} (hb : Batch input) (hf : Filled input p) :
    ∀ n ∈ p.nodes, NodeOK p n ∧ (NotLoneZero input → Padded n) ∧ (Separated input → n.level < 32) := by
  intro n hn
  have hc : p.count < 65536 := by rw [hf.count]; exact hf.short
  have hrange := hf.range hb
  obtain ⟨i, hi, rfl⟩ := List.mem_iff_getElem.mp hn
  rcases hf.all i hi with ⟨h1, rfl⟩ | ⟨level, l, f, hR, hA, h2, hsub, htimes, hlev, hnear⟩
  · match input, h1, hf.rep, hrange with
    | [e], _, hR, hrange =>
      obtain ⟨n, hn', hl, hok, _⟩ := nodeOK_of_rep hc hR hrange
      have hnn : p.nodes[0] = n := by
        rw [List.getElem?_eq_getElem hi] at hn'
        exact Option.some.inj hn'
      rw [hnn]
      refine ⟨hok, fun hz h32 => ?_, fun _ => by omega⟩
      right
      have hz' := hz e rfl
      cases hR with
      | lone hP =>
        rw [hn'] at hP
        rw [Option.some.inj hP]
        dsimp only [put]
        rw [if_neg (Ne.symm hz')]
        rfl
      | dup hP hes _ => exact absurd rfl hes
      | branch _ _ _ h3 _ _ _ =>
        obtain ⟨x, hx, y, hy, hxy⟩ := h3
        rw [List.mem_singleton] at hx hy
        rw [hx, hy] at hxy
        exact absurd rfl hxy
  · obtain ⟨n, hn', hl, hok, hpad, hdup, hbr⟩ := nodeOK_of_rep hc hR (fun e he => hrange e (hsub e he))
    have hnn : p.nodes[i] = n := by
      rw [List.getElem?_eq_getElem hi] at hn'
      exact Option.some.inj hn'
    rw [hnn]
    refine ⟨hok, fun _ => hpad h2, fun hsep => ?_⟩
    rw [unused_all] at hlev hnear
    by_cases h0 : unusedCount f 32 = 0
    · exfalso
      rcases hnear h0 with h | ⟨x, hx, y, hy, hxy⟩
      · omega
      · by_cases h32 : n.hbi = 32
        · obtain ⟨_, hsame⟩ := hdup h32
          have ht : 2 ≤ times input y.hash := by
            refine Nat.le_trans ?_ (htimes y.hash)
            rw [times_all fun e he => hsame e he y hy]
            exact h2
          rcases hsep y (hsub y hy) with h | h
          · omega
          · exact h x hx hxy
        · have := hbr h32 h2
          omega
    · omega

theorem recon_some {input : List Entry} {p : Pool} (hb : Batch input) (hf : Filled input p) (hsep : Separated input) :
    ∃ rs, recon configA p = some rs := by
  refine reconFrom_some configA p.nodes 0 fun j n hn => ?_
  have hlev := (filled_nodes hb hf n (List.mem_of_getElem? hn)).2.2 hsep
  unfold reconOne
  rw [Option.isSome_map]
  split
  · obtain ⟨s, h, _⟩ := suitableDuplicate_some hlev
    rw [h]; rfl
  · obtain ⟨s, h, _⟩ := suitable_some hlev (slots := used n.lookups) (by
      unfold used
      rw [← ShallowTree.allBytes_length]
      exact List.countP_le_length)
    rw [h]; rfl

theorem Filled.nodes_ne {input : List Entry} {p : Pool} (hf : Filled input p) : p.nodes ≠ [] := by
  intro h
  have := hf.rep.lt
  rw [h] at this
  simp at this

theorem find_examined (c : Container) (q : Bytes) (r : Found) (h : find c q = some r) (q' : Bytes)
    (hag : ∀ i < 32, r.examined i = true → byteAt q' i = byteAt q i) : find c q' = some r := by
  unfold find at h ⊢
  by_cases h0 : c.count = 0
  · rw [if_pos h0] at h ⊢; exact h
  · rw [if_neg h0] at h ⊢
    exact (scan_examined c q _ _ _ _ h).2 q' hag

theorem unused_count {seen f : Flags} (h : Seen seen f) : (List.range 32).countP seen + unusedCount f 32 = 32 := by
  have hall : ∀ l : List Nat, (∀ i ∈ l, i < 32) → l.countP seen + l.countP f = l.length := by
    intro l
    induction l with
    | nil => intro _; rfl
    | cons i l ih =>
      intro hl
      have := ih fun j hj => hl j (by simp [hj])
      rw [List.countP_cons, List.countP_cons, h i (hl i (by simp)), List.length_cons]
      cases f i <;> simp <;> omega
  have := hall (List.range 32) (by simp)
  rw [List.length_range] at this
  exact this

/-- The answer of a container of which the nodes of the first levels are loaded. -/
theorem find_loaded {input : List Entry} {p : Pool} (hb : Batch input) (hf : Filled input p) {sorted : List Recon}
    (hA : Arranged p sorted) (hroom : p.nodes.length + p.count < 65536) (hz : NotLoneZero input) {m : Nat} {c : Container}
    (hc : Loaded p sorted m c) (q : Bytes) : ∃ r, find c q = some r ∧
      ((r.idx = -2 ∧ r.dup = false ∧ ∃ k r', m ≤ k ∧ sorted[k]? = some r' ∧
          r'.spec.level = (List.range 32).countP r.examined) ∨ lookup p q = some (r.idx, r.dup)) := by
  have hpos := List.length_pos_iff.mpr hf.ne
  have hcount := hf.count
  unfold find lookup
  rw [if_neg (by rw [hc.count]; omega), if_neg (by omega)]
  obtain ⟨r, h1, h2⟩ := scan_walk hA hroom hc (fun n hn => (filled_nodes hb hf n hn).1)
    (fun n hn => (filled_nodes hb hf n hn).2.1 hz) hf.rep (hf.range hb) q (fun _ => false)
    (by intro i hi; simp [allUnused, hi]) 31 unused_all c.root hc.root 32 (by omega)
  refine ⟨r, h1, ?_⟩
  rcases h2 with ⟨a, b, k, r', f', d1, d2, d3, d4⟩ | h2
  · refine .inl ⟨a, b, k, r', d1, d2, ?_⟩
    have := unused_count d3
    rw [unused_all] at d4
    omega
  · exact .inr h2

/-! ## The theorems -/

/-- The numbers that a batch of at most 32768 hashes needs fit into 16 bits. -/
theorem room_of_length {ent : List Entry → Nat → Nat} (he : EntropyOK ent) {input : List Entry} (hb : Batch input)
    (hne : input ≠ []) (hl : input.length ≤ 32768) :
    (generate ent input).1.nodes.length + input.length < 65536 := by
  have hf := generate_filled he hb hne ((pool_overflow he hb).1 hl)
  rcases hf.few with h | h <;> omega

/-- **C81** (partial). The nodes of a batch that did not overflow can be put into a container, and the container answers
every query as the in-memory tree does: every hash of the batch is found, with the lowest index it was presented with and
whether it was presented more than once; it is never said that too little is loaded; and the answer is the same for any
other query with the same bytes in the positions that are reported as examined. The nodes may be sorted by their format
in any way. What is missing: a single hash that begins with a zero byte (`lone_zero_is_lost`), a hash that was presented
more than once while another presented hash differs from it in one byte (`repeated_hash_cannot_be_written`), and
batches for which nodes and hashes together are 65536. -/
theorem container_answers_partial {ent : List Entry → Nat → Nat} (he : EntropyOK ent) {input : List Entry} (hb : Batch input)
    (hne : input ≠ []) (ho : (generate ent input).2 = false)
    (hroom : (generate ent input).1.nodes.length + input.length < 65536) (hsep : Separated input) (hz : NotLoneZero input) :
    ∃ rs, recon configA (generate ent input).1 = some rs ∧ ∀ sorted : List Recon, sorted.Perm rs → Sorted sorted →
      ∃ c, serialize configA sorted (generate ent input).1 = some c ∧
        (∀ e ∈ input, ∃ r, find c e.hash = some r ∧ Right input e.hash (r.idx, r.dup)) ∧
        ∀ q : Bytes, ∃ r, find c q = some r ∧ lookup (generate ent input).1 q = some (r.idx, r.dup) ∧
          ∀ q' : Bytes, (∀ i < 32, r.examined i = true → byteAt q' i = byteAt q i) → find c q' = some r := by
  have hf := generate_filled he hb hne ho
  rw [← hf.count] at hroom
  obtain ⟨rs, hrs⟩ := recon_some hb hf hsep
  refine ⟨rs, hrs, fun sorted hp hs => ?_⟩
  have hA := arranged hrs hp hs
  obtain ⟨c, hc1, hc2, -⟩ := serialize_loaded hA hroom (fun n hn => (filled_nodes hb hf n hn).1) hf.nodes_ne
  have hall : ∀ q : Bytes, ∃ r, find c q = some r ∧ lookup (generate ent input).1 q = some (r.idx, r.dup) := by
    intro q
    obtain ⟨r, h1, h2⟩ := find_loaded hb hf hA hroom hz hc2 q
    refine ⟨r, h1, ?_⟩
    rcases h2 with ⟨_, _, k, r', hk, hk', _⟩ | h2
    · rw [List.getElem?_eq_none hk] at hk'
      simp at hk'
    · exact h2
  refine ⟨c, hc1, fun e hein => ?_, fun q => ?_⟩
  · obtain ⟨r, h1, h2⟩ := hall e.hash
    obtain ⟨r', h3, h4⟩ := pool_finds_every_hash_partial he hb ho ⟨e, hein, rfl⟩ (hsep e hein)
    obtain rfl := Option.some.inj (h2.symm.trans h3)
    exact ⟨r, h1, h4⟩
  · obtain ⟨r, h1, h2⟩ := hall q
    exact ⟨r, h1, h2, fun q' hag => find_examined c q r h1 q' hag⟩

/-- **C82** (partial, as C81). The bytes of the 32 levels are, one after the other, the bytes of the container. If only
those of the first `k` levels are loaded, then looking up either gives the answer of the whole container or says that too
little is loaded, the latter only after at least `k` bytes of the hash have been examined. -/
theorem levels_loaded_partial {ent : List Entry → Nat → Nat} (he : EntropyOK ent) {input : List Entry} (hb : Batch input)
    (hne : input ≠ []) (ho : (generate ent input).2 = false)
    (hroom : (generate ent input).1.nodes.length + input.length < 65536) (hz : NotLoneZero input)
    {rs sorted : List Recon} (hrs : recon configA (generate ent input).1 = some rs) (hp : sorted.Perm rs) (hs : Sorted sorted)
    {c : Container} (hc : serialize configA sorted (generate ent input).1 = some c) :
    c.levelBytes.length = 32 ∧ c.levelBytes.flatten = c.bytes ∧
    ∀ k ≤ 32, ∀ q : Bytes, ∃ r, find (c.truncate k) q = some r ∧
      ((∃ r', find c q = some r' ∧ r.idx = r'.idx ∧ r.dup = r'.dup) ∨
        (r.idx = -2 ∧ r.dup = false ∧ k ≤ (List.range 32).countP r.examined)) := by
  have hf := generate_filled he hb hne ho
  rw [← hf.count] at hroom
  have hA := arranged hrs hp hs
  obtain ⟨c', hc1, hc2, hc3, hc4, hc5⟩ := serialize_loaded hA hroom (fun n hn => (filled_nodes hb hf n hn).1) hf.nodes_ne
  obtain rfl := Option.some.inj (hc1.symm.trans hc)
  refine ⟨hc3, hc4, fun k hk q => ?_⟩
  have hl : Loaded (generate ent input).1 sorted (sorted.countP fun r => decide (r.spec.level < k)) (c'.truncate k) :=
    ⟨hc2.first, hc2.count, hc2.root, hc2.starts, hc5 k hk⟩
  obtain ⟨r, h1, h2⟩ := find_loaded hb hf hA hroom hz hl q
  obtain ⟨r', h1', h2'⟩ := find_loaded hb hf hA hroom hz hc2 q
  have hfull : lookup (generate ent input).1 q = some (r'.idx, r'.dup) := by
    rcases h2' with ⟨_, _, k, r', hk, hk', _⟩ | h2
    · rw [List.getElem?_eq_none hk] at hk'
      simp at hk'
    · exact h2
  refine ⟨r, h1, ?_⟩
  rcases h2 with ⟨a, b, j, x, hj, hjx, hlev⟩ | h2
  · refine .inr ⟨a, b, ?_⟩
    rw [← hlev]
    by_contra hlt
    have hsum := List.countP_append (p := fun r : Recon => decide (r.spec.level < k))
      (l₁ := sorted.take (sorted.countP fun r => decide (r.spec.level < k)))
      (l₂ := sorted.drop (sorted.countP fun r => decide (r.spec.level < k)))
    rw [List.take_append_drop, ← filter_level hs, List.countP_filter] at hsum
    simp only [Bool.and_self] at hsum
    have hx : x ∈ sorted.drop (sorted.countP fun r => decide (r.spec.level < k)) := by
      refine List.mem_of_getElem? (i := j - sorted.countP fun r => decide (r.spec.level < k)) ?_
      rw [List.getElem?_drop, ← hjx]
      congr 1
      omega
    have hpos : 0 < (sorted.drop (sorted.countP fun r => decide (r.spec.level < k))).countP
        (fun r => decide (r.spec.level < k)) := List.countP_pos_iff.mpr ⟨x, hx, by simpa using hlt⟩
    omega
  · rw [hfull] at h2
    injection Option.some.inj h2 with e1 e2
    exact .inl ⟨r', h1', e1.symm, e2.symm⟩

/-! ## The disagreements -/

theorem lone_nodes {ent : List Entry → Nat → Nat} (he : EntropyOK ent) (e : Entry) :
    (generate ent [e]).1 = ⟨e.pi, 1, [⟨0, 0, put noLookups (byteAt e.hash 0) 1⟩]⟩ := by
  unfold generate
  have := gen_lone he e
  simp only [List.length_cons, List.length_nil, Nat.zero_add]
  rw [if_neg (by omega), this]
  dsimp only
  rw [show u16 (e.pi - e.pi + 1) = 1 by unfold u16; omega]

/-- **C81, a disagreement.** If a batch is a single hash that begins with a zero byte, its container is made, but the hash
is not found in it: the padding of its only node is taken for an entry. -/
theorem lone_zero_is_lost {ent : List Entry → Nat → Nat} (he : EntropyOK ent) {e : Entry} (hlen : e.hash.length = 32)
    (h0 : byteAt e.hash 0 = 0) :
    ∃ rs, recon configA (generate ent [e]).1 = some rs ∧ ∀ sorted : List Recon, sorted.Perm rs → Sorted sorted →
      ∃ c r, serialize configA sorted (generate ent [e]).1 = some c ∧ find c e.hash = some r ∧ r.idx = -1 ∧ r.dup = false := by
  have hb : Batch [e] := ⟨by simpa using hlen, by
    intro x hx a ha
    simp only [List.mem_singleton, List.head?_cons, Option.some.injEq] at hx ha
    subst hx; subst ha
    simp only [List.length_cons, List.length_nil]
    omega⟩
  have hf := generate_filled he hb (by simp) ((pool_overflow he hb).1 (by simp))
  obtain ⟨rs, hrs⟩ := recon_some hb hf (by
    intro x hx
    rw [List.mem_singleton] at hx
    left
    simp [times, hx])
  refine ⟨rs, hrs, fun sorted hp hs => ?_⟩
  have hA := arranged hrs hp hs
  have hnodes := lone_nodes he e
  have hroom : (generate ent [e]).1.nodes.length + (generate ent [e]).1.count < 65536 := by rw [hnodes]; simp
  obtain ⟨c, hc1, hc2, -⟩ := serialize_loaded hA hroom (fun n hn => (filled_nodes hb hf n hn).1) hf.nodes_ne
  have hn : (generate ent [e]).1.nodes[0]? = some ⟨0, 0, put noLookups 0 1⟩ := by rw [hnodes, h0]; rfl
  obtain ⟨k, off, r, h1, h2, h3, h4, h5, h6, h7⟩ := node_read_raw hA hroom hc2 hn (filled_nodes hb hf _ (List.mem_of_getElem? hn)).1
  obtain ⟨h8, h9⟩ := h7 h3
  have hspec : r.spec = newSpec 0 .tiny 2 := by
    have hd : (if (0 : Nat) = 32 then suitableDuplicate configA 0 else suitable configA 0 (used (put noLookups 0 1))) =
        some (newSpec 0 .tiny 2) := by decide +kernel
    unfold reconOne at h5
    dsimp only at h5
    rw [hd] at h5
    exact (Option.some.inj h5) ▸ rfl
  have hused : used (put noLookups 0 1) < (newSpec 0 .tiny 2).size := by decide +kernel
  rw [hspec] at h4 h9
  dsimp only at h9
  rw [if_neg (by omega), if_pos ⟨rfl, hused⟩] at h9
  refine ⟨c, ⟨-1, false, setBit (fun _ => false) 0⟩, hc1, ?_, rfl, rfl⟩
  unfold find
  have hroot : c.root = k + 1 := Option.some.inj (hc2.root.symm.trans h2)
  rw [if_neg (by rw [hc2.count, hnodes]; simp), hroot, scan, h4]
  dsimp only
  rw [if_neg (by omega), h9]
  dsimp only
  rw [if_neg (by omega), h0, put, if_pos rfl, if_pos rfl]

/-- **C81, a disagreement.** If a hash was presented more than once, and for each of its 32 bytes there is a presented hash
that differs from it exactly there, then no container can be made: there is no format for the node at level 32. -/
theorem repeated_hash_cannot_be_written {ent : List Entry → Nat → Nat} (he : EntropyOK ent) {input : List Entry}
    (hb : Batch input) (ho : (generate ent input).2 = false) {h : Bytes} (ht : 2 ≤ times input h)
    (hall : ∀ i < 32, ∃ x ∈ input, byteAt x.hash i ≠ byteAt h i ∧ ∀ j < 32, j ≠ i → byteAt x.hash j = byteAt h j) :
    recon configA (generate ent input).1 = none := by
  have hne : input ≠ [] := by
    rintro rfl
    simp [times] at ht
  have hf := generate_filled he hb hne ho
  have key : ∀ {idx level : Nat} {l : List Entry} {f : Flags},
      Rep (generate ent input).1.nodes (generate ent input).1.first (generate ent input).1.count idx level l f →
      Alike l f → 2 ≤ times l h →
      (∀ i < 32, f i = true → ∃ x ∈ l, byteAt x.hash i ≠ byteAt h i ∧ ∀ j < 32, j ≠ i → byteAt x.hash j = byteAt h j) →
      ∃ n ∈ (generate ent input).1.nodes, n.hbi = 32 ∧ n.level = level + unusedCount f 32 := by
    intro idx level l f hR
    induction hR with
    | @lone idx e f hP =>
      intro _ ht _
      unfold times at ht
      have := List.countP_le_length (p := fun e : Entry => decide (e.hash = h)) (l := [e])
      simp only [List.length_cons, List.length_nil] at this
      omega
    | @dup idx level e es f hP hes hsame =>
      intro hA ht hex
      refine ⟨_, List.mem_of_getElem? hP, rfl, ?_⟩
      have : unusedCount f 32 = 0 := by
        unfold unusedCount
        rw [List.countP_eq_zero]
        intro i hi hfi
        obtain ⟨x, hx, hxi, _⟩ := hex i (List.mem_range.mp hi) hfi
        obtain ⟨y, hy, hyh⟩ := List.countP_pos_iff.mp (by unfold times at ht; omega : 0 < (e :: es).countP fun e => e.hash = h)
        rw [hsame x hx y hy] at hxi
        simp only [decide_eq_true_eq] at hyh
        rw [hyh] at hxi
        exact hxi rfl
      rw [this]
      rfl
    | @branch idx level l f bi lk kids h1 h2 h3 hP hs _ ih =>
      intro hA ht hex
      have huc := unusedCount_flip h1 h2
      have ht' : 2 ≤ times (runs bi l (byteAt h bi)) h := by rw [times_runs rfl]; exact ht
      have h2r : 2 ≤ (runs bi l (byteAt h bi)).length := Nat.le_trans ht' List.countP_le_length
      obtain ⟨n, hn, h32, hlev⟩ := ih (byteAt h bi) h2r (hA.sub bi _) ht' (by
        intro i hi hf
        by_cases hib : i = bi
        · subst hib
          simp [ShallowTree.flip, h2] at hf
        · obtain ⟨x, hx, hd, hsame⟩ := hex i hi (by simpa [ShallowTree.flip, hib] using hf)
          exact ⟨x, mem_runs.mpr ⟨hx, hsame bi h1 (Ne.symm hib)⟩, hd, hsame⟩)
      exact ⟨n, hn, h32, by omega⟩
  obtain ⟨n, hn, h32, hlev⟩ := key hf.rep (alike_all hb.len) ht (fun i hi _ => hall i hi)
  rw [unused_all] at hlev
  match hr : recon configA (generate ent input).1 with
  | none => rfl
  | some rs =>
    obtain ⟨j, hj⟩ := reconFrom_isSome configA _ 0 rs hr n hn
    unfold reconOne at hj
    rw [if_pos h32, suitableDuplicate_none (by omega)] at hj
    simp at hj

/-- **C81, a disagreement.** No container can be made of an empty batch. -/
theorem empty_cannot_be_written (ent : List Entry → Nat → Nat) :
    recon configA (generate ent []).1 = some [] ∧ serialize configA [] (generate ent []).1 = none := ⟨rfl, rfl⟩

/-! ## Examples -/

theorem less_iff (a b : Spec) : less a b = true ↔ a.level < b.level ∨ (a.level = b.level ∧ (a.bytes < b.bytes ∨
    (a.bytes = b.bytes ∧ (a.format.num < b.format.num ∨ (a.format.num = b.format.num ∧ a.size < b.size))))) := by
  unfold less
  have hn : a.format.num = b.format.num ↔ a.format = b.format := ⟨num_inj, fun h => by rw [h]⟩
  by_cases h1 : a.level = b.level
  · rw [if_neg (by simpa using h1)]
    by_cases h2 : a.bytes = b.bytes
    · rw [if_neg (by simpa using h2)]
      by_cases h3 : a.format = b.format
      · have := hn.mpr h3
        rw [if_neg (by simpa using h3), decide_eq_true_eq]
        omega
      · have : a.format.num ≠ b.format.num := fun h => h3 (hn.mp h)
        rw [if_pos h3, decide_eq_true_eq]
        omega
    · rw [if_pos h2, decide_eq_true_eq]
      omega
  · rw [if_pos h1, decide_eq_true_eq]
    omega

/-- The nodes can be sorted. -/
theorem sortable (rs : List Recon) : ∃ sorted : List Recon, sorted.Perm rs ∧ Sorted sorted := by
  refine ⟨stableSort (fun a b => !less b.spec a.spec) rs, stableSort_perm _ rs, ?_⟩
  have := stableSort_sorted (le := fun a b : Recon => !less b.spec a.spec) (by
    intro a b c h1 h2
    simp only [Bool.not_eq_true', ← Bool.not_eq_true, less_iff] at *
    omega) (by
    intro a b h
    simp only [Bool.not_eq_true', ← Bool.not_eq_true, less_iff] at *
    omega) rs
  exact this.imp fun h => by simpa using h

/-- Four hashes, the second again as the fourth. -/
def sepBatch : List Entry :=
  [⟨demoHash 1 2, 100⟩, ⟨demoHash 3 9, 101⟩, ⟨demoHash 7 2, 102⟩, ⟨demoHash 3 9, 103⟩]

theorem sep_isBatch : Batch sepBatch := by
  refine ⟨by decide, fun e he a ha => ?_⟩
  obtain rfl : (⟨demoHash 1 2, 100⟩ : Entry) = a := Option.some.inj ha
  revert e
  decide

theorem sep_separated : Separated sepBatch := by
  have : ∀ e ∈ sepBatch, times sepBatch e.hash = 1 ∨ ∀ x ∈ sepBatch, ¬ ∃ i < 32, byteAt x.hash i ≠ byteAt e.hash i ∧
      ∀ j < 32, j ≠ i → byteAt x.hash j = byteAt e.hash j := by decide +kernel
  exact this

example : ∃ rs sorted c, recon configA (generate ShallowTree.demoEnt sepBatch).1 = some rs ∧ sorted.Perm rs ∧ Sorted sorted ∧
    serialize configA sorted (generate ShallowTree.demoEnt sepBatch).1 = some c ∧
    (∀ e ∈ sepBatch, ∃ r, find c e.hash = some r ∧ Right sepBatch e.hash (r.idx, r.dup)) ∧
    c.levelBytes.flatten = c.bytes := by
  have ho := (pool_overflow ShallowTree.demoEnt_ok sep_isBatch).1 (by decide)
  have hroom := room_of_length ShallowTree.demoEnt_ok sep_isBatch (by decide) (by decide)
  obtain ⟨rs, h1, h2⟩ := container_answers_partial ShallowTree.demoEnt_ok sep_isBatch (by decide) ho hroom sep_separated
    (by intro e h; simp [sepBatch] at h)
  obtain ⟨sorted, hp, hs⟩ := sortable rs
  obtain ⟨c, h3, h4, _⟩ := h2 sorted hp hs
  exact ⟨rs, sorted, c, h1, hp, hs, h3, h4, (levels_loaded_partial ShallowTree.demoEnt_ok sep_isBatch (by decide) ho hroom
    (by intro e h; simp [sepBatch] at h) h1 hp hs h3).2.1⟩

example := lone_zero_is_lost ShallowTree.demoEnt_ok (e := ⟨demoHash 0 5, 7⟩) rfl rfl

example : recon configA (generate ShallowTree.demoEnt lostBatch).1 = none :=
  repeated_hash_cannot_be_written ShallowTree.demoEnt_ok lost_isBatch lost_batch.1 (h := zeros 32) (by decide +kernel)
    (by decide +kernel)

/-- The container of a batch, its nodes sorted by a stable sort. -/
def containerOf (input : List Entry) : Option Container :=
  match recon configA (generate ShallowTree.demoEnt input).1 with
  | none => none
  | some rs => serialize configA (stableSort (fun a b => !less b.spec a.spec) rs) (generate ShallowTree.demoEnt input).1

/-- Bytes, and answers. -/
example : (containerOf sepBatch).map (fun c => (c.bytes, c.root,
    [demoHash 1 2, demoHash 3 9, demoHash 7 2, demoHash 4 4].map fun h => (find c h).map fun r => (r.idx, r.dup))) =
    some ([0, 1, 1, 0, 3, 254, 255, 7, 3, 0, 2, 0], 1,
      [some (100, false), some (101, true), some (102, false), some (-1, false)]) := by decide +kernel

/-- **C82, a disagreement.** With too few levels loaded, a hash that the whole container knows to be absent is reported
with -2, which is documented as 'present but not enough is loaded'. -/
theorem absent_reported_as_present : ∃ (input : List Entry) (q : Bytes), Batch input ∧ q.length = 32 ∧ (∀ e ∈ input, e.hash ≠ q) ∧
    (containerOf input).map (fun c => ((find c q).map fun r => (r.idx, r.dup),
      (find (c.truncate 1) q).map fun r => (r.idx, r.dup))) = some (some (-1, false), some (-2, false)) := by
  refine ⟨[⟨demoHash 1 2, 0⟩, ⟨demoHash 1 9, 1⟩, ⟨demoHash 7 2, 2⟩], demoHash 1 5, ⟨by decide, fun e he a ha => ?_⟩, rfl, by decide,
    by decide +kernel⟩
  obtain rfl : (⟨demoHash 1 2, 0⟩ : Entry) = a := Option.some.inj ha
  revert e
  decide

end Verif.HashTree
