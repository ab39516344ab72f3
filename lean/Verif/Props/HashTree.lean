import Verif.Lemmas.HashTree
import Verif.Props.ShallowTree

/-!
# Properties of the pool of nodes over a batch of hashes
-/

namespace Verif.HashTree

open Verif.ShallowTree (Entry Flags byteAt allUnused EntropyOK unusedCount unusedCount_flip ext_byteAt)

/-! ## Specification -/

/-- A batch: hashes of 32 bytes; the indices start with that of the first and are below it plus the number of hashes, as
they are if they are consecutive. -/
structure Batch (input : List Entry) : Prop where
  len : ∀ e ∈ input, e.hash.length = 32
  range : ∀ e ∈ input, ∀ a, input.head? = some a → a.pi ≤ e.pi ∧ e.pi < a.pi + input.length

/-- The right answer for a hash that was presented: the lowest index it was presented with, and whether it was presented
more than once. -/
def Right (l : List Entry) (h : Bytes) (r : Int × Bool) : Prop :=
  (∃ e ∈ l, e.hash = h ∧ r.1 = e.pi ∧ ∀ e' ∈ l, e'.hash = h → e.pi ≤ e'.pi) ∧ (r.2 = true ↔ 2 ≤ times l h)

/-- An answer for any hash: that of a presented hash which has the query's bytes in some positions where every other
presented hash has another byte in at least one of them. -/
def Plausible (l : List Entry) (q : Bytes) (r : Int × Bool) : Prop :=
  ∃ h, Right l h r ∧ ∃ examined : List Nat, (∀ i ∈ examined, i < 32 ∧ byteAt q i = byteAt h i) ∧
    ∀ x ∈ l, x.hash ≠ h → ∃ i ∈ examined, byteAt x.hash i ≠ byteAt q i

/-! ## Lemmas -/

theorem times_runs {bi : Nat} {l : List Entry} {b : UInt8} {h : Bytes} (hb : byteAt h bi = b) :
    times (runs bi l b) h = times l h := by
  unfold times
  rw [(runs_perm bi l b).countP_eq, List.countP_filter]
  apply List.countP_congr
  intro e _
  simp only [Bool.and_eq_true, decide_eq_true_eq]
  constructor
  · exact fun h => h.1
  · intro he; exact ⟨he, by rw [he]; exact hb⟩

theorem times_all {l : List Entry} {h : Bytes} (hall : ∀ e ∈ l, e.hash = h) : times l h = l.length := by
  unfold times
  rw [List.countP_eq_length]
  simpa using hall

theorem Right.up {bi : Nat} {l : List Entry} {h : Bytes} {r : Int × Bool} (hr : Right (runs bi l (byteAt h bi)) h r) :
    Right l h r := by
  obtain ⟨⟨e, he, heh, hpi, hlow⟩, hd⟩ := hr
  rw [times_runs rfl] at hd
  refine ⟨⟨e, (mem_runs.mp he).1, heh, hpi, fun e' he' hh => hlow e' (mem_runs.mpr ⟨he', by rw [hh]⟩) hh⟩, hd⟩

theorem value_of_range {first pi : Int} {count : Nat} (h1 : first ≤ pi) (h2 : pi < first + count) (hc : count < 65536) :
    u16 (pi - first + 1) ≠ 0 ∧ u16 (pi - first + 1) ≤ count ∧ first + ((u16 (pi - first + 1) : Int) - 1) = pi := by
  unfold u16; omega

/-- The three outcomes of a walk. -/
theorem walk_all {P : List Node} {first : Int} {count : Nat} (hc : count < 65536) {idx level : Nat} {l : List Entry} {f : Flags}
    (hR : Rep P first count idx level l f) : Alike l f → (∀ e ∈ l, first ≤ e.pi ∧ e.pi < first + count) →
    ∀ q : Bytes, q.length = 32 → (∀ i < 32, f i = false → ∀ x ∈ l, byteAt q i = byteAt x.hash i) →
    ∀ left, unusedCount f 32 = left + 1 →
      (walk ⟨first, count, P⟩ q (left + 1) idx = some (-1, false) ∧ ∀ x ∈ l, x.hash ≠ q) ∨
      (walk ⟨first, count, P⟩ q (left + 1) idx = some (-1, true) ∧ 2 ≤ times l q ∧ ∃ x ∈ l, OneByteOff x.hash q) ∨
      (∃ r, walk ⟨first, count, P⟩ q (left + 1) idx = some r ∧ Plausible l q r) := by
  induction hR with
  | @lone idx e f hP =>
    intro hA hrange q hq _ left _
    obtain ⟨v1, v2, v3⟩ := value_of_range (hrange e (by simp)).1 (hrange e (by simp)).2 hc
    rw [walk]
    simp only [hP]
    rw [if_neg (by omega), if_neg (by omega)]
    by_cases hb : byteAt q 0 = byteAt e.hash 0
    · right; right
      simp only [put, if_pos hb]
      rw [if_neg v1, if_pos v2, v3]
      refine ⟨_, rfl, e.hash, ⟨⟨e, by simp, rfl, rfl, by simp⟩, by simp [times]⟩, [0], by simp [hb], ?_⟩
      intro x hx hne
      rw [List.mem_singleton] at hx
      exact absurd (by rw [hx]) hne
    · left
      simp only [put, if_neg hb, noLookups, if_true, true_and]
      intro x hx h
      rw [List.mem_singleton] at hx
      rw [← hx, h] at hb
      exact hb rfl
  | @dup idx level e es f hP hes hsame =>
    intro hA hrange q hq _ left _
    right; right
    obtain ⟨hl1, hl2, hl3⟩ := lowest_spec es e.pi
    have hlow : ∃ x ∈ e :: es, lowest e.pi es = x.pi := by
      rcases hl1 with h | ⟨x, hx, h⟩
      · exact ⟨e, by simp, h⟩
      · exact ⟨x, by simp [hx], h⟩
    obtain ⟨x, hx, hxl⟩ := hlow
    rw [hxl] at hP hl2 hl3
    obtain ⟨v1, v2, v3⟩ := value_of_range (hrange x hx).1 (hrange x hx).2 hc
    have hput : put noLookups 0 (u16 (x.pi - first + 1)) 0 = u16 (x.pi - first + 1) := by simp [put]
    rw [walk]
    simp only [hP]
    rw [if_pos trivial, hput, if_neg v1, if_pos v2, v3]
    refine ⟨_, rfl, x.hash, ⟨⟨x, hx, rfl, rfl, ?_⟩, ?_⟩, [], by simp, ?_⟩
    · intro y hy _
      rcases List.mem_cons.mp hy with rfl | hy
      · exact hl2
      · exact hl3 y hy
    · rw [times_all fun y hy => hsame y hy x hx]
      have := List.length_pos_iff.mpr hes
      simp only [List.length_cons, true_iff]
      omega
    · intro y hy hne
      exact absurd (hsame y hy x hx) hne
  | @branch idx level l f bi lk kids h1 h2 h3 hP hs _ ih =>
    intro hA hrange q hq hagree left hleft
    have hslot := hs (byteAt q bi)
    have huc := unusedCount_flip h1 h2
    rw [walk]
    simp only [hP]
    rw [if_neg (by omega), if_neg (by omega)]
    have hagree' : ∀ i < 32, ShallowTree.flip f bi i = false → ∀ x ∈ runs bi l (byteAt q bi), byteAt q i = byteAt x.hash i := by
      intro i hi hf x hx
      rw [mem_runs] at hx
      by_cases hib : i = bi
      · rw [hib, hx.2]
      · exact hagree i hi (by simpa [ShallowTree.flip, hib] using hf) x hx.1
    match hrun : runs bi l (byteAt q bi), hslot with
    | [], hslot =>
      left
      rw [hslot.nil rfl, if_pos rfl]
      refine ⟨rfl, fun x hx h => ?_⟩
      have : x ∈ runs bi l (byteAt q bi) := mem_runs.mpr ⟨hx, by rw [h]⟩
      rw [hrun] at this
      simp at this
    | [e], hslot =>
      right; right
      have he : e ∈ l ∧ byteAt e.hash bi = byteAt q bi := mem_runs.mp (by rw [hrun]; simp)
      obtain ⟨v1, v2, v3⟩ := value_of_range (hrange e he.1).1 (hrange e he.1).2 hc
      rw [hslot.one e rfl, if_neg v1, if_pos v2, v3]
      refine ⟨_, rfl, e.hash, Right.up (bi := bi) ?_, [bi], by simp [h1, he.2], ?_⟩
      · rw [he.2, hrun]
        exact ⟨⟨e, by simp, rfl, rfl, by simp⟩, by simp [times]⟩
      · intro x hx hne
        refine ⟨bi, by simp, fun hb => hne ?_⟩
        have : x ∈ runs bi l (byteAt q bi) := mem_runs.mpr ⟨hx, hb⟩
        rw [hrun, List.mem_singleton] at this
        rw [this]
    | e :: e' :: es, hslot =>
      have h2r : 2 ≤ (runs bi l (byteAt q bi)).length := by rw [hrun]; simp
      obtain ⟨s1, s2, s3, s4⟩ := hslot.more (by simp)
      rw [s1, if_neg (by omega), if_neg (by omega)]
      have hk : 65536 - (65536 - kids (byteAt q bi)) = kids (byteAt q bi) := by omega
      rw [hk]
      match left, hleft with
      | 0, hleft =>
        right; left
        rw [walk]
        have hused := all_used (f := ShallowTree.flip f bi) (by omega)
        have hallq : ∀ x ∈ runs bi l (byteAt q bi), x.hash = q := by
          intro x hx
          exact ext_byteAt (hA.len x (mem_runs.mp hx).1) hq fun i hi => (hagree' i hi (hused i hi) x hx).symm
        refine ⟨rfl, ?_, ?_⟩
        · rw [← times_runs (bi := bi) (b := byteAt q bi) rfl, times_all hallq]
          exact h2r
        · obtain ⟨x, hx, y, hy, hxy⟩ := h3
          have hz : ∃ z ∈ l, byteAt z.hash bi ≠ byteAt q bi := by
            by_cases hb : byteAt x.hash bi = byteAt q bi
            · exact ⟨y, hy, fun h => hxy (hb.trans h.symm)⟩
            · exact ⟨x, hx, hb⟩
          obtain ⟨z, hz, hzb⟩ := hz
          refine ⟨z, hz, bi, h1, hzb, fun j hj hne => ?_⟩
          exact (hagree j hj (by have := hused j hj; simpa [ShallowTree.flip, hne] using this) z hz).symm
      | left + 1, hleft =>
        have := ih (byteAt q bi) h2r (hA.sub bi _) (fun x hx => hrange x (mem_runs.mp hx).1) q hq hagree' left (by omega)
        rcases this with ⟨hw, hn⟩ | ⟨hw, ht, x, hx, ho⟩ | ⟨r, hw, h, hr, ex, hex1, hex2⟩
        · left
          refine ⟨hw, fun x hx h => ?_⟩
          exact hn x (mem_runs.mpr ⟨hx, by rw [h]⟩) h
        · right; left
          rw [times_runs rfl] at ht
          exact ⟨hw, ht, x, (mem_runs.mp hx).1, ho⟩
        · right; right
          have hbh : byteAt h bi = byteAt q bi := by
            obtain ⟨⟨e, he, heh, _⟩, _⟩ := hr
            rw [← heh]
            exact (mem_runs.mp he).2
          refine ⟨r, hw, h, Right.up (bi := bi) (by rw [hbh]; exact hr), bi :: ex, ?_, ?_⟩
          · intro i hi
            rcases List.mem_cons.mp hi with rfl | hi
            · exact ⟨h1, hbh.symm⟩
            · exact hex1 i hi
          · intro x hx hne
            by_cases hb : byteAt x.hash bi = byteAt q bi
            · obtain ⟨i, hi, hd⟩ := hex2 x (mem_runs.mpr ⟨hx, hb⟩) hne
              exact ⟨i, by simp [hi], hd⟩
            · exact ⟨bi, by simp, hb⟩

theorem unused_all : unusedCount (allUnused 32) 32 = 32 := by decide

theorem alike_all {input : List Entry} (hlen : ∀ e ∈ input, e.hash.length = 32) : Alike input (allUnused 32) := by
  refine ⟨hlen, fun i hi hf => ?_⟩
  simp [allUnused, hi] at hf

/-- What a container that did not overflow holds. -/
structure Filled (input : List Entry) (p : Pool) : Prop where
  ne : input ≠ []
  first : ∀ a, input.head? = some a → p.first = a.pi
  count : p.count = input.length
  short : input.length < 65536
  few : p.nodes.length + 1 ≤ input.length ∨ (p.nodes.length = 1 ∧ input.length = 1)
  room : p.nodes.length + p.count ≤ 65536
  rep : Rep p.nodes p.first p.count 0 0 input (allUnused 32)
  all : ∀ i < p.nodes.length, (input.length = 1 ∧ i = 0) ∨ Desc p.nodes p.first p.count i 0 input (allUnused 32)

theorem gen_lone {ent : List Entry → Nat → Nat} (he : EntropyOK ent) (e : Entry) :
    gen ent e.pi 1 33 [e] (allUnused 32) 0 [] =
      some (0, [⟨0, 0, put noLookups (byteAt e.hash 0) (u16 (e.pi - e.pi + 1))⟩]) := by
  rw [gen]
  dsimp only
  rw [if_pos ((ShallowTree.best_zero he).mpr (by simp)), ended, if_pos (by simp)]
  rfl

theorem generate_filled {ent : List Entry → Nat → Nat} (he : EntropyOK ent) {input : List Entry} (hb : Batch input)
    (hne : input ≠ []) (ho : (generate ent input).2 = false) : Filled input (generate ent input).1 := by
  unfold generate at ho ⊢
  match input, hne, hb with
  | a :: rest, hne, hb =>
    dsimp only at ho ⊢
    by_cases hl : 65536 ≤ (a :: rest).length
    · rw [if_pos hl] at ho; simp at ho
    rw [if_neg hl] at ho ⊢
    match rest, hb with
    | [], hb =>
      have := gen_lone he a
      simp only [List.length_cons, List.length_nil, Nat.zero_add] at ho ⊢
      rw [this]
      exact ⟨by simp, by simp, rfl, by simp, .inr (by simp), by simp, .lone rfl, fun i hi => .inl ⟨rfl, by simp at hi; exact hi⟩⟩
    | b :: rest, hb =>
      have := gen_made he (first := a.pi) (count := (a :: b :: rest).length) (M := 65537) (by omega) 33 (a :: b :: rest)
        (allUnused 32) 0 [] (alike_all hb.len) (by simp) (by rw [unused_all]; omega) (by rw [List.length_nil]; omega)
      generalize hg : gen ent a.pi (a :: b :: rest).length 33 (a :: b :: rest) (allUnused 32) 0 [] = g at this ho
      match g, this, ho with
      | none, _, ho => simp at ho
      | some (idx, nodes), this, _ =>
        have hm := this.2 idx nodes rfl
        have hi : idx = 0 := hm.eq
        have hf := hm.few
        rw [List.length_nil] at hf
        have hr := hm.room
        rw [List.length_nil] at hr
        refine ⟨by simp, by simp, rfl, by omega, .inl (by dsimp only; omega), by dsimp only; omega, ?_,
          fun i hi => .inr (hm.all nodes (fun _ _ _ => rfl) i (by simp) hi)⟩
        have := hm.rep nodes (fun _ _ _ => rfl)
        rw [hi] at this
        exact this

theorem lookup_all {input : List Entry} {p : Pool} (hb : Batch input) (hf : Filled input p) (q : Bytes) (hq : q.length = 32) :
    (lookup p q = some (-1, false) ∧ ∀ x ∈ input, x.hash ≠ q) ∨
    (lookup p q = some (-1, true) ∧ 2 ≤ times input q ∧ ∃ x ∈ input, OneByteOff x.hash q) ∨
    (∃ r, lookup p q = some r ∧ Plausible input q r) := by
  have hpos := List.length_pos_iff.mpr hf.ne
  unfold lookup
  rw [if_neg (by rw [hf.count]; omega)]
  have hrange : ∀ e ∈ input, p.first ≤ e.pi ∧ e.pi < p.first + p.count := by
    intro e he
    match input, hf.ne, hf.first, hf.count, hb.range, he with
    | a :: rest, _, hfi, hco, hr, he =>
      rw [hfi a rfl, hco]
      exact hr e he a rfl
  exact walk_all (by rw [hf.count]; exact hf.short) hf.rep (alike_all hb.len) hrange q hq
    (fun i hi h => by simp [allUnused, hi] at h) 31 unused_all

/-! ## The theorems -/

/-- **C80, presence** (partial). If a batch did not overflow, then looking up a hash that was presented gives the lowest
index it was presented with, and says whether it was presented more than once. What is missing: a hash that was
presented more than once while another presented hash differs from it in exactly one byte; see
`repeated_hash_is_lost`. -/
theorem pool_finds_every_hash_partial {ent : List Entry → Nat → Nat} (he : EntropyOK ent) {input : List Entry}
    (hb : Batch input) (ho : (generate ent input).2 = false) {h : Bytes} (hin : ∃ e ∈ input, e.hash = h)
    (hsep : times input h = 1 ∨ ∀ x ∈ input, ¬ OneByteOff x.hash h) :
    ∃ r, lookup (generate ent input).1 h = some r ∧ Right input h r := by
  obtain ⟨e, hein, heh⟩ := hin
  have hf := generate_filled he hb (List.ne_nil_of_mem hein) ho
  have hq : h.length = 32 := by rw [← heh]; exact hb.len e hein
  rcases lookup_all hb hf h hq with ⟨_, hn⟩ | ⟨_, ht, x, hx, hox⟩ | ⟨r, hr, h', hR, ex, hex1, hex2⟩
  · exact absurd heh (hn e hein)
  · rcases hsep with hs | hs
    · omega
    · exact absurd hox (hs x hx)
  · refine ⟨r, hr, ?_⟩
    by_cases heq : e.hash = h'
    · rw [← heh, heq]; exact hR
    · obtain ⟨i, _, hd⟩ := hex2 e hein heq
      exact absurd (by rw [heh]) hd

/-- **C80, any query.** If a batch did not overflow, then looking up any 32 bytes never panics, and gives 'not found'
only for a hash that was not presented; the answer -1 with 'presented more than once' only for a hash that was presented
more than once while another presented hash differs from it in exactly one byte; and otherwise the right answer for a
presented hash that has the query's bytes in some positions that tell it from all the other presented hashes. -/
theorem pool_answer_is_plausible {ent : List Entry → Nat → Nat} (he : EntropyOK ent) {input : List Entry} (hb : Batch input)
    (hne : input ≠ []) (ho : (generate ent input).2 = false) (q : Bytes) (hq : q.length = 32) :
    (lookup (generate ent input).1 q = some (-1, false) ∧ ∀ x ∈ input, x.hash ≠ q) ∨
    (lookup (generate ent input).1 q = some (-1, true) ∧ 2 ≤ times input q ∧ ∃ x ∈ input, OneByteOff x.hash q) ∨
    (∃ r, lookup (generate ent input).1 q = some r ∧ Plausible input q r) :=
  lookup_all hb (generate_filled he hb hne ho) q hq

/-- An empty batch does not overflow, and nothing is found in it. -/
theorem empty_pool_finds_nothing (ent : List Entry → Nat → Nat) (q : Bytes) :
    (generate ent []).2 = false ∧ lookup (generate ent []).1 q = some (-1, false) := ⟨rfl, rfl⟩

theorem walk_lost {P : List Node} {first : Int} {count : Nat} {idx level : Nat} {l : List Entry} {f : Flags}
    (hR : Rep P first count idx level l f) : ∀ h : Bytes, 2 ≤ times l h →
    (∀ i < 32, f i = true → ∃ x ∈ l, byteAt x.hash i ≠ byteAt h i ∧ ∀ j < 32, j ≠ i → byteAt x.hash j = byteAt h j) →
    ∀ left, unusedCount f 32 = left + 1 → walk ⟨first, count, P⟩ h (left + 1) idx = some (-1, true) := by
  induction hR with
  | @lone idx e f hP =>
    intro h ht _ _ _
    unfold times at ht
    have := List.countP_le_length (p := fun e : Entry => decide (e.hash = h)) (l := [e])
    simp only [List.length_cons, List.length_nil] at this
    omega
  | @dup idx level e es f hP hes hsame =>
    intro h ht hex left hleft
    exfalso
    have hi : ∃ i < 32, f i = true := by
      have : 0 < unusedCount f 32 := by omega
      obtain ⟨i, hi, hf⟩ := List.countP_pos_iff.mp this
      exact ⟨i, List.mem_range.mp hi, hf⟩
    obtain ⟨i, hi, hf⟩ := hi
    obtain ⟨x, hx, hxi, _⟩ := hex i hi hf
    obtain ⟨y, hy, hyh⟩ := List.countP_pos_iff.mp (by unfold times at ht; omega : 0 < (e :: es).countP fun e => e.hash = h)
    rw [hsame x hx y hy] at hxi
    simp only [decide_eq_true_eq] at hyh
    rw [hyh] at hxi
    exact hxi rfl
  | @branch idx level l f bi lk kids h1 h2 h3 hP hs _ ih =>
    intro h ht hex left hleft
    have huc := unusedCount_flip h1 h2
    have ht' : 2 ≤ times (runs bi l (byteAt h bi)) h := by rw [times_runs rfl]; exact ht
    have h2r : 2 ≤ (runs bi l (byteAt h bi)).length := Nat.le_trans ht' List.countP_le_length
    obtain ⟨s1, s2, s3, s4⟩ := (hs (byteAt h bi)).more h2r
    rw [walk]
    simp only [hP]
    rw [if_neg (by omega), if_neg (by omega), if_neg (by omega), if_neg (by omega), s1]
    have hk : 65536 - (65536 - kids (byteAt h bi)) = kids (byteAt h bi) := by omega
    rw [hk]
    match left, hleft with
    | 0, _ => rfl
    | left + 1, hleft =>
      refine ih (byteAt h bi) h2r h ht' ?_ left (by omega)
      intro i hi hf
      by_cases hib : i = bi
      · subst hib
        simp [ShallowTree.flip, h2] at hf
      · obtain ⟨x, hx, hd, hsame⟩ := hex i hi (by simpa [ShallowTree.flip, hib] using hf)
        exact ⟨x, mem_runs.mpr ⟨hx, hsame bi h1 (Ne.symm hib)⟩, hd, hsame⟩

/-- **C80, the disagreement.** A hash that was presented more than once is not found (index -1, though the flag says it
was presented more than once) if for each of its 32 bytes there is a presented hash that differs from it exactly there. -/
theorem repeated_hash_is_lost {ent : List Entry → Nat → Nat} (he : EntropyOK ent) {input : List Entry} (hb : Batch input)
    (ho : (generate ent input).2 = false) {h : Bytes} (ht : 2 ≤ times input h)
    (hall : ∀ i < 32, ∃ x ∈ input, byteAt x.hash i ≠ byteAt h i ∧ ∀ j < 32, j ≠ i → byteAt x.hash j = byteAt h j) :
    lookup (generate ent input).1 h = some (-1, true) := by
  have hne : input ≠ [] := by
    rintro rfl
    simp [times] at ht
  have hf := generate_filled he hb hne ho
  have hpos := List.length_pos_iff.mpr hne
  unfold lookup
  rw [if_neg (by rw [hf.count]; omega)]
  exact walk_lost hf.rep h ht (fun i hi _ => hall i hi) 31 unused_all

/-- **C80, overflow.** A batch of at most 32768 hashes never overflows, whatever the hashes, and one of 65536 or more
always does; an overflow leaves an empty container. -/
theorem pool_overflow {ent : List Entry → Nat → Nat} (he : EntropyOK ent) {input : List Entry} (hb : Batch input) :
    (input.length ≤ 32768 → (generate ent input).2 = false) ∧
    (65536 ≤ input.length → (generate ent input).2 = true) ∧
    ((generate ent input).2 = true → ∀ q, lookup (generate ent input).1 q = some (-1, false)) := by
  match input, hb with
  | [], _ => exact ⟨fun _ => rfl, by simp, by simp [generate]⟩
  | a :: rest, hb =>
    refine ⟨fun h => ?_, fun h => ?_, fun h q => ?_⟩
    · unfold generate
      dsimp only
      rw [if_neg (by omega)]
      match rest, hb, h with
      | [], _, _ =>
        have := gen_lone he a
        simp only [List.length_cons, List.length_nil, Nat.zero_add]
        rw [this]
      | b :: rest, hb, h =>
        have := (gen_made he (first := a.pi) (count := (a :: b :: rest).length) (M := (a :: b :: rest).length) (by omega) 33
          (a :: b :: rest) (allUnused 32) 0 [] (alike_all hb.len) (by simp) (by rw [unused_all]; omega)
          (by rw [List.length_nil]; omega)).1 (by omega)
        generalize gen ent a.pi (a :: b :: rest).length 33 (a :: b :: rest) (allUnused 32) 0 [] = g at this ⊢
        match g, this with
        | some _, _ => rfl
    · unfold generate
      dsimp only
      rw [if_pos h]
    · unfold generate at h ⊢
      dsimp only at h ⊢
      by_cases hl : 65536 ≤ (a :: rest).length
      · rw [if_pos hl]; rfl
      · rw [if_neg hl] at h ⊢
        generalize gen ent a.pi (a :: rest).length 33 (a :: rest) (allUnused 32) 0 [] = g at h ⊢
        match g, h with
        | none, _ => rfl

/-! ## Examples -/

/-- A hash of 32 bytes. -/
def demoHash (a b : UInt8) : Bytes := a :: b :: zeros 30

/-- Four hashes, presented as numbers 100 to 103, the second again as the fourth. -/
def demoBatch : List Entry :=
  [⟨demoHash 1 2, 100⟩, ⟨demoHash 1 9, 101⟩, ⟨demoHash 7 2, 102⟩, ⟨demoHash 1 9, 103⟩]

theorem demo_isBatch : Batch demoBatch := by
  refine ⟨by decide, fun e he a ha => ?_⟩
  obtain rfl : (⟨demoHash 1 2, 100⟩ : Entry) = a := Option.some.inj ha
  revert e
  decide

/-- All at once: it does not overflow, hashes are found, one of them repeated. -/
example : (generate ShallowTree.demoEnt demoBatch).2 = false ∧
    (∃ r, lookup (generate ShallowTree.demoEnt demoBatch).1 (demoHash 7 2) = some r ∧ Right demoBatch (demoHash 7 2) r) :=
  have h := (pool_overflow ShallowTree.demoEnt_ok demo_isBatch).1 (by decide)
  ⟨h, pool_finds_every_hash_partial ShallowTree.demoEnt_ok demo_isBatch h ⟨⟨demoHash 7 2, 102⟩, by decide, rfl⟩
    (.inl (by decide))⟩

example : lookup (generate ShallowTree.demoEnt demoBatch).1 (demoHash 1 9) = some (101, true) ∧
    lookup (generate ShallowTree.demoEnt demoBatch).1 (demoHash 1 2) = some (100, false) ∧
    lookup (generate ShallowTree.demoEnt demoBatch).1 (demoHash 8 2) = some (-1, false) ∧
    lookup (generate ShallowTree.demoEnt demoBatch).1 (demoHash 50 9) = some (101, true) := by decide +kernel

example (q : Bytes) (hq : q.length = 32) := pool_answer_is_plausible ShallowTree.demoEnt_ok demo_isBatch (by decide)
  ((pool_overflow ShallowTree.demoEnt_ok demo_isBatch).1 (by decide)) q hq

/-- The zero hash twice, and for each byte a hash that differs from it there. -/
def lostBatch : List Entry :=
  ⟨zeros 32, 0⟩ :: ⟨zeros 32, 1⟩ :: (List.range 32).map fun i => ⟨(zeros 32).set i 1, (i : Int) + 2⟩

theorem lost_isBatch : Batch lostBatch := by
  refine ⟨by decide +kernel, fun e he a ha => ?_⟩
  obtain rfl : (⟨zeros 32, 0⟩ : Entry) = a := Option.some.inj ha
  revert e
  decide +kernel

/-- The hypotheses of the disagreement can be met: 34 hashes. -/
theorem lost_batch : (generate ShallowTree.demoEnt lostBatch).2 = false ∧
    lookup (generate ShallowTree.demoEnt lostBatch).1 (zeros 32) = some (-1, true) :=
  have h := (pool_overflow ShallowTree.demoEnt_ok lost_isBatch).1 (by decide +kernel)
  ⟨h, repeated_hash_is_lost ShallowTree.demoEnt_ok lost_isBatch h (by decide +kernel) (by decide +kernel)⟩

end Verif.HashTree
