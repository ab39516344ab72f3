import Verif.Lemmas.ShallowTree

/-!
# Properties of the decision tree over a set of hashes
-/

namespace Verif.ShallowTree

/-! ## Lemmas about lookups -/

theorem check_own (h : Bytes) (r : Nat) : ∀ is : List Nat, checkReassurance h ((is.take r).map (byteAt h)) is = some true := by
  intro is
  induction is generalizing r with
  | nil => simp [checkReassurance]
  | cons i is ih =>
    cases r with
    | zero => simp [checkReassurance]
    | succ r => rw [List.take_succ_cons, List.map_cons, checkReassurance, if_neg (by simp)]; exact ih r

theorem check_other (q h : Bytes) (r : Nat) : ∀ is : List Nat,
    checkReassurance q ((is.take r).map (byteAt h)) is = some false ∨
    (checkReassurance q ((is.take r).map (byteAt h)) is = some true ∧ ∀ i ∈ is.take r, byteAt q i = byteAt h i) := by
  intro is
  induction is generalizing r with
  | nil => right; simp [checkReassurance]
  | cons i is ih =>
    cases r with
    | zero => right; simp [checkReassurance]
    | succ r =>
      rw [List.take_succ_cons, List.map_cons]
      unfold checkReassurance
      by_cases hq : byteAt q i = byteAt h i
      · rw [if_neg (by simpa using hq)]
        rcases ih r with h1 | ⟨h1, h2⟩
        · exact .inl h1
        · refine .inr ⟨h1, ?_⟩
          intro j hj
          rcases List.mem_cons.mp hj with rfl | hj
          · exact hq
          · exact h2 j hj
      · rw [if_pos hq]; exact .inl rfl

theorem lookup_found {r hl : Nat} {l : List Entry} {f : Flags} {t : Tree} (hB : Built r hl l f t) :
    ∀ e ∈ l, lookupFrom e.hash t f = some e.pi := by
  induction hB with
  | empty => intro e he; simp at he
  | leaf =>
    intro e he
    rw [List.mem_singleton] at he
    subst he
    simp only [lookupFrom, reassurance, check_own]
  | slots runs h1 h2 h3 hp _ ih =>
    intro e he
    rw [lookupFrom]
    refine ih _ e ((hp _).symm.subset ?_)
    simp [List.mem_filter, he]

/-- `examined` are positions; the query has the entry's byte in all of them, every other entry has another byte in one
of them, and the query has the entry's bytes also in the first `r` of the other positions. -/
structure Match (r : Nat) (f : Flags) (l : List Entry) (q : Bytes) (e : Entry) (examined : List Nat) : Prop where
  mem : e ∈ l
  unused : ∀ i ∈ examined, f i = true
  nodup : examined.Nodup
  agree : ∀ i ∈ examined, byteAt q i = byteAt e.hash i
  others : ∀ e' ∈ l, e' ≠ e → ∃ i ∈ examined, byteAt e'.hash i ≠ byteAt q i
  reassure : ∀ i ∈ ((List.range 64).filter fun i => f i && decide (i ∉ examined)).take r, byteAt q i = byteAt e.hash i

theorem lookup_sound {r hl : Nat} {l : List Entry} {f : Flags} {t : Tree} (hB : Built r hl l f t) (q : Bytes) :
    lookupFrom q t f = some (-1) ∨ ∃ e examined, lookupFrom q t f = some e.pi ∧ Match r f l q e examined := by
  induction hB with
  | empty => left; rfl
  | @leaf e f =>
    simp only [lookupFrom, reassurance]
    rcases check_other q e.hash r (setBits f) with h | ⟨h, h'⟩
    · left; rw [h]
    · right
      refine ⟨e, [], by rw [h], ?_⟩
      refine ⟨by simp, by simp, by simp, by simp, ?_, ?_⟩
      · intro e' he' hne
        exact absurd (List.mem_singleton.mp he') hne
      · intro i hi
        refine h' i ?_
        simpa [setBits] using hi
  | @slots l f bi next runs h1 h2 h3 hp hb ih =>
    rw [lookupFrom]
    rcases ih (byteAt q bi) with h | ⟨e, ex, h, hm⟩
    · exact .inl h
    · right
      have hsub : ∀ e', e' ∈ runs (byteAt q bi) ↔ e' ∈ l ∧ byteAt e'.hash bi = byteAt q bi := by
        intro e'
        rw [(hp (byteAt q bi)).mem_iff, List.mem_filter]
        simp
      have hbi : bi ∉ ex := by
        intro hin
        have := hm.unused bi hin
        simp [flip, h2] at this
      refine ⟨e, bi :: ex, h, ?_⟩
      refine ⟨((hsub e).mp hm.mem).1, ?_, List.nodup_cons.mpr ⟨hbi, hm.nodup⟩, ?_, ?_, ?_⟩
      · intro i hi
        rcases List.mem_cons.mp hi with rfl | hi
        · exact h2
        · have := hm.unused i hi
          have hne : i ≠ bi := fun h => hbi (h ▸ hi)
          simpa [flip, hne] using this
      · intro i hi
        rcases List.mem_cons.mp hi with rfl | hi
        · exact ((hsub e).mp hm.mem).2.symm
        · exact hm.agree i hi
      · intro e' he' hne
        by_cases hb' : byteAt e'.hash bi = byteAt q bi
        · obtain ⟨i, hi, hd⟩ := hm.others e' ((hsub e').mpr ⟨he', hb'⟩) hne
          exact ⟨i, by simp [hi], hd⟩
        · exact ⟨bi, by simp, hb'⟩
      · have heq : ((List.range 64).filter fun i => f i && decide (i ∉ bi :: ex)) =
            (List.range 64).filter fun i => flip f bi i && decide (i ∉ ex) := by
          apply List.filter_congr
          intro i _
          by_cases hi : i = bi
          · subst hi; simp [flip, h2]
          · simp [flip, hi]
        rw [heq]
        exact hm.reassure

/-! ## Lemmas about making the tree -/

theorem reassurance_root {h : Bytes} {r hl : Nat} (hlen : h.length = hl) (h64 : hl ≤ 64) :
    reassurance (allUnused hl) r h = h.take r := by
  have hset : setBits (allUnused hl) = List.range hl := by
    unfold setBits allUnused
    have : ∀ k, (List.range (hl + k)).filter (fun i => decide (i < hl)) = List.range hl := by
      intro k
      induction k with
      | zero => rw [Nat.add_zero, List.filter_eq_self]; simp
      | succ k ih => rw [← Nat.add_assoc, List.range_succ, List.filter_append, ih]; simp
    have := this (64 - hl)
    rwa [Nat.add_sub_cancel' h64] at this
  unfold reassurance
  rw [hset]
  apply List.ext_getElem
  · simp; omega
  · intro i h1 h2
    simp only [List.length_take] at h2
    have : i < h.length := by omega
    simp [byteAt, List.getD, List.getElem?_eq_getElem this]

theorem generate_built {ent : List Entry → Nat → Nat} (he : EntropyOK ent) {l : List Entry} {hl r : Nat} (h1 : 1 ≤ hl)
    (h64 : hl ≤ 64) (hr : r ≤ hl) (hlen : ∀ e ∈ l, e.hash.length = hl) (hn : (l.map (·.hash)).Nodup) :
    ∃ t, generate ent l hl r = some t ∧ Built r hl l (allUnused hl) t := by
  unfold generate
  rw [if_neg (by omega), if_neg (by omega), if_neg (by
    simp only [List.any_eq_true, decide_eq_true_eq, not_exists, not_and, Decidable.not_not]
    exact hlen)]
  match l with
  | [] => exact ⟨_, rfl, .empty⟩
  | [e] =>
    refine ⟨_, rfl, ?_⟩
    rw [← reassurance_root (hlen e (by simp)) h64]
    exact .leaf
  | x :: y :: l =>
    refine gen_built he hl (x :: y :: l) (allUnused hl) ⟨hlen, hn, ?_⟩ (by simp) ?_
    · intro i hi hf
      simp [allUnused, hi] at hf
    · unfold unusedCount
      exact Nat.le_trans List.countP_le_length (by simp)

theorem nodup_of_runs {l : List Entry} {bi : Nat} (h : ∀ b, ((l.filter fun e => byteAt e.hash bi = b).map (·.hash)).Nodup) :
    (l.map (·.hash)).Nodup := by
  unfold List.Nodup
  rw [List.pairwise_map, List.pairwise_iff_forall_sublist]
  intro x y hs hxy
  have hb := h (byteAt x.hash bi)
  unfold List.Nodup at hb
  rw [List.pairwise_map, List.pairwise_iff_forall_sublist] at hb
  refine hb (a := x) (b := y) ?_ hxy
  have := hs.filter (fun e => byteAt e.hash bi = byteAt x.hash bi)
  simpa [hxy] using this

theorem gen_nodup {ent : List Entry → Nat → Nat} {r hl : Nat} : ∀ (n : Nat) (l : List Entry) (f : Flags) (t : Tree),
    gen ent r hl n l f = some t → (l.map (·.hash)).Nodup := by
  intro n
  induction n with
  | zero => intro l f t h; simp [gen] at h
  | succ n ih =>
    intro l f t h
    rw [gen] at h
    by_cases h2 : l.length < 2
    · rw [if_pos h2] at h; simp at h
    rw [if_neg h2] at h
    dsimp only at h
    by_cases h0 : (best ent l f hl).1 = 0
    · rw [if_pos h0] at h; simp at h
    rw [if_neg h0, Option.map_eq_some_iff] at h
    obtain ⟨next, hc, _⟩ := h
    have hc := collect_isSome hc
    refine nodup_of_runs (bi := (best ent l f hl).2) (fun b => ?_)
    have hp := runOf_sorted (best ent l f hl).2 l b
    have hcb := hc b
    refine (hp.map (·.hash)).nodup_iff.mp ?_
    generalize runOf _ b = run at hcb
    match run with
    | [] => simp
    | [e] => simp
    | x :: y :: rest => exact ih _ _ _ hcb

/-! ## The theorems -/

/-- **C26, presence.** From entries with different hashes of the given length (1 to 64 bytes), whatever the reassurance
length and whatever the entropies (as long as they vanish exactly where all the hashes have the same byte), a tree is
made, and every hash is found with the index it was presented with. -/
theorem tree_finds_every_hash {ent : List Entry → Nat → Nat} (he : EntropyOK ent) {l : List Entry} {hl r : Nat}
    (h1 : 1 ≤ hl) (h64 : hl ≤ 64) (hr : r ≤ hl) (hlen : ∀ e ∈ l, e.hash.length = hl) (hn : (l.map (·.hash)).Nodup) :
    ∃ t, generate ent l hl r = some t ∧ ∀ e ∈ l, lookup hl t e.hash = some e.pi := by
  obtain ⟨t, ht, hB⟩ := generate_built he h1 h64 hr hlen hn
  refine ⟨t, ht, fun e hin => ?_⟩
  unfold lookup
  rw [if_neg (by simpa using hlen e hin)]
  exact lookup_found hB e hin

/-- **C26, absence.** Looking up any hash of the right length gives 'no match' (-1) or the index of an entry which has
the query's bytes in a set of examined positions that tells it from every other entry, and also in the first `r`
positions outside that set (all of them if fewer are left). -/
theorem tree_match_is_plausible {ent : List Entry → Nat → Nat} (he : EntropyOK ent) {l : List Entry} {hl r : Nat}
    (h1 : 1 ≤ hl) (h64 : hl ≤ 64) (hr : r ≤ hl) (hlen : ∀ e ∈ l, e.hash.length = hl) (hn : (l.map (·.hash)).Nodup)
    {t : Tree} (ht : generate ent l hl r = some t) (q : Bytes) (hq : q.length = hl) :
    lookup hl t q = some (-1) ∨ ∃ e ∈ l, lookup hl t q = some e.pi ∧ ∃ examined : List Nat,
      (∀ i ∈ examined, i < hl ∧ byteAt q i = byteAt e.hash i) ∧
      (∀ e' ∈ l, e' ≠ e → ∃ i ∈ examined, byteAt e'.hash i ≠ byteAt q i) ∧
      ∀ i ∈ ((List.range hl).filter fun i => decide (i ∉ examined)).take r, byteAt q i = byteAt e.hash i := by
  obtain ⟨t', ht', hB⟩ := generate_built he h1 h64 hr hlen hn
  rw [ht'] at ht
  obtain rfl := Option.some.inj ht
  unfold lookup
  rw [if_neg (by simpa using hq)]
  rcases lookup_sound hB q with h | ⟨e, ex, h, hm⟩
  · exact .inl h
  · refine .inr ⟨e, hm.mem, h, ex, ?_, hm.others, ?_⟩
    · intro i hi
      exact ⟨by simpa [allUnused] using hm.unused i hi, hm.agree i hi⟩
    · have heq : ((List.range 64).filter fun i => allUnused hl i && decide (i ∉ ex)) =
          (List.range hl).filter fun i => decide (i ∉ ex) := by
        have : ∀ k, ((List.range (hl + k)).filter fun i => allUnused hl i && decide (i ∉ ex)) =
            (List.range hl).filter fun i => decide (i ∉ ex) := by
          intro k
          induction k with
          | zero =>
            rw [Nat.add_zero]
            apply List.filter_congr
            intro i hi
            simp [allUnused, List.mem_range.mp hi]
          | succ k ih =>
            have h0 : allUnused hl (hl + k) = false := by simp [allUnused]
            rw [← Nat.add_assoc, List.range_succ, List.filter_append, ih, List.filter_cons_of_neg (by rw [h0]; simp),
              List.filter_nil, List.append_nil]
        have := this (64 - hl)
        rwa [Nat.add_sub_cancel' h64] at this
      rw [← heq]
      exact hm.reassure

/-- **C26, duplicates.** Hashes of the right length make a tree exactly if no two are equal; otherwise the program
panics. -/
theorem tree_made_iff_no_duplicates {ent : List Entry → Nat → Nat} (he : EntropyOK ent) {l : List Entry} {hl r : Nat}
    (h1 : 1 ≤ hl) (h64 : hl ≤ 64) (hr : r ≤ hl) (hlen : ∀ e ∈ l, e.hash.length = hl) :
    (∃ t, generate ent l hl r = some t) ↔ (l.map (·.hash)).Nodup := by
  constructor
  · rintro ⟨t, ht⟩
    unfold generate at ht
    rw [if_neg (by omega), if_neg (by omega), if_neg (by
      simp only [List.any_eq_true, decide_eq_true_eq, not_exists, not_and, Decidable.not_not]
      exact hlen)] at ht
    match l, ht with
    | [], _ => simp
    | [e], _ => simp
    | x :: y :: l, ht => exact gen_nodup _ _ _ _ ht
  · intro hn
    obtain ⟨t, ht, _⟩ := generate_built he h1 h64 hr hlen hn
    exact ⟨t, ht⟩

/-! ## Examples -/

/-- An entropy that meets the assumption: the number of different byte values, less one. -/
def demoEnt (l : List Entry) (i : Nat) : Nat :=
  match l with
  | [] => 0
  | e :: es => es.countP fun x => byteAt x.hash i ≠ byteAt e.hash i

theorem demoEnt_ok : EntropyOK demoEnt := by
  intro l i
  cases l with
  | nil => simp [demoEnt]
  | cons e es =>
    simp only [demoEnt, List.countP_eq_zero]
    constructor
    · intro h x hx y hy
      have key : ∀ z ∈ e :: es, byteAt z.hash i = byteAt e.hash i := by
        intro z hz
        rcases List.mem_cons.mp hz with rfl | hz
        · rfl
        · simpa using h z hz
      rw [key x hx, key y hy]
    · intro h x hx
      simpa using h x (by simp [hx]) e (by simp)

def demoEntries : List Entry := [⟨[1, 2, 3], 10⟩, ⟨[1, 9, 3], 11⟩, ⟨[7, 2, 3], 12⟩]

example : ∃ t, generate demoEnt demoEntries 3 1 = some t ∧ ∀ e ∈ demoEntries, lookup 3 t e.hash = some e.pi :=
  tree_finds_every_hash demoEnt_ok (by omega) (by omega) (by omega) (by decide) (by decide)

/-- The tree does answer with an index for a hash that was not presented, and 'no match' for another. -/
example : ((generate demoEnt demoEntries 3 1).bind fun t => lookup 3 t [7, 2, 200]) = some 12 ∧
    ((generate demoEnt demoEntries 3 1).bind fun t => lookup 3 t [1, 8, 3]) = some (-1) := by decide +kernel

example : ¬ ∃ t, generate demoEnt [⟨[1, 2], 0⟩, ⟨[1, 2], 1⟩, ⟨[3, 4], 2⟩] 2 0 = some t := by
  rw [tree_made_iff_no_duplicates demoEnt_ok (by omega) (by omega) (by omega) (by decide)]
  decide

end Verif.ShallowTree
