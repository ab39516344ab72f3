import Verif.Model.SingleTree
import Verif.Props.ShallowTree

/-!
# Properties of the decision tree over the hashes of one prefix
-/

namespace Verif.SingleTree

open Verif.ShallowTree

/-- **Specification.** The hashes of a bucket: different, of the given length, alike in the first `pre` bytes. -/
structure Bucket (hl pre : Nat) (l : List Entry) : Prop where
  len : ∀ e ∈ l, e.hash.length = hl
  nodup : (l.map (·.hash)).Nodup
  same : ∀ i < pre, ∀ x ∈ l, ∀ y ∈ l, byteAt x.hash i = byteAt y.hash i

/-- **Specification.** What is wanted: every hash of the bucket is found. -/
def EveryHashFound (ent : List Entry → Nat → Nat) (hl pre r : Nat) (l : List Entry) : Prop :=
  ∃ t, generateSingle ent l pre hl r = some t ∧ ∀ e ∈ l, search hl pre t e.hash = some e.pi

theorem reassured_own (h : Bytes) (r : Nat) : ∀ is : List Nat, reassuredBelow h is ((is.take r).map (byteAt h)) = true := by
  intro is
  induction is generalizing r with
  | nil => simp [reassuredBelow]
  | cons i is ih =>
    cases r with
    | zero => simp [reassuredBelow]
    | succ r => rw [List.take_succ_cons, List.map_cons, reassuredBelow, if_neg (by simp)]; exact ih r

theorem search_found {r hl : Nat} {l : List Entry} {f : Flags} {t : Tree} (hB : Built r hl l f t) :
    ∀ e ∈ l, searchFrom e.hash t f = some e.pi := by
  induction hB with
  | empty => intro e he; simp at he
  | leaf =>
    intro e he
    rw [List.mem_singleton] at he
    subst he
    rw [searchFrom, reassurance, reassured_own, if_pos rfl]
  | slots runs h1 h2 h3 hp _ ih =>
    intro e he
    rw [searchFrom, if_neg (by simp [h2])]
    refine ih _ e ((hp _).symm.subset ?_)
    simp [List.mem_filter, he]

theorem check_any {l : List Entry} {hl : Nat} (hlen : ∀ e ∈ l, e.hash.length = hl) :
    ¬ l.any (fun e => decide (e.hash.length ≠ hl)) = true := by
  simp only [List.any_eq_true, decide_eq_true_eq, not_exists, not_and, Decidable.not_not]
  exact hlen

theorem single_built {ent : List Entry → Nat → Nat} (he : EntropyOK ent) {l : List Entry} {hl pre r : Nat} (h1 : 1 ≤ hl)
    (h64 : hl ≤ 64) (hp : pre ≤ hl) (hr : r ≤ hl) (hb : Bucket hl pre l) (hmany : pre = 0 ∨ l.length ≠ 1) :
    ∃ t, generateSingle ent l pre hl r = some t ∧ Built r hl l (afterPrefix hl pre) t := by
  unfold generateSingle
  rw [if_neg (by omega), if_neg (by omega), if_neg (by omega), if_neg (check_any hb.len)]
  match l, hmany with
  | [], _ => exact ⟨_, rfl, .empty⟩
  | [e], hmany =>
    have h0 : pre = 0 := by
      rcases hmany with h | h
      · exact h
      · exact absurd rfl h
    subst h0
    refine ⟨_, rfl, ?_⟩
    have : afterPrefix hl 0 = allUnused hl := by funext i; simp [afterPrefix, allUnused]
    rw [← reassurance_root (hb.len e (by simp)) h64, this]
    exact .leaf
  | x :: y :: l, _ =>
    refine gen_built he hl (x :: y :: l) (afterPrefix hl pre) ⟨hb.len, hb.nodup, ?_⟩ (by simp) ?_
    · intro i hi hf
      refine hb.same i ?_
      simp only [afterPrefix, decide_eq_false_iff_not] at hf
      omega
    · unfold unusedCount
      exact Nat.le_trans List.countP_le_length (by simp)

theorem setBits_afterPrefix {hl pre : Nat} (h64 : hl ≤ 64) (hp : pre ≤ hl) :
    setBits (afterPrefix hl pre) = List.range' pre (hl - pre) := by
  unfold setBits
  have h1 : List.range 64 = List.range' 0 pre ++ (List.range' pre (hl - pre) ++ List.range' hl (64 - hl)) := by
    have e1 := List.range'_append_1 (s := pre) (m := hl - pre) (n := 64 - hl)
    have e2 := List.range'_append_1 (s := 0) (m := pre) (n := hl - pre + (64 - hl))
    rw [show pre + (hl - pre) = hl by omega] at e1
    rw [Nat.zero_add, ← e1, show pre + (hl - pre + (64 - hl)) = 64 by omega] at e2
    rw [List.range_eq_range', e2]
  rw [h1, List.filter_append, List.filter_append]
  have e1 : (List.range' 0 pre).filter (afterPrefix hl pre) = [] := by
    rw [List.filter_eq_nil_iff]
    intro i hi
    rw [List.mem_range'_1] at hi
    simp [afterPrefix]
    omega
  have e2 : (List.range' hl (64 - hl)).filter (afterPrefix hl pre) = [] := by
    rw [List.filter_eq_nil_iff]
    intro i hi
    rw [List.mem_range'_1] at hi
    simp [afterPrefix]
    omega
  have e3 : (List.range' pre (hl - pre)).filter (afterPrefix hl pre) = List.range' pre (hl - pre) := by
    rw [List.filter_eq_self]
    intro i hi
    rw [List.mem_range'_1] at hi
    simp [afterPrefix]
    omega
  rw [e1, e2, e3]
  simp

theorem reassured_iff (h : Bytes) : ∀ (vs : Bytes) (s n : Nat), reassuredBelow h (List.range' s n) vs = true ↔
    ∀ i, i < n → i < vs.length → byteAt h (s + i) = byteAt vs i := by
  intro vs
  induction vs with
  | nil => intro s n; cases n <;> simp [reassuredBelow, List.range']
  | cons v vs ih =>
    intro s n
    cases n with
    | zero => simp [reassuredBelow]
    | succ n =>
      rw [List.range'_succ, reassuredBelow]
      constructor
      · intro hh i hi hi'
        by_cases hv : byteAt h s = v
        · rw [if_neg (by simpa using hv)] at hh
          cases i with
          | zero => simpa [byteAt] using hv
          | succ i =>
            have := (ih (s + 1) n).mp hh i (by omega) (by simpa using hi')
            rw [show s + (i + 1) = s + 1 + i by omega, this]
            simp [byteAt]
        · rw [if_pos hv] at hh; simp at hh
      · intro hall
        have hv : byteAt h s = v := by simpa [byteAt] using hall 0 (by omega) (by simp)
        rw [if_neg (by simpa using hv), ih]
        intro i hi hi'
        have := hall (i + 1) (by omega) (by simpa using hi')
        rw [show s + 1 + i = s + (i + 1) by omega, this]
        simp [byteAt]

/-! ## The theorems -/

/-- **C33: partial.** Every hash is found, if the bucket has no hashes or at least two, or if there is no prefix (as in
the first tier below the top). Missing: buckets of one hash (see `lone_hash_found_iff`); and this is about the tree, the
bytes it is stored as being a matter of their own. -/
theorem bucket_finds_every_hash_partial {ent : List Entry → Nat → Nat} (he : EntropyOK ent) {l : List Entry}
    {hl pre r : Nat} (h1 : 1 ≤ hl) (h64 : hl ≤ 64) (hp : pre ≤ hl) (hr : r ≤ hl) (hb : Bucket hl pre l)
    (hmany : pre = 0 ∨ l.length ≠ 1) : EveryHashFound ent hl pre r l := by
  obtain ⟨t, ht, hB⟩ := single_built he h1 h64 hp hr hb hmany
  exact ⟨t, ht, search_found hB⟩

/-- **C33 fails.** A hash alone in its bucket is found exactly if its bytes after the prefix, as many as there are
reassurance bytes, are the same as its first bytes: at a leaf made for a lone hash the reassurance bytes are taken from
the start of the hash, but compared with the bytes after the prefix. -/
theorem lone_hash_found_iff (ent : List Entry → Nat → Nat) {e : Entry} {hl pre r : Nat} (h1 : 1 ≤ hl) (h64 : hl ≤ 64)
    (hp : pre ≤ hl) (hr : r ≤ hl) (hlen : e.hash.length = hl) (hpi : e.pi ≠ 0) :
    EveryHashFound ent hl pre r [e] ↔ ∀ i, i < r → pre + i < hl → byteAt e.hash (pre + i) = byteAt e.hash i := by
  have hgen : generateSingle ent [e] pre hl r = some (.leaf (e.hash.take r) e.pi) := by
    unfold generateSingle
    rw [if_neg (by omega), if_neg (by omega), if_neg (by omega), if_neg (check_any (by simpa using hlen))]
  have hiff := reassured_iff e.hash (e.hash.take r) pre (hl - pre)
  have htake : ∀ i, i < r → byteAt (e.hash.take r) i = byteAt e.hash i := by
    intro i hi
    simp [byteAt, List.getD, hi]
  have hl2 : (e.hash.take r).length = r := by rw [List.length_take]; omega
  unfold EveryHashFound
  rw [hgen]
  constructor
  · rintro ⟨t, ht, hall⟩ i hi hi'
    obtain rfl := Option.some.inj ht
    have := hall e (by simp)
    rw [search, searchFrom, setBits_afterPrefix h64 hp] at this
    by_cases hre : reassuredBelow e.hash (List.range' pre (hl - pre)) (e.hash.take r) = true
    · have := hiff.mp hre i (by omega) (by omega)
      rw [this, htake i hi]
    · rw [if_neg hre] at this
      exact absurd (Option.some.inj this).symm hpi
  · intro hall
    refine ⟨_, rfl, ?_⟩
    intro e' he'
    rw [List.mem_singleton] at he'
    subst he'
    rw [search, searchFrom, setBits_afterPrefix h64 hp, if_pos]
    rw [hiff]
    intro i hi hi'
    rw [hall i (by omega) (by omega), htake i (by omega)]

/-- A lone hash whose bytes are all different is never found, for any prefix and any reassurance bytes. -/
theorem lone_hash_lost (ent : List Entry → Nat → Nat) {e : Entry} {hl pre r : Nat} (h64 : hl ≤ 64) (hp0 : 0 < pre)
    (hp : pre < hl) (hr0 : 0 < r) (hr : r ≤ hl) (hlen : e.hash.length = hl) (hpi : e.pi ≠ 0)
    (hdiff : byteAt e.hash pre ≠ byteAt e.hash 0) : ¬ EveryHashFound ent hl pre r [e] := by
  rw [lone_hash_found_iff ent (by omega) h64 (by omega) hr hlen hpi]
  intro h
  exact hdiff (by simpa using h 0 hr0 (by omega))

/-! ## Examples -/

example : Bucket 3 1 [⟨[7, 2, 3], 5⟩, ⟨[7, 2, 4], 6⟩, ⟨[7, 9, 4], 9⟩] := ⟨by decide, by decide, by
  intro i hi
  have : i = 0 := by omega
  subst this
  decide⟩

example : EveryHashFound demoEnt 3 1 2 [⟨[7, 2, 3], 5⟩, ⟨[7, 2, 4], 6⟩, ⟨[7, 9, 4], 9⟩] :=
  bucket_finds_every_hash_partial demoEnt_ok (by omega) (by omega) (by omega) (by omega) ⟨by decide, by decide, by
    intro i hi
    have : i = 0 := by omega
    subst this
    decide⟩ (by decide)

/-- The hash 7, 2, 3 alone behind the prefix 7, with one reassurance byte. -/
example : ¬ EveryHashFound demoEnt 3 1 1 [⟨[7, 2, 3], 5⟩] :=
  lone_hash_lost demoEnt (by omega) (by omega) (by omega) (by omega) (by omega) rfl (by decide) (by decide)

example : EveryHashFound demoEnt 3 1 1 [⟨[7, 7, 3], 5⟩] :=
  (lone_hash_found_iff demoEnt (hl := 3) (pre := 1) (r := 1) (by omega) (by omega) (by omega) (by omega) rfl (by decide)).mpr (by
    intro i hi _
    have : i = 0 := by omega
    subst this
    decide)

end Verif.SingleTree
