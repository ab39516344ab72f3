import Verif.Model.HashTreeFile
import Verif.Lemmas.Bytes
import Verif.Lemmas.ShallowTree

/-!
# Lemmas about the formats of nodes
-/

namespace Verif.HashTree

open Verif.ShallowTree (allBytes mem_allBytes allBytes_length)

/-! ## Words -/

theorem word_length (v : Nat) : (word v).length = 2 := leEnc_length 2 v

theorem readWord_at {E pre post : Bytes} {v i : Nat} (hv : v < 65536) (h : E = pre ++ word v ++ post) (hi : i = pre.length) :
    readWord (fun i => E[i]?) i = some v := by
  have hw : word v = [UInt8.ofNat (v % 256), UInt8.ofNat (v / 256 % 256)] := rfl
  subst hi
  have h0 : E[pre.length]? = some (UInt8.ofNat (v % 256)) := by
    rw [h, List.append_assoc, List.getElem?_append_right (by omega), hw]
    simp
  have h1 : E[pre.length + 1]? = some (UInt8.ofNat (v / 256 % 256)) := by
    rw [h, List.append_assoc, List.getElem?_append_right (by omega), hw]
    simp
  unfold readWord
  simp only [h0, h1]
  congr 1
  rw [UInt8.toNat_ofNat', UInt8.toNat_ofNat']
  omega

theorem range_flatMap_getElem (g : UInt8 × Nat → Bytes) (z : Bytes) : ∀ (items : List (UInt8 × Nat)) (k : Nat),
    ((List.range (items.length + k)).flatMap fun i => itemOr g z items[i]?) =
      items.flatMap g ++ (List.replicate k z).flatten := by
  intro items
  induction items with
  | nil =>
    intro k
    simp only [List.length_nil, Nat.zero_add, List.getElem?_nil, List.flatMap_nil, List.nil_append, itemOr]
    induction k with
    | zero => rfl
    | succ k ih => rw [List.range_succ, List.flatMap_append, ih, List.replicate_succ']; simp
  | cons x xs ih =>
    intro k
    have : (x :: xs).length + k = (xs.length + k) + 1 := by simp; omega
    rw [this, List.range_succ_eq_map, List.flatMap_cons, List.flatMap_cons]
    rw [List.getElem?_cons_zero, List.flatMap_map]
    change g x ++ _ = _
    simp only [Nat.succ_eq_add_one, List.getElem?_cons_succ]
    rw [ih k, List.append_assoc]

/-! ## The items of a node -/

/-- The byte values with something in their slot. -/
def keys (old : UInt8 → Nat) : List UInt8 := allBytes.filter fun b => decide (old b ≠ 0)

theorem nonZero_eq (old lk : UInt8 → Nat) : nonZero old lk = (keys old).map fun b => (b, lk b) := rfl

theorem keys_length (old : UInt8 → Nat) : (keys old).length = used old := by
  unfold keys used
  rw [List.countP_eq_length_filter]

theorem mem_keys {old : UInt8 → Nat} {b : UInt8} : b ∈ keys old ↔ old b ≠ 0 := by
  unfold keys
  rw [List.mem_filter]
  simp [mem_allBytes]

theorem foldl_put (lk : UInt8 → Nat) : ∀ (bs : List UInt8) (acc : UInt8 → Nat) (c : UInt8),
    (bs.foldl (fun a b => put a b (lk b)) acc) c = if c ∈ bs then lk c else acc c := by
  intro bs
  induction bs with
  | nil => intro acc c; simp
  | cons b bs ih =>
    intro acc c
    rw [List.foldl_cons, ih]
    by_cases hc : c ∈ bs
    · simp [hc]
    · by_cases hb : c = b
      · subst hb; simp [hc, put]
      · simp [hc, hb, put]

/-! ## Tiny nodes -/

theorem readTiny_items {E : Bytes} : ∀ (items : List (UInt8 × Nat)), (∀ it ∈ items, it.2 < 65536) → ∀ (i : Nat)
    (acc : UInt8 → Nat) (pre post : Bytes), E = pre ++ (items.flatMap fun it => it.1 :: word it.2) ++ post →
    pre.length = 1 + i * 3 →
    readTiny (fun i => E[i]?) items.length i acc = some (items.foldl (fun a it => put a it.1 it.2) acc) := by
  intro items
  induction items with
  | nil => intro _ i acc pre post _ _; rfl
  | cons it items ih =>
    intro hv i acc pre post hE hp
    rw [List.flatMap_cons] at hE
    rw [List.length_cons, readTiny]
    have h0 : E[1 + i * 3]? = some it.1 := by
      rw [← hp, hE, List.append_assoc, List.getElem?_append_right (by omega)]
      simp
    have h1 : readWord (fun i => E[i]?) (1 + i * 3 + 1) = some it.2 := by
      refine readWord_at (hv it (by simp)) (pre := pre ++ [it.1])
        (post := (items.flatMap fun it => it.1 :: word it.2) ++ post) ?_ (by simp [hp])
      rw [hE]; simp
    simp only [h0, h1]
    rw [ih (fun it h => hv it (by simp [h])) (i + 1) (put acc it.1 it.2) (pre ++ it.1 :: word it.2) post (by rw [hE]; simp) (by
      rw [List.length_append, List.length_cons, word_length]; omega)]
    rfl

theorem put_zero_zero (acc : UInt8 → Nat) : ∀ k, ((List.replicate k ((0 : UInt8), 0)).foldl (fun a it => put a it.1 it.2) acc) =
    if k = 0 then acc else put acc 0 0 := by
  intro k
  induction k generalizing acc with
  | zero => rfl
  | succ k ih =>
    rw [List.replicate_succ, List.foldl_cons, ih, if_neg (Nat.succ_ne_zero k)]
    by_cases hk : k = 0
    · rw [if_pos hk]
    · rw [if_neg hk]
      funext c
      simp only [put]
      split <;> rfl

/-! ## Full nodes -/

theorem allBytes_getElem (b : UInt8) : allBytes[b.toNat]? = some b := by
  unfold allBytes
  rw [List.getElem?_map, List.getElem?_range b.toNat_lt]
  simp

theorem flatMap_word_length (lk : UInt8 → Nat) : ∀ bs : List UInt8, (bs.flatMap fun b => word (lk b)).length = 2 * bs.length := by
  intro bs
  induction bs with
  | nil => rfl
  | cons b bs ih => rw [List.flatMap_cons, List.length_append, ih, word_length, List.length_cons]; omega

theorem readFull_all {E post : Bytes} {hb : UInt8} (lk : UInt8 → Nat) (hv : ∀ b, lk b < 65536)
    (hE : E = (hb :: allBytes.flatMap fun b => word (lk b)) ++ post) : ∀ (bs : List UInt8) (acc : UInt8 → Nat),
    readFull (fun i => E[i]?) bs acc = some (bs.foldl (fun a b => put a b (lk b)) acc) := by
  intro bs
  induction bs with
  | nil => intro acc; rfl
  | cons b bs ih =>
    intro acc
    have hlt : b.toNat < allBytes.length := by rw [allBytes_length]; exact b.toNat_lt
    have hget : allBytes[b.toNat] = b := by
      have := allBytes_getElem b
      rw [List.getElem?_eq_getElem hlt] at this
      exact Option.some.inj this
    have h1 : readWord (fun i => E[i]?) (1 + b.toNat * 2) = some (lk b) := by
      refine readWord_at (hv b) (pre := hb :: (allBytes.take b.toNat).flatMap fun b => word (lk b))
        (post := ((allBytes.drop (b.toNat + 1)).flatMap fun b => word (lk b)) ++ post) ?_ ?_
      · rw [hE]
        conv_lhs => rw [← List.take_append_drop b.toNat allBytes, List.drop_eq_getElem_cons hlt, hget]
        rw [List.flatMap_append, List.flatMap_cons]
        simp
      · rw [List.length_cons, flatMap_word_length, List.length_take]; omega
    rw [readFull]
    simp only [h1]
    rw [ih]
    rfl

/-! ## The flags of a medium node -/

/-- The flag of a byte value. -/
def flagAt (fl : Bytes) (v : Nat) : Bool := decide ((fl.getD (v / 8) 0) &&& ((1 : UInt8) <<< UInt8.ofNat (v % 8)) ≠ 0)

theorem bit_or : ∀ x < 256, ∀ k < 8, ∀ j < 8,
    decide ((UInt8.ofNat x ||| ((1 : UInt8) <<< UInt8.ofNat k)) &&& ((1 : UInt8) <<< UInt8.ofNat j) ≠ 0) =
      (decide (UInt8.ofNat x &&& ((1 : UInt8) <<< UInt8.ofNat j) ≠ 0) || decide (k = j)) := by decide +kernel

theorem bit_index : ∀ x < 256, (((UInt8.ofNat x) &&& (0xF8 : UInt8)) >>> (3 : UInt8)).toNat = x / 8 ∧
    (UInt8.ofNat x) &&& (0x07 : UInt8) = UInt8.ofNat (x % 8) := by decide +kernel

theorem flagAt_fold : ∀ (items : List (UInt8 × Nat)) (bits : Bytes), bits.length = 32 →
    (items.foldl (fun (bits : Bytes) (it : UInt8 × Nat) =>
      let byteIndex : UInt8 := (it.1 &&& (0xF8 : UInt8)) >>> (3 : UInt8)
      let bitIndex : UInt8 := it.1 &&& 0x07
      bits.set byteIndex.toNat (bits.getD byteIndex.toNat 0 ||| ((1 : UInt8) <<< bitIndex))) bits).length = 32 ∧
    ∀ b : UInt8, flagAt (items.foldl (fun (bits : Bytes) (it : UInt8 × Nat) =>
      let byteIndex : UInt8 := (it.1 &&& (0xF8 : UInt8)) >>> (3 : UInt8)
      let bitIndex : UInt8 := it.1 &&& 0x07
      bits.set byteIndex.toNat (bits.getD byteIndex.toNat 0 ||| ((1 : UInt8) <<< bitIndex))) bits) b.toNat =
      (flagAt bits b.toNat || decide (b ∈ items.map (·.1))) := by
  intro items
  induction items with
  | nil => intro bits h; simp [h]
  | cons it items ih =>
    intro bits h
    rw [List.foldl_cons]
    obtain ⟨i1, i2⟩ := bit_index it.1.toNat it.1.toNat_lt
    rw [UInt8.ofNat_toNat] at i1 i2
    dsimp only
    rw [i1, i2]
    obtain ⟨h1, h2⟩ := ih (bits.set (it.1.toNat / 8)
      (bits.getD (it.1.toNat / 8) 0 ||| ((1 : UInt8) <<< UInt8.ofNat (it.1.toNat % 8)))) (by simpa using h)
    refine ⟨h1, fun b => ?_⟩
    rw [h2 b]
    have key : flagAt (bits.set (it.1.toNat / 8)
        (bits.getD (it.1.toNat / 8) 0 ||| ((1 : UInt8) <<< UInt8.ofNat (it.1.toNat % 8)))) b.toNat =
        (flagAt bits b.toNat || decide (b = it.1)) := by
      unfold flagAt
      have hb := b.toNat_lt
      have hi := it.1.toNat_lt
      have heq : b = it.1 ↔ b.toNat = it.1.toNat := UInt8.toNat_inj.symm
      by_cases hd : b.toNat / 8 = it.1.toNat / 8
      · have hg : (bits.set (it.1.toNat / 8)
            (bits.getD (it.1.toNat / 8) 0 ||| ((1 : UInt8) <<< UInt8.ofNat (it.1.toNat % 8)))).getD (b.toNat / 8) 0 =
            bits.getD (b.toNat / 8) 0 ||| ((1 : UInt8) <<< UInt8.ofNat (it.1.toNat % 8)) := by
          rw [hd]
          have : it.1.toNat / 8 < bits.length := by omega
          simp [List.getD, List.getElem?_set, this]
        rw [hg]
        have := bit_or (bits.getD (b.toNat / 8) 0).toNat (UInt8.toNat_lt _) (it.1.toNat % 8) (by omega) (b.toNat % 8) (by omega)
        rw [UInt8.ofNat_toNat] at this
        rw [this]
        congr 1
        rw [decide_eq_decide, heq]
        omega
      · have hg : (bits.set (it.1.toNat / 8)
            (bits.getD (it.1.toNat / 8) 0 ||| ((1 : UInt8) <<< UInt8.ofNat (it.1.toNat % 8)))).getD (b.toNat / 8) 0 =
            bits.getD (b.toNat / 8) 0 := by
          simp [List.getD, Ne.symm hd]
        rw [hg]
        have : ¬ b = it.1 := by rw [heq]; omega
        simp [this]
    rw [key, List.map_cons, Bool.or_assoc]
    congr 1
    by_cases hbi : b = it.1 <;> simp [hbi]

theorem flagBytes_length (items : List (UInt8 × Nat)) : (flagBytes items).length = 32 := (flagAt_fold items (zeros 32) (by simp)).1

theorem zeros_flag (v : Nat) : flagAt (zeros 32) v = false := by
  unfold flagAt zeros
  have : (List.replicate 32 (0 : UInt8)).getD (v / 8) 0 = 0 := by
    rw [List.getD_eq_getElem?_getD, List.getElem?_replicate]
    split <;> rfl
  rw [this]
  simp

theorem flagBytes_flag (items : List (UInt8 × Nat)) (b : UInt8) :
    flagAt (flagBytes items) b.toNat = decide (b ∈ items.map (·.1)) := by
  have := (flagAt_fold items (zeros 32) (by simp)).2 b
  rw [zeros_flag, Bool.false_or] at this
  exact this

/-! ## Medium nodes -/

/-- The byte values from `v` on with something in their slot. -/
def keysFrom (old : UInt8 → Nat) (v : Nat) : List UInt8 := (allBytes.drop v).filter fun b => decide (old b ≠ 0)

theorem keysFrom_step (old : UInt8 → Nat) {v : Nat} (hv : v < 256) :
    keysFrom old v = if old (UInt8.ofNat v) ≠ 0 then UInt8.ofNat v :: keysFrom old (v + 1) else keysFrom old (v + 1) := by
  unfold keysFrom
  have hlt : v < allBytes.length := by rw [allBytes_length]; exact hv
  have hget : allBytes[v] = UInt8.ofNat v := by simp [allBytes]
  rw [List.drop_eq_getElem_cons hlt, hget, List.filter_cons]
  simp

/-- The state of reading a medium node: the slots below `v` are read, the words of the others are to come. -/
structure Reading (E : Bytes) (old lk : UInt8 → Nat) (v off : Nat) (acc : UInt8 → Nat) : Prop where
  rest : ∃ pre post, E = pre ++ ((keysFrom old v).flatMap fun b => word (lk b)) ++ post ∧ pre.length = off
  done : ∀ c : UInt8, acc c = if c.toNat < v ∧ old c ≠ 0 then lk c else 0

theorem Reading.skip {E : Bytes} {old lk : UInt8 → Nat} {v off : Nat} {acc : UInt8 → Nat} (h : Reading E old lk v off acc)
    (hv : v < 256) (h0 : old (UInt8.ofNat v) = 0) : Reading E old lk (v + 1) off acc := by
  obtain ⟨⟨pre, post, hE, hp⟩, hd⟩ := h
  rw [keysFrom_step old hv, if_neg (by simpa using h0)] at hE
  refine ⟨⟨pre, post, hE, hp⟩, fun c => ?_⟩
  rw [hd c]
  have hnat : (UInt8.ofNat v).toNat = v := by rw [UInt8.toNat_ofNat']; omega
  by_cases hc : c = UInt8.ofNat v
  · subst hc
    simp [h0]
  · have : c.toNat ≠ v := by
      intro h; apply hc; rw [← UInt8.toNat_inj, hnat, h]
    have : c.toNat < v ↔ c.toNat < v + 1 := by omega
    simp only [this]

theorem Reading.take {E : Bytes} {old lk : UInt8 → Nat} {v off : Nat} {acc : UInt8 → Nat} (h : Reading E old lk v off acc)
    (hv : v < 256) (h0 : old (UInt8.ofNat v) ≠ 0) (hlk : ∀ b, lk b < 65536) :
    readWord (fun i => E[i]?) off = some (lk (UInt8.ofNat v)) ∧
    Reading E old lk (v + 1) (off + 2) (put acc (UInt8.ofNat v) (lk (UInt8.ofNat v))) := by
  obtain ⟨⟨pre, post, hE, hp⟩, hd⟩ := h
  rw [keysFrom_step old hv, if_pos h0, List.flatMap_cons] at hE
  have hnat : (UInt8.ofNat v).toNat = v := by rw [UInt8.toNat_ofNat']; omega
  refine ⟨readWord_at (hlk _) (pre := pre) (post := ((keysFrom old (v + 1)).flatMap fun b => word (lk b)) ++ post)
    (by rw [hE]; simp) hp.symm, ⟨pre ++ word (lk (UInt8.ofNat v)), post, by rw [hE]; simp, by
      rw [List.length_append, word_length, hp]⟩, fun c => ?_⟩
  by_cases hc : c = UInt8.ofNat v
  · subst hc
    simp [put, h0, hnat]
  · have : c.toNat ≠ v := by
      intro h; apply hc; rw [← UInt8.toNat_inj, hnat, h]
    have : c.toNat < v ↔ c.toNat < v + 1 := by omega
    simp only [put, if_neg hc, hd c, this]

theorem readFlags_reading {E : Bytes} {old lk : UInt8 → Nat} (hlk : ∀ b, lk b < 65536) {fb : UInt8} {i : Nat} (hi : i < 32)
    (hfb : ∀ j < 8, (fb &&& ((1 : UInt8) <<< UInt8.ofNat j) ≠ 0 ↔ old (UInt8.ofNat (8 * i + j)) ≠ 0)) :
    ∀ (n j off : Nat) (acc : UInt8 → Nat), n + j = 8 → Reading E old lk (8 * i + j) off acc →
      ∃ off' acc', readFlags (fun i => E[i]?) fb n j (8 * i + j) off acc = some (off', acc') ∧
        Reading E old lk (8 * (i + 1)) off' acc' := by
  intro n
  induction n with
  | zero =>
    intro j off acc hj hR
    refine ⟨off, acc, rfl, ?_⟩
    have : 8 * (i + 1) = 8 * i + j := by omega
    rw [this]; exact hR
  | succ n ih =>
    intro j off acc hj hR
    rw [readFlags]
    by_cases hb : fb &&& ((1 : UInt8) <<< UInt8.ofNat j) ≠ 0
    · rw [if_pos hb]
      obtain ⟨h1, h2⟩ := hR.take (by omega) ((hfb j (by omega)).mp hb) hlk
      simp only [h1]
      exact ih (j + 1) (off + 2) _ (by omega) h2
    · rw [if_neg hb]
      have h0 : old (UInt8.ofNat (8 * i + j)) = 0 := by
        by_contra h
        exact hb ((hfb j (by omega)).mpr h)
      exact ih (j + 1) off acc (by omega) (hR.skip (by omega) h0)

theorem Reading.skip8 {E : Bytes} {old lk : UInt8 → Nat} {i off : Nat} {acc : UInt8 → Nat} (hi : i < 32)
    (h : Reading E old lk (8 * i) off acc) (h0 : ∀ j < 8, old (UInt8.ofNat (8 * i + j)) = 0) :
    Reading E old lk (8 * (i + 1)) off acc := by
  have key : ∀ k, k ≤ 8 → Reading E old lk (8 * i + k) off acc := by
    intro k
    induction k with
    | zero => intro _; exact h
    | succ k ih => intro hk; exact (ih (by omega)).skip (by omega) (h0 k (by omega))
  exact key 8 (by omega)

theorem readMedium_reading {E : Bytes} {old lk : UInt8 → Nat} (hlk : ∀ b, lk b < 65536) {fl : Bytes} (hfl : fl.length = 32)
    (hE : ∀ i < 32, E[1 + i]? = fl[i]?) (hflag : ∀ b : UInt8, flagAt fl b.toNat = decide (old b ≠ 0)) :
    ∀ (n i off : Nat) (acc : UInt8 → Nat), n + i = 32 → Reading E old lk (8 * i) off acc →
      ∃ off' acc', readMedium (fun i => E[i]?) n i off acc = some acc' ∧ Reading E old lk 256 off' acc' := by
  intro n
  induction n with
  | zero =>
    intro i off acc hi hR
    have : i = 32 := by omega
    subst this
    exact ⟨off, acc, rfl, hR⟩
  | succ n ih =>
    intro i off acc hi hR
    have hlt : i < fl.length := by omega
    have hg : E[1 + i]? = some fl[i] := by rw [hE i (by omega), List.getElem?_eq_getElem hlt]
    rw [readMedium]
    simp only [hg]
    have hbits : ∀ j < 8, (fl[i] &&& ((1 : UInt8) <<< UInt8.ofNat j) ≠ 0 ↔ old (UInt8.ofNat (8 * i + j)) ≠ 0) := by
      intro j hj
      have h1 := hflag (UInt8.ofNat (8 * i + j))
      have hnat : (UInt8.ofNat (8 * i + j)).toNat = 8 * i + j := by rw [UInt8.toNat_ofNat']; omega
      unfold flagAt at h1
      rw [hnat, decide_eq_decide] at h1
      have h2 : (8 * i + j) / 8 = i := by omega
      have h3 : (8 * i + j) % 8 = j := by omega
      rw [h2, h3] at h1
      have h4 : fl.getD i 0 = fl[i] := by simp [List.getD, List.getElem?_eq_getElem hlt]
      rw [h4] at h1
      exact h1
    by_cases hz : fl[i] = 0
    · rw [if_pos hz]
      refine ih (i + 1) off acc (by omega) (hR.skip8 (by omega) fun j hj => ?_)
      by_contra h
      have := (hbits j hj).mpr h
      rw [hz] at this
      simp at this
    · rw [if_neg hz]
      obtain ⟨off', acc', h1, h2⟩ := readFlags_reading hlk (by omega) hbits 8 0 off acc rfl hR
      simp only [Nat.add_zero] at h1
      simp only [h1]
      exact ih (i + 1) off' acc' (by omega) h2

/-! ## All formats -/

theorem decode_congr {rd rd' : Nat → Option UInt8} (s : Spec) (h : rd = rd') : decode rd s = decode rd' s := by rw [h]

/-- The size of a spec is what its format says. -/
def SizeOK (s : Spec) : Prop := s = newSpec s.level s.format s.size

theorem const_flatMap_length (n : Nat) (g : Nat → Bytes) (k : Nat) (h : ∀ i, (g i).length = k) :
    ((List.range n).flatMap g).length = n * k := by
  induction n with
  | zero => simp
  | succ n ih => rw [List.range_succ, List.flatMap_append, List.length_append, ih]; simp [h, Nat.add_mul]

theorem encode_length {s : Spec} (hs : SizeOK s) (n : Node) (lk : UInt8 → Nat) : (encode s n lk).length = s.bytes := by
  obtain ⟨level, format, size, bytes⟩ := s
  unfold SizeOK newSpec at hs
  dsimp only at hs
  injection hs with _ _ _ hb
  cases format with
  | tiny =>
    unfold encode
    dsimp only at hb ⊢
    rw [List.length_cons, const_flatMap_length size _ 3 (by intro i; unfold itemOr; split <;> simp [word_length]), hb]
    omega
  | medium =>
    unfold encode
    dsimp only at hb ⊢
    rw [List.length_append, List.length_cons, flagBytes_length,
      const_flatMap_length size _ 2 (by intro i; unfold itemOr; split <;> simp [word_length]), hb]
  | full =>
    unfold encode
    dsimp only at hb ⊢
    rw [List.length_cons, flatMap_word_length, allBytes_length, hb]
  | duplicate =>
    unfold encode
    dsimp only at hb ⊢
    rw [word_length, hb]

/-- A node that is not a duplicate comes back as it was written if its format has room for it, but that the padding of a
tiny node clears slot 0. -/
theorem decode_encode_slots {s : Spec} {n : Node} {lk : UInt8 → Nat} (hlk : ∀ b, lk b < 65536) (hh : n.hbi < 32)
    (hz : ∀ b, n.lookups b = 0 → lk b = 0) (hf : s.format ≠ .duplicate) (hm : used n.lookups ≤ s.size) (post : Bytes) :
    decode (fun i => (encode s n lk ++ post)[i]?) s =
      some (.slots n.hbi (if s.format = .tiny ∧ used n.lookups < s.size then put lk 0 0 else lk)) := by
  have hnat : (UInt8.ofNat n.hbi).toNat = n.hbi := by rw [UInt8.toNat_ofNat']; omega
  obtain ⟨k, hk⟩ : ∃ k, s.size = (nonZero n.lookups lk).length + k :=
    ⟨s.size - used n.lookups, by rw [nonZero_eq, List.length_map, keys_length]; omega⟩
  have hk' : s.size = used n.lookups + k := by rw [hk, nonZero_eq, List.length_map, keys_length]
  have hfold : (keys n.lookups).foldl (fun a b => put a b (lk b)) noLookups = lk := by
    funext c
    rw [foldl_put]
    by_cases hc : c ∈ keys n.lookups
    · rw [if_pos hc]
    · rw [if_neg hc]
      rw [mem_keys, Decidable.not_not] at hc
      rw [hz c hc]; rfl
  match hfmt : s.format with
  | .duplicate => exact absurd hfmt hf
  | .tiny =>
    have hpad : (List.replicate k (zeros 3)).flatten =
        (List.replicate k ((0 : UInt8), 0)).flatMap fun it => it.1 :: word it.2 := by
      rw [List.flatMap_def, List.map_replicate]
      rfl
    have hE : encode s n lk ++ post = [UInt8.ofNat n.hbi] ++
        ((nonZero n.lookups lk ++ List.replicate k ((0 : UInt8), 0)).flatMap fun it : UInt8 × Nat => it.1 :: word it.2) ++ post := by
      unfold encode
      rw [hfmt]
      dsimp only
      rw [hk, range_flatMap_getElem (fun it : UInt8 × Nat => it.1 :: word it.2) (zeros 3), hpad, List.flatMap_append]
      simp
    have h1 := readTiny_items (nonZero n.lookups lk ++ List.replicate k ((0 : UInt8), 0)) (by
      intro it hit
      rw [List.mem_append] at hit
      rcases hit with hit | hit
      · rw [nonZero_eq, List.mem_map] at hit
        obtain ⟨b, _, rfl⟩ := hit
        exact hlk b
      · rw [(List.mem_replicate.mp hit).2]
        omega) 0 noLookups _ _ hE rfl
    rw [List.length_append, List.length_replicate, ← hk, List.foldl_append, put_zero_zero, nonZero_eq, List.foldl_map] at h1
    unfold decode
    rw [hfmt]
    dsimp only
    rw [h1, hfold]
    have h0 : (encode s n lk ++ post)[0]? = some (UInt8.ofNat n.hbi) := by rw [hE]; rfl
    simp only [h0]
    rw [hnat]
    by_cases hk0 : k = 0
    · rw [if_pos hk0, if_neg (by omega)]
    · rw [if_neg hk0, if_pos ⟨trivial, by omega⟩]
  | .medium =>
    have hE : encode s n lk ++ post = (UInt8.ofNat n.hbi :: flagBytes (nonZero n.lookups lk)) ++
        ((keys n.lookups).flatMap fun b => word (lk b)) ++ ((List.replicate k (zeros 2)).flatten ++ post) := by
      unfold encode
      rw [hfmt]
      dsimp only
      rw [hk, range_flatMap_getElem (fun it : UInt8 × Nat => word it.2) (zeros 2)]
      conv_lhs => arg 1; arg 2; rw [nonZero_eq, List.flatMap_map]
      simp
    have hfl := flagBytes_length (nonZero n.lookups lk)
    have hR : Reading (encode s n lk ++ post) n.lookups lk (8 * 0) 33 noLookups := by
      refine ⟨⟨_, _, hE, by rw [List.length_cons, hfl]⟩, fun c => ?_⟩
      simp [noLookups]
    obtain ⟨off', acc', h1, h2⟩ := readMedium_reading hlk hfl (E := encode s n lk ++ post) (by
      intro i hi
      rw [hE, List.append_assoc, List.getElem?_append_left (by rw [List.length_cons, hfl]; omega), Nat.add_comm 1 i,
        List.getElem?_cons_succ]) (by
      intro b
      rw [flagBytes_flag, decide_eq_decide, nonZero_eq, List.map_map]
      have : List.map ((fun x : UInt8 × Nat => x.1) ∘ fun b => (b, lk b)) (keys n.lookups) = keys n.lookups :=
        List.map_id (keys n.lookups)
      rw [this, mem_keys]) 32 0 33 noLookups rfl hR
    have hacc : acc' = lk := by
      funext c
      rw [h2.done c]
      by_cases hc : n.lookups c = 0
      · rw [if_neg (by simp [hc]), hz c hc]
      · rw [if_pos ⟨c.toNat_lt, hc⟩]
    unfold decode
    rw [hfmt]
    dsimp only
    rw [h1, hacc]
    have h0 : (encode s n lk ++ post)[0]? = some (UInt8.ofNat n.hbi) := by rw [hE]; rfl
    simp only [h0]
    rw [hnat, if_neg (by simp)]
  | .full =>
    have hE : encode s n lk ++ post = (UInt8.ofNat n.hbi :: allBytes.flatMap fun b => word (lk b)) ++ post := by
      unfold encode
      rw [hfmt]
    have h1 := readFull_all lk hlk hE allBytes noLookups
    have hall : allBytes.foldl (fun a b => put a b (lk b)) noLookups = lk := by
      funext c
      rw [foldl_put, if_pos (mem_allBytes c)]
    unfold decode
    rw [hfmt]
    dsimp only
    rw [h1, hall]
    have h0 : (encode s n lk ++ post)[0]? = some (UInt8.ofNat n.hbi) := by rw [hE]; rfl
    simp only [h0]
    rw [hnat, if_neg (by simp)]

theorem decode_encode_dup {s : Spec} {n : Node} {lk : UInt8 → Nat} (hlk : lk 0 < 65536) (hf : s.format = .duplicate)
    (post : Bytes) : decode (fun i => (encode s n lk ++ post)[i]?) s = some (.dup (lk 0)) := by
  unfold decode
  rw [hf]
  dsimp only
  have := readWord_at (E := encode s n lk ++ post) (pre := []) (post := post) (i := 0) hlk (by unfold encode; rw [hf]; simp) rfl
  rw [this]
  rfl

end Verif.HashTree
