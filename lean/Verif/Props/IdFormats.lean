import Verif.Model.IdFormats
import Verif.Lemmas.Bytes

/-!
# C31: ids in two to five bytes
-/

namespace Verif.IdFormats

/-- The least id which a number of bytes has no room for. -/
def limit (f : Format) : Nat := 2 ^ (8 * f.bytes)

/-- Widths of the types an id can have: `uint16`, `uint32`, `uint64`. -/
def Width (t : Nat) : Prop := t = 16 ∨ t = 32 ∨ t = 64

theorem byteAt_toNat (id k : Nat) : (byteAt id k).toNat = id / 2 ^ k % 256 := by
  unfold byteAt
  rw [UInt8.toNat_ofNat']
  omega

theorem byteAt_ne (id k : Nat) : byteAt id k ≠ 0 ↔ id / 2 ^ k % 256 ≠ 0 := by
  rw [← byteAt_toNat]
  constructor
  · intro h h0; exact h (UInt8.toNat_inj.1 h0)
  · intro h h0; rw [h0] at h; exact h rfl

theorem or_add {a b k : Nat} (h : a < 2 ^ k) : a ||| b * 2 ^ k = a + b * 2 ^ k := by
  rw [Nat.or_comm, Nat.mul_comm, ← Nat.two_pow_add_eq_or_of_lt h]
  omega

theorem shift_mod {x k t : Nat} (hx : x < 256) (h : k + 8 ≤ t) : x * 2 ^ k % 2 ^ t = x * 2 ^ k := by
  apply Nat.mod_eq_of_lt
  have h1 : x * 2 ^ k < 2 ^ 8 * 2 ^ k := Nat.mul_lt_mul_of_pos_right (by omega) (Nat.two_pow_pos k)
  rw [← Nat.pow_add] at h1
  exact Nat.lt_of_lt_of_le h1 (Nat.pow_le_pow_right (by omega) (by omega))

theorem over_ok {d b : Bytes} (h : d.length ≤ b.length) : over d b = some (d ++ b.drop d.length) := by
  unfold over
  rw [if_pos h]

theorem read_bytes {t : Nat} (ht : Width t) {f : Format} {id : Nat} (hid : id < 2 ^ t) (b : Bytes) :
    read f t (leEnc f.bytes id ++ b) = some (id % limit f) := by
  have hb : ∀ x : Nat, (UInt8.ofNat (x % 256)).toNat = x % 256 := fun x => by rw [UInt8.toNat_ofNat']; omega
  cases f <;> simp only [read, Format.bytes, leEnc, List.cons_append, List.nil_append, limit, read16, read24, read32, read40, hb]
    <;> congr 1
  · rw [or_add (k := 8) (by omega)]
    rcases ht with rfl | rfl | rfl <;> omega
  · rw [or_add (k := 8) (by omega), or_add (k := 16) (by omega)]
    rcases ht with rfl | rfl | rfl <;> omega
  · rw [or_add (k := 8) (by omega), or_add (k := 16) (by omega), or_add (k := 24) (by omega)]
    rcases ht with rfl | rfl | rfl <;> omega
  · rcases ht with rfl | rfl | rfl
    · have h2 : id / 256 / 256 % 256 = 0 := by omega
      have h3 : id / 256 / 256 / 256 % 256 = 0 := by omega
      have h4 : id / 256 / 256 / 256 / 256 % 256 = 0 := by omega
      rw [h2, h3, h4]
      rw [Nat.mod_eq_of_lt (show id % 256 < 2 ^ 16 by omega), shift_mod (k := 8) (by omega) (by omega)]
      simp only [Nat.zero_mul, Nat.zero_mod, Nat.or_zero]
      rw [or_add (k := 8) (by omega)]
      omega
    · have h4 : id / 256 / 256 / 256 / 256 % 256 = 0 := by omega
      rw [h4]
      rw [Nat.mod_eq_of_lt (show id % 256 < 2 ^ 32 by omega), shift_mod (k := 8) (by omega) (by omega),
        shift_mod (k := 16) (by omega) (by omega), shift_mod (k := 24) (by omega) (by omega)]
      simp only [Nat.zero_mul, Nat.zero_mod, Nat.or_zero]
      rw [or_add (k := 8) (by omega), or_add (k := 16) (by omega), or_add (k := 24) (by omega)]
      omega
    · rw [Nat.mod_eq_of_lt (show id % 256 < 2 ^ 64 by omega), shift_mod (k := 8) (by omega) (by omega),
        shift_mod (k := 16) (by omega) (by omega), shift_mod (k := 24) (by omega) (by omega), shift_mod (k := 32) (by omega) (by omega)]
      rw [or_add (k := 8) (by omega), or_add (k := 16) (by omega), or_add (k := 24) (by omega), or_add (k := 32) (by omega)]
      omega

theorem ofNat_congr {a b : Nat} (h : a % 256 = b % 256) : UInt8.ofNat a = UInt8.ofNat b := by
  apply UInt8.toNat_inj.1
  rw [UInt8.toNat_ofNat', UInt8.toNat_ofNat']
  exact h

theorem unchecked_eq {f : Format} (hf : f ≠ .id40) {b : Bytes} (hb : f.bytes ≤ b.length) (id : Nat) :
    unchecked f b id = some (leEnc f.bytes id ++ b.drop f.bytes) := by
  cases f with
  | id40 => exact absurd rfl hf
  | id16 =>
    rw [unchecked, write16, over_ok (d := [_, _]) hb]
    simp only [Format.bytes, leEnc, byteAt, List.length_cons, List.length_nil]
    refine congrArg some ?_
    congr 1
    refine List.cons_eq_cons.2 ⟨ofNat_congr (by omega), List.cons_eq_cons.2 ⟨ofNat_congr (by omega), rfl⟩⟩
  | id24 =>
    rw [unchecked, write24, over_ok (d := [_, _, _]) hb]
    simp only [Format.bytes, leEnc, byteAt, List.length_cons, List.length_nil]
    refine congrArg some ?_
    congr 1
    refine List.cons_eq_cons.2 ⟨ofNat_congr (by omega), List.cons_eq_cons.2 ⟨ofNat_congr (by omega),
      List.cons_eq_cons.2 ⟨ofNat_congr (by omega), rfl⟩⟩⟩
  | id32 =>
    rw [unchecked, write32, over_ok (d := [_, _, _, _]) hb]
    simp only [Format.bytes, leEnc, byteAt, List.length_cons, List.length_nil]
    refine congrArg some ?_
    congr 1
    refine List.cons_eq_cons.2 ⟨ofNat_congr (by omega), List.cons_eq_cons.2 ⟨ofNat_congr (by omega),
      List.cons_eq_cons.2 ⟨ofNat_congr (by omega), List.cons_eq_cons.2 ⟨ofNat_congr (by omega), rfl⟩⟩⟩⟩

theorem checked_eq {t : Nat} (ht : Width t) (f : Format) {b : Bytes} (hb : f.bytes ≤ b.length) {id : Nat} (hid : id < 2 ^ t) :
    checked f b id = if id < limit f then some (leEnc f.bytes id ++ b.drop f.bytes) else none := by
  have h64 : id < 2 ^ 64 := by rcases ht with rfl | rfl | rfl <;> omega
  cases f with
  | id16 =>
    have := unchecked_eq (f := .id16) (by decide) hb id
    rw [unchecked] at this
    rw [checked, checked16, this, Option.bind_some]
    simp only [Format.bytes]
    by_cases h : id < limit .id16
    all_goals have hl : limit .id16 = 65536 := rfl
    · rw [if_pos h, if_neg (by omega)]
    · rw [if_neg h, if_pos (by omega)]
  | id32 =>
    have := unchecked_eq (f := .id32) (by decide) hb id
    rw [unchecked] at this
    rw [checked, checked32, this, Option.bind_some]
    simp only [Format.bytes]
    by_cases h : id < limit .id32
    all_goals have hl : limit .id32 = 4294967296 := rfl
    · rw [if_pos h, if_neg (by omega)]
    · rw [if_neg h, if_pos (by omega)]
  | id24 =>
    have := unchecked_eq (f := .id24) (by decide) hb id
    rw [unchecked] at this
    rw [checked, checked24, this, Option.bind_some]
    simp only [Format.bytes, byteAt_ne]
    by_cases h : id < limit .id24
    all_goals have hl : limit .id24 = 16777216 := rfl
    · rw [if_pos h, if_neg (by omega), if_neg (by omega), if_neg (by omega), if_neg (by omega), if_neg (by omega)]
    · rw [if_neg h]
      split
      · rfl
      split
      · rfl
      split
      · rfl
      split
      · rfl
      split
      · rfl
      · omega
  | id40 =>
    rw [checked, checked40, over_ok (d := [_, _, _, _, _]) hb, Option.bind_some]
    simp only [Format.bytes, byteAt_ne, List.length_cons, List.length_nil]
    have hd : [byteAt id 0, byteAt id 8, byteAt id 16, byteAt id 24, byteAt id 32] = leEnc 5 id := by
      simp only [leEnc, byteAt]
      refine List.cons_eq_cons.2 ⟨ofNat_congr (by omega), List.cons_eq_cons.2 ⟨ofNat_congr (by omega),
        List.cons_eq_cons.2 ⟨ofNat_congr (by omega), List.cons_eq_cons.2 ⟨ofNat_congr (by omega),
        List.cons_eq_cons.2 ⟨ofNat_congr (by omega), rfl⟩⟩⟩⟩⟩
    rw [hd]
    by_cases h : id < limit .id40
    all_goals have hl : limit .id40 = 1099511627776 := rfl
    · rw [if_pos h, if_neg (by omega), if_neg (by omega), if_neg (by omega)]
    · rw [if_neg h]
      split
      · rfl
      split
      · rfl
      split
      · rfl
      · omega

/-- **C31, the checked writer.** Whatever the format, the id's type and the id: if the format has room for the id it is
written, reads back as it was, and the bytes after it are untouched; if not, the program panics. -/
theorem checked_roundtrip_or_reject {t : Nat} (ht : Width t) (f : Format) {b : Bytes} (hb : f.bytes ≤ b.length) {id : Nat}
    (hid : id < 2 ^ t) :
    (id < limit f → ∃ b', checked f b id = some b' ∧ b'.length = b.length ∧ b'.drop f.bytes = b.drop f.bytes ∧
      read f t b' = some id) ∧
    (limit f ≤ id → checked f b id = none) := by
  rw [checked_eq ht f hb hid]
  refine ⟨fun h => ?_, fun h => if_neg (by omega)⟩
  refine ⟨_, if_pos h, ?_, ?_, ?_⟩
  · simp only [List.length_append, leEnc_length, List.length_drop]; omega
  · rw [List.drop_append_of_le_length (by simp), List.drop_of_length_le (by simp), List.nil_append]
  · rw [read_bytes ht hid, Nat.mod_eq_of_lt h]

/-- **C31, the unchecked writer.** An id is always written, and what reads back is its remainder: the id itself exactly
when the format has room for it. -/
theorem unchecked_truncates {t : Nat} (ht : Width t) {f : Format} (hf : f ≠ .id40) {b : Bytes} (hb : f.bytes ≤ b.length)
    {id : Nat} (hid : id < 2 ^ t) :
    ∃ b', unchecked f b id = some b' ∧ b'.length = b.length ∧ b'.drop f.bytes = b.drop f.bytes ∧
      read f t b' = some (id % limit f) ∧ (read f t b' = some id ↔ id < limit f) := by
  refine ⟨_, unchecked_eq hf hb id, ?_, ?_, read_bytes ht hid _, ?_⟩
  · simp only [List.length_append, leEnc_length, List.length_drop]; omega
  · rw [List.drop_append_of_le_length (by simp), List.drop_of_length_le (by simp), List.nil_append]
  · rw [read_bytes ht hid]
    have hpos : 0 < limit f := Nat.two_pow_pos _
    constructor
    · intro h
      injection h with h
      rw [← h]
      exact Nat.mod_lt _ hpos
    · intro h
      rw [Nat.mod_eq_of_lt h]

/-- Ids as written are what the models of chunks and tiers write. -/
theorem unchecked_is_leEnc {f : Format} (hf : f ≠ .id40) (id : Nat) :
    unchecked f (zeros f.bytes) id = some (leEnc f.bytes id) := by
  rw [unchecked_eq hf (by simp)]
  simp [zeros]

example : ∃ b', checked .id24 (zeros 4) 0x123456 = some b' ∧ b' = [0x56, 0x34, 0x12, 0] ∧ read .id24 64 b' = some 0x123456 :=
  ⟨_, rfl, rfl, rfl⟩

example : checked .id24 (zeros 3) (2 ^ 24) = none := (checked_roundtrip_or_reject (.inr (.inr rfl)) .id24 (by decide) (by decide)).2 (by decide)

example : ∃ b', unchecked .id16 (zeros 2) 65536 = some b' ∧ read .id16 32 b' = some 0 := ⟨_, rfl, rfl⟩

end Verif.IdFormats
