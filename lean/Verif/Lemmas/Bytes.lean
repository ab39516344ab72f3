import Verif.Model.Bytes

namespace Verif

@[simp] theorem leEnc_length (w n : Nat) : (leEnc w n).length = w := by
  induction w generalizing n with
  | zero => rfl
  | succ w ih => simp [leEnc, ih]

theorem leDec_leEnc (w n : Nat) : leDec (leEnc w n) = n % 256 ^ w := by
  induction w generalizing n with
  | zero => simp [leEnc, leDec, Nat.mod_one]
  | succ w ih =>
    simp only [leEnc, leDec, ih]
    have : (UInt8.ofNat (n % 256)).toNat = n % 256 := by
      simp
    rw [this, Nat.pow_succ', Nat.mod_mul]

theorem leDec_leEnc_of_lt {w n : Nat} (h : n < 256 ^ w) : leDec (leEnc w n) = n := by
  rw [leDec_leEnc, Nat.mod_eq_of_lt h]

theorem leDec_lt (bs : Bytes) : leDec bs < 256 ^ bs.length := by
  induction bs with
  | nil => simp [leDec]
  | cons b bs ih =>
    have hb : b.toNat < 256 := b.toNat_lt
    simp only [leDec, List.length_cons, Nat.pow_succ]
    omega

theorem leEnc_leDec (bs : Bytes) : leEnc bs.length (leDec bs) = bs := by
  induction bs with
  | nil => rfl
  | cons b bs ih =>
    have hb : b.toNat < 256 := b.toNat_lt
    simp only [List.length_cons, leEnc, leDec]
    have h1 : (b.toNat + 256 * leDec bs) % 256 = b.toNat := by omega
    have h2 : (b.toNat + 256 * leDec bs) / 256 = leDec bs := by omega
    rw [h1, h2, ih]
    simp

theorem leDec_append (a b : Bytes) : leDec (a ++ b) = leDec a + 256 ^ a.length * leDec b := by
  induction a with
  | nil => simp [leDec]
  | cons x a ih =>
    simp only [List.cons_append, leDec, ih, List.length_cons, Nat.pow_succ]
    rw [Nat.mul_add, Nat.add_assoc, Nat.mul_comm (256 ^ a.length) 256, Nat.mul_assoc]

theorem leDec_zeros (n : Nat) : leDec (zeros n) = 0 := by
  induction n with
  | zero => rfl
  | succ n ih => simp [zeros, List.replicate_succ, leDec] at *; simp [ih]

theorem leDec_injective {a b : Bytes} (hl : a.length = b.length) (h : leDec a = leDec b) : a = b := by
  rw [← leEnc_leDec a, ← leEnc_leDec b, hl, h]

theorem leEnc_zero (w : Nat) : leEnc w 0 = zeros w := by
  induction w with
  | zero => rfl
  | succ w ih => simp [leEnc, ih, zeros, List.replicate_succ]

@[simp] theorem zeros_length (n : Nat) : (zeros n).length = n := by simp [zeros]

theorem leEnc_take {w v n : Nat} (h : w ≤ v) : (leEnc v n).take w = leEnc w n := by
  induction w generalizing v n with
  | zero => simp [leEnc]
  | succ w ih =>
    cases v with
    | zero => omega
    | succ v => simp [leEnc, ih (Nat.le_of_succ_le_succ h)]

theorem writeAt_length {f : Bytes} {off : Nat} {d : Bytes} (hd : d ≠ []) :
    (writeAt f off d).length = max f.length (off + d.length) := by
  simp [writeAt, hd]
  omega

/-- Byte-level view of a plain file: the byte at `i`, if present. -/
theorem writeAt_getElem? {f : Bytes} {off : Nat} {d : Bytes} (hd : d ≠ []) (i : Nat) :
    (writeAt f off d)[i]? =
      if i < off then (if i < f.length then f[i]? else some 0)
      else if i < off + d.length then d[i - off]? else f[i]? := by
  have hdl : 0 < d.length := List.length_pos_iff.mpr hd
  simp only [writeAt, hd, if_false]
  have htl : ((f ++ zeros (off - f.length)).take off).length = off := by
    simp; omega
  split
  · rename_i h
    rw [List.append_assoc, List.getElem?_append_left (by rw [htl]; exact h), List.getElem?_take, if_pos h]
    by_cases h2 : i < f.length
    · rw [List.getElem?_append_left h2, if_pos h2]
    · rw [List.getElem?_append_right (by omega), if_neg h2]
      simp [zeros, List.getElem?_replicate]; omega
  · rename_i h
    split
    · rename_i h2
      rw [List.append_assoc, List.getElem?_append_right (by rw [htl]; omega), htl,
        List.getElem?_append_left (by omega)]
    · rename_i h2
      rw [List.getElem?_append_right (by simp; omega), List.getElem?_drop]
      congr 1
      simp; omega

end Verif
