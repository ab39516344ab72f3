import Verif.Model.Hex

/-!
# C15: hash hex strings

Specification: the hex digits of a number below 16, written out.
-/

namespace Verif.Hex

/-- The sixteen lower-case digits. -/
def digits : List UInt8 :=
  [0x30, 0x31, 0x32, 0x33, 0x34, 0x35, 0x36, 0x37, 0x38, 0x39, 0x61, 0x62, 0x63, 0x64, 0x65, 0x66]

theorem nibbleChar_eq : ∀ n, n < 16 → digits[n]? = some (nibbleChar n) := by decide

theorem asciiToNibble_nibbleChar : ∀ n, n < 16 → asciiToNibble (nibbleChar n) = UInt8.ofNat n := by decide

/-- The lookup index splits back into its two characters. -/
theorem lookup_chars (m l : UInt8) :
    lookup (l.toNat ||| (m.toNat <<< 8)) = (asciiToNibble m <<< 4) ||| asciiToNibble l := by
  have hl := l.toNat_lt
  have hm := m.toNat_lt
  have e : l.toNat ||| (m.toNat <<< 8) = m.toNat * 256 + l.toNat := by
    rw [Nat.or_comm, Nat.shiftLeft_eq]
    have := Nat.two_pow_add_eq_or_of_lt (i := 8) (b := l.toNat) (by omega) m.toNat
    rw [Nat.mul_comm]
    exact this.symm
  unfold lookup
  rw [e]
  have e1 : (m.toNat * 256 + l.toNat) &&& 0xFF = l.toNat := by
    rw [show (0xFF : Nat) = 2 ^ 8 - 1 by decide, Nat.and_two_pow_sub_one_eq_mod]; omega
  have e2 : ((m.toNat * 256 + l.toNat) &&& 0xFF00) >>> 8 = m.toNat := by
    rw [Nat.shiftRight_and_distrib, show (0xFF00 : Nat) >>> 8 = 2 ^ 8 - 1 by decide,
      Nat.and_two_pow_sub_one_eq_mod, Nat.shiftRight_eq_div_pow]
    omega
  simp only [e1, e2, UInt8.ofNat_toNat]

theorem nibbles_join : ∀ b : Fin 256,
    (UInt8.ofNat (b.val / 16) <<< 4) ||| UInt8.ofNat (b.val % 16) = UInt8.ofNat b.val := by decide +kernel

theorem encode_length (bs : List UInt8) : (encodeToString bs).length = 2 * bs.length := by
  induction bs with
  | nil => rfl
  | cons b bs ih =>
    have : encodeToString (b :: bs) =
      nibbleChar (b.toNat / 16) :: nibbleChar (b.toNat % 16) :: encodeToString bs := by
      simp [encodeToString]
    rw [this]; simp [ih]; omega

theorem encode_get (bs : List UInt8) (i : Nat) (hi : i < bs.length) :
    (encodeToString bs)[2 * i]? = some (nibbleChar (bs[i].toNat / 16)) ∧
    (encodeToString bs)[2 * i + 1]? = some (nibbleChar (bs[i].toNat % 16)) := by
  induction bs generalizing i with
  | nil => simp at hi
  | cons b bs ih =>
    have e : encodeToString (b :: bs) =
      nibbleChar (b.toNat / 16) :: nibbleChar (b.toNat % 16) :: encodeToString bs := by
      simp [encodeToString]
    rw [e]
    cases i with
    | zero => simp
    | succ i =>
      have := ih i (by simpa using hi)
      simpa [Nat.mul_add] using this

theorem hex_length (h : List UInt8) : (hashToHex h).length = 64 := by
  simp [hashToHex, encode_length]

/-- **C15 (form of the text).** The text of a hash has 64 characters; characters `2i` and `2i+1` are the high
and low hex digit, in lower case, of byte `31-i`: the bytes are reversed. -/
theorem hex_is_reversed_digits (h : List UInt8) (hlen : h.length = 32) :
    (hashToHex h).length = 64 ∧ ∀ i, i < 32 → ∃ b, h[31 - i]? = some b ∧
      (hashToHex h)[2 * i]? = digits[b.toNat / 16]? ∧ (hashToHex h)[2 * i + 1]? = digits[b.toNat % 16]? := by
  refine ⟨hex_length h, ?_⟩
  intro i hi
  have h1 : 31 - i < h.length := by omega
  refine ⟨h[31 - i], by simp, ?_⟩
  have h2 := encode_get ((List.range 32).map (fun i => h.getD (31 - i) 0)) i (by simpa using hi)
  have h3 : ((List.range 32).map (fun i => h.getD (31 - i) 0))[i]'(by simpa using hi) = h[31 - i] := by
    simp [List.getD_eq_getElem?_getD, List.getElem?_eq_getElem h1]
  rw [h3] at h2
  have hb := (h[31 - i]).toNat_lt
  rw [nibbleChar_eq _ (by omega), nibbleChar_eq _ (by omega)]
  exact h2

theorem hexByte_hashToHex (h : List UInt8) (hlen : h.length = 32) (k : Nat) (hk : k < 32) :
    some (hexByte (hashToHex h) k) = h[k]? := by
  have h2 := encode_get ((List.range 32).map (fun i => h.getD (31 - i) 0)) (31 - k) (by simp; omega)
  have h1 : 31 - (31 - k) < h.length := by omega
  have h3 : ((List.range 32).map (fun i => h.getD (31 - i) 0))[31 - k]'(by simp; omega) = h[k] := by
    simp only [List.getElem_map, List.getElem_range, List.getD_eq_getElem?_getD]
    rw [List.getElem?_eq_getElem h1]
    simp only [Option.getD_some]
    congr 1
    omega
  rw [h3] at h2
  have hb := (h[k]).toNat_lt
  unfold hexByte
  have e1 : 63 - 2 * k = 2 * (31 - k) + 1 := by omega
  have e2 : 62 - 2 * k = 2 * (31 - k) := by omega
  rw [e1, e2]
  have g1 : (hashToHex h).getD (2 * (31 - k)) 0 = nibbleChar (h[k].toNat / 16) := by
    rw [List.getD_eq_getElem?_getD, hashToHex, h2.1]; rfl
  have g2 : (hashToHex h).getD (2 * (31 - k) + 1) 0 = nibbleChar (h[k].toNat % 16) := by
    rw [List.getD_eq_getElem?_getD, hashToHex, h2.2]; rfl
  rw [g1, g2, lookup_chars, asciiToNibble_nibbleChar _ (by omega), asciiToNibble_nibbleChar _ (by omega)]
  have := nibbles_join ⟨h[k].toNat, hb⟩
  simp only at this
  rw [this, UInt8.ofNat_toNat, List.getElem?_eq_getElem (by omega)]

theorem decode_all (h : List UInt8) (hlen : h.length = 32) :
    (List.range 32).map (hexByte (hashToHex h)) = h := by
  apply List.ext_getElem?
  intro k
  rcases Nat.lt_or_ge k 32 with hk | hk
  · rw [List.getElem?_map, List.getElem?_range hk]
    exact hexByte_hashToHex h hlen k hk
  · rw [List.getElem?_eq_none (by simpa using hk), List.getElem?_eq_none (by omega)]

/-- **C15 (round trip).** Converting any 32-byte hash to text and back, with either decoder, yields it. -/
theorem hex_roundtrip (h : List UInt8) (hlen : h.length = 32) :
    hexToSha256 (hashToHex h) = some h ∧ hexToBin (hashToHex h) = .ok h := by
  constructor
  · rw [hexToSha256, if_neg (by simp [hex_length]), decode_all h hlen]
  · rw [hexToBin, if_neg (by simp [hex_length]), decode_all h hlen]

/-- **C15 (no clash).** Different hashes have different texts. -/
theorem hex_injective (h k : List UInt8) (hh : h.length = 32) (hk : k.length = 32)
    (e : hashToHex h = hashToHex k) : h = k := by
  have := (hex_roundtrip h hh).1
  rw [e, (hex_roundtrip k hk).1] at this
  exact (Option.some.inj this).symm

/-- C15: a text of the wrong length is refused by `HashHexToSha256`. -/
theorem hex_wrong_length (s : List UInt8) (h : s.length ≠ 64) : hexToSha256 s = none := by
  rw [hexToSha256, if_pos h]

/-- **C51 (violated).** Text that is not hex is accepted: 64 letters 'z' decode to the all-zero hash, the same
as 64 zeros. -/
theorem nonhex_accepted :
    hexToSha256 (List.replicate 64 0x7a) = some (List.replicate 32 0) ∧
      hexToSha256 (List.replicate 64 0x30) = some (List.replicate 32 0) := by decide +kernel

/-- A character is a hex digit, of either case. -/
def isHexDigit (c : UInt8) : Bool :=
  (0x30 ≤ c ∧ c ≤ 0x39) ∨ (0x41 ≤ c ∧ c ≤ 0x46) ∨ (0x61 ≤ c ∧ c ≤ 0x66)

/-- The lower-case form of a hex digit. -/
def lower (c : UInt8) : UInt8 := if 0x41 ≤ c ∧ c ≤ 0x46 then c + 0x20 else c

theorem nibble_char : ∀ c : Fin 256, isHexDigit (UInt8.ofNat c.val) = true →
    (asciiToNibble (UInt8.ofNat c.val)).toNat < 16 ∧
    nibbleChar (asciiToNibble (UInt8.ofNat c.val)).toNat = lower (UInt8.ofNat c.val) := by decide +kernel

theorem nibble_char' (c : UInt8) (h : isHexDigit c = true) :
    (asciiToNibble c).toNat < 16 ∧ nibbleChar (asciiToNibble c).toNat = lower c := by
  have := nibble_char ⟨c.toNat, c.toNat_lt⟩
  simp only [UInt8.ofNat_toNat] at this
  exact this h

theorem join_split : ∀ m : Fin 16, ∀ l : Fin 16,
    ((UInt8.ofNat m.val <<< 4) ||| UInt8.ofNat l.val).toNat / 16 = m.val ∧
    ((UInt8.ofNat m.val <<< 4) ||| UInt8.ofNat l.val).toNat % 16 = l.val := by decide +kernel

theorem join_split' (m l : UInt8) (hm : m.toNat < 16) (hl : l.toNat < 16) :
    ((m <<< 4) ||| l).toNat / 16 = m.toNat ∧ ((m <<< 4) ||| l).toNat % 16 = l.toNat := by
  have := join_split ⟨m.toNat, hm⟩ ⟨l.toNat, hl⟩
  simpa only [UInt8.ofNat_toNat] using this

/-- **C51 (partial).** For text made of 64 hex digits (either case) decoding is exact: encoding the decoded
hash gives back the text in lower case. So decoding identifies only texts that differ in letter case.
Missing: rejection of text with other characters, see `nonhex_accepted`. -/
theorem hex_decode_exact_partial (s : List UInt8) (hlen : s.length = 64) (hd : ∀ c ∈ s, isHexDigit c = true) :
    ∃ h, hexToSha256 s = some h ∧ h.length = 32 ∧ hashToHex h = s.map lower := by
  refine ⟨(List.range 32).map (hexByte s), by rw [hexToSha256, if_neg (by simp [hlen])], by simp, ?_⟩
  have key : ∀ i, i < 32 →
      (hashToHex ((List.range 32).map (hexByte s)))[2 * i]? = (s.map lower)[2 * i]? ∧
      (hashToHex ((List.range 32).map (hexByte s)))[2 * i + 1]? = (s.map lower)[2 * i + 1]? := by
    intro i hi
    have h2 := encode_get ((List.range 32).map
      (fun i => ((List.range 32).map (hexByte s)).getD (31 - i) 0)) i (by simpa using hi)
    have hb : ((List.range 32).map (fun i => ((List.range 32).map (hexByte s)).getD (31 - i) 0))[i]'(by
        simpa using hi) = hexByte s (31 - i) := by
      have h31 : 31 - i < 32 := by omega
      simp only [List.getElem_map, List.getElem_range, List.getD_eq_getElem?_getD, List.getElem?_map]
      rw [List.getElem?_range h31]
      rfl
    rw [hb] at h2
    have e1 : 63 - 2 * (31 - i) = 2 * i + 1 := by omega
    have e2 : 62 - 2 * (31 - i) = 2 * i := by omega
    have ha : 2 * i < s.length := by omega
    have hb' : 2 * i + 1 < s.length := by omega
    have hbyte : hexByte s (31 - i) =
        (asciiToNibble s[2 * i] <<< 4) ||| asciiToNibble s[2 * i + 1] := by
      unfold hexByte
      rw [e1, e2]
      simp only [List.getD_eq_getElem?_getD, List.getElem?_eq_getElem ha, List.getElem?_eq_getElem hb',
        Option.getD_some]
      exact lookup_chars _ _
    have n1 := nibble_char' _ (hd _ (List.getElem_mem ha))
    have n2 := nibble_char' _ (hd _ (List.getElem_mem hb'))
    have js := join_split' _ _ n1.1 n2.1
    rw [← hbyte] at js
    rw [js.1, js.2, n1.2, n2.2] at h2
    rw [List.getElem?_map, List.getElem?_map, List.getElem?_eq_getElem ha, List.getElem?_eq_getElem hb']
    exact h2
  apply List.ext_getElem?
  intro j
  rcases Nat.lt_or_ge j 64 with hj | hj
  · have := key (j / 2) (by omega)
    rcases Nat.mod_two_eq_zero_or_one j with hm | hm
    · have e : 2 * (j / 2) = j := by omega
      rw [e] at this; exact this.1
    · have e : 2 * (j / 2) + 1 = j := by omega
      rw [e] at this; exact this.2
  · rw [List.getElem?_eq_none (by rw [hex_length]; exact hj), List.getElem?_eq_none (by simpa [hlen] using hj)]

example : hexToSha256 (hashToHex ((List.range 32).map UInt8.ofNat)) = some ((List.range 32).map UInt8.ofNat) ∧
    (hashToHex ((List.range 32).map UInt8.ofNat)).take 4 = [0x31, 0x66, 0x31, 0x65] ∧
    (∀ c ∈ hashToHex ((List.range 32).map UInt8.ofNat), isHexDigit c = true) := by decide +kernel

end Verif.Hex
