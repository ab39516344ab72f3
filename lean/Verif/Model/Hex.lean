/-!
# Hash hex strings

Models indexedhashes/hexstring.go and corereader2/utils.go. Strings are lists of ASCII bytes.
-/

namespace Verif.Hex

/-- encoding/hex `hextable[n]`: '0'..'9', 'a'..'f'. -/
def nibbleChar (n : Nat) : UInt8 := if n < 10 then UInt8.ofNat (0x30 + n) else UInt8.ofNat (0x57 + n)

/-- encoding/hex `EncodeToString`: two lower-case characters per byte, high nibble first. -/
def encodeToString (bs : List UInt8) : List UInt8 :=
  bs.flatMap (fun b => [nibbleChar (b.toNat / 16), nibbleChar (b.toNat % 16)])

/-- hexstring.go:137-143 `HashSha256ToHexString`, 129-135 `hashBinToHexString`, corereader2/utils.go:7-13
`ToHexHash` (identical bodies): the bytes reversed, then hex. -/
def hashToHex (h : List UInt8) : List UInt8 :=
  encodeToString ((List.range 32).map (fun i => h.getD (31 - i) 0))

/-- hexstring.go:116-127 `asciiToNibble`. -/
def asciiToNibble (a : UInt8) : UInt8 :=
  if 0x30 ≤ a ∧ a ≤ 0x39 then a - 0x30
  else if 0x41 ≤ a ∧ a ≤ 0x46 then a - (0x41 - 0x0A)
  else if 0x61 ≤ a ∧ a ≤ 0x66 then a - (0x61 - 0x0a)
  else 0

/-- hexstring.go:104-114 `buildHexLookup`, the entry at index `i`. -/
def lookup (i : Nat) : UInt8 :=
  let lsb := UInt8.ofNat (i &&& 0xFF)
  let msb := UInt8.ofNat ((i &&& 0xFF00) >>> 8)
  (asciiToNibble msb <<< 4) ||| asciiToNibble lsb

/-- Byte `k` of the result: `lookup[int(s[63-2k]) | int(s[62-2k])<<8]`. -/
def hexByte (s : List UInt8) (k : Nat) : UInt8 :=
  lookup ((s.getD (63 - 2 * k) 0).toNat ||| ((s.getD (62 - 2 * k) 0).toNat <<< 8))

/-- hexstring.go:64-102 `hashHexToSha256Internal` / `HashHexToSha256`; `none` = error return. -/
def hexToSha256 (s : List UInt8) : Option (List UInt8) :=
  if s.length ≠ 64 then none else some ((List.range 32).map (hexByte s))

/-- Outcome of `hashHexToBin`. -/
inductive Res where
  | ok (h : List UInt8)
  | panicked
deriving DecidableEq, Repr

/-- hexstring.go:22-61 `hashHexToBinInternal`: the length error is created but not returned (line 24), so a
short string panics on the index expression and the rest of a long one is ignored. -/
def hexToBin (s : List UInt8) : Res :=
  if s.length < 64 then .panicked else .ok ((List.range 32).map (hexByte s))

end Verif.Hex
