/-!
# Bytes, little-endian words and plain files

Common vocabulary of the model: Go `[]byte` is `List UInt8`.
-/

namespace Verif

/-- A Go `byte`. -/
abbrev Byte := UInt8

/-- A Go byte slice, or the contents of a file. -/
abbrev Bytes := List UInt8

/-- Low `w` bytes of `n`, least significant first.
Models `binary.LittleEndian.PutUintNN` followed by taking the first `w` bytes, as used in
wordfile/wordfile.go:53-63, intarrayarray/intarrayarray.go:58-71, indexedhashes3/binentrybytes.go. -/
def leEnc : Nat → Nat → Bytes
  | 0, _ => []
  | w+1, n => UInt8.ofNat (n % 256) :: leEnc w (n / 256)

/-- Value of a little-endian byte string.
Models `binary.LittleEndian.UintNN`, e.g. wordfile/wordfile.go:44-51. -/
def leDec : Bytes → Nat
  | [] => 0
  | b :: bs => b.toNat + 256 * leDec bs

/-- `n` zero bytes. -/
def zeros (n : Nat) : Bytes := List.replicate n 0

/-- `os.File.WriteAt` on file contents `f` at offset `off` (POSIX: a gap past the end reads as zeros). -/
def writeAt (f : Bytes) (off : Nat) (d : Bytes) : Bytes :=
  if d = [] then f else (f ++ zeros (off - f.length)).take off ++ d ++ f.drop (off + d.length)

/-- The `n` bytes at `off` if they are all present: `os.File.ReadAt`
(a short read is an `io.EOF` error, modelled as `none`). -/
def readAt (f : Bytes) (off n : Nat) : Option Bytes :=
  if off + n ≤ f.length then some ((f.drop off).take n) else none

end Verif
