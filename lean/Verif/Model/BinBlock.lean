import Verif.Model.Records

/-!
# The binary block parser (intrinsicobjects/binaryblock.go, binarytransaction.go)

`none` is a panic (index or slice bounds). Positions are Go `int`s, modelled as unbounded integers: a position
past the end of the data panics at its next use whether or not the 64-bit addition wrapped. Slice bounds are
checked against the length of the data (capacity taken equal to length). `sha` stands for SHA-256 and is any
function. `Difficulty` (floating point) is not modelled. Allocation failure for absurd counts is not modelled.
-/

namespace Verif.BinBlock

/-- Go `bin[a:b]`. -/
def sub (bin : Bytes) (a b : Int) : Option Bytes :=
  if 0 ≤ a ∧ a ≤ b ∧ b ≤ bin.length then some ((bin.drop a.toNat).take (b - a).toNat) else none

/-- Go `bin[i]`. -/
def at1 (bin : Bytes) (i : Int) : Option Byte := if 0 ≤ i then bin[i.toNat]? else none

/-- binaryblock.go:96-108 `ReadCompactSize`: value and number of bytes consumed. -/
def readCompactSize (bin : Bytes) (off : Int) : Option (Nat × Nat) := do
  let first ← at1 bin off
  if first.toNat < 253 then some (first.toNat, 1)
  else if first.toNat = 253 then (sub bin (off + 1) (off + 3)).map fun b => (leDec b, 3)
  else if first.toNat = 254 then (sub bin (off + 1) (off + 5)).map fun b => (leDec b, 5)
  else (sub bin (off + 1) (off + 9)).map fun b => (leDec b, 9)

/-- intrinsictransaction.go:35-38 `Txi`. -/
structure Txi where
  txId : Bytes
  vOut : Int
deriving DecidableEq, Repr

/-- intrinsictransaction.go:40-44 `Txo`. -/
structure Txo where
  value : Int
  scriptStart : Int
  scriptLen : Int
deriving DecidableEq, Repr

/-- multitransactionstorage.go:11-15 `MultiTransactionStorage`. -/
structure Storage where
  txis : List Txi
  txos : List Txo
  scripts : Bytes
deriving DecidableEq, Repr

/-- intrinsictransaction.go:11-24 `Transaction`. -/
structure Transaction where
  txId : Bytes
  version : Nat
  isSegWit : Bool
  txisStart : Int
  txisCount : Int
  txosStart : Int
  txosCount : Int
  size : Int
  weight : Int
  vSize : Int
  strippedSize : Int
deriving DecidableEq, Repr

/-- Go `int32(n)`. -/
def toI32 (n : Int) : Int := (n + 2 ^ 31) % 2 ^ 32 - 2 ^ 31

/-- binarytransaction.go:45-68: the inputs. -/
def parseTxis (bin : Bytes) : Nat → Int → List Txi → Option (Int × List Txi)
  | 0, i, acc => some (i, acc)
  | n+1, i, acc => do
    let txid ← sub bin i (i + 32)
    let vout ← sub bin (i + 32) (i + 36)
    let (ssLen, bytes) ← readCompactSize bin (i + 36)
    parseTxis bin n (i + 36 + bytes + ofU64 ssLen + 4) (acc ++ [⟨txid, leDec vout⟩])

/-- binarytransaction.go:78-99: the outputs. -/
def parseTxos (bin : Bytes) : Nat → Int → Storage → Option (Int × Storage)
  | 0, i, st => some (i, st)
  | n+1, i, st => do
    let value ← sub bin i (i + 8)
    let (spkLen, bytes) ← readCompactSize bin (i + 8)
    let script ← sub bin (i + 8 + bytes) (i + 8 + bytes + ofU64 spkLen)
    parseTxos bin n (i + 8 + bytes + ofU64 spkLen)
      { st with txos := st.txos ++ [⟨ofU64 (leDec value), toI32 st.scripts.length, toI32 script.length⟩]
                scripts := st.scripts ++ script }

/-- binarytransaction.go:112-120: skip the items of one witness stack. -/
def skipItems (bin : Bytes) : Nat → Int → Option Int
  | 0, i => some i
  | n+1, i => do
    let (itemLen, bytes) ← readCompactSize bin i
    skipItems bin n (i + bytes + ofU64 itemLen)

/-- binarytransaction.go:106-121: skip the witness stacks. -/
def skipWitness (bin : Bytes) : Nat → Int → Option Int
  | 0, i => some i
  | n+1, i => do
    let (itemCount, bytes) ← readCompactSize bin i
    let j ← skipItems bin itemCount (i + bytes)
    skipWitness bin n j

/-- binarytransaction.go:10-152 `ParseBinaryTransaction`; the Go return value is the `size` of the result. -/
def parseTransaction (sha : Bytes → Bytes) (bin : Bytes) (start : Int) (st : Storage) : Option (Transaction × Storage) := do
  let version ← sub bin start (start + 4)
  let b0 ← at1 bin (start + 4)
  -- the second byte is looked at only if the first is zero
  let isSegWit ← if b0 = 0 then (at1 bin (start + 5)).map fun b1 => decide (b1 ≠ 0) else some false
  let txiCountOff := if isSegWit then start + 6 else start + 4
  let (txiCount, bytes) ← readCompactSize bin txiCountOff
  let (i, txis) ← parseTxis bin txiCount (txiCountOff + bytes) st.txis
  let (txoCount, bytes) ← readCompactSize bin i
  let (segwitOff, st') ← parseTxos bin txoCount (i + bytes) { st with txis := txis }
  let locktimeOff ← if isSegWit then skipWitness bin txiCount segwitOff else some segwitOff
  let mid ← sub bin txiCountOff segwitOff
  let locktime ← sub bin locktimeOff (locktimeOff + 4)
  let strippedCount := (if isSegWit then 2 else 0) + (locktimeOff - segwitOff)
  let size := locktimeOff + 4 - start
  let stripped := size - strippedCount
  let weight := stripped * 3 + size
  some ({ txId := sha (sha (version ++ mid ++ locktime)), version := leDec version, isSegWit := isSegWit
          txisStart := st.txis.length, txisCount := ofU64 txiCount
          txosStart := st.txos.length, txosCount := ofU64 txoCount
          size := size, weight := weight, vSize := (weight + 3).tdiv 4, strippedSize := stripped }, st')

/-- intrinsicblock.go:11-27 `Block` without `Difficulty`. -/
structure Block where
  hash : Bytes
  version : Nat
  prevHash : Bytes
  merkleRoot : Bytes
  time : Nat
  nBits : Nat
  nonce : Nat
  transactions : List Transaction
  size : Int
  weight : Int
  strippedSize : Int
  storage : Storage
deriving Repr

/-- binaryblock.go:63-69: the transactions; also the sums of weights and of stripped sizes. -/
def parseTransactions (sha : Bytes → Bytes) (bin : Bytes) : Nat → Int → Storage →
    Option (List Transaction × Int × Int × Storage)
  | 0, _, st => some ([], 0, 0, st)
  | n+1, i, st => do
    let (t, st') ← parseTransaction sha bin i st
    let (ts, w, s, st'') ← parseTransactions sha bin n (i + t.size) st'
    some (t :: ts, t.weight + w, t.strippedSize + s, st'')

/-- binaryblock.go:9-72 `ParseBinaryBlock`. The storage is emptied first (10-14). -/
def parseBlock (sha : Bytes → Bytes) (bin : Bytes) : Option Block := do
  let header ← sub bin 0 80
  let version ← sub bin 0 4
  let prevHash ← sub bin 4 36
  let merkleRoot ← sub bin 36 68
  let time ← sub bin 68 72
  let nBits ← sub bin 72 76
  let nonce ← sub bin 76 80
  let (txCount, bytes) ← readCompactSize bin 80
  let (ts, w, s, st) ← parseTransactions sha bin txCount (80 + bytes) ⟨[], [], []⟩
  some { hash := sha (sha header), version := leDec version, prevHash := prevHash, merkleRoot := merkleRoot
         time := leDec time, nBits := leDec nBits, nonce := leDec nonce, transactions := ts
         size := bin.length, weight := 80 * 4 + 4 * bytes + w, strippedSize := 80 + bytes + s, storage := st }

/-- intrinsictransaction.go:28-30 `GetTxi`. -/
def getTxi (t : Transaction) (st : Storage) (i : Nat) : Option Txi :=
  if 0 ≤ t.txisStart + i then st.txis[(t.txisStart + i).toNat]? else none

/-- intrinsictransaction.go:31-33 `GetTxo`. -/
def getTxo (t : Transaction) (st : Storage) (i : Nat) : Option Txo :=
  if 0 ≤ t.txosStart + i then st.txos[(t.txosStart + i).toNat]? else none

/-- intrinsicobjectscri/transaction.go:141-144: the script bytes of an output. -/
def scriptOf (st : Storage) (o : Txo) : Option Bytes := sub st.scripts o.scriptStart (o.scriptStart + o.scriptLen)

end Verif.BinBlock
