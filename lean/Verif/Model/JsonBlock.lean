import Verif.Model.BinBlock
import Verif.Model.Hex

/-!
# The JSON block parser (intrinsicobjects/jsonblock.go, jsontransaction.go) and fetching a block with retries

Simplifications.
* `encoding/json` is not modelled: the parser's input is the struct that `json.Unmarshal` fills in, or `none` if it
  returns an error. A field absent from the text has the zero value. Strings are lists of ASCII bytes.
* float64 numbers are rationals, `fl` is rounding to float64, any function; `Difficulty` is not modelled (as in
  `Verif.Model.BinBlock`). Converting a float beyond 64-bit integers is left as the integer.
* `int` is an unbounded integer.
-/

namespace Verif.JsonBlock

open Verif.BinBlock

/-- jsontransaction.go:105-108 `JsonTxiEssential`. -/
structure JTxi where
  txid : Bytes
  vout : Int

/-- jsontransaction.go:110-113 `JsonTxoEssential`, with `hex` of the script (115-119). -/
structure JTxo where
  value : Rat
  hex : Bytes

/-- jsontransaction.go:92-103 `JsonTransEssential`; the lock time is not used. -/
structure JTx where
  txid : Bytes
  vin : List JTxi
  vout : List JTxo
  version : Int
  size : Int
  vsize : Int
  weight : Int

/-- jsonblock.go:68-87 `JsonBlockEssential`; height and median time are not used. -/
structure JBlock where
  hash : Bytes
  prev : Bytes
  tx : List JTx
  merkle : Bytes
  version : Int
  time : Int
  nonce : Int
  strippedsize : Int
  size : Int
  weight : Int
  bits : Bytes

/-- Go `uint32(n)` of an `int64`. -/
def toU32 (n : Int) : Nat := (n % 2 ^ 32).toNat

/-- The value of a hex digit (encoding/hex `reverseHexTable`; strconv's digits below 16). -/
def hexValue (c : UInt8) : Option Nat :=
  if 0x30 ≤ c ∧ c ≤ 0x39 then some (c.toNat - 0x30)
  else if 0x61 ≤ c ∧ c ≤ 0x66 then some (c.toNat - 0x57)
  else if 0x41 ≤ c ∧ c ≤ 0x46 then some (c.toNat - 0x37)
  else none

/-- encoding/hex `DecodeString`; `none` is an error. -/
def hexDecode : Bytes → Option Bytes
  | [] => some []
  | [_] => none
  | a :: b :: rest =>
    match hexValue a, hexValue b with
    | some h, some l => (hexDecode rest).map (UInt8.ofNat (16 * h + l) :: ·)
    | _, _ => none

/-- The number that hex digits stand for. -/
def hexNumber : Bytes → Nat → Option Nat
  | [], n => some n
  | c :: cs, n =>
    match hexValue c with
    | some d => hexNumber cs (16 * n + d)
    | none => none

/-- strconv `ParseUint(s, 16, 32)`; `none` is an error. -/
def parseUint (s : Bytes) : Option Nat :=
  if s = [] then none
  else
    match hexNumber s 0 with
    | some n => if n < 2 ^ 32 then some n else none
    | none => none

/-- Go `math.Round`: halves away from zero. -/
def round (x : Rat) : Int := if 0 ≤ x then (x + 1 / 2).floor else -(-x + 1 / 2).floor

/-- jsontransaction.go:63: satoshis. -/
def satoshis (fl : Rat → Rat) (value : Rat) : Int := round (fl (value * 100000000))

/-- jsontransaction.go:41-56: the inputs; whether there was no error, and the storage. -/
def parseTxis : List JTxi → Storage → Bool × Storage
  | [], st => (true, st)
  | j :: js, st =>
    match (if j.txid = [] then some (zeros 32) else Hex.hexToSha256 j.txid) with
    | none => (false, st)
    | some txid => parseTxis js { st with txis := st.txis ++ [⟨txid, j.vout⟩] }

/-- jsontransaction.go:60-76: the outputs. -/
def parseTxos (fl : Rat → Rat) : List JTxo → Storage → Bool × Storage
  | [], st => (true, st)
  | j :: js, st =>
    match hexDecode j.hex with
    | none => (false, st)
    | some script =>
      parseTxos fl js
        { st with txos := st.txos ++ [⟨satoshis fl j.value, toI32 st.scripts.length, toI32 script.length⟩]
                  scripts := st.scripts ++ script }

/-- A transaction made by `make`. -/
def zeroTransaction : Transaction := ⟨zeros 32, 0, false, 0, 0, 0, 0, 0, 0, 0, 0⟩

/-- jsontransaction.go:78-81. -/
def strippedSize (weight size : Int) : Int :=
  let s := (weight - size).tdiv 3
  if weight = 0 ∨ s = 0 then size else s

/-- jsontransaction.go:25-84 `parseJsonTransaction`: whether there was no error, the transaction and the storage. -/
def parseTransaction (fl : Rat → Rat) (j : JTx) (t : Transaction) (st : Storage) : Bool × Transaction × Storage :=
  let t1 := { t with version := toU32 j.version, size := j.size, weight := j.weight, vSize := j.vsize
                     isSegWit := decide (j.vsize < j.size) }
  match Hex.hexToSha256 j.txid with
  | none => (false, t1, st)
  | some txid =>
    let t2 := { t1 with txId := txid, txisCount := j.vin.length, txisStart := st.txis.length }
    match parseTxis j.vin st with
    | (false, st1) => (false, t2, st1)
    | (true, st1) =>
      let t3 := { t2 with txosCount := j.vout.length, txosStart := st1.txos.length }
      match parseTxos fl j.vout st1 with
      | (false, st2) => (false, t3, st2)
      | (true, st2) => (true, { t3 with strippedSize := strippedSize j.weight j.size }, st2)

/-- jsonblock.go:52-59: the transactions; after an error the rest stay as `make` made them. -/
def parseTransactions (fl : Rat → Rat) : List JTx → Storage → Bool × List Transaction × Storage
  | [], st => (true, [], st)
  | j :: js, st =>
    match parseTransaction fl j zeroTransaction st with
    | (false, t, st1) => (false, t :: js.map fun _ => zeroTransaction, st1)
    | (true, t, st1) =>
      match parseTransactions fl js st1 with
      | (ok, ts, st2) => (ok, t :: ts, st2)

/-- jsonblock.go:10-61 `ParseJsonBlock` of what `json.Unmarshal` gives, into a block that may have been used before:
whether there was no error, and the block. -/
def parseBlock (fl : Rat → Rat) (parsed : Option JBlock) (target : Block) : Bool × Block :=
  let b0 := { target with storage := ⟨[], [], []⟩ }
  match parsed with
  | none => (false, b0)
  | some j =>
    match Hex.hexToSha256 j.hash with
    | none => (false, b0)
    | some hash =>
      let b1 := { b0 with hash := hash }
      match (if j.prev = [] then some (zeros 32) else Hex.hexToSha256 j.prev) with
      | none => (false, b1)
      | some prev =>
        let b2 := { b1 with prevHash := prev }
        match Hex.hexToSha256 j.merkle with
        | none => (false, b2)
        | some merkle =>
          let b3 := { b2 with merkleRoot := merkle, version := toU32 j.version, weight := j.weight, size := j.size
                              strippedSize := j.strippedsize, time := toU32 j.time }
          match parseUint j.bits with
          | none => (false, b3)
          | some bits =>
            let b4 := { b3 with nBits := bits, nonce := toU32 j.nonce }
            match parseTransactions fl j.tx b4.storage with
            | (ok, ts, st) => (ok, { b4 with transactions := ts, storage := st })

/-! ## Fetching -/

/-- How one request of the loop at corereader2/getparseblocksbinary.go:61-109 can end: not with a body (`Get` fails, the
status is not 200, reading or closing the body fails), or with one. -/
inductive Reply where
  | failed
  | body (bytes : Bytes)

/-- How fetching a block can end: with a block, or with a panic. -/
inductive Fetched where
  | block (b : Block)
  | panic

/-- corereader2/getparseblocksbinary.go:60-113, `n` tries; `parse` says whether there was no error, or panics. The replies
to the requests are given in order. -/
def fetch (parse : Bytes → Block → Option (Bool × Block)) : Nat → List Reply → Block → Fetched
  | 0, _, _ => .panic
  | _ + 1, [], _ => .panic
  | n + 1, .failed :: rs, b => fetch parse n rs b
  | n + 1, .body bytes :: rs, b =>
    match parse bytes b with
    | none => .panic
    | some (true, b') => .block b'
    | some (false, b') => fetch parse n rs b'

/-- A new block: corereader2/getparseblocksbinary.go:33. -/
def newBlock : Block := ⟨zeros 32, 0, zeros 32, zeros 32, 0, 0, 0, [], 0, 0, 0, ⟨[], [], []⟩⟩

/-- getparseblocksbinary.go:51-113 with `useJson`; `unmarshal` is `json.Unmarshal`. -/
def fetchJson (fl : Rat → Rat) (unmarshal : Bytes → Option JBlock) (rs : List Reply) : Fetched :=
  fetch (fun bytes b => some (parseBlock fl (unmarshal bytes) b)) 3 rs newBlock

/-- getparseblocksbinary.go:51-113 without `useJson`. -/
def fetchBinary (sha : Bytes → Bytes) (rs : List Reply) : Fetched :=
  fetch (fun bytes _ => (BinBlock.parseBlock sha bytes).map fun b => (true, b)) 3 rs newBlock

end Verif.JsonBlock
