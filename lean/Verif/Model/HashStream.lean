import Verif.Model.Records
import Verif.Model.Hex

/-!
# Streaming block hashes from the node

Models corereader2/blockhashes.go. The node is any function from the hash text of a request to its answer.
-/

namespace Verif.HashStream

/-- The answer to a GET: `none` is an error from `Get`; otherwise the body, and whether closing the body succeeds. -/
abbrev Reply := Option (Bytes × Bool)

/-- blockhashes.go:46-48: the buffer after `io.ReadFull`, whose error is ignored: 80160 bytes, zero where the body
is too short. -/
def readFull (body : Bytes) : Bytes := (body ++ zeros (80 * 1002)).take (80 * 1002)

/-- blockhashes.go:57-64: the hash sent for `header`. -/
def hashAt (buf : Bytes) (header : Nat) : Bytes := slice buf ((header + 1) * 80 + 4) 32

/-- blockhashes.go:65-71: send hashes until `numBlocks` have been sent; whether that happened. -/
def emit (num : Int) : List Bytes → Int → List Bytes → List Bytes × Int × Bool
  | [], sent, out => (out, sent, false)
  | h :: hs, sent, out =>
    if sent + 1 = num then (out ++ [h], sent + 1, true) else emit num hs (sent + 1) (out ++ [h])

/-- What has been sent on the channel when it was closed, and whether an error was returned. -/
structure Closed where
  sent : List Bytes
  failed : Bool
deriving DecidableEq, Repr

/-- blockhashes.go:33-90, the loop; `none` when it takes more than `fuel` requests. The check at 78-82 never
holds, because the buffer always has 80160 bytes. -/
def loop (node : Bytes → Reply) (num : Int) : Nat → Bytes → Int → List Bytes → Option Closed
  | 0, _, _, _ => none
  | fuel + 1, req, sent, out =>
    match node req with
    | none => some ⟨out, true⟩
    | some (_, false) => some ⟨out, true⟩
    | some (body, true) =>
      let buf := readFull body
      let r := emit num ((List.range (buf.length / 80 - 2)).map (hashAt buf)) sent out
      if r.2.2 then some ⟨r.1, false⟩
      else if buf.length < 80 * 1002 then some ⟨r.1, false⟩
      else loop node num fuel (Hex.hashToHex (slice buf (1001 * 80 + 4) 32)) r.2.1 r.1

/-- The hash of the genesis block as it is written in blockhashes.go:31, as text. -/
def genesisText : Bytes :=
  ("000000000019d6689c085ae165831e934ff763ae46a2a6c172b3f1b60a8ce26f".toList).map fun c => UInt8.ofNat c.toNat

/-- blockhashes.go:12-91 `StreamBlockHashesFromGenesis`. -/
def stream (node : Bytes → Reply) (num : Int) (fuel : Nat) : Option Closed :=
  if num = 0 then some ⟨[], false⟩ else loop node num fuel genesisText 0 []

end Verif.HashStream
