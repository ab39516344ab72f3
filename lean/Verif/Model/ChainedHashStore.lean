import Verif.Model.HashStores
import Verif.Model.Bytes

/-!
# The lookup-file / collision-chunk hash store

Models indexedhashes/hashstore.go. Simplifications: the hashes file is the list of its hashes (justified by
the basic hash store model, `HashStores.Basic`); the lookup file (created zero-filled at full size,
concretehashstorecreator.go:68-78) and the collisions file are modelled as arrays of `entryByteCount`-byte
words, every write keeping the low `entryByteCount` bytes of the value; operating-system errors other than
reading past the end are not modelled; `partialHashBitCount ≤ 63`.
-/

namespace Verif.ChainedHashStore

open HashStores (Found)

/-- hashstore.go:11-18: the three parameters of a `HashStore`. -/
structure Params where
  nbits : Nat
  nbytes : Nat
  cpc : Nat

/-- hashstore.go:11-18: the three files. -/
structure CH where
  hashes : List Bytes
  lookups : Nat → Nat
  coll : List Nat

/-- concretehashstorecreator.go:53-89: freshly created files. -/
def create : CH := { hashes := [], lookups := fun _ => 0, coll := [] }

/-- hashstore.go:53 `MSB := int64(0x80) << (8 * (NBYTES - 1))` for `1 ≤ NBYTES ≤ 7`. -/
def msb (p : Params) : Nat := 0x80 * 256 ^ (p.nbytes - 1)

/-- The low `NBYTES` bytes of a value, which is what a write keeps. -/
def put (p : Params) (v : Nat) : Nat := v % 256 ^ p.nbytes

/-- hashstore.go:49, 54-55, 80: `partialKey`. -/
def keyOf (p : Params) (h : Bytes) : Nat := leDec (h.take 8) % 2 ^ p.nbits

/-- `lookup & MSB != 0`. -/
def hasMsb (p : Params) (lookup : Nat) : Bool := lookup.testBit (8 * p.nbytes - 1)

/-- `ZEROBUF` (hashstore.go:33). -/
def zeroBuf : Nat := 32

/-- Outcome of an append. -/
inductive Res (α : Type) where
  | ok (a : α)
  | err
  | panicked
  | hang
deriving DecidableEq, Repr

/-- hashstore.go:160, 224: read a whole chunk; `none` = read past the end. -/
def readChunk (p : Params) (coll : List Nat) (chunk : Nat) : Option (List Nat) :=
  if (chunk + 1) * (p.cpc + 1) ≤ coll.length then
    some ((coll.drop (chunk * (p.cpc + 1))).take (p.cpc + 1))
  else none

/-- hashstore.go:153-244: find a vacant slot in the chain that starts at `chunk`, adding a chunk if every
slot is taken. Returns the collisions file and the position of the slot (for `CPC ≥ 1`). The Go loop has no
bound; `fuel` bounds the number of chunks visited. -/
def findSlot (p : Params) (coll : List Nat) : Nat → Nat → Res (List Nat × Nat)
  | 0, _ => .hang
  | fuel+1, chunk =>
    match readChunk p coll chunk with
    | none => .err
    | some ws =>
      match (ws.take p.cpc).findIdx? (· == 0) with
      | some j => .ok (coll, chunk * (p.cpc + 1) + j)
      | none =>
        if ws.getD p.cpc 0 = 0 then
          let available := coll.length / (p.cpc + 1)
          if p.nbytes * (p.cpc + 1) > zeroBuf then .panicked
          else .ok ((coll ++ List.replicate (p.cpc + 1) 0).set (chunk * (p.cpc + 1) + p.cpc)
                      (put p (available + 1)), available * (p.cpc + 1))
        else findSlot p coll fuel (ws.getD p.cpc 0 - 1)

/-- Write one word of the lookup file. -/
def setLookup (s : CH) (key v : Nat) : CH :=
  { s with lookups := fun k => if k = key then v else s.lookups k }

/-- hashstore.go:75-254 `AppendHash` after the hash itself has been written at `index`. -/
def indexIt (p : Params) (s : CH) (key index : Nat) : Res CH :=
  let lookup := s.lookups key
  if lookup = 0 then .ok (setLookup s key (put p (index + 1)))
  else if hasMsb p lookup = false then
    let available := s.coll.length / (p.cpc + 1)
    if available + 1 ≥ msb p then .err
    else if p.cpc = 0 ∨ (p.cpc - 1) * p.nbytes > zeroBuf then .panicked
    else
      .ok { setLookup s key (put p ((available + 1) ||| msb p)) with
        coll := s.coll ++ [lookup, put p (index + 1)] ++ List.replicate (p.cpc - 1) 0 }
  else
    let link := lookup - msb p
    if link = 0 then .err
    else
      match findSlot p s.coll (s.coll.length + 1) (link - 1) with
      | .ok (coll, slot) => .ok { s with coll := coll.set slot (put p (index + 1)) }
      | .err => .err
      | .panicked => .panicked
      | .hang => .hang

/-- hashstore.go:35-255 `AppendHash`. -/
def appendHash (p : Params) (s : CH) (h : Bytes) : Res (CH × Nat) :=
  let index := s.hashes.length
  let s := { s with hashes := s.hashes ++ [h] }
  if p.nbytes = 0 then .panicked
  else if p.nbytes ≥ 8 ∨ index ≥ msb p then .err
  else if p.cpc > 8 then .err
  else
    match indexIt p s (keyOf p h) index with
    | .ok s => .ok (s, index)
    | .err => .err
    | .panicked => .panicked
    | .hang => .hang

/-- Outcome of scanning one chunk. -/
inductive Scan where
  | done (f : Found)
  | link (w : Nat)
deriving DecidableEq, Repr

/-- hashstore.go:313-350: slots `j ..` of the chunk at word `base`, `n` collision slots left. -/
def scanSlots (s : CH) (v : Bytes) (base : Nat) : Nat → Nat → Scan
  | j, 0 =>
    match s.coll[base + j]? with
    | none => .done .err
    | some w => if w = 0 then .done .absent else .link w
  | j, n+1 =>
    match s.coll[base + j]? with
    | none => .done .err
    | some w =>
      if w = 0 then .done .absent
      else
        match s.hashes[w - 1]? with
        | none => .done .err
        | some h => if h = v then .done (.at (w - 1)) else scanSlots s v base (j + 1) n

/-- hashstore.go:312-353: follow the chain of chunks; `none` = still following after `fuel` chunks. -/
def searchChain (p : Params) (s : CH) (v : Bytes) : Nat → Nat → Option Found
  | 0, _ => none
  | fuel+1, link =>
    if link = 0 then some .absent
    else
      match scanSlots s v ((link - 1) * (p.cpc + 1)) 0 p.cpc with
      | .done f => some f
      | .link w => searchChain p s v fuel w

/-- hashstore.go:258-355 `IndexOfHash`; `none` = the loop does not end within the number of words of the
collisions file. -/
def indexOfHash (p : Params) (s : CH) (v : Bytes) : Option Found :=
  let lookup := s.lookups (keyOf p v)
  if hasMsb p lookup = false then
    if lookup = 0 then some .absent
    else
      match s.hashes[lookup - 1]? with
      | none => some .err
      | some h => if h = v then some (.at (lookup - 1)) else some .absent
  else searchChain p s v (s.coll.length + 1) (lookup - msb p)

/-- hashstore.go:357-360 `GetHashAtIndex`. -/
def getHashAtIndex (s : CH) (i : Nat) : Option Bytes := s.hashes[i]?

/-- hashstore.go:362-366 `CountHashes`. -/
def countHashes (s : CH) : Nat := s.hashes.length

/-- Append several hashes, stopping at the first failure; returns the indices handed out. -/
def appendAll (p : Params) (s : CH) : List Bytes → Res (CH × List Nat)
  | [] => .ok (s, [])
  | h :: hs =>
    match appendHash p s h with
    | .ok (s', i) =>
      match appendAll p s' hs with
      | .ok (s'', is) => .ok (s'', i :: is)
      | .err => .err
      | .panicked => .panicked
      | .hang => .hang
    | .err => .err
    | .panicked => .panicked
    | .hang => .hang

end Verif.ChainedHashStore
