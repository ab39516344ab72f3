import Verif.Model.Records
import Verif.Model.HashStores
import Mathlib.Data.Rat.Floor

/-!
# Hash bins (indexedhashes3)

Parameters, the split of a hash into (bin number, sort number, truncated hash), bin entries as bytes and
the in-memory bin as one contiguous byte slice. A Go panic is `none`.

`int64`/`uint64` quantities that the code keeps non-negative are natural numbers.
-/

namespace Verif.Bins

open HashStores (Found)

/-- indexedhashes3/params.go:3-21 `HashIndexingParams` (the hash count estimate only steers memory use and
appears with the preloaders). -/
structure Params where
  bitsPerHashIndex : Nat
  numberOfBins : Nat
  entriesInBinStart : Nat
  digitsPerNumberedFolder : Nat
  bytesPerSortNum : Nat
deriving DecidableEq, Repr

/-- params.go:27-46 `NewHashStoreParams`: panics on an odd number of bins, on sort numbers over 8 bytes, and
(line 56) on division by zero when there are no bins. -/
def newParams (bitsPerHashIndex digits numberOfBins entriesInBinStart bytesPerSortNum : Nat) : Option Params :=
  if numberOfBins % 2 = 1 then none
  else if bytesPerSortNum > 8 then none
  else if numberOfBins / 2 = 0 then none
  else some { bitsPerHashIndex := bitsPerHashIndex, numberOfBins := numberOfBins,
              entriesInBinStart := entriesInBinStart, digitsPerNumberedFolder := digits,
              bytesPerSortNum := bytesPerSortNum }

/-- params.go:61 `BytesPerHashIndex`. -/
def Params.bytesPerHashIndex (p : Params) : Nat := (p.bitsPerHashIndex - 1) / 8 + 1

/-- params.go:58 `bytesPerBinEntry`. -/
def Params.entrySize (p : Params) : Nat := 24 + p.bytesPerSortNum + p.bytesPerHashIndex

/-- params.go:56 `divider`. -/
def Params.divider (p : Params) : Nat := 2 ^ 63 / (p.numberOfBins / 2)

/-- params.go:49-55: smallest number of bytes (below 8) with room for the bin numbers; 0 if there is none. -/
def Params.bytesRoomForBinNum (p : Params) : Nat :=
  ((List.range 8).find? fun b => p.numberOfBins ≤ 2 ^ (8 * b)).getD 0

/-- indexedhashes3/hash.go:11-15 `toTruncatedHash`. -/
def truncOf (h : Bytes) : Bytes := (h.drop 8).take 24

/-- hash.go:17-19 `toAbbreviatedHash`. -/
def abbrOf (h : Bytes) : Nat := leDec (h.take 8)

/-- indexedhashes3/abbreviatedhash.go:11-14 `toBinNum`. -/
def binNum (p : Params) (h : Bytes) : Nat := abbrOf h / p.divider

/-- abbreviatedhash.go:16-19 `toSortNum`. -/
def sortNum (p : Params) (h : Bytes) : Nat := abbrOf h % p.divider

/-- abbreviatedhash.go:7-9 `newAbbreviatedHashFromBinNumSortNum` (uint64 arithmetic wraps). -/
def abbrFrom (p : Params) (bn sn : Nat) : Nat := (bn * p.divider + sn) % 2 ^ 64

/-- hash.go:21-26 `NewHashFromTruncatedHashAbbreviatedHash`. -/
def hashFrom (t : Bytes) (a : Nat) : Bytes := leEnc 8 a ++ t.take 24

/-- indexedhashes3/binentrybytes.go:28-53 `writeBinEntryBytes` into a fresh slice (21-25): truncated hash,
hash index, sort number; panics when a number does not fit its bytes, or when a width exceeds the 8-byte
scratch array. -/
def encEntry (p : Params) (t : Bytes) (hi sn : Nat) : Option Bytes :=
  if p.bytesPerHashIndex > 8 ∨ p.bytesPerSortNum > 8 then none
  else if ((leEnc 8 hi).drop p.bytesPerHashIndex).any (· ≠ 0) then none
  else if ((leEnc 8 sn).drop p.bytesPerSortNum).any (· ≠ 0) then none
  else some (t.take 24 ++ (leEnc 8 hi).take p.bytesPerHashIndex ++ (leEnc 8 sn).take p.bytesPerSortNum)

/-- binentrybytes.go:55-59 `getTruncatedHash`. -/
def entTrunc (e : Bytes) : Bytes := e.take 24

/-- binentrybytes.go:61-72 `getHashIndexSortNum`, first result. -/
def entIndex (p : Params) (e : Bytes) : Nat := leDec (slice e 24 p.bytesPerHashIndex)

/-- binentrybytes.go:61-72 `getHashIndexSortNum`, second result. -/
def entSort (p : Params) (e : Bytes) : Nat := leDec (slice e (24 + p.bytesPerHashIndex) p.bytesPerSortNum)

/-- indexedhashes3/binbytes.go:53-56 `getEntry` (slice bounds panic; Go would allow reading up to the
capacity, the theorems show that indices stay within the length). -/
def getEntry (p : Params) (b : Bytes) (i : Nat) : Option Bytes := readAt b (p.entrySize * i) p.entrySize

/-- binbytes.go:63-65 `length`. -/
def binLen (p : Params) (b : Bytes) : Nat := b.length / p.entrySize

/-- Sort number of entry `i`. -/
def sortAt (p : Params) (b : Bytes) (i : Nat) : Option Nat := (getEntry p b i).map (entSort p)

/-- Go `math.Round`: nearest integer, halves away from zero. -/
def goRound (x : Rat) : Int := if 0 ≤ x then ⌊x + 1 / 2⌋ else -⌊-x + 1 / 2⌋

/-- binbytes.go:196-199: the secant estimate. `fl` is the rounding of each float64 operation. -/
def secant (fl : Rat → Rat) (startIndex endIndex snStart snEnd sn : Nat) : Int :=
  let slope := fl (fl ((snEnd - snStart : Nat) : Rat) / fl ((endIndex - startIndex : Nat) : Rat))
  let floatIndex := fl (fl (startIndex : Rat) + fl (fl ((sn - snStart : Nat) : Rat) / slope))
  goRound floatIndex

/-- binbytes.go:201-205: nudge the estimate off the limits. -/
def nudge (startIndex endIndex : Nat) (m : Int) : Int :=
  if m = startIndex then m + 1 else if m = endIndex then m - 1 else m

/-- binbytes.go:222-229: step back to the first entry of a run of equal sort numbers
(stepping below index 0 panics). -/
def stepBack (p : Params) (b : Bytes) (sn : Nat) : Nat → Option Nat
  | 0 => none
  | i+1 =>
    match sortAt p b i with
    | none => none
    | some s => if s = sn then stepBack p b sn i else some (i + 1)

/-- binbytes.go:207-216: compare with the entry at the estimated index. -/
def atMid (p : Params) (b : Bytes) (startIndex endIndex sn : Nat) (mid : Int) : Option (Nat × Nat) :=
  if mid < 0 then none
  else match sortAt p b mid.toNat with
    | none => none
    | some snMid =>
      if snMid < sn then some (mid.toNat, endIndex)
      else if snMid > sn then some (startIndex, mid.toNat)
      else some (mid.toNat, mid.toNat)

/-- binbytes.go:165-231 `homeInOnSortNum`. -/
def homeIn (fl : Rat → Rat) (p : Params) (b : Bytes) (startIndex endIndex sn : Nat) : Option (Nat × Nat) :=
  if startIndex = endIndex then none
  else match sortAt p b startIndex with
    | none => none
    | some snStart =>
      if sn ≤ snStart then some (startIndex, startIndex)
      else match sortAt p b endIndex with
        | none => none
        | some snEnd =>
          if sn > snEnd then some (endIndex + 1, endIndex + 1)
          else if snEnd = snStart then none
          else if snStart > snEnd then none
          else if snEnd > sn then
            if endIndex - startIndex = 1 then some (endIndex, endIndex)
            else atMid p b startIndex endIndex sn
              (nudge startIndex endIndex (secant fl startIndex endIndex snStart snEnd sn))
          else (stepBack p b sn endIndex).map fun i => (i, i)

/-- binbytes.go:155-158: the loop of `findIndexBasedOnSortNum`. `fuel` bounds the number of rounds; running
out is `none`, and the theorems show it never happens. -/
def findLoop (fl : Rat → Rat) (p : Params) (b : Bytes) (sn : Nat) : Nat → Nat × Nat → Option Nat
  | 0, _ => none
  | fuel+1, (s, e) =>
    if e = s then some s
    else match homeIn fl p b s e sn with
      | none => none
      | some se => findLoop fl p b sn fuel se

/-- binbytes.go:139-159 `findIndexBasedOnSortNum`. -/
def findIndex (fl : Rat → Rat) (p : Params) (b : Bytes) (sn : Nat) : Option Nat :=
  if b = [] then some 0
  else
    let endIndex := binLen p b - 1
    if endIndex = 0 then
      match sortAt p b 0 with
      | none => none
      | some snOnly => if sn > snOnly then some 1 else some 0
    else findLoop fl p b sn (endIndex + 2) (0, endIndex)

/-- Go `copy(f[off:], d)`: overwrites, never extends. -/
def copyAt (f : Bytes) (off : Nat) (d : Bytes) : Bytes :=
  f.take off ++ d.take (f.length - off) ++ f.drop (off + d.length)

/-- binbytes.go:67-93 `insertBinEntry`: the new bin and the insertion point. -/
def insertBinEntry (fl : Rat → Rat) (p : Params) (b : Bytes) (sn hi : Nat) (t : Bytes) :
    Option (Bytes × Nat) :=
  match encEntry p t hi sn, findIndex fl p b sn with
  | some newEntry, some ip =>
    if ip > binLen p b then none
    else if b = [] then some (b ++ newEntry, ip)
    else
      let count := binLen p b
      let b1 := b ++ slice b (p.entrySize * (count - 1)) p.entrySize
      let b2 := copyAt b1 (p.entrySize * (ip + 1)) (slice b1 (p.entrySize * ip) (p.entrySize * count - p.entrySize * ip))
      some (copyAt b2 (p.entrySize * ip) newEntry, ip)
  | _, _ => none

/-- binbytes.go:99-110: sequential search from `index`, `n` entries left. -/
def scanHash (p : Params) (b : Bytes) (t : Bytes) (sn index : Nat) : Nat → Option Found
  | 0 => some .absent
  | n+1 =>
    match getEntry p b index with
    | none => none
    | some e =>
      if entSort p e ≠ sn then some .absent
      else if entTrunc e = t then some (.at (entIndex p e))
      else scanHash p b t sn (index + 1) n

/-- binbytes.go:95-111 `lookupByHash`. -/
def lookupByHash (fl : Rat → Rat) (p : Params) (b : Bytes) (t : Bytes) (sn : Nat) : Option Found :=
  match findIndex fl p b sn with
  | none => none
  | some first => scanHash p b t sn first (binLen p b - first)

/-- binbytes.go:119-128: sequential search for a hash index from `index`, `n` entries left. -/
def scanIndex (p : Params) (b : Bytes) (hi bn index : Nat) : Nat → Option Bytes
  | 0 => some (zeros 32)
  | n+1 =>
    match getEntry p b index with
    | none => none
    | some e =>
      if entIndex p e = hi then some (hashFrom (entTrunc e) (abbrFrom p bn (entSort p e)))
      else scanIndex p b hi bn (index + 1) n

/-- binbytes.go:116-132 `lookupByIndex`: an all-zero hash when the index is not in the bin. -/
def lookupByIndex (p : Params) (b : Bytes) (hi bn : Nat) : Option Bytes := scanIndex p b hi bn 0 (binLen p b)

/-- binbytes.go:239-242 `appendBinEntry`. -/
def appendBinEntry (p : Params) (b : Bytes) (sn hi : Nat) (t : Bytes) : Option Bytes :=
  (encEntry p t hi sn).map (b ++ ·)

/-- binbytes.go:244-268, 277-281 `compareBinEntries(a, b) < 0`. -/
def entLess (p : Params) (a b : Bytes) : Bool :=
  if entSort p a < entSort p b then true
  else if entSort p a > entSort p b then false
  else decide (entIndex p a < entIndex p b)

/-- binbytes.go:318-332: the in-place compaction loop over entries. `es` is the array of entries,
`n` the number of entries still to be read. Result: the array and the number of entries kept. -/
def dedupLoop (es : List Bytes) (writeIdx readIdx : Nat) (lastTH : Bytes) : Nat → List Bytes × Nat
  | 0 => (es, writeIdx)
  | n+1 =>
    let cur := es.getD readIdx []
    if entTrunc cur ≠ lastTH then
      dedupLoop (if writeIdx ≠ readIdx then es.set writeIdx cur else es) (writeIdx + 1) (readIdx + 1)
        (entTrunc cur) n
    else dedupLoop es writeIdx (readIdx + 1) lastTH n

/-- binbytes.go:294-336 `sortAndDeduplicate`. `sort` stands for `sort.Sort` with `entLess`
(its algorithm is not modelled, only that it sorts); the entries are the fixed-size records of the slice. -/
def sortAndDedup (p : Params) (sort : List Bytes → List Bytes) (b : Bytes) : Bytes :=
  if b.length ≤ p.entrySize then b
  else
    let es := sort (recs p.entrySize b)
    let r := dedupLoop es 1 1 (entTrunc (es.getD 0 [])) (es.length - 1)
    (r.1.take r.2).flatten

end Verif.Bins
