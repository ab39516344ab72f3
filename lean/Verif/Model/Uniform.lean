import Verif.Model.Records
import Verif.Model.NumberedFolders
import Mathlib.Data.Rat.Floor

/-!
# The uniform hash store and its preloader

Models indexedhashes/multipasspreloader.go and indexedhashes/uniform.go: a file of 32-byte hashes is read several times;
each pass fills a range of bins with the positions of the hashes that fall into them, and writes the bins to `BinStarts.bst`
and to overflow files; a lookup reads one bin and compares the hashes at the positions.

Simplifications. Files are byte lists (the buffering of `Hashes.hsh` by `AppendOptimizedFile` is C01, C05). A read of a file
gives as many bytes as there are. Counts and positions read from a file are natural numbers (`int64` in the code, the same
below 2^63). Messages printed are left out. `HashDivider` is positive.
-/

namespace Verif.Uniform

open Verif.NumberedFolders

/-- What a call comes to: a result, an error value, or a panic. -/
inductive Outcome (α : Type) where
  | ok (a : α)
  | err
  | panic

/-- multipasspreloader.go:64-68, with the hashes held in memory only. The array has 102 elements. -/
structure BinStart where
  count : Nat
  entries : List (Nat × Bytes)

/-- multipasspreloader.go:115: an element made by `make`. -/
def BinStart.empty : BinStart := { count := 0, entries := List.replicate 102 (0, zeros 32) }

/-- multipasspreloader.go:72-78 `ToBytes`. -/
def BinStart.toBytes (b : BinStart) : Bytes :=
  leEnc 8 b.count ++ (leEnc 8 0 ++ (b.entries.map fun e => leEnc 8 e.1).flatten)

/-- multipasspreloader.go:80-86 `FromBytes`: the count and the 102 positions. -/
def fromBytes (b : Bytes) : Nat × List Nat :=
  (leDec (slice b 0 8), (List.range 102).map fun i => leDec (slice b (16 + i * 8) 8))

/-- multipasspreloader.go:88-99 `hashAlreadyInBinStart`. -/
def BinStart.has (b : BinStart) (h : Bytes) : Bool :=
  (b.entries.take (if b.count > 102 then 102 else b.count)).any fun e => e.2 == h

/-- multipasspreloader.go:102-108. -/
structure Pass where
  first : Nat
  bins : List BinStart
  overflows : List (List (Nat × Bytes))

/-- multipasspreloader.go:110-120 `NewSinglePassDetails`. -/
def newPass (first count : Nat) : Pass :=
  { first := first, bins := List.replicate count .empty, overflows := List.replicate count [] }

/-- multipasspreloader.go:156-157 and uniform.go:201-205: the number of the bin of a hash. -/
def address (divider : Nat) (h : Bytes) : Nat := leDec (h.take 8) / divider

/-- multipasspreloader.go:149-186 `dealWithOneHash`. (A bin number of 2^63 or more, which is negative as an `int64`, is not
of interest to any pass, as here.) -/
def deal (divider : Nat) (p : Pass) (i : Nat) (h : Bytes) : Pass :=
  let a := address divider h
  if a < p.first ∨ p.first + p.bins.length ≤ a then p
  else
    match p.bins[a - p.first]?, p.overflows[a - p.first]? with
    | some bin, some ov =>
      if bin.has h then p
      else if ov.any fun e => e.2 == h then p
      else if bin.count < 102 then
        { p with bins := p.bins.set (a - p.first) { count := bin.count + 1, entries := bin.entries.set bin.count (i, h) } }
      else
        { p with bins := p.bins.set (a - p.first) { bin with count := bin.count + 1 }
                 overflows := p.overflows.set (a - p.first) (ov ++ [(i, h)]) }
    | _, _ => p

/-- multipasspreloader.go:138-142: the hashes of a chunk, the first of which is number `i`. -/
def dealChunk (divider : Nat) (p : Pass) (i : Nat) (chunk : Bytes) : Pass :=
  (List.range (chunk.length / 32)).foldl (fun q k => deal divider q (i + k) (slice chunk (k * 32) 32)) p

/-- multipasspreloader.go:132-146 `ReadIn`: `file` is what has not been read yet. -/
def readIn (divider : Nat) (p : Pass) (i : Nat) (file : Bytes) : Option Pass :=
  if _h : file = [] then some p
  else if (file.take 4096).length % 32 ≠ 0 then none
  else readIn divider (dealChunk divider p i (file.take 4096)) (i + (file.take 4096).length / 32) (file.drop 4096)
termination_by file.length
decreasing_by
  have : 0 < file.length := List.length_pos_iff.mpr _h
  rw [List.length_drop]
  omega

/-- multipasspreloader.go:188-200 `writeIntoBinStartsFile`: the bins from number `a` on. -/
def writeBins (file : Bytes) (a : Nat) : List BinStart → Bytes
  | [] => file
  | b :: bs => writeBins (writeAt file (832 * a) b.toBytes) (a + 1) bs

/-- Folders and file name of an overflow file. -/
abbrev Path := List Char × List Char

/-- multipasspreloader.go:207-213 and uniform.go:190-199, 207-210. -/
def path (digits a : Nat) : Path := (folders 0 digits a, filename 0 digits a)

/-- A change of one file. -/
def setFile (files : Path → Option Bytes) (p : Path) (b : Bytes) : Path → Option Bytes :=
  fun q => if q = p then some b else files q

/-- multipasspreloader.go:202-230 `writeOverflowFiles`: the bins from number `a` on. -/
def writeOverflows (digits : Nat) (files : Path → Option Bytes) (a : Nat) : List (List (Nat × Bytes)) → Path → Option Bytes
  | [] => files
  | ov :: ovs =>
    writeOverflows digits
      (if ov.length > 0 then setFile files (path digits a) (ov.map fun e => leEnc 8 e.1).flatten else files) (a + 1) ovs

/-- multipasspreloader.go:232-234 `BiggestAddressPlusOne`, with `fl` for the rounding of float64. -/
def biggestPlusOne (fl : Rat → Rat) (divider : Nat) : Nat := ⌊fl (fl ((2 : Rat) ^ 64 / fl divider) + 1 / 2)⌋.toNat

/-- uniform.go:62-64: the divider for an estimated number of hashes. -/
def dividerFor (fl : Rat → Rat) (estimate : Nat) : Nat := ⌊fl ((2 : Rat) ^ 64 / fl ((estimate / 75 : Nat) : Rat))⌋.toNat

/-- The parameters and the files of a store: `Hashes.hsh`, `BinStarts.bst` if it exists, the overflow files, and which folders
of `BinOverflows` exist (any of them may: what indexing adds to these is not followed). -/
structure Store where
  divider : Nat
  digits : Nat
  hashes : Bytes
  binStarts : Option Bytes
  overflow : Path → Option Bytes
  dirs : List Char → Bool

/-- multipasspreloader.go:272-296: one pass, for bins `first` to `first + count`. -/
def onePass (s : Store) (first count : Nat) : Option Store :=
  (readIn s.divider (newPass first count) 0 s.hashes).map fun p =>
    { s with binStarts := s.binStarts.map fun b => writeBins b p.first p.bins
             overflow := writeOverflows s.digits s.overflow p.first p.overflows }

/-- multipasspreloader.go:272-296: the passes from number `pass` on, `n` of them. -/
def passes (per big : Nat) (s : Store) (pass : Nat) : Nat → Option Store
  | 0 => some s
  | n + 1 =>
    let first := pass * per
    let count := if first + per > big then big - first else per
    match onePass s first count with
    | none => none
    | some s' => passes per big s' (pass + 1) n

/-- multipasspreloader.go:236-302 `CreateInitialFiles` and `IndexTheHashes`; `biggest` is `BiggestAddressPlusOne` of the
divider and `grant` is `bytesPerPass`. -/
def indexTheHashes (biggest grant : Nat) (s : Store) : Outcome Store :=
  let s := { s with binStarts := some (zeros (832 * biggest)) }
  let per := grant / 832
  if per = 0 then .panic
  else
    match passes per biggest s 0 (1 + biggest / per) with
    | none => .err
    | some s' => .ok s'

/-- uniform.go:303-307 `GetHashAtIndex`, wordfile/hashfile.go. -/
def getHashAtIndex (s : Store) (i : Nat) : Option Bytes := readAt s.hashes (i * 32) 32

/-- uniform.go:265-275 and 286-297: the positions of a bin one after the other; `none` is an error. -/
def scan (s : Store) (h : Bytes) : List Nat → Option (Option Nat)
  | [] => some none
  | i :: is =>
    match getHashAtIndex s i with
    | none => none
    | some r => if h = r then some (some i) else scan s h is

/-- uniform.go:286-297: `n` positions of the overflow file from number `i` on. -/
def scanFile (s : Store) (h : Bytes) (file : Bytes) (i : Nat) : Nat → Outcome (Option Nat)
  | 0 => .ok none
  | n + 1 =>
    if file.length < i * 8 + 8 then .panic
    else
      match getHashAtIndex s (leDec (slice file (i * 8) 8)) with
      | none => .err
      | some r => if h = r then .ok (some (leDec (slice file (i * 8) 8))) else scanFile s h file (i + 1) n

/-- uniform.go:245-301 `IndexOfHash`; `none` is -1. -/
def indexOfHash (s : Store) (h : Bytes) : Outcome (Option Nat) :=
  let offset := address s.divider h * 832 % 2 ^ 64
  if 2 ^ 63 ≤ offset then .err
  else
    match s.binStarts with
    | none => .err
    | some bs =>
      match readAt bs offset 832 with
      | none => .err
      | some b =>
        let count := (fromBytes b).1
        match scan s h ((fromBytes b).2.take (if count > 102 then 102 else count)) with
        | none => .err
        | some (some i) => .ok (some i)
        | some none =>
          if count > 102 then
            match s.overflow (path s.digits (address s.divider h)) with
            | none => .err
            | some file => scanFile s h file 0 (count - 102)
          else .ok none

/-- uniform.go:309-311 `CountHashes`. -/
def countHashes (s : Store) : Nat := s.hashes.length / 32

/-- uniform.go:212-243 `AppendHash`. The folder made (line 224) is not the one the file is in, which is below
`BinOverflows`: if that does not exist, opening the file fails, after the hash was written. -/
def appendHash (s : Store) (h : Bytes) : Store × Option Nat :=
  let n := countHashes s
  let s := { s with hashes := writeAt s.hashes (n * 32) h }
  let p := path s.digits (address s.divider h)
  if s.dirs p.1 then
    ({ s with overflow := setFile s.overflow p ((s.overflow p).getD [] ++ (leEnc 8 n ++ h)) }, some n)
  else (s, none)

/-- uniform.go:113-138 `CreateHashStore`, on a system on which a file opened with `O_CREATE` alone can be written (the
parameters are written to such a file; on POSIX systems this is an error, after the same has been done). -/
def createHashStore (s : Store) : Store :=
  { s with hashes := [], binStarts := none, overflow := fun _ => none, dirs := fun _ => false }

/-- uniform.go:148-178 `openHashStorePrivate`: is there an error? (`Hashes.hsh` exists.) -/
def openFails (s : Store) : Bool := s.binStarts.isNone

/-- uniform.go:337-371 `Test`, from hash `i` on, `n` of them, of `count`. An index not found (-1) gives an error from
`GetHashAtIndex` that is not looked at, and the zero hash. -/
def testLoop (s : Store) (count i : Nat) : Nat → Outcome Bool
  | 0 => .ok true
  | n + 1 =>
    match getHashAtIndex s i with
    | none => .err
    | some h =>
      match indexOfHash s h with
      | .err => .err
      | .panic => .panic
      | .ok r =>
        let h2 := (r.bind fun j => getHashAtIndex s j).getD (zeros 32)
        if h ≠ h2 then .ok false
        else if count / 100 = 0 then .panic
        else testLoop s count (i + 1) n

/-- uniform.go:326-372 `Test`. -/
def selfTest (s : Store) : Outcome Bool := testLoop s (countHashes s) 0 (countHashes s)

end Verif.Uniform
