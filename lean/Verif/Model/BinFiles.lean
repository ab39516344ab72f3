import Verif.Model.Bins
import Verif.Model.NumberedFolders

/-!
# Bins on disk (indexedhashes3/binfiles.go, overflowfiles.go)

The bin-starts file has a fixed room of `entriesInBinStart` entries per bin; what does not fit goes to an
overflow file of its own.
-/

namespace Verif.Bins

/-- Path of an overflow file: folders and file name. -/
abbrev OvfPath := List Char × List Char

/-- The bin-starts file and the overflow files (`none` = the file does not exist). -/
structure Files where
  binStarts : Bytes
  overflow : OvfPath → Option Bytes

/-- indexedhashes3/overflowfiles.go:21-27 `overflowFolderpathFilepath` (constant prefix and extension left
out; `NewNumberedFolders(0, digits)` at line 16). -/
def ovfPath (p : Params) (bn : Nat) : OvfPath :=
  (NumberedFolders.folders 0 p.digitsPerNumberedFolder bn, NumberedFolders.filename 0 p.digitsPerNumberedFolder bn)

/-- Go `bits.LeadingZeros64` of a non-zero value. -/
def leadingZeros64 (x : Nat) : Nat := 63 - Nat.log2 x

/-- binfiles.go:125-131: count zero bytes backwards one at a time from position `n`. -/
def countZeroTail (data : Bytes) : Nat → Nat
  | 0 => 0
  | n+1 => if data.getD n 0 = 0 then countZeroTail data n + 1 else 0

/-- binfiles.go:101-134 `countZeroBytesAtEnd`: in 8-byte chunks first. -/
def countZeroAt (data : Bytes) (n : Nat) : Nat :=
  if _h : 8 ≤ n then
    let chunk := leDec (slice data (n - 8) 8)
    if chunk = 0 then 8 + countZeroAt data (n - 8)
    else leadingZeros64 chunk / 8
  else countZeroTail data n
termination_by n

/-- binfiles.go:101-134 `countZeroBytesAtEnd`. -/
def countZeroBytesAtEnd (data : Bytes) : Nat := countZeroAt data data.length

/-- binfiles.go:21-50 `loadBinFromSlice` (and 52-79 `loadBinFromSliceIntoSlot`, which is the same). -/
def loadBinFromSlice (p : Params) (ovf : OvfPath → Option Bytes) (theBinBytes : Bytes) (bn : Nat) : Bytes :=
  let zeroEntries := countZeroBytesAtEnd theBinBytes / p.entrySize
  if zeroEntries > 0 then theBinBytes.take (p.entrySize * (p.entriesInBinStart - zeroEntries))
  else match ovf (ovfPath p bn) with
    | none => theBinBytes
    | some o => theBinBytes ++ o

/-- binfiles.go:11-19 `loadBinFromFiles` (`none` = the error of a short read). -/
def loadBin (p : Params) (f : Files) (bn : Nat) : Option Bytes :=
  (readAt f.binStarts (bn * p.entrySize * p.entriesInBinStart) (p.entrySize * p.entriesInBinStart)).map
    fun b => loadBinFromSlice p f.overflow b bn

/-- binfiles.go:81-98 `loadAllBinsFromFiles`: one sequential pass over the bin-starts file, `n` bins left. -/
def loadAllFrom (p : Params) (f : Files) (rest : Bytes) (bn : Nat) : Nat → Option (List Bytes)
  | 0 => some []
  | n+1 =>
    if rest.length < p.entrySize * p.entriesInBinStart then none
    else match loadAllFrom p f (rest.drop (p.entrySize * p.entriesInBinStart)) (bn + 1) n with
      | none => none
      | some l => some (loadBinFromSlice p f.overflow (rest.take (p.entrySize * p.entriesInBinStart)) bn :: l)

/-- binfiles.go:81-98 `loadAllBinsFromFiles`. -/
def loadAllBins (p : Params) (f : Files) : Option (List Bytes) := loadAllFrom p f f.binStarts 0 p.numberOfBins

/-- binfiles.go:137-162 `saveBinToFiles` (file system errors not modelled). -/
def saveBin (p : Params) (f : Files) (bn : Nat) (b : Bytes) : Files :=
  let numEntries := binLen p b
  let numEntriesBinStart := if numEntries > p.entriesInBinStart then p.entriesInBinStart else numEntries
  { overflow := if numEntries > p.entriesInBinStart then
        fun path => if path = ovfPath p bn then some (b.drop (p.entrySize * numEntriesBinStart)) else f.overflow path
      else f.overflow
    binStarts := writeAt f.binStarts (bn * p.entriesInBinStart * p.entrySize) (b.take (numEntriesBinStart * p.entrySize)) }

/-- indexedhashes3/multipasspreloader.go:156-189, adaptivepasspreloader.go:125-158 `createInitialFiles` in a
folder without old overflow files: room for every bin, all zero. -/
def freshFiles (p : Params) : Files :=
  { binStarts := zeros (p.numberOfBins * p.entriesInBinStart * p.entrySize), overflow := fun _ => none }

end Verif.Bins
