import Verif.Model.WordFile

/-!
# Simple hash stores over a hash file

indexedhashes/basichashstore.go, indexedhashes/memoryindexed.go and weddingcake/tierzero.go. A Go map from
hashes to indices is a function `Bytes → Option Nat`.
-/

namespace Verif.HashStores

open HashFile (HF)

/-- Go map assignment `m[k] = v`. -/
def mapSet (m : Bytes → Option Nat) (k : Bytes) (v : Nat) : Bytes → Option Nat :=
  fun x => if x = k then some v else m x

/-- What the `IndexOfHash` methods return: an index, -1, or an error. -/
inductive Found where
  | at (i : Nat)
  | absent
  | err
deriving DecidableEq, Repr

namespace Basic

/-- basichashstore.go:23-30 `AppendHash`. -/
def appendHash (h : HF) (v : Bytes) : HF × Nat :=
  let hashCount := HashFile.countHashes h
  (HashFile.writeHashAt h v hashCount, hashCount)

/-- basichashstore.go:35-44: the search loop from `index` with `n` more to go. -/
def indexLoop (h : HF) (v : Bytes) (index : Nat) : Nat → HF × Found
  | 0 => (h, .absent)
  | n+1 =>
    match HashFile.readHashAt h index with
    | (h', none) => (h', .err)
    | (h', some w) => if w = v then (h', .at index) else indexLoop h' v (index + 1) n

/-- basichashstore.go:33-45 `IndexOfHash`. -/
def indexOfHash (h : HF) (v : Bytes) : HF × Found := indexLoop h v 0 (HashFile.countHashes h)

/-- basichashstore.go:47-51 `GetHashAtIndex` (`none` = error; indices are natural numbers). -/
def getHashAtIndex (h : HF) (i : Nat) : HF × Option Bytes := HashFile.readHashAt h i

/-- Client operations. -/
inductive Op where
  | append (v : Bytes)
  | indexOf (v : Bytes)
  | get (i : Nat)
  | count
  | sync

/-- Client observations. -/
inductive Out where
  | index (i : Nat)
  | found (f : Found)
  | hash (v : Option Bytes)
  | count (n : Nat)
  | unit
deriving DecidableEq, Repr

/-- One client operation. -/
def step (h : HF) : Op → HF × Out
  | .append v => let (h, i) := appendHash h v; (h, .index i)
  | .indexOf v => let (h, f) := indexOfHash h v; (h, .found f)
  | .get i => let (h, v) := getHashAtIndex h i; (h, .hash v)
  | .count => (h, .count (HashFile.countHashes h))
  | .sync => ({ h with file := AppendOpt.sync h.file }, .unit)

/-- A session. -/
def run (h : HF) : List Op → HF × List Out
  | [] => (h, [])
  | op :: ops =>
    let (h', o) := step h op
    let (h'', os) := run h' ops
    (h'', o :: os)

end Basic

namespace MemIndexed

/-- memoryindexed.go:7-11 `MemoryIndexedHashes`. -/
structure MI where
  theMap : Bytes → Option Nat
  theStore : HF
  count : Nat

/-- memoryindexed.go:13-18 `NewMemoryIndexedHashes`: map and count start empty whatever the file holds. -/
def new (hashFile : HF) : MI := { theMap := fun _ => none, theStore := hashFile, count := 0 }

/-- memoryindexed.go:20-28 `AppendHash`. -/
def appendHash (s : MI) (v : Bytes) : MI × Nat :=
  let (store, index) := Basic.appendHash s.theStore v
  ({ theMap := mapSet s.theMap v s.count, theStore := store, count := s.count + 1 }, index)

/-- memoryindexed.go:34-41 `IndexOfHash`. -/
def indexOfHash (s : MI) (v : Bytes) : Found :=
  match s.theMap v with
  | some i => .at i
  | none => .absent

/-- memoryindexed.go:43-45 `GetHashAtIndex`. -/
def getHashAtIndex (s : MI) (i : Nat) : MI × Option Bytes :=
  let (store, v) := Basic.getHashAtIndex s.theStore i
  ({ s with theStore := store }, v)

/-- One client operation (memoryindexed.go:20-53). -/
def step (s : MI) : Basic.Op → MI × Basic.Out
  | .append v => let (s, i) := appendHash s v; (s, .index i)
  | .indexOf v => (s, .found (indexOfHash s v))
  | .get i => let (s, v) := getHashAtIndex s i; (s, .hash v)
  | .count => (s, .count s.count)
  | .sync => ({ s with theStore := { s.theStore with file := AppendOpt.sync s.theStore.file } }, .unit)

/-- A session. -/
def run (s : MI) : List Basic.Op → MI × List Basic.Out
  | [] => (s, [])
  | op :: ops =>
    let (s', o) := step s op
    let (s'', os) := run s' ops
    (s'', o :: os)

end MemIndexed

namespace TierZero

/-- tierzero.go:12-17 `TierZero`. -/
structure TZ where
  hashesFile : HF
  theMap : Bytes → Option Nat
  theSlice : List Bytes

/-- tierzero.go:51-58: the loading loop, from index `i` with `n` more to go; `none` = read error. -/
def loadLoop (tz : TZ) (i : Nat) : Nat → Option TZ
  | 0 => some tz
  | n+1 =>
    match HashFile.readHashAt tz.hashesFile i with
    | (_, none) => none
    | (hf, some hash) =>
      loadLoop { hashesFile := hf, theMap := mapSet tz.theMap hash i,
                 theSlice := tz.theSlice.set i hash } (i + 1) n

/-- tierzero.go:22-60 `NewTierZero` over a file with the given contents. -/
def new (data : Bytes) : Option TZ :=
  let hashesCount := data.length / 32
  loadLoop { hashesFile := HashFile.openHashFile data, theMap := fun _ => none,
             theSlice := List.replicate hashesCount (zeros 32) } 0 hashesCount

/-- Would this write go through the append buffer (memfile/appendoptimized.go:62 and 88)? The file is opened
with `O_APPEND` (tierzero.go:30), so a direct `os.File.WriteAt` returns an error. -/
def isBuffered (a : AppendOpt.AOF) (off : Nat) : Bool :=
  match a.buf with
  | some _ => off == a.nextAppend
  | none => off == a.totalSize

/-- tierzero.go:86-94 `AppendHash`; `none` = the write is refused (the map and slice have changed already).
After a refused write the buffer has been flushed (appendoptimized.go:79). -/
def appendHash (tz : TZ) (v : Bytes) : TZ × Option Nat :=
  let index := tz.theSlice.length
  let theMap := mapSet tz.theMap v index
  let theSlice := tz.theSlice ++ [v]
  if isBuffered tz.hashesFile.file (tz.hashesFile.hashCount * 32) then
    let (hf, i) := HashFile.appendHash tz.hashesFile v
    ({ hashesFile := hf, theMap, theSlice }, some i)
  else
    ({ hashesFile := { tz.hashesFile with file := AppendOpt.flush tz.hashesFile.file }, theMap, theSlice }, none)

/-- tierzero.go:62-68 `IndexOfHash`. -/
def indexOfHash (tz : TZ) (v : Bytes) : Found :=
  match tz.theMap v with
  | some i => .at i
  | none => .absent

/-- tierzero.go:70-76 `GetHashAtIndex` (`none` = error; indices are natural numbers). -/
def getHashAtIndex (tz : TZ) (i : Nat) : Option Bytes :=
  if i < tz.theSlice.length then tz.theSlice[i]? else none

/-- tierzero.go:78-80 `CountHashes`. -/
def countHashes (tz : TZ) : Nat := tz.theSlice.length

/-- Client operations, including closing and reopening. -/
inductive Op where
  | append (v : Bytes)
  | indexOf (v : Bytes)
  | get (i : Nat)
  | count
  | sync
  | reopen

/-- Client observations. -/
inductive Out where
  | index (i : Option Nat)
  | found (f : Found)
  | hash (v : Option Bytes)
  | count (n : Nat)
  | unit
deriving DecidableEq, Repr

/-- One client operation; `none` = reopening failed. -/
def step (tz : TZ) : Op → Option (TZ × Out)
  | .append v => let (tz, i) := appendHash tz v; some (tz, .index i)
  | .indexOf v => some (tz, .found (indexOfHash tz v))
  | .get i => some (tz, .hash (getHashAtIndex tz i))
  | .count => some (tz, .count (countHashes tz))
  | .sync => some ({ tz with hashesFile := { tz.hashesFile with
      file := AppendOpt.sync tz.hashesFile.file } }, .unit)
  | .reopen => (new (AppendOpt.close tz.hashesFile.file)).map (fun tz => (tz, .unit))

/-- A history. -/
def run (tz : TZ) : List Op → Option (TZ × List Out)
  | [] => some (tz, [])
  | op :: ops =>
    match step tz op with
    | none => none
    | some (tz', o) =>
      match run tz' ops with
      | none => none
      | some (tz'', os) => some (tz'', o :: os)

end TierZero

end Verif.HashStores
