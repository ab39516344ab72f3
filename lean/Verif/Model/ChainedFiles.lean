import Verif.Model.ChainedHashStore

/-!
# The files of the lookup-file / collision-chunk hash store

Models indexedhashes/hashstore.go, concretehashstorecreator.go and memfile/fixedsize.go at the level of the bytes of the
three files, over closing, killing and opening again. `Verif.ChainedHashStore` is the same store with the files as arrays of
words; here nothing is assumed about what is read, and the lookup file may be one that is held in memory.

Simplifications: the operating system gives no errors other than reading past the end; entries have at most 7 bytes
(`entryByteCount` of 8 or more is refused, see `appendHash`) and there is at least one collision per chunk where a chain is
followed; `partialHashBitCount ≤ 63`; offsets are below 2^63. When the program is killed, what it has written is kept by the
operating system; what becomes of unsynchronized files when the machine stops is not modelled. The read-only opening
(concretehashstorecreator.go:141-177) is the opening with plain files of which only the reading methods can be used.
-/

namespace Verif.ChainedFiles

open ChainedHashStore (Params Res msb keyOf hasMsb zeroBuf)
open HashStores (Found)
open AppendOpt (AOF)

/-- The three files on disk. -/
structure Disk where
  hsh : Bytes
  lkp : Bytes
  cls : Bytes
deriving Repr, DecidableEq

/-- concretehashstorecreator.go:53-89 `CreateHashStore`. -/
def create (p : Params) : Disk := ⟨[], zeros (p.nbytes * 2 ^ p.nbits), []⟩

/-- concretehashstorecreator.go:104-109: the hashes file as it is opened, plain or append-optimized. -/
inductive Hsh where
  | plain (data : Bytes)
  | opt (a : AOF)
deriving Repr, DecidableEq

/-- concretehashstorecreator.go:111-118: the lookup file as it is opened. `mem` is memfile/fixedsize.go:8-12: the buffer, the
memory behind it up to the capacity that `os.ReadFile` happened to give it, and what is on disk meanwhile. -/
inductive Lkp where
  | file (data : Bytes)
  | mem (buffer slack disk : Bytes)
deriving Repr, DecidableEq

/-- hashstore.go:11-18 with the parts of the hashes file. -/
structure Store where
  hsh : Hsh
  count : Nat
  lkp : Lkp
  cls : Bytes
deriving Repr, DecidableEq

/-- wordfile/hashfile.go:22-31 `ReadHashAt`; `none` is the error. -/
def readHash : Hsh → Nat → Hsh × Option Bytes
  | .plain d, i => (.plain d, Verif.readAt d (i * 32) 32)
  | .opt a, i => (.opt (AppendOpt.readAt a (i * 32) 32).1,
      if (AppendOpt.readAt a (i * 32) 32).2.length < 32 then none else some (AppendOpt.readAt a (i * 32) 32).2)

/-- wordfile/hashfile.go:33-39 `WriteHashAt` (the count is kept in `Store`). -/
def writeHash : Hsh → Nat → Bytes → Hsh
  | .plain d, i, v => .plain (Verif.writeAt d (i * 32) v)
  | .opt a, i, v => .opt (AppendOpt.writeAt a (i * 32) v)

/-- `os.File.ReadAt`, and memfile/fixedsize.go:27-33 `ReadAt`: slicing beyond the capacity panics, slicing into the slack
does not. -/
def Lkp.readAt : Lkp → Nat → Nat → Res Bytes
  | .file d, off, n =>
    match Verif.readAt d off n with
    | some b => .ok b
    | none => .err
  | .mem b s _, off, n => if off + n ≤ b.length + s.length then .ok (((b ++ s).drop off).take n) else .panicked

/-- `os.File.WriteAt`, and memfile/fixedsize.go:35-41 `WriteAt`. -/
def Lkp.writeAt : Lkp → Nat → Bytes → Res Lkp
  | .file d, off, v => .ok (.file (Verif.writeAt d off v))
  | .mem b s disk, off, v =>
    if off + v.length ≤ b.length + s.length then
      .ok (.mem ((Verif.writeAt (b ++ s) off v).take b.length) ((Verif.writeAt (b ++ s) off v).drop b.length) disk)
    else .panicked

/-- hashstore.go:167-176, 230-243: the first slot from `j` that holds zero, among `n`. -/
def firstZero (nb : Nat) (chunk : Bytes) : Nat → Nat → Option Nat
  | _, 0 => none
  | j, n + 1 => if leDec ((chunk.drop (j * nb)).take nb) = 0 then some j else firstZero nb chunk (j + 1) n

/-- hashstore.go:151-244: follow the chain to a vacant slot, adding a chunk of zeros if there is none; returns the collisions
file, the chunk and the slot. The loop of the code has no bound, `fuel` bounds the chunks visited. -/
def findSlot (p : Params) (cls : Bytes) : Nat → Nat → Res (Bytes × Nat × Nat)
  | 0, _ => .hang
  | fuel + 1, chunk =>
    match Verif.readAt cls (chunk * (p.cpc + 1) * p.nbytes) (p.nbytes * (p.cpc + 1)) with
    | none => .err
    | some b =>
      match firstZero p.nbytes b 0 p.cpc with
      | some j => .ok (cls, chunk, j)
      | none =>
        let next := leDec ((b.drop (p.cpc * p.nbytes)).take p.nbytes)
        if next = 0 then
          let available := cls.length / (p.nbytes * (p.cpc + 1))
          if p.nbytes * (p.cpc + 1) > zeroBuf then .panicked
          else
            let cls1 := Verif.writeAt cls cls.length (zeros (p.nbytes * (p.cpc + 1)))
            .ok (Verif.writeAt cls1 ((chunk * (p.cpc + 1) + p.cpc) * p.nbytes) (leEnc p.nbytes (available + 1)), available, 0)
        else findSlot p cls fuel (next - 1)

/-- hashstore.go:97-145: the first collision, a new chunk with the two entries. -/
def firstCollision (p : Params) (s : Store) (lb : Bytes) (key index : Nat) : Res Store :=
  let size := s.cls.length
  let available := size / (p.nbytes * (p.cpc + 1))
  if available + 1 ≥ msb p then .err
  else
    match s.lkp.writeAt (key * p.nbytes) (leEnc p.nbytes ((available + 1) ||| msb p)) with
    | .ok lkp =>
      let cls1 := Verif.writeAt s.cls size lb
      let cls2 := Verif.writeAt cls1 (size + p.nbytes) (leEnc p.nbytes (index + 1))
      if p.cpc = 0 ∨ (p.cpc - 1) * p.nbytes > zeroBuf then .panicked
      else .ok { s with lkp := lkp, cls := Verif.writeAt cls2 (size + p.nbytes * 2) (zeros ((p.cpc - 1) * p.nbytes)) }
    | .err => .err
    | .panicked => .panicked
    | .hang => .hang

/-- hashstore.go:146-253: a further collision. -/
def furtherCollision (p : Params) (s : Store) (lookup index : Nat) : Res Store :=
  let link := lookup - msb p
  if link = 0 then .err
  else
    match findSlot p s.cls (s.cls.length / p.nbytes + 1) (link - 1) with
    | .ok (cls, chunk, j) =>
      .ok { s with cls := Verif.writeAt cls ((chunk * (p.cpc + 1) + j) * p.nbytes) (leEnc p.nbytes (index + 1)) }
    | .err => .err
    | .panicked => .panicked
    | .hang => .hang

/-- hashstore.go:79-254: `AppendHash` after the hash has been written at `index`. -/
def indexIt (p : Params) (s : Store) (key index : Nat) : Res Store :=
  match s.lkp.readAt (key * p.nbytes) p.nbytes with
  | .ok lb =>
    let lookup := leDec lb
    if lookup = 0 then
      match s.lkp.writeAt (key * p.nbytes) (leEnc p.nbytes (index + 1)) with
      | .ok lkp => .ok { s with lkp := lkp }
      | .err => .err
      | .panicked => .panicked
      | .hang => .hang
    else if hasMsb p lookup = false then firstCollision p s lb key index
    else furtherCollision p s lookup index
  | .err => .err
  | .panicked => .panicked
  | .hang => .hang

/-- hashstore.go:35-255 `AppendHash`. -/
def appendHash (p : Params) (s : Store) (h : Bytes) : Res (Store × Nat) :=
  let index := s.count
  let s := { s with hsh := writeHash s.hsh index h, count := index + 1 }
  if p.nbytes = 0 then .panicked
  else if p.nbytes ≥ 8 ∨ index ≥ msb p then .err
  else if p.cpc > 8 then .err
  else
    match indexIt p s (keyOf p h) index with
    | .ok s => .ok (s, index)
    | .err => .err
    | .panicked => .panicked
    | .hang => .hang

/-- Outcome of scanning one chunk. -/
inductive Scan where
  | done (f : Found)
  | link (w : Nat)
deriving DecidableEq, Repr

/-- hashstore.go:313-350: entries `j ..` of the chunk at word `base`, `n` collision slots left. Reading a hash may flush the
hashes file. -/
def scanSlots (p : Params) (cls : Bytes) (v : Bytes) (base : Nat) : Hsh → Nat → Nat → Hsh × Scan
  | hsh, j, 0 =>
    match Verif.readAt cls ((base + j) * p.nbytes) p.nbytes with
    | none => (hsh, .done .err)
    | some b => if leDec b = 0 then (hsh, .done .absent) else (hsh, .link (leDec b))
  | hsh, j, n + 1 =>
    match Verif.readAt cls ((base + j) * p.nbytes) p.nbytes with
    | none => (hsh, .done .err)
    | some b =>
      if leDec b = 0 then (hsh, .done .absent)
      else
        match readHash hsh (leDec b - 1) with
        | (hsh', none) => (hsh', .done .err)
        | (hsh', some h) => if h = v then (hsh', .done (.at (leDec b - 1))) else scanSlots p cls v base hsh' (j + 1) n

/-- hashstore.go:309-353: follow the chain of chunks; `none` is still following after `fuel` chunks. -/
def searchChain (p : Params) (cls : Bytes) (v : Bytes) : Nat → Hsh → Nat → Hsh × Option Found
  | 0, hsh, _ => (hsh, none)
  | fuel + 1, hsh, link =>
    if link = 0 then (hsh, some .absent)
    else
      match scanSlots p cls v ((link - 1) * (p.cpc + 1)) hsh 0 p.cpc with
      | (hsh', .done f) => (hsh', some f)
      | (hsh', .link w) => searchChain p cls v fuel hsh' w

/-- What `IndexOfHash` comes to. -/
inductive Ans where
  | found (f : Found)
  | panicked
  | hang
deriving DecidableEq, Repr

/-- hashstore.go:258-355 `IndexOfHash`; `hang` is not coming to an end within as many chunks as there are words in the
collisions file. -/
def indexOfHash (p : Params) (s : Store) (v : Bytes) : Store × Ans :=
  match s.lkp.readAt (keyOf p v * p.nbytes) p.nbytes with
  | .ok lb =>
    let lookup := leDec lb
    if hasMsb p lookup = false then
      if lookup = 0 then (s, .found .absent)
      else
        match readHash s.hsh (lookup - 1) with
        | (hsh, none) => ({ s with hsh := hsh }, .found .err)
        | (hsh, some h) =>
          if h = v then ({ s with hsh := hsh }, .found (.at (lookup - 1))) else ({ s with hsh := hsh }, .found .absent)
    else
      match searchChain p s.cls v (s.cls.length / p.nbytes + 1) s.hsh (lookup - msb p) with
      | (hsh, some f) => ({ s with hsh := hsh }, .found f)
      | (hsh, none) => ({ s with hsh := hsh }, .hang)
  | .err => (s, .found .err)
  | .panicked => (s, .panicked)
  | .hang => (s, .hang)

/-- hashstore.go:396-408 `Sync`: the collisions and the hashes, not the lookups. -/
def sync (s : Store) : Store :=
  match s.hsh with
  | .plain _ => s
  | .opt a => { s with hsh := .opt (AppendOpt.sync a) }

/-- hashstore.go:368-386 `Close`, memfile/fixedsize.go:43-45: what is left on disk. -/
def close (s : Store) : Disk :=
  { hsh := match s.hsh with
      | .plain d => d
      | .opt a => AppendOpt.close a
    lkp := match s.lkp with
      | .file d => d
      | .mem b _ _ => b
    cls := s.cls }

/-- What is on disk when the program is killed. -/
def kill (s : Store) : Disk :=
  { hsh := match s.hsh with
      | .plain d => d
      | .opt a => a.file.data
    lkp := match s.lkp with
      | .file d => d
      | .mem _ _ d => d
    cls := s.cls }

/-- How the store is opened: `useMemFileForLookup` (with what memory is behind the buffer) and `useAppendOptimizedForHashes`.
concretehashstorecreator.go:10-18. -/
structure Mode where
  mem : Option Bytes
  opt : Bool
deriving Repr, DecidableEq

/-- concretehashstorecreator.go:91-140 `OpenHashStore`. -/
def openStore (m : Mode) (d : Disk) : Store :=
  { hsh := if m.opt = true then .opt (AppendOpt.openFile d.hsh) else .plain d.hsh
    count := d.hsh.length / 32
    lkp := match m.mem with
      | some slack => .mem d.lkp slack d.lkp
      | none => .file d.lkp
    cls := d.cls }

/-- What a client can do. -/
inductive Op where
  | append (h : Bytes)
  | indexOf (h : Bytes)
  | get (i : Nat)
  | count
  | sync
  /-- Close the store and open it again. -/
  | reopen (m : Mode)
  /-- The program is killed and the store opened again. -/
  | killed (m : Mode)

/-- What a client sees. -/
inductive Out where
  | index (i : Nat)
  | found (f : Found)
  | hash (v : Option Bytes)
  | count (n : Nat)
  | unit
  /-- An append that failed, a panic or an endless loop. -/
  | failed
deriving DecidableEq, Repr

/-- One operation. What the store is like after a failed append is not modelled (it does not happen in the theorems). -/
def step (p : Params) (s : Store) : Op → Store × Out
  | .append h =>
    match appendHash p s h with
    | .ok (s', i) => (s', .index i)
    | .err => (s, .failed)
    | .panicked => (s, .failed)
    | .hang => (s, .failed)
  | .indexOf h =>
    match indexOfHash p s h with
    | (s', .found f) => (s', .found f)
    | (s', .panicked) => (s', .failed)
    | (s', .hang) => (s', .failed)
  | .get i => ({ s with hsh := (readHash s.hsh i).1 }, .hash (readHash s.hsh i).2)
  | .count => (s, .count s.count)
  | .sync => (sync s, .unit)
  | .reopen m => (openStore m (close s), .unit)
  | .killed m => (openStore m (kill s), .unit)

/-- Several operations. -/
def run (p : Params) (s : Store) : List Op → Store × List Out
  | [] => (s, [])
  | op :: ops => ((run p (step p s op).1 ops).1, (step p s op).2 :: (run p (step p s op).1 ops).2)

end Verif.ChainedFiles
