import Verif.Model.WordFile

/-!
# memfile/appendoptimized.go on a disk that can fail

The append-optimised file once more, now with every error return.  The disk answers each write and each `fsync` from a list
of fates, one per call: `none`, the call succeeds; `some k`, the first `k` bytes are written (at most all of them) and an error
comes back.  When the list is used up the disk works.  `Seek` is taken to succeed (its error is not looked at by the code), and
so are the reads of the operating system: a read error changes nothing and is passed on.
-/

namespace Verif.Faulty

open AppendOpt (OsFile AOF Op Out bufCap)

/-- What the disk will do with the calls to come. -/
abbrev Fates := List (Option Nat)

/-- `os.File` on such a disk. -/
structure Disk where
  file : OsFile
  fates : Fates
deriving Repr, DecidableEq

/-- `os.File.Write`: the bytes written, and whether it returned nil. -/
def Disk.write (d : Disk) (p : Bytes) : Disk × Nat × Bool :=
  match d.fates with
  | some k :: r => (⟨d.file.write (p.take k), r⟩, (p.take k).length, false)
  | none :: r => (⟨d.file.write p, r⟩, p.length, true)
  | [] => (⟨d.file.write p, []⟩, p.length, true)

/-- `os.File.WriteAt`: the bytes written, and whether it returned nil. -/
def Disk.writeAt (d : Disk) (off : Nat) (p : Bytes) : Disk × Nat × Bool :=
  match d.fates with
  | some k :: r => (⟨{ d.file with data := Verif.writeAt d.file.data off (p.take k) }, r⟩, (p.take k).length, false)
  | none :: r => (⟨{ d.file with data := Verif.writeAt d.file.data off p }, r⟩, p.length, true)
  | [] => (⟨{ d.file with data := Verif.writeAt d.file.data off p }, []⟩, p.length, true)

/-- `os.File.Sync`: whether it returned nil. -/
def Disk.fsync (d : Disk) : Disk × Bool :=
  match d.fates with
  | some _ :: r => ({ d with fates := r }, false)
  | none :: r => ({ d with fates := r }, true)
  | [] => (d, true)

/-- A `bufio.Writer`: the bytes not handed on yet, and whether it has met an error (it then refuses everything). -/
structure Writer where
  pend : Bytes
  failed : Bool
deriving Repr, DecidableEq

/-- `bufio.Writer.Flush` (Go standard library): on an error the bytes not written stay in the buffer and the error sticks. -/
def Writer.flush (d : Disk) (w : Writer) : Disk × Writer × Bool :=
  if w.failed = true then (d, w, false)
  else if w.pend = [] then (d, w, true)
  else
    match d.write w.pend with
    | (d, _, true) => (d, ⟨[], false⟩, true)
    | (d, n, false) => (d, ⟨w.pend.drop n, true⟩, false)

/-- `bufio.Writer.Write` on an empty buffer with more than it holds: straight to the file. -/
def direct (d : Disk) (p : Bytes) : Disk × Writer × Nat × Bool :=
  match d.write p with
  | (d, n, ok) => (d, ⟨[], !ok⟩, n, ok)

/-- `bufio.Writer.Write` (Go standard library): what it takes and whether it returned nil.  Its loop is unrolled: after a
direct write nothing is left, after filling and flushing the buffer is empty. -/
def Writer.write (d : Disk) (w : Writer) (p : Bytes) : Disk × Writer × Nat × Bool :=
  if w.failed = true then (d, w, 0, false)
  else if p.length ≤ bufCap - w.pend.length then (d, { w with pend := w.pend ++ p }, p.length, true)
  else if w.pend = [] then direct d p
  else
    let n := bufCap - w.pend.length
    match Writer.flush d { w with pend := w.pend ++ p.take n } with
    | (d, w, false) => (d, w, n, false)
    | (d, w, true) =>
      let rest := p.drop n
      if rest.length ≤ bufCap then (d, { w with pend := rest }, p.length, true)
      else
        match direct d rest with
        | (d, w, k, ok) => (d, w, n + k, ok)

/-- memfile/appendoptimized.go:9-14 `appendOptimizedFile`. -/
structure FF where
  disk : Disk
  buf : Option Writer
  nextAppend : Nat
  totalSize : Nat
deriving Repr, DecidableEq

/-- memfile/appendoptimized.go:20-30 `NewAppendOptimizedFile` on a freshly opened file. -/
def openFile (data : Bytes) (fates : Fates) : FF :=
  { disk := ⟨⟨data, 0⟩, fates⟩, buf := none, nextAppend := 0, totalSize := data.length }

/-- memfile/appendoptimized.go:127-136 `flush`: the writer is kept when flushing it fails. -/
def flush (a : FF) : FF × Bool :=
  match a.buf with
  | none => (a, true)
  | some w =>
    match w.flush a.disk with
    | (d, w, false) => ({ a with disk := d, buf := some w }, false)
    | (d, _, true) => ({ a with disk := d, buf := none }, true)

/-- memfile/appendoptimized.go:82-87, 105-110: the write that is not an append. -/
def writeElsewhere (a : FF) (off : Nat) (p : Bytes) : FF × Bool :=
  match a.disk.writeAt off p with
  | (d, n, ok) => ({ a with disk := d, totalSize := if off + n > a.totalSize then off + n else a.totalSize }, ok)

/-- memfile/appendoptimized.go:59-113 `WriteAt`. -/
def writeAt (a : FF) (off : Nat) (p : Bytes) : FF × Bool :=
  match a.buf with
  | some w =>
    if off = a.nextAppend then
      match w.write a.disk p with
      | (d, _, n, false) => ({ a with disk := d, buf := none, totalSize := a.totalSize + n }, false)
      | (d, w, n, true) =>
        ({ disk := d, buf := some w, nextAppend := a.nextAppend + n, totalSize := a.totalSize + n }, true)
    else
      match flush a with
      | (a, false) => (a, false)
      | (a, true) => writeElsewhere a off p
  | none =>
    if off = a.totalSize then
      match Writer.write { a.disk with file := { a.disk.file with pos := a.disk.file.data.length } } ⟨[], false⟩ p with
      | (d, _, n, false) => ({ a with disk := d, buf := none, totalSize := a.totalSize + n }, false)
      | (d, w, n, true) => ({ disk := d, buf := some w, nextAppend := off + n, totalSize := a.totalSize + n }, true)
    else writeElsewhere a off p

/-- memfile/appendoptimized.go:32-42 `ReadAt`. -/
def readAt (a : FF) (off n : Nat) : FF × Option Bytes :=
  match flush a with
  | (a, false) => (a, none)
  | (a, true) => (a, some ((a.disk.file.data.drop off).take n))

/-- memfile/appendoptimized.go:138-148 `Sync`. -/
def sync (a : FF) : FF × Bool :=
  match flush a with
  | (a, false) => (a, false)
  | (a, true) =>
    match a.disk.fsync with
    | (d, ok) => ({ a with disk := d }, ok)

/-- memfile/appendoptimized.go:115-121 `Close`: the bytes left on disk, and whether it returned nil (closing the file of the
operating system is taken to succeed). -/
def close (a : FF) : Bytes × Bool :=
  match flush a with
  | (a, ok) => (a.disk.file.data, ok)

/-- One call on the file; `none`: it returned an error. -/
def step (a : FF) : Op → FF × Option Out
  | .readAt off n => let (a, b) := readAt a off n; (a, b.map .bytes)
  | .writeAt off p => let (a, ok) := writeAt a off p; (a, if ok = true then some .unit else none)
  | .size => (a, some (.size a.totalSize))
  | .sync => let (a, ok) := sync a; (a, if ok = true then some .unit else none)

/-- A session: the client goes on after errors. -/
def run (a : FF) : List Op → FF × List (Option Out)
  | [] => (a, [])
  | op :: ops =>
    let (a', o) := step a op
    let (a'', os) := run a' ops
    (a'', o :: os)

end Verif.Faulty
