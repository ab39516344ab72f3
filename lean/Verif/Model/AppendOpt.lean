import Verif.Model.Bytes

/-!
# memfile/appendoptimized.go

State machine of the append-optimised file.  Simplifications: operating-system I/O errors are not
modelled (every `os.File` call succeeds); offsets are natural numbers.
-/

namespace Verif.AppendOpt

/-- An `os.File`: contents plus the seek position used by `Write`/`Read` (not by `WriteAt`/`ReadAt`). -/
structure OsFile where
  data : Bytes
  pos : Nat
deriving Repr, DecidableEq

/-- `os.File.Write`: writes at the seek position and advances it. -/
def OsFile.write (f : OsFile) (d : Bytes) : OsFile :=
  { data := writeAt f.data f.pos d, pos := f.pos + d.length }

/-- Default buffer size of Go's `bufio.NewWriter`. -/
def bufCap : Nat := 4096

/-- `bufio.Writer.Write` (Go standard library) with pending bytes `pend`: fills the buffer, flushes when
full, and writes large remainders directly.  Returns the file and the new pending bytes. -/
def bufWrite (f : OsFile) (pend p : Bytes) : OsFile × Bytes :=
  if p.length ≤ bufCap - pend.length then (f, pend ++ p)
  else if pend = [] then (f.write p, [])
  else
    let n := bufCap - pend.length
    let f1 := f.write (pend ++ p.take n)
    let rest := p.drop n
    if rest.length ≤ bufCap then (f1, rest) else (f1.write rest, [])

/-- memfile/appendoptimized.go:9-14 `appendOptimizedFile`.  `buf = none` is a nil `bufferedWriter`;
`buf = some pending` holds the bytes not yet handed to the file. -/
structure AOF where
  file : OsFile
  buf : Option Bytes
  nextAppend : Nat
  totalSize : Nat
deriving Repr, DecidableEq

/-- memfile/appendoptimized.go:20-30 `NewAppendOptimizedFile` on a file with the given contents, freshly
opened (seek position 0). -/
def openFile (data : Bytes) : AOF :=
  { file := ⟨data, 0⟩, buf := none, nextAppend := 0, totalSize := data.length }

/-- memfile/appendoptimized.go:127-136 `flush`. -/
def flush (a : AOF) : AOF :=
  match a.buf with
  | none => a
  | some p => { a with file := if p = [] then a.file else a.file.write p, buf := none }

/-- memfile/appendoptimized.go:32-42 `ReadAt`: flushes, then reads up to `n` bytes at `off`
(fewer bytes than asked means `io.EOF`). -/
def readAt (a : AOF) (off n : Nat) : AOF × Bytes :=
  let a := flush a
  (a, (a.file.data.drop off).take n)

/-- memfile/appendoptimized.go:59-113 `WriteAt`. -/
def writeAt (a : AOF) (off : Nat) (p : Bytes) : AOF :=
  match a.buf with
  | some pend =>
    if off = a.nextAppend then
      let (f, pend') := bufWrite a.file pend p
      { a with file := f, buf := some pend', nextAppend := a.nextAppend + p.length,
               totalSize := a.totalSize + p.length }
    else
      let a := flush a
      { a with file := { a.file with data := Verif.writeAt a.file.data off p },
               totalSize := if off + p.length > a.totalSize then off + p.length else a.totalSize }
  | none =>
    if off = a.totalSize then
      -- `Seek(0, io.SeekEnd)` then a fresh `bufio.Writer`
      let (f, pend') := bufWrite { a.file with pos := a.file.data.length } [] p
      { file := f, buf := some pend', nextAppend := off + p.length, totalSize := a.totalSize + p.length }
    else
      { a with file := { a.file with data := Verif.writeAt a.file.data off p },
               totalSize := if off + p.length > a.totalSize then off + p.length else a.totalSize }

/-- memfile/appendoptimized.go:123-125 `Size`. -/
def size (a : AOF) : Nat := a.totalSize

/-- memfile/appendoptimized.go:138-148 `Sync`. -/
def sync (a : AOF) : AOF := flush a

/-- memfile/appendoptimized.go:115-121 `Close`: the bytes left on disk. -/
def close (a : AOF) : Bytes := (flush a).file.data

/-- memfile/appendoptimized.go:44-57 `ReadAll`: syncs, then `io.ReadFull` of `size` bytes from the
*current seek position*; `none` is the EOF error. -/
def readAll (a : AOF) : AOF × Option Bytes :=
  let a := sync a
  let f := a.file
  if f.pos = 0 ∨ f.data = [] then
    ({ a with file := { f with pos := f.pos + f.data.length } }, some f.data)
  else ({ a with file := { f with pos := max f.pos f.data.length } }, none)

/-- The operations a client can perform. -/
inductive Op where
  | readAt (off n : Nat)
  | writeAt (off : Nat) (p : Bytes)
  | size
  | sync

/-- What a client observes from one operation. -/
inductive Out where
  | bytes (b : Bytes)
  | size (n : Nat)
  | unit
deriving Repr, DecidableEq

/-- One client operation on the append-optimised file. -/
def step (a : AOF) : Op → AOF × Out
  | .readAt off n => let (a, b) := readAt a off n; (a, .bytes b)
  | .writeAt off p => (writeAt a off p, .unit)
  | .size => (a, .size (size a))
  | .sync => (sync a, .unit)

/-- A client session: the observations and the final state. -/
def run (a : AOF) : List Op → AOF × List Out
  | [] => (a, [])
  | op :: ops =>
    let (a', o) := step a op
    let (a'', os) := run a' ops
    (a'', o :: os)

end Verif.AppendOpt
