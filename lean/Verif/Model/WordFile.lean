import Verif.Model.Records
import Verif.Model.AppendOpt

/-!
# wordfile/wordfile.go, hashfile.go, memshadowedwordfile.go, concretewordfilecreator.go

Modelled on top of the append-optimised file (the file `OpenWordFile` really uses).
Offsets are natural numbers; OS errors are not modelled.
-/

namespace Verif.WordFile

open AppendOpt (AOF)

/-- wordfile/wordfile.go:12-20 `WordFile`.  `scratch8` is the shared buffer; `scratch` is its first
`wordSize` bytes (an alias in Go, so it is not a separate field). -/
structure WF where
  file : AOF
  wordSize : Nat
  wordCount : Nat
  scratch8 : Bytes
deriving Repr, DecidableEq

/-- wordfile/wordfile.go:22-31 `NewWordFile`. -/
def new (file : AOF) (wordSize wordCount : Nat) : WF :=
  { file, wordSize, wordCount, scratch8 := zeros 8 }

/-- wordfile/wordfile.go:44-51 `ReadWordAt`; `none` is the EOF error.  The read fills the first `wordSize`
bytes of `scratch8` (fewer on a short read) and all eight bytes are decoded. -/
def readWordAt (w : WF) (off : Nat) : WF × Option Int :=
  let (file, bs) := AppendOpt.readAt w.file (off * w.wordSize) w.wordSize
  let scratch8 := bs ++ w.scratch8.drop bs.length
  let w := { w with file, scratch8 }
  if bs.length < w.wordSize then (w, none) else (w, some (ofU64 (leDec scratch8)))

/-- wordfile/wordfile.go:53-63 `WriteWordAt`. -/
def writeWordAt (w : WF) (val : Int) (off : Nat) : WF :=
  let scratch8 := leEnc 8 (toU64 val)
  { w with
    scratch8
    file := AppendOpt.writeAt w.file (off * w.wordSize) (scratch8.take w.wordSize)
    wordCount := if off + 1 > w.wordCount then off + 1 else w.wordCount }

/-- wordfile/wordfile.go:65-67 `CountWords`. -/
def countWords (w : WF) : Nat := w.wordCount

/-- wordfile/concretewordfilecreator.go:126-139 `countWords` (file length to word count; `none` is the
error "file is not a whole number of words"). -/
def fileWordCount (wordSize fileSize : Nat) : Option Nat :=
  if fileSize % wordSize ≠ 0 then none else some (fileSize / wordSize)

/-- wordfile/concretewordfilecreator.go:75-101 `OpenWordFile` (not memory-shadowed) on a file with the
given contents. -/
def openWordFile (wordSize : Nat) (data : Bytes) : Option WF :=
  match fileWordCount wordSize data.length with
  | none => none
  | some n => some (new (AppendOpt.openFile data) wordSize n)

/-- wordfile/wordfile.go:69-76 `Close`: the bytes left on disk. -/
def close (w : WF) : Bytes := AppendOpt.close w.file

/-- wordfile/concretewordfilecreator.go:140-162 `CreateWordFileFilledZeros`: `Truncate(count*wordSize)`
of a new file gives zero bytes. -/
def createFilledZeros (wordSize count : Nat) : Bytes := zeros (count * wordSize)

/-- Client operations on a word file. -/
inductive Op where
  | read (off : Nat)
  | write (val : Int) (off : Nat)
  | count
  | sync

/-- Client observations (`value none` is an EOF error). -/
inductive Out where
  | value (v : Option Int)
  | count (n : Nat)
  | unit
deriving Repr, DecidableEq

/-- One client operation. -/
def step (w : WF) : Op → WF × Out
  | .read off => let (w, v) := readWordAt w off; (w, .value v)
  | .write v off => (writeWordAt w v off, .unit)
  | .count => (w, .count (countWords w))
  | .sync => ({ w with file := AppendOpt.sync w.file }, .unit)

/-- A session. -/
def run (w : WF) : List Op → WF × List Out
  | [] => (w, [])
  | op :: ops =>
    let (w', o) := step w op
    let (w'', os) := run w' ops
    (w'', o :: os)

/-- wordfile/memshadowedwordfile.go:8-11 `MemShadowedWordFile`. -/
structure Shadow where
  underlying : WF
  shadow : List Int

/-- wordfile/memshadowedwordfile.go:16-23: the loop filling the shadow by reading every word. -/
def fillShadow (w : WF) : List Nat → Option (WF × List Int)
  | [] => some (w, [])
  | i :: is =>
    match readWordAt w i with
    | (_, none) => none
    | (w', some v) => (fillShadow w' is).map fun (w'', vs) => (w'', v :: vs)

/-- wordfile/memshadowedwordfile.go:13-25 `NewMemShadowedWordFile`. -/
def newShadow (file : AOF) (wordSize wordCount : Nat) : Option Shadow :=
  (fillShadow (new file wordSize wordCount) (List.range wordCount)).map fun (w, vs) => ⟨w, vs⟩

/-- wordfile/concretewordfilecreator.go:75-101 `OpenWordFile` (memory-shadowed). -/
def openShadow (wordSize : Nat) (data : Bytes) : Option Shadow :=
  match fileWordCount wordSize data.length with
  | none => none
  | some n => newShadow (AppendOpt.openFile data) wordSize n

/-- wordfile/memshadowedwordfile.go:27-30 `ReadWordAt`; `none` is the Go slice-bounds panic. -/
def Shadow.readWordAt (s : Shadow) (off : Nat) : Option Int := s.shadow[off]?

/-- wordfile/memshadowedwordfile.go:36-49 `WriteWordAt`. -/
def Shadow.writeWordAt (s : Shadow) (val : Int) (off : Nat) : Shadow :=
  let length := s.shadow.length
  let shadow := if off ≥ length then s.shadow ++ List.replicate (off + 1 - length) 0 else s.shadow
  { shadow := shadow.set off val, underlying := WordFile.writeWordAt s.underlying val off }

/-- One client operation on the shadowed file (an out-of-range read is reported as `value none`; in Go it
is a panic rather than an EOF error). -/
def Shadow.step (s : Shadow) : Op → Shadow × Out
  | .read off => (s, .value (s.readWordAt off))
  | .write v off => (s.writeWordAt v off, .unit)
  | .count => (s, .count (countWords s.underlying))
  | .sync => ({ s with underlying := { s.underlying with file := AppendOpt.sync s.underlying.file } }, .unit)

/-- A session on the shadowed file. -/
def Shadow.run (s : Shadow) : List Op → Shadow × List Out
  | [] => (s, [])
  | op :: ops =>
    let (s', o) := Shadow.step s op
    let (s'', os) := Shadow.run s' ops
    (s'', o :: os)

end Verif.WordFile

namespace Verif.HashFile

open AppendOpt (AOF)

/-- wordfile/hashfile.go:7-12 `HashFile` (its `scratch` is always fully overwritten before use, so it is
not modelled). -/
structure HF where
  file : AOF
  hashCount : Nat
deriving Repr, DecidableEq

/-- wordfile/hashfile.go:22-31 `ReadHashAt`; `none` is the EOF error. -/
def readHashAt (h : HF) (off : Nat) : HF × Option Bytes :=
  let (file, bs) := AppendOpt.readAt h.file (off * 32) 32
  ({ h with file }, if bs.length < 32 then none else some bs)

/-- wordfile/hashfile.go:33-44 `WriteHashAt`. -/
def writeHashAt (h : HF) (val : Bytes) (off : Nat) : HF :=
  { file := AppendOpt.writeAt h.file (off * 32) val
    hashCount := if off + 1 > h.hashCount then off + 1 else h.hashCount }

/-- wordfile/hashfile.go:62-69 `AppendHash`: returns the index used. -/
def appendHash (h : HF) (val : Bytes) : HF × Nat := (writeHashAt h val h.hashCount, h.hashCount)

/-- wordfile/hashfile.go:46-48 `CountHashes`. -/
def countHashes (h : HF) : Nat := h.hashCount

/-- Opening a hash file over existing contents (count = length / 32). -/
def openHashFile (data : Bytes) : HF := { file := AppendOpt.openFile data, hashCount := data.length / 32 }

/-- Client operations. -/
inductive Op where
  | read (off : Nat)
  | write (val : Bytes) (off : Nat)
  | append (val : Bytes)
  | count
  | sync

/-- Client observations. -/
inductive Out where
  | hash (v : Option Bytes)
  | index (i : Nat)
  | count (n : Nat)
  | unit
deriving Repr, DecidableEq

/-- One client operation. -/
def step (h : HF) : Op → HF × Out
  | .read off => let (h, v) := readHashAt h off; (h, .hash v)
  | .write v off => (writeHashAt h v off, .unit)
  | .append v => let (h, i) := appendHash h v; (h, .index i)
  | .count => (h, .count (countHashes h))
  | .sync => ({ h with file := AppendOpt.sync h.file }, .unit)

/-- A session. -/
def run (h : HF) : List Op → HF × List Out
  | [] => (h, [])
  | op :: ops =>
    let (h', o) := step h op
    let (h'', os) := run h' ops
    (h'', o :: os)

end Verif.HashFile
