import Verif.Model.WordFile

/-!
# Word files opened for reading only: memfile/filewithsize.go, memfile/mmapfile.go,
wordfile/concretemmapcreator.go and the read-only half of wordfile/concretewordfilecreator.go

One file on disk; a reader opened on it by one of the three openings the creators offer, while somebody
else goes on writing the file.  Offsets are Go `int64`s, so `off*wordSize` wraps.

Not modelled: OS errors, a file truncated under a memory map (a bus error), two goroutines in the scratch
buffer of one reader.
-/

namespace Verif.ROWords

/-- Which opening: concretewordfilecreator.go:102-125 without and with `memShadowed`, and
concretemmapcreator.go:65-85. -/
inductive Kind where
  | plain
  | shadowed
  | mapped
deriving Repr, DecidableEq

/-- What a call gives: a value, an error, or a Go panic. -/
inductive Res (α : Type) where
  | ok (a : α)
  | err
  | panic
deriving Repr, DecidableEq

/-- Go `int64` multiplication. -/
def mul64 (a b : Int) : Int := ofU64 (toU64 (a * b))

/-- wordfile.go:12-20 `WordFile` and memshadowedwordfile.go:8-11 `MemShadowedWordFile`.  `mapLen` is the
length of the mapped slice (mmapfile.go:10-13), `cursor` the read position of the `os.File` (moved only by
`io.ReadFull`, not by `ReadAt`), `shadow` the shadow slice. -/
structure Reader where
  kind : Kind
  wordSize : Nat
  wordCount : Nat
  scratch8 : Bytes
  mapLen : Nat
  cursor : Nat
  shadow : List Int
deriving Repr, DecidableEq

/-- `os.File.ReadAt` through filewithsize.go:22-24: the bytes read, none at a negative offset (an error)
or past the end. -/
def fileReadAt (disk : Bytes) (off : Int) (n : Nat) : Bytes :=
  if off < 0 then [] else slice disk off.toNat n

/-- mmapfile.go:31-40 `MmapReadOnly.ReadAt`: the bytes copied; `none` is the slice-bounds panic at a
negative offset.  The map is shared, so it shows what the file holds now, within its own length. -/
def mapReadAt (disk : Bytes) (mapLen : Nat) (off : Int) (n : Nat) : Option Bytes :=
  if off ≥ mapLen then some []
  else if off < 0 then none
  else some (slice (disk.take mapLen) off.toNat n)

/-- The second half of wordfile.go:44-51 `ReadWordAt`: fewer bytes than a word is the EOF error. -/
def decodeWord (r : Reader) (bs : Bytes) : Reader × Res Int :=
  let scratch8 := bs ++ r.scratch8.drop bs.length
  ({ r with scratch8 },
    if bs.length < r.wordSize then .err else .ok (ofU64 (leDec scratch8)))

/-- wordfile.go:44-51 `WordFile.ReadWordAt` on an `os.File`. -/
def readFile (disk : Bytes) (r : Reader) (off : Int) : Reader × Res Int :=
  decodeWord r (fileReadAt disk (mul64 off r.wordSize) r.wordSize)

/-- wordfile.go:44-51 `WordFile.ReadWordAt` on a map. -/
def readMap (disk : Bytes) (r : Reader) (off : Int) : Reader × Res Int :=
  match mapReadAt disk r.mapLen (mul64 off r.wordSize) r.wordSize with
  | none => (r, .panic)
  | some bs => decodeWord r bs

/-- memshadowedwordfile.go:27-30 `ReadWordAt`: index the shadow slice. -/
def readShadow (r : Reader) (off : Int) : Reader × Res Int :=
  if off < 0 then (r, .panic)
  else match r.shadow[off.toNat]? with
    | none => (r, .panic)
    | some v => (r, .ok v)

/-- `ReadWordAt` of the reader the creator gave. -/
def readWordAt (disk : Bytes) (r : Reader) (off : Int) : Reader × Res Int :=
  match r.kind with
  | .plain => readFile disk r off
  | .shadowed => readShadow r off
  | .mapped => readMap disk r off

/-- wordfile.go:65-67 `CountWords`. -/
def countWords (r : Reader) : Nat := r.wordCount

/-- memshadowedwordfile.go:17-23: the loop filling the shadow; `none` is the error. -/
def fill (disk : Bytes) (r : Reader) : List Nat → Option (Reader × List Int)
  | [] => some (r, [])
  | i :: is =>
    match readFile disk r i with
    | (r', .ok v) => (fill disk r' is).map fun p => (p.1, v :: p.2)
    | _ => none

/-- wordfile.go:22-42 `NewWordFile`, `NewWordFileEx`. -/
def newReader (kind : Kind) (wordSize wordCount mapLen : Nat) : Reader :=
  { kind, wordSize, wordCount, scratch8 := zeros 8, mapLen, cursor := 0, shadow := [] }

/-- concretewordfilecreator.go:102-125 and concretemmapcreator.go:65-85 `OpenWordFileReadOnly` on the file
(`none`: there is none).  The creators refuse a word size of zero with a panic (lines 22-24, 21-23); a word
size above eight panics in `scratch8[0:wordSize]`, after the file has been counted and mapped; mapping an
empty file is an error of the operating system. -/
def openReadOnly (kind : Kind) (wordSize : Nat) (file : Option Bytes) : Res Reader :=
  if wordSize = 0 then .panic
  else match file with
  | none => .err
  | some disk =>
    match WordFile.fileWordCount wordSize disk.length with
    | none => .err
    | some n =>
      match kind with
      | .plain => if wordSize > 8 then .panic else .ok (newReader .plain wordSize n 0)
      | .mapped =>
        if disk.length = 0 then .err
        else if wordSize > 8 then .panic else .ok (newReader .mapped wordSize n disk.length)
      | .shadowed =>
        if wordSize > 8 then .panic
        else match fill disk (newReader .shadowed wordSize n 0) (List.range n) with
          | none => .err
          | some (r, vs) => .ok { r with shadow := vs }

/-- wordfile.go:94-101: the loop cutting the bytes read into words. -/
def cutWords (wordSize : Nat) (data : Bytes) : List Int :=
  (List.range (data.length / wordSize)).map fun i =>
    let part := slice data (i * wordSize) wordSize
    ofU64 (leDec (part ++ zeros (8 - part.length)))

/-- wordfile.go:86-103 `ReadWholeFileAsInt64s` (memshadowedwordfile.go:32-34 delegates).  A mapped word
file has no `os.File` (`NewWordFileEx` stores nil), so `info` is nil and `info.Size()` panics.
`io.ReadFull` reads from the cursor and errs unless it gets as many bytes as the whole file has. -/
def readWhole (disk : Bytes) (r : Reader) : Reader × Res (List Int) :=
  match r.kind with
  | .mapped => (r, .panic)
  | _ =>
    let data := (disk.drop r.cursor).take disk.length
    let r' := { r with cursor := r.cursor + data.length }
    if data.length < disk.length then (r', .err) else (r', .ok (cutWords r.wordSize data))

/-- What happens while the reader is open: its own calls, and writes of somebody else, after which the file
holds `disk`. -/
inductive Event where
  | read (off : Int)
  | count
  | whole
  | write (disk : Bytes)

/-- What the reader's client sees. -/
inductive Out where
  | word (v : Res Int)
  | count (n : Nat)
  | words (l : Res (List Int))
deriving Repr, DecidableEq

/-- One event. -/
def step (s : Bytes × Reader) : Event → (Bytes × Reader) × List Out
  | .read off => let p := readWordAt s.1 s.2 off; ((s.1, p.1), [.word p.2])
  | .count => (s, [.count (countWords s.2)])
  | .whole => let p := readWhole s.1 s.2; ((s.1, p.1), [.words p.2])
  | .write d => ((d, s.2), [])

/-- A history. -/
def run (s : Bytes × Reader) : List Event → (Bytes × Reader) × List Out
  | [] => (s, [])
  | e :: es =>
    let (s', o) := step s e
    let (s'', os) := run s' es
    (s'', o ++ os)

/-- Calls on a creator: concretewordfilecreator.go and concretemmapcreator.go. -/
inductive CreatorOp where
  | exists_
  | create
  | createZeros (count : Nat)
  | openReadOnly
  | openReadWrite

/-- What a creator call reports. -/
inductive CreatorOut where
  | bool (b : Bool)
  | done
  | reader (words : Nat)
  | failed
deriving Repr, DecidableEq

/-- One call on the creator that `NewConcreteWordFileCreator` (concretewordfilecreator.go:21-39) returns;
`holdInRam` selects the memory-map creator, whose `OpenWordFile` and `CreateWordFileFilledZeros`
(concretemmapcreator.go:87-93) only give errors. -/
def creatorStep (holdInRam : Bool) (wordSize : Nat) (file : Option Bytes) :
    CreatorOp → Option Bytes × CreatorOut
  | .exists_ => (file, .bool file.isSome)
  | .create => (some [], .done)
  | .createZeros n =>
    if holdInRam then (file, .failed) else (some (WordFile.createFilledZeros wordSize n), .done)
  | .openReadOnly =>
    match openReadOnly (if holdInRam then .mapped else .plain) wordSize file with
    | .ok r => (file, .reader r.wordCount)
    | _ => (file, .failed)
  | .openReadWrite =>
    if holdInRam then (file, .failed)
    else match file with
      | none => (file, .failed)
      | some d =>
        match WordFile.openWordFile wordSize d with
        | none => (file, .failed)
        | some w => (file, .reader w.wordCount)

/-- Calls on a creator, one after the other. -/
def creatorRun (holdInRam : Bool) (wordSize : Nat) (file : Option Bytes) :
    List CreatorOp → Option Bytes × List CreatorOut
  | [] => (file, [])
  | op :: ops =>
    let (f, o) := creatorStep holdInRam wordSize file op
    let (f', os) := creatorRun holdInRam wordSize f ops
    (f', o :: os)

end Verif.ROWords
