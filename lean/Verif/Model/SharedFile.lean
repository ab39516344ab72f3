import Verif.Model.Bytes

/-!
# A word file or hash file used by several goroutines

wordfile/wordfile.go:44-64 (`ReadWordAt`, `WriteWordAt`) and wordfile/hashfile.go:22-48 (`ReadHashAt`, `WriteHashAt`) go
through one scratch buffer per file object, without a lock. Here each call is cut into the single byte moves it is made of,
in any order, and the moves of the goroutines are interleaved in any way.

Simplifications. The file below is a plain array of bytes (what C01 shows of it for one goroutine), so the further races
inside an append-optimised file's own buffer are left out. A write makes the file longer when it ends, not in the middle. The
count of words (wordfile.go:60-62) is left out. The eight byte load and store of wordfile.go:49 and :54 are taken byte by
byte as well; the schedules of the theorems that refute something do them without interruption.
-/

namespace Verif.SharedFile

/-- The file, and the scratch buffer of the object it is used through (wordfile.go:13-21, hashfile.go:7-12). -/
structure Shared where
  byte : Nat → UInt8
  length : Nat
  scratch : Nat → UInt8

/-- A call: the record at an offset is read, or bytes are written there. -/
inductive Call
  | read (off : Nat)
  | write (off : Nat) (bytes : Nat → UInt8)

/-- Where a goroutine is. `todo` are the bytes still to be moved. -/
inductive Phase
  | idle
  /-- `file.ReadAt(scratch, off*wordSize)` (wordfile.go:45, hashfile.go:24) -/
  | fill (off : Nat) (todo : List Nat)
  /-- `LittleEndian.Uint64(scratch8)` (wordfile.go:49), `copy(hashBytes, scratch)` (hashfile.go:29) -/
  | take (off : Nat) (todo : List Nat) (got : Nat → UInt8)
  /-- `PutUint64(scratch8, val)` (wordfile.go:54), `copy(scratch, val)` (hashfile.go:35) -/
  | put (off : Nat) (bytes : Nat → UInt8) (todo : List Nat)
  /-- `file.WriteAt(scratch, off*wordSize)` (wordfile.go:55, hashfile.go:36) -/
  | store (off : Nat) (bytes : Nat → UInt8) (todo : List Nat)

/-- What came back from a call: a record, an error, or nothing but success. -/
inductive Answer
  | record (off : Nat) (bytes : List UInt8)
  | failed (off : Nat)
  | written (off : Nat)
deriving DecidableEq

/-- A goroutine: the calls it will make, where it is, what it got, latest last. -/
structure Gor where
  calls : List Call
  phase : Phase
  answers : List Answer

def setAt {α : Type} (f : Nat → α) (i : Nat) (a : α) : Nat → α := fun j => if j = i then a else f j

/-- One move of a goroutine that uses a file of records of `w` bytes. -/
inductive Move (w : Nat) : Shared → Gor → Shared → Gor → Prop
  /-- `ReadAt` copies the bytes there are (wordfile.go:45). -/
  | startRead (s cs off as) :
      Move w s ⟨.read off :: cs, .idle, as⟩ s ⟨cs, .fill off ((List.range w).filter fun k => off * w + k < s.length), as⟩
  | copyIn (s cs off todo as k) (h : k ∈ todo) :
      Move w s ⟨cs, .fill off todo, as⟩ { s with scratch := setAt s.scratch k (s.byte (off * w + k)) } ⟨cs, .fill off (todo.erase k), as⟩
  /-- wordfile.go:46-48: fewer bytes than asked for is an error. -/
  | endOfFile (s cs off as) (h : s.length < off * w + w) :
      Move w s ⟨cs, .fill off [], as⟩ s ⟨cs, .idle, as ++ [.failed off]⟩
  | filled (s cs off as) (h : off * w + w ≤ s.length) :
      Move w s ⟨cs, .fill off [], as⟩ s ⟨cs, .take off (List.range w) (fun _ => 0), as⟩
  | takeOut (s cs off todo got as k) (h : k ∈ todo) :
      Move w s ⟨cs, .take off todo got, as⟩ s ⟨cs, .take off (todo.erase k) (setAt got k (s.scratch k)), as⟩
  | returned (s cs off got as) :
      Move w s ⟨cs, .take off [] got, as⟩ s ⟨cs, .idle, as ++ [.record off ((List.range w).map got)]⟩
  | startWrite (s cs off bytes as) :
      Move w s ⟨.write off bytes :: cs, .idle, as⟩ s ⟨cs, .put off bytes (List.range w), as⟩
  | putIn (s cs off bytes todo as k) (h : k ∈ todo) :
      Move w s ⟨cs, .put off bytes todo, as⟩ { s with scratch := setAt s.scratch k (bytes k) } ⟨cs, .put off bytes (todo.erase k), as⟩
  | putDone (s cs off bytes as) :
      Move w s ⟨cs, .put off bytes [], as⟩ s ⟨cs, .store off bytes (List.range w), as⟩
  | storeByte (s cs off bytes todo as k) (h : k ∈ todo) :
      Move w s ⟨cs, .store off bytes todo, as⟩ { s with byte := setAt s.byte (off * w + k) (s.scratch k) }
        ⟨cs, .store off bytes (todo.erase k), as⟩
  | stored (s cs off bytes as) :
      Move w s ⟨cs, .store off bytes [], as⟩ { s with length := max s.length (off * w + w) } ⟨cs, .idle, as ++ [.written off]⟩

/-- The file and all goroutines. -/
structure Sys where
  shared : Shared
  gor : Nat → Gor

/-- Goroutine `i` makes a move. -/
inductive Step (w : Nat) (i : Nat) : Sys → Sys → Prop
  | mk (s : Sys) (s' : Shared) (g' : Gor) (h : Move w s.shared (s.gor i) s' g') : Step w i s ⟨s', setAt s.gor i g'⟩

/-- Some moves, by any goroutines. -/
inductive Steps (w : Nat) : Sys → Sys → Prop
  | refl (s) : Steps w s s
  | tail (s t u i) (h : Steps w s t) (h2 : Step w i t u) : Steps w s u

/-- Some moves in which a goroutine moves only while no other one is inside a call, as under a lock around each call. -/
inductive Locked (w : Nat) : Sys → Sys → Prop
  | refl (s) : Locked w s s
  | tail (s t u i) (h : Locked w s t) (h2 : Step w i t u) (alone : ∀ j, j ≠ i → (t.gor j).phase = .idle) : Locked w s u

/-- The goroutines before they start. -/
def start (f : Shared) (calls : Nat → List Call) : Sys := ⟨f, fun i => ⟨calls i, .idle, []⟩⟩

end Verif.SharedFile
