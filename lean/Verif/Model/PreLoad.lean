import Verif.Model.Records

/-!
# The two goroutines that sort hashes into files

Models indexedhashes/preloader.go and `CreateHashIndexFiles` of indexedhashes/jobs.go: one goroutine reads the hashes and
hands them over to two stores in memory; another takes lists out of the stores and writes them to files, one file for
each address. A step is what is done under one lock, or one operation on a file, or one look at a shared variable; the
steps of the two goroutines come in any order.

Simplifications.
* A file is known by its address (that the paths are different is C11); files that were never written are empty. That a
  file can be written is `Cfg.writable` (the folder may be missing, see C75).
* `os.WriteFile` is two steps: making the file empty, and filling it.
* `allHashesSent` and the bits are read and written as if they were synchronized.
* The hashes can all be read; an error of `delegateEntryToStores` is ignored, as jobs.go:96 does.
* `index` counts the hashes that were read. Memory runs short whenever the schedule says so; that the producer then waits
  is a time without steps of the producer. The reporting goroutine is left out.
* A `map` with dummy values is the list of its keys.
-/

namespace Verif.PreLoad

/-- preloader.go:32-35 `hashEntry`. -/
structure Entry where
  index : Nat
  hash : Bytes
deriving DecidableEq, Repr

/-- `m[k] = v`. -/
def upd {α : Type} (m : Nat → α) (k : Nat) (v : α) : Nat → α := fun i => if i = k then v else m i

/-- preloader.go:53-57 `entryStore`: the lists by address; for every list its size and its address. -/
structure Store where
  lists : Nat → Option (List Entry)
  groups : List (Nat × Nat)

/-- preloader.go:14-17. -/
def Store.new : Store := ⟨fun _ => none, []⟩

/-- preloader.go:59-80 `addIfListed`; `none` is `false`. -/
def Store.addIfListed (st : Store) (a : Nat) (e : Entry) : Option Store :=
  match st.lists a with
  | none => none
  | some l => some ⟨upd st.lists a (some (l ++ [e])), (l.length + 1, a) :: st.groups.filter fun g => g ≠ (l.length, a)⟩

/-- preloader.go:82-94 `addNewList`. -/
def Store.addNewList (st : Store) (a : Nat) (l : List Entry) : Store :=
  ⟨upd st.lists a (some l), (l.length, a) :: st.groups⟩

/-- preloader.go:96-108 `biggestListSize`. -/
def Store.biggest (st : Store) : Nat := st.groups.foldl (fun m g => if g.1 > m then g.1 else m) 0

/-- What `extractAListOfSize` comes to. -/
inductive Taken where
  | nil
  | list (l : List Entry) (st : Store)
  | panic

/-- preloader.go:110-138 `extractAListOfSize`; `a` is the address that comes first in the map, if the map has any. -/
def Store.extract (st : Store) (size a : Nat) : Taken :=
  if (size, a) ∈ st.groups then
    match st.lists a with
    | none => .panic
    | some l => .list l ⟨upd st.lists a none, st.groups.filter fun g => g ≠ (size, a)⟩
  else .nil

/-- preloader.go:142-145 `fileStoreBits`; the words are below 2 ^ 64. -/
structure Bits where
  allEmpty : Bool
  words : List Nat

/-- preloader.go:147-159 `newFileStoreBits`. -/
def Bits.new (addresses : Nat) : Bits :=
  ⟨true, List.replicate (addresses / 64 + if addresses % 64 > 0 then 1 else 0) 0⟩

/-- preloader.go:161-172 `isFileEmpty`; `none` is a panic. -/
def Bits.isEmpty (b : Bits) (a : Nat) : Option Bool :=
  if b.allEmpty = true then some true
  else
    match b.words[a / 64]? with
    | none => none
    | some w => some (decide (w &&& 2 ^ (a % 64) = 0))

/-- preloader.go:175-181 `setFileNotEmpty`; `none` is a panic. -/
def Bits.setNotEmpty (b : Bits) (a : Nat) : Option Bits :=
  match b.words[a / 64]? with
  | none => none
  | some w => some ⟨false, b.words.set (a / 64) (w ||| 2 ^ (a % 64))⟩

/-- preloader.go:240-244 `dividedAddressForHash`. -/
def address (divider : Nat) (h : Bytes) : Nat := leDec (h.take 8) / divider

/-- preloader.go:232-238 `biggestAddress`. -/
def biggestAddress (divider : Nat) : Nat := address divider (List.replicate 32 255)

/-- preloader.go:319-325: what a file is filled with. -/
def fileBytes (l : List Entry) : Bytes := l.flatMap fun e => leEnc 8 e.index ++ e.hash

/-- preloader.go:192-206: the list read from a file; `none` is an error. -/
def fromBytes (bs : Bytes) : Option (List Entry) :=
  if bs.length % 40 ≠ 0 then none
  else some ((List.range (bs.length / 40)).map fun i => ⟨leDec (slice bs (i * 40) 8), slice bs (i * 40 + 8) 32⟩)

/-- The hashes of the file, the divider, the number of lists to a round (jobs.go:63), which files can be written. -/
structure Cfg where
  divider : Nat
  hashes : List Bytes
  round : Nat
  writable : Nat → Bool

/-- Where the producer is, jobs.go:77-114 and preloader.go:246-270. The address and the entry are those being handed
over. -/
inductive Prod where
  /-- jobs.go:77, about to read a hash. -/
  | ready
  /-- preloader.go:249, about to look in the memory store. -/
  | mem (a : Nat) (e : Entry)
  /-- preloader.go:251, about to look in the cache. -/
  | cache (a : Nat) (e : Entry)
  /-- preloader.go:184, about to see whether there is a file. -/
  | bit (a : Nat) (e : Entry)
  /-- preloader.go:188, about to read the file. -/
  | read (a : Nat) (e : Entry)
  /-- preloader.go:261, about to put the list into the cache. -/
  | putCache (a : Nat) (l : List Entry)
  /-- preloader.go:266, about to put the list into the memory store. -/
  | putMem (a : Nat) (l : List Entry)
  /-- jobs.go:105, all hashes are sent. -/
  | last
  /-- jobs.go:109, waiting for the consumer to end. -/
  | waiting
  /-- Has returned. -/
  | returned
  | panicked

/-- Where the consumer is, jobs.go:54-73 and preloader.go:272-335. `n` lists have been written in this round. `late` is
not in the code: whether all hashes had been sent when the round began. -/
inductive Cons where
  /-- jobs.go:56. -/
  | asleep
  /-- jobs.go:60, `n` is `numDone`. -/
  | test (n : Nat) (late : Bool)
  /-- preloader.go:287. -/
  | mem (n : Nat) (late : Bool)
  /-- preloader.go:288, `m` is `biggestInMem`. -/
  | cache (n : Nat) (late : Bool) (m : Nat)
  /-- preloader.go:291, `size` is `biggestInMem`. -/
  | takeMem (n : Nat) (late : Bool) (size : Nat)
  /-- preloader.go:303, `size` is `biggestInCache`. -/
  | takeCache (n : Nat) (late : Bool) (size : Nat)
  /-- preloader.go:328, about to make the file empty. -/
  | trunc (n : Nat) (late : Bool) (a : Nat) (l : List Entry)
  /-- preloader.go:328, about to fill the file. -/
  | fill (n : Nat) (late : Bool) (a : Nat) (l : List Entry)
  /-- preloader.go:333, about to set the bit. -/
  | mark (n : Nat) (late : Bool) (a : Nat) (l : List Entry)
  /-- jobs.go:72, about to say that it is done. -/
  | ending
  | ended
  | panicked

/-- The two goroutines and what they share. `sent` hashes have been read. -/
structure State where
  sent : Nat
  mem : Store
  cache : Store
  bits : Bits
  files : Nat → Bytes
  hit : Bool
  allSent : Bool
  prod : Prod
  cons : Cons

/-- preloader.go:11-22 and jobs.go:13-75; the files are empty. -/
def start (c : Cfg) : State :=
  { sent := 0, mem := .new, cache := .new, bits := .new ((biggestAddress c.divider + 1) % 2 ^ 64), files := fun _ => [],
    hit := false, allSent := false, prod := .ready, cons := .asleep }

/-- A choice of the scheduler. -/
inductive Act where
  /-- Memory is short: jobs.go:88-93. -/
  | short
  /-- A step of the producer. -/
  | prod
  /-- A step of the consumer; the number is the address that comes first in a map. -/
  | cons (a : Nat)

/-- A step of the producer; `none` if it has to wait. -/
def stepProd (c : Cfg) (s : State) : Option State :=
  match s.prod with
  | .ready =>
    match c.hashes[s.sent]? with
    | none => some { s with allSent := true, prod := .last }
    | some h => some { s with sent := s.sent + 1, prod := .mem (address c.divider h) ⟨s.sent, h⟩ }
  | .mem a e =>
    match s.mem.addIfListed a e with
    | some st => some { s with mem := st, prod := .ready }
    | none => some { s with prod := .cache a e }
  | .cache a e =>
    match s.cache.addIfListed a e with
    | some st => some { s with cache := st, prod := .ready }
    | none => some { s with prod := .bit a e }
  | .bit a e =>
    match s.bits.isEmpty a with
    | none => some { s with prod := .panicked }
    | some true => some { s with prod := .putMem a [e] }
    | some false => some { s with prod := .read a e }
  | .read a e =>
    match fromBytes (s.files a) with
    | none => some { s with prod := .ready }
    | some l => some { s with prod := .putCache a (l ++ [e]) }
  | .putCache a l => some { s with cache := s.cache.addNewList a l, prod := .ready }
  | .putMem a l => some { s with mem := s.mem.addNewList a l, prod := .ready }
  | .last =>
    if s.hit = true then some { s with prod := .waiting }
    else
      match s.cons with
      | .asleep => some { s with prod := .waiting, cons := .test 0 false }
      | _ => none
  | .waiting =>
    match s.cons with
    | .ending => some { s with prod := .returned, cons := .ended }
    | _ => none
  | .returned => none
  | .panicked => none

/-- After a list has been written: preloader.go:272-283. -/
def more (c : Cfg) (n : Nat) (late : Bool) : Cons := if n < c.round then .mem n late else .test n late

/-- A step of the consumer; `none` if it has to wait. -/
def stepCons (c : Cfg) (s : State) (a : Nat) : Option State :=
  match s.cons with
  | .asleep => none
  | .test n _ => some { s with cons := if s.allSent = false ∨ n > 0 then more c 0 s.allSent else .ending }
  | .mem n late => some { s with cons := .cache n late s.mem.biggest }
  | .cache n late m =>
    some { s with cons := if m > s.cache.biggest then .takeMem n late m
                          else if s.cache.biggest > 0 then .takeCache n late s.cache.biggest
                          else .test n late }
  | .takeMem n late size =>
    match s.mem.extract size a with
    | .nil => if s.mem.groups.any (fun g => g.1 = size) = true then none else some { s with cons := .test n late }
    | .list l st => some { s with mem := st, cons := .trunc n late a l }
    | .panic => some { s with cons := .panicked }
  | .takeCache n late size =>
    match s.cache.extract size a with
    | .nil => if s.cache.groups.any (fun g => g.1 = size) = true then none else some { s with cons := .test n late }
    | .list l st => some { s with cache := st, cons := .trunc n late a l }
    | .panic => some { s with cons := .panicked }
  | .trunc n late b l =>
    if c.writable b = true then some { s with files := upd s.files b [], cons := .fill n late b l }
    else some { s with cons := .panicked }
  | .fill n late b l => some { s with files := upd s.files b (fileBytes l), cons := .mark n late b l }
  | .mark n late b _ =>
    match s.bits.setNotEmpty b with
    | none => some { s with cons := .panicked }
    | some bits => some { s with bits := bits, cons := more c (n + 1) late }
  | .ending => none
  | .ended => none
  | .panicked => none

/-- A step; `none` if it cannot be made. -/
def step (c : Cfg) (s : State) : Act → Option State
  | .short =>
    match s.prod, s.cons with
    | .ready, .asleep =>
      if s.sent < c.hashes.length ∧ s.hit = false then some { s with hit := true, cons := .test 0 false } else none
    | _, _ => none
  | .prod => stepProd c s
  | .cons a => stepCons c s a

/-- A schedule. -/
def run (c : Cfg) (s : State) : List Act → Option State
  | [] => some s
  | x :: xs =>
    match step c s x with
    | none => none
    | some t => run c t xs

end Verif.PreLoad
