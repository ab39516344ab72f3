/-!
# The block pipeline, goroutine by goroutine

Models the wiring at jobs/intrinsicparallel.go:286-324 (the same at 368-403, 444-479 and 553-588) of the goroutines that
fetch the blocks: corereader2/blockhashes.go (streamer), the valve, corereader2/getparseblocksbinary.go:22-121 (numberer,
workers, closer), concurrency/sequencercontainer.go (sequencer), the forwarder and the block holder's reads of its
`InChan` (intrinsicobjectscri/chain.go:68, 209; intrinsicobjectschi/chain.go:48, 85). All channels are unbuffered: a send
and its receive are one step, and a goroutine that cannot take its step waits. A step is one channel operation, one
closing, or one critical section of the mutex, with the work of that goroutine since its last step. A `close` is one step
with the end of the loop before it.

Simplifications.
* The hashes that the streamer sends are a list; it ends without error.
* The workers are the same program, so the pool is kept as how many wait for work, what those that fetch and those that
  want to send have, and how many have ended.
* `fetch` stands for getparseblocksbinary.go:49-113 (see `Verif.Model.JsonBlock`); `none` is the panic of line 112 (or of
  the parser), which ends the program.
* The consumer keeps asking for blocks until it gets the `nil` of the closed channel.
* `sync.Cond` has no spurious wake-ups (as documented); whether the waiter is asleep is part of the state.
-/

namespace Verif.Pipeline

variable {H B : Type}

/-- What a run depends on: the hashes in order, what fetching gives, the `bloatedCount` of the sequencer and the number of
workers. -/
structure Cfg (H B : Type) where
  hashes : List H
  fetch : H → Option B
  bloat : Nat
  threads : Nat

/-- The valve, jobs/intrinsicparallel.go:302-308: at the receive (303), before the test in `WaitForNotBloated`
(sequencercontainer.go:93), asleep in `Wait` (94), at the send (305), ended. -/
inductive Valve (H : Type) where
  | recv
  | check (h : H)
  | sleep (h : H)
  | send (h : H)
  | done

/-- The numberer, getparseblocksbinary.go:27-39, with `blockHeight`: at the receive (29), at the send (34), ended. -/
inductive Num (H : Type) where
  | recv (height : Nat)
  | send (height : Nat) (h : H)
  | done (height : Nat)

/-- The sequencer's worker, sequencercontainer.go:35-79: at the receive (36); with a new value (37); at the send of line
39; about to call `sendNextOut` (42 or 55: `fin` says which); at the send of line 70; after it (71); ended. -/
inductive Seq (B : Type) where
  | recv
  | got (v : Nat × B)
  | emit (v : Nat × B)
  | drain (fin : Bool)
  | emitNext (v : Nat × B) (fin : Bool)
  | after (fin : Bool)
  | closed

/-- The forwarder, jobs/intrinsicparallel.go:313-318. -/
inductive Fwd (B : Type) where
  | recv
  | send (b : B)
  | done

/-- All goroutines. The map of the sequencer is a list with distinct keys. -/
structure State (H B : Type) where
  src : List H
  srcClosed : Bool
  valve : Valve H
  num : Num H
  idle : Nat
  fetching : List (Nat × H)
  sending : List (Nat × B)
  ended : Nat
  inClosed : Bool
  seq : Seq B
  map : List (Nat × B)
  nextOut : Nat
  bloated : Bool
  fwd : Fwd B
  received : List B
  finished : Bool
  crashed : Bool

/-- Everything just started. -/
def start (c : Cfg H B) : State H B :=
  { src := c.hashes, srcClosed := false, valve := .recv, num := .recv 0, idle := c.threads, fetching := [], sending := []
    ended := 0, inClosed := false, seq := .recv, map := [], nextOut := 0, bloated := false, fwd := .recv, received := []
    finished := false, crashed := false }

/-- `Broadcast` (sequencercontainer.go:86). -/
def wake : Valve H → Valve H
  | .sleep h => .check h
  | v => v

/-- sequencercontainer.go:47: put into the map. -/
def insert (map : List (Nat × B)) (v : Nat × B) : List (Nat × B) := map.filter (fun w => w.1 != v.1) ++ [v]

/-- One step of a program that has not crashed. -/
inductive Move (c : Cfg H B) : State H B → State H B → Prop where
  /-- blockhashes.go:65 and intrinsicparallel.go:303. -/
  | stream {s h hs} (h1 : s.src = h :: hs) (h2 : s.valve = .recv) : Move c s { s with src := hs, valve := .check h }
  /-- blockhashes.go:14, 69. -/
  | streamClose {s} (h1 : s.src = []) (h2 : s.srcClosed = false) : Move c s { s with srcClosed := true }
  /-- sequencercontainer.go:92-96, when the flag is not set. -/
  | pass {s h} (h1 : s.valve = .check h) (h2 : s.bloated = false) : Move c s { s with valve := .send h }
  /-- sequencercontainer.go:92-94, when it is. -/
  | nap {s h} (h1 : s.valve = .check h) (h2 : s.bloated = true) : Move c s { s with valve := .sleep h }
  /-- intrinsicparallel.go:305 and getparseblocksbinary.go:29. -/
  | number {s h n} (h1 : s.valve = .send h) (h2 : s.num = .recv n) : Move c s { s with valve := .recv, num := .send n h }
  /-- intrinsicparallel.go:303, 307. -/
  | valveClose {s} (h1 : s.valve = .recv) (h2 : s.srcClosed = true) : Move c s { s with valve := .done }
  /-- getparseblocksbinary.go:34-36 and 47. -/
  | take {s n h i} (h1 : s.num = .send n h) (h2 : s.idle = i + 1) :
      Move c s { s with num := .recv (n + 1), idle := i, fetching := s.fetching ++ [(n, h)] }
  /-- getparseblocksbinary.go:29, 38. -/
  | numClose {s n} (h1 : s.num = .recv n) (h2 : s.valve = .done) : Move c s { s with num := .done n }
  /-- getparseblocksbinary.go:49-84. -/
  | fetch {s l n h r b} (h1 : s.fetching = l ++ (n, h) :: r) (h2 : c.fetch h = some b) :
      Move c s { s with fetching := l ++ r, sending := s.sending ++ [(n, b)] }
  /-- getparseblocksbinary.go:110-113. -/
  | fetchFails {s l n h r} (h1 : s.fetching = l ++ (n, h) :: r) (h2 : c.fetch h = none) :
      Move c s { s with crashed := true }
  /-- getparseblocksbinary.go:86 and sequencercontainer.go:36. -/
  | deliver {s l v r} (h1 : s.sending = l ++ v :: r) (h2 : s.seq = .recv) :
      Move c s { s with sending := l ++ r, idle := s.idle + 1, seq := .got v }
  /-- getparseblocksbinary.go:46-47: a worker ends. -/
  | workerEnds {s n i} (h1 : s.num = .done n) (h2 : s.idle = i + 1) :
      Move c s { s with idle := i, ended := s.ended + 1 }
  /-- getparseblocksbinary.go:118-119. -/
  | inClose {s} (h1 : s.ended = c.threads) (h2 : s.inClosed = false) : Move c s { s with inClosed := true }
  /-- sequencercontainer.go:38. -/
  | isNext {s v} (h1 : s.seq = .got v) (h2 : v.1 = s.nextOut) : Move c s { s with seq := .emit v }
  /-- sequencercontainer.go:47-51. -/
  | aside {s v} (h1 : s.seq = .got v) (h2 : v.1 ≠ s.nextOut) :
      Move c s { s with seq := .recv, map := insert s.map v
                        bloated := if (insert s.map v).length = c.bloat then true else s.bloated }
  /-- sequencercontainer.go:39-40 and intrinsicparallel.go:314. -/
  | emit {s v} (h1 : s.seq = .emit v) (h2 : s.fwd = .recv) :
      Move c s { s with seq := .drain false, nextOut := s.nextOut + 1, fwd := .send v.2 }
  /-- sequencercontainer.go:66, found. -/
  | found {s fin v} (h1 : s.seq = .drain fin) (h2 : s.map.find? (fun w => w.1 == s.nextOut) = some v) :
      Move c s { s with seq := .emitNext v fin }
  /-- sequencercontainer.go:70 and intrinsicparallel.go:314. -/
  | emitNext {s v fin} (h1 : s.seq = .emitNext v fin) (h2 : s.fwd = .recv) :
      Move c s { s with seq := .after fin, fwd := .send v.2 }
  /-- sequencercontainer.go:72-77. -/
  | after {s fin} (h1 : s.seq = .after fin) :
      Move c s { s with seq := .drain fin, map := s.map.filter (fun w => w.1 != s.nextOut), nextOut := s.nextOut + 1
                        bloated := if s.map.length = c.bloat then false else s.bloated
                        valve := if s.map.length = c.bloat then wake s.valve else s.valve }
  /-- sequencercontainer.go:66-68 from line 42. -/
  | drained {s} (h1 : s.seq = .drain false) (h2 : s.map.find? (fun w => w.1 == s.nextOut) = none) :
      Move c s { s with seq := .recv }
  /-- sequencercontainer.go:36, 54. -/
  | seqClose {s} (h1 : s.seq = .recv) (h2 : s.inClosed = true) : Move c s { s with seq := .drain true }
  /-- sequencercontainer.go:57-58. -/
  | jammed {s} (h1 : s.seq = .drain true) (h2 : s.map.find? (fun w => w.1 == s.nextOut) = none) (h3 : s.map ≠ []) :
      Move c s { s with crashed := true }
  /-- sequencercontainer.go:60. -/
  | outClose {s} (h1 : s.seq = .drain true) (h2 : s.map.find? (fun w => w.1 == s.nextOut) = none) (h3 : s.map = []) :
      Move c s { s with seq := .closed }
  /-- intrinsicparallel.go:315 and the holder's receive. -/
  | hold {s b} (h1 : s.fwd = .send b) (h2 : s.finished = false) :
      Move c s { s with fwd := .recv, received := s.received ++ [b] }
  /-- intrinsicparallel.go:314, 317. -/
  | fwdClose {s} (h1 : s.fwd = .recv) (h2 : s.seq = .closed) : Move c s { s with fwd := .done }
  /-- The holder's receive from the closed channel. -/
  | finish {s} (h1 : s.fwd = .done) (h2 : s.finished = false) : Move c s { s with finished := true }

/-- A step: a program that has crashed takes none. -/
def Step (c : Cfg H B) (s t : State H B) : Prop := s.crashed = false ∧ Move c s t

/-- The states of a run of `n` steps from `s`, in any order of steps the scheduler chooses. -/
inductive Run (c : Cfg H B) : State H B → Nat → State H B → Prop where
  | nil {s} : Run c s 0 s
  | step {s t u n} (h : Run c s n t) (h' : Step c t u) : Run c s (n + 1) u

end Verif.Pipeline
