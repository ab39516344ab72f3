/-!
# The sequencer container

Models concurrency/sequencercontainer.go. The worker goroutine owns the map and `nextOut`, so its loop is
a deterministic function of the order in which items arrive on `InChan`; theorems quantify over that order.
The out channel is the list of items sent so far. `T` is the item type with its sequence number.
-/

namespace Verif.Sequencer

variable {T : Type}

/-- sequencercontainer.go:25-33. The Go map is a list of items with distinct sequence numbers. -/
structure SC (T : Type) where
  map : List T
  nextOut : Nat
  bloatedCount : Nat
  bloated : Bool
  out : List T

/-- sequencercontainer.go:13-23 `NewSequencerContainer`. -/
def new (firstOut bloatedCount : Nat) : SC T :=
  { map := [], nextOut := firstOut, bloatedCount, bloated := false, out := [] }

/-- sequencercontainer.go:65-79 `sendNextOut`; `none` = returned false. -/
def sendNextOut (seq : T → Nat) (sc : SC T) : Option (SC T) :=
  match sc.map.find? (fun v => seq v == sc.nextOut) with
  | none => none
  | some next =>
    some { sc with
      out := sc.out ++ [next]
      bloated := if sc.map.length = sc.bloatedCount then false else sc.bloated
      map := sc.map.filter (fun v => seq v != sc.nextOut)
      nextOut := sc.nextOut + 1 }

/-- sequencercontainer.go:42-43, 55-56: `for sc.sendNextOut() {}`. Each round removes a map entry, so
`fuel = map.length` rounds suffice. -/
def drain (seq : T → Nat) : Nat → SC T → SC T
  | 0, sc => sc
  | fuel+1, sc =>
    match sendNextOut seq sc with
    | none => sc
    | some sc' => drain seq fuel sc'

/-- sequencercontainer.go:37-52: the body of the worker loop for one received item. -/
def receive (seq : T → Nat) (sc : SC T) (v : T) : SC T :=
  if seq v = sc.nextOut then
    drain seq sc.map.length { sc with out := sc.out ++ [v], nextOut := sc.nextOut + 1 }
  else
    let map := sc.map.filter (fun w => seq w != seq v) ++ [v]
    { sc with map, bloated := if map.length = sc.bloatedCount then true else sc.bloated }

/-- sequencercontainer.go:36-53: the worker after the items `vs` have arrived in this order. -/
def arrivals (seq : T → Nat) (sc : SC T) (vs : List T) : SC T := vs.foldl (receive seq) sc

/-- sequencercontainer.go:54-61: the input channel is closed: drain, panic (`none`) if anything is left,
otherwise close the out channel, whose complete contents are returned. -/
def close (seq : T → Nat) (sc : SC T) : Option (List T) :=
  let sc' := drain seq sc.map.length sc
  if sc'.map.length > 0 then none else some sc'.out

/-! ### The sequencer in its pipeline

The intended use (comment at sequencercontainer.go:7-12, jobs/intrinsicparallel.go): a producer that takes
items in order waits at the valve (`WaitForNotBloated`, 91-97) before handing each item to a pool of at most
`workers` concurrent workers; workers finish in any order and send to the sequencer. -/

/-- Items are their own sequence numbers `0 .. total-1`. -/
structure Pipe where
  next : Nat
  pool : List Nat
  sc : SC Nat

/-- One scheduling choice. -/
inductive Act where
  | produce
  | deliver (i : Nat)

/-- One step; `none` = the step is not enabled in this state. -/
def pstep (total workers : Nat) (p : Pipe) : Act → Option Pipe
  | .produce =>
    if p.next < total ∧ p.sc.bloated = false ∧ p.pool.length < workers then
      some { p with next := p.next + 1, pool := p.pool ++ [p.next] }
    else none
  | .deliver i =>
    if i ∈ p.pool then
      some { p with pool := p.pool.erase i, sc := receive id p.sc i }
    else none

/-- Run a schedule; `none` if some step is not enabled. -/
def prun (total workers : Nat) (p : Pipe) : List Act → Option Pipe
  | [] => some p
  | a :: as =>
    match pstep total workers p a with
    | none => none
    | some p' => prun total workers p' as

end Verif.Sequencer
