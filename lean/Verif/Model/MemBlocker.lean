/-!
# The memory blocker

Models memblocker/memblocker.go: any number of threads call `WaitForSpareMemory` or the pair
`StartFreeingMem`/`MemoryWasFreed`. The mutex and the condition variable are modelled by their documented
behaviour (`sync.Cond.Wait` atomically queues the caller and unlocks; `Signal` moves the first queued thread
to re-acquiring the lock). The heap size reported by the Go runtime is a value the environment changes
at any time.
-/

namespace Verif.MemBlocker

/-- Where a thread is. -/
inductive PC where
  /-- outside the memory blocker -/
  | idle
  /-- memblocker.go:29, waiting for the lock -/
  | waitLock
  /-- memblocker.go:30-31 or 35, lock held, about to measure the heap -/
  | check
  /-- memblocker.go:34, in the condition variable's queue -/
  | sleeping
  /-- memblocker.go:34, signalled, waiting to re-acquire the lock -/
  | relock
  /-- memblocker.go:42, waiting for the lock -/
  | freeLock
  /-- between `StartFreeingMem` and `MemoryWasFreed`, lock held -/
  | freeing
  /-- memblocker.go:46, lock released, about to signal -/
  | signalling
deriving DecidableEq, Repr

/-- memblocker.go:15-20, with the heap size, the lock owner and queue, and a log of returns from
`WaitForSpareMemory` with the heap size at the moment of return. -/
structure St where
  heap : Nat
  maxBytes : Nat
  lock : Option Nat
  queue : List Nat
  pc : Nat → PC
  admitted : List (Nat × Nat)

/-- memblocker.go:8-13 `NewMemBlocker`. -/
def init (maxBytes heap : Nat) : St :=
  { heap, maxBytes, lock := none, queue := [], pc := fun _ => .idle, admitted := [] }

/-- Update of one thread's position. -/
def setPC (f : Nat → PC) (t : Nat) (p : PC) : Nat → PC := fun u => if u = t then p else f u

/-- A scheduling choice. -/
inductive Act where
  /-- the heap size changes -/
  | heap (n : Nat)
  /-- an idle thread calls `WaitForSpareMemory` -/
  | wait (t : Nat)
  /-- an idle thread calls `StartFreeingMem` -/
  | free (t : Nat)
  /-- a thread does its next step -/
  | go (t : Nat)

/-- memblocker.go:28-47 one step; `none` = not enabled. -/
def step (s : St) : Act → Option St
  | .heap n => some { s with heap := n }
  | .wait t => if s.pc t = .idle then some { s with pc := setPC s.pc t .waitLock } else none
  | .free t => if s.pc t = .idle then some { s with pc := setPC s.pc t .freeLock } else none
  | .go t =>
    match s.pc t with
    | .idle => none
    | .waitLock => if s.lock = none then some { s with lock := some t, pc := setPC s.pc t .check } else none
    | .check =>
      if s.heap ≥ s.maxBytes then
        some { s with queue := s.queue ++ [t], lock := none, pc := setPC s.pc t .sleeping }
      else
        some { s with lock := none, admitted := s.admitted ++ [(t, s.heap)], pc := setPC s.pc t .idle }
    | .sleeping => none
    | .relock => if s.lock = none then some { s with lock := some t, pc := setPC s.pc t .check } else none
    | .freeLock => if s.lock = none then some { s with lock := some t, pc := setPC s.pc t .freeing } else none
    | .freeing => some { s with lock := none, pc := setPC s.pc t .signalling }
    | .signalling =>
      match s.queue with
      | [] => some { s with pc := setPC s.pc t .idle }
      | w :: q => some { s with queue := q, pc := setPC (setPC s.pc t .idle) w .relock }

/-- Run a schedule. -/
def run (s : St) : List Act → Option St
  | [] => some s
  | a :: as => (step s a).bind (fun s' => run s' as)

end Verif.MemBlocker
