/-!
# The worker pool

Models concurrency/workerpool.go. The clients are any number of goroutines, each sending some tasks on `InChan` one after the other. A send and
its receive are one step, since `InChan` has no buffer. A task is a number; `Process` of task `t` returns `result t`.

Simplification: `Process`, `SetError` and `Done` end (they are the client's code) and do not panic; `InChan` is not closed while tasks are
still to be sent (a send on a closed channel would panic).
-/

namespace Verif.WorkerPool

/-- Calls of a task's methods. -/
inductive Event where
  | process (t : Nat)
  | setError (t : Nat) (e : Option String)
  | done (t : Nat)
deriving DecidableEq, Repr

/-- Where a worker is (workerpool.go:23-28): at the receive, before `Process`, before `SetError`, before `Done`, ended. -/
inductive Worker where
  | idle
  | got (t : Nat)
  | ran (t : Nat) (e : Option String)
  | noted (t : Nat)
  | ended
deriving DecidableEq, Repr

/-- The clients with the tasks they have still to send, the workers, whether the channel is closed, and the calls made so far. -/
structure Pool where
  clients : List (List Nat)
  workers : List Worker
  closed : Bool
  log : List Event

/-- workerpool.go:3-10 `NewWorkerPool`, and the clients. A negative `concurrency` starts no workers. -/
def start (concurrency : Int) (clients : List (List Nat)) : Pool := ⟨clients, List.replicate concurrency.toNat .idle, false, []⟩

/-- One step. -/
inductive Step (result : Nat → Option String) : Pool → Pool → Prop where
  /-- Client `i` sends its next task and worker `j` receives it. -/
  | send {p : Pool} {i j : Nat} {t : Nat} {ts : List Nat} : p.closed = false → p.clients[i]? = some (t :: ts) → p.workers[j]? = some .idle →
      Step result p { p with clients := p.clients.set i ts, workers := p.workers.set j (.got t) }
  /-- workerpool.go:25, the call of `Process`. -/
  | process {p : Pool} {j t : Nat} : p.workers[j]? = some (.got t) →
      Step result p { p with workers := p.workers.set j (.ran t (result t)), log := p.log ++ [.process t] }
  /-- workerpool.go:25, the call of `SetError`. -/
  | setError {p : Pool} {j t : Nat} {e : Option String} : p.workers[j]? = some (.ran t e) →
      Step result p { p with workers := p.workers.set j (.noted t), log := p.log ++ [.setError t e] }
  /-- workerpool.go:26. -/
  | done {p : Pool} {j t : Nat} : p.workers[j]? = some (.noted t) →
      Step result p { p with workers := p.workers.set j .idle, log := p.log ++ [.done t] }
  /-- A client closes the channel when all tasks are sent. -/
  | close {p : Pool} : p.closed = false → (∀ c ∈ p.clients, c = []) → Step result p { p with closed := true }
  /-- workerpool.go:24, the loop ends. -/
  | finish {p : Pool} {j : Nat} : p.closed = true → p.workers[j]? = some .idle →
      Step result p { p with workers := p.workers.set j .ended }

/-- What can be reached. -/
inductive Reaches (result : Nat → Option String) : Pool → Pool → Prop where
  | refl {p} : Reaches result p p
  | step {p q r} : Reaches result p q → Step result q r → Reaches result p r

end Verif.WorkerPool
