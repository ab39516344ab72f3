import Verif.Model.WorkerPool
import Mathlib.Data.List.Count
import Mathlib.Algebra.BigOperators.Group.List.Basic

/-!
# C102: the worker pool processes every task sent exactly once

For any number of clients, workers and any schedule.
-/

namespace Verif.WorkerPool

/-! ## Specification -/

/-- How often a task is to be processed: as often as it is sent. -/
def sent (clients : List (List Nat)) (t : Nat) : Nat := (clients.flatten).count t

/-- The calls for a task are in order at every moment: `Done` only after `SetError` with what `Process` returned, that only after `Process`,
and that no more often than the task is sent. -/
def InOrder (result : Nat → Option String) (clients : List (List Nat)) (log : List Event) : Prop :=
  ∀ k t, (log.take k).count (Event.done t) ≤ (log.take k).count (Event.setError t (result t)) ∧
    (log.take k).count (Event.setError t (result t)) ≤ (log.take k).count (Event.process t) ∧ (log.take k).count (Event.process t) ≤ sent clients t

/-- A call of `Process`. -/
def isProcess : Event → Bool
  | .process _ => true
  | _ => false

/-- A call of `Done`. -/
def isDone : Event → Bool
  | .done _ => true
  | _ => false

/-- Never more than `n` tasks are processed and not yet done. -/
def AtMost (n : Nat) (log : List Event) : Prop := ∀ k, (log.take k).countP isProcess ≤ (log.take k).countP isDone + n

/-! ## Lemmas -/

/-- How many workers are at `w`. -/
def at_ (p : Pool) (w : Worker) : Nat := p.workers.count w

theorem count_set {α : Type} [DecidableEq α] (l : List α) {j : Nat} {a : α} (h : l[j]? = some a) (b x : α) :
    (l.set j b).count x + (if a = x then 1 else 0) = l.count x + if b = x then 1 else 0 := by
  induction l generalizing j with
  | nil => simp at h
  | cons y l ih =>
    cases j with
    | zero =>
      simp only [List.getElem?_cons_zero, Option.some.injEq] at h
      subst h
      simp only [List.set_cons_zero, List.count_cons, beq_iff_eq]
      omega
    | succ j =>
      rw [List.getElem?_cons_succ] at h
      have := ih h
      simp only [List.set_cons_succ, List.count_cons, beq_iff_eq]
      omega

theorem flatten_set (l : List (List Nat)) {i t : Nat} {ts : List Nat} (h : l[i]? = some (t :: ts)) (x : Nat) :
    ((l.set i ts).flatten).count x + (if t = x then 1 else 0) = (l.flatten).count x ∧ ((l.set i ts).flatten).length + 1 = l.flatten.length := by
  induction l generalizing i with
  | nil => simp at h
  | cons y l ih =>
    cases i with
    | zero =>
      simp only [List.getElem?_cons_zero, Option.some.injEq] at h
      subst h
      simp only [List.set_cons_zero, List.flatten_cons, List.count_append, List.count_cons, beq_iff_eq, List.length_append, List.length_cons]
      omega
    | succ j =>
      rw [List.getElem?_cons_succ] at h
      obtain ⟨h1, h2⟩ := ih h
      simp only [List.set_cons_succ, List.flatten_cons, List.count_append, List.length_append]
      omega

/-- What is true at any time. -/
structure OK (result : Nat → Option String) (n : Nat) (clients : List (List Nat)) (p : Pool) : Prop where
  workers : p.workers.length = n
  results : ∀ t e, Worker.ran t e ∈ p.workers → e = result t
  logged : ∀ t e, Event.setError t e ∈ p.log → e = result t
  processed : ∀ t, (p.clients.flatten).count t + at_ p (.got t) + p.log.count (Event.process t) = sent clients t
  noted : ∀ t, at_ p (.ran t (result t)) + p.log.count (Event.setError t (result t)) = p.log.count (Event.process t)
  done : ∀ t, at_ p (.noted t) + p.log.count (Event.done t) = p.log.count (Event.setError t (result t))
  order : InOrder result clients p.log

theorem inOrder_snoc {result : Nat → Option String} {clients : List (List Nat)} {log : List Event} (h : InOrder result clients log) (e : Event)
    (hl : ∀ t, (log ++ [e]).count (Event.done t) ≤ (log ++ [e]).count (Event.setError t (result t)) ∧
      (log ++ [e]).count (Event.setError t (result t)) ≤ (log ++ [e]).count (Event.process t) ∧ (log ++ [e]).count (Event.process t) ≤ sent clients t) :
    InOrder result clients (log ++ [e]) := by
  intro k t
  by_cases hk : k ≤ log.length
  · rw [List.take_append_of_le_length hk]
    exact h k t
  · rw [List.take_of_length_le (by simp; omega)]
    exact hl t

theorem mem_set {l : List Worker} {j : Nat} {w x : Worker} (h : x ∈ l.set j w) : x ∈ l ∨ x = w := List.mem_or_eq_of_mem_set h

theorem ok_step {result : Nat → Option String} {n : Nat} {clients : List (List Nat)} {p q : Pool} (hp : OK result n clients p)
    (h : Step result p q) : OK result n clients q := by
  cases h with
  | @send i j t ts h1 h2 h3 =>
    refine ⟨by simp [hp.workers], ?_, hp.logged, ?_, ?_, ?_, hp.order⟩
    · intro u e hu
      rcases mem_set hu with hu | hu
      · exact hp.results u e hu
      · cases hu
    · intro u
      have a := (flatten_set p.clients h2 u).1
      have b := count_set p.workers h3 (.got t) (.got u)
      have c := hp.processed u
      unfold at_ at *
      simp only [Worker.got.injEq, reduceCtorEq, if_false] at b
      dsimp only
      omega
    · intro u
      have b := count_set p.workers h3 (.got t) (.ran u (result u))
      have c := hp.noted u
      unfold at_ at *
      simp only [reduceCtorEq, if_false] at b
      dsimp only
      omega
    · intro u
      have b := count_set p.workers h3 (.got t) (.noted u)
      have c := hp.done u
      unfold at_ at *
      simp only [reduceCtorEq, if_false] at b
      dsimp only
      omega
  | @process j t h1 =>
    have f1 : ∀ u, (p.clients.flatten).count u + (p.workers.set j (.ran t (result t))).count (Worker.got u) + (p.log ++ [Event.process t]).count (Event.process u)
        = sent clients u := by
      intro u
      have b := count_set p.workers h1 (.ran t (result t)) (.got u)
      have c := hp.processed u
      unfold at_ at *
      simp only [Worker.got.injEq, reduceCtorEq, if_false] at b
      simp only [List.count_append, List.count_cons, List.count_nil, beq_iff_eq, Event.process.injEq]
      omega
    have f2 : ∀ u, (p.workers.set j (.ran t (result t))).count (Worker.ran u (result u)) + (p.log ++ [Event.process t]).count (Event.setError u (result u))
        = (p.log ++ [Event.process t]).count (Event.process u) := by
      intro u
      have b := count_set p.workers h1 (.ran t (result t)) (.ran u (result u))
      have c := hp.noted u
      unfold at_ at *
      simp only [reduceCtorEq, if_false, Worker.ran.injEq] at b
      have e : (t = u ∧ result t = result u) ↔ t = u := ⟨fun h => h.1, fun h => ⟨h, by rw [h]⟩⟩
      simp only [e] at b
      simp only [List.count_append, List.count_cons, List.count_nil, beq_iff_eq, Event.process.injEq, reduceCtorEq, if_false]
      omega
    have f3 : ∀ u, (p.workers.set j (.ran t (result t))).count (Worker.noted u) + (p.log ++ [Event.process t]).count (Event.done u)
        = (p.log ++ [Event.process t]).count (Event.setError u (result u)) := by
      intro u
      have b := count_set p.workers h1 (.ran t (result t)) (.noted u)
      have c := hp.done u
      unfold at_ at *
      simp only [reduceCtorEq, if_false] at b
      simp only [List.count_append, List.count_cons, List.count_nil, beq_iff_eq, reduceCtorEq, if_false]
      omega
    refine ⟨by simp [hp.workers], ?_, ?_, f1, f2, f3, inOrder_snoc hp.order _ fun u => ?_⟩
    · intro u e hu
      rcases mem_set hu with hu | hu
      · exact hp.results u e hu
      · cases hu; rfl
    · intro u e hu
      rw [List.mem_append, List.mem_singleton] at hu
      rcases hu with hu | hu
      · exact hp.logged u e hu
      · cases hu
    · have a := f1 u; have b := f2 u; have c := f3 u
      omega
  | @setError j t e h1 =>
    have he : e = result t := hp.results t e (List.mem_of_getElem? h1)
    subst he
    have f1 : ∀ u, (p.clients.flatten).count u + (p.workers.set j (.noted t)).count (Worker.got u) + (p.log ++ [Event.setError t (result t)]).count (Event.process u)
        = sent clients u := by
      intro u
      have b := count_set p.workers h1 (.noted t) (.got u)
      have c := hp.processed u
      unfold at_ at *
      simp only [reduceCtorEq, if_false] at b
      simp only [List.count_append, List.count_cons, List.count_nil, beq_iff_eq, reduceCtorEq, if_false]
      omega
    have f2 : ∀ u, (p.workers.set j (.noted t)).count (Worker.ran u (result u)) + (p.log ++ [Event.setError t (result t)]).count (Event.setError u (result u))
        = (p.log ++ [Event.setError t (result t)]).count (Event.process u) := by
      intro u
      have b := count_set p.workers h1 (.noted t) (.ran u (result u))
      have c := hp.noted u
      unfold at_ at *
      simp only [reduceCtorEq, if_false, Worker.ran.injEq] at b
      have e : (t = u ∧ result t = result u) ↔ t = u := ⟨fun h => h.1, fun h => ⟨h, by rw [h]⟩⟩
      simp only [e] at b
      simp only [List.count_append, List.count_cons, List.count_nil, beq_iff_eq, Event.setError.injEq, reduceCtorEq, if_false, e]
      omega
    have f3 : ∀ u, (p.workers.set j (.noted t)).count (Worker.noted u) + (p.log ++ [Event.setError t (result t)]).count (Event.done u)
        = (p.log ++ [Event.setError t (result t)]).count (Event.setError u (result u)) := by
      intro u
      have b := count_set p.workers h1 (.noted t) (.noted u)
      have c := hp.done u
      unfold at_ at *
      simp only [reduceCtorEq, if_false, Worker.noted.injEq] at b
      have e : (t = u ∧ result t = result u) ↔ t = u := ⟨fun h => h.1, fun h => ⟨h, by rw [h]⟩⟩
      simp only [List.count_append, List.count_cons, List.count_nil, beq_iff_eq, Event.setError.injEq, reduceCtorEq, if_false, e]
      omega
    refine ⟨by simp [hp.workers], ?_, ?_, f1, f2, f3, inOrder_snoc hp.order _ fun u => ?_⟩
    · intro u e hu
      rcases mem_set hu with hu | hu
      · exact hp.results u e hu
      · cases hu
    · intro u e hu
      rw [List.mem_append, List.mem_singleton] at hu
      rcases hu with hu | hu
      · exact hp.logged u e hu
      · cases hu; rfl
    · have a := f1 u; have b := f2 u; have c := f3 u
      omega
  | @done j t h1 =>
    have f1 : ∀ u, (p.clients.flatten).count u + (p.workers.set j .idle).count (Worker.got u) + (p.log ++ [Event.done t]).count (Event.process u)
        = sent clients u := by
      intro u
      have b := count_set p.workers h1 .idle (.got u)
      have c := hp.processed u
      unfold at_ at *
      simp only [reduceCtorEq, if_false] at b
      simp only [List.count_append, List.count_cons, List.count_nil, beq_iff_eq, reduceCtorEq, if_false]
      omega
    have f2 : ∀ u, (p.workers.set j .idle).count (Worker.ran u (result u)) + (p.log ++ [Event.done t]).count (Event.setError u (result u))
        = (p.log ++ [Event.done t]).count (Event.process u) := by
      intro u
      have b := count_set p.workers h1 .idle (.ran u (result u))
      have c := hp.noted u
      unfold at_ at *
      simp only [reduceCtorEq, if_false] at b
      simp only [List.count_append, List.count_cons, List.count_nil, beq_iff_eq, reduceCtorEq, if_false]
      omega
    have f3 : ∀ u, (p.workers.set j .idle).count (Worker.noted u) + (p.log ++ [Event.done t]).count (Event.done u)
        = (p.log ++ [Event.done t]).count (Event.setError u (result u)) := by
      intro u
      have b := count_set p.workers h1 .idle (.noted u)
      have c := hp.done u
      unfold at_ at *
      simp only [reduceCtorEq, if_false, Worker.noted.injEq] at b
      simp only [List.count_append, List.count_cons, List.count_nil, beq_iff_eq, Event.done.injEq, reduceCtorEq, if_false]
      omega
    refine ⟨by simp [hp.workers], ?_, ?_, f1, f2, f3, inOrder_snoc hp.order _ fun u => ?_⟩
    · intro u e hu
      rcases mem_set hu with hu | hu
      · exact hp.results u e hu
      · cases hu
    · intro u e hu
      rw [List.mem_append, List.mem_singleton] at hu
      rcases hu with hu | hu
      · exact hp.logged u e hu
      · cases hu
    · have a := f1 u; have b := f2 u; have c := f3 u
      omega
  | close h1 h2 => exact ⟨hp.workers, hp.results, hp.logged, hp.processed, hp.noted, hp.done, hp.order⟩
  | @finish j h1 h2 =>
    refine ⟨by simp [hp.workers], ?_, hp.logged, ?_, ?_, ?_, hp.order⟩
    · intro u e hu
      rcases mem_set hu with hu | hu
      · exact hp.results u e hu
      · cases hu
    · intro u
      have b := count_set p.workers h2 .ended (.got u)
      have c := hp.processed u
      unfold at_ at *
      simp only [reduceCtorEq, if_false] at b
      dsimp only
      omega
    · intro u
      have b := count_set p.workers h2 .ended (.ran u (result u))
      have c := hp.noted u
      unfold at_ at *
      simp only [reduceCtorEq, if_false] at b
      dsimp only
      omega
    · intro u
      have b := count_set p.workers h2 .ended (.noted u)
      have c := hp.done u
      unfold at_ at *
      simp only [reduceCtorEq, if_false] at b
      dsimp only
      omega

theorem ok_start (result : Nat → Option String) (concurrency : Int) (clients : List (List Nat)) :
    OK result concurrency.toNat clients (start concurrency clients) := by
  have hc : ∀ w, w ≠ Worker.idle → (List.replicate concurrency.toNat Worker.idle).count w = 0 := by
    intro w hw
    rw [List.count_eq_zero]
    intro h
    exact hw (List.eq_of_mem_replicate h)
  refine ⟨by simp [start], ?_, ?_, ?_, ?_, ?_, ?_⟩
  · intro t e h
    exact absurd (List.eq_of_mem_replicate h) (by simp)
  · intro t e h; cases h
  · intro t; simp [at_, start, sent, hc]
  · intro t; simp [at_, start, hc]
  · intro t; simp [at_, start, hc]
  · intro k t; simp [start]

theorem ok_reaches {result : Nat → Option String} {n : Nat} {clients : List (List Nat)} {p q : Pool} (hp : OK result n clients p)
    (h : Reaches result p q) : OK result n clients q := by
  induction h with
  | refl => exact hp
  | step _ st ih => exact ok_step ih st

/-- What is still to be done by a worker. -/
def weight : Worker → Nat
  | .idle => 1
  | .got _ => 4
  | .ran _ _ => 3
  | .noted _ => 2
  | .ended => 0

/-- What is still to be done. -/
def measure (p : Pool) : Nat := 4 * p.clients.flatten.length + (p.workers.map weight).sum + if p.closed then 0 else 1

theorem sum_set (l : List Worker) {j : Nat} {a : Worker} (h : l[j]? = some a) (b : Worker) :
    ((l.set j b).map weight).sum + weight a = (l.map weight).sum + weight b := by
  induction l generalizing j with
  | nil => simp at h
  | cons y l ih =>
    cases j with
    | zero =>
      simp only [List.getElem?_cons_zero, Option.some.injEq] at h
      subst h
      simp only [List.set_cons_zero, List.map_cons, List.sum_cons]
      omega
    | succ j =>
      rw [List.getElem?_cons_succ] at h
      have := ih h
      simp only [List.set_cons_succ, List.map_cons, List.sum_cons]
      omega

theorem step_measure {result : Nat → Option String} {p q : Pool} (h : Step result p q) : measure q < measure p := by
  unfold measure
  cases h with
  | @send i j t ts h1 h2 h3 =>
    have a := (flatten_set p.clients h2 0).2
    have b := sum_set p.workers h3 (.got t)
    simp only [weight] at b
    dsimp only
    omega
  | @process j t h1 =>
    have b := sum_set p.workers h1 (.ran t (result t))
    simp only [weight] at b
    dsimp only
    omega
  | @setError j t e h1 =>
    have b := sum_set p.workers h1 (.noted t)
    simp only [weight] at b
    dsimp only
    omega
  | done h1 =>
    have b := sum_set p.workers h1 .idle
    simp only [weight] at b
    dsimp only
    omega
  | close h1 h2 => dsimp only; rw [h1]; simp
  | finish h1 h2 =>
    have b := sum_set p.workers h2 .ended
    simp only [weight] at b
    dsimp only
    omega

/-- A worker with a processed task. -/
def busy : Worker → Bool
  | .ran _ _ => true
  | .noted _ => true
  | _ => false

theorem countP_set (l : List Worker) {j : Nat} {a : Worker} (h : l[j]? = some a) (b : Worker) :
    (l.set j b).countP busy + (if busy a then 1 else 0) = l.countP busy + if busy b then 1 else 0 := by
  induction l generalizing j with
  | nil => simp at h
  | cons y l ih =>
    cases j with
    | zero =>
      simp only [List.getElem?_cons_zero, Option.some.injEq] at h
      subst h
      simp only [List.set_cons_zero, List.countP_cons]
      omega
    | succ j =>
      rw [List.getElem?_cons_succ] at h
      have := ih h
      simp only [List.set_cons_succ, List.countP_cons]
      omega

theorem busy_reaches {result : Nat → Option String} {concurrency : Int} {clients : List (List Nat)} {p : Pool}
    (h : Reaches result (start concurrency clients) p) :
    p.workers.length = concurrency.toNat ∧ p.log.countP isProcess = p.log.countP isDone + p.workers.countP busy ∧
      AtMost concurrency.toNat p.log := by
  induction h with
  | refl =>
    refine ⟨by simp [start], ?_, ?_⟩
    · rw [show (start concurrency clients).workers.countP busy = 0 from ?_]
      · rfl
      · rw [List.countP_eq_zero]
        intro w hw
        rw [List.eq_of_mem_replicate hw]
        simp [busy]
    · intro k; simp [start]
  | @step q r _ st ih =>
    obtain ⟨h1, h2, h3⟩ := ih
    have snoc : ∀ (ws : List Worker) (e : Event), ws.length = concurrency.toNat →
        (q.log ++ [e]).countP isProcess = (q.log ++ [e]).countP isDone + ws.countP busy → AtMost concurrency.toNat (q.log ++ [e]) := by
      intro ws e hl he k
      by_cases hk : k ≤ q.log.length
      · rw [List.take_append_of_le_length hk]
        exact h3 k
      · rw [List.take_of_length_le (by simp; omega)]
        have := List.countP_le_length (p := busy) (l := ws)
        omega
    cases st with
    | @send i j t ts a b c =>
      have d := countP_set q.workers c (.got t)
      simp only [busy, Bool.false_eq_true, if_false] at d
      exact ⟨by simp [h1], by dsimp only; omega, h3⟩
    | @process j t c =>
      have d := countP_set q.workers c (.ran t (result t))
      simp only [busy, Bool.false_eq_true, if_false, if_true] at d
      have e : (q.log ++ [Event.process t]).countP isProcess =
          (q.log ++ [Event.process t]).countP isDone + (q.workers.set j (.ran t (result t))).countP busy := by
        simp [List.countP_append, isProcess, isDone]
        omega
      exact ⟨by simp [h1], e, snoc _ _ (by simp [h1]) e⟩
    | @setError j t x c =>
      have d := countP_set q.workers c (.noted t)
      simp only [busy, Bool.false_eq_true, if_false, if_true] at d
      have e : (q.log ++ [Event.setError t x]).countP isProcess =
          (q.log ++ [Event.setError t x]).countP isDone + (q.workers.set j (.noted t)).countP busy := by
        simp [List.countP_append, isProcess, isDone]
        omega
      exact ⟨by simp [h1], e, snoc _ _ (by simp [h1]) e⟩
    | @done j t c =>
      have d := countP_set q.workers c .idle
      simp only [busy, Bool.false_eq_true, if_false, if_true] at d
      have e : (q.log ++ [Event.done t]).countP isProcess =
          (q.log ++ [Event.done t]).countP isDone + (q.workers.set j .idle).countP busy := by
        simp [List.countP_append, isProcess, isDone]
        omega
      exact ⟨by simp [h1], e, snoc _ _ (by simp [h1]) e⟩
    | close => exact ⟨h1, h2, h3⟩
    | @finish j a c =>
      have d := countP_set q.workers c .ended
      simp only [busy, Bool.false_eq_true, if_false] at d
      exact ⟨by simp [h1], by dsimp only; omega, h3⟩

/-! ## C102 -/

/-- C102: at every moment of every run the calls are in order, no task is processed more often than sent, every `SetError` gets what
`Process` returned, and no more tasks are being worked on than there are workers. -/
theorem calls_in_order (result : Nat → Option String) (concurrency : Int) (clients : List (List Nat)) (p : Pool)
    (h : Reaches result (start concurrency clients) p) :
    InOrder result clients p.log ∧ (∀ t e, Event.setError t e ∈ p.log → e = result t) ∧
      AtMost concurrency.toNat p.log := by
  have hok := ok_reaches (ok_start result concurrency clients) h
  exact ⟨hok.order, hok.logged, (busy_reaches h).2.2⟩

/-- C102: no run goes on for ever. -/
theorem runs_end (result : Nat → Option String) : WellFounded fun q p => Step result p q :=
  Subrelation.wf (fun h => step_measure h) (InvImage.wf measure Nat.lt_wfRel.wf)

/-- C102: with at least one worker, a run that cannot go on has processed every task exactly as often as it was sent, each with its own
result, and called `Done` for each. So, as no run goes on for ever, every run comes to that, and no client waits for ever. -/
theorem all_processed (result : Nat → Option String) (concurrency : Int) (hc : 1 ≤ concurrency) (clients : List (List Nat)) (p : Pool)
    (h : Reaches result (start concurrency clients) p) (hs : ∀ q, ¬ Step result p q) :
    (∀ t, p.log.count (Event.process t) = sent clients t ∧ p.log.count (Event.setError t (result t)) = sent clients t ∧
      p.log.count (Event.done t) = sent clients t) ∧ ∀ w ∈ p.workers, w = .ended := by
  have hok := ok_reaches (ok_start result concurrency clients) h
  have hinv : p.closed = true → ∀ c ∈ p.clients, c = [] := by
    clear hs hok
    induction h with
    | refl => intro h; cases h
    | step _ st ih =>
      cases st with
      | send h1 => intro h2; rw [h1] at h2; cases h2
      | process => exact ih
      | setError => exact ih
      | done => exact ih
      | close _ h2 => intro _; exact h2
      | finish => exact ih
  have hidle : ∀ w ∈ p.workers, w = .idle ∨ w = .ended := by
    intro w hw
    obtain ⟨j, hj⟩ := List.getElem?_of_mem hw
    cases w with
    | idle => left; rfl
    | ended => right; rfl
    | got t => exact absurd (Step.process hj) (hs _)
    | ran t e => exact absurd (Step.setError hj) (hs _)
    | noted t => exact absurd (Step.done hj) (hs _)
  have hclosed : p.closed = true := by
    cases hcl : p.closed with
    | true => rfl
    | false =>
      exfalso
      -- the workers have not ended while the channel is open
      have hopen : p.closed = false → ∀ w ∈ p.workers, w ≠ .ended := by
        clear hs hok hidle hinv hcl
        induction h with
        | refl =>
          intro _ w hw
          rw [List.eq_of_mem_replicate hw]; simp
        | step _ st ih =>
          cases st with
          | send h1 =>
            intro _ w hw
            rcases mem_set hw with hw | hw
            · exact ih h1 w hw
            · rw [hw]; simp
          | process => intro h2 w hw; rcases mem_set hw with hw | hw; exacts [ih h2 w hw, by rw [hw]; simp]
          | setError => intro h2 w hw; rcases mem_set hw with hw | hw; exacts [ih h2 w hw, by rw [hw]; simp]
          | done => intro h2 w hw; rcases mem_set hw with hw | hw; exacts [ih h2 w hw, by rw [hw]; simp]
          | close _ h2 => intro h3; cases h3
          | finish h1 => intro h2; dsimp only at h2; rw [h1] at h2; cases h2
      have hlen := hok.workers
      have h0 : 0 < p.workers.length := by omega
      have hw0 : p.workers[0]? = some .idle := by
        rw [List.getElem?_eq_getElem h0]
        rcases hidle _ (List.getElem_mem h0) with h | h
        · rw [h]
        · exact absurd h (hopen hcl _ (List.getElem_mem h0))
      by_cases he : ∀ c ∈ p.clients, c = []
      · exact hs _ (Step.close hcl he)
      · simp only [not_forall] at he
        obtain ⟨c, hcm, hne⟩ := he
        obtain ⟨i, hi⟩ := List.getElem?_of_mem hcm
        cases c with
        | nil => exact hne rfl
        | cons t ts => exact hs _ (Step.send hcl hi hw0)
  have hclients := hinv hclosed
  have hended : ∀ w ∈ p.workers, w = .ended := by
    intro w hw
    rcases hidle w hw with rfl | h
    · obtain ⟨j, hj⟩ := List.getElem?_of_mem hw
      exact absurd (Step.finish hclosed hj) (hs _)
    · exact h
  have hz : ∀ w, w ≠ Worker.ended → p.workers.count w = 0 := by
    intro w hw
    rw [List.count_eq_zero]
    intro h
    exact hw (hended w h)
  have hfl : p.clients.flatten = [] := List.flatten_eq_nil_iff.mpr hclients
  refine ⟨?_, hended⟩
  intro t
  have a := hok.processed t
  have b := hok.noted t
  have c := hok.done t
  unfold at_ at a b c
  rw [hfl, hz _ (by simp)] at a
  rw [hz _ (by simp)] at b c
  simp only [List.count_nil, Nat.zero_add] at a b c
  omega

/-- C102: with no workers (`concurrency` of 0 or less) nothing is ever received: a client with a task to send waits for ever. -/
theorem no_workers (result : Nat → Option String) (concurrency : Int) (hc : concurrency ≤ 0) (clients : List (List Nat)) (c : List Nat)
    (hm : c ∈ clients) (hne : c ≠ []) (p : Pool) (h : Reaches result (start concurrency clients) p) : p = start concurrency clients := by
  induction h with
  | refl => rfl
  | step _ st ih =>
    have hw : (start concurrency clients).workers = [] := by
      unfold start
      rw [show concurrency.toNat = 0 by omega]
      rfl
    rw [ih] at st
    cases st with
    | send _ _ h3 => rw [hw] at h3; cases h3
    | process h1 => rw [hw] at h1; cases h1
    | setError h1 => rw [hw] at h1; cases h1
    | done h1 => rw [hw] at h1; cases h1
    | close _ h2 => exact absurd (h2 c hm) hne
    | finish _ h2 => rw [hw] at h2; cases h2

/-! ## Non-vacuity -/

/-- Two clients and two workers: the second client's task is received by the second worker, and processed first. -/
example : ∃ p, Reaches (fun t => if t = 7 then some "bad" else none) (start 2 [[5, 6], [7]]) p ∧
    p.log = [.process 7, .process 5, .setError 7 (some "bad"), .done 7] ∧ p.clients = [[6], []] :=
  ⟨_, .step (.step (.step (.step (.step (.step .refl
    (.send (i := 0) (j := 0) rfl rfl rfl)) (.send (i := 1) (j := 1) rfl rfl rfl)) (.process (j := 1) rfl)) (.process (j := 0) rfl))
    (.setError (j := 1) rfl)) (.done (j := 1) rfl), rfl, rfl⟩

/-- With one worker and one task the run comes to its end. -/
example : ∃ p, Reaches (fun _ => none) (start 1 [[5]]) p ∧ p.log = [.process 5, .setError 5 none, .done 5] ∧ p.workers = [.ended] :=
  ⟨_, .step (.step (.step (.step (.step (.step .refl
    (.send (i := 0) (j := 0) rfl rfl rfl)) (.process (j := 0) rfl)) (.setError (j := 0) rfl)) (.done (j := 0) rfl))
    (.close rfl (by decide))) (.finish (j := 0) rfl rfl), rfl, rfl⟩

end Verif.WorkerPool
