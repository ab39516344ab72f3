import Verif.Lemmas.Pipeline

/-! # C72, C73: the block pipeline, whatever the scheduler does

A run is any sequence of steps of the goroutines (`Run`); nothing is assumed about fairness or timing. -/

namespace Verif.Pipeline

variable {H B : Type} {c : Cfg H B} {s t : State H B}

/-! ## What the consumer gets -/

/-- C72: at any time, the consumer has received the first blocks of the chain, in order. -/
theorem received_in_order {n : Nat} (h : Run c (start c) n s) :
    s.received.map some = (c.hashes.map c.fetch).take s.received.length := by
  have hi := inv_run h
  apply List.ext_getElem?
  intro i
  rw [List.getElem?_map, List.getElem?_take]
  by_cases hl : i < s.received.length
  · rw [if_pos hl, List.getElem?_eq_getElem hl, Option.map_some, List.getElem?_map]
    obtain ⟨x, h1, h2⟩ := hi.outGood i s.received[i] (by rw [List.getElem?_append_left hl, List.getElem?_eq_getElem hl])
    rw [h1, Option.map_some, h2]
  · rw [if_neg hl, List.getElem?_eq_none (by omega)]
    rfl

/-- What is left of everything when the consumer has seen the end of the channel. -/
theorem at_end (h : Inv c s) (ht : 0 < c.threads) (hf : s.finished = true) :
    s.src = [] ∧ s.srcClosed = true ∧ s.valve = .done ∧ s.num = .done c.hashes.length ∧ s.idle = 0 ∧ s.fetching = [] ∧
    s.sending = [] ∧ s.ended = c.threads ∧ s.inClosed = true ∧ s.seq = .closed ∧ s.map = [] ∧
    s.nextOut = c.hashes.length ∧ s.fwd = .done ∧ s.received.length = c.hashes.length := by
  have f := h.c8 hf
  have q := h.c7 f
  have ic := h.c6 (by rw [q]; rfl)
  have e := h.c5 ic
  obtain ⟨n, hn⟩ := h.c4 (by omega)
  have v := h.c3 n hn
  have sc := h.c2 v
  have src := h.c1 sc
  obtain ⟨l, h1, h2⟩ := h.stream
  rw [v, src] at h1
  rw [hn] at h2
  simp only [valveHas, List.append_nil, taken] at h1 h2
  subst h1
  have hp := h.pool
  have hfe : s.fetching = [] := List.eq_nil_of_length_eq_zero (by omega)
  have hse : s.sending = [] := List.eq_nil_of_length_eq_zero (by omega)
  have hm : s.map = [] := by
    have := h.seq
    unfold SeqOK at this
    rw [q] at this
    exact this
  have hno : s.nextOut = c.hashes.length := by
    have h3 := h.le
    have h4 := h.keys s.nextOut
    rw [count_keys, hn, hfe, hse, q, hm] at h4
    rw [hn] at h3
    simp only [numHas, seqHas, List.map_nil, List.count_nil, taken] at h3 h4
    have := one_cases s.nextOut n s.nextOut
    omega
  have ho := h.out
  unfold sent at ho
  rw [q, f] at ho
  simp only [fwdHas, List.append_nil] at ho
  exact ⟨src, sc, v, by rw [hn, h2], by omega, hfe, hse, e, ic, q, hm, hno, f, by omega⟩

/-- C72: when the consumer is told that there are no more blocks, it has received every block; and no goroutine is left
waiting. -/
theorem finished_complete {n : Nat} (h : Run c (start c) n s) (ht : 0 < c.threads) (hf : s.finished = true) :
    s.received.map some = c.hashes.map c.fetch ∧ ∀ t, ¬ Step c s t := by
  have hi := inv_run h
  obtain ⟨e1, e2, e3, e4, e5, e6, e7, e8, e9, e10, e11, e12, e13, e14⟩ := at_end hi ht hf
  refine ⟨?_, ?_⟩
  · rw [received_in_order h, e14, List.take_of_length_le (by rw [List.length_map]; exact Nat.le_refl _)]
  · rintro t ⟨_, m⟩
    cases m <;> simp_all

/-! ## Never stuck -/

theorem progress (h : Inv c s) (ht : 0 < c.threads) (hf : s.finished = false) : ∃ t, Move c s t := by
  -- the consumer
  cases hfw : s.fwd with
  | done => exact ⟨_, .finish hfw hf⟩
  | send b => exact ⟨_, .hold hfw hf⟩
  | recv =>
    -- the sequencer
    cases hq : s.seq with
    | closed => exact ⟨_, .fwdClose hfw hq⟩
    | after fin => exact ⟨_, .after hq⟩
    | emitNext v fin => exact ⟨_, .emitNext hq hfw⟩
    | emit v => exact ⟨_, .emit hq hfw⟩
    | got v =>
      by_cases hv : v.1 = s.nextOut
      · exact ⟨_, .isNext hq hv⟩
      · exact ⟨_, .aside hq hv⟩
    | drain fin =>
      cases hfi : s.map.find? (fun w => w.1 == s.nextOut) with
      | some v => exact ⟨_, .found hq hfi⟩
      | none =>
        cases fin with
        | false => exact ⟨_, .drained hq hfi⟩
        | true =>
          by_cases hm : s.map = []
          · exact ⟨_, .outClose hq hfi hm⟩
          · exact ⟨_, .jammed hq hfi hm⟩
    | recv =>
      cases hic : s.inClosed with
      | true => exact ⟨_, .seqClose hq hic⟩
      | false =>
        -- the workers
        cases hse : s.sending with
        | cons v r => exact ⟨_, .deliver (l := []) hse hq⟩
        | nil =>
          cases hfe : s.fetching with
          | cons x r =>
            obtain ⟨n, y⟩ := x
            cases hfy : c.fetch y with
            | some b => exact ⟨_, .fetch (l := []) hfe hfy⟩
            | none => exact ⟨_, .fetchFails (l := []) hfe hfy⟩
          | nil =>
            have hp := h.pool
            rw [hse, hfe] at hp
            simp only [List.length_nil, Nat.add_zero] at hp
            cases hid : s.idle with
            | zero => exact ⟨_, .inClose (by omega) hic⟩
            | succ i =>
              -- the numberer
              cases hn : s.num with
              | done n => exact ⟨_, .workerEnds hn hid⟩
              | send n x => exact ⟨_, .take hn hid⟩
              | recv n =>
                -- the valve
                cases hv : s.valve with
                | done => exact ⟨_, .numClose hn hv⟩
                | send x => exact ⟨_, .number hv hn⟩
                | check x =>
                  cases hb : s.bloated with
                  | true => exact ⟨_, .nap hv hb⟩
                  | false => exact ⟨_, .pass hv hb⟩
                | sleep x =>
                  -- asleep: the map is not empty, so the next number is with nobody
                  exfalso
                  have hb := h.asleep x hv
                  rw [h.bloat, decide_eq_true_eq] at hb
                  have hs := h.seq
                  unfold SeqOK at hs
                  rw [hq] at hs
                  obtain ⟨w, r, hm⟩ := List.exists_cons_of_ne_nil (l := s.map) (by
                    intro h0
                    rw [h0] at hb
                    simp at hb
                    omega)
                  have k1 := h.keys w.1
                  have k2 := h.keys s.nextOut
                  rw [count_keys, hn, hse, hfe, hq] at k1 k2
                  simp only [numHas, seqHas, List.map_nil, List.count_nil, taken] at k1 k2
                  have c1 : 1 ≤ (s.map.map Prod.fst).count w.1 := List.count_pos_iff.mpr (by rw [hm]; simp)
                  have c2 : (s.map.map Prod.fst).count s.nextOut = 0 := List.count_eq_zero.mpr hs
                  have o1 := one_cases s.nextOut n w.1
                  have o2 := one_cases s.nextOut n s.nextOut
                  omega
                | recv =>
                  -- the streamer
                  cases hsr : s.src with
                  | cons x r => exact ⟨_, .stream hsr hv⟩
                  | nil =>
                    cases hsc : s.srcClosed with
                    | true => exact ⟨_, .valveClose hv hsc⟩
                    | false => exact ⟨_, .streamClose hsr hsc⟩

/-- C72: no deadlock: as long as the program has not crashed and the consumer has not been told that there are no more
blocks, some goroutine can take a step. -/
theorem never_stuck {n : Nat} (h : Run c (start c) n s) (ht : 0 < c.threads) (hc : s.crashed = false)
    (hf : s.finished = false) : ∃ t, Step c s t := by
  obtain ⟨t, m⟩ := progress (inv_run h) ht hf
  exact ⟨t, hc, m⟩

theorem never_jammed (h : Inv c s) (h1 : s.seq = .drain true) (h2 : s.map.find? (fun w => w.1 == s.nextOut) = none) :
    s.map = [] := by
  apply Classical.byContradiction
  intro hne
  have ic := h.c6 (by rw [h1]; rfl)
  have e := h.c5 ic
  have hp := h.pool
  have hfe : s.fetching = [] := List.eq_nil_of_length_eq_zero (by omega)
  have hse : s.sending = [] := List.eq_nil_of_length_eq_zero (by omega)
  obtain ⟨w, r, hm⟩ := List.exists_cons_of_ne_nil hne
  have k1 := h.keys w.1
  have k2 := h.keys s.nextOut
  rw [count_keys, hse, hfe, h1] at k1 k2
  simp only [seqHas, List.map_nil, List.count_nil, Nat.add_zero] at k1 k2
  have c1 : 1 ≤ (s.map.map Prod.fst).count w.1 := List.count_pos_iff.mpr (by rw [hm]; simp)
  have c2 : (s.map.map Prod.fst).count s.nextOut = 0 := List.count_eq_zero.mpr (find_none h2)
  have o1 := one_cases s.nextOut (taken s.num) w.1
  have o2 := one_cases s.nextOut (taken s.num) s.nextOut
  have hw : w.1 ≠ s.nextOut := by
    intro hw
    rw [hw] at c1
    omega
  cases hn : s.num with
  | recv n => rw [hn] at k1 k2 o1 o2; simp only [numHas, List.map_nil, List.count_nil] at k1 k2; omega
  | done n => rw [hn] at k1 k2 o1 o2; simp only [numHas, List.map_nil, List.count_nil] at k1 k2; omega
  | send n x =>
    rw [hn] at k1 k2 o1 o2
    simp only [numHas, List.map_cons, List.map_nil, List.count_cons, List.count_nil, taken] at k1 k2 o1 o2
    by_cases he : n = s.nextOut
    · omega
    · have : ¬ (n == s.nextOut) = true := by simp [he]
      rw [if_neg this] at k2
      omega

/-- C72: the program crashes only if a block cannot be fetched; the sequencer's own panic does not occur. -/
theorem crash_only_fetch {n : Nat} (h : Run c (start c) n s) (hc : s.crashed = true) : ∃ x ∈ c.hashes, c.fetch x = none := by
  cases h with
  | nil => simp [start] at hc
  | @step s' _ n h h' =>
    have hi := inv_run h
    obtain ⟨hc', m⟩ := h'
    cases m <;> (try (dsimp only at hc; rw [hc'] at hc; exact absurd hc (by decide)))
    case fetchFails l k x r e1 e2 =>
      exact ⟨x, List.mem_of_getElem? (hi.goodH (k, x) (by rw [e1]; simp)), e2⟩
    case jammed e1 e2 e3 => exact absurd (never_jammed hi e1 e2) e3

/-! ## Every run ends -/

def valveCost : Valve H → Nat
  | .recv => 1
  | .check _ => 13
  | .sleep _ => 12
  | .send _ => 11
  | .done => 0

def numCost : Num H → Nat
  | .recv _ => 1
  | .send _ _ => 10
  | .done _ => 0

def seqCost : Seq B → Nat
  | .recv => 4
  | .got _ => 10
  | .emit _ => 9
  | .drain false => 7
  | .emitNext _ false => 6
  | .after false => 4
  | .drain true => 3
  | .emitNext _ true => 2
  | .after true => 0
  | .closed => 0

def fwdCost : Fwd B → Nat
  | .recv => 1
  | .send _ => 2
  | .done => 0

def bit (b : Bool) : Nat := if b then 0 else 1

/-- A bound for the steps still to come. -/
def cost (s : State H B) : Nat :=
  13 * s.src.length + bit s.srcClosed + valveCost s.valve + numCost s.num + s.idle + 9 * s.fetching.length +
    8 * s.sending.length + bit s.inClosed + seqCost s.seq + 5 * s.map.length + fwdCost s.fwd + bit s.finished + bit s.crashed

theorem wake_cost (v : Valve H) : valveCost (wake v) ≤ valveCost v + 1 := by cases v <;> simp [wake, valveCost]

theorem cost_move (h : Inv c s) (hc : s.crashed = false) (m : Move c s t) : cost t < cost s := by
  unfold cost
  cases m <;> dsimp only
  case stream e1 e2 => rw [e1, e2, List.length_cons]; simp only [valveCost]; omega
  case streamClose e1 e2 => rw [e2]; simp only [bit]; simp
  case pass e1 e2 => rw [e1]; simp only [valveCost]; omega
  case nap e1 e2 => rw [e1]; simp only [valveCost]; omega
  case number e1 e2 => rw [e1, e2]; simp only [valveCost, numCost]; omega
  case valveClose e1 e2 => rw [e1]; simp only [valveCost]; omega
  case take e1 e2 => rw [e1, e2, List.length_append, List.length_singleton]; simp only [numCost]; omega
  case numClose e1 e2 => rw [e1]; simp only [numCost]; omega
  case fetch e1 e2 =>
    rw [e1]
    simp only [List.length_append, List.length_cons, List.length_nil]
    omega
  case fetchFails e1 e2 => rw [hc]; simp [bit]
  case deliver e1 e2 =>
    rw [e1, e2]
    simp only [List.length_append, List.length_cons, seqCost]
    omega
  case workerEnds e1 e2 => rw [e2]; omega
  case inClose e1 e2 => rw [e2]; simp [bit]
  case isNext e1 e2 => rw [e1]; simp only [seqCost]; omega
  case aside v e1 e2 =>
    rw [insert_eq (got_fresh h e1), List.length_append, List.length_singleton, e1]
    simp only [seqCost]
    omega
  case emit e1 e2 => rw [e1, e2]; simp only [seqCost, fwdCost]; omega
  case found fin v e1 e2 => rw [e1]; cases fin <;> simp only [seqCost] <;> omega
  case emitNext v fin e1 e2 => rw [e1, e2]; cases fin <;> simp only [seqCost, fwdCost] <;> omega
  case after fin e1 =>
    have h1 := length_filter s.map s.nextOut
    have h3 := h.seq
    unfold SeqOK at h3
    rw [e1] at h3
    have h4 := key_in_map h3
    have h5 : valveCost (if s.map.length = c.bloat then wake s.valve else s.valve) ≤ valveCost s.valve + 1 := by
      split
      · exact wake_cost _
      · omega
    rw [e1]
    cases fin <;> simp only [seqCost] <;> omega
  case drained e1 e2 => rw [e1]; simp only [seqCost]; omega
  case seqClose e1 e2 => rw [e1]; simp only [seqCost]; omega
  case jammed e1 e2 e3 => rw [hc]; simp [bit]
  case outClose e1 e2 e3 => rw [e1]; simp only [seqCost]; omega
  case hold e1 e2 => rw [e1]; simp only [fwdCost]; omega
  case fwdClose e1 e2 => rw [e1]; simp only [fwdCost]; omega
  case finish e1 e2 => rw [e2]; simp [bit]

/-- C72: every run ends: whatever the scheduler does, there are at most so many steps. -/
theorem runs_end {n : Nat} (h : Run c (start c) n s) : n ≤ 13 * c.hashes.length + c.threads + 11 := by
  have key : n + cost s ≤ 13 * c.hashes.length + c.threads + 11 := by
    induction h with
    | nil => simp [cost, start, bit, valveCost, numCost, seqCost, fwdCost]; omega
    | @step s' _ n h h' ih =>
      have := cost_move (inv_run h) h'.1 h'.2
      have := ih
      omega
  omega

/-- C72: so, when every block can be fetched, whatever the scheduler does the program comes to the point where it can do
no more, and then the consumer has received every block in order and has been told that there are no more. -/
theorem all_delivered {n : Nat} (h : Run c (start c) n s) (ht : 0 < c.threads) (hx : ∀ x ∈ c.hashes, c.fetch x ≠ none)
    (hstop : ∀ t, ¬ Step c s t) : s.finished = true ∧ s.received.map some = c.hashes.map c.fetch := by
  have hc : s.crashed = false := by
    cases hc : s.crashed with
    | false => rfl
    | true =>
      obtain ⟨x, h1, h2⟩ := crash_only_fetch h hc
      exact absurd h2 (hx x h1)
  have hf : s.finished = true := by
    cases hf : s.finished with
    | true => rfl
    | false =>
      obtain ⟨t, h1⟩ := never_stuck h ht hc hf
      exact absurd h1 (hstop t)
  exact ⟨hf, (finished_complete h ht hf).1⟩

/-- From any point reached the run can be carried on until nothing can be done any more. -/
theorem carries_on {s : State H B} {n : Nat} (h : Run c (start c) n s) :
    ∃ m t, n ≤ m ∧ Run c (start c) m t ∧ ∀ u, ¬ Step c t u := by
  by_cases hs : ∃ t, Step c s t
  · obtain ⟨t, ht⟩ := hs
    have hle := runs_end (.step h ht)
    obtain ⟨m, u, h1, h2, h3⟩ := carries_on (s := t) (.step h ht)
    exact ⟨m, u, by omega, h2, h3⟩
  · exact ⟨n, s, Nat.le_refl _, h, fun t ht => hs ⟨t, ht⟩⟩
termination_by 13 * c.hashes.length + c.threads + 11 - n

/-- C72: with no workers the consumer is told at once that there are no blocks, however many there are. -/
theorem no_workers (c : Cfg H B) (ht : c.threads = 0) : ∃ n s, Run c (start c) n s ∧ s.finished = true ∧ s.received = [] := by
  have r0 : Run c (start c) 0 (start c) := .nil
  have r1 := Run.step r0 ⟨rfl, .inClose (by rw [ht]; rfl) rfl⟩
  have r2 := Run.step r1 ⟨rfl, .seqClose rfl rfl⟩
  have r3 := Run.step r2 ⟨rfl, .outClose rfl rfl rfl⟩
  have r4 := Run.step r3 ⟨rfl, .fwdClose rfl rfl⟩
  have r5 := Run.step r4 ⟨rfl, .finish rfl rfl⟩
  exact ⟨5, _, r5, rfl, rfl⟩

/-! ## How much is on its way -/

theorem length_of_count {l : List Nat} {a b : Nat} (h : ∀ k, l.count k = one a b k) (hab : a ≤ b) : l.length = b - a := by
  have hp : l.Perm (List.range' a (b - a)) := by
    rw [List.perm_iff_count]
    intro k
    rw [h k, List.Nodup.count List.nodup_range']
    have o := one_cases a b k
    by_cases hk : a ≤ k ∧ k < b
    · rw [one_pos hk, if_pos (by rw [List.mem_range'_1]; omega)]
    · rw [one_neg hk, if_neg (by rw [List.mem_range'_1]; omega)]
  rw [hp.length_eq, List.length_range']

/-- The hash that has passed the valve. -/
def passed : Valve H → Nat
  | .send _ => 1
  | _ => 0

theorem room (hb : 0 < c.bloat) {n : Nat} (h : Run c (start c) n s) :
    taken s.num + passed s.valve ≤ s.nextOut + c.bloat + c.threads + 2 := by
  induction h with
  | nil => simp [start, taken, passed]
  | @step s' _ n h h' ih =>
    have hi := inv_run h
    obtain ⟨_, m⟩ := h'
    cases m <;> (try exact ih) <;> dsimp only
    case stream e1 e2 => rw [e2] at ih; exact ih
    case pass x e1 e2 =>
      have hl := length_of_count hi.keys hi.le
      have hbl := hi.bloat
      rw [e2] at hbl
      have hbl := of_decide_eq_false hbl.symm
      have hp := hi.pool
      have hle := hi.le
      have h1 : (numHas s'.num).length ≤ 1 := by cases s'.num <;> simp [numHas]
      have h2 : (seqHas s'.seq).length ≤ 1 := by cases s'.seq <;> simp [seqHas]
      unfold keys at hl
      simp only [List.length_append, List.length_map] at hl
      simp only [passed]
      omega
    case nap e1 e2 => rw [e1] at ih; exact ih
    case number e1 e2 => rw [e1, e2] at ih; exact ih
    case valveClose e1 e2 => rw [e1] at ih; exact ih
    case take e1 e2 => rw [e1] at ih; exact ih
    case numClose e1 e2 => rw [e1] at ih; exact ih
    case emit e1 e2 => omega
    case after fin e1 =>
      have : passed (if s'.map.length = c.bloat then wake s'.valve else s'.valve) = passed s'.valve := by
        split
        · cases s'.valve <;> rfl
        · rfl
      rw [this]
      omega

/-- C73: the pipeline never has more than the valve's limit, one per worker, and four blocks more, on their way from the
source of hashes to the consumer. -/
theorem on_the_way {n : Nat} (hb : 0 < c.bloat) (h : Run c (start c) n s) :
    c.hashes.length ≤ s.received.length + s.src.length + c.bloat + c.threads + 4 := by
  have hi := inv_run h
  have hr := room hb h
  obtain ⟨l, h1, h2⟩ := hi.stream
  have h3 := congrArg List.length h1
  rw [List.length_append, List.length_append, h2] at h3
  have h4 : (valveHas s.valve).length ≤ passed s.valve + 1 := by cases s.valve <;> simp [valveHas, passed]
  have ho := hi.out
  have h5 : (fwdHas s.fwd).length ≤ 1 := by cases s.fwd <;> simp [fwdHas]
  have h6 : s.nextOut ≤ sent s := by
    unfold sent
    split <;> omega
  rw [List.length_append] at ho
  omega

/-- C73: of them, the sequencer puts aside at most the limit, one per worker, and two more. -/
theorem put_aside {n : Nat} (hb : 0 < c.bloat) (h : Run c (start c) n s) : s.map.length ≤ c.bloat + c.threads + 2 := by
  have hi := inv_run h
  have hr := room hb h
  have hl := length_of_count hi.keys hi.le
  unfold keys at hl
  simp only [List.length_append, List.length_map] at hl
  omega

/-! ## A run with a worker overtaking another and the valve going to sleep -/

/-- Three blocks, two workers, and the valve shuts at one block put aside. -/
def demo : Cfg Nat Nat := { hashes := [10, 11, 12], fetch := fun h => some (100 * h), bloat := 1, threads := 2 }

example : ∃ s, Run demo (start demo) 13 s ∧ s.valve = .sleep 12 ∧ s.map = [(1, 1100)] ∧ s.received = [] ∧ s.bloated = true := by
  have r := Run.nil (c := demo) (s := start demo)
  have r := Run.step r ⟨rfl, .stream rfl rfl⟩
  have r := Run.step r ⟨rfl, .pass rfl rfl⟩
  have r := Run.step r ⟨rfl, .number rfl rfl⟩
  have r := Run.step r ⟨rfl, .take rfl rfl⟩
  have r := Run.step r ⟨rfl, .stream rfl rfl⟩
  have r := Run.step r ⟨rfl, .pass rfl rfl⟩
  have r := Run.step r ⟨rfl, .number rfl rfl⟩
  have r := Run.step r ⟨rfl, .take rfl rfl⟩
  have r := Run.step r ⟨rfl, .fetch (l := [(0, 10)]) (r := []) (n := 1) (h := 11) rfl rfl⟩
  have r := Run.step r ⟨rfl, .deliver (l := []) rfl rfl⟩
  have r := Run.step r ⟨rfl, .aside rfl (by decide)⟩
  have r := Run.step r ⟨rfl, .stream rfl rfl⟩
  have r := Run.step r ⟨rfl, .nap rfl (by decide)⟩
  exact ⟨_, r, rfl, rfl, rfl, rfl⟩

/-- `demo` delivers its three blocks. -/
example : ∃ n s, Run demo (start demo) n s ∧ s.finished = true ∧ s.received = [1000, 1100, 1200] := by
  obtain ⟨n, s, _, h1, h2⟩ := carries_on (Run.nil (c := demo) (s := start demo))
  obtain ⟨h3, h4⟩ := all_delivered h1 (by decide) (by intro x _; simp [demo]) h2
  refine ⟨n, s, h1, h3, ?_⟩
  have : s.received.map some = [1000, 1100, 1200].map some := h4
  exact (List.map_inj_right (fun _ _ h => Option.some.inj h)).mp this

end Verif.Pipeline
