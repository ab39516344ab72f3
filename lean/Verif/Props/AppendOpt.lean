import Verif.Lemmas.AppendOpt

/-!
# C01 / C47: the append-optimised file is a plain byte file
-/

namespace Verif.AppendOpt

/-- Specification: a plain, unbuffered random-access file is just its bytes. -/
def plainStep (f : Bytes) : Op → Bytes × Out
  | .readAt off n => (f, .bytes ((f.drop off).take n))
  | .writeAt off p => (Verif.writeAt f off p, .unit)
  | .size => (f, .size f.length)
  | .sync => (f, .unit)

/-- Specification: a session on the plain file. -/
def plainRun (f : Bytes) : List Op → Bytes × List Out
  | [] => (f, [])
  | op :: ops =>
    let (f', o) := plainStep f op
    let (f'', os) := plainRun f' ops
    (f'', o :: os)

/-- Writes carry at least one byte. -/
def Op.nonempty : Op → Prop
  | .writeAt _ p => p ≠ []
  | _ => True

theorem step_refines {a : AOF} {plain : Bytes} (h : Inv a plain) (op : Op) (hop : op.nonempty) :
    Inv (step a op).1 (plainStep plain op).1 ∧ (step a op).2 = (plainStep plain op).2 := by
  cases op with
  | readAt off n =>
    obtain ⟨h1, h2, _⟩ := inv_flush h
    exact ⟨h1, by simp [step, readAt, plainStep, h2]⟩
  | writeAt off p => exact ⟨inv_writeAt h (Or.inl hop), rfl⟩
  | size => exact ⟨h, by simp [step, size, plainStep, h.total]⟩
  | sync => exact ⟨(inv_flush h).1, rfl⟩

theorem run_refines {a : AOF} {plain : Bytes} (h : Inv a plain) (ops : List Op)
    (hops : ∀ op ∈ ops, op.nonempty) :
    Inv (run a ops).1 (plainRun plain ops).1 ∧ (run a ops).2 = (plainRun plain ops).2 := by
  induction ops generalizing a plain with
  | nil => exact ⟨h, rfl⟩
  | cons op ops ih =>
    obtain ⟨h1, h2⟩ := step_refines h op (hops op (by simp))
    obtain ⟨h3, h4⟩ := ih h1 (fun o ho => hops o (by simp [ho]))
    exact ⟨h3, by simp [run, plainRun, h2, h4]⟩

/-- **C01.** For every initial content and every sequence of reads, (non-empty) writes at any offset,
size queries and syncs, a client of the append-optimised file observes exactly what a client of a plain
file observes, and closing leaves exactly the plain file's bytes on disk. -/
theorem appendOpt_is_plain_file (init : Bytes) (ops : List Op) (hops : ∀ op ∈ ops, op.nonempty) :
    (run (openFile init) ops).2 = (plainRun init ops).2 ∧
      close (run (openFile init) ops).1 = (plainRun init ops).1 := by
  obtain ⟨h1, h2⟩ := run_refines (inv_open init) ops hops
  exact ⟨h2, (inv_flush h1).2.1⟩

/-- Non-trivial instance: an append, a second (buffered) append, an overwrite in the middle, a write past
the end and a read. -/
example :
    let ops := [Op.writeAt 2 [7, 8], .writeAt 4 [9], .writeAt 1 [5], .writeAt 7 [6], .readAt 0 8, .size]
    (∀ op ∈ ops, op.nonempty) ∧
      (run (openFile [1, 2]) ops).2 =
        [.unit, .unit, .unit, .unit, .bytes [1, 5, 7, 8, 9, 0, 0, 6], .size 8] := by
  refine ⟨?_, by decide⟩
  intro op h
  simp at h
  rcases h with h | h | h | h | h | h <;> subst h <;> simp [Op.nonempty]

/-- **C47 (crash consistency).** At every point of every session, what is already on disk is a prefix of
what a plain file would contain, and everything missing is a suffix that has not been synced: so losing
power can only lose a tail of appends, never damage or reorder earlier bytes. -/
theorem crash_loses_only_a_tail (init : Bytes) (ops : List Op) (hops : ∀ op ∈ ops, op.nonempty) :
    (run (openFile init) ops).1.file.data <+: (plainRun init ops).1 := by
  obtain ⟨h1, _⟩ := run_refines (inv_open init) ops hops
  exact ⟨_, h1.data⟩

/-- **C47.** Right after a `Sync` nothing is missing on disk. -/
theorem sync_makes_durable (init : Bytes) (ops : List Op) (hops : ∀ op ∈ ops, op.nonempty) :
    (run (openFile init) (ops ++ [.sync])).1.file.data = (plainRun init ops).1 := by
  have : ∀ (a : AOF) (ops : List Op), (run a (ops ++ [.sync])).1 = flush (run a ops).1 := by
    intro a ops
    induction ops generalizing a with
    | nil => simp [run, step, sync]
    | cons op ops ih => simp [run, ih]
  rw [this]
  exact (inv_flush (run_refines (inv_open init) ops hops).1).2.1

example : (run (openFile [1]) [.writeAt 1 [2, 3]]).1.file.data = [1] ∧
    (plainRun [1] [.writeAt 1 [2, 3]]).1 = [1, 2, 3] := by decide

/-- **C48 (violation).** A zero-length write past the end moves the recorded size although the file does
not grow; the next write at that offset then lands at the wrong place.  The file is *not* a plain file
for such sessions. -/
theorem zero_length_write_breaks_file :
    ∃ (init : Bytes) (ops : List Op), (run (openFile init) ops).2 ≠ (plainRun init ops).2 ∧
      close (run (openFile init) ops).1 ≠ (plainRun init ops).1 :=
  ⟨[1], [.writeAt 3 [], .writeAt 3 [9], .readAt 0 4], by decide, by decide⟩

/-- Writes that are non-empty or do not start past the current end of the file. -/
def harmless (f : Bytes) : Op → Prop
  | .writeAt off p => p ≠ [] ∨ off ≤ f.length
  | _ => True

/-- All writes of the session are harmless at the time they are made. -/
def harmlessRun (f : Bytes) : List Op → Prop
  | [] => True
  | op :: ops => harmless f op ∧ harmlessRun (plainStep f op).1 ops

/-- **C48 (partial).** Zero-length writes are harmless as long as they do not start past the end of the
file.  Missing for the full property: zero-length writes past the end, which the code mishandles
(`zero_length_write_breaks_file`). -/
theorem zero_length_write_partial (init : Bytes) (ops : List Op) (h : harmlessRun init ops) :
    (run (openFile init) ops).2 = (plainRun init ops).2 ∧
      close (run (openFile init) ops).1 = (plainRun init ops).1 := by
  have key : ∀ (a : AOF) (plain : Bytes), Inv a plain → harmlessRun plain ops →
      (run a ops).2 = (plainRun plain ops).2 ∧ Inv (run a ops).1 (plainRun plain ops).1 := by
    clear h
    induction ops with
    | nil => intro a plain hi _; exact ⟨rfl, hi⟩
    | cons op ops ih =>
      intro a plain hi hh
      have hs : Inv (step a op).1 (plainStep plain op).1 ∧ (step a op).2 = (plainStep plain op).2 := by
        cases op with
        | writeAt off p => exact ⟨inv_writeAt hi hh.1, rfl⟩
        | readAt off n => exact step_refines hi _ (by trivial)
        | size => exact step_refines hi _ (by trivial)
        | sync => exact step_refines hi _ (by trivial)
      obtain ⟨h1, h2⟩ := ih _ _ hs.1 hh.2
      exact ⟨by simp [run, plainRun, hs.2, h1], h2⟩
  obtain ⟨h1, h2⟩ := key _ _ (inv_open init) h
  exact ⟨h1, (inv_flush h2).2.1⟩

example : harmlessRun [1] [.writeAt 1 [], .writeAt 1 [2], .writeAt 0 []] := by
  simp [harmlessRun, harmless, plainStep, Verif.writeAt]

/-- **C49 (violation).** `ReadAll` reads from the current seek position: after an append has been made
it fails although the file is not empty. -/
theorem readAll_fails_after_append :
    ∃ (init : Bytes) (ops : List Op), (∀ op ∈ ops, op.nonempty) ∧
      (readAll (run (openFile init) ops).1).2 = none ∧ (plainRun init ops).1 ≠ [] :=
  ⟨[1], [.writeAt 1 [2]], by intro op h; simp at h; subst h; simp [Op.nonempty], by decide, by decide⟩

/-- No write of the session starts exactly at the current end of the file. -/
def noAppendRun (f : Bytes) : List Op → Prop
  | [] => True
  | op :: ops => (match op with | .writeAt off p => off ≠ f.length ∧ p ≠ [] | _ => True) ∧
      noAppendRun (plainStep f op).1 ops

/-- **C49 (partial).** `ReadAll` returns the whole content when no append has been made since the file was
opened (overwrites, gap writes, reads and syncs are allowed).  Missing: after an append (or an earlier
`ReadAll`), where the code returns an error. -/
theorem readAll_without_append_partial (init : Bytes) (ops : List Op) (h : noAppendRun init ops) :
    (readAll (run (openFile init) ops).1).2 = some (plainRun init ops).1 := by
  have key : ∀ (a : AOF) (plain : Bytes), Inv a plain → a.buf = none → a.file.pos = 0 →
      noAppendRun plain ops → Inv (run a ops).1 (plainRun plain ops).1 ∧ (run a ops).1.buf = none ∧
        (run a ops).1.file.pos = 0 := by
    clear h
    induction ops with
    | nil => intro a plain hi hb hp _; exact ⟨hi, hb, hp⟩
    | cons op ops ih =>
      intro a plain hi hb hp hh
      refine ih _ _ ?_ ?_ ?_ hh.2
      · cases op with
        | writeAt off p => exact (step_refines hi (.writeAt off p) hh.1.2).1
        | readAt off n => exact (step_refines hi (.readAt off n) trivial).1
        | size => exact (step_refines hi .size trivial).1
        | sync => exact (step_refines hi .sync trivial).1
      · cases op with
        | writeAt off p =>
          have h1 := hh.1.1
          simp [writeAt, hb, hi.total, h1]
        | readAt off n => simp [step, readAt, flush, hb]
        | size => simpa [step]
        | sync => simp [step, sync, flush, hb]
      · cases op with
        | writeAt off p =>
          have h1 := hh.1.1
          simp [step, writeAt, hb, hi.total, h1, hp]
        | readAt off n => simp [step, readAt, flush, hb, hp]
        | size => simpa [step]
        | sync => simp [step, sync, flush, hb, hp]
  obtain ⟨h1, h2, h3⟩ := key _ _ (inv_open init) rfl rfl h
  have hd := h1.data
  rw [h2] at hd
  simp at hd
  simp [readAll, sync, flush, h2, h3, hd]

example : noAppendRun [1, 2] [.writeAt 0 [5], .writeAt 4 [6], .readAt 0 2] := by
  simp [noAppendRun, plainStep, Verif.writeAt]

end Verif.AppendOpt
