import Verif.Model.FaultyFile
import Verif.Props.AppendOpt

/-!
# C108: the append-optimised file on a disk that fails
-/

namespace Verif.Faulty

open AppendOpt (OsFile AOF Op Out bufCap plainStep plainRun)

/-! ## As long as nothing has been reported, nothing has happened -/

/-- The file without the errors. -/
def FF.erase (a : FF) : AOF := ⟨a.disk.file, a.buf.map (·.pend), a.nextAppend, a.totalSize⟩

/-- The writer, if there is one, has met no error. -/
def Fine (a : FF) : Prop := ∀ w, a.buf = some w → w.failed = false

theorem Disk.write_ok {d d' : Disk} {p : Bytes} {n : Nat} (h : d.write p = (d', n, true)) :
    d'.file = d.file.write p ∧ n = p.length := by
  unfold Disk.write at h
  split at h <;> simp only [Prod.mk.injEq, Bool.false_eq_true, and_false, and_true] at h <;>
    exact ⟨h.1 ▸ rfl, h.2.symm⟩

theorem Disk.writeAt_ok {d d' : Disk} {off : Nat} {p : Bytes} {n : Nat} (h : d.writeAt off p = (d', n, true)) :
    d'.file = { d.file with data := Verif.writeAt d.file.data off p } ∧ n = p.length := by
  unfold Disk.writeAt at h
  split at h <;> simp only [Prod.mk.injEq, Bool.false_eq_true, and_false, and_true] at h <;>
    exact ⟨h.1 ▸ rfl, h.2.symm⟩

theorem Disk.fsync_file (d : Disk) : d.fsync.1.file = d.file := by
  unfold Disk.fsync
  split <;> rfl

theorem Writer.flush_ok {d d' : Disk} {w w' : Writer} (h : w.flush d = (d', w', true)) :
    d'.file = (if w.pend = [] then d.file else d.file.write w.pend) ∧ w' = ⟨[], false⟩ := by
  unfold Writer.flush at h
  split at h
  · simp at h
  rename_i hf
  split at h
  · rename_i hp
    simp only [Prod.mk.injEq, and_true] at h
    obtain ⟨rfl, rfl⟩ := h
    rw [if_pos hp]
    refine ⟨rfl, ?_⟩
    cases w
    simp_all
  · rename_i hp
    split at h
    · rename_i hw
      simp only [Prod.mk.injEq, and_true] at h
      obtain ⟨rfl, rfl⟩ := h
      rw [if_neg hp]
      exact ⟨(Disk.write_ok hw).1, rfl⟩
    · simp at h

theorem direct_ok {d d' : Disk} {w' : Writer} {p : Bytes} {n : Nat} (h : direct d p = (d', w', n, true)) :
    d'.file = d.file.write p ∧ w' = ⟨[], false⟩ ∧ n = p.length := by
  unfold direct at h
  generalize hw : d.write p = r at h
  obtain ⟨d1, n1, ok⟩ := r
  simp only [Prod.mk.injEq] at h
  obtain ⟨rfl, rfl, rfl, rfl⟩ := h
  exact ⟨(Disk.write_ok hw).1, rfl, (Disk.write_ok hw).2⟩

theorem Writer.write_ok {d d' : Disk} {w w' : Writer} {p : Bytes} {n : Nat} (h : w.write d p = (d', w', n, true)) :
    (d'.file, w'.pend) = AppendOpt.bufWrite d.file w.pend p ∧ w'.failed = false ∧ n = p.length := by
  unfold Writer.write at h
  split at h
  · simp at h
  rename_i hf
  unfold AppendOpt.bufWrite
  split at h
  · rename_i hl
    simp only [Prod.mk.injEq, and_true] at h
    obtain ⟨rfl, rfl, rfl⟩ := h
    rw [if_pos hl]
    exact ⟨rfl, by simpa using hf, rfl⟩
  rename_i hl
  rw [if_neg hl]
  split at h
  · rename_i hp
    rw [if_pos hp]
    obtain ⟨h1, h2, h3⟩ := direct_ok h
    exact ⟨by rw [h1, h2], by rw [h2], h3⟩
  rename_i hp
  rw [if_neg hp]
  dsimp only at h ⊢
  split at h
  · simp at h
  · rename_i d1 w1 hfl
    obtain ⟨f1, f2⟩ := Writer.flush_ok hfl
    have hne : ¬w.pend ++ p.take (bufCap - w.pend.length) = [] := by simp [hp]
    rw [if_neg hne] at f1
    split at h
    · rename_i hr
      rw [if_pos hr]
      simp only [Prod.mk.injEq, and_true] at h
      obtain ⟨rfl, rfl, rfl⟩ := h
      exact ⟨by rw [f1], by rw [f2], rfl⟩
    · rename_i hr
      rw [if_neg hr]
      generalize hd : direct d1 (p.drop (bufCap - w.pend.length)) = r at h
      obtain ⟨d2, w2, k, ok⟩ := r
      simp only [Prod.mk.injEq] at h
      obtain ⟨rfl, rfl, rfl, rfl⟩ := h
      obtain ⟨h1, h2, h3⟩ := direct_ok hd
      refine ⟨by rw [h1, h2, f1], by rw [h2], ?_⟩
      rw [h3, List.length_drop]
      omega

theorem flush_ok {a a' : FF} (h : flush a = (a', true)) : a'.erase = AppendOpt.flush a.erase ∧ a'.buf = none := by
  unfold flush at h
  unfold AppendOpt.flush FF.erase
  split at h
  · rename_i hb
    simp only [Prod.mk.injEq, and_true] at h
    subst h
    exact ⟨by rw [hb]; rfl, hb⟩
  · rename_i w hb
    split at h
    · simp at h
    · rename_i hf
      simp only [Prod.mk.injEq, and_true] at h
      subst h
      obtain ⟨h1, _⟩ := Writer.flush_ok hf
      dsimp only
      rw [hb, h1]
      exact ⟨rfl, rfl⟩

theorem writeElsewhere_ok {a a' : FF} {off : Nat} {p : Bytes} (h : writeElsewhere a off p = (a', true)) :
    a'.erase = { a.erase with
      file := { a.erase.file with data := Verif.writeAt a.erase.file.data off p },
      totalSize := if off + p.length > a.erase.totalSize then off + p.length else a.erase.totalSize } ∧ a'.buf = a.buf := by
  unfold writeElsewhere at h
  generalize hw : a.disk.writeAt off p = r at h
  obtain ⟨d1, n1, ok⟩ := r
  simp only [Prod.mk.injEq] at h
  obtain ⟨rfl, rfl⟩ := h
  obtain ⟨h1, rfl⟩ := Disk.writeAt_ok hw
  exact ⟨by unfold FF.erase; dsimp only; rw [h1], rfl⟩

theorem writeAt_ok {a a' : FF} {off : Nat} {p : Bytes} (hf : Fine a) (h : writeAt a off p = (a', true)) :
    a'.erase = AppendOpt.writeAt a.erase off p ∧ Fine a' := by
  unfold writeAt at h
  unfold AppendOpt.writeAt
  split at h
  · rename_i w hb
    have hb' : a.erase.buf = some w.pend := by unfold FF.erase; rw [hb]; rfl
    rw [hb']
    dsimp only
    split at h
    · rename_i ho
      have ho' : off = a.erase.nextAppend := ho
      rw [if_pos ho']
      split at h
      · simp at h
      · rename_i hw
        simp only [Prod.mk.injEq, and_true] at h
        subst h
        obtain ⟨h1, h2, rfl⟩ := Writer.write_ok hw
        rw [show a.erase.file = a.disk.file from rfl, ← h1]
        exact ⟨rfl, fun w e => by cases e; exact h2⟩
    · rename_i ho
      have ho' : ¬off = a.erase.nextAppend := ho
      rw [if_neg ho']
      split at h
      · simp at h
      · rename_i hfl
        obtain ⟨f1, f2⟩ := flush_ok hfl
        obtain ⟨e1, e2⟩ := writeElsewhere_ok h
        rw [← f1]
        exact ⟨e1, fun w e => by rw [e2, f2] at e; cases e⟩
  · rename_i hb
    have hb' : a.erase.buf = none := by unfold FF.erase; rw [hb]; rfl
    rw [hb']
    dsimp only
    split at h
    · rename_i ho
      have ho' : off = a.erase.totalSize := ho
      rw [if_pos ho']
      split at h
      · simp at h
      · rename_i hw
        simp only [Prod.mk.injEq, and_true] at h
        subst h
        obtain ⟨h1, h2, rfl⟩ := Writer.write_ok hw
        dsimp only at h1
        rw [show a.erase.file = a.disk.file from rfl, ← h1]
        exact ⟨rfl, fun w e => by cases e; exact h2⟩
    · rename_i ho
      have ho' : ¬off = a.erase.totalSize := ho
      rw [if_neg ho']
      obtain ⟨e1, e2⟩ := writeElsewhere_ok h
      refine ⟨by rw [e1]; dsimp only; rw [hb'], fun w e => by rw [e2, hb] at e; cases e⟩

theorem sync_ok {a a' : FF} (h : sync a = (a', true)) : a'.erase = AppendOpt.sync a.erase ∧ a'.buf = none := by
  unfold sync at h
  split at h
  · simp at h
  · rename_i a1 hfl
    obtain ⟨f1, f2⟩ := flush_ok hfl
    split at h
    rename_i d ok hd
    simp only [Prod.mk.injEq] at h
    obtain ⟨rfl, rfl⟩ := h
    have : d.file = a1.disk.file := by have := Disk.fsync_file a1.disk; rw [hd] at this; exact this
    refine ⟨?_, f2⟩
    rw [AppendOpt.sync, ← f1]
    unfold FF.erase
    dsimp only
    rw [this]

theorem step_ok {a a' : FF} {op : Op} {o : Out} (hf : Fine a) (h : step a op = (a', some o)) :
    AppendOpt.step a.erase op = (a'.erase, o) ∧ Fine a' := by
  cases op with
  | readAt off n =>
    simp only [step, readAt] at h
    generalize hfl : flush a = r at h
    obtain ⟨a1, ok⟩ := r
    cases ok with
    | false => simp at h
    | true =>
      simp only [Option.map_some, Prod.mk.injEq, Option.some.injEq] at h
      obtain ⟨rfl, rfl⟩ := h
      obtain ⟨f1, f2⟩ := flush_ok hfl
      refine ⟨?_, fun w e => by rw [f2] at e; cases e⟩
      simp only [AppendOpt.step, AppendOpt.readAt, ← f1]
      rfl
  | writeAt off p =>
    simp only [step] at h
    generalize hw : writeAt a off p = r at h
    obtain ⟨a1, ok⟩ := r
    cases ok with
    | false => simp at h
    | true =>
      simp only [↓reduceIte, Prod.mk.injEq, Option.some.injEq] at h
      obtain ⟨rfl, rfl⟩ := h
      obtain ⟨e1, e2⟩ := writeAt_ok hf hw
      exact ⟨by rw [AppendOpt.step, ← e1], e2⟩
  | size =>
    simp only [step, Prod.mk.injEq, Option.some.injEq] at h
    obtain ⟨rfl, rfl⟩ := h
    exact ⟨rfl, hf⟩
  | sync =>
    simp only [step] at h
    generalize hw : sync a = r at h
    obtain ⟨a1, ok⟩ := r
    cases ok with
    | false => simp at h
    | true =>
      simp only [↓reduceIte, Prod.mk.injEq, Option.some.injEq] at h
      obtain ⟨rfl, rfl⟩ := h
      obtain ⟨e1, e2⟩ := sync_ok hw
      exact ⟨by rw [AppendOpt.step, ← e1], fun w e => by rw [e2] at e; cases e⟩

theorem run_ok {a : FF} {ops : List Op} {outs : List Out} (hf : Fine a) (h : (run a ops).2 = outs.map some) :
    AppendOpt.run a.erase ops = ((run a ops).1.erase, outs) ∧ Fine (run a ops).1 := by
  induction ops generalizing a outs with
  | nil =>
    cases outs with
    | nil => exact ⟨rfl, hf⟩
    | cons o os => simp [run] at h
  | cons op ops ih =>
    simp only [run] at h ⊢
    generalize hs : step a op = r at h
    obtain ⟨a1, o1⟩ := r
    cases outs with
    | nil => simp at h
    | cons o os =>
      simp only [List.map_cons, List.cons.injEq] at h
      obtain ⟨rfl, h⟩ := h
      obtain ⟨e1, e2⟩ := step_ok hf hs
      obtain ⟨i1, i2⟩ := ih e2 h
      dsimp only
      exact ⟨by rw [AppendOpt.run, e1]; dsimp only; rw [i1], i2⟩

theorem erase_open (init : Bytes) (fates : Fates) : (openFile init fates).erase = AppendOpt.openFile init := rfl

theorem close_ok {a : FF} {b : Bytes} (h : close a = (b, true)) : b = AppendOpt.close a.erase := by
  unfold close at h
  split at h
  rename_i a1 ok hfl
  simp only [Prod.mk.injEq] at h
  obtain ⟨rfl, rfl⟩ := h
  rw [AppendOpt.close, ← (flush_ok hfl).1]
  rfl

theorem run_append (a : FF) (xs ys : List Op) :
    run a (xs ++ ys) = ((run (run a xs).1 ys).1, (run a xs).2 ++ (run (run a xs).1 ys).2) := by
  induction xs generalizing a with
  | nil => rfl
  | cons x xs ih => simp only [List.cons_append, run, ih]

/-- **C108 (partial).** As long as no call on the file has returned an error, every answer is the answer of a plain file,
whatever the disk has done.  If the last call was a `Sync`, the plain file's bytes are then on disk; if `Close` is called and
returns nil too, they are on disk after it.  Missing: the same once some call has returned an error
(`a_nil_sync_after_a_loss`, `a_retry_lands_in_the_wrong_place`). -/
theorem no_error_means_stored_partial (init : Bytes) (fates : Fates) (ops : List Op) (outs : List Out)
    (hops : ∀ op ∈ ops, op.nonempty) (h : (run (openFile init fates) ops).2 = outs.map some) :
    outs = (plainRun init ops).2 ∧
      (∀ before, ops = before ++ [.sync] → (run (openFile init fates) ops).1.disk.file.data = (plainRun init before).1) ∧
      ((close (run (openFile init fates) ops).1).2 = true →
        (close (run (openFile init fates) ops).1).1 = (plainRun init ops).1) := by
  obtain ⟨e1, _⟩ := run_ok (fun _ e => by cases e) h
  rw [erase_open] at e1
  obtain ⟨c1, c2⟩ := AppendOpt.appendOpt_is_plain_file init ops hops
  rw [e1] at c1 c2
  refine ⟨c1, fun before hb => ?_, fun hc => ?_⟩
  · have := AppendOpt.sync_makes_durable init before (fun op ho => hops op (by rw [hb]; simp [ho]))
    rw [← hb, e1] at this
    exact this
  · rw [← c2]
    exact close_ok (by rw [← hc])

/-! ## What was synced stays -/

/-- A write of the session covers position `i`. -/
def Covers (ops : List Op) (i : Nat) : Prop := ∃ off p, Op.writeAt off p ∈ ops ∧ off ≤ i ∧ i < off + p.length

/-- The bytes `old` are on disk, except where `c` holds. -/
def Keeps (old : Bytes) (c : Nat → Prop) (d : Disk) : Prop :=
  old.length ≤ d.file.data.length ∧ ∀ i, i < old.length → ¬c i → d.file.data[i]? = old[i]?

theorem writeAt_keeps {old d : Bytes} {c : Nat → Prop} {off : Nat} {p : Bytes} (hl : old.length ≤ d.length)
    (hs : ∀ i, i < old.length → ¬c i → d[i]? = old[i]?) (hc : ∀ i, i < old.length → off ≤ i → i < off + p.length → c i) :
    old.length ≤ (Verif.writeAt d off p).length ∧
      ∀ i, i < old.length → ¬c i → (Verif.writeAt d off p)[i]? = old[i]? := by
  by_cases hp : p = []
  · rw [hp]
    have : Verif.writeAt d off [] = d := by simp [Verif.writeAt]
    rw [this]
    exact ⟨hl, hs⟩
  · refine ⟨by rw [writeAt_length hp]; omega, fun i hi hn => ?_⟩
    rw [writeAt_getElem? hp]
    split
    · rw [if_pos (show i < d.length by omega)]
      exact hs i hi hn
    · split
      · exact absurd (hc i hi (by omega) (by omega)) hn
      · exact hs i hi hn

section

variable {old : Bytes} {c : Nat → Prop}

theorem Disk.write_keeps {d : Disk} (h : Keeps old c d) (hp : old.length ≤ d.file.pos) (p : Bytes) :
    Keeps old c (d.write p).1 ∧ old.length ≤ (d.write p).1.file.pos := by
  have key : ∀ (q : Bytes) (r : Fates), Keeps old c ⟨d.file.write q, r⟩ ∧ old.length ≤ (d.file.write q).pos :=
    fun q r => ⟨writeAt_keeps h.1 h.2 (fun i h1 h2 _ => by omega), by simp only [OsFile.write]; omega⟩
  unfold Disk.write
  split
  · exact key _ _
  · exact key _ _
  · exact key _ _

theorem Disk.writeAt_keeps {d : Disk} (h : Keeps old c d) {off : Nat} {p : Bytes}
    (hc : ∀ i, off ≤ i → i < off + p.length → c i) : Keeps old c (d.writeAt off p).1 := by
  unfold Disk.writeAt
  split
  · exact Faulty.writeAt_keeps h.1 h.2 (fun i _ h2 h3 => hc i h2 (by rw [List.length_take] at h3; omega))
  · exact Faulty.writeAt_keeps h.1 h.2 (fun i _ h2 h3 => hc i h2 h3)
  · exact Faulty.writeAt_keeps h.1 h.2 (fun i _ h2 h3 => hc i h2 h3)

theorem Writer.flush_keeps {d : Disk} (h : Keeps old c d) (hp : old.length ≤ d.file.pos) (w : Writer) :
    Keeps old c (w.flush d).1 ∧ old.length ≤ (w.flush d).1.file.pos := by
  unfold Writer.flush
  split
  · exact ⟨h, hp⟩
  split
  · exact ⟨h, hp⟩
  have := Disk.write_keeps h hp w.pend
  generalize d.write w.pend = r at this ⊢
  obtain ⟨d1, n, ok⟩ := r
  cases ok <;> exact this

theorem direct_keeps {d : Disk} (h : Keeps old c d) (hp : old.length ≤ d.file.pos) (p : Bytes) :
    Keeps old c (direct d p).1 ∧ old.length ≤ (direct d p).1.file.pos := Disk.write_keeps h hp p

theorem Writer.write_keeps {d : Disk} (h : Keeps old c d) (hp : old.length ≤ d.file.pos) (w : Writer) (p : Bytes) :
    Keeps old c (w.write d p).1 ∧ old.length ≤ (w.write d p).1.file.pos := by
  unfold Writer.write
  split
  · exact ⟨h, hp⟩
  split
  · exact ⟨h, hp⟩
  split
  · exact direct_keeps h hp p
  dsimp only
  have := Writer.flush_keeps h hp { w with pend := w.pend ++ p.take (bufCap - w.pend.length) }
  generalize Writer.flush d { w with pend := w.pend ++ p.take (bufCap - w.pend.length) } = r at this ⊢
  obtain ⟨d1, w1, ok⟩ := r
  cases ok with
  | false => exact this
  | true =>
    dsimp only at this ⊢
    split
    · exact this
    · exact direct_keeps this.1 this.2 _

/-- The bytes `old` are on disk, except where `c` holds, and appends go behind them. -/
def Safe (old : Bytes) (c : Nat → Prop) (a : FF) : Prop :=
  Keeps old c a.disk ∧ (a.buf ≠ none → old.length ≤ a.disk.file.pos)

theorem flush_safe {a : FF} (h : Safe old c a) : Safe old c (flush a).1 := by
  unfold flush
  split
  · exact h
  · rename_i w hb
    have := Writer.flush_keeps h.1 (h.2 (by rw [hb]; simp)) w
    generalize w.flush a.disk = r at this ⊢
    obtain ⟨d1, w1, ok⟩ := r
    cases ok with
    | false => exact ⟨this.1, fun _ => this.2⟩
    | true => exact ⟨this.1, fun hne => absurd rfl hne⟩

theorem writeElsewhere_safe {a : FF} (h : Safe old c a) (hb : a.buf = none) {off : Nat} {p : Bytes}
    (hc : ∀ i, off ≤ i → i < off + p.length → c i) : Safe old c (writeElsewhere a off p).1 := by
  unfold writeElsewhere
  exact ⟨Disk.writeAt_keeps h.1 hc, fun hne => absurd hb hne⟩

theorem flush_none {a a1 : FF} (h : flush a = (a1, true)) : a1.buf = none := (flush_ok h).2

theorem writeAt_safe {a : FF} (h : Safe old c a) {off : Nat} {p : Bytes}
    (hc : ∀ i, off ≤ i → i < off + p.length → c i) : Safe old c (writeAt a off p).1 := by
  unfold writeAt
  split
  · rename_i w hb
    split
    · have := Writer.write_keeps h.1 (h.2 (by rw [hb]; simp)) w p
      generalize w.write a.disk p = r at this ⊢
      obtain ⟨d1, w1, n, ok⟩ := r
      cases ok with
      | false => exact ⟨this.1, fun hne => absurd rfl hne⟩
      | true => exact ⟨this.1, fun _ => this.2⟩
    · have := flush_safe h
      generalize hf : flush a = r at this ⊢
      obtain ⟨a1, ok⟩ := r
      cases ok with
      | false => exact this
      | true => exact writeElsewhere_safe this (flush_none hf) hc
  · rename_i hb
    split
    · have := Writer.write_keeps (d := { a.disk with file := { a.disk.file with pos := a.disk.file.data.length } })
        h.1 h.1.1 ⟨[], false⟩ p
      generalize Writer.write { a.disk with file := { a.disk.file with pos := a.disk.file.data.length } } ⟨[], false⟩ p = r
        at this ⊢
      obtain ⟨d1, w1, n, ok⟩ := r
      cases ok with
      | false => exact ⟨this.1, fun hne => absurd rfl hne⟩
      | true => exact ⟨this.1, fun _ => this.2⟩
    · exact writeElsewhere_safe h hb hc

theorem step_safe {a : FF} (h : Safe old c a) {op : Op}
    (hc : ∀ off p, op = .writeAt off p → ∀ i, off ≤ i → i < off + p.length → c i) : Safe old c (step a op).1 := by
  cases op with
  | readAt off n =>
    simp only [step, readAt]
    have := flush_safe h
    generalize flush a = r at this ⊢
    obtain ⟨a1, ok⟩ := r
    cases ok <;> exact this
  | writeAt off p => exact writeAt_safe h (hc off p rfl)
  | size => exact h
  | sync =>
    simp only [step, sync]
    have := flush_safe h
    generalize flush a = r at this ⊢
    obtain ⟨a1, ok⟩ := r
    cases ok with
    | false => exact this
    | true =>
      dsimp only
      unfold Safe Keeps at this ⊢
      dsimp only
      rw [Disk.fsync_file]
      exact this

theorem run_safe {a : FF} (h : Safe old c a) (ops : List Op) (hc : ∀ i, Covers ops i → c i) : Safe old c (run a ops).1 := by
  induction ops generalizing a with
  | nil => exact h
  | cons op ops ih =>
    simp only [run]
    refine ih (step_safe h fun off p e i h1 h2 => hc i ⟨off, p, by rw [e]; simp, h1, h2⟩) fun i hi => hc i ?_
    obtain ⟨off, p, hm, h1⟩ := hi
    exact ⟨off, p, by simp [hm], h1⟩

end

/-- **C108.** What a nil `Sync` has put on disk stays there, whatever fails afterwards and however the client goes on: when
every call up to a `Sync` returned nil, then after any further calls, failing or not, and after `Close`, the bytes of that
moment are still on disk wherever no later write was aimed. -/
theorem synced_bytes_stay (init : Bytes) (fates : Fates) (before after : List Op) (outs : List Out)
    (hops : ∀ op ∈ before, op.nonempty)
    (h : (run (openFile init fates) (before ++ [.sync])).2 = outs.map some)
    (i : Nat) (hi : i < (plainRun init before).1.length) (hc : ¬Covers after i) :
    (run (openFile init fates) (before ++ [.sync] ++ after)).1.disk.file.data[i]? = (plainRun init before).1[i]? ∧
    (close (run (openFile init fates) (before ++ [.sync] ++ after)).1).1[i]? = (plainRun init before).1[i]? := by
  have hd := (no_error_means_stored_partial init fates (before ++ [.sync]) outs
    (fun op ho => by
      rcases List.mem_append.mp ho with ho | ho
      · exact hops op ho
      · simp only [List.mem_cons, List.not_mem_nil, or_false] at ho; subst ho; trivial) h).2.1 before rfl
  rw [run_append]
  generalize hA : (run (openFile init fates) (before ++ [.sync])).1 = A at hd
  have hbuf : A.buf = none := by
    rw [← hA, run_append]
    rw [run_append] at h
    generalize (run (openFile init fates) before).1 = a at h ⊢
    simp only [run, step] at h ⊢
    generalize hs : sync a = r at h ⊢
    obtain ⟨a1, ok⟩ := r
    cases ok with
    | true => exact (sync_ok hs).2
    | false =>
      have : (none : Option Out) ∈ outs.map some := by rw [← h]; simp
      simp at this
  have hsafe : Safe (plainRun init before).1 (Covers after) A :=
    ⟨⟨by rw [hd]; exact Nat.le_refl _, fun _ _ _ => by rw [hd]⟩, fun hne => absurd hbuf hne⟩
  have hrun := run_safe hsafe after (fun _ h => h)
  exact ⟨hrun.1.2 i hi hc, (flush_safe hrun).1.2 i hi hc⟩

/-! ## The size -/

/-- Writing does not make a file longer than its end or the end of what is written. -/
theorem writeAt_len (f : Bytes) (off : Nat) (p : Bytes) : (Verif.writeAt f off p).length ≤ max f.length (off + p.length) := by
  by_cases hp : p = []
  · rw [hp]; simp [Verif.writeAt]; omega
  · rw [writeAt_length hp]; omega

theorem Disk.write_len {d : Disk} {p : Bytes} {r : Disk × Nat × Bool} (h : d.write p = r) :
    r.1.file.pos = d.file.pos + r.2.1 ∧ r.2.1 ≤ p.length ∧ (r.2.2 = true → r.2.1 = p.length) ∧
    r.1.file.data.length ≤ max d.file.data.length (d.file.pos + r.2.1) := by
  unfold Disk.write at h
  split at h <;> subst h <;> dsimp only [OsFile.write]
  · exact ⟨rfl, by simp; omega, by simp, writeAt_len _ _ _⟩
  · exact ⟨rfl, Nat.le_refl _, fun _ => rfl, writeAt_len _ _ _⟩
  · exact ⟨rfl, Nat.le_refl _, fun _ => rfl, writeAt_len _ _ _⟩

theorem Disk.writeAt_len {d : Disk} {off : Nat} {p : Bytes} {r : Disk × Nat × Bool} (h : d.writeAt off p = r) :
    r.1.file.data.length ≤ max d.file.data.length (off + r.2.1) := by
  unfold Disk.writeAt at h
  split at h <;> subst h <;> exact Faulty.writeAt_len _ _ _

theorem Writer.flush_len {d : Disk} {w : Writer} {r : Disk × Writer × Bool} (h : w.flush d = r) :
    r.1.file.pos + r.2.1.pend.length = d.file.pos + w.pend.length ∧
    r.1.file.data.length ≤ max d.file.data.length (d.file.pos + w.pend.length) ∧ (r.2.2 = true → r.2.1.pend = []) := by
  unfold Writer.flush at h
  split at h
  · subst h; exact ⟨rfl, by dsimp only; omega, by simp⟩
  · split at h
    · rename_i hp
      subst h; exact ⟨rfl, by dsimp only; omega, fun _ => hp⟩
    · generalize hw : d.write w.pend = q at h
      have := Disk.write_len hw
      obtain ⟨d1, n, ok⟩ := q
      dsimp only at this
      cases ok with
      | true =>
        dsimp only at h
        subst h
        dsimp only
        have h3 := this.2.2.1 rfl
        exact ⟨by rw [List.length_nil]; omega, by omega, fun _ => rfl⟩
      | false =>
        dsimp only at h
        subst h
        dsimp only
        exact ⟨by rw [List.length_drop]; omega, by omega, by simp⟩

theorem direct_len {d : Disk} {p : Bytes} {r : Disk × Writer × Nat × Bool} (h : direct d p = r) :
    r.1.file.pos + r.2.1.pend.length = d.file.pos + r.2.2.1 ∧
    r.1.file.data.length ≤ max d.file.data.length (d.file.pos + r.2.2.1) := by
  unfold direct at h
  generalize hw : d.write p = q at h
  have := Disk.write_len hw
  obtain ⟨d1, n, ok⟩ := q
  dsimp only at this h
  subst h
  dsimp only
  exact ⟨by rw [List.length_nil]; omega, by omega⟩

theorem Writer.write_len {d : Disk} {w : Writer} {p : Bytes} {r : Disk × Writer × Nat × Bool} (h : w.write d p = r) :
    r.1.file.pos + r.2.1.pend.length ≤ d.file.pos + w.pend.length + r.2.2.1 ∧
    r.1.file.data.length ≤ max d.file.data.length (d.file.pos + w.pend.length + r.2.2.1) := by
  unfold Writer.write at h
  split at h
  · subst h; dsimp only; omega
  split at h
  · subst h; dsimp only; rw [List.length_append]; omega
  split at h
  · rename_i hp
    have := direct_len h
    rw [hp, List.length_nil]
    omega
  · rename_i hlong _
    dsimp only at h
    generalize hf : Writer.flush d { w with pend := w.pend ++ p.take (bufCap - w.pend.length) } = q at h
    have := Writer.flush_len hf
    obtain ⟨d1, w1, ok⟩ := q
    dsimp only at this
    rw [List.length_append, List.length_take, Nat.min_eq_left (by omega)] at this
    cases ok with
    | false => dsimp only at h; subst h; dsimp only; omega
    | true =>
      dsimp only at h
      have hnil := this.2.2 rfl
      rw [hnil, List.length_nil] at this
      split at h
      · subst h; dsimp only; rw [List.length_drop]; omega
      · generalize hd : direct d1 (p.drop (bufCap - w.pend.length)) = q2 at h
        have h2 := direct_len hd
        obtain ⟨d2, w2, k, ok2⟩ := q2
        dsimp only at h h2
        subst h
        dsimp only
        omega

/-- The size counts everything that is on disk, or will be when the buffer is flushed. -/
def Counted (a : FF) : Prop :=
  a.disk.file.data.length ≤ a.totalSize ∧ ∀ w, a.buf = some w → a.disk.file.pos + w.pend.length ≤ a.totalSize

theorem flush_counted {a : FF} (h : Counted a) : Counted (flush a).1 ∧ (flush a).1.totalSize = a.totalSize := by
  unfold flush
  split
  · exact ⟨h, rfl⟩
  · rename_i w hb
    have h1 := h.1
    have h2 := h.2 w hb
    generalize hf : w.flush a.disk = r
    have := Writer.flush_len hf
    obtain ⟨d1, w1, ok⟩ := r
    dsimp only at this
    cases ok with
    | false =>
      refine ⟨⟨?_, ?_⟩, rfl⟩
      · dsimp only; omega
      · intro w' e; injection e with e; subst e; dsimp only; omega
    | true =>
      refine ⟨⟨?_, ?_⟩, rfl⟩
      · dsimp only; omega
      · intro w' e; cases e

theorem writeElsewhere_counted {a : FF} (h : Counted a) (hb : a.buf = none) (off : Nat) (p : Bytes) :
    Counted (writeElsewhere a off p).1 := by
  unfold writeElsewhere
  generalize hw : a.disk.writeAt off p = r
  have := Disk.writeAt_len hw
  obtain ⟨d1, n, ok⟩ := r
  dsimp only at this ⊢
  have h1 := h.1
  refine ⟨?_, ?_⟩
  · dsimp only; split <;> omega
  · intro w e
    dsimp only at e
    rw [hb] at e; cases e

theorem writeAt_counted {a : FF} (h : Counted a) (off : Nat) (p : Bytes) : Counted (writeAt a off p).1 := by
  unfold writeAt
  have h1 := h.1
  split
  · rename_i w hb
    have h2 := h.2 w hb
    split
    · generalize hw : w.write a.disk p = r
      have := Writer.write_len hw
      obtain ⟨d1, w1, n, ok⟩ := r
      dsimp only at this
      cases ok with
      | false => exact ⟨by dsimp only; omega, fun w' e => by cases e⟩
      | true => exact ⟨by dsimp only; omega, fun w' e => by injection e with e; subst e; dsimp only; omega⟩
    · have hc := flush_counted h
      generalize hf : flush a = r at hc ⊢
      obtain ⟨a1, ok⟩ := r
      cases ok with
      | false => exact hc.1
      | true => exact writeElsewhere_counted hc.1 (flush_none hf) off p
  · rename_i hb
    split
    · generalize hw : Writer.write { a.disk with file := { a.disk.file with pos := a.disk.file.data.length } } ⟨[], false⟩ p = r
      have := Writer.write_len hw
      obtain ⟨d1, w1, n, ok⟩ := r
      dsimp only [List.length_nil] at this
      cases ok with
      | false => exact ⟨by dsimp only; omega, fun w' e => by cases e⟩
      | true => exact ⟨by dsimp only; omega, fun w' e => by injection e with e; subst e; dsimp only; omega⟩
    · exact writeElsewhere_counted h hb off p

theorem step_counted {a : FF} (h : Counted a) (op : Op) : Counted (step a op).1 := by
  cases op with
  | readAt off n =>
    simp only [step, readAt]
    have := (flush_counted h).1
    generalize flush a = r at this ⊢
    obtain ⟨a1, ok⟩ := r
    cases ok <;> exact this
  | writeAt off p => exact writeAt_counted h off p
  | size => exact h
  | sync =>
    simp only [step, sync]
    have := (flush_counted h).1
    generalize flush a = r at this ⊢
    obtain ⟨a1, ok⟩ := r
    cases ok with
    | false => exact this
    | true =>
      dsimp only
      unfold Counted at this ⊢
      dsimp only
      rw [Disk.fsync_file]
      exact this

theorem run_counted {a : FF} (h : Counted a) (ops : List Op) : Counted (run a ops).1 := by
  induction ops generalizing a with
  | nil => exact h
  | cons op ops ih => simp only [run]; exact ih (step_counted h op)

/-- **C108.** `Size` never says less than there is: whatever has failed, and however the client went on, the size reported is
at least the length of the file on disk, now and after `Close`; so what is written at the reported size never overwrites a
byte that is on disk. -/
theorem size_covers_the_disk (init : Bytes) (fates : Fates) (ops : List Op) (n : Nat)
    (h : (step (run (openFile init fates) ops).1 .size).2 = some (.size n)) :
    (run (openFile init fates) ops).1.disk.file.data.length ≤ n ∧ (close (run (openFile init fates) ops).1).1.length ≤ n := by
  have hc := run_counted (a := openFile init fates) ⟨Nat.le_refl _, fun w e => by cases e⟩ ops
  simp only [step, Option.some.injEq, Out.size.injEq] at h
  subst h
  refine ⟨hc.1, ?_⟩
  obtain ⟨h1, h2⟩ := flush_counted hc
  have : (close (run (openFile init fates) ops).1).1 = (flush (run (openFile init fates) ops).1).1.disk.file.data := rfl
  rw [this, ← h2]
  exact h1.1

-- flushing three bytes fails after one, and the size still counts all three; overwriting fails after one byte and the size stays
example : (run (openFile [1, 2] [some 1]) [.writeAt 2 [7, 8, 9], .sync, .size]).2 = [some .unit, none, some (.size 5)] ∧
    (run (openFile [1, 2] [some 1]) [.writeAt 2 [7, 8, 9], .sync, .size]).1.disk.file.data = [1, 2, 7] ∧
    (run (openFile [1, 2] [some 1]) [.writeAt 1 [7, 8, 9], .size]).2 = [none, some (.size 2)] := by decide

/-! ## After an error -/

/-- A buffer's worth of bytes accepted, and the disk then failing with none of them written. -/
theorem lost_append (init p q : Bytes) (fates : Fates) (hp : p.length = 4096) (hq : q ≠ []) :
    run (openFile init (some 0 :: fates)) [.writeAt init.length p, .writeAt (init.length + 4096) q] =
      (⟨⟨⟨init, init.length⟩, fates⟩, none, init.length + 4096, init.length + 4096⟩, [some .unit, none]) := by
  have hp0 : p ≠ [] := by intro e; rw [e] at hp; simp at hp
  have h1 : writeAt (openFile init (some 0 :: fates)) init.length p =
      (⟨⟨⟨init, init.length⟩, some 0 :: fates⟩, some ⟨p, false⟩, init.length + 4096, init.length + 4096⟩, true) := by
    simp [writeAt, openFile, Writer.write, hp, bufCap]
  have hl : ¬q.length ≤ bufCap - p.length := by
    have := List.length_pos_iff.mpr hq
    simp only [bufCap]
    omega
  have h2 : writeAt ⟨⟨⟨init, init.length⟩, some 0 :: fates⟩, some ⟨p, false⟩, init.length + 4096, init.length + 4096⟩
      (init.length + 4096) q = (⟨⟨⟨init, init.length⟩, fates⟩, none, init.length + 4096, init.length + 4096⟩, false) := by
    unfold writeAt
    dsimp only
    rw [if_pos rfl, Writer.write]
    dsimp only
    rw [if_neg (by simp), if_neg hl, if_neg hp0]
    simp [Writer.flush, hp0, hp, bufCap, Disk.write, OsFile.write, Verif.writeAt]
  simp [run, step, h1, h2]

/-- **C108 (violation).** Appends that returned nil are thrown away when a later append fails, and nothing after that tells of
it: 4096 bytes are appended and accepted, the disk refuses the next append's flush, and from then on works.  The next `Sync`
and `Close` return nil, `Size` counts the 4096 bytes, and the file on disk is as it was before them. -/
theorem a_nil_sync_after_a_loss (init p q : Bytes) (hp : p.length = 4096) (hq : q ≠ []) :
    ∃ fates a, run (openFile init fates) [.writeAt init.length p, .writeAt (init.length + 4096) q, .sync, .size] =
        (a, [some .unit, none, some .unit, some (.size (init.length + 4096))]) ∧
      a.disk.file.data = init ∧ close a = (init, true) := by
  refine ⟨[some 0], ⟨⟨⟨init, init.length⟩, []⟩, none, init.length + 4096, init.length + 4096⟩, ?_, rfl, rfl⟩
  have := run_append (openFile init [some 0]) [.writeAt init.length p, .writeAt (init.length + 4096) q] [.sync, .size]
  rw [lost_append init p q [] hp hq] at this
  rw [List.cons_append, List.cons_append, List.nil_append] at this
  rw [this]
  rfl

/-- **C108 (violation).** Trying a failed append again stores it in the wrong place: in the same situation the append is
repeated at the same offset and returns nil, but its bytes land where the lost ones belonged, and reading them back at the
offset they were written to finds nothing. -/
theorem a_retry_lands_in_the_wrong_place (init p q : Bytes) (hp : p.length = 4096) (hq : q ≠ []) (hl : q.length ≤ 4096) :
    ∃ fates a, run (openFile init fates) [.writeAt init.length p, .writeAt (init.length + 4096) q,
        .writeAt (init.length + 4096) q, .sync, .readAt (init.length + 4096) q.length] =
        (a, [some .unit, none, some .unit, some .unit, some (.bytes [])]) ∧
      close a = (init ++ q, true) := by
  have h1 : run ⟨⟨⟨init, init.length⟩, []⟩, none, init.length + 4096, init.length + 4096⟩
      [.writeAt (init.length + 4096) q, .sync, .readAt (init.length + 4096) q.length] =
      (⟨⟨⟨init ++ q, init.length + q.length⟩, []⟩, none, init.length + 4096 + q.length, init.length + 4096 + q.length⟩,
        [some .unit, some .unit, some (.bytes [])]) := by
    simp [run, step, writeAt, Writer.write, bufCap, hl, sync, flush, Writer.flush, hq, Disk.write, OsFile.write,
      AppendOpt.writeAt_end, Disk.fsync, readAt]
  refine ⟨[some 0], ⟨⟨⟨init ++ q, init.length + q.length⟩, []⟩, none, init.length + 4096 + q.length,
    init.length + 4096 + q.length⟩, ?_, rfl⟩
  have := run_append (openFile init [some 0]) [.writeAt init.length p, .writeAt (init.length + 4096) q]
    [.writeAt (init.length + 4096) q, .sync, .readAt (init.length + 4096) q.length]
  rw [lost_append init p q [] hp hq] at this
  rw [List.cons_append, List.cons_append, List.nil_append] at this
  rw [this, h1]
  rfl

/-! ## Instances -/

/-- A disk that fails on its second call, after one byte: the `Sync` says so, the synced bytes stay. -/
example :
    run (openFile [1, 2] [none, none, some 1]) [.writeAt 2 [7, 8], .sync, .writeAt 4 [9, 10], .writeAt 0 [5], .size, .sync] =
      (⟨⟨⟨[1, 2, 7, 8, 9], 5⟩, []⟩, some ⟨[10], true⟩, 6, 6⟩, [some .unit, some .unit, some .unit, none, some (.size 6), none]) := by
  decide

/-- The hypotheses of `no_error_means_stored_partial`, with a disk whose third call fails, and a `Close` that then fails. -/
example : (run (openFile [1, 2] [none, none, some 1]) [.writeAt 2 [7, 8], .sync, .writeAt 4 [9, 10], .size]).2 =
    [Out.unit, .unit, .unit, .size 6].map some ∧
    close (run (openFile [1, 2] [none, none, some 1]) [.writeAt 2 [7, 8], .sync, .writeAt 4 [9, 10], .size]).1 =
      ([1, 2, 7, 8, 9], false) := by decide

/-- The hypotheses of `synced_bytes_stay`: a sync, then a failing overwrite of position 1 and a failing append. -/
example : (run (openFile [1, 2] [none, none, some 1, some 0]) ([.writeAt 2 [7, 8]] ++ [.sync])).2 = [Out.unit, .unit].map some ∧
    ¬Covers [.writeAt 1 [5, 6], .writeAt 4 [3], .sync] 3 ∧ ¬Covers [.writeAt 1 [5, 6], .writeAt 4 [3], .sync] 0 ∧
    (run (openFile [1, 2] [none, none, some 1, some 0]) ([.writeAt 2 [7, 8]] ++ [.sync] ++ [.writeAt 1 [5, 6], .writeAt 4 [3], .sync])).1.disk.file.data =
      [1, 5, 7, 8] := by
  refine ⟨by decide, ?_, ?_, by decide⟩ <;>
  · rintro ⟨off, p, hm, h1, h2⟩
    simp only [List.mem_cons, Op.writeAt.injEq, reduceCtorEq, List.not_mem_nil, or_false] at hm
    rcases hm with ⟨rfl, rfl⟩ | ⟨rfl, rfl⟩ <;> simp at h1 h2

/-- The hypotheses of the violations. -/
example : (List.replicate 4096 (1 : UInt8)).length = 4096 ∧ ([7] : Bytes) ≠ [] ∧ ([7] : Bytes).length ≤ 4096 :=
  ⟨List.length_replicate, by simp, by simp⟩

end Verif.Faulty
