import Verif.Model.AppendOpt
import Verif.Lemmas.Bytes

namespace Verif.AppendOpt

theorem writeAt_end (f p : Bytes) : Verif.writeAt f f.length p = f ++ p := by
  unfold Verif.writeAt
  split
  · simp [*]
  · have : f.drop (f.length + p.length) = [] := List.drop_eq_nil_of_le (by omega)
    simp [zeros, this]

theorem write_end (f : OsFile) (p : Bytes) (h : f.pos = f.data.length) :
    (f.write p).data = f.data ++ p ∧ (f.write p).pos = (f.data ++ p).length := by
  constructor
  · simp [OsFile.write, h, writeAt_end]
  · simp [OsFile.write, h]

/-- Writing through the buffer at the end of the file appends, in total, `p`. -/
theorem bufWrite_end (f : OsFile) (pend p : Bytes) (h : f.pos = f.data.length) :
    (bufWrite f pend p).1.data ++ (bufWrite f pend p).2 = f.data ++ pend ++ p ∧
      (bufWrite f pend p).1.pos = (bufWrite f pend p).1.data.length := by
  unfold bufWrite
  split
  · simp [h]
  split
  · rename_i h2
    have := write_end f p h
    simp [h2, this.1, this.2]
  · have h1 := write_end f (pend ++ p.take (bufCap - pend.length)) h
    dsimp only
    split
    · simp only [h1.1]
      constructor
      · simp only [List.append_assoc, List.take_append_drop]
      · rw [h1.2]
    · have h2 := write_end (f.write (pend ++ p.take (bufCap - pend.length)))
        (p.drop (bufCap - pend.length)) (by rw [h1.1, h1.2])
      simp only
      rw [h2.2, h2.1, h1.1]
      simp only [List.append_assoc, List.take_append_drop, List.append_nil, and_self]

/-- Coupling between the implementation state and the plain file. -/
structure Inv (a : AOF) (plain : Bytes) : Prop where
  total : a.totalSize = plain.length
  data : a.file.data ++ a.buf.getD [] = plain
  pos : a.buf.isSome → a.file.pos = a.file.data.length
  next : a.buf.isSome → a.nextAppend = plain.length

theorem inv_open (d : Bytes) : Inv (openFile d) d := by
  constructor <;> simp [openFile]

theorem inv_flush {a : AOF} {plain : Bytes} (h : Inv a plain) :
    Inv (flush a) plain ∧ (flush a).file.data = plain ∧ (flush a).buf = none := by
  unfold flush
  cases hb : a.buf with
  | none =>
    have hd := h.data
    rw [hb] at hd
    simp at hd
    refine ⟨?_, by simpa using hd, by simp [hb]⟩
    simpa [hb] using h
  | some p =>
    have hd := h.data
    rw [hb] at hd
    simp at hd
    have hp := h.pos (by simp [hb])
    by_cases hp0 : p = []
    · subst hp0
      simp at hd
      refine ⟨⟨h.total, by simp [hd], by simp, by simp⟩, by simp [hd], rfl⟩
    · have hw := write_end a.file p hp
      refine ⟨⟨h.total, by simp [hp0, hw.1, hd], by simp, by simp⟩, by simp [hp0, hw.1, hd], rfl⟩

theorem inv_direct {a : AOF} {plain : Bytes} {off : Nat} {p : Bytes} (h : Inv a plain)
    (hb : a.buf = none) (hp : p ≠ [] ∨ off ≤ plain.length) :
    Inv { a with file := { a.file with data := Verif.writeAt a.file.data off p },
                 totalSize := if off + p.length > a.totalSize then off + p.length else a.totalSize }
      (Verif.writeAt plain off p) := by
  have hd := h.data
  rw [hb] at hd
  simp at hd
  constructor
  · simp only [h.total]
    by_cases hp0 : p = []
    · subst hp0
      simp [Verif.writeAt]
      have : off ≤ plain.length := by simpa using hp
      omega
    · rw [writeAt_length hp0]; split <;> omega
  · simp [hb, hd]
  · simp [hb]
  · simp [hb]

theorem inv_writeAt {a : AOF} {plain : Bytes} {off : Nat} {p : Bytes} (h : Inv a plain)
    (hp : p ≠ [] ∨ off ≤ plain.length) : Inv (writeAt a off p) (Verif.writeAt plain off p) := by
  unfold writeAt
  cases hb : a.buf with
  | none =>
    simp only
    split
    · rename_i heq
      have hd := h.data
      rw [hb] at hd
      simp at hd
      have hbw := bufWrite_end { a.file with pos := a.file.data.length } [] p rfl
      have ho : off = plain.length := heq.trans h.total
      subst ho
      rw [writeAt_end]
      constructor
      · simp [h.total]
      · simp only [Option.getD_some, hbw.1]; simp [hd]
      · intro _; exact hbw.2
      · intro _; simp
    · have := inv_direct h hb hp
      simpa [hb] using this
  | some pend =>
    simp only
    split
    · rename_i heq
      have hd := h.data
      rw [hb] at hd
      simp at hd
      have hpos := h.pos (by simp [hb])
      have hnext := h.next (by simp [hb])
      have hbw := bufWrite_end a.file pend p hpos
      have ho : off = plain.length := heq.trans hnext
      subst ho
      rw [writeAt_end]
      constructor
      · simp [h.total]
      · simp only [Option.getD_some, hbw.1]; rw [hd]
      · intro _; exact hbw.2
      · intro _; simp [hnext]
    · obtain ⟨hf, _, hb'⟩ := inv_flush h
      exact inv_direct hf hb' hp

end Verif.AppendOpt
