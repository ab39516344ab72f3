import Verif.Model.WordFile
import Verif.Lemmas.Records
import Verif.Lemmas.AppendOpt

/-!
# C05: hash files
-/

namespace Verif.HashFile

/-- Every written hash is 32 bytes long (Go type `[32]byte`). -/
def Op.wellTyped : Op → Prop
  | .write v _ => v.length = 32
  | .append v => v.length = 32
  | _ => True

/-- Specification: an array of hashes. -/
def specStep (l : List Bytes) : Op → List Bytes × Out
  | .read off => (l, .hash l[off]?)
  | .write v off => (setExt l off v (zeros 32), .unit)
  | .append v => (l ++ [v], .index l.length)
  | .count => (l, .count l.length)
  | .sync => (l, .unit)

/-- Specification: a session on the array of hashes. -/
def specRun (l : List Bytes) : List Op → List Bytes × List Out
  | [] => (l, [])
  | op :: ops =>
    let (l', o) := specStep l op
    let (l'', os) := specRun l' ops
    (l'', o :: os)

/-- Coupling of a hash file with the array it represents. -/
structure Inv (h : HF) (l : List Bytes) : Prop where
  file : ∃ plain, AppendOpt.Inv h.file plain ∧ plain.length % 32 = 0 ∧ recs 32 plain = l
  count : h.hashCount = l.length

theorem inv_open {data : Bytes} (hd : data.length % 32 = 0) : Inv (openHashFile data) (recs 32 data) :=
  ⟨⟨data, AppendOpt.inv_open data, hd, rfl⟩, by simp [openHashFile, recs_length]⟩

theorem inv_write {h : HF} {l : List Bytes} (hi : Inv h l) {v : Bytes} (hv : v.length = 32) (off : Nat) :
    Inv (writeHashAt h v off) (setExt l off v (zeros 32)) := by
  obtain ⟨plain, hp, hm, hl⟩ := hi.file
  have hv0 : v ≠ [] := by intro e; rw [e] at hv; simp at hv
  refine ⟨⟨writeAt plain (off * 32) v, AppendOpt.inv_writeAt hp (Or.inl hv0),
    writeAt_rec_mod (by decide) hm hv off, ?_⟩, ?_⟩
  · rw [recs_writeAt (by decide) hm hv off, hl]
  · simp only [writeHashAt, setExt_length, hi.count]; split <;> omega

theorem inv_read {h : HF} {l : List Bytes} (hi : Inv h l) (off : Nat) :
    Inv (readHashAt h off).1 l ∧ (readHashAt h off).2 = l[off]? := by
  obtain ⟨plain, hp, hm, hl⟩ := hi.file
  obtain ⟨hf1, hf2, _⟩ := AppendOpt.inv_flush hp
  refine ⟨⟨⟨plain, hf1, hm, hl⟩, hi.count⟩, ?_⟩
  simp only [readHashAt, AppendOpt.readAt, hf2]
  have hlen := slice_length_le plain (off * 32) 32
  have e : (plain.drop (off * 32)).take 32 = slice plain (off * 32) 32 := rfl
  rw [e, ← hl, recs_getElem?]
  by_cases hin : off < plain.length / 32
  · have := rec_in_range (k := 32) (by decide) hin
    rw [if_pos hin, if_neg (by omega)]
  · rw [if_neg hin, if_pos (by omega)]

theorem inv_step {h : HF} {l : List Bytes} (hi : Inv h l) (op : Op) (ho : op.wellTyped) :
    Inv (step h op).1 (specStep l op).1 ∧ (step h op).2 = (specStep l op).2 := by
  cases op with
  | read off =>
    obtain ⟨h1, h2⟩ := inv_read hi off
    exact ⟨h1, by simp [step, specStep, h2]⟩
  | write v off => exact ⟨inv_write hi ho off, rfl⟩
  | append v =>
    have := inv_write hi ho h.hashCount
    rw [hi.count, setExt_end] at this
    refine ⟨?_, by simp [step, specStep, appendHash, hi.count]⟩
    simp only [step, appendHash, specStep]
    rw [hi.count]; exact this
  | count => exact ⟨hi, by simp [step, specStep, countHashes, hi.count]⟩
  | sync =>
    obtain ⟨plain, hp, hm, hl⟩ := hi.file
    exact ⟨⟨⟨plain, (AppendOpt.inv_flush hp).1, hm, hl⟩, hi.count⟩, rfl⟩

/-- **C05.** For every file of whole hashes and every session, the hash file behaves as an array of
hashes: reads return the hash last written at that index, appends return consecutive indices, and the
count is the array length. -/
theorem hashfile_is_array (data : Bytes) (hd : data.length % 32 = 0) (ops : List Op)
    (hops : ∀ op ∈ ops, op.wellTyped) :
    (run (openHashFile data) ops).2 = (specRun (recs 32 data) ops).2 := by
  have key : ∀ (h : HF) (l : List Bytes), Inv h l → (run h ops).2 = (specRun l ops).2 := by
    induction ops with
    | nil => intro h l _; rfl
    | cons op ops ih =>
      intro h l hi
      obtain ⟨h1, h2⟩ := inv_step hi op (hops op (by simp))
      simp [run, specRun, h2, ih (fun o h => hops o (by simp [h])) _ _ h1]
  exact key _ _ (inv_open hd)

example :
    let a := List.replicate 32 (1 : UInt8); let b := List.replicate 32 (2 : UInt8)
    let ops := [Op.append a, .append b, .write a 3, .read 1, .read 2, .read 4, .count]
    (∀ op ∈ ops, op.wellTyped) ∧
    (run (openHashFile []) ops).2 =
      [.index 0, .index 1, .unit, .hash (some b), .hash (some (zeros 32)), .hash none, .count 4] := by
  refine ⟨?_, by decide⟩
  intro op h
  simp at h
  rcases h with h | h | h | h | h | h | h <;> subst h <;> simp [Op.wellTyped]

end Verif.HashFile
