import Verif.Model.WordFile
import Verif.Lemmas.Records
import Verif.Lemmas.AppendOpt

/-!
# C02, C03, C04, C06: word files
-/

namespace Verif.WordFile

open AppendOpt (AOF)

/-- Specification: the words stored in a file, by position. -/
def wordsOf (w : Nat) (data : Bytes) : List Int := (recs w data).map fun r => ofU64 (leDec r)

/-- Specification: a value fits a word of `w` bytes (a full 8-byte word holds any `int64`). -/
def fits (w : Nat) (v : Int) : Prop :=
  if w = 8 then -2 ^ 63 ≤ v ∧ v < 2 ^ 63 else 0 ≤ v ∧ v < 256 ^ w

instance (w : Nat) (v : Int) : Decidable (fits w v) := by unfold fits; infer_instance

/-- Every value written in the session fits. -/
def Op.fits (w : Nat) : Op → Prop
  | .write v _ => WordFile.fits w v
  | _ => True

/-- Specification: an array of integers; a write changes one position (a gap past the end reads as 0). -/
def specStep (l : List Int) : Op → List Int × Out
  | .read off => (l, .value l[off]?)
  | .write v off => (setExt l off v 0, .unit)
  | .count => (l, .count l.length)
  | .sync => (l, .unit)

/-- Specification: a session on the array. -/
def specRun (l : List Int) : List Op → List Int × List Out
  | [] => (l, [])
  | op :: ops =>
    let (l', o) := specStep l op
    let (l'', os) := specRun l' ops
    (l'', o :: os)

/-- Coupling of a word file with the array it represents. -/
structure Inv (w : WF) (l : List Int) : Prop where
  size : 0 < w.wordSize ∧ w.wordSize ≤ 8
  file : ∃ plain, AppendOpt.Inv w.file plain ∧ plain.length % w.wordSize = 0 ∧
    wordsOf w.wordSize plain = l
  count : w.wordCount = l.length
  scratchLen : w.scratch8.length = 8
  clean : leDec (w.scratch8.drop w.wordSize) = 0

theorem wordsOf_length (w : Nat) (d : Bytes) : (wordsOf w d).length = d.length / w := by
  simp [wordsOf, recs_length]

theorem ofU64_zero : ofU64 0 = 0 := by decide

theorem natCast_pow256 (w : Nat) : ((256 ^ w : Nat) : Int) = (256 : Int) ^ w := by
  induction w with
  | zero => rfl
  | succ w ih => rw [Nat.pow_succ, Int.pow_succ, Int.natCast_mul, ih]; rfl

theorem pow256_le {w v : Nat} (h : w ≤ v) : (256 : Int) ^ w ≤ 256 ^ v := by
  rw [← natCast_pow256, ← natCast_pow256]
  exact Int.ofNat_le.mpr (Nat.pow_le_pow_right (by decide) h)

theorem toU64_fits_small {w : Nat} {v : Int} (hw : w < 8) (h : fits w v) : toU64 v < 256 ^ w := by
  unfold fits at h
  rw [if_neg (by omega)] at h
  have h7 : (256 : Int) ^ w ≤ 256 ^ 7 := pow256_le (by omega)
  have h7' : (256 : Int) ^ 7 < 2 ^ 63 := by decide
  rw [toU64_of_nonneg h.1 (by omega)]
  have : (v.toNat : Int) < ((256 ^ w : Nat) : Int) := by
    rw [Int.toNat_of_nonneg h.1, natCast_pow256]; exact h.2
  exact Int.ofNat_lt.mp this

theorem fits_range {w : Nat} {v : Int} (hw : w ≤ 8) (h : fits w v) : -2 ^ 63 ≤ v ∧ v < 2 ^ 63 := by
  by_cases h8 : w = 8
  · subst h8; simpa [fits] using h
  · unfold fits at h
    rw [if_neg h8] at h
    have h7 : (256 : Int) ^ w ≤ 256 ^ 7 := pow256_le (by omega)
    have h7' : (256 : Int) ^ 7 < 2 ^ 63 := by decide
    omega

theorem decode_encode {w : Nat} {v : Int} (hw : w ≤ 8) (h : fits w v) :
    ofU64 (leDec (leEnc w (toU64 v))) = v := by
  have hr := fits_range hw h
  have : leDec (leEnc w (toU64 v)) = toU64 v := by
    apply leDec_leEnc_of_lt
    by_cases h8 : w = 8
    · subst h8; exact toU64_lt v
    · exact toU64_fits_small (by omega) h
  rw [this, ofU64_toU64 hr.1 hr.2]

theorem leEnc_drop (w v n : Nat) : (leEnc v n).drop w = leEnc (v - w) (n / 256 ^ w) := by
  induction w generalizing v n with
  | zero => simp
  | succ w ih =>
    cases v with
    | zero => simp [leEnc]
    | succ v =>
      simp only [leEnc, List.drop_succ_cons, ih]
      rw [Nat.div_div_eq_div_mul, Nat.pow_succ']
      congr 1; omega

theorem clean_encode {w : Nat} {v : Int} (hw : w ≤ 8) (h : fits w v) :
    leDec ((leEnc 8 (toU64 v)).drop w) = 0 := by
  rw [leEnc_drop, leDec_leEnc]
  by_cases h8 : w = 8
  · subst h8; simp [Nat.mod_one]
  · rw [Nat.div_eq_of_lt (toU64_fits_small (by omega) h)]; simp

theorem inv_open {w : Nat} (hw : 0 < w ∧ w ≤ 8) {data : Bytes} {wf : WF}
    (h : openWordFile w data = some wf) : Inv wf (wordsOf w data) ∧ wf.wordSize = w := by
  unfold openWordFile fileWordCount at h
  by_cases hm : data.length % w ≠ 0
  · simp [hm] at h
  · simp [hm] at h
    subst h
    refine ⟨⟨hw, ⟨data, AppendOpt.inv_open data, by simpa [new] using hm, rfl⟩, ?_, ?_, ?_⟩, rfl⟩
    · simp [new, wordsOf_length]
    · simp [new]
    · simp only [new, zeros, List.drop_replicate]; exact leDec_zeros _

theorem inv_write {wf : WF} {l : List Int} (h : Inv wf l) {v : Int} (off : Nat)
    (hv : fits wf.wordSize v) : Inv (writeWordAt wf v off) (setExt l off v 0) := by
  obtain ⟨plain, hp, hm, hl⟩ := h.file
  have hw := h.size
  have htake : (leEnc 8 (toU64 v)).take wf.wordSize = leEnc wf.wordSize (toU64 v) := leEnc_take hw.2
  have hne : leEnc wf.wordSize (toU64 v) ≠ [] := by
    intro hh
    have := leEnc_length wf.wordSize (toU64 v)
    rw [hh] at this; simp at this; omega
  refine ⟨hw, ⟨writeAt plain (off * wf.wordSize) (leEnc wf.wordSize (toU64 v)), ?_, ?_, ?_⟩, ?_, ?_, ?_⟩
  · simp only [writeWordAt, htake]
    exact AppendOpt.inv_writeAt hp (Or.inl hne)
  · exact writeAt_rec_mod hw.1 hm (leEnc_length _ _) off
  · simp only [wordsOf, writeWordAt]
    rw [recs_writeAt hw.1 hm (leEnc_length _ _) off, setExt_map, decode_encode hw.2 hv, leDec_zeros,
      ofU64_zero]
    congr 1
  · simp only [writeWordAt, setExt_length, h.count]; split <;> omega
  · simp [writeWordAt]
  · exact clean_encode hw.2 hv

theorem inv_read {wf : WF} {l : List Int} (h : Inv wf l) (off : Nat) :
    Inv (readWordAt wf off).1 l ∧ (readWordAt wf off).2 = l[off]? := by
  obtain ⟨plain, hp, hm, hl⟩ := h.file
  have hw := h.size
  obtain ⟨hf1, hf2, _⟩ := AppendOpt.inv_flush hp
  have hread : (AppendOpt.readAt wf.file (off * wf.wordSize) wf.wordSize) =
      (AppendOpt.flush wf.file, slice plain (off * wf.wordSize) wf.wordSize) := by
    simp [AppendOpt.readAt, hf2, slice]
  have hlen := slice_length_le plain (off * wf.wordSize) wf.wordSize
  have hdrop : ∀ bs : Bytes, bs.length ≤ wf.wordSize →
      (bs ++ wf.scratch8.drop bs.length).drop wf.wordSize = wf.scratch8.drop wf.wordSize := by
    intro bs hb
    rw [List.drop_append, List.drop_drop]
    rw [List.drop_eq_nil_of_le hb]
    simp
    congr 1; omega
  have hget : l[off]? = if off < plain.length / wf.wordSize then
      some (ofU64 (leDec (slice plain (off * wf.wordSize) wf.wordSize))) else none := by
    rw [← hl, wordsOf, List.getElem?_map, recs_getElem?]
    split <;> simp
  unfold readWordAt
  rw [hread]
  dsimp only
  constructor
  · split <;>
    · refine ⟨hw, ⟨plain, hf1, hm, hl⟩, h.count, ?_, ?_⟩
      · have := h.scratchLen
        simp only [List.length_append, List.length_drop]; omega
      · simp only
        rw [hdrop _ (by omega)]; exact h.clean
  · rw [hget]
    by_cases hin : off < plain.length / wf.wordSize
    · have := rec_in_range hw.1 hin
      have hs : (slice plain (off * wf.wordSize) wf.wordSize).length = wf.wordSize := by omega
      rw [if_pos hin, if_neg (by omega)]
      simp only [hs]
      rw [leDec_append, h.clean]
      simp
    · rw [if_neg hin, if_pos]
      have hge : plain.length ≤ off * wf.wordSize := by
        have h1 : plain.length / wf.wordSize * wf.wordSize ≤ off * wf.wordSize :=
          Nat.mul_le_mul_right _ (by omega)
        have h2 := Nat.div_add_mod plain.length wf.wordSize
        rw [hm, Nat.mul_comm] at h2
        omega
      omega

theorem inv_step {wf : WF} {l : List Int} (h : Inv wf l) (op : Op) (hop : op.fits wf.wordSize) :
    Inv (step wf op).1 (specStep l op).1 ∧ (step wf op).2 = (specStep l op).2 ∧
      (step wf op).1.wordSize = wf.wordSize := by
  cases op with
  | read off =>
    obtain ⟨h1, h2⟩ := inv_read h off
    refine ⟨h1, by simp [step, specStep, h2], ?_⟩
    simp only [step, readWordAt]; split <;> rfl
  | write v off => exact ⟨inv_write h off hop, rfl, rfl⟩
  | count => exact ⟨h, by simp [step, specStep, countWords, h.count], rfl⟩
  | sync =>
    obtain ⟨plain, hp, hm, hl⟩ := h.file
    exact ⟨⟨h.size, ⟨plain, (AppendOpt.inv_flush hp).1, hm, hl⟩, h.count, h.scratchLen, h.clean⟩, rfl, rfl⟩

theorem inv_run {wf : WF} {l : List Int} (h : Inv wf l) (ops : List Op)
    (hops : ∀ op ∈ ops, op.fits wf.wordSize) :
    Inv (run wf ops).1 (specRun l ops).1 ∧ (run wf ops).2 = (specRun l ops).2 ∧
      (run wf ops).1.wordSize = wf.wordSize := by
  induction ops generalizing wf l with
  | nil => exact ⟨h, rfl, rfl⟩
  | cons op ops ih =>
    obtain ⟨h1, h2, h3⟩ := inv_step h op (hops op (by simp))
    obtain ⟨h4, h5, h6⟩ := ih h1 (fun o ho => by rw [h3]; exact hops o (by simp [ho]))
    exact ⟨h4, by simp [run, specRun, h2, h5], by simp [run, h6, h3]⟩

/-- **C02.** For every word size 1..8, every file of whole words and every session whose written values
fit, the word file behaves as an array of integers: each read returns the value last written at that
offset (or 0 in a gap, or an error past the end), and the count is the array length. -/
theorem wordfile_is_array {w : Nat} (hw : 0 < w ∧ w ≤ 8) (data : Bytes) (wf : WF)
    (hopen : openWordFile w data = some wf) (ops : List Op) (hops : ∀ op ∈ ops, op.fits w) :
    (run wf ops).2 = (specRun (wordsOf w data) ops).2 := by
  obtain ⟨h1, h2⟩ := inv_open hw hopen
  exact (inv_run h1 ops (by rw [h2]; exact hops)).2.1

/-- Instance: 3-byte words, a gap, an overwrite, reads inside, in the gap and past the end. -/
example :
    let ops := [Op.write 1000000 0, .write 7 3, .write 16777215 0, .read 0, .read 1, .read 3, .read 4, .count]
    (∀ op ∈ ops, op.fits 3) ∧ ∃ wf, openWordFile 3 [] = some wf ∧
      (run wf ops).2 = [.unit, .unit, .unit, .value (some 16777215), .value (some 0), .value (some 7),
        .value none, .count 4] := by
  refine ⟨?_, _, rfl, by decide⟩
  intro op h
  simp at h
  rcases h with h | h | h | h | h | h | h | h <;> subst h <;> simp [Op.fits, fits]

/-- **C06.** Opening fails exactly for files that are not a whole number of words. -/
theorem open_refuses_ragged (w : Nat) (data : Bytes) :
    openWordFile w data = none ↔ ¬ w ∣ data.length := by
  unfold openWordFile fileWordCount
  rw [Nat.dvd_iff_mod_eq_zero]
  by_cases h : data.length % w = 0 <;> simp [h]

example : openWordFile 3 [1, 2, 3, 4] = none ∧ (openWordFile 3 [1, 2, 3]).isSome := by decide

/-- **C06.** Close and reopen preserve everything: after any session, the bytes left on disk open again,
and the reopened file answers every further session as the array left by the first. -/
theorem reopen_preserves {w : Nat} (hw : 0 < w ∧ w ≤ 8) (data : Bytes) (wf : WF)
    (hopen : openWordFile w data = some wf) (ops : List Op) (hops : ∀ op ∈ ops, op.fits w) :
    ∃ wf', openWordFile w (close (run wf ops).1) = some wf' ∧
      countWords wf' = (specRun (wordsOf w data) ops).1.length ∧
      ∀ ops', (∀ op ∈ ops', op.fits w) →
        (run wf' ops').2 = (specRun (specRun (wordsOf w data) ops).1 ops').2 := by
  obtain ⟨h1, h2⟩ := inv_open hw hopen
  obtain ⟨h3, _, h4⟩ := inv_run h1 ops (by rw [h2]; exact hops)
  obtain ⟨plain, hp, hm, hl⟩ := h3.file
  rw [h4, h2] at hm hl
  have hc : close (run wf ops).1 = plain := (AppendOpt.inv_flush hp).2.1
  rw [hc]
  have ho : openWordFile w plain = some (new (AppendOpt.openFile plain) w (plain.length / w)) := by
    simp [openWordFile, fileWordCount, hm]
  refine ⟨_, ho, ?_, ?_⟩
  · rw [← hl, wordsOf_length]; rfl
  · intro ops' hops'
    rw [wordfile_is_array hw plain _ ho ops' hops', hl]

/-- A file created filled with zeros opens as that many zero words. -/
theorem filledZeros_opens {w : Nat} (hw : 0 < w ∧ w ≤ 8) (n : Nat) :
    ∃ wf, openWordFile w (createFilledZeros w n) = some wf ∧ countWords wf = n ∧
      wordsOf w (createFilledZeros w n) = List.replicate n 0 := by
  have hd : n * w / w = n := Nat.mul_div_cancel n hw.1
  refine ⟨new (AppendOpt.openFile (zeros (n * w))) w (n * w / w),
    by simp [openWordFile, fileWordCount, createFilledZeros], ?_, ?_⟩
  · simp [countWords, new, hd]
  · apply List.ext_getElem?
    intro i
    rw [wordsOf, List.getElem?_map, recs_getElem?]
    simp only [createFilledZeros, zeros_length, hd]
    by_cases hi : i < n
    · have : slice (zeros (n * w)) (i * w) w = zeros w := by
        have h1 := rec_in_range hw.1 (i := i) (n := n * w) (by rw [hd]; exact hi)
        simp [slice, zeros]; omega
      simp [hi, this, leDec_zeros, ofU64_zero]
    · simp [hi]

/-- **C03 (violation).** Writing a value that does not fit damages the reading of *another* word. -/
theorem oversized_write_corrupts_other_reads :
    ∃ (w : Nat) (wf : WF), openWordFile w [5, 6] = some wf ∧ (readWordAt wf 0).2 = some 5 ∧
      (readWordAt (writeWordAt wf 256 1) 0).2 ≠ some 5 :=
  ⟨1, _, rfl, by decide, by decide⟩

/-- **C03 (partial).** In every state reachable by a session of fitting values, writing a fitting value at
`j` does not change what is read at any other offset `i` inside the file.  Missing: values that do not
fit (`oversized_write_corrupts_other_reads` shows the code is wrong there). -/
theorem write_leaves_others_partial {w : Nat} (hw : 0 < w ∧ w ≤ 8) (data : Bytes) (wf : WF)
    (hopen : openWordFile w data = some wf) (ops : List Op) (hops : ∀ op ∈ ops, op.fits w)
    (v : Int) (hv : fits w v) (i j : Nat) (hij : i ≠ j) (x : Int)
    (hx : (readWordAt (run wf ops).1 i).2 = some x) :
    (readWordAt (writeWordAt (run wf ops).1 v j) i).2 = some x := by
  obtain ⟨h1, h2⟩ := inv_open hw hopen
  obtain ⟨h3, _, h4⟩ := inv_run h1 ops (by rw [h2]; exact hops)
  rw [(inv_read h3 i).2] at hx
  rw [(inv_read (inv_write h3 j (by rw [h4, h2]; exact hv)) i).2, setExt_getElem?, if_neg hij]
  have : i < (specRun (wordsOf w data) ops).1.length := by
    rcases Nat.lt_or_ge i (specRun (wordsOf w data) ops).1.length with h | h
    · exact h
    · rw [List.getElem?_eq_none h] at hx; cases hx
  rw [if_pos this, hx]

/-! ## C04: memory-shadowed files -/

theorem fillShadow_spec {wf : WF} {l : List Int} (h : Inv wf l) (is : List Nat)
    (his : ∀ i ∈ is, i < l.length) :
    ∃ wf', fillShadow wf is = some (wf', is.map fun i => l.getD i 0) ∧ Inv wf' l ∧
      wf'.wordSize = wf.wordSize := by
  induction is generalizing wf with
  | nil => exact ⟨wf, rfl, h, rfl⟩
  | cons i is ih =>
    obtain ⟨h1, h2⟩ := inv_read h i
    have hi := his i (by simp)
    obtain ⟨wf', h3, h4, h5⟩ := ih h1 (fun k hk => his k (by simp [hk]))
    refine ⟨wf', ?_, h4, ?_⟩
    · unfold fillShadow
      have hv : l[i]? = some l[i] := by simp [hi]
      rcases hr : readWordAt wf i with ⟨w1, v1⟩
      rw [hr] at h2 h3
      simp only at h2 h3
      rw [h2, hv]
      simp [h3, hi]
    · rw [h5]; simp only [readWordAt]; split <;> rfl

theorem map_getD_range (l : List Int) : (List.range l.length).map (fun i => l.getD i 0) = l := by
  apply List.ext_getElem (by simp)
  intro i h1 h2
  simp at h1 ⊢
  simp [h1]

theorem shadow_open {w : Nat} (hw : 0 < w ∧ w ≤ 8) {data : Bytes} {s : Shadow}
    (h : openShadow w data = some s) :
    Inv s.underlying (wordsOf w data) ∧ s.shadow = wordsOf w data ∧ s.underlying.wordSize = w := by
  unfold openShadow at h
  by_cases hm : data.length % w = 0
  · have ho : openWordFile w data = some (new (AppendOpt.openFile data) w (data.length / w)) := by
      simp [openWordFile, fileWordCount, hm]
    obtain ⟨h1, h2⟩ := inv_open hw ho
    obtain ⟨wf', h3, h4, h5⟩ := fillShadow_spec h1 (List.range (data.length / w))
      (by intro i hi; rw [wordsOf_length]; simpa using hi)
    simp [fileWordCount, hm, newShadow, h3] at h
    subst h
    refine ⟨h4, ?_, by rw [h5, h2]⟩
    simp only
    have := map_getD_range (wordsOf w data)
    rw [wordsOf_length] at this
    simpa using this
  · simp [fileWordCount, hm] at h

theorem shadow_set (l : List Int) (off : Nat) (v : Int) :
    (if off ≥ l.length then l ++ List.replicate (off + 1 - l.length) 0 else l).set off v =
      setExt l off v 0 := by
  apply List.ext_getElem?
  intro i
  rw [setExt_getElem?, List.getElem?_set]
  by_cases h : off ≥ l.length
  · simp only [h, if_true]
    by_cases hi : off = i
    · subst hi; simp; omega
    · rw [if_neg hi, if_neg (by omega)]
      by_cases h2 : i < l.length
      · rw [List.getElem?_append_left h2, if_pos h2]
      · rw [List.getElem?_append_right (by omega), if_neg h2, List.getElem?_replicate]
        by_cases h3 : i < off
        · rw [if_pos h3, if_pos (by omega)]
        · rw [if_neg h3, if_neg (by omega)]
  · simp only [h, if_false]
    by_cases hi : off = i
    · subst hi; simp; omega
    · rw [if_neg hi, if_neg (by omega)]
      by_cases h2 : i < l.length
      · rw [if_pos h2]
      · rw [if_neg h2, if_neg (by omega)]; exact List.getElem?_eq_none (by omega)

theorem ofU64_injective {a b : Nat} (ha : a < 2 ^ 64) (hb : b < 2 ^ 64) (h : ofU64 a = ofU64 b) : a = b := by
  unfold ofU64 at h
  split at h <;> split at h <;> omega

theorem wordsOf_injective {w : Nat} (hw : 0 < w ∧ w ≤ 8) {d1 d2 : Bytes} (h1 : d1.length % w = 0)
    (h2 : d2.length % w = 0) (h : wordsOf w d1 = wordsOf w d2) : d1 = d2 := by
  have hn : d1.length / w = d2.length / w := by rw [← wordsOf_length, ← wordsOf_length, h]
  have hl : d1.length = d2.length := by
    have e1 := Nat.div_add_mod d1.length w
    have e2 := Nat.div_add_mod d2.length w
    rw [h1, hn] at e1
    rw [h2] at e2
    omega
  apply List.ext_getElem?
  intro i
  by_cases hi : i < d1.length
  · have hq : i / w < d1.length / w := by
      rw [Nat.div_lt_iff_lt_mul hw.1]
      have e1 := Nat.div_add_mod d1.length w
      rw [h1, Nat.mul_comm] at e1
      omega
    have hs := congrArg (fun l => l[i / w]?) h
    simp only [wordsOf, List.getElem?_map, recs_getElem?] at hs
    rw [if_pos hq, if_pos (by rw [← hn]; exact hq)] at hs
    simp only [Option.map_some, Option.some.injEq] at hs
    have r1 := rec_in_range hw.1 hq
    have r2 := rec_in_range hw.1 (hn ▸ hq)
    have s1 := slice_length r1
    have s2 := slice_length r2
    have p8 : 256 ^ w ≤ 2 ^ 64 := by
      have : 256 ^ w ≤ 256 ^ 8 := Nat.pow_le_pow_right (by decide) hw.2
      have : 256 ^ 8 = 2 ^ 64 := by decide
      omega
    have b1 := leDec_lt (slice d1 (i / w * w) w)
    have b2 := leDec_lt (slice d2 (i / w * w) w)
    rw [s1] at b1
    rw [s2] at b2
    have hd := leDec_injective (by rw [s1, s2]) (ofU64_injective (by omega) (by omega) hs)
    have hg := congrArg (fun l => l[i % w]?) hd
    simp only [slice_getElem?, Nat.mod_lt i hw.1, if_true] at hg
    have e := Nat.div_add_mod i w
    rw [Nat.mul_comm] at e
    rwa [e] at hg
  · rw [List.getElem?_eq_none (by omega), List.getElem?_eq_none (by omega)]

/-- **C04.** A memory-shadowed word file and a plain word file opened on the same bytes give identical
observations in every session of fitting values, and leave identical bytes on disk. -/
theorem shadow_agrees_with_plain {w : Nat} (hw : 0 < w ∧ w ≤ 8) (data : Bytes) (s : Shadow) (wf : WF)
    (hs : openShadow w data = some s) (hwf : openWordFile w data = some wf)
    (ops : List Op) (hops : ∀ op ∈ ops, op.fits w) :
    (Shadow.run s ops).2 = (run wf ops).2 ∧
      close (Shadow.run s ops).1.underlying = close (run wf ops).1 := by
  obtain ⟨h1, h2, h3⟩ := shadow_open hw hs
  obtain ⟨g1, g2⟩ := inv_open hw hwf
  obtain ⟨g3, g4, g5⟩ := inv_run g1 ops (by rw [g2]; exact hops)
  have key : ∀ (s : Shadow) (l : List Int) (ops : List Op), Inv s.underlying l → s.shadow = l →
      s.underlying.wordSize = w → (∀ op ∈ ops, op.fits w) →
      (Shadow.run s ops).2 = (specRun l ops).2 ∧
        Inv (Shadow.run s ops).1.underlying (specRun l ops).1 ∧
        (Shadow.run s ops).1.underlying.wordSize = w := by
    intro s l ops
    induction ops generalizing s l with
    | nil => intro a _ b _; exact ⟨rfl, a, b⟩
    | cons op ops ih =>
      intro hi hsh hsz ho
      have hstep : Inv (Shadow.step s op).1.underlying (specStep l op).1 ∧
          (Shadow.step s op).1.shadow = (specStep l op).1 ∧ (Shadow.step s op).2 = (specStep l op).2 ∧
          (Shadow.step s op).1.underlying.wordSize = w := by
        have hu := inv_step hi op (by rw [hsz]; exact ho op (by simp))
        cases op with
        | read off => exact ⟨hi, hsh, by simp [Shadow.step, specStep, Shadow.readWordAt, hsh], hsz⟩
        | write v off =>
          refine ⟨hu.1, ?_, rfl, hsz⟩
          simp only [Shadow.step, Shadow.writeWordAt, specStep]
          rw [hsh]; exact shadow_set l off v
        | count => exact ⟨hi, hsh, by simp [Shadow.step, specStep, countWords, hi.count], hsz⟩
        | sync => exact ⟨hu.1, hsh, rfl, hsz⟩
      obtain ⟨k1, k2, k3⟩ := ih _ _ hstep.1 hstep.2.1 hstep.2.2.2 (fun o h => ho o (by simp [h]))
      exact ⟨by simp [Shadow.run, specRun, hstep.2.2.1, k1], k2, k3⟩
  obtain ⟨k1, k2, k3⟩ := key s _ ops h1 h2 h3 hops
  refine ⟨by rw [k1, g4], ?_⟩
  obtain ⟨p1, q1, m1, r1⟩ := k2.file
  obtain ⟨p2, q2, m2, r2⟩ := g3.file
  have c1 : close (Shadow.run s ops).1.underlying = p1 := (AppendOpt.inv_flush q1).2.1
  have c2 : close (run wf ops).1 = p2 := (AppendOpt.inv_flush q2).2.1
  rw [k3] at r1 m1
  rw [g5, g2] at r2 m2
  rw [c1, c2]
  exact wordsOf_injective hw m1 m2 (r1.trans r2.symm)

example : ∃ s wf, openShadow 2 [1, 0, 2, 0] = some s ∧ openWordFile 2 [1, 0, 2, 0] = some wf ∧
    (Shadow.run s [.write 513 4, .read 3, .read 4, .read 1, .count]).2 =
      [.unit, .value (some 0), .value (some 513), .value (some 2), .count 5] :=
  ⟨_, _, rfl, rfl, by decide⟩

end Verif.WordFile
