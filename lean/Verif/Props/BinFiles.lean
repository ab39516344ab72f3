import Verif.Model.BinFiles
import Verif.Lemmas.Bins
import Verif.Props.NumberedFolders

/-! # Properties of bins on disk (C23) -/

namespace Verif.Bins

/-- Number of zero bytes at the end, said plainly. -/
def trailingZeros (data : Bytes) : Nat := (data.reverse.takeWhile (· = 0)).length

theorem trailingZeros_append_zero (a : Bytes) (k : Nat) : trailingZeros (a ++ zeros k) = k + trailingZeros a := by
  induction k with
  | zero => simp [zeros]
  | succ k ih =>
    have : a ++ zeros (k + 1) = (a ++ zeros k) ++ [0] := by
      rw [zeros, List.replicate_succ', ← List.append_assoc]; rfl
    rw [this]
    unfold trailingZeros at *
    rw [List.reverse_append, List.reverse_singleton, List.singleton_append, List.takeWhile_cons_of_pos (by simp),
      List.length_cons, ih]
    omega

theorem trailingZeros_append_nonzero (a : Bytes) {x : Byte} (hx : x ≠ 0) : trailingZeros (a ++ [x]) = 0 := by
  unfold trailingZeros
  rw [List.reverse_append, List.reverse_singleton, List.singleton_append, List.takeWhile_cons_of_neg (by simpa using hx)]
  rfl

/-- Every byte string is empty or zeros after a last non-zero byte. -/
theorem split_last_nonzero (d : Bytes) :
    (∃ k, d = zeros k) ∨ ∃ a x k, d = a ++ [x] ++ zeros k ∧ x ≠ 0 := by
  induction d with
  | nil => exact Or.inl ⟨0, rfl⟩
  | cons y d ih =>
    rcases ih with ⟨k, rfl⟩ | ⟨a, x, k, rfl, hx⟩
    · by_cases hy : y = 0
      · subst hy; exact Or.inl ⟨k + 1, by simp [zeros, List.replicate_succ]⟩
      · exact Or.inr ⟨[], y, k, by simp, hy⟩
    · exact Or.inr ⟨y :: a, x, k, by simp, hx⟩

theorem countZeroTail_eq (data : Bytes) (n : Nat) (hn : n ≤ data.length) :
    countZeroTail data n = trailingZeros (data.take n) := by
  induction n with
  | zero => simp [countZeroTail, trailingZeros]
  | succ n ih =>
    have hlt : n < data.length := by omega
    rw [List.take_succ_eq_append_getElem hlt]
    unfold countZeroTail
    rw [List.getD_eq_getElem?_getD, List.getElem?_eq_getElem hlt, Option.getD_some]
    by_cases h : data[n] = 0
    · rw [if_pos h, ih (by omega), h]
      have := trailingZeros_append_zero (data.take n) 1
      rw [show zeros 1 = [0] from rfl] at this
      omega
    · rw [if_neg h, trailingZeros_append_nonzero _ h]

theorem chunk_leading {c : Bytes} (hc : c.length = 8) :
    (leDec c = 0 → c = zeros 8) ∧ (leDec c ≠ 0 → leadingZeros64 (leDec c) / 8 = trailingZeros c ∧ trailingZeros c < 8) := by
  rcases split_last_nonzero c with ⟨k, rfl⟩ | ⟨a, x, k, rfl, hx⟩
  · rw [zeros_length] at hc
    subst hc
    exact ⟨fun _ => rfl, fun h => absurd (leDec_zeros 8) h⟩
  · have hx0 : 1 ≤ x.toNat := by
      rcases Nat.eq_zero_or_pos x.toNat with h | h
      · exact absurd (UInt8.toNat_inj.mp (by simpa using h)) hx
      · exact h
    have hx1 : x.toNat < 256 := x.toNat_lt
    have hlen : a.length + 1 + k = 8 := by simp at hc; omega
    have hv : leDec (a ++ [x] ++ zeros k) = leDec a + 256 ^ a.length * x.toNat := by
      rw [leDec_append, leDec_append, leDec_zeros]
      simp [leDec]
    have ha := leDec_lt a
    have hlo : 256 ^ a.length ≤ leDec (a ++ [x] ++ zeros k) := by
      rw [hv]
      have := Nat.mul_le_mul_left (256 ^ a.length) hx0
      omega
    have hhi : leDec (a ++ [x] ++ zeros k) < 256 ^ (a.length + 1) := by
      rw [hv, Nat.pow_succ]
      have : 256 ^ a.length * x.toNat ≤ 256 ^ a.length * 255 := Nat.mul_le_mul_left _ (by omega)
      omega
    have hne : leDec (a ++ [x] ++ zeros k) ≠ 0 := by
      have : 0 < 256 ^ a.length := Nat.pow_pos (by decide)
      omega
    refine ⟨fun h => absurd h hne, fun _ => ?_⟩
    have ht : trailingZeros (a ++ [x] ++ zeros k) = k := by
      rw [trailingZeros_append_zero, trailingZeros_append_nonzero _ hx]; omega
    rw [ht]
    refine ⟨?_, by omega⟩
    have p1 : (256 : Nat) ^ a.length = 2 ^ (8 * a.length) := by rw [Nat.pow_mul]
    have p2 : (256 : Nat) ^ (a.length + 1) = 2 ^ (8 * (a.length + 1)) := by rw [Nat.pow_mul]
    have l1 : 8 * a.length ≤ Nat.log2 (leDec (a ++ [x] ++ zeros k)) := (Nat.le_log2 hne).mpr (by omega)
    have l2 : Nat.log2 (leDec (a ++ [x] ++ zeros k)) < 8 * (a.length + 1) := (Nat.log2_lt hne).mpr (by omega)
    unfold leadingZeros64
    omega

theorem countZeroAt_eq (data : Bytes) (n : Nat) (hn : n ≤ data.length) :
    countZeroAt data n = trailingZeros (data.take n) := by
  induction n using Nat.strongRecOn with
  | ind n ih =>
    unfold countZeroAt
    by_cases h8 : 8 ≤ n
    · rw [dif_pos h8]
      dsimp only
      have hsl : (slice data (n - 8) 8).length = 8 := slice_length (by omega)
      have hsplit : data.take n = data.take (n - 8) ++ slice data (n - 8) 8 := by
        unfold slice
        have := List.take_add (l := data) (i := n - 8) (j := 8)
        rw [Nat.sub_add_cancel h8] at this
        exact this
      obtain ⟨c1, c2⟩ := chunk_leading hsl
      by_cases h0 : leDec (slice data (n - 8) 8) = 0
      · rw [if_pos h0, ih (n - 8) (by omega) (by omega), hsplit, c1 h0, trailingZeros_append_zero]
      · rw [if_neg h0, (c2 h0).1, hsplit]
        rcases split_last_nonzero (slice data (n - 8) 8) with ⟨k, hk⟩ | ⟨a, x, k, hk, hx⟩
        · rw [hk, leDec_zeros] at h0; exact absurd rfl h0
        · rw [hk, ← List.append_assoc, ← List.append_assoc, trailingZeros_append_zero, trailingZeros_append_zero,
            trailingZeros_append_nonzero _ hx, trailingZeros_append_nonzero _ hx]
    · rw [dif_neg h8]; exact countZeroTail_eq data n hn

/-- **The chunked zero scan counts exactly the zero bytes at the end**, for every byte string. -/
theorem zero_scan_exact (data : Bytes) : countZeroBytesAtEnd data = trailingZeros data := by
  unfold countZeroBytesAtEnd
  rw [countZeroAt_eq data _ (Nat.le_refl _), List.take_length]

example : countZeroBytesAtEnd ([1, 0, 2] ++ zeros 19) = 19 := by
  rw [zero_scan_exact]; decide

/-! ## What is stored for a bin -/

/-- The entry at the end of the fixed room (or the last entry) is not all zero. -/
def TailOK (p : Params) (es : List Bytes) : Prop :=
  ∀ e, es[min es.length p.entriesInBinStart - 1]? = some e → 0 < min es.length p.entriesInBinStart → e ≠ zeros p.entrySize

/-- Bin `bn` of the files holds entries `es`. -/
structure Stored (p : Params) (f : Files) (bn : Nat) (es : List Bytes) : Prop where
  fits : (bn + 1) * (p.entriesInBinStart * p.entrySize) ≤ f.binStarts.length
  start : slice f.binStarts (bn * (p.entriesInBinStart * p.entrySize)) (p.entriesInBinStart * p.entrySize) =
    (es.take p.entriesInBinStart).flatten ++ zeros ((p.entriesInBinStart - es.length) * p.entrySize)
  ovf : f.overflow (ovfPath p bn) =
    if es.length > p.entriesInBinStart then some (es.drop p.entriesInBinStart).flatten else none

theorem stored_fresh {p : Params} {bn : Nat} (h : bn < p.numberOfBins) : Stored p (freshFiles p) bn [] := by
  have hle : (bn + 1) * (p.entriesInBinStart * p.entrySize) ≤ (freshFiles p).binStarts.length := by
    simp only [freshFiles, zeros_length, Nat.mul_assoc]
    exact Nat.mul_le_mul_right _ h
  refine ⟨hle, ?_, ?_⟩
  · simp only [freshFiles, zeros, slice, List.take_nil, List.flatten_nil, List.nil_append, List.length_nil,
      Nat.sub_zero, List.drop_replicate, List.take_replicate]
    congr 1
    rw [Nat.min_eq_left]
    simp only [freshFiles, zeros_length] at hle
    rw [Nat.succ_mul] at hle
    omega
  · simp [freshFiles]

theorem sized_take {p : Params} {es : List Bytes} (h : Sized p es) (i : Nat) : Sized p (es.take i) :=
  fun e he => h e (List.mem_of_mem_take he)

theorem flatten_zeros_tail {k : Nat} {x : Bytes} (hx : x.length = k) (hne : x ≠ zeros k) : trailingZeros x < k := by
  rcases split_last_nonzero x with ⟨j, rfl⟩ | ⟨a, y, j, rfl, hy⟩
  · rw [zeros_length] at hx; subst hx; exact absurd rfl hne
  · rw [trailingZeros_append_zero, trailingZeros_append_nonzero _ hy]
    simp at hx; omega

theorem trailingZeros_append {a x : Bytes} (hne : x ≠ zeros x.length) : trailingZeros (a ++ x) = trailingZeros x := by
  rcases split_last_nonzero x with ⟨j, rfl⟩ | ⟨b, y, j, rfl, hy⟩
  · rw [zeros_length] at hne; exact absurd rfl hne
  · rw [← List.append_assoc, ← List.append_assoc, trailingZeros_append_zero, trailingZeros_append_zero,
      trailingZeros_append_nonzero _ hy, trailingZeros_append_nonzero _ hy]

/-- Loading a stored bin. -/
theorem load_stored {p : Params} {f : Files} {bn : Nat} {es : List Bytes} (h : Stored p f bn es) (hs : Sized p es)
    (ht : TailOK p es) : loadBin p f bn = some es.flatten := by
  have hE := entrySize_pos p
  obtain ⟨h1, h2, h3⟩ := h
  unfold loadBin readAt
  have e1 : bn * p.entrySize * p.entriesInBinStart = bn * (p.entriesInBinStart * p.entrySize) := by
    rw [Nat.mul_assoc, Nat.mul_comm p.entrySize]
  have e2 : p.entrySize * p.entriesInBinStart = p.entriesInBinStart * p.entrySize := Nat.mul_comm _ _
  rw [e1, e2, if_pos (by rw [Nat.succ_mul] at h1; omega)]
  have h2' := h2
  unfold slice at h2'
  rw [h2', Option.map_some]
  congr 1
  unfold loadBinFromSlice
  rw [zero_scan_exact, trailingZeros_append_zero]
  dsimp only
  -- zero entries = free room
  have hz : ((p.entriesInBinStart - es.length) * p.entrySize + trailingZeros (es.take p.entriesInBinStart).flatten) /
      p.entrySize = p.entriesInBinStart - es.length := by
    have hlt : trailingZeros (es.take p.entriesInBinStart).flatten < p.entrySize := by
      rcases Nat.eq_zero_or_pos (min es.length p.entriesInBinStart) with hm | hm
      · have : es.take p.entriesInBinStart = [] := by
          apply List.length_eq_zero_iff.mp
          rw [List.length_take]; omega
        rw [this]
        exact hE
      · have hlt : min es.length p.entriesInBinStart - 1 < es.length := by omega
        have hne := ht _ (List.getElem?_eq_getElem hlt) hm
        have hsz : es[min es.length p.entriesInBinStart - 1].length = p.entrySize := hs _ (List.getElem_mem _)
        have hlast : es.take p.entriesInBinStart =
            es.take (min es.length p.entriesInBinStart - 1) ++ [es[min es.length p.entriesInBinStart - 1]] := by
          rw [← List.take_succ_eq_append_getElem hlt, Nat.sub_add_cancel hm]
          apply List.ext_getElem?
          intro i
          rw [List.getElem?_take, List.getElem?_take]
          by_cases hi : i < es.length
          · by_cases hi2 : i < p.entriesInBinStart
            · rw [if_pos hi2, if_pos (by omega)]
            · rw [if_neg hi2, if_neg (by omega)]
          · rw [List.getElem?_eq_none (by omega)]; simp
        rw [hlast, List.flatten_append, List.flatten_singleton, trailingZeros_append (by rw [hsz]; exact hne)]
        exact flatten_zeros_tail hsz hne
    rw [Nat.add_comm, Nat.add_mul_div_right _ _ hE, Nat.div_eq_of_lt hlt, Nat.zero_add]
  rw [hz]
  by_cases hfree : p.entriesInBinStart - es.length > 0
  · rw [if_pos hfree]
    have hle : es.length ≤ p.entriesInBinStart := by omega
    have hr : p.entriesInBinStart - (p.entriesInBinStart - es.length) = es.length := by omega
    rw [hr, List.take_of_length_le hle]
    have := flatten_length hs
    rw [← this, List.take_left]
  · rw [if_neg hfree, h3]
    have h0 : p.entriesInBinStart - es.length = 0 := by omega
    rw [h0, Nat.zero_mul, zeros, List.replicate_zero, List.append_nil]
    by_cases hgt : es.length > p.entriesInBinStart
    · rw [if_pos hgt]
      dsimp only
      rw [← List.flatten_append, List.take_append_drop]
    · rw [if_neg hgt, List.take_of_length_le (by omega)]

theorem ovfPath_inj {p : Params} (hd : 0 < p.digitsPerNumberedFolder) {a b : Nat} (h : ovfPath p a = ovfPath p b) :
    a = b := by
  have := ((NumberedFolders.same_file_iff hd 0 a b).1).mp h
  simpa using this

/-- The bytes written to the bin-starts file. -/
theorem saved_start {p : Params} {es : List Bytes} (hs : Sized p es) :
    (es.flatten).take ((if es.length > p.entriesInBinStart then p.entriesInBinStart else es.length) * p.entrySize) =
      (es.take p.entriesInBinStart).flatten := by
  rw [Nat.mul_comm, flatten_take hs]
  by_cases h : es.length > p.entriesInBinStart
  · rw [if_pos h]
  · rw [if_neg h, List.take_of_length_le (Nat.le_refl _), List.take_of_length_le (by omega)]

theorem start_length {p : Params} {es : List Bytes} (hs : Sized p es) :
    (es.take p.entriesInBinStart).flatten.length = p.entrySize * min p.entriesInBinStart es.length := by
  rw [flatten_length (sized_take hs _), List.length_take]

theorem writeAt_length_ge (f : Bytes) (off : Nat) (d : Bytes) : f.length ≤ (writeAt f off d).length := by
  by_cases hd : d = []
  · rw [hd]; simp [writeAt]
  · rw [writeAt_length hd]; omega

/-- Saving a bin that has not shrunk stores it. -/
theorem save_stored {p : Params} {f : Files} {bn : Nat} {es es' : List Bytes} (h : Stored p f bn es)
    (hs : Sized p es) (hs' : Sized p es') (hgrow : es.length ≤ es'.length) :
    Stored p (saveBin p f bn es'.flatten) bn es' := by
  obtain ⟨h1, h2, h3⟩ := h
  have hE := entrySize_pos p
  unfold saveBin
  rw [binLen_flatten hs']
  dsimp only
  rw [saved_start hs', Nat.mul_assoc bn]
  have hlen' := start_length hs'
  have hlen := start_length hs
  refine ⟨Nat.le_trans h1 (writeAt_length_ge _ _ _), ?_, ?_⟩
  · by_cases hd : (es'.take p.entriesInBinStart).flatten = []
    · rw [hd]
      have hz : min p.entriesInBinStart es'.length = 0 := by
        rw [hd, List.length_nil] at hlen'
        rcases Nat.mul_eq_zero.mp hlen'.symm with h0 | h0
        · omega
        · exact h0
      rw [show writeAt f.binStarts (bn * (p.entriesInBinStart * p.entrySize)) [] = f.binStarts by simp [writeAt], h2]
      have hnil : (es.take p.entriesInBinStart).flatten = [] := by
        apply List.length_eq_zero_iff.mp
        rw [hlen, show min p.entriesInBinStart es.length = 0 by omega, Nat.mul_zero]
      rw [hnil]
      congr 2
      rcases Nat.eq_zero_or_pos p.entriesInBinStart with h0 | h0
      · rw [h0]; simp
      · have : es'.length = 0 := by omega
        rw [show es.length = es'.length by omega]
    · have hfit : bn * (p.entriesInBinStart * p.entrySize) + p.entriesInBinStart * p.entrySize ≤ f.binStarts.length := by
        rw [Nat.succ_mul] at h1; omega
      have hdl : (es'.take p.entriesInBinStart).flatten.length ≤ p.entriesInBinStart * p.entrySize := by
        rw [hlen', Nat.mul_comm]
        exact Nat.mul_le_mul_right _ (Nat.min_le_left _ _)
      -- compare byte by byte
      apply List.ext_getElem?
      intro i
      rw [slice_getElem?]
      have hold : ∀ i : Nat, (slice f.binStarts (bn * (p.entriesInBinStart * p.entrySize)) (p.entriesInBinStart * p.entrySize))[i]? =
          ((es.take p.entriesInBinStart).flatten ++ zeros ((p.entriesInBinStart - es.length) * p.entrySize))[i]? := by
        intro i; rw [h2]
      have hold_i := hold i
      rw [slice_getElem?] at hold_i
      by_cases hi : i < p.entriesInBinStart * p.entrySize
      · rw [if_pos hi] at hold_i ⊢
        rw [writeAt_getElem? hd]
        by_cases hin : i < (es'.take p.entriesInBinStart).flatten.length
        · rw [List.getElem?_append_left hin]
          rw [if_neg (by omega), if_pos (by omega)]
          congr 1; omega
        · rw [List.getElem?_append_right (by omega)]
          have hs1 : min p.entriesInBinStart es.length ≤ min p.entriesInBinStart es'.length := by omega
          have hl1 := Nat.mul_le_mul_left p.entrySize hs1
          have hfl : ∀ q : List Bytes, p.entrySize * min p.entriesInBinStart q.length + (p.entriesInBinStart - q.length) * p.entrySize
              = p.entriesInBinStart * p.entrySize := by
            intro q
            rw [Nat.mul_comm p.entrySize, ← Nat.add_mul]
            congr 1; omega
          have f1 := hfl es
          have f2 := hfl es'
          rw [← hlen, ← hlen'] at hl1
          rw [← hlen] at f1
          rw [← hlen'] at f2
          generalize (p.entriesInBinStart - es.length) * p.entrySize = g1 at f1 hold_i
          generalize (p.entriesInBinStart - es'.length) * p.entrySize = g2 at f2 ⊢
          rw [List.getElem?_append_right (by omega)] at hold_i
          unfold zeros at hold_i ⊢
          rw [List.getElem?_replicate, if_pos (by omega)] at hold_i
          rw [if_neg (by omega), if_neg (by omega), hold_i, List.getElem?_replicate, if_pos (by omega)]
      · rw [if_neg hi]
        symm
        apply List.getElem?_eq_none
        have : p.entrySize * min p.entriesInBinStart es'.length + (p.entriesInBinStart - es'.length) * p.entrySize
              = p.entriesInBinStart * p.entrySize := by
            rw [Nat.mul_comm p.entrySize, ← Nat.add_mul]
            congr 1; omega
        rw [List.length_append, hlen', zeros_length]
        omega
  · by_cases hgt : es'.length > p.entriesInBinStart
    · rw [if_pos hgt, if_pos hgt]
      dsimp only
      rw [if_pos rfl, if_pos hgt, flatten_drop hs']
    · rw [if_neg hgt, if_neg hgt, h3, if_neg (by omega)]

/-- Saving a bin leaves every other bin as it was. -/
theorem save_other {p : Params} (hd : 0 < p.digitsPerNumberedFolder) {f : Files} {bn bn' : Nat} {es es' : List Bytes}
    (h : Stored p f bn es) (hne : bn' ≠ bn) (hs' : Sized p es') :
    Stored p (saveBin p f bn' es'.flatten) bn es := by
  obtain ⟨h1, h2, h3⟩ := h
  unfold saveBin
  rw [binLen_flatten hs']
  dsimp only
  rw [saved_start hs', Nat.mul_assoc bn']
  have hlen' := start_length hs'
  refine ⟨Nat.le_trans h1 (writeAt_length_ge _ _ _), ?_, ?_⟩
  · rw [← h2]
    by_cases hnil : (es'.take p.entriesInBinStart).flatten = []
    · rw [hnil]; simp [writeAt]
    · have hdl : (es'.take p.entriesInBinStart).flatten.length ≤ p.entriesInBinStart * p.entrySize := by
        rw [hlen', Nat.mul_comm]
        exact Nat.mul_le_mul_right _ (Nat.min_le_left _ _)
      rcases Nat.lt_or_ge bn bn' with hlt | hge
      · have := Nat.mul_le_mul_right (p.entriesInBinStart * p.entrySize) hlt
        rw [Nat.succ_mul] at this h1
        exact slice_writeAt_before hnil (by omega) (by omega)
      · have := Nat.mul_le_mul_right (p.entriesInBinStart * p.entrySize) (show bn' + 1 ≤ bn by omega)
        rw [Nat.succ_mul] at this
        exact slice_writeAt_after hnil (by omega)
  · rw [← h3]
    by_cases hgt : es'.length > p.entriesInBinStart
    · rw [if_pos hgt]
      dsimp only
      rw [if_neg (fun hc => hne (ovfPath_inj hd hc).symm)]
    · rw [if_neg hgt]

/-- Save bins one after the other: (bin number, entries). -/
def saveAll (p : Params) (f : Files) : List (Nat × List Bytes) → Files
  | [] => f
  | (bn, es) :: r => saveAll p (saveBin p f bn es.flatten) r

/-- What a reader should find: the entries saved last for each bin, starting from `cur`. -/
def lastSaved (cur : Nat → List Bytes) : List (Nat × List Bytes) → Nat → List Bytes
  | [] => cur
  | (bn, es) :: r => lastSaved (fun b => if b = bn then es else cur b) r

/-- No save makes a bin shorter than it was. -/
def Growing (cur : Nat → List Bytes) : List (Nat × List Bytes) → Prop
  | [] => True
  | (bn, es) :: r => (cur bn).length ≤ es.length ∧ Growing (fun b => if b = bn then es else cur b) r

theorem saveAll_stored {p : Params} (hd : 0 < p.digitsPerNumberedFolder) (saves : List (Nat × List Bytes))
    (hsaves : ∀ x ∈ saves, x.1 < p.numberOfBins ∧ Sized p x.2) (f : Files) (cur : Nat → List Bytes)
    (hcur : ∀ bn, bn < p.numberOfBins → Stored p f bn (cur bn) ∧ Sized p (cur bn)) (hg : Growing cur saves) :
    ∀ bn, bn < p.numberOfBins → Stored p (saveAll p f saves) bn (lastSaved cur saves bn) ∧
      Sized p (lastSaved cur saves bn) := by
  induction saves generalizing f cur with
  | nil => exact hcur
  | cons x saves ih =>
    obtain ⟨bn0, es⟩ := x
    obtain ⟨hb0, hs0⟩ := hsaves (bn0, es) (by simp)
    unfold Growing at hg
    unfold saveAll lastSaved
    refine ih (fun y hy => hsaves y (by simp [hy])) _ _ ?_ hg.2
    intro bn hbn
    obtain ⟨c1, c2⟩ := hcur bn hbn
    by_cases he : bn = bn0
    · subst he
      simp only [if_true]
      exact ⟨save_stored c1 c2 hs0 hg.1, hs0⟩
    · simp only [if_neg he]
      exact ⟨save_other hd c1 (Ne.symm he) hs0, c2⟩

theorem lastSaved_mem (saves : List (Nat × List Bytes)) (cur : Nat → List Bytes) (bn : Nat) :
    lastSaved cur saves bn = cur bn ∨ (bn, lastSaved cur saves bn) ∈ saves := by
  induction saves generalizing cur with
  | nil => exact Or.inl rfl
  | cons x saves ih =>
    obtain ⟨bn0, es⟩ := x
    unfold lastSaved
    rcases ih (fun b => if b = bn0 then es else cur b) with h | h
    · by_cases he : bn = bn0
      · right
        rw [h, if_pos he, he]; simp
      · left; rw [h, if_neg he]
    · right; exact List.mem_cons_of_mem _ h

/-- **C23.** Starting from the files made by the preloader, after any sequence of saves of bins that never
shrink and whose entry at the end of the fixed room is not all zero, loading any bin gives exactly the bytes
last saved for it (nothing for a bin never saved); whatever the room, with or without overflow files. -/
theorem saved_bins_load {p : Params} (hd : 0 < p.digitsPerNumberedFolder) (saves : List (Nat × List Bytes))
    (hsaves : ∀ x ∈ saves, x.1 < p.numberOfBins ∧ Sized p x.2 ∧ TailOK p x.2) (hg : Growing (fun _ => []) saves)
    (bn : Nat) (hbn : bn < p.numberOfBins) :
    loadBin p (saveAll p (freshFiles p) saves) bn = some (lastSaved (fun _ => []) saves bn).flatten := by
  obtain ⟨h1, h2⟩ := saveAll_stored hd saves (fun x hx => ⟨(hsaves x hx).1, (hsaves x hx).2.1⟩) (freshFiles p)
    (fun _ => []) (fun bn hbn => ⟨stored_fresh hbn, by intro e he; simp at he⟩) hg bn hbn
  refine load_stored h1 h2 ?_
  rcases lastSaved_mem saves (fun _ => []) bn with h | h
  · rw [h]; intro e he; simp at he
  · exact (hsaves _ h).2.2

/-- A small parameter set for examples: 4 bins, room for 2 entries of 33 bytes each. -/
def smallParams : Params :=
  { bitsPerHashIndex := 8, numberOfBins := 4, entriesInBinStart := 2, digitsPerNumberedFolder := 2,
    bytesPerSortNum := 8 }

example : loadBin smallParams (saveAll smallParams (freshFiles smallParams)
      [(1, [List.replicate 33 1]), (3, [List.replicate 33 9]), (1, [List.replicate 33 1, List.replicate 33 2, List.replicate 33 3])]) 1
    = some (List.replicate 33 1 ++ List.replicate 33 2 ++ List.replicate 33 3) := by
  have h := saved_bins_load (p := smallParams) (by decide)
    [(1, [List.replicate 33 1]), (3, [List.replicate 33 9]), (1, [List.replicate 33 1, List.replicate 33 2, List.replicate 33 3])]
    (by
      intro x hx
      simp only [List.mem_cons, List.not_mem_nil, or_false] at hx
      rcases hx with rfl | rfl | rfl <;> refine ⟨by decide, ?_, ?_⟩ <;>
        (intro e he; simp at he; rcases he with rfl | rfl | rfl <;> decide +kernel))
    (by simp [Growing]) 1 (by decide)
  rw [h]; rfl

/-- **C23 does not extend to all-zero entries.** A bin whose only entry is all zero (index 0, sort number 0,
truncated hash 0) is empty when loaded. -/
theorem zero_entry_lost {p : Params} (hr : 0 < p.entriesInBinStart) {bn : Nat} (hbn : bn < p.numberOfBins) :
    loadBin p (saveBin p (freshFiles p) bn (zeros p.entrySize)) bn = some [] := by
  have hsz : Sized p [zeros p.entrySize] := by intro e he; simp at he; subst he; simp
  have hst := save_stored (stored_fresh hbn) (fun e he => by simp at he) hsz (Nat.zero_le _)
  rw [List.flatten_singleton] at hst
  obtain ⟨h1, h2, h3⟩ := hst
  generalize saveBin p (freshFiles p) bn (zeros p.entrySize) = f at h1 h2 h3
  have hE := entrySize_pos p
  have hzz : (List.take p.entriesInBinStart [zeros p.entrySize]).flatten ++
      zeros ((p.entriesInBinStart - [zeros p.entrySize].length) * p.entrySize) = zeros (p.entriesInBinStart * p.entrySize) := by
    rw [List.take_of_length_le (by simp; omega), List.flatten_singleton, List.length_singleton]
    unfold zeros
    rw [List.replicate_append_replicate]
    congr 1
    obtain ⟨r, hr'⟩ : ∃ r, p.entriesInBinStart = r + 1 := ⟨p.entriesInBinStart - 1, by omega⟩
    rw [hr', Nat.add_sub_cancel, Nat.succ_mul, Nat.add_comm]
  rw [hzz] at h2
  unfold loadBin readAt
  have e1 : bn * p.entrySize * p.entriesInBinStart = bn * (p.entriesInBinStart * p.entrySize) := by
    rw [Nat.mul_assoc, Nat.mul_comm p.entrySize]
  rw [e1, Nat.mul_comm p.entrySize, if_pos (by rw [Nat.succ_mul] at h1; omega)]
  unfold slice at h2
  rw [h2, Option.map_some]
  congr 1
  unfold loadBinFromSlice
  rw [zero_scan_exact]
  have ht : trailingZeros (zeros (p.entriesInBinStart * p.entrySize)) = p.entriesInBinStart * p.entrySize := by
    have := trailingZeros_append_zero [] (p.entriesInBinStart * p.entrySize)
    rw [List.nil_append] at this
    rw [this]; rfl
  rw [ht, Nat.mul_div_cancel _ hE]
  dsimp only
  rw [if_pos hr, Nat.sub_self, Nat.mul_zero, List.take_zero]

example : loadBin smallParams (saveBin smallParams (freshFiles smallParams) 2 (zeros 33)) 2 = some [] :=
  zero_entry_lost (p := smallParams) (by decide) (by decide)

/-! ## Loading all bins at once -/

theorem loadAllFrom_eq {p : Params} {f : Files} (n bn : Nat)
    (hlen : (bn + n) * (p.entrySize * p.entriesInBinStart) ≤ f.binStarts.length) :
    ∃ l, loadAllFrom p f (f.binStarts.drop (bn * (p.entrySize * p.entriesInBinStart))) bn n = some l ∧
      l.length = n ∧ ∀ i, i < n → loadBin p f (bn + i) = l[i]? := by
  induction n generalizing bn with
  | zero => exact ⟨[], rfl, rfl, by omega⟩
  | succ n ih =>
    obtain ⟨l, h1, h2, h3⟩ := ih (bn + 1) (by rw [show bn + 1 + n = bn + (n + 1) by omega]; exact hlen)
    have hroom : bn * (p.entrySize * p.entriesInBinStart) + p.entrySize * p.entriesInBinStart ≤ f.binStarts.length := by
      have : (bn + 1) * (p.entrySize * p.entriesInBinStart) ≤ (bn + (n + 1)) * (p.entrySize * p.entriesInBinStart) :=
        Nat.mul_le_mul_right _ (by omega)
      rw [Nat.succ_mul] at this
      omega
    unfold loadAllFrom
    rw [if_neg (by rw [List.length_drop]; omega), List.drop_drop]
    have e : bn * (p.entrySize * p.entriesInBinStart) + p.entrySize * p.entriesInBinStart =
        (bn + 1) * (p.entrySize * p.entriesInBinStart) := by rw [Nat.succ_mul]
    rw [e, h1]
    dsimp only
    refine ⟨_, rfl, by simp [h2], ?_⟩
    intro i hi
    cases i with
    | zero =>
      unfold loadBin readAt
      rw [Nat.add_zero, Nat.mul_assoc, if_pos hroom]
      rfl
    | succ i =>
      rw [List.getElem?_cons_succ, ← h3 i (by omega)]
      congr 1; omega

/-- **C54.** Loading all bins into memory in one pass gives, bin by bin, what loading each bin by itself
gives, for every bin-starts file with room for all bins. -/
theorem load_all_agrees {p : Params} {f : Files}
    (hlen : p.numberOfBins * (p.entrySize * p.entriesInBinStart) ≤ f.binStarts.length) :
    ∃ l, loadAllBins p f = some l ∧ l.length = p.numberOfBins ∧ ∀ bn, bn < p.numberOfBins → loadBin p f bn = l[bn]? := by
  obtain ⟨l, h1, h2, h3⟩ := loadAllFrom_eq (p := p) (f := f) p.numberOfBins 0 (by rw [Nat.zero_add]; exact hlen)
  refine ⟨l, ?_, h2, ?_⟩
  · unfold loadAllBins
    rw [Nat.zero_mul, List.drop_zero] at h1
    exact h1
  · intro bn hbn
    have := h3 bn hbn
    rwa [Nat.zero_add] at this

example : ∃ l, loadAllBins smallParams (saveBin smallParams (freshFiles smallParams) 2 (List.replicate 33 1)) = some l ∧
    l.length = 4 ∧ loadBin smallParams (saveBin smallParams (freshFiles smallParams) 2 (List.replicate 33 1)) 2 = l[2]? := by
  obtain ⟨l, h1, h2, h3⟩ := load_all_agrees (p := smallParams)
    (f := saveBin smallParams (freshFiles smallParams) 2 (List.replicate 33 1)) (by decide +kernel)
  exact ⟨l, h1, h2, h3 2 (by decide)⟩

end Verif.Bins
