import Verif.Model.Records
import Verif.Lemmas.Bytes

namespace Verif

theorem setExt_getElem? {α : Type} (l : List α) (i : Nat) (a pad : α) (j : Nat) :
    (setExt l i a pad)[j]? =
      if j = i then some a else if j < l.length then l[j]? else if j < i then some pad else none := by
  have hl : ((l ++ List.replicate (i - l.length) pad).take i).length = i := by
    simp; omega
  unfold setExt
  by_cases h : j < i
  · rw [List.getElem?_append_left (by omega), List.getElem?_take, if_pos h, if_neg (by omega)]
    by_cases h2 : j < l.length
    · rw [List.getElem?_append_left h2, if_pos h2]
    · rw [List.getElem?_append_right (by omega), if_neg h2, if_pos h]
      simp [List.getElem?_replicate]; omega
  · rw [List.getElem?_append_right (by omega), hl]
    by_cases h3 : j = i
    · subst h3; simp
    · have : j - i = (j - i - 1) + 1 := by omega
      rw [this, List.getElem?_cons_succ, List.getElem?_drop, if_neg h3]
      have e : i + 1 + (j - i - 1) = j := by omega
      rw [e]
      by_cases h4 : j < l.length
      · rw [if_pos h4]
      · rw [if_neg h4, if_neg h]
        exact List.getElem?_eq_none (by omega)

theorem setExt_length {α : Type} (l : List α) (i : Nat) (a pad : α) :
    (setExt l i a pad).length = max l.length (i + 1) := by
  simp [setExt]; omega

theorem setExt_map {α β : Type} (f : α → β) (l : List α) (i : Nat) (a pad : α) :
    (setExt l i a pad).map f = setExt (l.map f) i (f a) (f pad) := by
  simp [setExt]

theorem setExt_end {α : Type} (l : List α) (a pad : α) : setExt l l.length a pad = l ++ [a] := by
  simp [setExt]

theorem slice_getElem? (f : Bytes) (o n i : Nat) :
    (slice f o n)[i]? = if i < n then f[o + i]? else none := by
  simp [slice, List.getElem?_take, List.getElem?_drop]

theorem slice_length {f : Bytes} {o n : Nat} (h : o + n ≤ f.length) : (slice f o n).length = n := by
  simp [slice]; omega

theorem slice_length_le (f : Bytes) (o n : Nat) : (slice f o n).length = min n (f.length - o) := by
  simp [slice]

theorem slice_writeAt_same {f d : Bytes} {off : Nat} (hd : d ≠ []) :
    slice (writeAt f off d) off d.length = d := by
  apply List.ext_getElem?
  intro i
  rw [slice_getElem?]
  by_cases h : i < d.length
  · rw [if_pos h, writeAt_getElem? hd, if_neg (by omega), if_pos (by omega)]
    congr 1; omega
  · rw [if_neg h]; exact (List.getElem?_eq_none (by omega)).symm

theorem slice_writeAt_before {f d : Bytes} {off o n : Nat} (hd : d ≠ []) (h1 : o + n ≤ off)
    (h2 : o + n ≤ f.length) : slice (writeAt f off d) o n = slice f o n := by
  apply List.ext_getElem?
  intro i
  rw [slice_getElem?, slice_getElem?]
  by_cases h : i < n
  · rw [if_pos h, if_pos h, writeAt_getElem? hd, if_pos (by omega), if_pos (by omega)]
  · rw [if_neg h, if_neg h]

theorem slice_writeAt_after {f d : Bytes} {off o n : Nat} (hd : d ≠ []) (h1 : off + d.length ≤ o) :
    slice (writeAt f off d) o n = slice f o n := by
  apply List.ext_getElem?
  intro i
  rw [slice_getElem?, slice_getElem?]
  by_cases h : i < n
  · rw [if_pos h, if_pos h, writeAt_getElem? hd, if_neg (by omega), if_neg (by omega)]
  · rw [if_neg h, if_neg h]

theorem slice_writeAt_gap {f d : Bytes} {off o n : Nat} (hd : d ≠ []) (h1 : o + n ≤ off)
    (h2 : f.length ≤ o) : slice (writeAt f off d) o n = zeros n := by
  apply List.ext_getElem?
  intro i
  rw [slice_getElem?]
  by_cases h : i < n
  · rw [if_pos h, writeAt_getElem? hd, if_pos (by omega), if_neg (by omega)]
    simp [zeros, h]
  · rw [if_neg h]; exact (List.getElem?_eq_none (by simp; omega)).symm

theorem recs_length (k : Nat) (f : Bytes) : (recs k f).length = f.length / k := by
  simp [recs]

theorem recs_getElem? (k : Nat) (f : Bytes) (i : Nat) :
    (recs k f)[i]? = if i < f.length / k then some (slice f (i * k) k) else none := by
  simp only [recs, List.getElem?_map]
  by_cases h : i < f.length / k
  · rw [if_pos h, List.getElem?_range h]; rfl
  · rw [if_neg h, List.getElem?_eq_none (by simpa using h)]; rfl

/-- A record is inside the file iff its index is below the record count. -/
theorem rec_in_range {k i n : Nat} (hk : 0 < k) (h : i < n / k) : i * k + k ≤ n := by
  have h1 : (i + 1) * k ≤ n / k * k := Nat.mul_le_mul_right k h
  have h2 : n / k * k ≤ n := Nat.div_mul_le_self n k
  rw [Nat.add_mul] at h1; omega

/-- Writing a whole record is an array write on the records. -/
theorem recs_writeAt {k : Nat} (hk : 0 < k) {f r : Bytes} (hf : f.length % k = 0) (hr : r.length = k)
    (j : Nat) : recs k (writeAt f (j * k) r) = setExt (recs k f) j r (zeros k) := by
  have hr0 : r ≠ [] := by intro h; rw [h] at hr; simp at hr; omega
  obtain ⟨n, hn⟩ : ∃ n, f.length = n * k := ⟨f.length / k, by
    have := Nat.div_add_mod f.length k; rw [hf] at this; rw [Nat.mul_comm]; omega⟩
  have hdiv : f.length / k = n := by rw [hn]; exact Nat.mul_div_cancel n hk
  have hlen : (writeAt f (j * k) r).length = max n (j + 1) * k := by
    rw [writeAt_length hr0, hr, hn]
    have : j * k + k = (j + 1) * k := by rw [Nat.add_mul]; omega
    rw [this, Nat.max_def, Nat.max_def]
    split <;> split
    · rfl
    · rename_i h1 h2
      have : (j + 1) * k ≤ n * k := Nat.mul_le_mul_right k (by omega)
      omega
    · rename_i h1 h2
      have : n * k ≤ (j + 1) * k := Nat.mul_le_mul_right k (by omega)
      omega
    · rfl
  apply List.ext_getElem?
  intro i
  rw [recs_getElem?, setExt_getElem?, hlen, Nat.mul_div_cancel _ hk, recs_length, recs_getElem?, hdiv]
  by_cases hij : i = j
  · subst hij
    rw [if_pos (by omega), if_pos rfl]
    rw [← hr]
    simp only [hr]
    have := slice_writeAt_same (f := f) (off := i * k) hr0
    rw [hr] at this
    rw [this]
  · rw [if_neg hij]
    by_cases hin : i < n
    · rw [if_pos (by omega), if_pos hin]
      congr 1
      by_cases hlt : i < j
      · have h1 : (i + 1) * k ≤ j * k := Nat.mul_le_mul_right k hlt
        have h2 : (i + 1) * k ≤ n * k := Nat.mul_le_mul_right k hin
        rw [Nat.add_mul] at h1 h2
        rw [slice_writeAt_before hr0 (by omega) (by omega)]; simp [hin]
      · have h1 : (j + 1) * k ≤ i * k := Nat.mul_le_mul_right k (by omega)
        rw [Nat.add_mul] at h1
        rw [slice_writeAt_after hr0 (by omega)]; simp [hin]
    · rw [if_neg hin]
      by_cases hlt : i < j
      · rw [if_pos (by omega), if_pos hlt]
        have h1 : (i + 1) * k ≤ j * k := Nat.mul_le_mul_right k hlt
        have h2 : n * k ≤ i * k := Nat.mul_le_mul_right k (by omega)
        rw [Nat.add_mul] at h1
        rw [slice_writeAt_gap hr0 (by omega) (by omega)]
      · rw [if_neg (by omega), if_neg hlt]

theorem writeAt_rec_mod {k : Nat} (hk : 0 < k) {f r : Bytes} (hf : f.length % k = 0) (hr : r.length = k)
    (j : Nat) : (writeAt f (j * k) r).length % k = 0 := by
  have hr0 : r ≠ [] := by intro h; rw [h] at hr; simp at hr; omega
  rw [writeAt_length hr0, hr, Nat.max_def]
  split
  · have : j * k + k = (j + 1) * k := by rw [Nat.add_mul]; omega
    rw [this]; exact Nat.mul_mod_left _ _
  · exact hf

theorem toU64_lt (v : Int) : toU64 v < 2 ^ 64 := by
  unfold toU64
  have := Int.emod_lt_of_pos v (b := 2 ^ 64) (by decide)
  have := Int.emod_nonneg v (b := 2 ^ 64) (by decide)
  omega

theorem ofU64_toU64 {v : Int} (h1 : -2 ^ 63 ≤ v) (h2 : v < 2 ^ 63) : ofU64 (toU64 v) = v := by
  unfold ofU64 toU64
  split <;> omega

theorem toU64_of_nonneg {v : Int} (h1 : 0 ≤ v) (h2 : v < 2 ^ 63) : toU64 v = v.toNat := by
  unfold toU64; omega

end Verif
