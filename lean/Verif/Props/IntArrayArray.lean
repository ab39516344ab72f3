import Verif.Model.IntArrayArray
import Verif.Props.WordFile

/-!
# C07, C08: variable-length integers and array-of-arrays files round-trip
-/

namespace Verif.VarInt

theorem toBytes_fromBytes {v : Int} (h0 : 0 ≤ v) (h1 : v < 2 ^ 63) (rest : Bytes) :
    fromBytes (toBytes v ++ rest) = some (v, (toBytes v).length) := by
  have hu := toU64_of_nonneg h0 h1
  unfold toBytes
  rw [hu]
  dsimp only
  split
  · rename_i h
    rw [leEnc_take (by decide)]
    simp only [leEnc, List.nil_append, List.cons_append, fromBytes]
    have hb : (UInt8.ofNat (v.toNat % 256)) < 0xFD := by
      rw [UInt8.lt_iff_toNat_lt]; simp; omega
    rw [if_pos hb]
    simp; omega
  · split
    · rename_i h h'
      rw [leEnc_take (by decide)]
      rw [List.cons_append, fromBytes, if_neg (by decide), if_pos rfl]
      have : List.take 2 (leEnc 2 v.toNat ++ rest) = leEnc 2 v.toNat := by
        rw [List.take_append_of_le_length (by simp)]; exact List.take_of_length_le (by simp)
      rw [this, leDec_leEnc_of_lt (by omega)]
      simp [leEnc_length]; omega
    · split
      · rename_i h h' h''
        rw [leEnc_take (by decide)]
        rw [List.cons_append, fromBytes, if_neg (by decide), if_neg (by decide), if_pos rfl]
        have : List.take 4 (leEnc 4 v.toNat ++ rest) = leEnc 4 v.toNat := by
          rw [List.take_append_of_le_length (by simp)]; exact List.take_of_length_le (by simp)
        rw [this, leDec_leEnc_of_lt (by omega)]
        simp [leEnc_length]; omega
      · rename_i h h' h''
        rw [List.cons_append, fromBytes, if_neg (by decide), if_neg (by decide), if_neg (by decide)]
        have : List.take 8 (leEnc 8 v.toNat ++ rest) = leEnc 8 v.toNat := by
          rw [List.take_append_of_le_length (by simp)]; exact List.take_of_length_le (by simp)
        rw [this, leDec_leEnc_of_lt (by omega)]
        simp [leEnc_length, ofU64]; omega

/-- **C07.** Reading back the encoding of any non-negative `int64` from a stream that continues with
arbitrary bytes gives the value and consumes exactly the bytes written. -/
theorem varint_roundtrip (v : Int) (h0 : 0 ≤ v) (h1 : v < 2 ^ 63) (rest : Bytes) :
    ∃ n, fromBytes (toBytes v ++ rest) = some (v, n) ∧ (toBytes v ++ rest).drop n = rest :=
  ⟨_, toBytes_fromBytes h0 h1 rest, by simp⟩

example : toBytes 65536 = [0xFE, 0, 0, 1, 0] ∧ fromBytes [0xFE, 0, 0, 1, 0, 9] = some (65536, 5) := by decide

/-- **C07 (unique decoding).** Two concatenations of encodings that are equal as byte strings encode the
same list of integers. -/
theorem varint_concat_injective (xs ys : List Int) (hx : ∀ v ∈ xs, 0 ≤ v ∧ v < 2 ^ 63)
    (hy : ∀ v ∈ ys, 0 ≤ v ∧ v < 2 ^ 63)
    (h : (xs.map toBytes).flatten = (ys.map toBytes).flatten) : xs = ys := by
  have hne : ∀ v, 0 ≤ v → v < 2 ^ 63 → toBytes v ≠ [] := by
    intro v a b e
    have := toBytes_fromBytes a b []
    rw [e] at this
    simp [fromBytes] at this
  induction xs generalizing ys with
  | nil =>
    cases ys with
    | nil => rfl
    | cons y ys =>
      simp only [List.map_nil, List.flatten_nil, List.map_cons, List.flatten_cons] at h
      have := (hy y (by simp))
      exact absurd (List.append_eq_nil_iff.mp h.symm).1 (hne y this.1 this.2)
  | cons x xs ih =>
    cases ys with
    | nil =>
      simp only [List.map_nil, List.flatten_nil, List.map_cons, List.flatten_cons] at h
      have := (hx x (by simp))
      exact absurd (List.append_eq_nil_iff.mp h).1 (hne x this.1 this.2)
    | cons y ys =>
      simp only [List.map_cons, List.flatten_cons] at h
      have bx := hx x (by simp)
      have by' := hy y (by simp)
      have e1 := toBytes_fromBytes bx.1 bx.2 (xs.map toBytes).flatten
      have e2 := toBytes_fromBytes by'.1 by'.2 (ys.map toBytes).flatten
      rw [h, e2] at e1
      have hxy : y = x := by simpa using congrArg (fun o => o.map Prod.fst) e1
      subst hxy
      rw [ih ys (fun v hv => hx v (by simp [hv])) (fun v hv => hy v (by simp [hv]))
        (List.append_cancel_left h)]

/-- **C07 (sizes).** The encoding takes 1, 3, 5 or 9 bytes according to the magnitude. -/
theorem varint_length (v : Int) : (toBytes v).length =
    if v < 253 then 1 else if v < 65536 then 3 else if v < 4294967296 then 5 else 9 := by
  unfold toBytes
  dsimp only
  by_cases h1 : v < 253
  · rw [if_pos h1, if_pos h1]; simp
  · rw [if_neg h1, if_neg h1]
    by_cases h2 : v ≤ 65535
    · rw [if_pos h2, if_pos (by omega)]; simp
    · rw [if_neg h2, if_neg (show ¬ v < 65536 by omega)]
      by_cases h3 : v ≤ 4294967295
      · rw [if_pos h3, if_pos (by omega)]; simp
      · rw [if_neg h3, if_neg (show ¬ v < 4294967296 by omega)]; simp

end Verif.VarInt

namespace Verif.IAA

open Verif.WordFile (fits decode_encode)

theorem loadElems_save {w : Nat} (hw : w ≤ 8) (arr : List Int) (hf : ∀ v ∈ arr, fits w v) (rest : Bytes) :
    loadElems w arr.length ((arr.map fun v => (leEnc 8 (toU64 v)).take w).flatten ++ rest) =
      some (arr, rest) := by
  induction arr with
  | nil => simp [loadElems]
  | cons v vs ih =>
    have ih := ih (fun x hx => hf x (by simp [hx]))
    simp only [List.map_cons, List.flatten_cons, List.length_cons, loadElems, List.append_assoc]
    rw [leEnc_take hw]
    have hl : (leEnc w (toU64 v)).length = w := leEnc_length _ _
    rw [if_neg (by simp [hl]), List.drop_append_of_le_length (by omega),
      List.take_append_of_le_length (by omega)]
    rw [List.drop_of_length_le (by omega), List.take_of_length_le (by omega), List.nil_append, ih]
    simp [decode_encode hw (hf v (by simp))]

/-- The arrays described by a Go map. -/
def view (m : Nat → Option (List Int)) (i : Nat) : List Int :=
  match m i with | some o => o | none => []

theorem getArray_eq (a : IAA) : getArray a = view a.arrays := rfl

theorem loadArrays_save {w : Nat} (hw : w ≤ 8) (f : Nat → List Int) (n i : Nat)
    (hf : ∀ j, i ≤ j → j < i + n → (∀ v ∈ f j, fits w v) ∧ (f j).length < 2 ^ 63)
    (m : Nat → Option (List Int)) (t : Int) (rest : Bytes) :
    loadArrays w n i (((List.range' i n).map fun j => saveOne w (f j)).flatten ++ rest) m t =
      some (fun j => if i ≤ j ∧ j < i + n then some (f j) else m j,
        t + ((List.range' i n).map fun j => ((f j).length : Int)).sum) := by
  induction n generalizing i m t with
  | zero =>
    simp [loadArrays]
    funext j
    rw [if_neg (by omega)]
  | succ n ih =>
    simp only [List.range'_succ, List.map_cons, List.flatten_cons, loadArrays, List.append_assoc]
    obtain ⟨hfi, hli⟩ := hf i (by omega) (by omega)
    rw [show saveOne w (f i) = VarInt.toBytes (f i).length ++
      ((f i).map fun v => (leEnc 8 (toU64 v)).take w).flatten from rfl, List.append_assoc]
    rw [VarInt.toBytes_fromBytes (by omega) (by omega)]
    dsimp only
    rw [if_neg (by omega), List.drop_left]
    rw [Int.toNat_natCast, loadElems_save hw (f i) hfi]
    dsimp only
    rw [ih (i + 1) (fun j h1 h2 => hf j (by omega) (by omega))]
    simp only [Option.some.injEq, Prod.mk.injEq]
    constructor
    · funext j
      unfold setKey
      by_cases hj : j = i
      · subst hj
        rw [if_neg (by omega), if_pos rfl, if_pos (by omega)]
      · by_cases h2 : i + 1 ≤ j ∧ j < i + 1 + n
        · rw [if_pos h2, if_pos (by omega)]
        · rw [if_neg h2, if_neg hj, if_neg (by omega)]
    · simp only [List.sum_cons]; omega

/-- **C08.** Saving an array of arrays whose elements fit the element size and loading the file gives the
same arrays (every position below the array count), with the element tally equal to the total number of
elements, into any `IntArrayArray` of the same dimensions. -/
theorem save_load_roundtrip (a b : IAA) (hw : a.elementByteSize ≤ 8)
    (hdim : b.arrayCount = a.arrayCount ∧ b.elementByteSize = a.elementByteSize)
    (hf : ∀ i < a.arrayCount, (∀ v ∈ getArray a i, fits a.elementByteSize v) ∧ (getArray a i).length < 2 ^ 63) :
    ∃ c, loadBytes b (saveBytes a) = some c ∧
      c.arrayCount = a.arrayCount ∧ c.elementByteSize = a.elementByteSize ∧
      (∀ i < a.arrayCount, getArray c i = getArray a i) ∧
      (∀ i, a.arrayCount ≤ i → getArray c i = []) ∧
      c.elementTally = ((List.range a.arrayCount).map fun i => ((getArray a i).length : Int)).sum := by
  have := loadArrays_save hw (view a.arrays) a.arrayCount 0
    (fun j _ h => hf j (by omega)) (fun _ => none) 0 []
  rw [List.append_nil, ← List.range_eq_range'] at this
  have key : loadArrays b.elementByteSize b.arrayCount 0 (saveBytes a) (fun _ => none) 0 = some
      (fun j => if 0 ≤ j ∧ j < 0 + a.arrayCount then some (view a.arrays j) else none,
        0 + ((List.range a.arrayCount).map fun j => ((view a.arrays j).length : Int)).sum) := by
    rw [hdim.1, hdim.2]; exact this
  unfold loadBytes
  rw [key]
  refine ⟨_, rfl, hdim.1, hdim.2, ?_, ?_, ?_⟩
  · intro i hi
    simp [getArray_eq, view, hi]
  · intro i hi
    simp [getArray, Nat.not_lt.mpr hi]
  · simp [getArray_eq]

example :
    let a := appendToArray (appendToArray (appendToArray (new 3 2) 2 300) 0 7) 2 65535
    saveBytes a = [1, 7, 0, 0, 2, 44, 1, 255, 255] ∧
      (loadBytes (new 3 2) (saveBytes a)).map (fun c => (List.range 3).map (getArray c)) =
        some [[7], [], [300, 65535]] ∧
      ∀ i < 3, ∀ v ∈ getArray a i, fits 2 v := by decide

end Verif.IAA
