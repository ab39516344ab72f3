import Verif.Model.TornFile
import Verif.Props.KilledSave
import Verif.Props.Killed

/-!
# C113: an array file cut short is not taken for a whole one
-/

namespace Verif.TornFile

open Verif.IAA (IAA saveOne saveBytes getArray loadElems setKey)
open Verif.WordFile (fits)
open Verif.MapStore (Path FS Cfg Op Out elems fileUsed Holds LogOK FileOK demo)

theorem slack_pos (len : Nat) : 0 < capacity len - len := by unfold capacity; omega

/-! ### Whole files -/

theorem fromBytes_more {b : Bytes} {r : Int × Nat} (h : VarInt.fromBytes b = some r) (z : Bytes) :
    VarInt.fromBytes (b ++ z) = some r ∧ r.2 ≤ b.length := by
  cases b with
  | nil => simp [VarInt.fromBytes] at h
  | cons x rest =>
    simp only [VarInt.fromBytes, List.cons_append] at h ⊢
    by_cases h1 : x < 0xFD
    · rw [if_pos h1] at h ⊢
      simp only [Option.some.injEq] at h; subst h; simp
    · rw [if_neg h1] at h ⊢
      by_cases h2 : x = 0xFD
      · rw [if_pos h2] at h ⊢
        by_cases h3 : rest.length < 2
        · rw [if_pos h3] at h; simp at h
        · rw [if_neg h3] at h
          rw [if_neg (by simp; omega), List.take_append_of_le_length (by omega)]
          simp only [Option.some.injEq] at h; subst h
          simp; omega
      · rw [if_neg h2] at h ⊢
        by_cases h4 : x = 0xFE
        · rw [if_pos h4] at h ⊢
          by_cases h3 : rest.length < 4
          · rw [if_pos h3] at h; simp at h
          · rw [if_neg h3] at h
            rw [if_neg (by simp; omega), List.take_append_of_le_length (by omega)]
            simp only [Option.some.injEq] at h; subst h
            simp; omega
        · rw [if_neg h4] at h ⊢
          by_cases h3 : rest.length < 8
          · rw [if_pos h3] at h; simp at h
          · rw [if_neg h3] at h
            rw [if_neg (by simp; omega), List.take_append_of_le_length (by omega)]
            simp only [Option.some.injEq] at h; subst h
            simp; omega

theorem loadElems_more {w n : Nat} : ∀ {b : Bytes} {arr : List Int} {rest : Bytes},
    loadElems w n b = some (arr, rest) → ∀ z, loadElems w n (b ++ z) = some (arr, rest ++ z) := by
  induction n with
  | zero => intro b arr rest h z; simp [loadElems] at h ⊢; exact ⟨h.1, by rw [h.2]⟩
  | succ n ih =>
    intro b arr rest h z
    simp only [loadElems] at h ⊢
    by_cases hw : b.length < w
    · rw [if_pos hw] at h; simp at h
    · rw [if_neg hw] at h
      rw [if_neg (by simp; omega), List.drop_append_of_le_length (by omega),
        List.take_append_of_le_length (by omega)]
      cases e : loadElems w n (b.drop w) with
      | none => rw [e] at h; simp at h
      | some r =>
        obtain ⟨vs, r'⟩ := r
        rw [e] at h
        simp only [Option.some.injEq, Prod.mk.injEq] at h
        rw [ih e z]
        simp [h.1, h.2]

theorem loadElems_length {w n : Nat} : ∀ {b : Bytes} {arr : List Int} {rest : Bytes},
    loadElems w n b = some (arr, rest) → rest.length + n * w = b.length := by
  induction n with
  | zero => intro b arr rest h; simp [loadElems] at h; simp [h.2]
  | succ n ih =>
    intro b arr rest h
    simp only [loadElems] at h
    by_cases hw : b.length < w
    · rw [if_pos hw] at h; simp at h
    · rw [if_neg hw] at h
      cases e : loadElems w n (b.drop w) with
      | none => rw [e] at h; simp at h
      | some r =>
        obtain ⟨vs, r'⟩ := r
        rw [e] at h
        simp only [Option.some.injEq, Prod.mk.injEq] at h
        have := ih e
        rw [← h.2, Nat.succ_mul]
        simp only [List.length_drop] at this
        omega

theorem loadArrays_whole {w n : Nat} (z : Bytes) : ∀ {i : Nat} {b : Bytes} {m : Nat → Option (List Int)} {t : Int}
    {r : (Nat → Option (List Int)) × Int}, IAA.loadArrays w n i b m t = some r →
    loadArrays w z.length n i (b ++ z) m t = some r := by
  induction n with
  | zero => intro i b m t r h; exact h
  | succ n ih =>
    intro i b m t r h
    simp only [IAA.loadArrays] at h
    simp only [loadArrays]
    cases e : VarInt.fromBytes b with
    | none => rw [e] at h; simp at h
    | some r1 =>
      obtain ⟨size, used⟩ := r1
      rw [e] at h
      dsimp only at h
      obtain ⟨g1, g2⟩ := fromBytes_more e z
      have hne : b ≠ [] := by rintro rfl; simp [VarInt.fromBytes] at e
      have hpos := List.length_pos_iff.mpr hne
      rw [if_neg (by simp; omega), g1]
      dsimp only at g2 ⊢
      by_cases hs : size < 0
      · rw [if_pos hs] at h; simp at h
      · rw [if_neg hs] at h ⊢
        rw [List.drop_append_of_le_length g2]
        cases e2 : loadElems w size.toNat (b.drop used) with
        | none => rw [e2] at h; simp at h
        | some r2 =>
          obtain ⟨arr, rest⟩ := r2
          rw [e2] at h
          rw [loadElems_more e2 z]
          exact ih h

/-- **C113, the model.** A file that loads within its length loads the same way with the room beyond it: on
the files the store writes in full, the two models of `LoadFile` agree. -/
theorem whole_files_load_the_same (a x : IAA) (b : Bytes) (h : IAA.loadBytes a b = some x) :
    loadBytes a b = some x := by
  unfold IAA.loadBytes at h
  unfold loadBytes
  dsimp only
  cases e : IAA.loadArrays a.elementByteSize a.arrayCount 0 b (fun _ => none) 0 with
  | none => rw [e] at h; simp at h
  | some r =>
    rw [e] at h
    have := loadArrays_whole (List.replicate (capacity b.length - b.length) 0) e
    rw [List.length_replicate] at this
    rw [this]
    exact h

/-! ### Files cut short -/

/-- How many bytes a length takes depends on its first byte only. -/
theorem used_of_head {x : UInt8} {r r' : Bytes} {s s' : Int} {u u' : Nat}
    (h : VarInt.fromBytes (x :: r) = some (s, u)) (h' : VarInt.fromBytes (x :: r') = some (s', u')) : u = u' := by
  simp only [VarInt.fromBytes] at h h'
  by_cases h1 : x < 0xFD
  · rw [if_pos h1] at h h'; simp at h h'; omega
  · rw [if_neg h1] at h h'
    by_cases h2 : x = 0xFD
    · rw [if_pos h2] at h h'
      split at h <;> split at h' <;> simp at h h'; omega
    · rw [if_neg h2] at h h'
      by_cases h3 : x = 0xFE
      · rw [if_pos h3] at h h'
        split at h <;> split at h' <;> simp at h h'; omega
      · rw [if_neg h3] at h h'
        split at h <;> split at h' <;> simp at h h'; omega

theorem toBytes_length_pos (v : Int) : 0 < (VarInt.toBytes v).length := by
  rw [VarInt.varint_length]; split <;> (try split) <;> (try split) <;> omega

theorem elemBytes_length {w : Nat} (hw : w ≤ 8) (arr : List Int) :
    ((arr.map fun v => (leEnc 8 (toU64 v)).take w).flatten).length = arr.length * w := by
  induction arr with
  | nil => simp
  | cons v vs ih =>
    simp only [List.map_cons, List.flatten_cons, List.length_append, ih, List.length_cons, Nat.succ_mul]
    simp only [List.length_take, leEnc_length]
    omega

theorem saveOne_length {w : Nat} (hw : w ≤ 8) (arr : List Int) :
    (saveOne w arr).length = (VarInt.toBytes arr.length).length + arr.length * w := by
  unfold saveOne
  rw [List.length_append, elemBytes_length hw]

theorem saveOne_pos (w : Nat) (arr : List Int) : 0 < (saveOne w arr).length := by
  unfold saveOne
  rw [List.length_append]
  have := toBytes_length_pos arr.length
  omega

/-- Reading an array that is cut short, if it can be done, uses up everything before the length. -/
theorem cut_array {w : Nat} (hw : w ≤ 8) {arr : List Int} (hlen : arr.length < 2 ^ 63) {p slack : Nat}
    (hp : p < (saveOne w arr).length) (hp0 : 0 < p) {size : Int} {used : Nat} {l : List Int} {rest : Bytes}
    (h1 : VarInt.fromBytes ((saveOne w arr).take p ++ List.replicate slack 0) = some (size, used))
    (h2 : loadElems w size.toNat (((saveOne w arr).take p ++ List.replicate slack 0).drop used) =
      some (l, rest)) : rest.length ≤ slack := by
  have hl := loadElems_length h2
  have hfull := VarInt.toBytes_fromBytes (v := arr.length) (by omega) (by omega)
    ((arr.map fun v => (leEnc 8 (toU64 v)).take w).flatten)
  rw [show VarInt.toBytes (arr.length : Int) ++ (arr.map fun v => (leEnc 8 (toU64 v)).take w).flatten =
    saveOne w arr from rfl] at hfull
  have hsl := saveOne_length hw arr
  have hu : used = (VarInt.toBytes (arr.length : Int)).length := by
    cases e : saveOne w arr with
    | nil => rw [e] at hp; simp at hp
    | cons x r =>
      rw [e] at hfull h1
      obtain ⟨q, rfl⟩ : ∃ q, p = q + 1 := ⟨p - 1, by omega⟩
      rw [List.take_succ_cons, List.cons_append] at h1
      exact used_of_head h1 hfull
  simp only [List.length_drop, List.length_append, List.length_take, List.length_replicate,
    Nat.min_eq_left (Nat.le_of_lt hp)] at hl
  by_cases hc : p < (VarInt.toBytes (arr.length : Int)).length
  · omega
  · -- the length is whole
    have hsz : size = arr.length := by
      have : (saveOne w arr).take p = VarInt.toBytes (arr.length : Int) ++
          ((arr.map fun v => (leEnc 8 (toU64 v)).take w).flatten).take
            (p - (VarInt.toBytes (arr.length : Int)).length) := by
        unfold saveOne
        rw [List.take_append, List.take_of_length_le (by omega)]
      rw [this, List.append_assoc, VarInt.toBytes_fromBytes (by omega) (by omega)] at h1
      simp only [Option.some.injEq, Prod.mk.injEq] at h1
      exact h1.1.symm
    subst hsz
    rw [Int.toNat_natCast] at hl
    omega

/-- The bytes of arrays `i, .., i+n-1`. -/
def arraysBytes (w : Nat) (f : Nat → List Int) (i n : Nat) : Bytes :=
  ((List.range' i n).map fun j => saveOne w (f j)).flatten

theorem arraysBytes_succ (w : Nat) (f : Nat → List Int) (i n : Nat) :
    arraysBytes w f i (n + 1) = saveOne w (f i) ++ arraysBytes w f (i + 1) n := by
  simp [arraysBytes, List.range'_succ]

theorem loadArrays_one {w : Nat} (hw : w ≤ 8) {arr : List Int} (hf : ∀ v ∈ arr, fits w v)
    (hlen : arr.length < 2 ^ 63) {slack : Nat} {rest : Bytes} (hr : slack < (saveOne w arr).length + rest.length)
    (n i : Nat) (m : Nat → Option (List Int)) (t : Int) :
    loadArrays w slack (n + 1) i (saveOne w arr ++ rest) m t =
      loadArrays w slack n (i + 1) rest (setKey m i arr) (t + arr.length) := by
  simp only [loadArrays]
  rw [if_neg (by rw [List.length_append]; omega)]
  rw [show saveOne w arr = VarInt.toBytes arr.length ++
      (arr.map fun v => (leEnc 8 (toU64 v)).take w).flatten from rfl, List.append_assoc]
  rw [VarInt.toBytes_fromBytes (by omega) (by omega)]
  dsimp only
  rw [if_neg (by omega), List.drop_left, Int.toNat_natCast, IAA.loadElems_save hw arr hf]

theorem loadArrays_cut {w : Nat} (hw : w ≤ 8) (slack : Nat) (f : Nat → List Int) (n : Nat) :
    ∀ (i p : Nat) (m : Nat → Option (List Int)) (t : Int),
      (∀ j, i ≤ j → j < i + n → (∀ v ∈ f j, fits w v) ∧ (f j).length < 2 ^ 63) →
      p < (arraysBytes w f i n).length →
      loadArrays w slack n i ((arraysBytes w f i n).take p ++ List.replicate slack 0) m t = none ∨
        ((arraysBytes w f i n).length < p + (saveOne w (f (i + n - 1))).length ∧
          ∃ r t', loadArrays w slack n i ((arraysBytes w f i n).take p ++ List.replicate slack 0) m t =
            some (r, t') ∧ (∀ j, i ≤ j → j + 1 < i + n → r j = some (f j)) ∧ ∀ j, j < i → r j = m j) := by
  induction n with
  | zero => intro i p m t _ hp; simp [arraysBytes] at hp
  | succ n ih =>
    intro i p m t hf hp
    obtain ⟨hfi, hli⟩ := hf i (by omega) (by omega)
    rw [arraysBytes_succ] at hp ⊢
    by_cases hpe : p < (saveOne w (f i)).length
    · rw [List.take_append_of_le_length (by omega)]
      by_cases hp0 : p = 0
      · subst hp0
        left
        simp [loadArrays]
      · simp only [loadArrays]
        rw [if_neg (by simp; omega)]
        cases e : VarInt.fromBytes ((saveOne w (f i)).take p ++ List.replicate slack 0) with
        | none => left; rfl
        | some r1 =>
          obtain ⟨size, used⟩ := r1
          dsimp only
          by_cases hs : size < 0
          · left; rw [if_pos hs]
          · rw [if_neg hs]
            cases e2 : loadElems w size.toNat
                (((saveOne w (f i)).take p ++ List.replicate slack 0).drop used) with
            | none => left; rfl
            | some r2 =>
              obtain ⟨l, rest⟩ := r2
              have hrest := cut_array hw hli hpe (by omega) e e2
              dsimp only
              cases n with
              | zero =>
                right
                refine ⟨?_, _, _, rfl, ?_, ?_⟩
                · simp [arraysBytes]; omega
                · intro j h1 h2; omega
                · intro j hj; simp [setKey, Nat.ne_of_lt hj]
              | succ n =>
                left
                simp only [loadArrays]
                rw [if_pos hrest]
    · have htake : (saveOne w (f i) ++ arraysBytes w f (i + 1) n).take p =
          saveOne w (f i) ++ (arraysBytes w f (i + 1) n).take (p - (saveOne w (f i)).length) := by
        rw [List.take_append, List.take_of_length_le (by omega)]
      have hpos := saveOne_pos w (f i)
      rw [htake, List.append_assoc, loadArrays_one hw hfi hli (by simp; omega)]
      rw [List.length_append] at hp ⊢
      rcases ih (i + 1) (p - (saveOne w (f i)).length) (setKey m i (f i)) (t + (f i).length)
        (fun j h1 h2 => hf j (by omega) (by omega)) (by omega) with h | ⟨h1, r, t', h2, h3, h4⟩
      · exact Or.inl h
      · right
        rw [show i + 1 + n - 1 = i + (n + 1) - 1 by omega] at h1
        refine ⟨by omega, r, t', h2, ?_, ?_⟩
        · intro j hj1 hj2
          by_cases hji : j = i
          · subst hji
            rw [h4 j (by omega)]; simp [setKey]
          · exact h3 j (by omega) (by omega)
        · intro j hj
          rw [h4 j (by omega)]; simp [setKey, Nat.ne_of_lt hj]

theorem saveBytes_arrays (a : IAA) : saveBytes a = arraysBytes a.elementByteSize (getArray a) 0 a.arrayCount := by
  unfold saveBytes arraysBytes
  rw [List.range_eq_range']
  rfl

/-- **C113 (partial).** An array file of which only a proper part was written, cut at any byte. Loading it
panics, unless the cut falls inside the last array of the file; and if loading does return, every array but
the last is exactly what was saved. Missing: the last array (`a_cut_value_is_taken_as_whole`,
`a_cut_length_is_taken_as_empty`). -/
theorem a_file_cut_short_is_noticed_partial (a b : IAA) (hw : a.elementByteSize ≤ 8)
    (hdim : b.arrayCount = a.arrayCount ∧ b.elementByteSize = a.elementByteSize)
    (hf : ∀ i < a.arrayCount, (∀ v ∈ getArray a i, fits a.elementByteSize v) ∧ (getArray a i).length < 2 ^ 63)
    (p : Nat) (hp : p < (saveBytes a).length) :
    (p + (saveOne a.elementByteSize (getArray a (a.arrayCount - 1))).length ≤ (saveBytes a).length →
      loadBytes b ((saveBytes a).take p) = none) ∧
    ∀ x, loadBytes b ((saveBytes a).take p) = some x → ∀ i, i + 1 < a.arrayCount → getArray x i = getArray a i := by
  have hlen : ((saveBytes a).take p).length = p := by rw [List.length_take]; omega
  rw [saveBytes_arrays] at hp ⊢
  rw [saveBytes_arrays] at hlen
  have key := loadArrays_cut hw (capacity p - p) (getArray a) a.arrayCount 0 p (fun _ => none) 0
    (fun j _ hj => hf j (by omega)) hp
  simp only [Nat.zero_add, Nat.zero_le, true_implies] at key
  unfold loadBytes
  dsimp only
  rw [hlen, hdim.1, hdim.2]
  rcases key with h | ⟨h1, r, t', h2, h3, _⟩
  · rw [h]; simp
  · rw [h2]
    refine ⟨fun h => by omega, ?_⟩
    intro x hx i hi
    simp only [Option.some.injEq] at hx
    subst hx
    simp [IAA.getArray, h3 i (by omega)]

/-! ### The last array -/

theorem loadArrays_many {w : Nat} (hw : w ≤ 8) (slack : Nat) (f : Nat → List Int) (n : Nat) :
    ∀ (i : Nat) (m : Nat → Option (List Int)) (t : Int) (rest : Bytes), slack ≤ rest.length →
      (∀ j, i ≤ j → j < i + n → (∀ v ∈ f j, fits w v) ∧ (f j).length < 2 ^ 63) →
      ∃ r t', (∀ q, loadArrays w slack (n + q) i (arraysBytes w f i n ++ rest) m t =
        loadArrays w slack q (i + n) rest r t') ∧ (∀ j, i ≤ j → j < i + n → r j = some (f j)) ∧
        ∀ j, j < i → r j = m j := by
  induction n with
  | zero =>
    intro i m t rest _ _
    refine ⟨m, t, ?_, fun j h1 h2 => by omega, fun j _ => rfl⟩
    intro q
    simp [arraysBytes]
  | succ n ih =>
    intro i m t rest hr hf
    obtain ⟨hfi, hli⟩ := hf i (by omega) (by omega)
    obtain ⟨r, t', h1, h2, h3⟩ := ih (i + 1) (setKey m i (f i)) (t + (f i).length) rest hr
      (fun j a b => hf j (by omega) (by omega))
    refine ⟨r, t', ?_, ?_, ?_⟩
    · intro q
      have hpos := saveOne_pos w (f i)
      rw [arraysBytes_succ, List.append_assoc, show n + 1 + q = (n + q) + 1 by omega,
        loadArrays_one hw hfi hli (by rw [List.length_append]; omega), h1 q,
        show i + 1 + n = i + (n + 1) by omega]
    · intro j a b
      by_cases hj : j = i
      · subst hj; rw [h3 j (by omega)]; simp [setKey]
      · exact h2 j (by omega) (by omega)
    · intro j hj
      rw [h3 j (by omega)]; simp [setKey, Nat.ne_of_lt hj]

theorem arraysBytes_last (w : Nat) (f : Nat → List Int) (n : Nat) :
    arraysBytes w f 0 (n + 1) = arraysBytes w f 0 n ++ saveOne w (f n) := by
  simp [arraysBytes, List.range'_concat]

/-- A whole file but for its last array, of which `cut` bytes are there. -/
theorem load_last {a b : IAA} {n : Nat} (hn : a.arrayCount = n + 1) (hw : a.elementByteSize ≤ 8)
    (hdim : b.arrayCount = a.arrayCount ∧ b.elementByteSize = a.elementByteSize)
    (hf : ∀ i < a.arrayCount, (∀ v ∈ getArray a i, fits a.elementByteSize v) ∧ (getArray a i).length < 2 ^ 63)
    (cut : Nat) (hcut : cut < (saveOne a.elementByteSize (getArray a n)).length) (slack : Nat)
    (hslack : slack = capacity ((saveBytes a).length -
      ((saveOne a.elementByteSize (getArray a n)).length - cut)) - ((saveBytes a).length -
      ((saveOne a.elementByteSize (getArray a n)).length - cut)))
    (l : List Int)
    (hl : ∀ r t, ∃ t', loadArrays a.elementByteSize slack 1 n
      ((saveOne a.elementByteSize (getArray a n)).take cut ++ List.replicate slack 0) r t =
        some (setKey r n l, t')) :
    ∃ x, loadBytes b ((saveBytes a).take ((saveBytes a).length -
        ((saveOne a.elementByteSize (getArray a n)).length - cut))) = some x ∧
      (∀ i < n, getArray x i = getArray a i) ∧ getArray x n = l := by
  have hsb : saveBytes a = arraysBytes a.elementByteSize (getArray a) 0 n ++
      saveOne a.elementByteSize (getArray a n) := by rw [saveBytes_arrays, hn, arraysBytes_last]
  have hlen : ((saveBytes a).take ((saveBytes a).length -
        ((saveOne a.elementByteSize (getArray a n)).length - cut))).length = (saveBytes a).length -
        ((saveOne a.elementByteSize (getArray a n)).length - cut) := by
    rw [List.length_take]; omega
  have hq : (saveBytes a).length - ((saveOne a.elementByteSize (getArray a n)).length - cut) =
      (arraysBytes a.elementByteSize (getArray a) 0 n).length + cut := by
    rw [hsb, List.length_append]; omega
  have htake : (saveBytes a).take ((saveBytes a).length -
      ((saveOne a.elementByteSize (getArray a n)).length - cut)) =
      arraysBytes a.elementByteSize (getArray a) 0 n ++
        (saveOne a.elementByteSize (getArray a n)).take cut := by
    rw [hq, hsb, List.take_append, List.take_of_length_le (by omega), Nat.add_sub_cancel_left]
  unfold loadBytes
  dsimp only
  rw [hlen, ← hslack, htake, List.append_assoc, hdim.1, hdim.2, hn]
  obtain ⟨r, t', h1, h2, _⟩ := loadArrays_many hw slack (getArray a) n 0 (fun _ => none) 0
    ((saveOne a.elementByteSize (getArray a n)).take cut ++ List.replicate slack 0) (by simp)
    (fun j _ hj => hf j (by omega))
  rw [h1 1]
  obtain ⟨t'', h3⟩ := hl r t'
  rw [Nat.zero_add, h3]
  refine ⟨_, rfl, ?_, ?_⟩
  · intro i hi
    have := h2 i (by omega) (by omega)
    simp [IAA.getArray, setKey, Nat.ne_of_lt hi, this]
  · simp [IAA.getArray, setKey]

theorem leEnc_cut (u N : Nat) : leEnc (u + 1) (N % 256 ^ u) = leEnc u N ++ [0] := by
  have h1 := List.take_append_drop u (leEnc (u + 1) (N % 256 ^ u))
  rw [leEnc_take (by omega), Killed.leEnc_mod, WordFile.leEnc_drop, Nat.add_sub_cancel_left] at h1
  rw [← h1, Nat.div_eq_of_lt (Nat.mod_lt _ (Nat.pos_of_ne_zero (by simp)))]
  rfl

/-- **C113, where it fails (a value).** Let the last array of the file end with the value `v`, and let the
last byte of the file be missing. Loading returns no error and gives every array as it was saved, except that
the last value of the last array has lost its most significant byte. -/
theorem a_cut_value_is_taken_as_whole (a b : IAA) (n u : Nat) (hn : a.arrayCount = n + 1)
    (hu : a.elementByteSize = u + 1) (hw : a.elementByteSize ≤ 8)
    (hdim : b.arrayCount = a.arrayCount ∧ b.elementByteSize = a.elementByteSize)
    (hf : ∀ i < a.arrayCount, (∀ v ∈ getArray a i, fits a.elementByteSize v) ∧ (getArray a i).length < 2 ^ 63)
    (l : List Int) (v : Nat) (hlast : getArray a n = l ++ [(v : Int)]) :
    ∃ x, loadBytes b ((saveBytes a).take ((saveBytes a).length - 1)) = some x ∧
      (∀ i < n, getArray x i = getArray a i) ∧
      getArray x n = l ++ [((v % 256 ^ u : Nat) : Int)] := by
  have hlen := saveOne_length hw (getArray a n)
  have hvl := toBytes_length_pos (getArray a n).length
  have hgl : (getArray a n).length = l.length + 1 := by rw [hlast]; simp
  have hmul : (l.length + 1) * (u + 1) = l.length * (u + 1) + (u + 1) := Nat.succ_mul _ _
  rw [hgl, hu, hmul] at hlen
  rw [hgl] at hvl
  obtain ⟨hfl, hll⟩ := hf n (by omega)
  have hv : (v : Int) < 2 ^ 63 := by
    have := hfl v (by rw [hlast]; simp)
    unfold fits at this
    split at this
    · exact this.2
    · rename_i h8
      have h7 : a.elementByteSize ≤ 7 := by omega
      have h1 : 256 ^ a.elementByteSize ≤ 256 ^ 7 := Nat.pow_le_pow_right (by omega) h7
      have h2 : ((v : Nat) : Int) < ((256 ^ a.elementByteSize : Nat) : Int) := by
        rw [Int.natCast_pow]; exact this.2
      have h3 : v < 256 ^ a.elementByteSize := Int.ofNat_lt.mp h2
      omega
  have hpow : 0 < 256 ^ u := Nat.pos_of_ne_zero (by simp)
  have hmod : v % 256 ^ u ≤ v := Nat.mod_le _ _
  have hone : (saveOne (u + 1) (getArray a n)).length - 1 + 1 = (saveOne (u + 1) (getArray a n)).length := by
    omega
  have hcut : (saveOne (u + 1) (getArray a n)).take ((saveOne (u + 1) (getArray a n)).length - 1) ++ [0] =
      saveOne (u + 1) (l ++ [((v % 256 ^ u : Nat) : Int)]) := by
    have e1 : ∀ x : Nat, (x : Int) < 2 ^ 63 → saveOne (u + 1) (l ++ [(x : Int)]) =
        (VarInt.toBytes ((l.length + 1 : Nat) : Int) ++
          (l.map fun v => (leEnc 8 (toU64 v)).take (u + 1)).flatten) ++ leEnc (u + 1) x := by
      intro x hx
      unfold saveOne
      rw [List.length_append, List.map_append, List.flatten_append]
      simp only [List.map_cons, List.map_nil, List.flatten_cons, List.flatten_nil, List.append_nil,
        List.length_cons, List.length_nil, Nat.zero_add]
      rw [leEnc_take (by omega), toU64_of_nonneg (by omega) hx, Int.toNat_natCast, List.append_assoc]
    rw [hlast, e1 v hv, e1 _ (by omega), leEnc_cut]
    generalize (VarInt.toBytes ((l.length + 1 : Nat) : Int) ++
          (l.map fun v => (leEnc 8 (toU64 v)).take (u + 1)).flatten) = pre
    have e2 : (pre ++ leEnc (u + 1) v).length - 1 = pre.length + u := by simp
    rw [e2, List.take_append, List.take_of_length_le (by omega), Nat.add_sub_cancel_left,
      leEnc_take (by omega), List.append_assoc]
  have hkey := load_last hn hw hdim hf ((saveOne a.elementByteSize (getArray a n)).length - 1)
    (by rw [hu]; omega) _ rfl (l ++ [((v % 256 ^ u : Nat) : Int)]) (by
      intro r t
      generalize hs : capacity _ - _ = slack
      have hs0 : 0 < slack := by rw [← hs]; exact slack_pos _
      obtain ⟨q, rfl⟩ : ∃ q, slack = q + 1 := ⟨slack - 1, by omega⟩
      rw [hu, List.replicate_succ, show (0 : UInt8) :: List.replicate q 0 = [0] ++ List.replicate q 0 from rfl,
        ← List.append_assoc, hcut]
      refine ⟨t + (l ++ [((v % 256 ^ u : Nat) : Int)]).length, ?_⟩
      have hlen2 : (saveOne (u + 1) (l ++ [((v % 256 ^ u : Nat) : Int)])).length =
          (saveOne (u + 1) (getArray a n)).length := by
        rw [← hcut, List.length_append, List.length_take]; simp; omega
      rw [loadArrays_one (by omega) ?_ ?_ ?_]
      · rfl
      · intro y hy
        rcases List.mem_append.mp hy with hy | hy
        · have := hfl y (by rw [hlast]; simp [hy])
          rwa [hu] at this
        · simp only [List.mem_singleton] at hy
          subst hy
          have := hfl v (by rw [hlast]; simp)
          rw [hu] at this
          unfold fits at this ⊢
          split
          · omega
          · rename_i h8
            rw [if_neg h8] at this
            omega
      · rw [hgl] at hll
        simp; omega
      · rw [hlen2, hlen, List.length_replicate]; omega)
  have h1 : (saveOne a.elementByteSize (getArray a n)).length -
      ((saveOne a.elementByteSize (getArray a n)).length - 1) = 1 := by rw [hu]; omega
  rw [h1] at hkey
  exact hkey

/-- **C113, where it fails (a whole array).** Let the last array of the file have `256 * q` values, fewer than
65536, and let the file end before the last byte of the length of that array. Loading returns no error and
gives every array as it was saved, except that the last array is empty. -/
theorem a_cut_length_is_taken_as_empty (a b : IAA) (n q : Nat) (hn : a.arrayCount = n + 1)
    (hw : a.elementByteSize ≤ 8)
    (hdim : b.arrayCount = a.arrayCount ∧ b.elementByteSize = a.elementByteSize)
    (hf : ∀ i < a.arrayCount, (∀ v ∈ getArray a i, fits a.elementByteSize v) ∧ (getArray a i).length < 2 ^ 63)
    (hq : 0 < q ∧ q < 256) (hlast : (getArray a n).length = 256 * q) :
    ∃ x, loadBytes b ((saveBytes a).take ((saveBytes a).length - (256 * q * a.elementByteSize + 1))) = some x ∧
      (∀ i < n, getArray x i = getArray a i) ∧ getArray x n = [] := by
  have hlen := saveOne_length hw (getArray a n)
  have hvl : (VarInt.toBytes ((getArray a n).length : Int)).length = 3 := by
    rw [VarInt.varint_length, hlast, if_neg (by omega), if_pos (by omega)]
  rw [hvl, hlast] at hlen
  have henc : VarInt.toBytes ((getArray a n).length : Int) = [0xFD, 0, UInt8.ofNat q] := by
    rw [hlast]
    unfold VarInt.toBytes
    dsimp only
    rw [if_neg (by omega), if_pos (by omega), toU64_of_nonneg (by omega) (by omega), Int.toNat_natCast,
      leEnc_take (by omega)]
    simp only [leEnc]
    have h1 : 256 * q % 256 = 0 := by omega
    have h2 : 256 * q / 256 % 256 = q := by omega
    rw [h1, h2]
    rfl
  have hkey := load_last hn hw hdim hf 2 (by omega) _ rfl [] (by
    intro r t
    generalize hs : capacity _ - _ = slack
    have hs0 : 0 < slack := by rw [← hs]; exact slack_pos _
    obtain ⟨z, rfl⟩ : ∃ z, slack = z + 1 := ⟨slack - 1, by omega⟩
    have htk : (saveOne a.elementByteSize (getArray a n)).take 2 = [0xFD, 0] := by
      unfold saveOne
      rw [henc]
      simp
    refine ⟨t, ?_⟩
    rw [htk]
    simp only [loadArrays, List.cons_append, List.nil_append, List.length_cons, List.length_replicate]
    rw [if_neg (by omega)]
    have hfb : VarInt.fromBytes (0xFD :: 0 :: List.replicate (z + 1) 0) = some (0, 3) := by
      rw [List.replicate_succ]
      simp only [VarInt.fromBytes]
      rw [if_neg (by decide), if_pos trivial, if_neg (by simp)]
      rfl
    rw [hfb]
    simp [loadElems])
  have h1 : (saveOne a.elementByteSize (getArray a n)).length - 2 = 256 * q * a.elementByteSize + 1 := by
    omega
  rw [h1] at hkey
  exact hkey

/-! ### A killed store -/

open Verif.KilledSave (DiskOp saveOps diskOps crash halfWritten killed saving appended Good Old)
open Verif.CachedMapStore (CMS Entry run step create save filePath2 keyOf filePath2_keyOf keyOf_iff Inv)

theorem crash_torn {c : Cfg} (hf : 0 < c.digitsPerFolder) {hi : List (Nat × Int)} (es : List Entry) :
    ∀ {fs : FS} (n m k : Nat), (∀ e ∈ es, Good c hi e) →
      halfWritten (es.flatMap (saveOps c)) n = some (c.filePath k) →
      ∃ a, fileUsed c.perFile hi k ∧ Holds c a hi k ∧
        (crash fs (es.flatMap (saveOps c)) n m).files (c.filePath k) = some ((saveBytes a).take m) := by
  induction es with
  | nil => intro fs n m k _ h; simp [halfWritten] at h
  | cons e es ih =>
    intro fs n m k hg h
    rw [List.flatMap_cons, KilledSave.halfWritten_append] at h
    rw [List.flatMap_cons, KilledSave.crash_append]
    have hlen : (saveOps c e).length = 3 := rfl
    rw [hlen] at h ⊢
    by_cases hn : n < 3
    · rw [if_pos hn] at h ⊢
      obtain ⟨j, g1, g2, g3, g4⟩ := hg e (by simp)
      match n, hn with
      | 0, _ => simp [halfWritten, saveOps] at h
      | 1, _ => simp [halfWritten, saveOps] at h
      | 2, _ =>
        simp only [halfWritten, saveOps, List.getElem?_cons_succ, List.getElem?_cons_zero,
          Option.some.injEq] at h
        rw [g1, filePath2_keyOf] at h
        have hd := (MapStore.filePath_iff hf j k).mp h
        refine ⟨e.iaa, (MapStore.fileUsed_congr hd).mp g3, g4.congr hd.symm, ?_⟩
        simp only [crash, saveOps, List.take_succ_cons, List.take_zero, List.foldl_cons, List.foldl_nil,
          List.getElem?_cons_succ, List.getElem?_cons_zero, DiskOp.apply]
        rw [g1, g2, filePath2_keyOf, MapStore.writeFile_ok (MapStore.mkdirAll_self _ _)]
        simp only [Option.getD_some]
        rw [MapStore.writeFile_ok (by exact MapStore.mkdirAll_self _ _)]
        simp [h]
    · rw [if_neg hn] at h ⊢
      exact ih _ m k (fun e he => hg e (by simp [he])) h

theorem killed_torn {c : Cfg} (hf : 0 < c.digitsPerFolder) {order : List Entry → List Entry}
    (ho : ∀ l, (order l).Perm l) (fuel : Nat) (ops : List Op) :
    ∀ (s : CMS) (log : List (Nat × Int)), Inv c s log none → LogOK c log →
      (∀ op ∈ ops, op.fits c.elementByteSize) → log.length + ops.length < 2 ^ 63 →
      ∀ s' outs, run c fuel s ops = some (s', outs) → ∀ n m k,
        saving c order fuel s ops n = some (c.filePath k) →
        ∃ L a, log <+: L ∧ L <+: log ++ appended ops ∧ fileUsed c.perFile L k ∧ Holds c a L k ∧
          (killed c order fuel s ops n m).files (c.filePath k) = some ((saveBytes a).take m) := by
  induction ops with
  | nil => intro s log _ _ _ _ s' outs _ n m k h; simp [saving] at h
  | cons op ops ih =>
    intro s log h hl hfit hlen s' outs hr n m k hk
    have hfit' : ∀ op ∈ ops, op.fits c.elementByteSize := fun o ho => hfit o (by simp [ho])
    have happ : log ++ appended (op :: ops) = (log ++ appended [op]) ++ appended ops := by
      have := KilledSave.appended_append [op] ops
      simp only [List.cons_append, List.nil_append] at this
      rw [this, List.append_assoc]
    simp only [List.length_cons] at hlen
    simp only [run] at hr
    cases e1 : step c fuel s op with
    | none => rw [e1] at hr; simp at hr
    | some r =>
      obtain ⟨s1, o⟩ := r
      rw [e1] at hr
      dsimp only at hr
      obtain ⟨g1, g2, g3⟩ := KilledSave.step_saves hf ho h hl e1
      have hl1 : LogOK c (log ++ appended [op]) :=
        KilledSave.logOK_append hl (fun o h => by simp at h; subst h; exact hfit _ (by simp)) (by simp; omega)
      simp only [killed, saving, e1] at hk ⊢
      by_cases hn : n < (diskOps c order fuel s op).length
      · rw [if_pos hn] at hk ⊢
        obtain ⟨a, a1, a2, a3⟩ := crash_torn (fs := s.fs) hf _ n m k g2 hk
        exact ⟨log, a, List.prefix_rfl, List.prefix_append _ _, a1, a2, a3⟩
      · rw [if_neg hn] at hk ⊢
        cases e2 : run c fuel s1 ops with
        | none => rw [e2] at hr; simp at hr
        | some r2 =>
          obtain ⟨s2, os⟩ := r2
          have hle : (appended [op]).length ≤ 1 := KilledSave.appended_length [op]
          obtain ⟨L, a, b1, b2, b3, b4, b5⟩ := ih s1 _ g3 hl1 hfit' (by rw [List.length_append]; omega) s2 os e2
            _ m k hk
          refine ⟨L, a, (List.prefix_append _ _).trans b1, ?_, b3, b4, b5⟩
          rw [happ]; exact b2

/-- **C113, a killed store (partial).** A session of the caching array store syncs, goes on, and the process is
killed at any moment after that, also part way through writing a file. The store is opened again. Reading any
array but the last of its file either panics or returns, in order, everything appended to it before the sync
and possibly more of what was appended after it, and never anything else. Missing: the last array of the file
being written. -/
theorem a_killed_store_shows_no_wrong_array_partial (c : Cfg) (hf : 0 < c.digitsPerFolder)
    (hw : c.elementByteSize ≤ 8) (otherDirs : Path → Bool) (limit : Int) (fuel : Nat)
    (order : List Entry → List Entry) (ho : ∀ l, (order l).Perm l) (before after : List Op)
    (hfit : ∀ op ∈ before ++ after, op.fits c.elementByteSize) (hlen : (before ++ after).length + 1 < 2 ^ 63)
    (s1 s2 : CMS) (outs1 outs2 : List Out)
    (hr1 : run c fuel (create c otherDirs limit) (before ++ [.flush]) = some (s1, outs1))
    (hr2 : run c fuel s1 after = some (s2, outs2)) (n m : Nat) (k : Nat)
    (hk : k % c.perFile + 1 < c.perFile) :
    readBack c (killed c order fuel s1 after n m) k = none ∨
    ∃ l e, readBack c (killed c order fuel s1 after n m) k = some (l, e) ∧
      elems (appended before) k <+: l ∧ l <+: elems (appended (before ++ after)) k ∧
      (e = true → ¬ fileUsed c.perFile (appended before) k) := by
  by_cases hs : saving c order fuel s1 after n = some (c.filePath k)
  · have hl0 : LogOK c [] := ⟨hw, by simp, by simp⟩
    have hb : ∀ op ∈ before ++ [.flush], op.fits c.elementByteSize := by
      intro op h
      rcases List.mem_append.mp h with h | h
      · exact hfit op (by simp [h])
      · simp at h; subst h; trivial
    have ha : ∀ op ∈ after, op.fits c.elementByteSize := fun op h => hfit op (by simp [h])
    simp only [List.length_append] at hlen
    have hi1 := (CachedMapStore.run_inv hf fuel _ _ [] (CachedMapStore.inv_create c otherDirs limit) hl0 hb
      (by simp; omega) s1 outs1 hr1).2
    rw [KilledSave.specRun_log, List.nil_append, KilledSave.appended_append] at hi1
    simp only [appended, List.append_nil] at hi1
    have hl1 : LogOK c (appended before) := by
      have := KilledSave.logOK_append hl0 (ops := before) (fun op h => hfit op (by simp [h])) (by simp; omega)
      simpa using this
    have hlb := KilledSave.appended_length before
    obtain ⟨L, a, h1, h2, h3, h4, h5⟩ := killed_torn hf ho fuel after s1 _ hi1 hl1 ha (by omega) s2 outs2 hr2
      n m k hs
    have hl2 := KilledSave.logOK_append hl1 ha (by omega)
    have hlL : LogOK c L := ⟨hw, fun e he => hl2.fit e (h2.subset he), by
      have := h2.length_le
      have := hl2.len
      omega⟩
    rw [← KilledSave.appended_append] at h2
    have hfa : ∀ i < a.arrayCount, (∀ v ∈ getArray a i, fits a.elementByteSize v) ∧
        (getArray a i).length < 2 ^ 63 := by
      intro i hi
      rw [h4.count] at hi
      obtain ⟨e1, e2⟩ := MapStore.index_of (MapStore.perFile_pos c) k i hi
      have := h4.data _ e1
      rw [e2] at this
      rw [this, h4.width]
      refine ⟨fun v hv => hlL.fit _ (MapStore.elems_mem hv), ?_⟩
      have := MapStore.elems_length_le L (k / c.perFile * c.perFile + i)
      have := hlL.len
      omega
    have hdim : (IAA.new c.perFile c.elementByteSize).arrayCount = a.arrayCount ∧
        (IAA.new c.perFile c.elementByteSize).elementByteSize = a.elementByteSize := by
      rw [h4.count, h4.width]; exact ⟨rfl, rfl⟩
    unfold readBack
    rw [h5]
    dsimp only
    cases e : loadBytes (IAA.new c.perFile c.elementByteSize) ((saveBytes a).take m) with
    | none => left; rfl
    | some x =>
      right
      refine ⟨_, _, rfl, ?_, ?_, by simp⟩
      all_goals
        have hx : getArray x (k % c.perFile) = elems L k := by
          by_cases hm : m < (saveBytes a).length
          · rw [(a_file_cut_short_is_noticed_partial a _ (by rw [h4.width]; exact hw) hdim hfa m hm).2 x e _
              (by rw [h4.count]; exact hk)]
            exact h4.data k rfl
          · rw [List.take_of_length_le (by omega)] at e
            obtain ⟨y, y1, _, _, y2, _⟩ := IAA.save_load_roundtrip a (IAA.new c.perFile c.elementByteSize)
              (by rw [h4.width]; exact hw) hdim hfa
            rw [whole_files_load_the_same _ _ _ y1] at e
            simp only [Option.some.injEq] at e
            subst e
            rw [y2 _ (by rw [h4.count]; omega)]
            exact h4.data k rfl
        rw [hx]
      · exact KilledSave.elems_prefix h1 k
      · exact KilledSave.elems_prefix h2 k
  · obtain ⟨s', l, e, h1, h2, h3, h4⟩ := KilledSave.a_kill_while_saving_partial c hf hw otherDirs limit 0 fuel order
      ho before after hfit hlen s1 s2 outs1 outs2 hr1 hr2 n m k hs
    right
    refine ⟨l, e, ?_, h2, h3, h4⟩
    unfold CachedMapStore.getArray at h1
    dsimp only [CachedMapStore.flush, KilledSave.reopen, List.foldl_nil] at h1
    unfold readBack
    unfold MapStore.loadFile at h1
    cases e1 : (killed c order fuel s1 after n m).files (c.filePath k) with
    | none =>
      rw [e1] at h1
      simp only [Option.some.injEq, Prod.mk.injEq] at h1
      simp [h1.2.1.symm, h1.2.2.symm]
    | some b =>
      rw [e1] at h1
      dsimp only at h1 ⊢
      cases e2 : IAA.loadBytes (IAA.new c.perFile c.elementByteSize) b with
      | none => rw [e2] at h1; simp at h1
      | some x =>
        rw [e2] at h1
        simp only [Option.some.injEq, Prod.mk.injEq] at h1
        rw [whole_files_load_the_same _ _ _ e2]
        simp [h1.2.1, h1.2.2.symm]

/-! ### Concrete files -/

/-- Three arrays of two-byte values. -/
def sample : IAA :=
  IAA.appendToArray (IAA.appendToArray (IAA.appendToArray (IAA.new 3 2) 0 7) 2 9) 2 300

/-- The hypotheses are met: this file has 9 bytes. Cut at 8 bytes, the value 300 at its end reads as 44 and
nothing is reported; cut at 3, inside the first array's last byte, at 2 or at 0, loading panics. -/
example : (∀ i < 3, (∀ v ∈ getArray sample i, fits 2 v) ∧ (getArray sample i).length < 2 ^ 63) ∧
    saveBytes sample = [1, 7, 0, 0, 2, 9, 0, 44, 1] ∧
    (loadBytes (IAA.new 3 2) ((saveBytes sample).take 8)).map (fun x => (List.range 3).map (getArray x)) =
      some [[7], [], [9, 44]] ∧
    (loadBytes (IAA.new 3 2) ((saveBytes sample).take 5)).map (fun x => (List.range 3).map (getArray x)) =
      some [[7], [], [0, 0]] ∧
    (loadBytes (IAA.new 3 2) ((saveBytes sample).take 3)).isNone ∧
    (loadBytes (IAA.new 3 2) ((saveBytes sample).take 2)).isNone ∧
    (loadBytes (IAA.new 3 2) ((saveBytes sample).take 0)).isNone := by decide +kernel

/-- An array of 256 values, the last of its file. -/
example : ∃ a : IAA, a.arrayCount = 1 + 1 ∧ a.elementByteSize = 1 ∧ (getArray a 1).length = 256 * 1 ∧
    (∀ i < 2, (∀ v ∈ getArray a i, fits 1 v) ∧ (getArray a i).length < 2 ^ 63) := by
  have key : ∀ l : List Int, (∀ v ∈ l, fits 1 v) → l.length = 256 * 1 →
      ∃ a : IAA, a.arrayCount = 1 + 1 ∧ a.elementByteSize = 1 ∧ (getArray a 1).length = 256 * 1 ∧
        (∀ i < 2, (∀ v ∈ getArray a i, fits 1 v) ∧ (getArray a i).length < 2 ^ 63) := by
    intro l h1 h2
    refine ⟨⟨1, 2, 256, fun i => if i = 1 then some l else none⟩, rfl, rfl, h2, ?_⟩
    intro i hi
    by_cases h : i = 1
    · subst h
      exact ⟨h1, by show l.length < _; omega⟩
    · simp [getArray, h]
  exact key (List.replicate 256 5) (fun v hv => by rw [List.eq_of_mem_replicate hv]; decide)
    List.length_replicate

end Verif.TornFile
