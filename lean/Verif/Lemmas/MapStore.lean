import Verif.Model.MapStore
import Verif.Props.NumberedFolders
import Verif.Props.IntArrayArray

/-!
# Helper lemmas for the array map stores
-/

namespace Verif.MapStore

open Verif.IAA (IAA)
open Verif.WordFile (fits)

/-- Specification: the elements appended to array `k`, in order. -/
def elems (log : List (Nat × Int)) (k : Nat) : List Int := (log.filter (fun e => e.1 = k)).map (·.2)

/-- Specification: something has been appended to an array living in the same file as array `k`. -/
def fileUsed (N : Nat) (log : List (Nat × Int)) (k : Nat) : Prop := ∃ e ∈ log, e.1 / N = k / N

instance (N : Nat) (log : List (Nat × Int)) (k : Nat) : Decidable (fileUsed N log k) := by
  unfold fileUsed; infer_instance

theorem elems_append (log : List (Nat × Int)) (k j : Nat) (v : Int) :
    elems (log ++ [(k, v)]) j = if j = k then elems log j ++ [v] else elems log j := by
  unfold elems
  by_cases h : j = k
  · subst h; simp
  · simp [h, Ne.symm h]

theorem elems_length_le (log : List (Nat × Int)) (k : Nat) : (elems log k).length ≤ log.length := by
  simp [elems, List.length_filter_le]

theorem elems_mem {log : List (Nat × Int)} {k : Nat} {v : Int} (h : v ∈ elems log k) : (k, v) ∈ log := by
  simp only [elems, List.mem_map, List.mem_filter] at h
  obtain ⟨e, ⟨he, hk⟩, rfl⟩ := h
  simp at hk
  subst hk; exact he

theorem elems_unused {N : Nat} {log : List (Nat × Int)} {k j : Nat} (h : ¬ fileUsed N log k)
    (hj : j / N = k / N) : elems log j = [] := by
  cases he : elems log j with
  | nil => rfl
  | cons v l =>
    have := elems_mem (v := v) (log := log) (k := j) (by rw [he]; simp)
    exact absurd ⟨_, this, hj⟩ h

theorem fileUsed_append {N : Nat} {log : List (Nat × Int)} {k j : Nat} {v : Int} :
    fileUsed N (log ++ [(k, v)]) j ↔ fileUsed N log j ∨ k / N = j / N := by
  unfold fileUsed
  constructor
  · rintro ⟨e, he, h⟩
    rcases List.mem_append.mp he with he | he
    · exact Or.inl ⟨e, he, h⟩
    · simp at he; subst he; exact Or.inr h
  · rintro (⟨e, he, h⟩ | h)
    · exact ⟨e, by simp [he], h⟩
    · exact ⟨(k, v), by simp, h⟩

theorem fileUsed_congr {N : Nat} {log : List (Nat × Int)} {k j : Nat} (h : k / N = j / N) :
    fileUsed N log k ↔ fileUsed N log j := by unfold fileUsed; rw [h]

/-! ### Paths -/

theorem perFile_pos (c : Cfg) : 0 < c.perFile := by
  unfold Cfg.perFile; exact Nat.pos_of_ne_zero (by simp)

theorem tail_no_sep (c : Cfg) (k : Nat) :
    ∀ x ∈ (NumberedFolders.filename c.digitsPerFile c.digitsPerFolder k ++ ".iaa".toList).reverse, x ≠ '/' := by
  intro x hx
  simp only [List.mem_reverse, List.mem_append] at hx
  rcases hx with hx | hx
  · exact (NumberedFolders.filename_chars _ _ _ x hx).1
  · intro e; subst e; revert hx; decide

theorem dropWhile_sep {l r : List Char} (h : ∀ x ∈ l, x ≠ '/') :
    (l ++ '/' :: r).dropWhile (· ≠ '/') = '/' :: r ∧ (l ++ '/' :: r).takeWhile (· ≠ '/') = l := by
  induction l with
  | nil => simp
  | cons x l ih =>
    have hx := h x (by simp)
    have := ih (fun y hy => h y (by simp [hy]))
    simp [hx] at this ⊢
    exact this

theorem parent_filePath (c : Cfg) (k : Nat) : parent (c.filePath k) = c.folderPath k := by
  unfold parent Cfg.filePath
  rw [List.reverse_append, List.reverse_cons, List.append_assoc]
  simp only [List.cons_append, List.nil_append]
  rw [(dropWhile_sep (tail_no_sep c k)).1]
  simp

theorem filePath_ne_nil (c : Cfg) (k : Nat) : c.filePath k ≠ [] := by
  unfold Cfg.filePath; simp

theorem filePath_iff {c : Cfg} (hf : 0 < c.digitsPerFolder) (a b : Nat) :
    c.filePath a = c.filePath b ↔ a / c.perFile = b / c.perFile := by
  constructor
  · intro h
    have e : ∀ k, (c.filePath k).reverse.takeWhile (· ≠ '/') =
        (NumberedFolders.filename c.digitsPerFile c.digitsPerFolder k ++ ".iaa".toList).reverse := by
      intro k
      unfold Cfg.filePath
      rw [List.reverse_append, List.reverse_cons, List.append_assoc]
      simp only [List.cons_append, List.nil_append]
      rw [(dropWhile_sep (tail_no_sep c k)).2]
    have h1 := e a
    rw [h, e b] at h1
    have h2 := List.append_cancel_right (List.reverse_inj.mp h1)
    exact ((NumberedFolders.same_file_iff hf _ _ _).2.mp h2).symm
  · intro h
    have := NumberedFolders.same_of_div (f := c.digitsPerFolder) h
    unfold Cfg.filePath Cfg.folderPath
    rw [this.1, this.2]

theorem folderPath_congr {c : Cfg} {a b : Nat} (h : a / c.perFile = b / c.perFile) :
    c.folderPath a = c.folderPath b := by
  have := NumberedFolders.same_of_div (f := c.digitsPerFolder) h
  unfold Cfg.folderPath
  rw [this.1]

theorem folderPath_first {c : Cfg} (hd : 0 < c.digitsPerFile) {k : Nat} (h : k / c.perFile = 0) :
    c.folderPath k = c.root := by
  have : NumberedFolders.folders c.digitsPerFile c.digitsPerFolder k = [] := by
    unfold Cfg.perFile at h
    unfold NumberedFolders.folders NumberedFolders.bigits
    have h0 : c.digitsPerFile ≠ 0 := by omega
    simp only [h0, if_false, hd, if_true, h]
    have hb : NumberedFolders.bigitsLoop c.digitsPerFolder 0 = [] := by
      unfold NumberedFolders.bigitsLoop; simp
    rw [hb]
    rfl
  simp [Cfg.folderPath, this]

/-! ### Holding the right contents -/

/-- The array-of-arrays `a` holds what the log says about the file of array `k`. -/
structure Holds (c : Cfg) (a : IAA) (log : List (Nat × Int)) (k : Nat) : Prop where
  count : a.arrayCount = c.perFile
  width : a.elementByteSize = c.elementByteSize
  data : ∀ j, j / c.perFile = k / c.perFile → IAA.getArray a (j % c.perFile) = elems log j

/-- Log values fit and the log is not astronomically long. -/
structure LogOK (c : Cfg) (log : List (Nat × Int)) : Prop where
  width : c.elementByteSize ≤ 8
  fit : ∀ e ∈ log, fits c.elementByteSize e.2
  len : log.length < 2 ^ 63

theorem getArray_append (a : IAA) (i j : Nat) (v : Int) :
    IAA.getArray (IAA.appendToArray a i v) j =
      if j = i then IAA.getArray a i ++ [v] else IAA.getArray a j := by
  unfold IAA.getArray IAA.appendToArray IAA.setKey
  by_cases h : j = i
  · subst h
    cases h' : a.arrays j <;> simp [h']
  · cases h' : a.arrays i <;> simp [h]

theorem same_file_index {N j k : Nat} (_hN : 0 < N) (h : j / N = k / N) : j % N = k % N ↔ j = k := by
  constructor
  · intro e
    have h1 := Nat.div_add_mod j N
    have h2 := Nat.div_add_mod k N
    rw [h, e] at h1; omega
  · rintro rfl; rfl

theorem Holds.append_same {c : Cfg} {a : IAA} {log : List (Nat × Int)} {k : Nat} (h : Holds c a log k)
    (v : Int) : Holds c (IAA.appendToArray a (k % c.perFile) v) (log ++ [(k, v)]) k := by
  refine ⟨h.count, h.width, ?_⟩
  intro j hj
  rw [getArray_append, elems_append, ← h.data j hj]
  have := same_file_index (perFile_pos c) hj
  by_cases e : j = k
  · subst e; simp
  · rw [if_neg (fun x => e (this.mp x)), if_neg e]

theorem Holds.append_other {c : Cfg} {a : IAA} {log : List (Nat × Int)} {k k' : Nat} (h : Holds c a log k')
    (hk : k / c.perFile ≠ k' / c.perFile) (v : Int) : Holds c a (log ++ [(k, v)]) k' := by
  refine ⟨h.count, h.width, ?_⟩
  intro j hj
  rw [elems_append, h.data j hj, if_neg]
  rintro rfl; exact hk hj

theorem Holds.congr {c : Cfg} {a : IAA} {log : List (Nat × Int)} {k k' : Nat} (h : Holds c a log k')
    (hk : k / c.perFile = k' / c.perFile) : Holds c a log k :=
  ⟨h.count, h.width, fun j hj => h.data j (hj.trans hk)⟩

theorem index_of {N : Nat} (hN : 0 < N) (k i : Nat) (hi : i < N) :
    (k / N * N + i) / N = k / N ∧ (k / N * N + i) % N = i := by
  constructor
  · rw [Nat.mul_comm, Nat.mul_add_div hN, Nat.div_eq_of_lt hi]; simp
  · rw [Nat.mul_comm, Nat.mul_add_mod]; exact Nat.mod_eq_of_lt hi

theorem Holds.save_load {c : Cfg} {a b : IAA} {log : List (Nat × Int)} {k : Nat} (h : Holds c a log k)
    (hl : LogOK c log) (hb : b.arrayCount = c.perFile ∧ b.elementByteSize = c.elementByteSize) :
    ∃ x, IAA.loadBytes b (IAA.saveBytes a) = some x ∧ Holds c x log k := by
  obtain ⟨x, h1, h2, h3, h4, _⟩ := IAA.save_load_roundtrip a b (by rw [h.width]; exact hl.width)
    (by rw [h.count, h.width]; exact hb) (by
      intro i hi
      rw [h.count] at hi
      obtain ⟨e1, e2⟩ := index_of (perFile_pos c) k i hi
      have := h.data _ e1
      rw [e2] at this
      rw [this, h.width]
      refine ⟨fun v hv => hl.fit _ (elems_mem hv), ?_⟩
      have := elems_length_le log (k / c.perFile * c.perFile + i)
      have := hl.len
      omega)
  refine ⟨x, h1, h2.trans h.count, h3.trans h.width, ?_⟩
  intro j hj
  rw [h4 _ (by rw [h.count]; exact Nat.mod_lt _ (perFile_pos c))]
  exact h.data j hj

theorem holds_missing {c : Cfg} {a : IAA} {log : List (Nat × Int)} {k : Nat}
    (ha : a.arrayCount = c.perFile ∧ a.elementByteSize = c.elementByteSize)
    (hu : ¬ fileUsed c.perFile log k) : Holds c (IAA.loadMissing a) log k :=
  ⟨ha.1, ha.2, fun j hj => by rw [elems_unused hu hj]; rfl⟩

/-- What is on disk for the file of array `k` is right. -/
def FileOK (c : Cfg) (fs : FS) (log : List (Nat × Int)) (k : Nat) : Prop :=
  if fileUsed c.perFile log k then
    ∃ a, fs.files (c.filePath k) = some (IAA.saveBytes a) ∧ Holds c a log k
  else fs.files (c.filePath k) = none

theorem FileOK.load {c : Cfg} {fs : FS} {log : List (Nat × Int)} {k : Nat} (h : FileOK c fs log k)
    (hl : LogOK c log) {b : IAA} (hb : b.arrayCount = c.perFile ∧ b.elementByteSize = c.elementByteSize) :
    ∃ x e, loadFile fs b (c.filePath k) = some (x, e) ∧ Holds c x log k ∧
      e = !decide (fileUsed c.perFile log k) := by
  unfold FileOK at h
  by_cases hu : fileUsed c.perFile log k
  · rw [if_pos hu] at h
    obtain ⟨a, h1, h2⟩ := h
    obtain ⟨x, h3, h4⟩ := h2.save_load hl hb
    exact ⟨x, false, by simp [loadFile, h1, h3], h4, by simp [hu]⟩
  · rw [if_neg hu] at h
    exact ⟨_, true, by simp [loadFile, h], holds_missing hb hu, by simp [hu]⟩

theorem FileOK.append_other {c : Cfg} {fs : FS} {log : List (Nat × Int)} {k k' : Nat}
    (h : FileOK c fs log k') (hk : k / c.perFile ≠ k' / c.perFile) (v : Int) :
    FileOK c fs (log ++ [(k, v)]) k' := by
  unfold FileOK at *
  have : fileUsed c.perFile (log ++ [(k, v)]) k' ↔ fileUsed c.perFile log k' := by
    rw [fileUsed_append]; simp [hk]
  by_cases hu : fileUsed c.perFile log k'
  · rw [if_pos hu] at h
    rw [if_pos (this.mpr hu)]
    obtain ⟨a, h1, h2⟩ := h
    exact ⟨a, h1, h2.append_other hk v⟩
  · rw [if_neg hu] at h
    rw [if_neg (fun x => hu (this.mp x))]
    exact h

theorem writeFile_ok {c : Cfg} {fs : FS} {k : Nat} (hd : fs.dirs (c.folderPath k) = true) (b : Bytes) :
    fs.writeFile (c.filePath k) b =
      some { fs with files := fun q => if q = c.filePath k then some b else fs.files q } := by
  unfold FS.writeFile
  rw [parent_filePath, if_pos hd]

/-- Saving an array-of-arrays that holds the right contents makes the file right and disturbs no other. -/
theorem FileOK.write {c : Cfg} (hf : 0 < c.digitsPerFolder) {fs : FS} {log : List (Nat × Int)} {k : Nat}
    {a : IAA} (ha : Holds c a log k) (hu : fileUsed c.perFile log k) (k' : Nat)
    (h : k' / c.perFile ≠ k / c.perFile → FileOK c fs log k') :
    FileOK c { fs with files := fun q => if q = c.filePath k then some (IAA.saveBytes a) else fs.files q }
      log k' := by
  by_cases e : k' / c.perFile = k / c.perFile
  · unfold FileOK
    rw [if_pos ((fileUsed_congr e).mpr hu)]
    refine ⟨a, ?_, ha.congr e⟩
    simp [(filePath_iff hf k' k).mpr e]
  · have := h e
    unfold FileOK at *
    have hne : c.filePath k' ≠ c.filePath k := fun x => e ((filePath_iff hf _ _).mp x)
    simpa [hne] using this

end Verif.MapStore
