import Verif.Model.SelfTest3
import Verif.Props.Bulk3

/-!
# What the self-test of the bulk indexer tells
-/

namespace Verif.SelfTest3

open Bins HashStores WordFile HashStore3
open Bulk3 (FirstAt Indexable Storable SortOK Disk IndexTheHashes IsBulk)

/-! ## Specification -/

/-- The hash and the index the store gives for a hash at an index of the file, and what is printed about them. -/
def remarksOn (g h : Bytes) (i j : Nat) : List Remark :=
  (if g = h then [] else [.wrongHash i]) ++ (if j = i then [] else [.wrongIndex i j])

/-- What the store answers: `g` at index `i`, and `j` for the hash `h`, without an error. -/
def Answers (fl : Rat → Rat) (p : Params) (s : Store) (i : Nat) (h g : Bytes) (j : Nat) : Prop :=
  (∃ s', getHashAtIndex p s i = some (s', some g)) ∧ indexOfHash fl p s h = some (.at j)

/-- The remarks to expect of a list of which only the first of equal hashes is stored, the others as zeros. -/
def repeats (L : List Bytes) : List Remark :=
  L.zipIdx.flatMap fun x => remarksOn (if L.idxOf x.1 = x.2 then x.1 else zeros 32) x.1 x.2 (L.idxOf x.1)

/-! ## Reading does not change the answers -/

/-- The two stores answer alike. -/
structure Same (s t : Store) : Prop where
  files : s.files = t.files
  ram : s.ram = t.ram
  file : s.binNums.file = t.binNums.file
  buf : t.binNums.file.buf = none
  size : s.binNums.wordSize = t.binNums.wordSize
  scratch : s.binNums.scratch8.drop s.binNums.wordSize = t.binNums.scratch8.drop t.binNums.wordSize

theorem read_same {s t : Store} (h : Same s t) (i : Nat) : (readWordAt s.binNums i).2 = (readWordAt t.binNums i).2 ∧
    Same { s with binNums := (readWordAt s.binNums i).1 } t := by
  obtain ⟨h1, h2, h3, h4, h5, h6⟩ := h
  have hfl : AppendOpt.flush t.binNums.file = t.binNums.file := by
    unfold AppendOpt.flush; rw [h4]
  unfold readWordAt AppendOpt.readAt
  rw [h3, hfl, h5]
  dsimp only
  generalize hb : ((t.binNums.file.file.data.drop (i * t.binNums.wordSize)).take t.binNums.wordSize) = bs
  have hle : bs.length ≤ t.binNums.wordSize := by rw [← hb, List.length_take]; omega
  rw [h5] at h6
  have hd : ∀ sc : Bytes, (bs ++ sc.drop bs.length).drop t.binNums.wordSize = sc.drop t.binNums.wordSize := by
    intro sc
    rw [List.drop_append, List.drop_eq_nil_of_le hle, List.nil_append, List.drop_drop]
    congr 1
    omega
  split
  · rename_i hlt
    refine ⟨rfl, h1, h2, rfl, h4, rfl, ?_⟩
    show (bs ++ s.binNums.scratch8.drop bs.length).drop t.binNums.wordSize = _
    rw [hd, h6]
  · rename_i hlt
    have hbl : bs.length = t.binNums.wordSize := by omega
    refine ⟨?_, h1, h2, rfl, h4, rfl, ?_⟩
    · dsimp only
      rw [hbl, h6]
    · show (bs ++ s.binNums.scratch8.drop bs.length).drop t.binNums.wordSize = _
      rw [hd, h6]

theorem get_same {p : Params} {s t : Store} (h : Same s t) (i : Nat) :
    (getHashAtIndex p s i).map (·.2) = (getHashAtIndex p t i).map (·.2) ∧
    ∀ s' g, getHashAtIndex p s i = some (s', g) → Same s' t := by
  obtain ⟨r1, r2⟩ := read_same h i
  unfold getHashAtIndex
  rcases hs : readWordAt s.binNums i with ⟨w, v⟩
  rcases ht : readWordAt t.binNums i with ⟨w', v'⟩
  rw [hs] at r1 r2
  rw [ht] at r1
  dsimp only at r1 r2
  subst r1
  cases v with
  | none =>
    refine ⟨rfl, ?_⟩
    rintro s' g ⟨⟩
    exact r2
  | some bn =>
    dsimp only
    rw [h.files]
    cases loadBin p t.files bn.toNat with
    | none =>
      refine ⟨rfl, ?_⟩
      rintro s' g ⟨⟩
      rw [← h.files]
      exact r2
    | some b =>
      dsimp only
      cases lookupByIndex p b i bn.toNat with
      | none => exact ⟨rfl, fun _ _ hx => by cases hx⟩
      | some g0 =>
        refine ⟨rfl, ?_⟩
        rintro s' g ⟨⟩
        rw [← h.files]
        exact r2

theorem index_same {fl : Rat → Rat} {p : Params} {s t : Store} (h : Same s t) (x : Bytes) :
    indexOfHash fl p s x = indexOfHash fl p t x := by
  unfold indexOfHash binFor
  rw [h.files, h.ram]

theorem answers_same {fl : Rat → Rat} {p : Params} {s t : Store} (h : Same s t) {i : Nat} {x g : Bytes} {j : Nat} :
    Answers fl p s i x g j ↔ Answers fl p t i x g j := by
  unfold Answers
  rw [index_same h]
  have := (get_same (p := p) h i).1
  constructor
  · rintro ⟨⟨s', h1⟩, h2⟩
    rw [h1] at this
    refine ⟨?_, h2⟩
    cases ht : getHashAtIndex p t i with
    | none => rw [ht] at this; cases this
    | some y =>
      rw [ht] at this
      simp only [Option.map_some, Option.some.injEq] at this
      exact ⟨y.1, by rw [this]⟩
  · rintro ⟨⟨s', h1⟩, h2⟩
    rw [h1] at this
    refine ⟨?_, h2⟩
    cases ht : getHashAtIndex p s i with
    | none => rw [ht] at this; cases this
    | some y =>
      rw [ht] at this
      simp only [Option.map_some, Option.some.injEq] at this
      exact ⟨y.1, by rw [← this]⟩

/-! ## The loops -/

theorem one_of_answers {fl : Rat → Rat} {p : Params} {s t : Store} (h : Same s t) {i : Nat} {x g : Bytes} {j : Nat}
    (ha : Answers fl p t i x g j) : ∃ s', testOneHash fl p s i x = some (s', remarksOn g x i j, none) ∧ Same s' t := by
  obtain ⟨⟨s', h1⟩, h2⟩ := (answers_same h).mpr ha
  have hs' := (get_same h i).2 _ _ h1
  refine ⟨s', ?_, hs'⟩
  unfold testOneHash
  rw [h1]
  dsimp only
  rw [index_same hs', ← index_same h, h2]
  rfl

theorem one_passes {fl : Rat → Rat} {p : Params} {s t s' : Store} (h : Same s t) {i : Nat} {x : Bytes} {r : List Remark}
    (hp : testOneHash fl p s i x = some (s', r, none)) : ∃ g j, Answers fl p t i x g j := by
  unfold testOneHash at hp
  split at hp
  · cases hp
  · cases hp
  · rename_i s1 g hg
    have hs1 := (get_same h i).2 _ _ hg
    split at hp
    · cases hp
    · cases hp
    · cases hp
    · rename_i j hj
      refine ⟨g, j, (answers_same h).mp ⟨⟨s1, hg⟩, ?_⟩⟩
      rw [index_same h, ← index_same hs1, hj]

theorem hashes_of_answers {fl : Rat → Rat} {p : Params} {t : Store} (G : Nat → Bytes) (J : Nat → Nat) :
    ∀ (hs : List Bytes) (i : Nat) (s : Store), Same s t → (∀ k x, hs[k]? = some x → Answers fl p t (i + k) x (G (i + k)) (J (i + k))) →
    ∃ s', testHashes fl p s i hs = some (s', (hs.zipIdx i).flatMap fun x => remarksOn (G x.2) x.1 x.2 (J x.2), none) ∧ Same s' t := by
  intro hs
  induction hs with
  | nil => intro i s h _; exact ⟨s, rfl, h⟩
  | cons x xs ih =>
    intro i s h ha
    obtain ⟨s1, h1, h2⟩ := one_of_answers h (ha 0 x rfl)
    obtain ⟨s2, h3, h4⟩ := ih (i + 1) s1 h2 (by
      intro k y hy
      have := ha (k + 1) y hy
      rw [show i + 1 + k = i + (k + 1) by omega]
      exact this)
    refine ⟨s2, ?_, h4⟩
    rw [Nat.add_zero] at h1
    rw [testHashes, h1]
    dsimp only
    rw [h3]
    rfl

theorem hashes_pass {fl : Rat → Rat} {p : Params} {t : Store} : ∀ (hs : List Bytes) (i : Nat) (s s' : Store) (r : List Remark),
    Same s t → testHashes fl p s i hs = some (s', r, none) → ∀ k x, hs[k]? = some x → ∃ g j, Answers fl p t (i + k) x g j := by
  intro hs
  induction hs with
  | nil => intro i s s' r _ _ k x hx; cases hx
  | cons y ys ih =>
    intro i s s' r h hp k x hx
    rw [testHashes] at hp
    split at hp
    · cases hp
    · cases hp
    · rename_i s1 r1 h1
      have hans := one_passes h h1
      cases k with
      | zero => cases hx; exact hans
      | succ k =>
        obtain ⟨g, j, ha⟩ := hans
        obtain ⟨s1', e1, e2⟩ := one_of_answers h ha
        rw [h1] at e1
        cases e1
        cases ht : testHashes fl p s1 (i + 1) ys with
        | none => rw [ht] at hp; cases hp
        | some z =>
          rw [ht] at hp
          obtain ⟨z1, z2, z3⟩ := z
          simp only [Option.map_some, Option.some.injEq, Prod.mk.injEq] at hp
          obtain ⟨-, -, rfl⟩ := hp
          have := ih (i + 1) s1 z1 z2 e2 ht k x hx
          rw [show i + 1 + k = i + (k + 1) by omega] at this
          exact this

theorem testHashes_append {fl : Rat → Rat} {p : Params} : ∀ (a b : List Bytes) (i : Nat) (s : Store),
    testHashes fl p s i (a ++ b) = (testHashes fl p s i a).bind fun x =>
      match x.2.2 with
      | some v => some (x.1, x.2.1, some v)
      | none => (testHashes fl p x.1 (i + a.length) b).map fun y => (y.1, x.2.1 ++ y.2.1, y.2.2) := by
  intro a
  induction a with
  | nil =>
    intro b i s
    rw [testHashes]
    cases h : testHashes fl p s i b <;> simp [h]
  | cons x xs ih =>
    intro b i s
    rw [List.cons_append, testHashes, testHashes]
    split
    · rfl
    · rfl
    · rename_i s1 r h1
      rw [ih, show i + (x :: xs).length = i + 1 + xs.length by rw [List.length_cons]; omega]
      cases testHashes fl p s1 (i + 1) xs with
      | none => rfl
      | some z =>
        obtain ⟨z1, z2, z3⟩ := z
        cases z3 with
        | some v => rfl
        | none =>
          dsimp only [Option.map_some, Option.bind_some]
          cases testHashes fl p z1 (i + 1 + xs.length) b with
          | none => rfl
          | some y => simp

theorem cut_flatten {L : List Bytes} (h : ∀ x ∈ L, x.length = 32) : cut L.flatten = L := by
  unfold cut
  rw [Bins.flatten_length h, Nat.mul_div_cancel_left _ (by decide)]
  apply List.ext_getElem?
  intro k
  rw [List.getElem?_map]
  by_cases hk : k < L.length
  · rw [List.getElem?_range hk, Option.map_some, List.getElem?_eq_getElem hk]
    rw [Nat.mul_comm, Bins.flatten_drop h k, List.drop_eq_getElem_cons hk, List.flatten_cons, List.take_left' (h _ (List.getElem_mem hk))]
  · rw [List.getElem?_eq_none (by rw [List.length_range]; omega), List.getElem?_eq_none (by omega)]
    rfl

/-- The chunks do not matter. -/
theorem loop_eq {fl : Rat → Rat} {p : Params} : ∀ (n : Nat) (L : List Bytes) (i : Nat) (s : Store), L.length = n →
    (∀ x ∈ L, x.length = 32) →
    testLoop fl p s i L.flatten = (testHashes fl p s i L).map fun x => ⟨x.2.1, x.2.2.getD .passed⟩ := by
  intro n
  induction n using Nat.strongRecOn with
  | ind n ih =>
    intro L i s hn h
    rw [testLoop]
    cases L with
    | nil => rfl
    | cons x xs =>
      have hx := h x (by simp)
      have hne : (x :: xs).flatten ≠ [] := by
        intro h0
        have := congrArg List.length h0
        rw [List.flatten_cons, List.length_append, hx] at this
        simp at this
      rw [dif_neg hne]
      have ht : (x :: xs).flatten.take 4096 = ((x :: xs).take 128).flatten := Bins.flatten_take h 128
      have hd : (x :: xs).flatten.drop 4096 = ((x :: xs).drop 128).flatten := Bins.flatten_drop h 128
      have h1 : ∀ y ∈ (x :: xs).take 128, y.length = 32 := fun y hy => h y (List.mem_of_mem_take hy)
      have h2 : ∀ y ∈ (x :: xs).drop 128, y.length = 32 := fun y hy => h y (List.mem_of_mem_drop hy)
      have hlen := Bins.flatten_length h1
      rw [ht, hd, hlen, if_neg (by rw [Nat.mul_mod_right]; simp), cut_flatten h1, Nat.mul_div_cancel_left _ (by decide)]
      conv => rhs; rw [← List.take_append_drop 128 (x :: xs), testHashes_append]
      cases testHashes fl p s i ((x :: xs).take 128) with
      | none => rfl
      | some z =>
        obtain ⟨z1, z2, z3⟩ := z
        cases z3 with
        | some v => rfl
        | none =>
          dsimp only [Option.bind_some]
          rw [ih ((x :: xs).drop 128).length (by rw [← hn, List.length_drop, List.length_cons]; omega) _ _ _ rfl h2]
          cases testHashes fl p z1 (i + ((x :: xs).take 128).length) ((x :: xs).drop 128) <;> rfl

/-- A file of whole hashes. -/
theorem whole {data : Bytes} (h : data.length % 32 = 0) : ∃ L : List Bytes, data = L.flatten ∧ ∀ x ∈ L, x.length = 32 := by
  obtain ⟨n, hn⟩ : ∃ n, data.length = n * 32 := ⟨data.length / 32, by omega⟩
  clear h
  induction n generalizing data with
  | zero => exact ⟨[], by simpa using hn, by simp⟩
  | succ n ih =>
    obtain ⟨L, h1, h2⟩ := ih (data := data.drop 32) (by rw [List.length_drop]; omega)
    refine ⟨data.take 32 :: L, ?_, ?_⟩
    · rw [List.flatten_cons, ← h1, List.take_append_drop]
    · intro x hx
      rcases List.mem_cons.mp hx with rfl | hx
      · rw [List.length_take]; omega
      · exact h2 x hx

theorem never_passed {fl : Rat → Rat} {p : Params} : ∀ (hs : List Bytes) (i : Nat) (s s' : Store) (r : List Remark),
    testHashes fl p s i hs ≠ some (s', r, some .passed) := by
  intro hs
  induction hs with
  | nil => intro i s s' r h1; cases h1
  | cons x xs ih =>
    intro i s s' r h1
    rw [testHashes] at h1
    split at h1
    · cases h1
    · rename_i s2 r2 v2 h2
      simp only [Option.some.injEq, Prod.mk.injEq] at h1
      obtain ⟨rfl, rfl, rfl⟩ := h1
      unfold testOneHash at h2
      repeat' split at h2
      all_goals cases h2
    · rename_i s2 r2 h2
      cases h3 : testHashes fl p s2 (i + 1) xs with
      | none => rw [h3] at h1; cases h1
      | some z =>
        rw [h3] at h1
        obtain ⟨z1, z2, z3⟩ := z
        simp only [Option.map_some, Option.some.injEq, Prod.mk.injEq] at h1
        obtain ⟨rfl, -, rfl⟩ := h1
        exact ih _ _ _ _ h3

/-- A file of a torn hash does not pass. -/
theorem loop_ragged {fl : Rat → Rat} {p : Params} : ∀ (n : Nat) (data : Bytes) (i : Nat) (s : Store) (r : List Remark), data.length = n →
    testLoop fl p s i data = some ⟨r, .passed⟩ → data.length % 32 = 0 := by
  intro n
  induction n using Nat.strongRecOn with
  | ind n ih =>
    intro data i s r hn hp
    rw [testLoop] at hp
    split at hp
    · rename_i h; rw [h]; rfl
    · rename_i hne
      have hpos := List.length_pos_iff.mpr hne
      split at hp
      · cases hp
      · rename_i hm
        split at hp
        · cases hp
        · rename_i s1 r1 v h1
          obtain ⟨-, rfl⟩ : r1 = r ∧ v = .passed := by simpa using hp
          exact absurd h1 (never_passed _ _ _ _ _)
        · rename_i s1 r1 h1
          cases h2 : testLoop fl p s1 (i + (data.take 4096).length / 32) (data.drop 4096) with
          | none => rw [h2] at hp; cases hp
          | some z =>
            rw [h2] at hp
            obtain ⟨z1, z2⟩ := z
            simp only [Option.map_some, Option.some.injEq, Report.mk.injEq] at hp
            obtain ⟨-, rfl⟩ := hp
            have := ih (data.drop 4096).length (by rw [List.length_drop]; omega) _ _ _ _ rfl h2
            rw [List.length_drop] at this
            rw [List.length_take] at hm
            omega

theorem opened_same {p : Params} {nums : Bytes} {f : Files} {s : Store} (h : openStore p nums f false = some s) : Same s s := by
  unfold openStore at h
  split at h
  · cases h
  · rename_i w hw
    rw [if_neg (by decide)] at h
    cases h
    refine ⟨rfl, rfl, rfl, ?_, rfl, rfl⟩
    unfold openWordFile at hw
    split at hw
    · cases hw
    · cases hw; rfl

/-! ## Properties -/

/-- **C97.** On whatever is in the folder: if the self-test passes, the file is whole hashes, and each of them is found under some index and
has some hash at its index, without errors; the printed lines are exactly those about a hash found under another index, or another hash at its
index. So if nothing is printed, every hash is stored at its index and found there. -/
theorem selftest_sound (fl : Rat → Rat) (p : Params) (nums : Bytes) (f : Files) (data : Bytes) (r : List Remark)
    (hp : testTheHashes fl p nums f data = some ⟨r, .passed⟩) :
    ∃ (s : Store) (L : List Bytes), openStore p nums f false = some s ∧ data = L.flatten ∧ (∀ x ∈ L, x.length = 32) ∧
      ∃ (G : Nat → Bytes) (J : Nat → Nat), (∀ i h, L[i]? = some h → Answers fl p s i h (G i) (J i)) ∧
        r = (L.zipIdx).flatMap (fun x => remarksOn (G x.2) x.1 x.2 (J x.2)) ∧
        (r = [] → ∀ i h, L[i]? = some h → G i = h ∧ J i = i) := by
  unfold testTheHashes at hp
  split at hp
  · cases hp
  · rename_i s hs
    obtain ⟨L, rfl, hL⟩ := whole (loop_ragged _ _ _ _ _ rfl hp)
    have hsame := opened_same hs
    rw [loop_eq _ _ _ _ rfl hL] at hp
    cases ht : testHashes fl p s 0 L with
    | none => rw [ht] at hp; cases hp
    | some z =>
      obtain ⟨z1, z2, z3⟩ := z
      rw [ht] at hp
      simp only [Option.map_some, Option.some.injEq, Report.mk.injEq] at hp
      obtain ⟨rfl, hv⟩ := hp
      have hz : z3 = none := by
        cases z3 with
        | none => rfl
        | some v =>
          exfalso
          simp only [Option.getD_some] at hv
          subst hv
          exact never_passed _ _ _ _ _ ht
      subst hz
      have hall := hashes_pass L 0 s z1 z2 hsame ht
      simp only [Nat.zero_add] at hall
      have hch : ∀ i, ∃ gj : Bytes × Nat, ∀ h, L[i]? = some h → Answers fl p s i h gj.1 gj.2 := by
        intro i
        cases hi : L[i]? with
        | none => exact ⟨([], 0), fun h hh => by cases hh⟩
        | some h =>
          obtain ⟨g, j, ha⟩ := hall i h hi
          exact ⟨(g, j), fun h' hh => by cases hh; exact ha⟩
      choose GJ hGJ using hch
      refine ⟨s, L, hs, rfl, hL, fun i => (GJ i).1, fun i => (GJ i).2, hGJ, ?_⟩
      obtain ⟨s', e1, -⟩ := hashes_of_answers (fl := fl) (p := p) (t := s) (fun i => (GJ i).1) (fun i => (GJ i).2) L 0 s hsame
        (by intro k x hx; rw [Nat.zero_add]; exact hGJ k x hx)
      rw [ht] at e1
      simp only [Option.some.injEq, Prod.mk.injEq, and_true] at e1
      obtain ⟨-, rfl⟩ := e1
      refine ⟨rfl, ?_⟩
      intro hr i h hi
      rw [List.flatMap_eq_nil_iff] at hr
      have := hr (h, i) (List.mem_zipIdx_iff_getElem?.mpr hi)
      unfold remarksOn at this
      rw [List.append_eq_nil_iff] at this
      constructor
      · by_contra hne
        rw [if_neg hne] at this
        cases this.1
      · by_contra hne
        rw [if_neg hne] at this
        cases this.2

theorem first_idxOf {L : List Bytes} {h : Bytes} (hm : h ∈ L) : FirstAt L (L.idxOf h) h := by
  have hlt := List.idxOf_lt_length_iff.mpr hm
  refine ⟨?_, ?_⟩
  · rw [List.getElem?_eq_getElem hlt, List.getElem_idxOf]
  · intro j hj hx
    obtain ⟨hjl, hje⟩ := List.getElem?_eq_some_iff.mp hx
    have := List.not_of_lt_findIdx (p := (· == h)) (xs := L) hj
    rw [hje] at this
    simp at this

theorem firstAt_unique {L : List Bytes} {i j : Nat} {h : Bytes} (hi : FirstAt L i h) (hj : FirstAt L j h) : i = j := by
  rcases Nat.lt_trichotomy i j with hlt | he | hgt
  · exact absurd hi.1 (hj.2 i hlt)
  · exact he
  · exact absurd hj.1 (hi.2 j hgt)

theorem bulk_index {fl : Rat → Rat} (hfl : FloatOK fl) {p : Params} (hp : ParamsOK p) {sort : List Bytes → List Bytes}
    (hsort : SortOK p sort) {L : List Bytes} (hI : Indexable p L) {s : Store} (hs : IsBulk p sort L s) {h : Bytes} (hm : h ∈ L) :
    indexOfHash fl p s h = some (.at (L.idxOf h)) := by
  obtain ⟨r, h1, h2⟩ := (hs.index hfl hp hsort hI).2 h (hI.app.len32 h hm)
  rcases h2 with ⟨i, rfl, h2⟩ | ⟨-, h2⟩
  · rw [h1, firstAt_unique h2 (first_idxOf hm)]
  · exact absurd hm h2

theorem bulk_get {p : Params} (hp : ParamsOK p) {sort : List Bytes → List Bytes}
    (hsort : SortOK p sort) {L : List Bytes} (hI : Indexable p L) {s : Store} (hs : IsBulk p sort L s) {i : Nat} {h : Bytes}
    (hi : L[i]? = some h) : ∃ s', getHashAtIndex p s i = some (s', some (if L.idxOf h = i then h else zeros 32)) := by
  have hf := first_idxOf (List.mem_of_getElem? hi)
  by_cases he : L.idxOf h = i
  · rw [if_pos he]
    rw [he] at hf
    exact (hs.get hp hsort hI).1 i h hf
  · rw [if_neg he]
    refine hs.dup hp hsort hI hi hf.1 ?_
    rcases Nat.lt_trichotomy (L.idxOf h) i with hlt | he' | hgt
    · exact hlt
    · exact absurd he' he
    · exact absurd hi (hf.2 i hgt)

/-- **C97: partial.** After any bulk run over hashes it copes with, the self-test passes and prints lines about repeated hashes only: each is
found under the index of its first occurrence, and has the zero hash at its own. Missing: that nothing else passes, see
`selftest_ignores_order` and `selftest_passes_duplicates`. -/
theorem bulk_selftest_partial {fl : Rat → Rat} (hfl : FloatOK fl) {p : Params} (hp : ParamsOK p)
    {estimate bytesPerPass threads : Nat} (ht : 0 < threads)
    {sort : List Bytes → List Bytes} (hsort : SortOK p sort) {L : List Bytes} (hI : Indexable p L) {d : Disk}
    (hrun : IndexTheHashes p estimate bytesPerPass threads sort L d) :
    testTheHashes fl p (WordFile.close d.nums) d.files L.flatten = some ⟨repeats L, .passed⟩ ∧ (repeats L = [] ↔ L.Nodup) := by
  obtain ⟨s, h1, h2⟩ := Bulk3.bulk_store hp ht hsort hI.storable hrun
  constructor
  · unfold testTheHashes
    rw [h1]
    dsimp only
    rw [loop_eq _ _ _ _ rfl hI.app.len32]
    obtain ⟨s', e1, -⟩ := hashes_of_answers (fl := fl) (p := p) (t := s)
      (fun i => if L.idxOf (L.getD i []) = i then L.getD i [] else zeros 32) (fun i => L.idxOf (L.getD i [])) L 0 s (opened_same h1) (by
        intro k x hx
        rw [Nat.zero_add]
        have hg : L.getD k [] = x := by rw [List.getD_eq_getElem?_getD, hx]; rfl
        rw [hg]
        exact ⟨bulk_get hp hsort hI h2 hx, bulk_index hfl hp hsort hI h2 (List.mem_of_getElem? hx)⟩)
    rw [e1]
    simp only [Option.map_some, Option.getD_none]
    congr 2
    unfold repeats
    rw [List.flatMap_def, List.flatMap_def]
    congr 1
    apply List.map_congr_left
    intro x hx
    have := List.mem_zipIdx_iff_getElem?.mp hx
    rw [List.getD_eq_getElem?_getD, this]
    rfl
  · unfold repeats
    rw [List.flatMap_eq_nil_iff]
    constructor
    · intro hr
      rw [List.nodup_iff_getElem?_ne_getElem?]
      intro i j hij hj he
      obtain ⟨h, hh⟩ : ∃ h, L[j]? = some h := ⟨_, List.getElem?_eq_getElem hj⟩
      have := hr (h, j) (List.mem_zipIdx_iff_getElem?.mpr hh)
      unfold remarksOn at this
      rw [List.append_eq_nil_iff] at this
      have h2 := this.2
      by_cases hid : L.idxOf h = j
      · have hf := first_idxOf (List.mem_of_getElem? hh)
        rw [hid] at hf
        exact hf.2 i hij (he.trans hh)
      · dsimp only at h2
        rw [if_neg hid] at h2
        cases h2
    · rintro hnd ⟨h, i⟩ hx
      have hi : L[i]? = some h := List.mem_zipIdx_iff_getElem?.mp hx
      obtain ⟨hil, rfl⟩ := List.getElem?_eq_some_iff.mp hi
      dsimp only
      rw [hnd.idxOf_getElem]
      simp [remarksOn]

/-- **C97: violated.** The self-test passes although the store gives the zero hash for an index: after any bulk run over hashes one of which
occurs twice. -/
theorem selftest_passes_duplicates {fl : Rat → Rat} (hfl : FloatOK fl) {p : Params} (hp : ParamsOK p)
    {estimate bytesPerPass threads : Nat} (ht : 0 < threads)
    {sort : List Bytes → List Bytes} (hsort : SortOK p sort) {L : List Bytes} (hI : Indexable p L) {d : Disk}
    (hrun : IndexTheHashes p estimate bytesPerPass threads sort L d) {i j : Nat} {h : Bytes} (hi : L[i]? = some h)
    (hj : L[j]? = some h) (hji : j < i) :
    (∃ r, testTheHashes fl p (WordFile.close d.nums) d.files L.flatten = some ⟨r, .passed⟩) ∧
    ∃ s, openStore p (WordFile.close d.nums) d.files false = some s ∧ ∃ s', getHashAtIndex p s i = some (s', some (zeros 32)) :=
  ⟨⟨_, (bulk_selftest_partial hfl hp ht hsort hI hrun).1⟩, Bulk3.bulk_get_duplicate_is_zero hp ht hsort hI hrun hi hj hji⟩

/-- **C97: violated.** The self-test passes with any file made of hashes the store has, in any order and any selection that is not longer: it
does not tell whether the store goes with the file. -/
theorem selftest_ignores_order {fl : Rat → Rat} (hfl : FloatOK fl) {p : Params} (hp : ParamsOK p)
    {estimate bytesPerPass threads : Nat} (ht : 0 < threads)
    {sort : List Bytes → List Bytes} (hsort : SortOK p sort) {L : List Bytes} (hI : Indexable p L) {d : Disk}
    (hrun : IndexTheHashes p estimate bytesPerPass threads sort L d) {M : List Bytes} (hM : ∀ h ∈ M, h ∈ L)
    (hlen : M.length ≤ L.length) :
    ∃ r, testTheHashes fl p (WordFile.close d.nums) d.files M.flatten = some ⟨r, .passed⟩ := by
  obtain ⟨s, h1, h2⟩ := Bulk3.bulk_store hp ht hsort hI.storable hrun
  unfold testTheHashes
  rw [h1]
  dsimp only
  rw [loop_eq _ _ _ _ rfl (fun x hx => hI.app.len32 x (hM x hx))]
  obtain ⟨s', e1, -⟩ := hashes_of_answers (fl := fl) (p := p) (t := s)
    (fun i => if L.idxOf (L.getD i []) = i then L.getD i [] else zeros 32) (fun i => L.idxOf (M.getD i [])) M 0 s (opened_same h1) (by
      intro k x hx
      rw [Nat.zero_add]
      have hg : M.getD k [] = x := by rw [List.getD_eq_getElem?_getD, hx]; rfl
      have hk : k < L.length := Nat.lt_of_lt_of_le (List.getElem?_eq_some_iff.mp hx).1 hlen
      have hL : L[k]? = some (L.getD k []) := by
        rw [List.getD_eq_getElem?_getD, List.getElem?_eq_getElem hk]; rfl
      rw [hg]
      exact ⟨bulk_get hp hsort hI h2 hL, bulk_index hfl hp hsort hI h2 (hM x (List.mem_of_getElem? hx))⟩)
  rw [e1]
  exact ⟨_, rfl⟩

/-- A hash the store does not find makes the self-test fail. -/
theorem selftest_detects_absent (fl : Rat → Rat) (p : Params) (nums : Bytes) (f : Files) (L : List Bytes) (hL : ∀ x ∈ L, x.length = 32)
    (s : Store) (hs : openStore p nums f false = some s) {h : Bytes} (hm : h ∈ L) (ha : indexOfHash fl p s h = some .absent)
    (r : List Remark) : testTheHashes fl p nums f L.flatten ≠ some ⟨r, .passed⟩ := by
  intro hp
  obtain ⟨s', L', h1, h2, h3, G, J, h4, -⟩ := selftest_sound fl p nums f _ r hp
  rw [hs] at h1
  cases h1
  have : L' = L := by rw [← cut_flatten h3, ← h2, cut_flatten hL]
  subst this
  obtain ⟨i, hi⟩ := List.mem_iff_getElem?.mp hm
  have := (h4 i h hi).2
  rw [ha] at this
  cases this

/-! ## Examples -/

/-- The third of four hashes repeats the first. -/
example : ∃ d, IndexTheHashes demoParams 100 (1000 * 1000) 3 Bulk3.demoSort Bulk3.demoFile d ∧
    testTheHashes fl53 demoParams (WordFile.close d.nums) d.files Bulk3.demoFile.flatten =
      some ⟨[.wrongHash 2, .wrongIndex 2 0], .passed⟩ := by
  obtain ⟨d, hd⟩ := Bulk3.bulk_completes demo_paramsOK (estimate := 100) (bytesPerPass := 1000 * 1000) (threads := 3)
    (by decide) (sort := Bulk3.demoSort) Bulk3.demoFile_indexable.storable (by decide +kernel)
  refine ⟨d, hd, ?_⟩
  rw [(bulk_selftest_partial floatOK_fl53 demo_paramsOK (by decide) Bulk3.demoSort_ok Bulk3.demoFile_indexable hd).1]
  decide +kernel

/-- The file reversed. -/
example : ∃ d, IndexTheHashes demoParams 100 (1000 * 1000) 3 Bulk3.demoSort Bulk3.demoFile d ∧
    ∃ r, testTheHashes fl53 demoParams (WordFile.close d.nums) d.files Bulk3.demoFile.reverse.flatten = some ⟨r, .passed⟩ := by
  obtain ⟨d, hd⟩ := Bulk3.bulk_completes demo_paramsOK (estimate := 100) (bytesPerPass := 1000 * 1000) (threads := 3)
    (by decide) (sort := Bulk3.demoSort) Bulk3.demoFile_indexable.storable (by decide +kernel)
  exact ⟨d, hd, selftest_ignores_order floatOK_fl53 demo_paramsOK (by decide) Bulk3.demoSort_ok Bulk3.demoFile_indexable hd
    (fun h hh => List.mem_reverse.mp hh) (by simp)⟩

/-- The clashing hashes of `bulk_loses_hash`: the self-test does not pass. -/
example : ∃ d, IndexTheHashes demoParams 100 (1000 * 1000) 3 Bulk3.demoSort Bulk3.clashHashes d ∧
    ∀ r, testTheHashes fl53 demoParams (WordFile.close d.nums) d.files Bulk3.clashHashes.flatten ≠ some ⟨r, .passed⟩ := by
  obtain ⟨d, hd⟩ := Bulk3.bulk_completes demo_paramsOK (estimate := 100) (bytesPerPass := 1000 * 1000) (threads := 3)
    (by decide) (sort := Bulk3.demoSort) Bulk3.clash_storable (by decide +kernel)
  obtain ⟨s, h1, h2⟩ := Bulk3.bulk_loses_hash floatOK_fl53 (by decide) Bulk3.demoSort_ok hd
  exact ⟨d, hd, selftest_detects_absent _ _ _ _ _ Bulk3.clash_storable.len32 s h1 (by decide +kernel) h2⟩

end Verif.SelfTest3
