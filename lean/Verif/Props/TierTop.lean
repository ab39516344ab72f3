import Verif.Model.TierTop
import Mathlib.Data.List.Induction

/-!
# Properties of the top tier of the cake
-/

namespace Verif.TierTop

/-! ## Histories -/

/-- What may happen to a cake in use. -/
inductive Op where
  /-- The caller puts other bytes into its slice `a`. -/
  | write (a : Nat) (h : Bytes)
  /-- The caller appends its slice `a`. -/
  | append (a : Nat)
  /-- The cake is closed and opened again. -/
  | reopen

/-- The state: the caller's memory, the tier, and the indices `AppendHash` has returned so far. -/
structure State where
  mem : Memory
  top : Top
  given : List Int

/-- One step, all bakes succeeding. -/
def step (s : State) : Op → Option State
  | .write a h => some { s with mem := fun x => if x = a then h else s.mem x }
  | .append a =>
    match append true s.mem s.top a with
    | .ok t g => some { s with top := t, given := s.given ++ [g] }
    | _ => none
  | .reopen => (openTop s.top.file s.top.first).map fun t => { s with top := t }

def run : State → List Op → Option State
  | s, [] => some s
  | s, o :: os => (step s o).bind fun s' => run s' os

/-- What the caller's memory is after a history. -/
def memAfter (m : Memory) : List Op → Memory
  | [] => m
  | .write a h :: os => memAfter (fun x => if x = a then h else m x) os
  | _ :: os => memAfter m os

/-- **Specification.** The hashes appended in a history, in order, as they were when appended. -/
def appended (m : Memory) : List Op → List Bytes
  | [] => []
  | .write a h :: os => appended (fun x => if x = a then h else m x) os
  | .append a :: os => m a :: appended m os
  | .reopen :: os => appended m os

/-- **Specification.** The number of hashes that have gone below: the full batches of 65535. -/
def baked (n : Nat) : Nat := n / 65535 * 65535

/-- The tier agrees with the list of the hashes appended. -/
structure Holds (t : Top) (hs : List Bytes) : Prop where
  first : t.first = baked hs.length
  file : t.file = hs.drop (baked hs.length)
  cells : t.cells.length = t.file.length
  map : ∀ h i, t.map h = some i ↔ t.file[i]? = some h ∧ ∀ j, i < j → t.file[j]? ≠ some h
  len : ∀ h ∈ hs, h.length = 32

theorem setMap_holds {map : Bytes → Option Nat} {file : List Bytes} {h : Bytes}
    (hm : ∀ x i, map x = some i ↔ file[i]? = some x ∧ ∀ j, i < j → file[j]? ≠ some x) (x : Bytes) (i : Nat) :
    setMap map h file.length x = some i ↔ (file ++ [h])[i]? = some x ∧ ∀ j, i < j → (file ++ [h])[j]? ≠ some x := by
  unfold setMap
  by_cases hx : x = h
  · subst hx
    rw [if_pos rfl]
    constructor
    · intro hi
      obtain rfl := Option.some.inj hi
      refine ⟨by simp, fun j hj => ?_⟩
      rw [List.getElem?_eq_none (by simp; omega)]
      simp
    · rintro ⟨h1, h2⟩
      have hlt : i < (file ++ [x]).length := (List.getElem?_eq_some_iff.mp h1).1
      simp only [List.length_append, List.length_singleton] at hlt
      rcases Nat.lt_or_ge i file.length with hi | hi
      · exact absurd (by simp) (h2 file.length hi)
      · congr 1; omega
  · rw [if_neg hx, hm]
    have key : ∀ j : Nat, (file ++ [h])[j]? = some x ↔ file[j]? = some x := by
      intro j
      rcases Nat.lt_trichotomy j file.length with hj | hj | hj
      · rw [List.getElem?_append_left hj]
      · subst hj
        simp only [List.getElem?_concat_length, Option.some.injEq]
        constructor
        · intro h'; exact absurd h'.symm hx
        · intro h'; simp at h'
      · rw [List.getElem?_eq_none (by simp; omega), List.getElem?_eq_none (by omega)]
    simp only [ne_eq, key]

theorem fill_holds : ∀ (l : List Bytes) (file : List Bytes) (map : Bytes → Option Nat),
    (∀ x i, map x = some i ↔ file[i]? = some x ∧ ∀ j, i < j → file[j]? ≠ some x) →
    ∀ x i, fill l file.length map x = some i ↔ (file ++ l)[i]? = some x ∧ ∀ j, i < j → (file ++ l)[j]? ≠ some x := by
  intro l
  induction l with
  | nil => intro file map hm; simpa [fill] using hm
  | cons h l ih =>
    intro file map hm
    rw [fill]
    have := ih (file ++ [h]) (setMap map h file.length) (setMap_holds hm)
    rw [List.length_append, List.length_singleton, List.append_assoc] at this
    exact this

theorem openTop_holds {file : List Bytes} {first : Int} (hlen : file.length ≤ 65535) :
    ∃ t, openTop file first = some t ∧ t.first = first ∧ t.file = file ∧ t.cells = file.map .own ∧
      ∀ h i, t.map h = some i ↔ file[i]? = some h ∧ ∀ j, i < j → file[j]? ≠ some h := by
  refine ⟨_, by unfold openTop; rw [if_neg (by omega)], rfl, rfl, rfl, ?_⟩
  intro h i
  have := fill_holds file [] (fun _ => none) (by simp) h i
  simpa using this

theorem baked_le (n : Nat) : baked n ≤ n := Nat.div_mul_le_self n 65535

theorem rest_lt (n : Nat) : n - baked n < 65535 := by
  unfold baked
  have := Nat.div_add_mod n 65535
  have := Nat.mod_lt n (show 0 < 65535 by omega)
  omega

theorem Holds.file_lt {t : Top} {hs : List Bytes} (h : Holds t hs) : t.file.length < 65535 := by
  rw [h.file, List.length_drop]; exact rest_lt _

theorem append_holds {m : Memory} {t : Top} {hs : List Bytes} (ht : Holds t hs) {a : Nat} (h32 : (m a).length = 32) :
    ∃ t', append true m t a = .ok t' hs.length ∧ Holds t' (hs ++ [m a]) := by
  have hlt := ht.file_lt
  have hb := baked_le hs.length
  have hf : t.file.length = hs.length - baked hs.length := by rw [ht.file, List.length_drop]
  have hres : globalOfTop t.cells.length t.first = (hs.length : Int) := by
    unfold globalOfTop; rw [ht.cells, ht.first, hf]; omega
  have hnew : ∀ h ∈ hs ++ [m a], h.length = 32 := by
    intro h hh
    rcases List.mem_append.mp hh with hh | hh
    · exact ht.len h hh
    · rw [List.mem_singleton.mp hh]; exact h32
  unfold append
  dsimp only
  rw [if_neg (by have := ht.cells; omega), hres, if_neg (by omega)]
  by_cases hfull : t.cells.length = 65534
  · rw [if_pos hfull, if_pos rfl]
    have hmul : hs.length + 1 = (hs.length / 65535 + 1) * 65535 := by
      have := ht.cells
      unfold baked at hf hb
      omega
    have hbk : baked (hs ++ [m a]).length = hs.length + 1 := by
      rw [List.length_append, List.length_singleton]
      unfold baked
      rw [hmul, Nat.mul_div_cancel _ (by omega)]
    obtain ⟨t', h1, h2, h3, h4, h5⟩ := openTop_holds (file := []) (first := t.first + ((t.file ++ [m a]).length : Nat)) (by simp)
    refine ⟨t', ?_, ?_⟩
    · unfold makeEmpty create
      dsimp only
      rw [h1]
    · refine ⟨?_, ?_, by rw [h3, h4]; rfl, by rw [h3]; exact h5, hnew⟩
      · rw [h2, hbk, ht.first, List.length_append, hf, List.length_singleton]; omega
      · rw [h3, hbk, List.drop_eq_nil_of_le (by simp)]
  · rw [if_neg hfull]
    refine ⟨_, rfl, ?_⟩
    have hbk : baked (hs ++ [m a]).length = baked hs.length := by
      rw [List.length_append, List.length_singleton]
      have := ht.cells
      unfold baked at hf hb ⊢
      omega
    refine ⟨?_, ?_, ?_, ?_, hnew⟩
    · rw [hbk]; exact ht.first
    · dsimp only
      rw [hbk, List.drop_append_of_le_length hb, ← ht.file]
    · simp [ht.cells]
    · dsimp only
      intro h i
      rw [ht.cells]
      exact setMap_holds ht.map h i

theorem reopen_holds {t : Top} {hs : List Bytes} (ht : Holds t hs) :
    ∃ t', openTop t.file t.first = some t' ∧ Holds t' hs := by
  obtain ⟨t', h1, h2, h3, h4, h5⟩ := openTop_holds (file := t.file) (first := t.first) (by have := ht.file_lt; omega)
  exact ⟨t', h1, by rw [h2]; exact ht.first, by rw [h3]; exact ht.file, by rw [h3, h4, List.length_map],
    by rw [h3]; exact h5, ht.len⟩

/-- The indices 0, 1, …, n − 1. -/
def firstIndices (n : Nat) : List Int := (List.range n).map Int.ofNat

theorem run_holds : ∀ (ops : List Op) (s : State) (hs : List Bytes), Holds s.top hs → s.given = firstIndices hs.length →
    (∀ h ∈ appended s.mem ops, h.length = 32) →
    ∃ s', run s ops = some s' ∧ s'.mem = memAfter s.mem ops ∧ Holds s'.top (hs ++ appended s.mem ops) ∧
      s'.given = firstIndices (hs ++ appended s.mem ops).length := by
  intro ops
  induction ops with
  | nil => intro s hs h hg _; exact ⟨s, rfl, rfl, by simpa [appended] using h, by simpa [appended] using hg⟩
  | cons o os ih =>
    intro s hs h hg h32
    cases o with
    | write a b =>
      obtain ⟨s', h1, h2, h3, h4⟩ := ih { s with mem := fun x => if x = a then b else s.mem x } hs h hg h32
      exact ⟨s', by simp [run, step, h1], h2, h3, h4⟩
    | append a =>
      simp only [appended, List.mem_cons, forall_eq_or_imp] at h32
      obtain ⟨t', ha, ht'⟩ := append_holds h (m := s.mem) (a := a) h32.1
      obtain ⟨s', h1, h2, h3, h4⟩ := ih { s with top := t', given := s.given ++ [(hs.length : Int)] } (hs ++ [s.mem a]) ht'
        (by simp [hg, firstIndices, List.range_succ]) h32.2
      refine ⟨s', by simp [run, step, ha, h1], h2, ?_, ?_⟩
      · simpa [appended] using h3
      · simpa [appended] using h4
    | reopen =>
      obtain ⟨t', ha, ht'⟩ := reopen_holds h
      obtain ⟨s', h1, h2, h3, h4⟩ := ih { s with top := t' } hs ht' hg h32
      exact ⟨s', by simp [run, step, ha, h1], h2, h3, h4⟩

/-- A cake just created, in the hands of a caller whose memory is `m`. -/
def Fresh (m : Memory) (s : State) : Prop := s.mem = m ∧ create 0 = some s.top ∧ s.given = []

theorem fresh_holds {m : Memory} {s : State} (h : Fresh m s) : Holds s.top [] := by
  obtain ⟨t, h1, h2, h3, h4, h5⟩ := openTop_holds (file := []) (first := 0) (by simp)
  have : s.top = t := by
    have := h.2.1
    unfold create at this
    rw [h1] at this
    exact (Option.some.inj this).symm
  rw [this]
  exact ⟨by rw [h2]; rfl, by rw [h3]; rfl, by rw [h3, h4]; rfl, by rw [h3]; exact h5, by simp⟩

theorem history {m : Memory} {s s' : State} {ops : List Op} (h0 : Fresh m s) (hlen : ∀ h ∈ appended m ops, h.length = 32)
    (hr : run s ops = some s') :
    s'.mem = memAfter m ops ∧ Holds s'.top (appended m ops) ∧ s'.given = firstIndices (appended m ops).length := by
  obtain ⟨s'', h1, h2, h3, h4⟩ := run_holds ops s [] (fresh_holds h0) (by rw [h0.2.2]; rfl) (by rw [h0.1]; exact hlen)
  rw [hr] at h1
  obtain rfl := Option.some.inj h1
  rw [h0.1, List.nil_append] at h3 h4
  rw [h0.1] at h2
  exact ⟨h2, h3, h4⟩

/-! ## The theorems -/

/-- **C32, indices.** Whatever is appended to a new cake (the caller changing its memory and the cake being closed and
opened again in between as it may be), and provided every bake succeeds, no append panics, and the n-th append returns
the index n. -/
theorem append_numbers_in_order {m : Memory} {s : State} {ops : List Op} (h0 : Fresh m s)
    (hlen : ∀ h ∈ appended m ops, h.length = 32) :
    ∃ s', run s ops = some s' ∧ s'.given = (List.range (appended m ops).length).map Int.ofNat := by
  obtain ⟨s', h1, _⟩ := run_holds ops s [] (fresh_holds h0) (by rw [h0.2.2]; rfl) (by rw [h0.1]; exact hlen)
  exact ⟨s', h1, (history h0 hlen h1).2.2⟩

/-- **C32, lookup by hash.** After any such history the top tier finds a hash exactly if it is among those appended
since the last full batch of 65535, with the index of its latest appearance. -/
theorem top_finds_latest_index {m : Memory} {s s' : State} {ops : List Op} (h0 : Fresh m s)
    (hlen : ∀ h ∈ appended m ops, h.length = 32) (hr : run s ops = some s') (h : Bytes) (h32 : h.length = 32) :
    (∀ g : Int, tryIndexOfHash s'.top h = some (some g) ↔
      ∃ i : Nat, g = i ∧ baked (appended m ops).length ≤ i ∧ (appended m ops)[i]? = some h ∧
        ∀ j, i < j → (appended m ops)[j]? ≠ some h) ∧
    (tryIndexOfHash s'.top h = some none ↔
      ∀ i : Nat, baked (appended m ops).length ≤ i → (appended m ops)[i]? ≠ some h) := by
  have hh := (history h0 hlen hr).2.1
  generalize appended m ops = hs at hh
  have hfile : ∀ k, s'.top.file[k]? = hs[baked hs.length + k]? := by
    intro k; rw [hh.file, List.getElem?_drop]
  have hmap : ∀ k, s'.top.map h = some k ↔ hs[baked hs.length + k]? = some h ∧
      ∀ j, baked hs.length + k < j → hs[j]? ≠ some h := by
    intro k
    rw [hh.map, hfile]
    constructor
    · rintro ⟨h1, h2⟩
      refine ⟨h1, fun j hj => ?_⟩
      have := h2 (j - baked hs.length) (by omega)
      rwa [hfile, Nat.add_sub_cancel' (by omega)] at this
    · rintro ⟨h1, h2⟩
      exact ⟨h1, fun j hj => by rw [hfile]; exact h2 _ (by omega)⟩
  unfold tryIndexOfHash
  rw [if_neg (by omega)]
  constructor
  · intro g
    constructor
    · cases hm : s'.top.map h with
      | none => simp
      | some k =>
        intro hg
        dsimp only at hg
        obtain rfl := Option.some.inj (Option.some.inj hg)
        obtain ⟨h1, h2⟩ := (hmap k).mp hm
        exact ⟨baked hs.length + k, by unfold globalOfTop; rw [hh.first]; omega, by omega, h1, h2⟩
    · rintro ⟨i, rfl, hi, h1, h2⟩
      have hk : s'.top.map h = some (i - baked hs.length) := by
        rw [hmap, Nat.add_sub_cancel' hi]; exact ⟨h1, h2⟩
      rw [hk]
      dsimp only
      unfold globalOfTop
      rw [hh.first]
      congr 2
      omega
  · constructor
    · cases hm : s'.top.map h with
      | some k => simp
      | none =>
        intro _ i hi hin
        -- the latest appearance would be in the map
        have hlt : ∃ i, baked hs.length ≤ i ∧ hs[i]? = some h ∧ ∀ j, i < j → hs[j]? ≠ some h := by
          clear hh hfile hmap
          have : ∀ n i, hs.length - i = n → baked hs.length ≤ i → hs[i]? = some h →
              ∃ i, baked hs.length ≤ i ∧ hs[i]? = some h ∧ ∀ j, i < j → hs[j]? ≠ some h := by
            intro n
            induction n using Nat.strongRecOn with
            | _ n ih =>
              intro i hn hi hin
              by_cases hex : ∃ j, i < j ∧ hs[j]? = some h
              · obtain ⟨j, hj, hjn⟩ := hex
                have : i < hs.length := (List.getElem?_eq_some_iff.mp hin).1
                exact ih (hs.length - j) (by omega) j rfl (by omega) hjn
              · exact ⟨i, hi, hin, fun j hj hjn => hex ⟨j, hj, hjn⟩⟩
          exact this _ i rfl hi hin
        obtain ⟨i, h1, h2, h3⟩ := hlt
        have := (hmap (i - baked hs.length)).mpr (by rw [Nat.add_sub_cancel' h1]; exact ⟨h2, h3⟩)
        rw [hm] at this
        simp at this
    · intro hno
      cases hm : s'.top.map h with
      | none => rfl
      | some k => exact absurd ((hmap k).mp hm).1 (hno _ (by omega))

/-- The tier still holds the caller's slices, as they were appended, or its own copies. -/
def Unchanged (m : Memory) (ops : List Op) : Prop := ∀ o ∈ ops, ∀ a h, o = .write a h → m a = h

theorem cells_same {m : Memory} : ∀ (ops : List Op) (s s' : State), s.mem = m → Unchanged m ops → run s ops = some s' →
    s.top.cells.map (·.read m) = s.top.file → s'.mem = m ∧ s'.top.cells.map (·.read m) = s'.top.file := by
  intro ops
  induction ops with
  | nil => intro s s' hm _ hr hc; simp only [run, Option.some.injEq] at hr; subst hr; exact ⟨hm, hc⟩
  | cons o os ih =>
    intro s s' hm hu hr hc
    have hu' : Unchanged m os := fun o' ho' => hu o' (by simp [ho'])
    rw [run] at hr
    cases hst : step s o with
    | none => rw [hst] at hr; simp at hr
    | some s₁ =>
      rw [hst] at hr
      replace hr : run s₁ os = some s' := hr
      refine ih s₁ s' ?_ hu' hr ?_ <;> cases o with
      | write a h =>
        simp only [step, Option.some.injEq] at hst
        subst hst
        first
        | exact hc
        | (funext x
           dsimp only
           by_cases hx : x = a
           · rw [if_pos hx, hx]; exact (hu _ (by simp) a h rfl).symm
           · rw [if_neg hx, hm])
      | reopen =>
        simp only [step, openTop] at hst
        by_cases hl : s.top.file.length > 65535
        · rw [if_pos hl] at hst; simp at hst
        · rw [if_neg hl] at hst
          simp only [Option.map_some, Option.some.injEq] at hst
          subst hst
          first
          | exact hm
          | (dsimp only
             rw [List.map_map]
             exact List.map_id'' (fun _ => rfl) _)
      | append a =>
        simp only [step, append] at hst
        by_cases h1 : s.top.cells.length ≥ 65535
        · rw [if_pos h1] at hst; simp at hst
        rw [if_neg h1] at hst
        by_cases h2 : (s.mem a).length ≠ 32
        · rw [if_pos h2] at hst; simp at hst
        rw [if_neg h2] at hst
        by_cases h3 : s.top.cells.length = 65534
        · rw [if_pos h3] at hst
          simp only [if_true, makeEmpty, create, openTop, List.length_nil] at hst
          rw [if_neg (by omega)] at hst
          simp only [Option.some.injEq] at hst
          subst hst
          first
          | exact hm
          | rfl
        · rw [if_neg h3] at hst
          simp only [Option.some.injEq] at hst
          subst hst
          first
          | exact hm
          | (dsimp only
             rw [List.map_append, hc, ← hm]
             rfl)

/-- **C32, lookup by index: partial.** As long as fewer than 65535 hashes have been appended to the cake (nothing has
been baked), and if the caller leaves the slices it appends from unchanged, asking for index k returns the k-th hash
appended, and any other index is 'not in this tier'.
Missing: everything after the first bake (`top_unreadable_after_bake`), and callers that reuse a slice
(`appended_hash_changes_with_callers_memory`). -/
theorem top_returns_hash_at_index_partial {m : Memory} {s s' : State} {ops : List Op} (h0 : Fresh m s)
    (hlen : ∀ h ∈ appended m ops, h.length = 32) (hr : run s ops = some s') (hu : Unchanged m ops)
    (hfew : (appended m ops).length < 65535) (g : Int) :
    tryGetHashAtIndex s'.mem s'.top g =
      some (if 0 ≤ g ∧ g < (appended m ops).length then (appended m ops)[g.toNat]? else none) := by
  have hh := (history h0 hlen hr).2.1
  have hc := cells_same ops s s' h0.1 hu hr (by
    have := h0.2.1
    simp only [create, openTop, List.length_nil] at this
    rw [if_neg (by omega)] at this
    rw [← Option.some.inj this]
    rfl)
  generalize appended m ops = hs at hh hfew
  have hb : baked hs.length = 0 := by unfold baked; rw [Nat.div_eq_of_lt hfew]
  have hf : s'.top.file = hs := by rw [hh.file, hb]; rfl
  have hfirst : s'.top.first = 0 := by rw [hh.first, hb]; rfl
  unfold tryGetHashAtIndex withinRange topOfGlobal
  rw [hfirst, hh.cells, hf]
  by_cases hg : 0 ≤ g ∧ g < hs.length
  · rw [if_neg (by simp; omega), if_pos hg]
    dsimp only
    rw [if_neg (by omega)]
    have e1 : (g - -0).toNat = g.toNat := by congr 1; omega
    have e2 : hs[g.toNat]? = (s'.top.cells[g.toNat]?).map (·.read m) := by
      rw [← List.getElem?_map, hc.2, hf]
    rw [e1, e2, hc.1]
    have : g.toNat < s'.top.cells.length := by rw [hh.cells, hf]; omega
    rw [List.getElem?_eq_getElem this]
    rfl
  · rw [if_pos (by simp; omega), if_neg hg]

/-- **C32 fails.** Once a batch has been baked, asking the top tier for the hash at the index of any hash it holds
panics: the offset is added where it should be subtracted. -/
theorem top_unreadable_after_bake {m : Memory} {s s' : State} {ops : List Op} (h0 : Fresh m s)
    (hlen : ∀ h ∈ appended m ops, h.length = 32) (hr : run s ops = some s') (hmany : 65535 ≤ (appended m ops).length)
    (i : Nat) (hi : baked (appended m ops).length ≤ i) (hi' : i < (appended m ops).length) :
    tryGetHashAtIndex s'.mem s'.top i = none := by
  have hh := (history h0 hlen hr).2.1
  generalize appended m ops = hs at hh hmany hi hi'
  have hb : 65535 ≤ baked hs.length := by
    unfold baked
    have : 1 ≤ hs.length / 65535 := (Nat.le_div_iff_mul_le (by omega)).mpr (by omega)
    omega
  have hlt := hh.file_lt
  have hf : s'.top.file.length = hs.length - baked hs.length := by rw [hh.file, List.length_drop]
  unfold tryGetHashAtIndex withinRange topOfGlobal
  rw [hh.first, hh.cells, hf, if_neg (by simp; omega)]
  dsimp only
  rw [if_neg (by omega), List.getElem?_eq_none (by have := hh.cells; omega)]

/-- **C32 fails**, before any bake too, for a caller that uses one slice for all its hashes: after appending `x`
and then `y` from the same slice, the tier gives `y` as the hash at index 0. -/
theorem appended_hash_changes_with_callers_memory {m : Memory} {s : State} (h0 : Fresh m s) (a : Nat) (x y : Bytes)
    (hx : x.length = 32) (hy : y.length = 32) :
    ∃ s', run s [.write a x, .append a, .write a y, .append a] = some s' ∧
      s'.given = [0, 1] ∧ tryGetHashAtIndex s'.mem s'.top 0 = some (some y) := by
  have happ : appended m [.write a x, .append a, .write a y, .append a] = [x, y] := by simp [appended]
  obtain ⟨s', h1, h2⟩ := append_numbers_in_order (ops := [.write a x, .append a, .write a y, .append a]) h0
    (by rw [happ]; simp [hx, hy])
  refine ⟨s', h1, by rw [h2, happ]; rfl, ?_⟩
  obtain ⟨mem, top, given⟩ := s
  have hfr := h0.2.1
  simp only [create, openTop, List.length_nil] at hfr
  rw [if_neg (by omega)] at hfr
  obtain rfl := Option.some.inj hfr
  simp [run, step, append, hx, hy] at h1
  subst h1
  simp [tryGetHashAtIndex, withinRange, topOfGlobal, Cell.read]

/-! ## Examples -/

def demoMem : Memory := fun a => List.replicate 32 (UInt8.ofNat a)

theorem demoMem_len (a : Nat) : (demoMem a).length = 32 := by simp [demoMem]

theorem exists_fresh (m : Memory) : ∃ s, Fresh m s := by
  obtain ⟨t, h, _⟩ := openTop_holds (file := []) (first := 0) (by simp)
  exact ⟨⟨m, t, []⟩, rfl, h, rfl⟩

/-- Three appends (one a repetition) and a reopening. -/
def demoOps : List Op := [.append 5, .append 7, .reopen, .append 5]

theorem demo_appended : appended demoMem demoOps = [demoMem 5, demoMem 7, demoMem 5] := rfl

theorem demo_len : ∀ h ∈ appended demoMem demoOps, h.length = 32 := by
  rw [demo_appended]; simp [demoMem_len]

example : ∃ s s', Fresh demoMem s ∧ run s demoOps = some s' ∧ s'.given = [0, 1, 2] ∧
    tryIndexOfHash s'.top (demoMem 5) = some (some 2) ∧
    tryGetHashAtIndex s'.mem s'.top 1 = some (some (demoMem 7)) := by
  obtain ⟨s, hs⟩ := exists_fresh demoMem
  obtain ⟨s', h1, h2⟩ := append_numbers_in_order (ops := demoOps) hs demo_len
  refine ⟨s, s', hs, h1, h2, ?_, ?_⟩
  · refine ((top_finds_latest_index hs demo_len h1 (demoMem 5) (demoMem_len 5)).1 2).mpr ⟨2, rfl, ?_, ?_, ?_⟩
    · rw [demo_appended]; decide
    · rw [demo_appended]; rfl
    · intro j hj
      rw [demo_appended, List.getElem?_eq_none (by simp; omega)]
      simp
  · rw [top_returns_hash_at_index_partial hs demo_len h1 (by
      intro o ho a h e
      subst e
      simp [demoOps] at ho) (by rw [demo_appended]; simp) 1, demo_appended]
    rfl

/-- After 65536 appends the last hash, alone in the top tier, cannot be read. -/
example : ∃ s s', Fresh demoMem s ∧ run s (List.replicate 65536 (.append 5)) = some s' ∧
    tryGetHashAtIndex s'.mem s'.top 65535 = none := by
  obtain ⟨s, hs⟩ := exists_fresh demoMem
  have happ : ∀ n, appended demoMem (List.replicate n (.append 5)) = List.replicate n (demoMem 5) := by
    intro n
    induction n with
    | zero => rfl
    | succ n ih => rw [List.replicate_succ, appended, ih]; rfl
  have hlen : ∀ h ∈ appended demoMem (List.replicate 65536 (.append 5)), h.length = 32 := by
    intro h hh
    rw [happ, List.mem_replicate] at hh
    rw [hh.2]; exact demoMem_len 5
  obtain ⟨s', h1, _⟩ := append_numbers_in_order hs hlen
  have hl : (appended demoMem (List.replicate 65536 (.append 5))).length = 65536 := by
    rw [happ, List.length_replicate]
  exact ⟨s, s', hs, h1, top_unreadable_after_bake hs hlen h1 (by rw [hl]; omega) 65535 (by rw [hl]; decide)
    (by rw [hl]; omega)⟩

end Verif.TierTop
