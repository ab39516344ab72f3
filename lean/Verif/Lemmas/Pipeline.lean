import Verif.Model.Pipeline

/-! # Invariants of the block pipeline -/

namespace Verif.Pipeline

variable {H B : Type}

/-- The numbered block `v` is what fetching the hash with that number gives. -/
def Good (c : Cfg H B) (v : Nat × B) : Prop := ∃ h, c.hashes[v.1]? = some h ∧ c.fetch h = some v.2

/-! ## Where things are -/

/-- The hash in the valve. -/
def valveHas : Valve H → List H
  | .recv => []
  | .check h => [h]
  | .sleep h => [h]
  | .send h => [h]
  | .done => []

/-- How many hashes the numberer has received. -/
def taken : Num H → Nat
  | .recv n => n
  | .send n _ => n + 1
  | .done n => n

def numHas : Num H → List (Nat × H)
  | .recv _ => []
  | .send n h => [(n, h)]
  | .done _ => []

/-- A block in the sequencer that is not in its map. -/
def seqHas : Seq B → List (Nat × B)
  | .got v => [v]
  | .emit v => [v]
  | _ => []

def fwdHas : Fwd B → List B
  | .recv => []
  | .send b => [b]
  | .done => []

/-- The numbers on their way. -/
def keys (s : State H B) : List Nat :=
  (numHas s.num).map Prod.fst ++ s.fetching.map Prod.fst ++ s.sending.map Prod.fst ++ (seqHas s.seq).map Prod.fst ++
    s.map.map Prod.fst

/-- How many blocks the forwarder has received. -/
def sent (s : State H B) : Nat :=
  match s.seq with
  | .after _ => s.nextOut + 1
  | _ => s.nextOut

def isFin : Seq B → Bool
  | .drain fin => fin
  | .emitNext _ fin => fin
  | .after fin => fin
  | .closed => true
  | _ => false

/-- What the sequencer's position says about its map. -/
def SeqOK (s : State H B) : Prop :=
  match s.seq with
  | .recv => s.nextOut ∉ s.map.map Prod.fst
  | .got _ => s.nextOut ∉ s.map.map Prod.fst
  | .emit v => v.1 = s.nextOut
  | .emitNext v _ => v ∈ s.map ∧ v.1 = s.nextOut
  | .after _ => s.nextOut ∈ s.map.map Prod.fst
  | .drain _ => True
  | .closed => s.map = []

/-- 1 for the numbers from `a` to below `b`, otherwise 0. -/
def one (a b k : Nat) : Nat := if a ≤ k ∧ k < b then 1 else 0

theorem one_pos {a b k : Nat} (h : a ≤ k ∧ k < b) : one a b k = 1 := if_pos h

theorem one_neg {a b k : Nat} (h : ¬ (a ≤ k ∧ k < b)) : one a b k = 0 := if_neg h

theorem one_cases (a b k : Nat) : one a b k = 1 ∧ a ≤ k ∧ k < b ∨ one a b k = 0 ∧ ¬ (a ≤ k ∧ k < b) := by
  by_cases h : a ≤ k ∧ k < b
  · exact Or.inl ⟨one_pos h, h⟩
  · exact Or.inr ⟨one_neg h, h⟩

structure Inv (c : Cfg H B) (s : State H B) : Prop where
  stream : ∃ l, c.hashes = l ++ valveHas s.valve ++ s.src ∧ l.length = taken s.num
  pool : s.idle + s.fetching.length + s.sending.length + s.ended = c.threads
  keys : ∀ k, (keys s).count k = one s.nextOut (taken s.num) k
  seq : SeqOK s
  le : s.nextOut ≤ taken s.num
  goodH : ∀ v ∈ numHas s.num ++ s.fetching, c.hashes[v.1]? = some v.2
  goodB : ∀ v ∈ s.sending ++ seqHas s.seq ++ s.map, Good c v
  out : (s.received ++ fwdHas s.fwd).length = sent s
  outGood : ∀ i b, (s.received ++ fwdHas s.fwd)[i]? = some b → Good c (i, b)
  bloat : s.bloated = decide (0 < c.bloat ∧ c.bloat ≤ s.map.length)
  asleep : ∀ h, s.valve = .sleep h → s.bloated = true
  c1 : s.srcClosed = true → s.src = []
  c2 : s.valve = .done → s.srcClosed = true
  c3 : ∀ n, s.num = .done n → s.valve = .done
  c4 : 0 < s.ended → ∃ n, s.num = .done n
  c5 : s.inClosed = true → s.ended = c.threads
  c6 : isFin s.seq = true → s.inClosed = true
  c7 : s.fwd = .done → s.seq = .closed
  c8 : s.finished = true → s.fwd = .done

theorem inv_start (c : Cfg H B) : Inv c (start c) := by
  refine ⟨⟨[], rfl, rfl⟩, rfl, ?_, by simp [SeqOK, start], Nat.le_refl _, ?_, ?_, rfl, ?_, ?_, ?_, ?_, ?_, ?_, ?_, ?_, ?_, ?_, ?_⟩
  · intro k
    simp [start, Pipeline.keys, numHas, seqHas, taken, one]
  all_goals simp [start, numHas, seqHas, fwdHas, isFin]
  omega

theorem count_filter (l : List (Nat × B)) (n k : Nat) :
    ((l.filter (fun w => w.1 != n)).map Prod.fst).count k = if k = n then 0 else (l.map Prod.fst).count k := by
  induction l with
  | nil => simp
  | cons w l ih =>
    by_cases h : w.1 = n
    · rw [List.filter_cons_of_neg (by simp [h]), ih, List.map_cons, List.count_cons]
      by_cases hk : k = n
      · rw [if_pos hk, if_pos hk]
      · rw [if_neg hk, if_neg hk]
        have : ¬ w.1 = k := by omega
        simp [this]
    · rw [List.filter_cons_of_pos (by simp [h]), List.map_cons, List.count_cons, ih, List.map_cons, List.count_cons]
      by_cases hk : k = n
      · rw [if_pos hk, if_pos hk]
        subst hk
        simp [h]
      · rw [if_neg hk, if_neg hk]

theorem length_filter (l : List (Nat × B)) (n : Nat) :
    (l.filter (fun w => w.1 != n)).length + (l.map Prod.fst).count n = l.length := by
  induction l with
  | nil => simp
  | cons w l ih =>
    by_cases h : w.1 = n
    · rw [List.filter_cons_of_neg (by simp [h]), List.map_cons, List.count_cons, List.length_cons]
      simp only [h, beq_self_eq_true, if_true]
      omega
    · rw [List.filter_cons_of_pos (by simp [h]), List.map_cons, List.count_cons, List.length_cons, List.length_cons]
      have : ¬ (w.1 == n) = true := by simp [h]
      rw [if_neg this]
      omega

theorem insert_eq {map : List (Nat × B)} {v : Nat × B} (h : (map.map Prod.fst).count v.1 = 0) :
    insert map v = map ++ [v] := by
  unfold insert
  congr 1
  rw [List.filter_eq_self]
  intro w hw
  have : v.1 ∉ map.map Prod.fst := List.count_eq_zero.mp h
  have : w.1 ≠ v.1 := fun he => this (he ▸ List.mem_map.mpr ⟨w, hw, rfl⟩)
  simpa using this

theorem count_keys (s : State H B) (k : Nat) : (keys s).count k = ((numHas s.num).map Prod.fst).count k +
    (s.fetching.map Prod.fst).count k + (s.sending.map Prod.fst).count k + ((seqHas s.seq).map Prod.fst).count k +
    (s.map.map Prod.fst).count k := by
  unfold keys
  simp only [List.count_append]

theorem getElem?_snoc {α : Type} {l : List α} {x : α} {i : Nat} {b : α} (h : (l ++ [x])[i]? = some b) :
    l[i]? = some b ∨ i = l.length ∧ b = x := by
  by_cases hi : i < l.length
  · rw [List.getElem?_append_left hi] at h
    exact Or.inl h
  · rw [List.getElem?_append_right (by omega)] at h
    cases hj : i - l.length with
    | zero =>
      rw [hj] at h
      simp at h
      exact Or.inr ⟨by omega, h.symm⟩
    | succ j =>
      rw [hj] at h
      simp at h

theorem wake_has (v : Valve H) : valveHas (wake v) = valveHas v := by cases v <;> rfl

theorem wake_done (v : Valve H) : wake v = .done ↔ v = .done := by cases v <;> simp [wake]

theorem wake_sleep (v : Valve H) (h : H) : wake v ≠ .sleep h := by cases v <;> simp [wake]

variable {c : Cfg H B} {s t : State H B}

theorem move_c (h : Inv c s) (m : Move c s t) :
    (t.srcClosed = true → t.src = []) ∧ (t.valve = .done → t.srcClosed = true) ∧
    (∀ n, t.num = .done n → t.valve = .done) ∧ (0 < t.ended → ∃ n, t.num = .done n) ∧
    (t.inClosed = true → t.ended = c.threads) ∧ (isFin t.seq = true → t.inClosed = true) ∧
    (t.fwd = .done → t.seq = .closed) ∧ (t.finished = true → t.fwd = .done) := by
  obtain ⟨i1, i2, i3, i4, i5, i6, i7, i8, i9, i10, i11, i12, i13, i14, i15, i16, i17, i18, i19⟩ := h
  clear i1 i3 i4 i5 i6 i7 i8 i9 i10
  cases m <;> dsimp only <;> refine ⟨?_, ?_, ?_, ?_, ?_, ?_, ?_, ?_⟩ <;> simp_all [isFin]
  case workerEnds.refine_5 =>
    rename_i h2
    cases hc : s.inClosed with
    | false => rfl
    | true =>
      have := i16 hc
      omega
  case after.refine_2 =>
    split
    · rw [wake_done]
      exact i13
    · exact i13
  case after.refine_3 =>
    intro _ _ _
    rfl

theorem move_stream (h : Inv c s) (m : Move c s t) : ∃ l, c.hashes = l ++ valveHas t.valve ++ t.src ∧ l.length = taken t.num := by
  obtain ⟨l, h1, h2⟩ := h.stream
  cases m <;> (try exact ⟨l, h1, h2⟩) <;> dsimp only
  case stream e1 e2 => exact ⟨l, by rw [h1, e1, e2]; simp [valveHas], h2⟩
  case pass e1 e2 => exact ⟨l, by rw [h1, e1]; rfl, h2⟩
  case nap e1 e2 => exact ⟨l, by rw [h1, e1]; rfl, h2⟩
  case number x n e1 e2 =>
    refine ⟨l ++ [x], by rw [h1, e1]; simp [valveHas], ?_⟩
    rw [List.length_append, h2, e2]
    rfl
  case valveClose e1 e2 => exact ⟨l, by rw [h1, e1]; rfl, h2⟩
  case take e1 e2 => exact ⟨l, h1, by rw [h2, e1]; rfl⟩
  case numClose e1 e2 => exact ⟨l, h1, by rw [h2, e1]; rfl⟩
  case after e1 =>
    refine ⟨l, ?_, h2⟩
    split
    · rw [wake_has]
      exact h1
    · exact h1

theorem move_pool (h : Inv c s) (m : Move c s t) : t.idle + t.fetching.length + t.sending.length + t.ended = c.threads := by
  have := h.pool
  cases m <;> dsimp only <;> simp_all <;> omega

theorem move_goodH (h : Inv c s) (m : Move c s t) : ∀ v ∈ numHas t.num ++ t.fetching, c.hashes[v.1]? = some v.2 := by
  have hg := h.goodH
  obtain ⟨l, h1, h2⟩ := h.stream
  cases m <;> (try exact hg) <;> dsimp only
  case number x n e1 e2 =>
    rw [e2] at hg h2
    intro v hv
    rcases List.mem_append.mp hv with hv | hv
    · simp only [numHas, List.mem_singleton] at hv
      subst hv
      rw [h1, e1]
      simp only [taken] at h2
      subst h2
      simp [valveHas]
    · exact hg v (List.mem_append.mpr (Or.inr hv))
  case take n x i e1 e2 =>
    rw [e1] at hg
    intro v hv
    apply hg v
    simp only [numHas, List.mem_append, List.not_mem_nil, false_or, List.mem_singleton] at hv ⊢
    exact hv.symm
  case numClose e1 e2 =>
    rw [e1] at hg
    exact hg
  case fetch l n x r b e1 e2 =>
    rw [e1] at hg
    intro v hv
    apply hg v
    simp only [List.mem_append, List.mem_cons] at hv ⊢
    rcases hv with hv | hv | hv
    · exact Or.inl hv
    · exact Or.inr (Or.inl hv)
    · exact Or.inr (Or.inr (Or.inr hv))

theorem mem_insert {map : List (Nat × B)} {v w : Nat × B} (h : w ∈ insert map v) : w ∈ map ∨ w = v := by
  unfold insert at h
  rcases List.mem_append.mp h with h | h
  · exact Or.inl (List.mem_filter.mp h).1
  · exact Or.inr (List.mem_singleton.mp h)

theorem move_goodB (h : Inv c s) (m : Move c s t) : ∀ v ∈ t.sending ++ seqHas t.seq ++ t.map, Good c v := by
  have hg := h.goodB
  cases m <;> (try exact hg) <;> dsimp only
  case fetch l n x r b e1 e2 =>
    intro v hv
    simp only [List.mem_append, List.mem_singleton] at hv
    rcases hv with ((hv | hv) | hv) | hv
    · exact hg v (by simp [hv])
    · subst hv
      exact ⟨x, h.goodH (n, x) (by rw [e1]; simp), e2⟩
    · exact hg v (by simp [hv])
    · exact hg v (by simp [hv])
  case deliver l v r e1 e2 =>
    rw [e1] at hg
    intro w hw
    apply hg w
    simp only [seqHas, List.mem_append, List.mem_cons] at hw ⊢
    rcases hw with ((hw | hw) | hw) | hw
    · exact Or.inl (Or.inl (Or.inl hw))
    · exact Or.inl (Or.inl (Or.inr (Or.inr hw)))
    · exact Or.inl (Or.inl (Or.inr (Or.inl (hw.resolve_right (by simp)))))
    · exact Or.inr hw
  case isNext v e1 e2 =>
    rw [e1] at hg
    exact hg
  case aside v e1 e2 =>
    rw [e1] at hg
    intro w hw
    apply hg w
    simp only [seqHas, List.mem_append, List.not_mem_nil, or_false, List.mem_singleton] at hw ⊢
    rcases hw with hw | hw
    · exact Or.inl (Or.inl hw)
    · rcases mem_insert hw with hw | hw
      · exact Or.inr hw
      · exact Or.inl (Or.inr hw)
  case after fin e1 =>
    rw [e1] at hg
    intro w hw
    apply hg w
    simp only [seqHas, List.mem_append, List.not_mem_nil, or_false] at hw ⊢
    rcases hw with hw | hw
    · exact Or.inl hw
    · exact Or.inr (List.mem_filter.mp hw).1
  all_goals
    intro w hw
    apply hg w
    simp only [seqHas, List.mem_append, List.not_mem_nil, or_false] at hw ⊢
    rcases hw with hw | hw
    · exact Or.inl (Or.inl hw)
    · exact Or.inr hw

theorem key_in_map {l : List (Nat × B)} {n : Nat} (h : n ∈ l.map Prod.fst) : 1 ≤ (l.map Prod.fst).count n :=
  List.count_pos_iff.mpr h

/-- The map of the sequencer has a key at most once. -/
theorem map_count_le (h : Inv c s) (k : Nat) : (s.map.map Prod.fst).count k ≤ 1 := by
  have := h.keys k
  rw [count_keys] at this
  have := one_cases s.nextOut (taken s.num) k
  omega

theorem got_fresh (h : Inv c s) {v : Nat × B} (e : s.seq = .got v) : (s.map.map Prod.fst).count v.1 = 0 := by
  have := h.keys v.1
  rw [count_keys, e] at this
  simp only [seqHas, List.map_cons, List.map_nil, List.count_singleton_self] at this
  have := one_cases s.nextOut (taken s.num) v.1
  omega

theorem move_bloat (h : Inv c s) (m : Move c s t) : t.bloated = decide (0 < c.bloat ∧ c.bloat ≤ t.map.length) := by
  have hb := h.bloat
  cases m <;> (try exact hb) <;> dsimp only
  case aside v e1 e2 =>
    rw [insert_eq (got_fresh h e1), List.length_append, List.length_singleton, hb]
    split
    · rename_i he
      symm
      rw [decide_eq_true_eq]
      omega
    · rw [decide_eq_decide]
      omega
  case after fin e1 =>
    have h1 := length_filter s.map s.nextOut
    have h2 := map_count_le h s.nextOut
    have h3 := h.seq
    unfold SeqOK at h3
    rw [e1] at h3
    have h4 := key_in_map h3
    split
    · rename_i he
      symm
      rw [decide_eq_false_iff_not]
      omega
    · rw [hb, decide_eq_decide]
      omega

theorem move_asleep (h : Inv c s) (m : Move c s t) : ∀ h, t.valve = .sleep h → t.bloated = true := by
  have hs := h.asleep
  cases m <;> (try exact hs) <;> dsimp only
  case nap e1 e2 => exact fun _ _ => e2
  case aside v e1 e2 =>
    intro x hx
    split
    · rfl
    · exact hs x hx
  case after fin e1 =>
    intro x hx
    split
    · rename_i he
      rw [if_pos he] at hx
      exact absurd hx (wake_sleep _ _)
    · rename_i he
      rw [if_neg he] at hx
      exact hs x hx
  all_goals
    intro x hx
    simp at hx

theorem move_le (h : Inv c s) (m : Move c s t) : t.nextOut ≤ taken t.num := by
  have hl := h.le
  have hk := h.keys s.nextOut
  have ho := one_cases s.nextOut (taken s.num) s.nextOut
  have hs := h.seq
  rw [count_keys] at hk
  cases m <;> (try exact hl) <;> dsimp only
  case number x n e1 e2 =>
    rw [e2] at hl
    exact Nat.le_succ_of_le hl
  case take e1 e2 => rw [e1] at hl; exact hl
  case numClose e1 e2 => rw [e1] at hl; exact hl
  case emit v e1 e2 =>
    unfold SeqOK at hs
    rw [e1] at hk hs
    simp only [seqHas, List.map_cons, List.map_nil] at hk
    dsimp only at hs
    rw [hs, List.count_singleton_self] at hk
    omega
  case after fin e1 =>
    unfold SeqOK at hs
    rw [e1] at hs
    have := key_in_map hs
    omega

theorem move_keys (h : Inv c s) (m : Move c s t) : ∀ k, (keys t).count k = one t.nextOut (taken t.num) k := by
  intro k
  have hk := h.keys k
  have hl := h.le
  have hs := h.seq
  rw [count_keys] at hk ⊢
  cases m <;> (try exact hk) <;> dsimp only
  case number x n e1 e2 =>
    rw [e2] at hk hl
    simp only [numHas, taken, List.map_cons, List.map_nil, List.count_nil, List.count_cons] at hk hl ⊢
    have o1 := one_cases s.nextOut n k
    have o2 := one_cases s.nextOut (n + 1) k
    by_cases hn : n = k
    · subst hn
      simp only [beq_self_eq_true, if_true]
      omega
    · have : ¬ (n == k) = true := by simp [hn]
      rw [if_neg this]
      omega
  case take n x i e1 e2 =>
    rw [e1] at hk
    simp only [numHas, taken, List.map_cons, List.map_nil, List.count_nil, List.map_append, List.count_append] at hk ⊢
    omega
  case numClose n e1 e2 =>
    rw [e1] at hk
    exact hk
  case fetch l n x r b e1 e2 =>
    rw [e1] at hk
    rw [← hk]
    simp only [List.map_cons, List.map_nil, List.map_append, List.count_append, List.count_cons, List.count_nil]
    omega
  case deliver l v r e1 e2 =>
    rw [e1, e2] at hk
    rw [← hk]
    simp only [seqHas, List.map_cons, List.map_nil, List.map_append, List.count_append, List.count_cons, List.count_nil]
    omega
  case isNext v e1 e2 =>
    rw [e1] at hk
    exact hk
  case aside v e1 e2 =>
    rw [insert_eq (got_fresh h e1), ← hk, e1]
    simp only [seqHas, List.map_cons, List.map_nil, List.map_append, List.count_append, List.count_cons, List.count_nil]
    omega
  case emit v e1 e2 =>
    unfold SeqOK at hs
    rw [e1] at hk hs
    dsimp only at hs
    simp only [seqHas, List.map_cons, List.map_nil, List.count_nil, List.count_cons, hs] at hk ⊢
    have o1 := one_cases s.nextOut (taken s.num) k
    have o2 := one_cases (s.nextOut + 1) (taken s.num) k
    by_cases hn : s.nextOut = k
    · subst hn
      simp only [beq_self_eq_true, if_true] at hk
      omega
    · have : ¬ (s.nextOut == k) = true := by simp [hn]
      rw [if_neg this] at hk
      omega
  case after fin e1 =>
    unfold SeqOK at hs
    rw [e1] at hk hs
    have h1 := key_in_map hs
    rw [count_filter]
    simp only [seqHas, List.map_nil, List.count_nil] at hk ⊢
    have o1 := one_cases s.nextOut (taken s.num) k
    have o2 := one_cases (s.nextOut + 1) (taken s.num) k
    by_cases hn : k = s.nextOut
    · rw [if_pos hn]
      subst hn
      omega
    · rw [if_neg hn]
      omega
  case outClose e1 e2 e3 => rw [e1] at hk; exact hk
  all_goals
    rename_i e1 _ <;> rw [e1] at hk <;> exact hk

theorem find_none {l : List (Nat × B)} {n : Nat} (h : l.find? (fun w => w.1 == n) = none) : n ∉ l.map Prod.fst := by
  intro hm
  obtain ⟨w, hw, he⟩ := List.mem_map.mp hm
  have := List.find?_eq_none.mp h w hw
  simp [he] at this

theorem move_seq (h : Inv c s) (m : Move c s t) : SeqOK t := by
  have hs := h.seq
  unfold SeqOK at hs ⊢
  cases m <;> (try exact hs) <;> dsimp only
  case deliver e1 e2 => rw [e2] at hs; exact hs
  case isNext e1 e2 => exact e2
  case aside v e1 e2 =>
    rw [e1] at hs
    rw [insert_eq (got_fresh h e1), List.map_append, List.mem_append]
    rintro (h1 | h1)
    · exact hs h1
    · simp at h1
      exact e2 h1.symm
  case found v e1 e2 =>
    have h1 := List.find?_some e2
    exact ⟨List.mem_of_find?_eq_some e2, by simpa using h1⟩
  case emitNext v fin e1 e2 =>
    rw [e1] at hs
    exact List.mem_map.mpr ⟨v, hs.1, hs.2⟩
  case drained e1 e2 => exact find_none e2
  case outClose e1 e2 e3 => exact e3

theorem move_out (h : Inv c s) (m : Move c s t) : (t.received ++ fwdHas t.fwd).length = sent t ∧
    ∀ i b, (t.received ++ fwdHas t.fwd)[i]? = some b → Good c (i, b) := by
  have ho := h.out
  have hg := h.outGood
  have hs := h.seq
  have hb := h.goodB
  unfold sent at ho ⊢
  unfold SeqOK at hs
  cases m <;> (try exact ⟨ho, hg⟩) <;> dsimp only
  case emit v e1 e2 =>
    rw [e1] at ho hb hs
    dsimp only at ho hs
    rw [e2] at ho hg
    simp only [fwdHas, List.append_nil, List.length_append, List.length_singleton] at ho hg ⊢
    refine ⟨by omega, ?_⟩
    intro i b hi
    rcases getElem?_snoc hi with hi | ⟨h1, h2⟩
    · exact hg i b hi
    · have := hb v (by simp [seqHas])
      rw [h1, h2, ho, ← hs]
      exact this
  case emitNext v fin e1 e2 =>
    rw [e1] at ho hs
    dsimp only at ho hs
    rw [e2] at ho hg
    simp only [fwdHas, List.append_nil, List.length_append, List.length_singleton] at ho hg ⊢
    refine ⟨by omega, ?_⟩
    intro i b hi
    rcases getElem?_snoc hi with hi | ⟨h1, h2⟩
    · exact hg i b hi
    · have := hb v (by simp [hs.1])
      rw [h1, h2, ho, ← hs.2]
      exact this
  case hold b e1 e2 =>
    rw [e1] at ho hg
    simp only [fwdHas, List.append_nil] at ho hg ⊢
    exact ⟨ho, hg⟩
  case fwdClose e1 e2 =>
    rw [e1] at ho hg
    exact ⟨ho, hg⟩
  case after fin e1 => rw [e1] at ho; exact ⟨ho, hg⟩
  case deliver e1 e2 => rw [e2] at ho; exact ⟨ho, hg⟩
  case isNext e1 e2 => rw [e1] at ho; exact ⟨ho, hg⟩
  case aside e1 e2 => rw [e1] at ho; exact ⟨ho, hg⟩
  case found e1 e2 => rw [e1] at ho; exact ⟨ho, hg⟩
  case drained e1 e2 => rw [e1] at ho; exact ⟨ho, hg⟩
  case seqClose e1 e2 => rw [e1] at ho; exact ⟨ho, hg⟩
  case outClose e1 e2 e3 => rw [e1] at ho; exact ⟨ho, hg⟩

theorem inv_move (h : Inv c s) (m : Move c s t) : Inv c t := by
  obtain ⟨c1, c2, c3, c4, c5, c6, c7, c8⟩ := move_c h m
  exact ⟨move_stream h m, move_pool h m, move_keys h m, move_seq h m, move_le h m, move_goodH h m, move_goodB h m,
    (move_out h m).1, (move_out h m).2, move_bloat h m, move_asleep h m, c1, c2, c3, c4, c5, c6, c7, c8⟩

theorem inv_run {n : Nat} (h : Run c (start c) n s) : Inv c s := by
  induction h with
  | nil => exact inv_start c
  | step _ hs ih => exact inv_move ih hs.2

end Verif.Pipeline
