import Verif.Model.BlockHolder
import Verif.Lemmas.Bytes

/-! # C44, C46: median times and the sequence of blocks

For both block holders: `criStep` and `chiStep` are their `GenesisBlock`/`NextBlock` calls. A session is any sequence
of calls with any handles, ending at the first panic or error. -/

namespace Verif.BlockHolder

/-- A call of the user: `next` with the bytes that identify the block in the handle (its hash, or chi's handle). -/
inductive Op where
  | genesis
  | next (x : Bytes)

def criStep (e : Env) (s : State) : Op → State × Out
  | .genesis => criGenesis e s
  | .next x => criNext e s x

def chiStep (e : Env) (s : State) : Op → State × Out
  | .genesis => ((chiGenesis e s).1, (chiGenesis e s).2.1)
  | .next x => ((chiNext e s x).1, (chiNext e s x).2.1)

/-- A session: the final state, the blocks delivered, and whether every call succeeded. -/
def session (step : State → Op → State × Out) : List Op → State → List Held → State × List Held × Bool
  | [], s, d => (s, d, true)
  | o :: os, s, d =>
    match step s o with
    | (s', .block b) => session step os s' (d ++ [b])
    | (s', .done) => session step os s' d
    | (s', .err) => (s', d, false)
    | (s', .panicked) => (s', d, false)

/-! ## Specification -/

/-- `m` is the element at position `n/2` of the `n` numbers `w` in sorted order: at most `n/2` are smaller and more
than `n/2` are not greater. -/
def IsUpperMedian (m : Nat) (w : List Nat) : Prop :=
  m ∈ w ∧ w.countP (· < m) ≤ w.length / 2 ∧ w.length / 2 < w.countP (· ≤ m)

/-- The times of blocks `max(0,k-10) .. k`. -/
def lastEleven (times : List Nat) (k : Nat) : List Nat := (times.take (k + 1)).drop (k + 1 - 11)

/-- The calls on the indexer for a block at height `k` whose first transaction has height `t`. -/
def blockCalls (k t : Nat) (txids : List Bytes) : List Call :=
  .firstTrans k t :: (List.range txids.length).flatMap fun j =>
    [.parentBlock (t + j : Nat) k, .hashHeight (txids.getD j []) (t + j : Nat)]

/-- The number of transactions in blocks. -/
def txTotal (bs : List Blk) : Nat := (bs.map fun b => b.txids.length).sum

/-- All the calls on the indexer for a chain of blocks. -/
def allCalls (bs : List Blk) : List Call :=
  (List.range bs.length).flatMap fun k => blockCalls k (txTotal (bs.take k)) (bs.getD k ⟨[], [], 0, []⟩).txids

/-- A chain starting with the genesis block (recognised by the first four bytes of its hash). -/
def IsChain (bs : List Blk) : Prop :=
  (∀ b, bs[0]? = some b → b.hash.take 4 = [0x6f, 0xe2, 0x8c, 0x0a]) ∧
  ∀ (k : Nat) a b, bs[k]? = some a → bs[k + 1]? = some b → b.prev = a.hash

/-- What the sort must do. -/
def SortOK (sort : List Nat → List Nat) : Prop := ∀ l, (sort l).Perm l ∧ (sort l).Pairwise (· ≤ ·)

/-! ## Medians -/

theorem upperMedian_unique {m m' : Nat} {w : List Nat} (h : IsUpperMedian m w) (h' : IsUpperMedian m' w) : m = m' := by
  have key : ∀ a b, IsUpperMedian a w → IsUpperMedian b w → ¬ a < b := by
    intro a b ha hb hlt
    have : w.countP (· ≤ a) ≤ w.countP (· < b) := by
      apply List.countP_mono_left
      intro x _ hx
      simp only [decide_eq_true_eq] at hx ⊢
      omega
    have h1 := ha.2.2
    have h2 := hb.2.1
    omega
  have h1 := key m m' h h'
  have h2 := key m' m h' h
  omega

theorem sorted_median {l : List Nat} (hs : l.Pairwise (· ≤ ·)) (hne : l ≠ []) :
    IsUpperMedian (l.getD (l.length / 2) 0) l := by
  have hpos : 0 < l.length := List.length_pos_iff.mpr hne
  have hlt : l.length / 2 < l.length := by omega
  have hm : l.getD (l.length / 2) 0 = l[l.length / 2] := by
    rw [List.getD_eq_getElem?_getD, List.getElem?_eq_getElem hlt]; rfl
  rw [hm]
  have hle : ∀ i j (hi : i < l.length) (hj : j < l.length), i ≤ j → l[i] ≤ l[j] := by
    intro i j hi hj hij
    rcases Nat.lt_or_eq_of_le hij with h | h
    · exact List.pairwise_iff_getElem.mp hs i j hi hj h
    · subst h; exact Nat.le_refl _
  refine ⟨List.getElem_mem hlt, ?_, ?_⟩
  · have hsplit : ∀ p : Nat → Bool, l.countP p = (l.take (l.length / 2)).countP p + (l.drop (l.length / 2)).countP p := by
      intro p
      rw [← List.countP_append, List.take_append_drop]
    rw [hsplit]
    have h0 : (l.drop (l.length / 2)).countP (· < l[l.length / 2]) = 0 := by
      rw [List.countP_eq_zero]
      intro x hx
      obtain ⟨i, hi, rfl⟩ := List.getElem_of_mem hx
      rw [List.getElem_drop]
      have := hle (l.length / 2) (l.length / 2 + i) hlt (by rw [List.length_drop] at hi; omega) (by omega)
      simp only [decide_eq_true_eq]
      omega
    rw [h0]
    have := List.countP_le_length (p := fun x => decide (x < l[l.length / 2])) (l := l.take (l.length / 2))
    rw [List.length_take] at this
    omega
  · have h1 : (l.take (l.length / 2 + 1)).countP (· ≤ l[l.length / 2]) = l.length / 2 + 1 := by
      have : (l.take (l.length / 2 + 1)).length = l.length / 2 + 1 := by rw [List.length_take]; omega
      conv => rhs; rw [← this]
      rw [List.countP_eq_length]
      intro x hx
      obtain ⟨i, hi, rfl⟩ := List.getElem_of_mem hx
      rw [List.getElem_take]
      rw [this] at hi
      have := hle i (l.length / 2) (by omega) hlt (by omega)
      simpa using this
    have h2 := List.Sublist.countP_le (p := fun x => decide (x ≤ l[l.length / 2])) (List.take_sublist (l.length / 2 + 1) l)
    omega

theorem sort_median {sort : List Nat → List Nat} (hs : SortOK sort) {w : List Nat} (hne : w ≠ []) :
    IsUpperMedian ((sort w).getD (w.length / 2) 0) w := by
  obtain ⟨hp, hsort⟩ := hs w
  have hl := hp.length_eq
  have h := sorted_median hsort (by
    intro h0
    rw [h0] at hl
    exact hne (List.length_eq_zero_iff.mp hl.symm))
  rw [hl] at h
  obtain ⟨h1, h2, h3⟩ := h
  rw [hp.countP_eq, hl] at h2
  rw [hp.countP_eq, hl] at h3
  exact ⟨hp.mem_iff.mp h1, h2, h3⟩

/-- The window kept after `d` blocks. -/
def window (times : List Nat) : List Nat := times.drop (times.length - 11)

theorem medianTime_eq (e : Env) (hs : SortOK e.sort) (times : List Nat) (t : Nat) :
    (medianTime e (window times) t).1 = window (times ++ [t]) ∧
      IsUpperMedian (medianTime e (window times) t).2 (window (times ++ [t])) := by
  have hw : (if (window times ++ [t]).length > 11 then (window times ++ [t]).drop 1 else window times ++ [t]) =
      window (times ++ [t]) := by
    unfold window
    rw [List.length_append, List.length_drop, List.length_append]
    simp only [List.length_cons, List.length_nil]
    by_cases h : times.length - (times.length - 11) + (0 + 1) > 11
    · rw [if_pos h, ← List.drop_append_of_le_length (by omega), List.drop_drop]
      congr 1
      omega
    · rw [if_neg h, show times.length + (0 + 1) - 11 = 0 by omega, show times.length - 11 = 0 by omega, List.drop_zero,
        List.drop_zero]
  unfold medianTime
  dsimp only
  rw [hw]
  refine ⟨rfl, sort_median hs ?_⟩
  unfold window
  intro h0
  have := congrArg List.length h0
  rw [List.length_drop, List.length_append] at this
  simp at this
  omega

/-! ## The indexer -/

theorem gatherLoop_ok (e : Env) (k : Nat) (xs : List Bytes) (t : Nat) (calls : List Call) (r : List Call × Int × Bool)
    (hr : gatherLoop e k xs ((t : Int) - 1) calls = r) (hok : r.2.2 = true) :
    r.1 = calls ++ ((List.range xs.length).flatMap fun j =>
      [Call.parentBlock (t + j : Nat) k, .hashHeight (xs.getD j []) (t + j : Nat)]) ∧ r.2.1 = (t : Int) + xs.length - 1 := by
  induction xs generalizing t calls with
  | nil =>
    simp only [gatherLoop] at hr
    subst hr
    simp
  | cons x xs ih =>
    unfold gatherLoop at hr
    dsimp only at hr
    split at hr
    · subst hr; cases hok
    · split at hr
      · subst hr; cases hok
      · rw [show (t : Int) - 1 + 1 = ((t + 1 : Nat) : Int) - 1 by omega] at hr
        obtain ⟨h1, h2⟩ := ih (t + 1) _ hr
        refine ⟨?_, by rw [h2, List.length_cons]; omega⟩
        rw [h1]
        unfold call
        dsimp only
        rw [List.length_cons, List.range_succ_eq_map, List.flatMap_cons, List.flatMap_map]
        have e1 : ((t + 1 : Nat) : Int) - 1 = ((t + 0 : Nat) : Int) := by omega
        have e2 : ∀ j, t + 1 + j = t + (j + 1) := by intro j; omega
        simp only [e1, e2, List.getD_cons_zero, List.getD_cons_succ, List.append_assoc, List.cons_append, List.nil_append,
          Nat.succ_eq_add_one]

theorem txTotal_append (a b : List Blk) : txTotal (a ++ b) = txTotal a + txTotal b := by
  unfold txTotal; rw [List.map_append, List.sum_append]

theorem allCalls_append (bs : List Blk) (b : Blk) :
    allCalls (bs ++ [b]) = allCalls bs ++ blockCalls bs.length (txTotal bs) b.txids := by
  unfold allCalls
  rw [List.length_append, List.length_cons, List.length_nil, List.range_succ, List.flatMap_append]
  congr 1
  · unfold List.flatMap
    congr 1
    apply List.map_congr_left
    intro k hk
    rw [List.mem_range] at hk
    rw [List.take_append_of_le_length (by omega), List.getD_eq_getElem?_getD, List.getElem?_append_left (by omega),
      ← List.getD_eq_getElem?_getD]
  · rw [List.flatMap_cons, List.flatMap_nil, List.append_nil, List.take_left' rfl, List.getD_eq_getElem?_getD,
      List.getElem?_append_right (Nat.le_refl _)]
    simp

/-! ## The invariant -/

/-- The state after the blocks `d` have been delivered from the stream `input`. -/
structure Inv (e : Env) (chi : Bool) (input : List (Option Blk)) (s : State) (d : List Held) : Prop where
  start : d = [] → s.input = input
  cur : s.cur = d.getLast?
  height : chi = false → s.height = (d.length : Int) - 1
  times : s.times = window (d.map fun b => b.blk.time)
  latest : e.indexer = true → s.latest = (txTotal (d.map Held.blk) : Int) - 1
  calls : s.calls = if e.indexer then allCalls (d.map Held.blk) else []
  left : s.input.filterMap id = (input.filterMap id).drop d.length
  given : d.map Held.blk = (input.filterMap id).take d.length
  chain : IsChain (d.map Held.blk)
  heights : ∀ (k : Nat) b, d[k]? = some b → b.height = k
  medians : ∀ (k : Nat) b, d[k]? = some b → IsUpperMedian b.median (lastEleven (d.map fun b => b.blk.time) k)

theorem inv_create (e : Env) (chi : Bool) (input : List (Option Blk)) : Inv e chi input (create input) [] := by
  refine ⟨fun _ => rfl, rfl, fun _ => rfl, rfl, fun _ => rfl, ?_, rfl, rfl, ⟨?_, ?_⟩, ?_, ?_⟩
  · unfold create allCalls; split <;> rfl
  · simp
  · simp
  · simp
  · simp

theorem gather_ok (e : Env) (s : State) (b : Held) (k t : Nat) (hk : b.height = k) (hl : e.indexer = true → s.latest = (t : Int) - 1)
    (s' : State) (h : gather e s b = (s', true)) :
    s'.cur = s.cur ∧ s'.height = s.height ∧ s'.times = s.times ∧ s'.input = s.input ∧
    (e.indexer = true → s'.latest = ((t + b.blk.txids.length : Nat) : Int) - 1) ∧
    s'.calls = if e.indexer then s.calls ++ blockCalls k t b.blk.txids else s.calls := by
  unfold gather at h
  cases he : e.indexer with
  | false =>
    rw [if_pos he] at h
    cases h
    simp
  | true =>
    rw [if_neg (by simp [he])] at h
    dsimp only at h
    have hl' := hl he
    rw [hl', hk] at h
    split at h
    · cases h
    · split at h
      · cases h
      · rename_i hg
        have hg' : (gatherLoop e k b.blk.txids ((t : Int) - 1) (call e s.calls (.firstTrans k ((t : Int) - 1 + 1))).1).2.2 = true := by
          cases hh : (gatherLoop e k b.blk.txids ((t : Int) - 1) (call e s.calls (.firstTrans k ((t : Int) - 1 + 1))).1).2.2 with
          | true => rfl
          | false => exact absurd hh hg
        obtain ⟨h1, h2⟩ := gatherLoop_ok e k b.blk.txids t _ _ rfl hg'
        cases h
        refine ⟨rfl, rfl, rfl, rfl, ?_, ?_⟩
        · intro _
          dsimp only
          rw [h2]
          omega
        · dsimp only
          rw [h1, if_pos rfl]
          unfold call blockCalls
          dsimp only
          rw [List.append_assoc, show (t : Int) - 1 + 1 = t by omega]
          rfl

theorem receive_none {s : State} (h : (receive s).1 = none) :
    (receive s).2.input.filterMap id = s.input.filterMap id ∧ (receive s).2 = { s with input := (receive s).2.input } := by
  unfold receive at h ⊢
  split
  · exact ⟨rfl, rfl⟩
  · rename_i b rest he
    rw [he] at h
    dsimp only at h
    subst h
    exact ⟨by rw [he]; rfl, rfl⟩

theorem receive_some {s : State} {b : Blk} (h : (receive s).1 = some b) :
    s.input.filterMap id = b :: (receive s).2.input.filterMap id ∧ (receive s).2 = { s with input := (receive s).2.input } := by
  unfold receive at h ⊢
  split
  · rename_i he
    rw [he] at h
    cases h
  · rename_i b' rest he
    rw [he] at h
    dsimp only at h
    subst h
    exact ⟨by rw [he]; rfl, rfl⟩

theorem lastEleven_last (ts : List Nat) (t : Nat) : lastEleven (ts ++ [t]) ts.length = window (ts ++ [t]) := by
  unfold lastEleven window
  rw [List.length_append, List.take_of_length_le (by simp)]
  rfl

/-- A block delivered next keeps the invariant. -/
theorem inv_deliver {e : Env} (hs : SortOK e.sort) {chi : Bool} {input : List (Option Blk)} {s : State} {d : List Held}
    (hi : Inv e chi input s d) {b : Blk} {s1 s2 : State} (hin : s.input.filterMap id = b :: s1.input.filterMap id)
    (hs1 : s1.latest = s.latest ∧ s1.calls = s.calls)
    (hcur : s1.cur = some ⟨b, d.length, (medianTime e s.times b.time).2⟩)
    (hh : chi = false → s1.height = (d.length : Int)) (ht : s1.times = (medianTime e s.times b.time).1)
    (hg : gather e s1 ⟨b, d.length, (medianTime e s.times b.time).2⟩ = (s2, true))
    (hfirst : d = [] → b.hash.take 4 = [0x6f, 0xe2, 0x8c, 0x0a])
    (hlink : ∀ a, d.getLast? = some a → b.prev = a.blk.hash) :
    Inv e chi input s2 (d ++ [⟨b, d.length, (medianTime e s.times b.time).2⟩]) := by
  obtain ⟨g1, g2, g3, g4, g5, g6⟩ := gather_ok e s1 _ d.length (txTotal (d.map Held.blk)) rfl
    (fun h => by rw [hs1.1]; exact hi.latest h) s2 hg
  have hmap : (d ++ [(⟨b, d.length, (medianTime e s.times b.time).2⟩ : Held)]).map (fun b => b.blk.time) =
      (d.map fun b => b.blk.time) ++ [b.time] := by rw [List.map_append]; rfl
  have hmapb : (d ++ [(⟨b, d.length, (medianTime e s.times b.time).2⟩ : Held)]).map Held.blk = d.map Held.blk ++ [b] := by
    rw [List.map_append]; rfl
  have hm := medianTime_eq e hs (d.map fun b => b.blk.time) b.time
  rw [← hi.times] at hm
  refine ⟨?_, ?_, ?_, ?_, ?_, ?_, ?_, ?_, ?_, ?_, ?_⟩
  · intro h; simp at h
  · rw [g1, hcur]; simp
  · intro hc
    rw [g2, hh hc, List.length_append]
    simp
  · rw [g3, ht, hmap, hm.1]
  · intro he
    rw [g5 he, hmapb, txTotal_append]
    simp [txTotal]
  · rw [g6, hs1.2, hi.calls, hmapb, allCalls_append]
    cases e.indexer with
    | false => rfl
    | true => rw [if_pos rfl, if_pos rfl, if_pos rfl, List.length_map]
  · rw [g4, List.length_append, List.length_cons, List.length_nil, ← List.drop_drop, ← hi.left, hin]
    rfl
  · rw [hmapb, hi.given, List.length_append, List.length_cons, List.length_nil, Nat.zero_add, List.take_add_one]
    congr 1
    have : (input.filterMap id)[d.length]? = some b := by
      rw [← List.head?_drop, ← hi.left, hin]; rfl
    rw [this]
    rfl
  · rw [hmapb]
    constructor
    · intro a ha
      cases d with
      | nil =>
        simp only [List.map_nil, List.nil_append, List.getElem?_cons_zero, Option.some.injEq] at ha
        subst ha
        exact hfirst rfl
      | cons x d =>
        rw [List.map_cons, List.cons_append, List.getElem?_cons_zero] at ha
        exact hi.chain.1 a (by rw [List.map_cons, List.getElem?_cons_zero]; exact ha)
    · intro k x y hx hy
      by_cases hk : k + 1 < d.length
      · rw [List.getElem?_append_left (by rw [List.length_map]; omega)] at hx hy
        exact hi.chain.2 k x y hx hy
      · have hlt := (List.getElem?_eq_some_iff.mp hy).1
        rw [List.length_append, List.length_map, List.length_cons, List.length_nil] at hlt
        have hk' : k + 1 = d.length := by omega
        rw [List.getElem?_append_right (by rw [List.length_map]; omega), List.length_map, hk', Nat.sub_self] at hy
        simp only [List.getElem?_cons_zero, Option.some.injEq] at hy
        subst hy
        rw [List.getElem?_append_left (by rw [List.length_map]; omega), List.getElem?_map] at hx
        obtain ⟨a, ha, rfl⟩ := Option.map_eq_some_iff.mp hx
        exact hlink a (by rw [List.getLast?_eq_getElem?, ← hk', Nat.add_sub_cancel]; exact ha)
  · intro k x hx
    by_cases hk : k < d.length
    · rw [List.getElem?_append_left hk] at hx
      exact hi.heights k x hx
    · have hlt := (List.getElem?_eq_some_iff.mp hx).1
      rw [List.length_append, List.length_cons, List.length_nil] at hlt
      have hk' : k = d.length := by omega
      subst hk'
      rw [List.getElem?_append_right (Nat.le_refl _), Nat.sub_self] at hx
      simp only [List.getElem?_cons_zero, Option.some.injEq] at hx
      subst hx
      rfl
  · intro k x hx
    rw [hmap]
    by_cases hk : k < d.length
    · rw [List.getElem?_append_left hk] at hx
      have := hi.medians k x hx
      unfold lastEleven at this ⊢
      rw [List.take_append_of_le_length (by rw [List.length_map]; omega)]
      exact this
    · have hlt := (List.getElem?_eq_some_iff.mp hx).1
      rw [List.length_append, List.length_cons, List.length_nil] at hlt
      have hk' : k = d.length := by omega
      subst hk'
      rw [List.getElem?_append_right (Nat.le_refl _), Nat.sub_self] at hx
      simp only [List.getElem?_cons_zero, Option.some.injEq] at hx
      subst hx
      have := lastEleven_last (d.map fun b => b.blk.time) b.time
      rw [List.length_map] at this
      rw [this]
      exact hm.2

/-- What a step of a holder must do. -/
def StepOK (e : Env) (chi : Bool) (step : State → Op → State × Out) : Prop :=
  ∀ input s d o, Inv e chi input s d →
    (∀ s' b, step s o = (s', .block b) → Inv e chi input s' (d ++ [b])) ∧
    (∀ s', step s o = (s', .done) → Inv e chi input s' d)

theorem looksLikeGenesis_iff (h : Bytes) (hl : looksLikeGenesis h = true) : h.take 4 = [0x6f, 0xe2, 0x8c, 0x0a] := by
  unfold looksLikeGenesis at hl
  simp only [Bool.and_eq_true, decide_eq_true_eq] at hl
  obtain ⟨⟨⟨h0, h1⟩, h2⟩, h3⟩ := hl
  match h, h0, h1, h2, h3 with
  | a :: b :: c :: d :: _, h0, h1, h2, h3 =>
    simp at h0 h1 h2 h3
    simp [h0, h1, h2, h3]

theorem inv_skip {e : Env} {chi : Bool} {input : List (Option Blk)} {s : State} {d : List Held}
    (hi : Inv e chi input s d) (hd : d ≠ []) (hr : (receive s).1 = none) : Inv e chi input (receive s).2 d := by
  obtain ⟨h1, h2⟩ := receive_none hr
  refine ⟨fun h => absurd h hd, ?_, ?_, ?_, ?_, ?_, by rw [h1]; exact hi.left, hi.given, hi.chain, hi.heights, hi.medians⟩
  · rw [h2]; exact hi.cur
  · rw [h2]; exact hi.height
  · rw [h2]; exact hi.times
  · rw [h2]; exact hi.latest
  · rw [h2]; exact hi.calls

theorem cri_step_ok (e : Env) (hs : SortOK e.sort) : StepOK e false (criStep e) := by
  intro input s d o hi
  cases o with
  | genesis =>
    have hstep : ∀ s' out, criGenesis e s = (s', out) → out ≠ .done ∧ ∀ b, out = .block b → Inv e false input s' (d ++ [b]) := by
      intro s' out h
      unfold criGenesis at h
      split at h
      · cases h; simp
      · rename_i hh
        dsimp only at h
        have hd : d = [] := by
          have := hi.height rfl
          have h0 : d.length = 0 := by
            simp only [Decidable.not_not] at hh
            omega
          exact List.length_eq_zero_iff.mp h0
        split at h
        · cases h; simp
        · rename_i b hr
          obtain ⟨r1, r2⟩ := receive_some hr
          split at h
          · cases h; simp
          · rename_i hg
            split at h
            · rename_i hlook
              cases h
              refine ⟨by simp, ?_⟩
              intro b' hb'
              cases hb'
              subst hd
              have ht : (receive s).2.times = s.times := by rw [r2]
              rw [ht] at hg ⊢
              exact inv_deliver hs hi r1 (s1 := { (receive s).2 with
                  times := (medianTime e s.times b.time).1, cur := some ⟨b, 0, (medianTime e s.times b.time).2⟩, height := 0 })
                (by rw [r2]; exact ⟨rfl, rfl⟩) rfl (fun _ => rfl) rfl
                (Prod.ext rfl (by simpa using hg)) (fun _ => looksLikeGenesis_iff _ hlook) (by simp)
            · cases h; simp
    exact ⟨fun s' b h => (hstep s' _ h).2 b rfl, fun s' h => absurd rfl (hstep s' _ h).1⟩
  | next x =>
    have hstep : ∀ s' out, criNext e s x = (s', out) → (out = .done → Inv e false input s' d) ∧
        ∀ b, out = .block b → Inv e false input s' (d ++ [b]) := by
      intro s' out h
      unfold criNext at h
      split at h
      · cases h; simp
      · rename_i cur hcur
        have hlast : d.getLast? = some cur := by rw [← hi.cur]; exact hcur
        have hd : d ≠ [] := by intro h0; rw [h0] at hlast; cases hlast
        split at h
        · cases h; simp
        · rename_i hx
          simp only [Decidable.not_not] at hx
          dsimp only at h
          split at h
          · rename_i hr
            cases h
            exact ⟨fun _ => inv_skip hi hd hr, by simp⟩
          · rename_i b hr
            obtain ⟨r1, r2⟩ := receive_some hr
            have ht : (receive s).2.times = s.times := by rw [r2]
            have hhe : (receive s).2.height + 1 = d.length := by
              rw [r2]
              have := hi.height rfl
              dsimp only
              omega
            rw [ht, hhe] at h
            split at h
            · cases h; simp
            · rename_i hprev
              simp only [Decidable.not_not] at hprev
              split at h
              · cases h; simp
              · rename_i hg
                cases h
                refine ⟨by simp, ?_⟩
                intro b' hb'
                cases hb'
                exact inv_deliver hs hi r1 (s1 := { (receive s).2 with
                    times := (medianTime e s.times b.time).1, cur := some ⟨b, d.length, (medianTime e s.times b.time).2⟩
                    height := d.length })
                  (by rw [r2]; exact ⟨rfl, rfl⟩) rfl (fun _ => rfl) rfl
                  (Prod.ext rfl (by simpa using hg)) (fun h => absurd h hd)
                  (by intro a ha; rw [hlast] at ha; cases ha; rw [hprev, hx])
    exact ⟨fun s' b h => (hstep s' _ h).2 b rfl, fun s' h => (hstep s' _ h).1 rfl⟩

theorem chi_step_ok (e : Env) (hs : SortOK e.sort) : StepOK e true (chiStep e) := by
  intro input s d o hi
  cases o with
  | genesis =>
    have hstep : ∀ s' out x, chiGenesis e s = (s', out, x) → out ≠ .done ∧ ∀ b, out = .block b → Inv e true input s' (d ++ [b]) := by
      intro s' out x h
      unfold chiGenesis at h
      split at h
      · cases h; simp
      · rename_i hh
        dsimp only at h
        have hd : d = [] := by
          rw [hi.cur] at hh
          cases d with
          | nil => rfl
          | cons a l => simp [List.getLast?_cons] at hh
        split at h
        · cases h; simp
        · rename_i b hr
          obtain ⟨r1, r2⟩ := receive_some hr
          split at h
          · cases h; simp
          · rename_i hg
            split at h
            · rename_i hlook
              cases h
              refine ⟨by simp, ?_⟩
              intro b' hb'
              cases hb'
              subst hd
              have ht : (receive s).2.times = s.times := by rw [r2]
              rw [ht] at hg ⊢
              exact inv_deliver hs hi r1 (s1 := { (receive s).2 with
                  times := (medianTime e s.times b.time).1, cur := some ⟨b, 0, (medianTime e s.times b.time).2⟩ })
                (by rw [r2]; exact ⟨rfl, rfl⟩) rfl (fun h => by cases h) rfl
                (Prod.ext rfl (by simpa using hg)) (fun _ => looksLikeGenesis_iff _ hlook) (by simp)
            · cases h; simp
    constructor
    · intro s' b h
      have := Prod.mk.inj h
      exact (hstep s' (.block b) _ (Prod.ext this.1 (Prod.ext this.2 rfl))).2 b rfl
    · intro s' h
      have := Prod.mk.inj h
      exact absurd rfl (hstep s' .done _ (Prod.ext this.1 (Prod.ext this.2 rfl))).1
  | next x =>
    have hstep : ∀ s' out y, chiNext e s x = (s', out, y) → (out = .done → Inv e true input s' d) ∧
        ∀ b, out = .block b → Inv e true input s' (d ++ [b]) := by
      intro s' out y h
      unfold chiNext at h
      split at h
      · cases h; simp
      · rename_i cur hcur
        have hlast : d.getLast? = some cur := by rw [← hi.cur]; exact hcur
        have hd : d ≠ [] := by intro h0; rw [h0] at hlast; cases hlast
        split at h
        · cases h; simp
        · rename_i hx
          simp only [Decidable.not_not] at hx
          dsimp only at h
          split at h
          · rename_i hr
            cases h
            exact ⟨fun _ => inv_skip hi hd hr, by simp⟩
          · rename_i b hr
            obtain ⟨r1, r2⟩ := receive_some hr
            have ht : (receive s).2.times = s.times := by rw [r2]
            have hhe : (leDec x : Int) + 1 = d.length := by
              have hlen : 0 < d.length := List.length_pos_iff.mpr hd
              rw [hx, hi.heights (d.length - 1) cur (by rw [← List.getLast?_eq_getElem?]; exact hlast)]
              omega
            rw [ht, hhe] at h
            split at h
            · cases h; simp
            · rename_i hprev
              simp only [Decidable.not_not] at hprev
              split at h
              · cases h; simp
              · rename_i hg
                have hI := inv_deliver hs hi r1 (s1 := { (receive s).2 with
                    times := (medianTime e s.times b.time).1, cur := some ⟨b, d.length, (medianTime e s.times b.time).2⟩ })
                  (by rw [r2]; exact ⟨rfl, rfl⟩) rfl (fun h => by cases h) rfl
                  (Prod.ext rfl (by simpa using hg)) (fun h => absurd h hd)
                  (by intro a ha; rw [hlast] at ha; cases ha; rw [hprev])
                split at h
                · cases h; simp
                · cases h
                  refine ⟨by simp, ?_⟩
                  intro b' hb'
                  cases hb'
                  exact hI
    constructor
    · intro s' b h
      have := Prod.mk.inj h
      exact (hstep s' (.block b) _ (Prod.ext this.1 (Prod.ext this.2 rfl))).2 b rfl
    · intro s' h
      have := Prod.mk.inj h
      exact (hstep s' .done _ (Prod.ext this.1 (Prod.ext this.2 rfl))).1 rfl

/-! ## Sessions -/

theorem session_inv {e : Env} {chi : Bool} {step : State → Op → State × Out} (hstep : StepOK e chi step)
    {input : List (Option Blk)} (ops : List Op) (s : State) (d : List Held) (hi : Inv e chi input s d) :
    ∃ s', Inv e chi input s' (session step ops s d).2.1 ∧
      ((session step ops s d).2.2 = true → (session step ops s d).1 = s') := by
  induction ops generalizing s d with
  | nil => exact ⟨s, hi, fun _ => rfl⟩
  | cons o ops ih =>
    unfold session
    split
    · rename_i s' b h
      exact ih _ _ ((hstep input s d o hi).1 _ _ h)
    · rename_i s' h
      exact ih _ _ ((hstep input s d o hi).2 _ h)
    · exact ⟨s, hi, fun h => by cases h⟩
    · exact ⟨s, hi, fun h => by cases h⟩

/-- What is claimed of the blocks delivered by a holder in a session. -/
structure InSequence (input : List (Option Blk)) (d : List Held) : Prop where
  chain : IsChain (d.map Held.blk)
  given : d.map Held.blk = (input.filterMap id).take d.length
  heights : ∀ (k : Nat) b, d[k]? = some b → b.height = k

/-- C46 (cri): whatever comes in and whatever is asked, the blocks delivered are the blocks given, in order, without
gaps, starting with the genesis block, each having the hash of the one before as its previous hash, and with
consecutive heights. -/
theorem cri_blocks_in_sequence (e : Env) (hs : SortOK e.sort) (input : List (Option Blk)) (ops : List Op) :
    InSequence input (session (criStep e) ops (create input) []).2.1 := by
  obtain ⟨s', hi, _⟩ := session_inv (cri_step_ok e hs) ops _ _ (inv_create e false input)
  exact ⟨hi.chain, hi.given, hi.heights⟩

/-- C46 (chi). -/
theorem chi_blocks_in_sequence (e : Env) (hs : SortOK e.sort) (input : List (Option Blk)) (ops : List Op) :
    InSequence input (session (chiStep e) ops (create input) []).2.1 := by
  obtain ⟨s', hi, _⟩ := session_inv (chi_step_ok e hs) ops _ _ (inv_create e true input)
  exact ⟨hi.chain, hi.given, hi.heights⟩

/-- C46 (cri): the indexer is told consecutive heights: block `k` starts at the number of transactions before it, and
its transactions get the heights from there on. -/
theorem cri_heights_consecutive (e : Env) (hs : SortOK e.sort) (hidx : e.indexer = true) (input : List (Option Blk))
    (ops : List Op) (hok : (session (criStep e) ops (create input) []).2.2 = true) :
    (session (criStep e) ops (create input) []).1.calls =
      allCalls ((session (criStep e) ops (create input) []).2.1.map Held.blk) := by
  obtain ⟨s', hi, h⟩ := session_inv (cri_step_ok e hs) ops _ _ (inv_create e false input)
  rw [h hok, hi.calls, if_pos hidx]

/-- C46 (chi). -/
theorem chi_heights_consecutive (e : Env) (hs : SortOK e.sort) (hidx : e.indexer = true) (input : List (Option Blk))
    (ops : List Op) (hok : (session (chiStep e) ops (create input) []).2.2 = true) :
    (session (chiStep e) ops (create input) []).1.calls =
      allCalls ((session (chiStep e) ops (create input) []).2.1.map Held.blk) := by
  obtain ⟨s', hi, h⟩ := session_inv (chi_step_ok e hs) ops _ _ (inv_create e true input)
  rw [h hok, hi.calls, if_pos hidx]

/-- C44 (cri): the median time reported for the `k`-th block is the upper median of the times of the blocks
`max(0,k-10) .. k`. -/
theorem cri_median_time (e : Env) (hs : SortOK e.sort) (input : List (Option Blk)) (ops : List Op) (k : Nat) (b : Held)
    (hb : (session (criStep e) ops (create input) []).2.1[k]? = some b) :
    IsUpperMedian b.median
      (lastEleven ((session (criStep e) ops (create input) []).2.1.map fun b => b.blk.time) k) := by
  obtain ⟨s', hi, _⟩ := session_inv (cri_step_ok e hs) ops _ _ (inv_create e false input)
  exact hi.medians k b hb

/-- C44 (chi). -/
theorem chi_median_time (e : Env) (hs : SortOK e.sort) (input : List (Option Blk)) (ops : List Op) (k : Nat) (b : Held)
    (hb : (session (chiStep e) ops (create input) []).2.1[k]? = some b) :
    IsUpperMedian b.median
      (lastEleven ((session (chiStep e) ops (create input) []).2.1.map fun b => b.blk.time) k) := by
  obtain ⟨s', hi, _⟩ := session_inv (chi_step_ok e hs) ops _ _ (inv_create e true input)
  exact hi.medians k b hb

theorem looksLikeGenesis_of_take (h : Bytes) (hl : h.take 4 = [0x6f, 0xe2, 0x8c, 0x0a]) : looksLikeGenesis h = true := by
  match h, hl with
  | a :: b :: c :: d :: _, hl =>
    simp at hl
    simp [looksLikeGenesis, hl]

/-- C46 (cri): when the next block does not continue the chain delivered so far, every call panics. -/
theorem cri_rejects (e : Env) (hs : SortOK e.sort) (input : List (Option Blk)) (ops : List Op)
    (hok : (session (criStep e) ops (create input) []).2.2 = true) (b : Blk) (rest : List (Option Blk))
    (hin : (session (criStep e) ops (create input) []).1.input = some b :: rest)
    (hbad : ¬ IsChain ((session (criStep e) ops (create input) []).2.1.map Held.blk ++ [b])) (o : Op) :
    (criStep e (session (criStep e) ops (create input) []).1 o).2 = .panicked := by
  obtain ⟨s', hi, h⟩ := session_inv (cri_step_ok e hs) ops _ _ (inv_create e false input)
  rw [h hok] at hin ⊢
  generalize (session (criStep e) ops (create input) []).2.1 = d at hi hbad
  -- otherwise a block would have been delivered and the chain continued
  have hr : receive s' = (some b, { s' with input := rest }) := by unfold receive; rw [hin]
  have hfalse : ∀ s2 held, criStep e s' o = (s2, .block held) → held.blk = b → False := by
    intro s2 held h2 hb
    have := ((cri_step_ok e hs) input s' d o hi).1 _ _ h2
    have hc := this.chain
    rw [List.map_append, List.map_cons, List.map_nil, hb] at hc
    exact hbad hc
  cases o with
  | genesis =>
    have hf := hfalse
    unfold criStep at hf ⊢
    unfold criGenesis at hf ⊢
    dsimp only at hf ⊢
    rw [hr] at hf ⊢
    dsimp only at hf ⊢
    split
    · rfl
    · rename_i h1
      split
      · rfl
      · rename_i h2
        split
        · rename_i h3
          rw [if_neg h1, if_neg h2, if_pos h3] at hf
          exact absurd rfl (fun h => hf _ _ rfl h)
        · rfl
  | next x =>
    unfold criStep criNext
    dsimp only
    split
    · rfl
    · rename_i cur hcur
      rw [hr]
      dsimp only
      split
      · rfl
      · rename_i hx
        simp only [Decidable.not_not] at hx
        split
        · rfl
        · rename_i hp
          simp only [Decidable.not_not] at hp
          exfalso
          apply hbad
          have hlast : d.getLast? = some cur := by rw [← hi.cur]; exact hcur
          have hlen : 0 < d.length := by
            cases d with
            | nil => cases hlast
            | cons a l => simp
          constructor
          · intro a ha
            rw [List.getElem?_append_left (by rw [List.length_map]; exact hlen)] at ha
            exact hi.chain.1 a ha
          · intro k y z hy hz
            by_cases hk : k + 1 < d.length
            · rw [List.getElem?_append_left (by rw [List.length_map]; omega)] at hy hz
              exact hi.chain.2 k y z hy hz
            · have hlt := (List.getElem?_eq_some_iff.mp hz).1
              rw [List.length_append, List.length_map, List.length_cons, List.length_nil] at hlt
              have hk' : k + 1 = d.length := by omega
              rw [List.getElem?_append_right (by rw [List.length_map]; omega), List.length_map, hk', Nat.sub_self] at hz
              simp only [List.getElem?_cons_zero, Option.some.injEq] at hz
              subst hz
              rw [List.getElem?_append_left (by rw [List.length_map]; omega), List.getElem?_map] at hy
              obtain ⟨a, ha, rfl⟩ := Option.map_eq_some_iff.mp hy
              rw [List.getLast?_eq_getElem?, ← hk', Nat.add_sub_cancel, ha] at hlast
              cases hlast
              rw [hp, hx]

/-- A block with another previous hash does not continue a chain (this is the hypothesis of `cri_rejects`). -/
theorem not_chain_of_prev {bs : List Blk} {a b : Blk} (ha : bs.getLast? = some a) (h : b.prev ≠ a.hash) : ¬ IsChain (bs ++ [b]) := by
  intro hc
  have hlen : 0 < bs.length := by
    cases bs with
    | nil => cases ha
    | cons a l => simp
  apply h
  refine hc.2 (bs.length - 1) a b ?_ ?_
  · rw [List.getElem?_append_left (by omega), ← List.getLast?_eq_getElem?]; exact ha
  · rw [List.getElem?_append_right (by omega), show bs.length - 1 + 1 - bs.length = 0 by omega]; rfl

/-- C46 (chi): when the next block does not have the current block's hash as previous hash, every call panics. -/
theorem chi_rejects (e : Env) (s : State) (cur : Held) (hcur : s.cur = some cur) (b : Blk) (rest : List (Option Blk))
    (hin : s.input = some b :: rest) (hbad : b.prev ≠ cur.blk.hash) (o : Op) : (chiStep e s o).2 = .panicked := by
  have hr : receive s = (some b, { s with input := rest }) := by unfold receive; rw [hin]
  cases o with
  | genesis =>
    unfold chiStep chiGenesis
    dsimp only
    rw [hcur]
    rfl
  | next x =>
    unfold chiStep chiNext
    dsimp only
    rw [hcur]
    dsimp only
    split
    · rfl
    · rw [hr]
      dsimp only
      rw [if_pos hbad]

/-- C46 (chi): a first block without the genesis hash bytes is not delivered. -/
theorem chi_rejects_first (e : Env) (b : Blk) (rest : List (Option Blk)) (hbad : b.hash.take 4 ≠ [0x6f, 0xe2, 0x8c, 0x0a])
    (o : Op) : (chiStep e (create (some b :: rest)) o).2 = .panicked ∨ (chiStep e (create (some b :: rest)) o).2 = .err := by
  have hl : looksLikeGenesis b.hash = false := by
    cases h : looksLikeGenesis b.hash with
    | false => rfl
    | true => exact absurd (looksLikeGenesis_iff _ h) hbad
  cases o with
  | genesis =>
    have hr : receive (create (some b :: rest)) = (some b, create rest) := rfl
    unfold chiStep chiGenesis
    dsimp only
    rw [if_neg (show ¬ (create (some b :: rest)).cur.isSome = true by simp [create]), hr]
    dsimp only
    split
    · exact Or.inr rfl
    · rw [hl]
      exact Or.inl rfl
  | next x => exact Or.inl rfl

/-! ## A good stream is delivered -/

theorem gather_accepts (e : Env) (ha : ∀ l c, e.accepts l c = true) (s : State) (b : Held) : ∃ s', gather e s b = (s', true) := by
  have hl : ∀ xs k h calls, ∃ r, gatherLoop e k xs h calls = r ∧ r.2.2 = true := by
    intro xs
    induction xs with
    | nil => intro k h calls; exact ⟨_, rfl, rfl⟩
    | cons x xs ih =>
      intro k h calls
      unfold gatherLoop call
      dsimp only
      rw [ha, ha, if_neg (by simp), if_neg (by simp)]
      exact ih k _ _
  unfold gather
  split
  · exact ⟨_, rfl⟩
  · unfold call
    dsimp only
    rw [ha, if_neg (by simp)]
    obtain ⟨r, h1, h2⟩ := hl b.blk.txids b.height s.latest (s.calls ++ [Call.firstTrans b.height (s.latest + 1)])
    rw [h1, h2, if_neg (by simp)]
    exact ⟨_, rfl⟩

theorem session_append (step : State → Op → State × Out) (a b : List Op) (s : State) (d : List Held)
    (h : (session step a s d).2.2 = true) :
    session step (a ++ b) s d = session step b (session step a s d).1 (session step a s d).2.1 := by
  induction a generalizing s d with
  | nil => rfl
  | cons o a ih =>
    have hc : ∀ os s d, session step (o :: os) s d = match step s o with
      | (s', .block b) => session step os s' (d ++ [b])
      | (s', .done) => session step os s' d
      | (s', .err) => (s', d, false)
      | (s', .panicked) => (s', d, false) := fun _ _ _ => rfl
    rw [List.cons_append, hc, hc]
    rw [hc] at h
    split
    · rename_i s' x hx
      rw [hx] at h
      exact ih _ _ h
    · rename_i s' hx
      rw [hx] at h
      exact ih _ _ h
    · rename_i s' hx
      rw [hx] at h
      cases h
    · rename_i s' hx
      rw [hx] at h
      cases h

/-- C46 (cri): a chain is delivered in full when each call names the block delivered before. -/
theorem cri_delivers (e : Env) (hs : SortOK e.sort) (ha : ∀ l c, e.accepts l c = true) (bs : List Blk) (hne : bs ≠ [])
    (hc : IsChain bs) (rest : List (Option Blk)) :
    let ops := Op.genesis :: bs.dropLast.map fun b => Op.next b.hash
    (session (criStep e) ops (create (bs.map some ++ rest)) []).2.2 = true ∧
      (session (criStep e) ops (create (bs.map some ++ rest)) []).2.1.map Held.blk = bs := by
  intro ops
  have key : ∀ n, n < bs.length → ∃ s d, session (criStep e) (Op.genesis :: (bs.take n).map fun b => Op.next b.hash)
      (create (bs.map some ++ rest)) [] = (s, d, true) ∧ d.map Held.blk = bs.take (n + 1) ∧
      s.input = (bs.drop (n + 1)).map some ++ rest ∧ Inv e false (bs.map some ++ rest) s d := by
    intro n
    induction n with
    | zero =>
      intro hn
      obtain ⟨b, bs', rfl⟩ : ∃ b bs', bs = b :: bs' := by
        cases bs with
        | nil => exact absurd rfl hne
        | cons b bs' => exact ⟨b, bs', rfl⟩
      have hgen : looksLikeGenesis b.hash = true := looksLikeGenesis_of_take _ (hc.1 b rfl)
      have hI0 := inv_create e false ((b :: bs').map some ++ rest)
      have hg : ∃ s', criGenesis e (create ((b :: bs').map some ++ rest)) =
          (s', .block ⟨b, 0, (medianTime e [] b.time).2⟩) ∧ s'.input = bs'.map some ++ rest := by
        have hr : receive (create ((b :: bs').map some ++ rest)) = (some b, create (bs'.map some ++ rest)) := rfl
        unfold criGenesis
        rw [if_neg (show ¬ (create ((b :: bs').map some ++ rest)).height ≠ -1 by simp [create]), hr]
        dsimp only [create]
        obtain ⟨s', hs'⟩ := gather_accepts e ha ⟨some ⟨b, 0, (medianTime e [] b.time).2⟩, 0, (medianTime e [] b.time).1, -1,
          bs'.map some ++ rest, []⟩ ⟨b, 0, (medianTime e [] b.time).2⟩
        have hin := (gather_ok e _ _ 0 0 rfl (by intro _; rfl) s' hs').2.2.2.1
        rw [hs', hgen]
        exact ⟨s', rfl, hin⟩
      obtain ⟨s', h1, h2⟩ := hg
      have hstep : criStep e (create ((b :: bs').map some ++ rest)) Op.genesis = (s', .block ⟨b, 0, (medianTime e [] b.time).2⟩) := h1
      have hI := ((cri_step_ok e hs) _ _ _ Op.genesis hI0).1 _ _ hstep
      refine ⟨s', [⟨b, 0, (medianTime e [] b.time).2⟩], ?_, by simp, by simpa using h2, hI⟩
      rw [List.take_zero, List.map_nil]
      unfold session
      rw [hstep]
      rfl
    | succ n ih =>
      intro hn
      obtain ⟨s, d, h1, h2, h3, h4⟩ := ih (by omega)
      have hlen : d.length = n + 1 := by
        have := congrArg List.length h2
        rw [List.length_map, List.length_take] at this
        omega
      have hbn : bs[n]? = some bs[n] := List.getElem?_eq_getElem (by omega)
      have hbn1 : bs[n + 1]? = some bs[n + 1] := List.getElem?_eq_getElem hn
      have hcurd : ∃ cur, d.getLast? = some cur ∧ cur.blk = bs[n] := by
        have hx : d[n]? = some d[n] := List.getElem?_eq_getElem (by omega)
        refine ⟨d[n], by rw [List.getLast?_eq_getElem?, show d.length - 1 = n by omega]; exact hx, ?_⟩
        have h5 : (d.map Held.blk)[n]? = some d[n].blk := by rw [List.getElem?_map, hx]; rfl
        rw [h2, List.getElem?_take_of_lt (by omega), hbn] at h5
        exact (Option.some.inj h5).symm
      obtain ⟨cur, hcur, hcurb⟩ := hcurd
      have hdrop : bs.drop (n + 1) = bs[n + 1] :: bs.drop (n + 2) := List.drop_eq_getElem_cons hn
      have hprev := hc.2 n _ _ hbn hbn1
      have hnext : ∃ s' held, criNext e s bs[n].hash = (s', .block held) ∧ held.blk = bs[n + 1] ∧
          s'.input = (bs.drop (n + 2)).map some ++ rest := by
        unfold criNext
        rw [h4.cur, hcur]
        dsimp only
        rw [hcurb, if_neg (by simp)]
        have hr : receive s = (some bs[n + 1], { s with input := (bs.drop (n + 2)).map some ++ rest }) := by
          unfold receive
          rw [h3, hdrop]
          rfl
        rw [hr]
        dsimp only
        rw [if_neg (by simp [hprev])]
        obtain ⟨s', hs'⟩ := gather_accepts e ha
          { s with input := (bs.drop (n + 2)).map some ++ rest, times := (medianTime e s.times bs[n + 1].time).1
                   cur := some ⟨bs[n + 1], s.height + 1, (medianTime e s.times bs[n + 1].time).2⟩, height := s.height + 1 }
          ⟨bs[n + 1], s.height + 1, (medianTime e s.times bs[n + 1].time).2⟩
        have hhe : s.height + 1 = ((n + 1 : Nat) : Int) := by
          have := h4.height rfl
          omega
        have hin := (gather_ok e _ ⟨bs[n + 1], s.height + 1, (medianTime e s.times bs[n + 1].time).2⟩ (n + 1)
          (txTotal (d.map Held.blk)) hhe (by intro h; exact h4.latest h) s' hs').2.2.2.1
        rw [hs']
        exact ⟨s', _, rfl, rfl, hin⟩
      obtain ⟨s', held, g1, g2, g3⟩ := hnext
      have hI := ((cri_step_ok e hs) _ _ _ (Op.next bs[n].hash) h4).1 _ _ g1
      refine ⟨s', d ++ [held], ?_, ?_, g3, hI⟩
      · have htake : (bs.take (n + 1)).map (fun b => Op.next b.hash) =
            (bs.take n).map (fun b => Op.next b.hash) ++ [Op.next bs[n].hash] := by
          rw [List.take_add_one, hbn, List.map_append]
          rfl
        rw [htake, ← List.cons_append, session_append _ _ _ _ _ (by rw [h1]), h1]
        dsimp only
        unfold session
        have : criStep e s (Op.next bs[n].hash) = (s', .block held) := g1
        rw [this]
        rfl
      · rw [List.map_append, h2, List.map_cons, List.map_nil, g2, List.take_add_one (i := n + 1), hbn1]
        rfl
  have hpos : 0 < bs.length := List.length_pos_iff.mpr hne
  obtain ⟨s, d, h1, h2, _, _⟩ := key (bs.length - 1) (by omega)
  have hops : ops = Op.genesis :: (bs.take (bs.length - 1)).map fun b => Op.next b.hash := by
    show Op.genesis :: bs.dropLast.map _ = _
    rw [List.dropLast_eq_take]
  rw [hops, h1]
  refine ⟨rfl, ?_⟩
  dsimp only
  rw [h2, show bs.length - 1 + 1 = bs.length by omega, List.take_length]

/-! ## Non-vacuity -/

/-- An insertion sort. -/
def insertSorted (a : Nat) : List Nat → List Nat
  | [] => [a]
  | b :: l => if a ≤ b then a :: b :: l else b :: insertSorted a l

def isort : List Nat → List Nat
  | [] => []
  | a :: l => insertSorted a (isort l)

theorem insertSorted_perm (a : Nat) (l : List Nat) : (insertSorted a l).Perm (a :: l) := by
  induction l with
  | nil => exact List.Perm.refl _
  | cons b l ih =>
    unfold insertSorted
    split
    · exact List.Perm.refl _
    · exact (List.Perm.cons b ih).trans (List.Perm.swap a b l)

theorem insertSorted_sorted (a : Nat) (l : List Nat) (h : l.Pairwise (· ≤ ·)) : (insertSorted a l).Pairwise (· ≤ ·) := by
  induction l with
  | nil => simp [insertSorted]
  | cons b l ih =>
    rw [List.pairwise_cons] at h
    unfold insertSorted
    split
    · rename_i hab
      rw [List.pairwise_cons]
      refine ⟨?_, List.pairwise_cons.mpr h⟩
      intro x hx
      rcases List.mem_cons.mp hx with rfl | hx
      · exact hab
      · exact Nat.le_trans hab (h.1 x hx)
    · rename_i hab
      rw [List.pairwise_cons]
      refine ⟨?_, ih h.2⟩
      intro x hx
      rcases List.mem_cons.mp ((insertSorted_perm a l).mem_iff.mp hx) with rfl | hx
      · omega
      · exact h.1 x hx

theorem isort_ok : SortOK isort := by
  intro l
  induction l with
  | nil => exact ⟨List.Perm.refl _, List.Pairwise.nil⟩
  | cons a l ih => exact ⟨(insertSorted_perm a _).trans (List.Perm.cons a ih.1), insertSorted_sorted a _ ih.2⟩

/-- A holder with an indexer that accepts everything. -/
def exEnv : Env := ⟨true, fun _ _ => true, isort⟩

/-- Three blocks. -/
def exChain : List Blk :=
  [⟨[0x6f, 0xe2, 0x8c, 0x0a], [], 10, [[1]]⟩, ⟨[2], [0x6f, 0xe2, 0x8c, 0x0a], 5, [[2], [3]]⟩, ⟨[3], [2], 7, [[4]]⟩]

theorem exChain_ok : IsChain exChain := by
  constructor
  · intro b hb; cases hb; rfl
  · intro k a b ha hb
    match k with
    | 0 => cases ha; cases hb; rfl
    | 1 => cases ha; cases hb; rfl
    | k + 2 => simp [exChain] at hb

example : (session (criStep exEnv) [.genesis, .next [0x6f, 0xe2, 0x8c, 0x0a], .next [2], .next [3]] (create (exChain.map some)) []).2.1.map
    (fun b => (b.height, b.median)) = [(0, 10), (1, 10), (2, 7)] := by decide +kernel

example : (session (chiStep exEnv) [.genesis, .next [0, 0, 0, 0], .next [1, 0, 0, 0], .next [2, 0, 0, 0]] (create (exChain.map some)) []).2.1.map
    (fun b => (b.height, b.median)) = [(0, 10), (1, 10), (2, 7)] := by decide +kernel

example := cri_delivers exEnv isort_ok (fun _ _ => rfl) exChain (by simp [exChain]) exChain_ok []

example : IsUpperMedian 10 [5, 10] ∧ ¬ IsUpperMedian 5 [5, 10] ∧ IsUpperMedian 7 [5, 7, 10] := by
  unfold IsUpperMedian; decide

/-- A block that does not follow. -/
example : (criStep exEnv (session (criStep exEnv) [.genesis] (create [exChain[0]?, exChain[2]?]) []).1 (.next [0x6f, 0xe2, 0x8c, 0x0a])).2 =
    .panicked := by decide +kernel

end Verif.BlockHolder
