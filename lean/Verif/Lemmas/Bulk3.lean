import Verif.Model.Bulk3
import Verif.Props.HashStore3

/-! # The machines of the bulk indexer -/

namespace Verif.Bulk3

open Bins WordFile

/-- The bytes of a work item. -/
def Work.enc (p : Params) (x : Work) : Bytes := (encEntry p x.th x.hi x.sn).getD []

/-- The work item can be encoded. -/
def Work.ok (p : Params) (x : Work) : Prop := encEntry p x.th x.hi x.sn = some (x.enc p)

theorem upd_same {α : Type} (f : Nat → α) (i : Nat) (v : α) : upd f i v i = v := by simp [upd]

theorem upd_other {α : Type} (f : Nat → α) {i j : Nat} (v : α) (h : j ≠ i) : upd f i v j = f j := by simp [upd, h]

/-- Total length of the channels. -/
def queued (threads : Nat) (q : Nat → List Work) : Nat := ((List.range threads).map fun w => (q w).length).sum

theorem queued_upd {threads : Nat} (q : Nat → List Work) {w : Nat} (hw : w < threads) (l : List Work) :
    queued threads (upd q w l) + (q w).length = queued threads q + l.length := by
  induction threads with
  | zero => omega
  | succ n ih =>
    unfold queued at ih ⊢
    rw [List.range_succ, List.map_append, List.map_append, List.sum_append, List.sum_append]
    simp only [List.map_cons, List.map_nil, List.sum_cons, List.sum_nil]
    rcases Nat.lt_or_ge w n with h | h
    · have := ih h
      rw [upd_other q l (by omega : n ≠ w)]
      omega
    · have hwn : w = n := by omega
      subst hwn
      rw [upd_same]
      have : (List.range w).map (fun x => (upd q w l x).length) = (List.range w).map fun x => (q x).length := by
        apply List.map_congr_left
        intro x hx
        rw [List.mem_range] at hx
        rw [upd_other q l (by omega)]
      rw [this]
      omega

/-- Invariant of the fan-out after `n` steps. -/
structure FanInv (p : Params) (threads : Nat) (work : List Work) (n : Nat) (s : Fan) : Prop where
  up : s.crashed = false
  route : ∀ w x, x ∈ s.queues w → x.bin % threads = w
  bins : ∀ b, ∃ ds : List Work, s.bins b = (ds.map (Work.enc p)).flatten ∧
    ds ++ ((s.queues (b % threads)).filter fun x => x.bin = b) ++ (s.rest.filter fun x => x.bin = b) =
      work.filter fun x => x.bin = b
  measure : n + 2 * s.rest.length + queued threads s.queues = 2 * work.length

theorem FanInv.mem {p : Params} {threads : Nat} {work : List Work} {n : Nat} {s : Fan}
    (h : FanInv p threads work n s) {w : Nat} {x : Work} (hx : x ∈ s.queues w) : x ∈ work := by
  obtain ⟨ds, _, h2⟩ := h.bins x.bin
  have : x ∈ work.filter fun y => y.bin = x.bin := by
    rw [← h2, List.mem_append, List.mem_append]
    left; right
    rw [List.mem_filter, h.route w x hx]
    exact ⟨hx, by simp⟩
  exact (List.mem_filter.mp this).1

theorem fan_start (p : Params) (threads : Nat) (work : List Work) : FanInv p threads work 0 (fanStart work) := by
  refine ⟨rfl, by intro w x hx; simp [fanStart] at hx, ?_, ?_⟩
  · intro b
    exact ⟨[], rfl, by simp [fanStart]⟩
  · have : queued threads (fun _ => ([] : List Work)) = 0 := by
      unfold queued
      induction threads with
      | zero => rfl
      | succ n ih => rw [List.range_succ, List.map_append, List.sum_append, ih]; rfl
    simp [fanStart, this]

theorem fan_step {p : Params} {threads : Nat} (ht : 0 < threads) {work : List Work} (hok : ∀ x ∈ work, x.ok p) {n : Nat}
    {s t : Fan} (h : FanInv p threads work n s) (st : FanStep p threads s t) : FanInv p threads work (n + 1) t := by
  cases st with
  | send x r hc hr hroom =>
    refine ⟨hc, ?_, ?_, ?_⟩
    · intro w y hy
      dsimp only at hy
      by_cases hw : w = x.bin % threads
      · subst hw
        rw [upd_same, List.mem_append, List.mem_singleton] at hy
        rcases hy with hy | rfl
        · exact h.route _ _ hy
        · rfl
      · rw [upd_other _ _ hw] at hy
        exact h.route _ _ hy
    · intro b
      obtain ⟨ds, h1, h2⟩ := h.bins b
      refine ⟨ds, h1, ?_⟩
      rw [hr] at h2
      dsimp only
      by_cases hb : x.bin = b
      · subst hb
        rw [upd_same, List.filter_append]
        rw [← h2]
        simp
      · rw [List.filter_cons_of_neg (by simpa using hb)] at h2
        by_cases hw : b % threads = x.bin % threads
        · rw [hw, upd_same, List.filter_append, ← h2, hw]
          simp [hb]
        · rw [upd_other _ _ hw]; exact h2
    · dsimp only
      have := queued_upd s.queues (Nat.mod_lt x.bin ht) (s.queues (x.bin % threads) ++ [x])
      have hm := h.measure
      rw [hr, List.length_cons] at hm
      rw [List.length_append, List.length_singleton] at this
      omega
  | recv w x q b hc hw hq hb =>
    have hxw : x.bin % threads = w := h.route w x (by rw [hq]; simp)
    have hxm : x ∈ work := h.mem (w := w) (by rw [hq]; simp)
    have hbb : b = s.bins x.bin ++ x.enc p := by
      unfold appendBinEntry at hb
      rw [hok x hxm] at hb
      simp at hb
      exact hb.symm
    refine ⟨hc, ?_, ?_, ?_⟩
    · intro w' y hy
      dsimp only at hy
      by_cases hw' : w' = w
      · subst hw'
        rw [upd_same] at hy
        exact h.route _ _ (by rw [hq]; simp [hy])
      · rw [upd_other _ _ hw'] at hy
        exact h.route _ _ hy
    · intro c
      obtain ⟨ds, h1, h2⟩ := h.bins c
      dsimp only
      by_cases hcx : c = x.bin
      · subst hcx
        refine ⟨ds ++ [x], ?_, ?_⟩
        · rw [upd_same, hbb, h1]; simp
        · rw [hxw, upd_same]
          rw [hxw, hq, List.filter_cons_of_pos (by simp)] at h2
          rw [← h2]; simp
      · refine ⟨ds, by rw [upd_other _ _ hcx]; exact h1, ?_⟩
        by_cases hw' : c % threads = w
        · rw [hw', upd_same]
          rw [hw', hq, List.filter_cons_of_neg (by simpa using Ne.symm hcx)] at h2
          exact h2
        · rw [upd_other _ _ hw']; exact h2
    · dsimp only
      have := queued_upd s.queues hw q
      have hm := h.measure
      rw [hq, List.length_cons] at this
      omega
  | panic w x q hc hw hq hb =>
    have hxm : x ∈ work := h.mem (w := w) (by rw [hq]; simp)
    unfold appendBinEntry at hb
    rw [hok x hxm] at hb
    simp at hb

theorem fan_run {p : Params} {threads : Nat} (ht : 0 < threads) {work : List Work} (hok : ∀ x ∈ work, x.ok p) {n : Nat}
    {s t : Fan} (hr : FanRun p threads n s t) (hs : s = fanStart work) : FanInv p threads work n t := by
  induction hr with
  | refl => subst hs; exact fan_start p threads work
  | step h st ih => exact fan_step ht hok (ih hs) st

/-- When the fan-out is done, every bin holds its work in file order, whatever the schedule. -/
theorem fan_result {p : Params} {threads : Nat} (ht : 0 < threads) {work : List Work} (hok : ∀ x ∈ work, x.ok p) {n : Nat}
    {t : Fan} (hr : FanRun p threads n (fanStart work) t) (hd : t.done threads) (b : Nat) :
    t.bins b = ((work.filter fun x => x.bin = b).map (Work.enc p)).flatten := by
  obtain ⟨ds, h1, h2⟩ := (fan_run ht hok hr rfl).bins b
  rw [hd.1, hd.2.1 _ (Nat.mod_lt b ht)] at h2
  simp at h2
  rw [h1, h2]

/-- Invariant of the sorting pool. -/
structure PoolInv (p : Params) (sort : List Bytes → List Bytes) (first last : Nat) (bins0 : Nat → Bytes) (n : Nat)
    (s : Pool) : Prop where
  lo : first ≤ s.counter
  hi : s.counter ≤ max first last
  nodup : s.claimed.Nodup
  inside : ∀ b ∈ s.claimed, first ≤ b ∧ b < s.counter
  bins : ∀ i, s.bins i = if first + i < s.counter ∧ first + i ∉ s.claimed then sortAndDedup p sort (bins0 i) else bins0 i
  measure : n + s.claimed.length = 2 * (s.counter - first)

theorem pool_run {p : Params} {threads : Nat} {sort : List Bytes → List Bytes} {first last : Nat} {bins0 : Nat → Bytes}
    {n : Nat} {s t : Pool} (hr : PoolRun p threads sort first last n s t) (hs : s = ⟨first, [], bins0⟩) :
    PoolInv p sort first last bins0 n t := by
  induction hr with
  | refl =>
    subst hs
    refine ⟨Nat.le_refl _, Nat.le_max_left _ _, List.nodup_nil, by simp, ?_, by simp⟩
    intro i
    rw [if_neg (by simp)]
  | step h st ih =>
    have I := ih hs
    obtain ⟨lo, hi, nodup, inside, bins, measure⟩ := I
    cases st with
    | claim hc htt =>
      rename_i s0 t
      refine ⟨by dsimp only; omega, by dsimp only; omega, ?_, ?_, ?_, ?_⟩
      · rw [List.nodup_cons]
        exact ⟨fun hm => by have := inside _ hm; omega, nodup⟩
      · intro b hb
        rw [List.mem_cons] at hb
        dsimp only
        rcases hb with rfl | hb
        · omega
        · have := inside b hb; omega
      · intro i
        dsimp only
        rw [bins i]
        by_cases hci : first + i = t.counter
        · rw [if_neg (by omega), if_neg (by simp [hci])]
        · congr 1
          simp only [List.mem_cons, not_or, eq_iff_iff]
          constructor
          · rintro ⟨h1, h2⟩; exact ⟨by omega, hci, h2⟩
          · rintro ⟨h1, _, h2⟩; exact ⟨by omega, h2⟩
      · dsimp only; rw [List.length_cons]; omega
    | finish b hb =>
      rename_i s0 t
      have hin := inside b hb
      have hne : ∀ c, c ∈ t.claimed.erase b ↔ c ≠ b ∧ c ∈ t.claimed := fun c => nodup.mem_erase_iff
      refine ⟨lo, hi, nodup.erase b, ?_, ?_, ?_⟩
      · intro c hc
        exact inside c ((hne c).mp hc).2
      · intro i
        dsimp only
        by_cases hib : i = b - first
        · subst hib
          rw [upd_same, bins, if_neg (by
            have : first + (b - first) = b := by omega
            rw [this]; exact fun h => h.2 hb)]
          rw [if_pos]
          refine ⟨by omega, ?_⟩
          rw [hne]
          exact fun h => h.1 (by omega)
        · rw [upd_other _ _ hib, bins i]
          congr 1
          rw [hne]
          simp only [eq_iff_iff]
          constructor
          · rintro ⟨h1, h2⟩; exact ⟨h1, fun h => h2 h.2⟩
          · rintro ⟨h1, h2⟩
            exact ⟨h1, fun h => h2 ⟨by omega, h⟩⟩
      · dsimp only
        rw [List.length_erase_of_mem hb]
        have : 0 < t.claimed.length := List.length_pos_of_mem hb
        omega

/-- When the pool is done every bin of the pass has been sorted exactly once, whatever the schedule. -/
theorem pool_result {p : Params} {threads : Nat} {sort : List Bytes → List Bytes} {first n : Nat} {bins0 : Nat → Bytes}
    {m : Nat} {t : Pool} (hr : PoolRun p threads sort first (first + n) m ⟨first, [], bins0⟩ t)
    (hd : t.done (first + n)) (i : Nat) (hi : i < n) : t.bins i = sortAndDedup p sort (bins0 i) := by
  have I := pool_run hr rfl
  rw [I.bins i, if_pos]
  rw [hd.2]
  have := hd.1
  exact ⟨by omega, by simp⟩

/-! ## Deduplication -/

/-- Keep the entries whose truncated hash differs from that of the entry before. -/
def keep (last : Bytes) : List Bytes → List Bytes
  | [] => []
  | x :: xs => if entTrunc x ≠ last then x :: keep (entTrunc x) xs else keep last xs

theorem dedupLoop_eq (rest : List Bytes) (es : List Bytes) (w r : Nat) (last : Bytes) (hwr : w ≤ r)
    (hr : es.drop r = rest) (hlen : r ≤ es.length) :
    ∃ es', dedupLoop es w r last rest.length = (es', w + (keep last rest).length) ∧
      es'.take (w + (keep last rest).length) = es.take w ++ keep last rest := by
  induction rest generalizing es w r last with
  | nil => exact ⟨es, rfl, by simp [keep]⟩
  | cons x xs ih =>
    have hlt : r < es.length := by
      rcases Nat.lt_or_ge r es.length with h | h
      · exact h
      · rw [List.drop_eq_nil_of_le h] at hr; simp at hr
    rw [List.drop_eq_getElem_cons hlt] at hr
    obtain ⟨hx, hxs⟩ := List.cons.inj hr
    have hget : es.getD r [] = x := by
      rw [List.getD_eq_getElem?_getD, List.getElem?_eq_getElem hlt, hx]; rfl
    rw [List.length_cons]
    unfold dedupLoop
    dsimp only
    rw [hget]
    unfold keep
    by_cases hk : entTrunc x ≠ last
    · rw [if_pos hk, if_pos hk]
      let es2 := if w ≠ r then es.set w x else es
      have e2 : es2 = es.set w x := by
        by_cases hw : w ≠ r
        · exact if_pos hw
        · have hw' : w = r := by omega
          simp only [es2]
          rw [if_neg hw, hw', ← hx]
          exact (List.set_getElem_self hlt).symm
      have l2 : es2.length = es.length := by rw [e2, List.length_set]
      obtain ⟨es', h1, h2⟩ := ih es2 (w + 1) (r + 1) (entTrunc x) (by omega) (by
        rw [e2, List.drop_set_of_lt (by omega)]; exact hxs) (by omega)
      refine ⟨es', ?_, ?_⟩
      · rw [List.length_cons, show w + ((keep (entTrunc x) xs).length + 1) = w + 1 + (keep (entTrunc x) xs).length by omega]
        exact h1
      · rw [List.length_cons, show w + ((keep (entTrunc x) xs).length + 1) = w + 1 + (keep (entTrunc x) xs).length by omega, h2, e2]
        have : (es.set w x).take (w + 1) = es.take w ++ [x] := by
          rw [List.take_set, List.take_succ_eq_append_getElem (by omega)]
          have hlw : (es.take w).length = w := by rw [List.length_take]; omega
          conv => lhs; arg 2; rw [← hlw]
          rw [List.set_append_right _ _ (Nat.le_refl _)]
          simp
        rw [this]; simp
    · rw [if_neg hk, if_neg hk]
      exact ih es w (r + 1) last (by omega) hxs (by omega)

/-- What `sort.Sort` is trusted to do. -/
def SortOK (p : Params) (sort : List Bytes → List Bytes) : Prop :=
  ∀ l, (sort l).Perm l ∧ (sort l).Pairwise fun a b => entLess p b a = false

theorem sortAndDedup_eq {p : Params} {sort : List Bytes → List Bytes} (hsort : SortOK p sort) {es : List Bytes}
    (hs : Sized p es) :
    sortAndDedup p sort es.flatten = (match sort es with
      | [] => []
      | x :: xs => x :: keep (entTrunc x) xs).flatten := by
  have hperm := (hsort es).1
  unfold sortAndDedup
  rw [recs_flatten hs]
  by_cases hle : es.flatten.length ≤ p.entrySize
  · rw [if_pos hle]
    rw [flatten_length hs] at hle
    have h1 : es.length ≤ 1 := by
      rcases Nat.lt_or_ge 1 es.length with h | h
      · have := Nat.mul_le_mul_left p.entrySize h
        have := entrySize_pos p
        omega
      · exact h
    match es, h1, hperm with
    | [], _, hp => rw [List.perm_nil.mp hp]
    | [a], _, hp => rw [List.perm_singleton.mp hp]; rfl
  · rw [if_neg hle]
    dsimp only
    cases hse : sort es with
    | nil =>
      rw [hse] at hperm
      have hn := List.nil_perm.mp hperm
      rw [hn] at hle
      simp at hle
    | cons x xs =>
      dsimp only
      obtain ⟨es', h1, h2⟩ := dedupLoop_eq xs (x :: xs) 1 1 (entTrunc x) (Nat.le_refl _) rfl (by simp)
      rw [List.length_cons, Nat.add_sub_cancel, show (x :: xs).getD 0 [] = x from rfl, h1]
      dsimp only
      rw [h2]; rfl

theorem keep_sublist (last : Bytes) (l : List Bytes) : (keep last l).Sublist l := by
  induction l generalizing last with
  | nil => exact List.Sublist.refl _
  | cons x xs ih =>
    unfold keep
    split
    · exact (ih _).cons_cons x
    · exact (ih _).cons x

/-- Entries strictly ordered by (sort number, index). -/
def Before (p : Params) (a b : Bytes) : Prop :=
  entSort p a < entSort p b ∨ (entSort p a = entSort p b ∧ entIndex p a < entIndex p b)

theorem mem_keep {p : Params} (l : List Bytes) (y : Bytes) (hs : (y :: l).Pairwise (Before p))
    (h1 : ∀ a ∈ y :: l, ∀ b ∈ y :: l, (entSort p a = entSort p b ↔ entTrunc a = entTrunc b)) (e : Bytes) :
    e ∈ keep (entTrunc y) l ↔
      e ∈ l ∧ entTrunc e ≠ entTrunc y ∧ ∀ e' ∈ l, entTrunc e' = entTrunc e → entIndex p e ≤ entIndex p e' := by
  induction l generalizing y with
  | nil => simp [keep]
  | cons x xs ih =>
    have hx := (List.pairwise_cons.mp hs).2
    have hy := (List.pairwise_cons.mp hs).1
    have hxx := (List.pairwise_cons.mp hx).1
    have hih := ih x hx (fun a ha b hb => h1 a (List.mem_cons_of_mem _ ha) b (List.mem_cons_of_mem _ hb))
    have hsame : ∀ b ∈ xs, entTrunc b = entTrunc x → entIndex p x < entIndex p b := by
      intro b hb ht
      have hsn := (h1 b (by simp [hb]) x (by simp)).mpr ht
      rcases hxx b hb with h | h
      · omega
      · exact h.2
    unfold keep
    by_cases hk : entTrunc x ≠ entTrunc y
    · rw [if_pos hk, List.mem_cons, hih, List.mem_cons]
      constructor
      · rintro (rfl | ⟨m1, m2, m3⟩)
        · refine ⟨Or.inl rfl, hk, ?_⟩
          intro e' he' ht
          rw [List.mem_cons] at he'
          rcases he' with rfl | he'
          · exact Nat.le_refl _
          · exact Nat.le_of_lt (hsame e' he' ht)
        · refine ⟨Or.inr m1, ?_, ?_⟩
          · intro hey
            apply hk
            apply (h1 x (by simp) y (by simp)).mp
            have s1 := (h1 e (by simp [m1]) y (by simp)).mpr hey
            have s2 : entSort p y ≤ entSort p x := by
              rcases hy x (by simp) with h | h <;> omega
            have s3 : entSort p x ≤ entSort p e := by
              rcases hxx e m1 with h | h <;> omega
            omega
          · intro e' he' ht
            rw [List.mem_cons] at he'
            rcases he' with rfl | he'
            · exact absurd ht.symm m2
            · exact m3 e' he' ht
      · rintro ⟨m1 | m1, m2, m3⟩
        · exact Or.inl m1
        · right
          refine ⟨m1, ?_, fun e' he' ht => m3 e' (by simp [he']) ht⟩
          intro hex
          have a1 := m3 x (by simp) hex.symm
          have a2 := hsame e m1 hex
          omega
    · have hk' : entTrunc x = entTrunc y := by simpa using hk
      rw [if_neg hk, ← hk', hih, List.mem_cons]
      constructor
      · rintro ⟨m1, m2, m3⟩
        refine ⟨Or.inr m1, m2, ?_⟩
        intro e' he' ht
        rw [List.mem_cons] at he'
        rcases he' with rfl | he'
        · exact absurd ht.symm m2
        · exact m3 e' he' ht
      · rintro ⟨m1 | m1, m2, m3⟩
        · subst m1; exact absurd rfl m2
        · exact ⟨m1, m2, fun e' he' ht => m3 e' (by simp [he']) ht⟩

/-- The entries kept are the ones with the smallest index of their truncated hash. -/
theorem mem_dedup {p : Params} {l : List Bytes} (hs : l.Pairwise (Before p))
    (h1 : ∀ a ∈ l, ∀ b ∈ l, (entSort p a = entSort p b ↔ entTrunc a = entTrunc b)) (e : Bytes) :
    e ∈ (match l with | [] => [] | x :: xs => x :: keep (entTrunc x) xs) ↔
      e ∈ l ∧ ∀ e' ∈ l, entTrunc e' = entTrunc e → entIndex p e ≤ entIndex p e' := by
  cases l with
  | nil => simp
  | cons x xs =>
    dsimp only
    have hxx := (List.pairwise_cons.mp hs).1
    have hsame : ∀ b ∈ xs, entTrunc b = entTrunc x → entIndex p x < entIndex p b := by
      intro b hb ht
      have hsn := (h1 b (by simp [hb]) x (by simp)).mpr ht
      rcases hxx b hb with h | h
      · omega
      · exact h.2
    rw [List.mem_cons, mem_keep xs x hs h1, List.mem_cons]
    constructor
    · rintro (rfl | ⟨m1, m2, m3⟩)
      · refine ⟨Or.inl rfl, ?_⟩
        intro e' he' ht
        rw [List.mem_cons] at he'
        rcases he' with rfl | he'
        · exact Nat.le_refl _
        · exact Nat.le_of_lt (hsame e' he' ht)
      · refine ⟨Or.inr m1, ?_⟩
        intro e' he' ht
        rw [List.mem_cons] at he'
        rcases he' with rfl | he'
        · exact absurd ht.symm m2
        · exact m3 e' he' ht
    · rintro ⟨m1 | m1, m3⟩
      · exact Or.inl m1
      · right
        refine ⟨m1, ?_, fun e' he' ht => m3 e' (by simp [he']) ht⟩
        intro hex
        have a1 := m3 x (by simp) hex.symm
        have a2 := hsame e m1 hex
        omega

theorem dedup_sublist (l : List Bytes) :
    (match l with | [] => ([] : List Bytes) | x :: xs => x :: keep (entTrunc x) xs).Sublist l := by
  cases l with
  | nil => exact List.Sublist.refl _
  | cons x xs => exact (keep_sublist _ _).cons_cons x

end Verif.Bulk3
