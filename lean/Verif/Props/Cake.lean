import Verif.Lemmas.Cake

/-!
# Properties of the whole cake
-/

namespace Verif.Cake

open Verif.ShallowTree Verif.Chunk Verif.SingleTree Verif.DonutForest Verif.TierTop

/-! ## Specification -/

/-- What is done with a cake. The appended hashes stay as they are (see `reused_slice_crashes` for a caller that changes
them). -/
inductive Op where
  | append (h : Bytes)
  /-- The cake is closed and opened again. -/
  | reopen

/-- A history: the cake in the end and the indices returned. -/
def run (ent : List Entry → Nat → Nat) (s : Settings) : Cake → List Op → Outcome (Cake × List Int)
  | k, [] => .ok (k, [])
  | k, .reopen :: ops =>
    match reopen s k with
    | .ok k' => run ent s k' ops
    | .error => .error
    | .panic => .panic
  | k, .append h :: ops =>
    match append ent s (fun _ => []) k (.own h) with
    | .ok (k', g) =>
      match run ent s k' ops with
      | .ok (k'', gs) => .ok (k'', g :: gs)
      | .error => .error
      | .panic => .panic
    | .error => .error
    | .panic => .panic

/-- The last append of a history. -/
theorem run_last (ent : List Entry → Nat → Nat) (s : Settings) (h : Bytes) : ∀ (ops : List Op) (k : Cake) {r r' : Cake × List Int},
    run ent s k ops = .ok r → run ent s k (ops ++ [.append h]) = .ok r' →
    ∃ g, append ent s (fun _ => []) r.1 (.own h) = .ok (r'.1, g) := by
  intro ops
  induction ops with
  | nil =>
    intro k r r' h1 h2
    injection h1 with h1
    subst h1
    simp only [List.nil_append, run] at h2
    cases ha : append ent s (fun _ => []) k (.own h) with
    | ok q =>
      rw [ha] at h2
      injection h2 with h2
      exact ⟨q.2, by rw [← h2]⟩
    | error => rw [ha] at h2; cases h2
    | panic => rw [ha] at h2; cases h2
  | cons op ops ih =>
    intro k r r' h1 h2
    cases op with
    | reopen =>
      simp only [List.cons_append, run] at h1 h2
      cases ha : reopen s k with
      | ok q =>
        rw [ha] at h1 h2
        exact ih q h1 h2
      | error => rw [ha] at h1; cases h1
      | panic => rw [ha] at h1; cases h1
    | append x =>
      simp only [List.cons_append, run] at h1 h2
      cases ha : append ent s (fun _ => []) k (.own x) with
      | ok q =>
        rw [ha] at h1 h2
        dsimp only at h1 h2
        cases hb : run ent s q.1 ops with
        | ok u =>
          rw [hb] at h1
          cases hb' : run ent s q.1 (ops ++ [.append h]) with
          | ok u' =>
            rw [hb'] at h2
            injection h1 with h1
            injection h2 with h2
            rw [← h1, ← h2]
            exact ih q.1 (r := u) (r' := u') hb hb'
          | error => rw [hb'] at h2; cases h2
          | panic => rw [hb'] at h2; cases h2
        | error => rw [hb] at h1; cases h1
        | panic => rw [hb] at h1; cases h1
      | error => rw [ha] at h1; cases h1
      | panic => rw [ha] at h1; cases h1

/-- The hashes appended. -/
def appended : List Op → List Bytes
  | [] => []
  | .append h :: ops => h :: appended ops
  | .reopen :: ops => appended ops

/-- How many hashes the cake had when it was last opened; `n` is how many it has, `o` how many when opened, before the
history. -/
def openedWith (n o : Nat) : List Op → Nat
  | [] => o
  | .append _ :: ops => openedWith (n + 1) o ops
  | .reopen :: ops => openedWith n n ops

/-- Since the cake was last opened, a batch has been baked which was not the first. -/
def BakedAgain (cap : Nat) (ops : List Op) : Prop :=
  2 ≤ (appended ops).length / cap ∧ openedWith 0 0 ops / cap < (appended ops).length / cap

instance (cap : Nat) (ops : List Op) : Decidable (BakedAgain cap ops) := by unfold BakedAgain; infer_instance

/-- A history on a new cake of different hashes, with less than what fills the first tier. -/
structure History (s : Settings) (t0 : TierConfig) (ops : List Op) : Prop where
  len : ∀ h ∈ appended ops, h.length = 32
  nodup : (appended ops).Nodup
  count : (appended ops).length < t0.quota * s.cap

/-! ## Histories -/

theorem div_batches {cap n c : Nat} (h : c < cap) : (n * cap + c) / cap = n := by
  rw [Nat.add_comm, Nat.add_mul_div_right _ _ (by omega), Nat.div_eq_of_lt h, Nat.zero_add]

/-- The state at any point of a history. -/
structure Reached (ent : List Entry → Nat → Nat) (s : Settings) (t0 : TierConfig) (k : Cake) (hs : List Bytes) (o : Nat) : Prop where
  inv : ∃ bs cur, Inv ent s t0 k bs cur (decide (2 ≤ bs.length ∧ o / s.cap < bs.length)) ∧ hs = bs.flatten ++ cur
  opened : o ≤ hs.length

/-- Every full batch of `cap` hashes has no hash twice. -/
def Bakeable (cap : Nat) (l : List Bytes) : Prop := ∀ i, (i + 1) * cap ≤ l.length → ((l.drop (i * cap)).take cap).Nodup

theorem bakeable_of_nodup {cap : Nat} {l : List Bytes} (h : l.Nodup) : Bakeable cap l :=
  fun i _ => List.Sublist.nodup ((List.take_sublist _ _).trans (List.drop_sublist _ _)) h

/-- Any history, whether or not hashes are repeated in it. -/
theorem run_past {ent : List Entry → Nat → Nat} (he : EntropyOK ent) {s : Settings} {t0 : TierConfig} (hs : SettingsOK s t0) :
    ∀ (ops : List Op) (k : Cake) (pre : List Bytes) (o : Nat), Reached ent s t0 k pre o →
    (∀ h ∈ appended ops, h.length = 32) → (pre ++ appended ops).length < t0.quota * s.cap →
    (∀ r, run ent s k ops = .ok r → Reached ent s t0 r.1 (pre ++ appended ops) (openedWith pre.length o ops) ∧
      r.2 = (List.range' pre.length (appended ops).length).map Int.ofNat) ∧
    run ent s k ops ≠ .error ∧
    ((∀ i, Spread 32 (((pre ++ appended ops).drop (i * s.cap)).take s.cap)) → Bakeable s.cap (pre ++ appended ops) → ∃ r, run ent s k ops = .ok r) := by
  intro ops
  induction ops with
  | nil =>
    intro k pre o hr _ _
    rw [appended, List.append_nil]
    refine ⟨?_, by simp [run], fun _ _ => ⟨_, rfl⟩⟩
    intro r h
    injection h with h
    subst h
    exact ⟨hr, rfl⟩
  | cons op ops ih =>
    intro k pre o hr hlen hc
    obtain ⟨⟨bs, cur, hi, hpre⟩, ho⟩ := hr
    have hprelen : pre.length = bs.length * s.cap + cur.length := by rw [hpre, List.length_append, flatten_len hi.sizes]
    cases op with
    | reopen =>
      obtain ⟨k', e1, e2⟩ := open_inv hs hi
      have hd : decide (2 ≤ bs.length ∧ pre.length / s.cap < bs.length) = false := by
        rw [hprelen, div_batches hi.size]
        simp
      have hr' : Reached ent s t0 k' pre pre.length := ⟨⟨bs, cur, by rw [hd]; exact e2, hpre⟩, Nat.le_refl _⟩
      obtain ⟨h1, h2, h3⟩ := ih k' pre pre.length hr' hlen hc
      simp only [run, e1, appended, openedWith]
      exact ⟨h1, h2, h3⟩
    | append h =>
      have h32 : h.length = 32 := hlen h (by simp [appended])
      have hlen' : ∀ x ∈ appended ops, x.length = 32 := fun x hx => hlen x (by simp [appended, hx])
      have happ : pre ++ appended (.append h :: ops) = (pre ++ [h]) ++ appended ops := by simp [appended]
      rw [happ] at hc ⊢
      -- the step
      have key : ∀ k', append ent s (fun _ => []) k (.own h) = .ok (k', bs.flatten.length + cur.length) →
          Reached ent s t0 k' (pre ++ [h]) o →
          (∀ r, run ent s k (.append h :: ops) = .ok r →
            Reached ent s t0 r.1 (pre ++ [h] ++ appended ops) (openedWith pre.length o (.append h :: ops)) ∧
            r.2 = (List.range' pre.length (appended (.append h :: ops)).length).map Int.ofNat) ∧
          run ent s k (.append h :: ops) ≠ .error ∧
          ((∀ i, Spread 32 (((pre ++ [h] ++ appended ops).drop (i * s.cap)).take s.cap)) →
            Bakeable s.cap (pre ++ [h] ++ appended ops) → ∃ r, run ent s k (.append h :: ops) = .ok r) := by
        intro k' e1 hr'
        obtain ⟨h1, h2, h3⟩ := ih k' (pre ++ [h]) o hr' hlen' hc
        simp only [run, e1, openedWith]
        cases hrun : run ent s k' ops with
        | error => exact absurd hrun h2
        | panic =>
          dsimp only
          refine ⟨by simp, by simp, fun hsp hbk => ?_⟩
          obtain ⟨r, h4⟩ := h3 hsp hbk
          rw [hrun] at h4
          cases h4
        | ok r =>
          dsimp only
          refine ⟨?_, by simp, fun _ _ => ⟨_, rfl⟩⟩
          intro r' hr''
          injection hr'' with hr''
          subst hr''
          obtain ⟨g1, g2⟩ := h1 r hrun
          rw [List.length_append, List.length_singleton] at g1 g2
          refine ⟨g1, ?_⟩
          dsimp only
          rw [g2, appended, List.length_cons, List.range'_succ, List.map_cons]
          congr 1
          rw [hpre, List.length_append]
          simp
      by_cases hfull : cur.length + 1 < s.cap
      · obtain ⟨k', e1, e2⟩ := append_small hi (m := fun _ => []) h32 hfull
        exact key k' e1 ⟨⟨bs, cur ++ [h], e2, by rw [hpre, List.append_assoc]⟩, by rw [List.length_append]; omega⟩
      · have hsz := hi.size
        have hcap : cur.length + 1 = s.cap := by omega
        by_cases hndc : (cur ++ [h]).Nodup
        swap
        · have hp := append_repeat he hs hi (m := fun _ => []) h32 hndc hcap
          simp only [run, hp]
          refine ⟨by simp, by simp, fun _ hbk => ?_⟩
          exfalso
          apply hndc
          have hfl := flatten_len hi.sizes
          have := hbk bs.length (by
            rw [List.length_append, List.length_append, List.length_singleton, hprelen, Nat.succ_mul]
            omega)
          rw [hpre, List.append_assoc, List.append_assoc, ← hfl, List.drop_left, ← List.append_assoc,
            List.take_left' (by simpa using hcap)] at this
          exact this
        have hq : bs.length + 1 < t0.quota := by
          simp only [List.length_append, List.length_singleton, hprelen] at hc
          rcases Nat.lt_or_ge (bs.length + 1) t0.quota with h | h
          · exact h
          · have h1 := Nat.mul_le_mul_right s.cap h
            rw [Nat.succ_mul] at h1
            omega
        obtain ⟨fs, f1, -, f3, f4⟩ := append_full he hs hi (m := fun _ => []) h32 hndc hcap hq
        by_cases hall : ∀ f ∈ fs, f.levels.length ≤ 10
        · obtain ⟨k', e1, e2⟩ := f3 hall
          refine key k' e1 ⟨⟨bs ++ [cur ++ [h]], [], ?_, ?_⟩, by rw [List.length_append]; omega⟩
          · have hdead : (decide (2 ≤ bs.length ∧ o / s.cap < bs.length) || !bs.isEmpty) =
                decide (2 ≤ (bs ++ [cur ++ [h]]).length ∧ o / s.cap < (bs ++ [cur ++ [h]]).length) := by
              have ho' : o / s.cap ≤ bs.length := by
                have h1 := Nat.div_le_div_right (c := s.cap) ho
                rw [hprelen, div_batches hi.size] at h1
                exact h1
              rw [List.length_append, List.length_singleton]
              cases bs with
              | nil => simp
              | cons b bs =>
                simp only [List.isEmpty_cons, Bool.not_false, Bool.or_true, List.length_cons]
                symm
                rw [decide_eq_true_eq]
                simp only [List.length_cons] at ho'
                omega
            rw [← hdead]
            exact e2
          · rw [hpre]; simp
        · have hp := f4 hall
          simp only [run, hp]
          refine ⟨by simp, by simp, fun hsp _ => ?_⟩
          exfalso
          apply hall
          intro f hf
          obtain ⟨b, hb, first', hg⟩ := f1.mem_batch f hf
          apply levels_le_of_spread hg
          rw [hs.length]
          -- the batch is one of those of the spread hypothesis
          have hbatch : ∃ i, b = (((pre ++ [h]) ++ appended ops).drop (i * s.cap)).take s.cap := by
            have hall' : ∀ x ∈ bs ++ [cur ++ [h]], x.length = s.cap := by
              intro x hx
              rcases List.mem_append.1 hx with hx | hx
              · exact hi.sizes x hx
              · rw [List.mem_singleton] at hx; subst hx; simpa using hcap
            have heq : (pre ++ [h]) ++ appended ops = (bs ++ [cur ++ [h]]).flatten ++ appended ops := by rw [hpre]; simp
            obtain ⟨i, hi1⟩ := List.getElem?_of_mem hb
            refine ⟨i, ?_⟩
            rw [heq]
            generalize hL : bs ++ [cur ++ [h]] = L at *
            obtain ⟨hlt, hget⟩ := List.getElem?_eq_some_iff.1 hi1
            have hL' : L = L.take i ++ b :: L.drop (i + 1) := by
              rw [← hget, List.getElem_cons_drop, List.take_append_drop]
            have h1 : (L.take i).flatten.length = i * s.cap := by
              rw [flatten_len (fun x hx => hall' x (List.mem_of_mem_take hx)), List.length_take, Nat.min_eq_left (by omega)]
            have h2 := hall' b (List.mem_of_getElem? hi1)
            rw [hL', List.flatten_append, List.flatten_cons, List.append_assoc, List.append_assoc, ← h1, List.drop_left,
              ← h2, List.take_left]
          obtain ⟨i, rfl⟩ := hbatch
          exact hsp i

theorem run_reached {ent : List Entry → Nat → Nat} (he : EntropyOK ent) {s : Settings} {t0 : TierConfig} (hs : SettingsOK s t0) :
    ∀ (ops : List Op) (k : Cake) (pre : List Bytes) (o : Nat), Reached ent s t0 k pre o →
    (∀ h ∈ appended ops, h.length = 32) → (pre ++ appended ops).Nodup → (pre ++ appended ops).length < t0.quota * s.cap →
    (∀ r, run ent s k ops = .ok r → Reached ent s t0 r.1 (pre ++ appended ops) (openedWith pre.length o ops) ∧
      r.2 = (List.range' pre.length (appended ops).length).map Int.ofNat) ∧
    run ent s k ops ≠ .error ∧
    ((∀ i, Spread 32 (((pre ++ appended ops).drop (i * s.cap)).take s.cap)) → ∃ r, run ent s k ops = .ok r) := by
  intro ops k pre o hr hlen hn hc
  obtain ⟨h1, h2, h3⟩ := run_past he hs ops k pre o hr hlen hc
  exact ⟨h1, h2, fun hsp => h3 hsp (bakeable_of_nodup hn)⟩

/-- What is known of the cake at the end of a history, whether or not hashes are repeated in it. -/
theorem past_inv {ent : List Entry → Nat → Nat} (he : EntropyOK ent) {s : Settings} {t0 : TierConfig} (hs : SettingsOK s t0)
    {ops : List Op} (hlen : ∀ h ∈ appended ops, h.length = 32)
    (hcount : (appended ops).length < t0.quota * s.cap) {k0 k : Cake} {given : List Int} (h0 : newCake s = .ok k0)
    (hr : run ent s k0 ops = .ok (k, given)) :
    ∃ bs cur, Inv ent s t0 k bs cur (decide (BakedAgain s.cap ops)) ∧ appended ops = bs.flatten ++ cur ∧
      given = (List.range (appended ops).length).map Int.ofNat ∧ bs.length = (appended ops).length / s.cap := by
  have hq : 0 < t0.quota := by
    rcases Nat.eq_zero_or_pos t0.quota with h | h
    · rw [h] at hcount; omega
    · exact h
  obtain ⟨k1, e1, hi⟩ := new_inv ent hs hq
  rw [h0] at e1
  injection e1 with e1
  subst e1
  obtain ⟨⟨⟨bs, cur, g1, g2⟩, -⟩, g3⟩ := (run_past he hs ops k0 [] 0 ⟨⟨[], [], by simpa using hi, rfl⟩, by simp⟩ hlen
    (by simpa using hcount)).1 _ hr
  rw [List.nil_append] at g2
  dsimp only at g1 g3
  rw [List.length_nil] at g1 g3
  have hb : bs.length = (appended ops).length / s.cap := by
    rw [g2, List.length_append, flatten_len g1.sizes, div_batches g1.size]
  refine ⟨bs, cur, ?_, g2, by rw [g3, List.range_eq_range'], hb⟩
  have : decide (BakedAgain s.cap ops) = decide (2 ≤ bs.length ∧ openedWith 0 0 ops / s.cap < bs.length) := by
    unfold BakedAgain
    rw [hb]
  rw [this]
  exact g1

/-- What is known of the cake at the end of a history. -/
theorem history_inv {ent : List Entry → Nat → Nat} (he : EntropyOK ent) {s : Settings} {t0 : TierConfig} (hs : SettingsOK s t0)
    {ops : List Op} (hh : History s t0 ops) {k0 k : Cake} {given : List Int} (h0 : newCake s = .ok k0)
    (hr : run ent s k0 ops = .ok (k, given)) :
    ∃ bs cur, Inv ent s t0 k bs cur (decide (BakedAgain s.cap ops)) ∧ appended ops = bs.flatten ++ cur ∧
      given = (List.range (appended ops).length).map Int.ofNat ∧ bs.length = (appended ops).length / s.cap :=
  past_inv he hs hh.len hh.count h0 hr

/-! ## Appending -/

/-- **C64: partial.** A cake takes different hashes, being closed and opened in between as it may be: no append returns
an error or panics and the n-th returns the index n. Missing: two hashes of one batch that agree in nine or more bytes (a
forest of theirs may be impossible to open again), and filling the first tier. -/
theorem appends_in_order_partial {ent : List Entry → Nat → Nat} (he : EntropyOK ent) {s : Settings} {t0 : TierConfig}
    (hs : SettingsOK s t0) {ops : List Op} (hh : History s t0 ops)
    (hsp : ∀ i, Spread 32 (((appended ops).drop (i * s.cap)).take s.cap)) {k0 : Cake} (h0 : newCake s = .ok k0) :
    ∃ k, run ent s k0 ops = .ok (k, (List.range (appended ops).length).map Int.ofNat) := by
  have hq : 0 < t0.quota := by
    rcases Nat.eq_zero_or_pos t0.quota with h | h
    · have := hh.count; rw [h] at this; omega
    · exact h
  obtain ⟨k1, e1, hi⟩ := new_inv ent hs hq
  rw [h0] at e1
  injection e1 with e1
  subst e1
  obtain ⟨r, hr⟩ := (run_reached he hs ops k0 [] 0 ⟨⟨[], [], by simpa using hi, rfl⟩, by simp⟩ hh.len
    (by simpa using hh.nodup) (by simpa using hh.count)).2.2 (by simpa using hsp)
  obtain ⟨k, given⟩ := r
  obtain ⟨bs, cur, -, -, h3, -⟩ := history_inv he hs hh h0 hr
  exact ⟨k, by rw [hr, h3]⟩

/-! ## Lookup by hash -/

/-- **C65: partial.** Looking up an appended hash does not panic: the index returned is its own, or that of a hash `h` of an earlier
batch, or the same batch, that it looks like. Missing: that it is always its own (false, `one_byte_off_is_found`), and
cakes of which the first tier has been filled. -/
theorem appended_hash_is_found_partial {ent : List Entry → Nat → Nat} (he : EntropyOK ent) {s : Settings} {t0 : TierConfig}
    (hs : SettingsOK s t0) {ops : List Op} (hh : History s t0 ops) {k0 k : Cake} {given : List Int} (h0 : newCake s = .ok k0)
    (hr : run ent s k0 ops = .ok (k, given)) {n : Nat} {q : Bytes} (hq : (appended ops)[n]? = some q) :
    ∃ i : Nat, indexOfHash k q = some (i : Int) ∧ i ≤ n ∧ (i = n ∨ ∃ h b, (appended ops)[i]? = some h ∧ h ∈ b ∧ Plausible t0.c b h q) := by
  obtain ⟨bs, cur, hi, e1, -, -⟩ := history_inv he hs hh h0 hr
  have hnd := hh.nodup
  have hq32 : q.length = 32 := hh.len q (List.mem_of_getElem? hq)
  rw [e1] at hnd hq ⊢
  have hncur : cur.Nodup := List.Sublist.nodup (List.sublist_append_right _ _) hnd
  have huniq : ∀ i : Nat, (bs.flatten ++ cur)[i]? = some q → i = n := by
    intro i h
    obtain ⟨a1, a2⟩ := List.getElem?_eq_some_iff.1 h
    obtain ⟨b1, b2⟩ := List.getElem?_eq_some_iff.1 hq
    exact (List.getElem_inj hnd).1 (a2.trans b2.symm)
  rcases lookup he hs hi hncur hq32 with ⟨i, g1, g2⟩ | ⟨g1, g2, -⟩ | ⟨g1, pre, b, post, i, h, g2, g3, g4, g5, g6⟩
  · have hget : (bs.flatten ++ cur)[bs.flatten.length + i]? = some q := by
      rw [List.getElem?_append_right (by omega), Nat.add_sub_cancel_left]
      exact g1
    have := huniq _ hget
    exact ⟨n, by rw [g2, ← this]; rfl, Nat.le_refl _, .inl rfl⟩
  · have := List.mem_append.1 (List.mem_of_getElem? hq)
    rcases this with h | h
    · exact absurd h g2
    · exact absurd h g1
  · have hilt := (List.getElem?_eq_some_iff.1 g3).1
    have hget : (bs.flatten ++ cur)[pre.flatten.length + i]? = some h := by
      rw [g2, List.flatten_append, List.flatten_cons, List.append_assoc, List.append_assoc,
        List.getElem?_append_right (by omega), Nat.add_sub_cancel_left, List.getElem?_append_left hilt]
      exact g3
    refine ⟨pre.flatten.length + i, by rw [g6]; rfl, ?_, .inr ⟨h, b, hget, List.mem_of_getElem? g3, g4⟩⟩
    -- q is not in an earlier batch
    rcases Nat.lt_or_ge n pre.flatten.length with hlt | hge
    · exfalso
      rw [g2, List.flatten_append, List.append_assoc, List.getElem?_append_left hlt] at hq
      obtain ⟨b', hb', hmem⟩ := List.mem_flatten.1 (List.mem_of_getElem? hq)
      exact g5 b' hb' hmem
    · rcases Nat.lt_or_ge n (pre.flatten.length + b.length) with hlt | hge'
      · have hqb : q ∈ b := by
          rw [g2, List.flatten_append, List.flatten_cons, List.append_assoc, List.append_assoc,
            List.getElem?_append_right hge, List.getElem?_append_left (by omega)] at hq
          exact List.mem_of_getElem? hq
        have := g4.eq_of_mem hqb
        subst this
        exact Nat.le_of_eq (huniq _ hget)
      · omega

/-- **C65: partial.** With all 32 bytes reassured, every lookup in a cake in which no batch but the first has been baked
since it was opened is right: the index of an appended hash, `-1` for any other. Missing: fewer reassurance bytes,
cakes in which more has been baked since they were opened (`absent_hash_crashes`), and those of which the first tier has
been filled. -/
theorem lookups_exact_if_all_reassured_partial {ent : List Entry → Nat → Nat} (he : EntropyOK ent) {s : Settings} {t0 : TierConfig}
    (hs : SettingsOK s t0) (hall : t0.c.r = 32) {ops : List Op} (hh : History s t0 ops) (hd : ¬ BakedAgain s.cap ops) {k0 k : Cake}
    {given : List Int} (h0 : newCake s = .ok k0) (hr : run ent s k0 ops = .ok (k, given)) (q : Bytes) (hq32 : q.length = 32) :
    indexOfHash k q = some (if q ∈ appended ops then ((appended ops).idxOf q : Int) else -1) := by
  by_cases hmem : q ∈ appended ops
  · rw [if_pos hmem]
    obtain ⟨n, hn⟩ := List.getElem?_of_mem hmem
    obtain ⟨i, g1, g2, g3⟩ := appended_hash_is_found_partial he hs hh h0 hr hn
    have hidx : (appended ops).idxOf q = n := by
      obtain ⟨hlt, hget⟩ := List.getElem?_eq_some_iff.1 hn
      have := List.Nodup.idxOf_getElem hh.nodup n hlt
      rw [hget] at this
      exact this
    rcases g3 with rfl | ⟨h, b, h1, h2, h3⟩
    · rw [g1, hidx]
    · have hqh : q = h := h3.eq (by rw [hs.length, hall]; omega) (by rw [hs.length]; exact hh.len h (List.mem_of_getElem? h1))
        (by rw [hs.length]; exact hq32)
      subst hqh
      obtain ⟨a1, a2⟩ := List.getElem?_eq_some_iff.1 h1
      obtain ⟨b1, b2⟩ := List.getElem?_eq_some_iff.1 hn
      have := (List.getElem_inj hh.nodup).1 (a2.trans b2.symm)
      rw [g1, hidx, this]
  · rw [if_neg hmem]
    obtain ⟨bs, cur, hi, e1, -, -⟩ := history_inv he hs hh h0 hr
    have hnd := hh.nodup
    rw [e1] at hnd hmem
    rw [List.mem_append, not_or] at hmem
    rcases lookup he hs hi (List.Sublist.nodup (List.sublist_append_right _ _) hnd) hq32 with
      ⟨i, g1, g2⟩ | ⟨g1, g2, g3⟩ | ⟨g1, pre, b, post, i, h, g2, g3, g4, g5, g6⟩
    · exact absurd (List.mem_of_getElem? g1) hmem.2
    · rw [g3, if_neg (by simpa using hd)]
    · exfalso
      have hbm : b ∈ bs := by rw [g2]; simp
      have hx := List.mem_of_getElem? g3
      have hqh : q = h := g4.eq (by rw [hs.length, hall]; omega) ((hi.batches b hbm).len h hx) (by rw [hs.length]; exact hq32)
      subst hqh
      exact hmem.1 (List.mem_flatten.2 ⟨b, hbm, hx⟩)

/-- **C66: partial.** If no batch but the first has been baked since the cake was opened, no lookup by hash panics.
Missing: when one has (`absent_hash_crashes`), and cakes of which the first tier has been filled. -/
theorem no_lookup_crashes_partial {ent : List Entry → Nat → Nat} (he : EntropyOK ent) {s : Settings} {t0 : TierConfig}
    (hs : SettingsOK s t0) {ops : List Op} (hh : History s t0 ops) (hd : ¬ BakedAgain s.cap ops) {k0 k : Cake} {given : List Int}
    (h0 : newCake s = .ok k0) (hr : run ent s k0 ops = .ok (k, given)) (q : Bytes) (hq32 : q.length = 32) :
    indexOfHash k q ≠ none ∧ (indexOfHash k q = some (-1) → q ∉ appended ops) := by
  obtain ⟨bs, cur, hi, e1, -, -⟩ := history_inv he hs hh h0 hr
  have hnd := hh.nodup
  rw [e1] at hnd ⊢
  rcases lookup he hs hi (List.Sublist.nodup (List.sublist_append_right _ _) hnd) hq32 with
    ⟨i, g1, g2⟩ | ⟨g1, g2, g3⟩ | ⟨g1, pre, b, post, i, h, g2, g3, g4, g5, g6⟩
  · refine ⟨by rw [g2]; simp, fun h => ?_⟩
    rw [g2] at h
    injection h with h
    omega
  · rw [g3, if_neg (by simpa using hd)]
    refine ⟨by simp, fun _ => ?_⟩
    rw [List.mem_append, not_or]
    exact ⟨g2, g1⟩
  · refine ⟨by rw [g6]; simp, fun h => ?_⟩
    rw [g6] at h
    injection h with h
    omega

/-- What looks like a hash of a batch agrees with it in many places: those examined, at least one, and those reassured. -/
theorem Plausible.agree {c : Config} {b : List Bytes} {h q : Bytes} (hp : Plausible c b h q) (hh : h ∈ b) (hn : b.Nodup)
    (h2 : 2 ≤ b.length) : min c.hl (c.r + 1) ≤ agreements c.hl h q := by
  obtain ⟨ex, g1, g2, g3, g4⟩ := hp
  have hex : 1 ≤ ex.length := by
    have : ∃ h' ∈ b, h' ≠ h := by
      match b, hh, hn, h2 with
      | x :: y :: _, _, hn, _ =>
        by_cases hx : x = h
        · refine ⟨y, by simp, ?_⟩
          rintro rfl
          rw [List.nodup_cons] at hn
          exact hn.1 (by rw [hx]; simp)
        · exact ⟨x, by simp, hx⟩
    obtain ⟨h', h1, h2⟩ := this
    obtain ⟨i, hi, -⟩ := g3 h' h1 h2
    exact List.length_pos_of_mem hi
  have hf : c.hl ≤ ex.length + ((List.range c.hl).filter fun i => decide (i ∉ ex)).length := by
    have := length_le_of_subset (a := List.range c.hl) (b := ex ++ (List.range c.hl).filter fun i => decide (i ∉ ex))
      List.nodup_range (by
        intro i hi
        by_cases hx : i ∈ ex
        · simp [hx]
        · rw [List.mem_append, List.mem_filter]
          exact .inr ⟨hi, by simpa using hx⟩)
    simpa using this
  have hall := length_le_of_subset
    (a := ex ++ ((List.range c.hl).filter fun i => decide (i ∉ ex)).take c.r)
    (b := (List.range c.hl).filter fun i => decide (byteAt h i = byteAt q i)) (by
      rw [List.nodup_append]
      refine ⟨g1, (List.nodup_range.filter _).sublist (List.take_sublist _ _), ?_⟩
      intro i hi j hj hij
      subst hij
      have := (List.mem_filter.1 (List.mem_of_mem_take hj)).2
      simp [hi] at this) (by
      intro i hi
      rw [List.mem_filter, List.mem_range]
      rcases List.mem_append.1 hi with hi | hi
      · exact ⟨(g2 i hi).1, by simpa using (g2 i hi).2.symm⟩
      · exact ⟨List.mem_range.1 (List.mem_filter.1 (List.mem_of_mem_take hi)).1, by simpa using (g4 i hi).symm⟩)
  unfold agreements
  rw [List.countP_eq_length_filter]
  rw [List.length_append, List.length_take] at hall
  omega

/-- **C66 fails.** Once a batch other than the first has been baked since the cake was opened, `IndexOfHash` panics for
every hash that is not in the cake and does not by chance look like one that is. (To look like an appended hash it has to agree
with it in more places than there are reassurance bytes.) -/
theorem absent_hash_crashes {ent : List Entry → Nat → Nat} (he : EntropyOK ent) {s : Settings} {t0 : TierConfig}
    (hs : SettingsOK s t0) (h2 : 2 ≤ s.cap) {ops : List Op} (hh : History s t0 ops) (hd : BakedAgain s.cap ops) {k0 k : Cake}
    {given : List Int} (h0 : newCake s = .ok k0) (hr : run ent s k0 ops = .ok (k, given)) (q : Bytes) (hq32 : q.length = 32)
    (hq : ∀ h ∈ appended ops, agreements 32 h q ≤ min t0.c.r 31) : indexOfHash k q = none := by
  obtain ⟨bs, cur, hi, e1, -, -⟩ := history_inv he hs hh h0 hr
  have hnd := hh.nodup
  rw [e1] at hnd hq
  have hself : agreements 32 q q = 32 := by
    unfold agreements
    rw [List.countP_eq_length.2 (by simp), List.length_range]
  rcases lookup he hs hi (List.Sublist.nodup (List.sublist_append_right _ _) hnd) hq32 with
    ⟨i, g1, g2⟩ | ⟨g1, g2, g3⟩ | ⟨g1, pre, b, post, i, h, g2, g3, g4, g5, g6⟩
  · have := hq q (List.mem_append.2 (.inr (List.mem_of_getElem? g1)))
    omega
  · rw [g3, if_pos (by simpa using hd)]
  · exfalso
    have hbm : b ∈ bs := by rw [g2]; simp
    have hx := List.mem_of_getElem? g3
    have h3 := hq h (List.mem_append.2 (.inl (List.mem_flatten.2 ⟨b, hbm, hx⟩)))
    have h4 := Plausible.agree g4 hx (hi.batches b hbm).nodup (by rw [hi.sizes b hbm]; exact h2)
    rw [hs.length] at h4
    omega

/-- **C66 fails, in any cake whatever.** If the first tier has forests when the top tier is baked, and is not filled by
it, then from then on every hash that is not found in the first tier makes `IndexOfHash` panic, including those that are
in deeper tiers. -/
theorem bake_cuts_off_deeper_tiers {ent : List Entry → Nat → Nat} {s : Settings} {m : Memory} {k k' : Cake} {a : Cell} {g : Int} {b : Below}
    {rest : List Below} (hb : k.chain = b :: rest) (hne : b.forests ≠ []) (hfull : k.top.cells.length + 1 = s.cap)
    (hk : append ent s m k a = .ok (k', g)) {b' : Below} {rest' : List Below} (hb' : k'.chain = b' :: rest')
    (hne' : b'.forests ≠ []) (q : Bytes) (hq : q.length = 32) (hnot : belowIndexOf b' q = some none) :
    indexOfHash k' q = none := by
  have hwrite : ∃ top, writeTop ent s m { k with top := top } = .ok k' := by
    unfold append at hk
    dsimp only at hk
    split at hk
    · cases hk
    split at hk
    · cases hk
    split at hk
    · next k1 h1 =>
      injection hk with hk
      injection hk with hk1 hk2
      subst hk1
      exact ⟨_, h1⟩
    · cases hk
    · cases hk
  obtain ⟨top, hw⟩ := hwrite
  have hshape : rest' = closeNext k.chain ∧ k'.top.map = fun _ => none := by
    unfold writeTop at hw
    split at hw
    · cases hw
    · next cfg cfgs hcfg =>
      split at hw
      · cases hw
      · next forest hforest =>
        dsimp only at hw
        split at hw
        · cases hw
        · next top' htop =>
          have hmap : top'.map = fun _ => none := by
            unfold makeEmpty create openTop at htop
            rw [if_neg (by simp)] at htop
            injection htop with htop
            rw [← htop]
            rfl
          split at hw
          · cases hw
          · cases hw
          · next t ht =>
            split at hw
            · next hquota =>
              exfalso
              cases cfgs with
              | nil => simp [writeBelow] at hw
              | cons c2 cfgs =>
                -- the first tier has been emptied
                have hempty : ∀ (d : Disk) (x : Below) (y : List Below) (d' : Disk) (bs : List Below),
                    writeBelow ent (c2 :: cfgs) d x y = .ok (d', bs) → ∃ z zs, bs = z :: zs ∧ z.forests = [] := by
                  intro d x y d' bs hx
                  unfold writeBelow at hx
                  split at hx
                  · split at hx
                    · cases hx
                    split at hx
                    · cases hx
                    split at hx
                    · cases hx
                    dsimp only at hx
                    split at hx
                    · cases hx
                    · cases hx
                    split at hx
                    · split at hx
                      · injection hx with hx
                        injection hx with hx1 hx2
                        exact ⟨_, _, hx2.symm, rfl⟩
                      · cases hx
                      · cases hx
                    · injection hx with hx
                      injection hx with hx1 hx2
                      exact ⟨_, _, hx2.symm, rfl⟩
                  · cases hx
                split at hw
                · next d bs hbs =>
                  obtain ⟨z, zs, hz1, hz2⟩ := hempty _ _ _ _ _ hbs
                  injection hw with hw
                  rw [← hw] at hb'
                  dsimp only at hb'
                  rw [hz1] at hb'
                  injection hb' with hb1 hb2
                  subst hb1
                  exact hne' hz2
                · cases hw
                · cases hw
            · injection hw with hw
              rw [← hw] at hb' ⊢
              injection hb' with hb1 hb2
              exact ⟨hb2.symm, hmap⟩
  obtain ⟨h1, h2⟩ := hshape
  unfold indexOfHash TierTop.tryIndexOfHash
  rw [if_neg (by omega), h2, hb']
  dsimp only
  rw [searchBelow, hnot, h1, hb, closeNext]
  dsimp only
  rw [searchBelow]
  have h5 : belowIndexOf (closeBelow b) q = none := by
    unfold belowIndexOf closeBelow
    rw [if_neg (by omega)]
    dsimp only
    match hf : b.forests with
    | [] => exact absurd hf hne
    | _ :: _ => rfl
  rw [h5]

/-! ## Lookup by index -/

/-- **C67: partial.** The hash at an index is the one appended under it, and there is none at other indices: as long as
nothing has been baked, or for the indices of what has been baked; for others if nothing but the first batch has been
baked since the cake was opened. Missing: the rest (`recent_hash_unreadable`, `unknown_index_crashes`), and cakes of
which the first tier has been filled. -/
theorem hash_at_index_partial {ent : List Entry → Nat → Nat} (he : EntropyOK ent) {s : Settings} {t0 : TierConfig}
    (hs : SettingsOK s t0) {ops : List Op} (hh : History s t0 ops) {k0 k : Cake} {given : List Int} (h0 : newCake s = .ok k0)
    (hr : run ent s k0 ops = .ok (k, given)) (m : Memory) :
    (∀ n : Nat, (appended ops).length < s.cap ∨ n < (appended ops).length / s.cap * s.cap → n < (appended ops).length →
      getHashAtIndex m k n = some (appended ops)[n]?) ∧
    (¬ BakedAgain s.cap ops → ∀ g : Int, g < 0 ∨ (appended ops).length ≤ g → getHashAtIndex m k g = some none) := by
  obtain ⟨bs, cur, hi, e1, -, e3⟩ := history_inv he hs hh h0 hr
  have hfl := flatten_len hi.sizes
  constructor
  · intro n hn hlt
    rw [hash_at he hs hi]
    by_cases hlt' : n < bs.flatten.length
    · rw [if_pos (by omega), e1, List.getElem?_append_left hlt']
      rfl
    · have hbs : bs = [] := by
        rw [e3] at hfl
        rcases hn with hn | hn
        · rw [Nat.div_eq_of_lt hn] at e3
          exact List.length_eq_zero_iff.1 e3
        · omega
      subst hbs
      rw [e1] at hlt ⊢
      simp only [List.flatten_nil, List.nil_append, List.length_nil] at hlt ⊢
      rw [if_neg (by omega), if_pos (by omega), if_pos trivial]
      rfl
  · intro hd g hg
    rw [hash_at he hs hi]
    rw [e1, List.length_append] at hg
    rw [if_neg (by omega), if_neg (by omega), if_neg (by simpa using hd)]

/-- **C67 fails.** Once a batch has been baked, asking for the hash at the index of any hash appended since panics. -/
theorem recent_hash_unreadable {ent : List Entry → Nat → Nat} (he : EntropyOK ent) {s : Settings} {t0 : TierConfig}
    (hs : SettingsOK s t0) {ops : List Op} (hh : History s t0 ops) {k0 k : Cake} {given : List Int} (h0 : newCake s = .ok k0)
    (hr : run ent s k0 ops = .ok (k, given)) (m : Memory) (hb : s.cap ≤ (appended ops).length) {n : Nat}
    (hn : (appended ops).length / s.cap * s.cap ≤ n) (hlt : n < (appended ops).length) : getHashAtIndex m k n = none := by
  obtain ⟨bs, cur, hi, e1, -, e3⟩ := history_inv he hs hh h0 hr
  have hfl := flatten_len hi.sizes
  have hpos : 0 < bs.length := by rw [e3]; exact Nat.div_pos hb hs.capPos
  rw [e3] at hfl
  rw [hash_at he hs hi]
  rw [e1, List.length_append] at hlt
  rw [if_neg (by omega), if_pos (by omega), if_neg]
  rintro rfl
  simp at hpos

/-- **C67 fails.** Once a batch other than the first has been baked since the cake was opened, asking for the hash at an
index no hash has panics. -/
theorem unknown_index_crashes {ent : List Entry → Nat → Nat} (he : EntropyOK ent) {s : Settings} {t0 : TierConfig}
    (hs : SettingsOK s t0) {ops : List Op} (hh : History s t0 ops) (hd : BakedAgain s.cap ops) {k0 k : Cake} {given : List Int}
    (h0 : newCake s = .ok k0) (hr : run ent s k0 ops = .ok (k, given)) (m : Memory) {g : Int}
    (hg : g < 0 ∨ (appended ops).length ≤ g) : getHashAtIndex m k g = none := by
  obtain ⟨bs, cur, hi, e1, -, e3⟩ := history_inv he hs hh h0 hr
  rw [hash_at he hs hi]
  rw [e1, List.length_append] at hg
  rw [if_neg (by omega), if_neg (by omega), if_pos (by simpa using hd)]

/-! ## A caller that uses one slice for all hashes -/

/-- Appending slices, the memory being as told at each. -/
def appendAll (ent : List Entry → Nat → Nat) (s : Settings) : Cake → List (Memory × Cell) → Outcome Cake
  | k, [] => .ok k
  | k, (m, a) :: rest =>
    match append ent s m k a with
    | .ok (k', _) => appendAll ent s k' rest
    | .error => .error
    | .panic => .panic

/-- **C68 fails.** A caller that puts each hash into the same slice before appending it crashes the program when the
first batch is full, although all hashes are different: the bake takes them for duplicates. Up to then all is well. -/
theorem reused_slice_crashes {ent : List Entry → Nat → Nat} (he : EntropyOK ent) {s : Settings} {t0 : TierConfig}
    (hs : SettingsOK s t0) (h2 : 2 ≤ s.cap) {k0 : Cake} (h0 : newCake s = .ok k0) (a : Nat) (ms : List Memory)
    (hm : ∀ m ∈ ms, (m a).length = 32) :
    (ms.length < s.cap → ∃ k, appendAll ent s k0 (ms.map fun m => (m, .caller a)) = .ok k) ∧
    (s.cap ≤ ms.length → appendAll ent s k0 (ms.map fun m => (m, .caller a)) = .panic) := by
  have key : ∀ (ms : List Memory) (k : Cake), k.top.first = 0 → k.top.cells = List.replicate k.top.cells.length (.caller a) →
      k.top.cells.length < s.cap → (∀ m ∈ ms, (m a).length = 32) →
      (k.top.cells.length + ms.length < s.cap → ∃ k', appendAll ent s k (ms.map fun m => (m, .caller a)) = .ok k') ∧
      (s.cap ≤ k.top.cells.length + ms.length → appendAll ent s k (ms.map fun m => (m, .caller a)) = .panic) := by
    intro ms
    induction ms with
    | nil => intro k _ _ h _; exact ⟨fun _ => ⟨k, rfl⟩, fun h' => by simp only [List.length_nil] at h'; omega⟩
    | cons m ms ih =>
      intro k h1 hc hlt hm
      have h32 := hm m (by simp)
      rw [List.map_cons, appendAll]
      by_cases hfull : k.top.cells.length + 1 = s.cap
      · refine ⟨fun h => by simp only [List.length_cons] at h; omega, fun _ => ?_⟩
        have hp : append ent s m k (.caller a) = .panic := by
          unfold append
          dsimp only [Cell.read]
          rw [if_neg (by omega), if_neg (by omega), if_pos hfull]
          obtain ⟨rest, ht⟩ := hs.tiers
          unfold writeTop
          rw [ht]
          dsimp only
          have hl : (k.top.cells ++ [Cell.caller a]).map (Cell.read m) = List.replicate s.cap (m a) := by
            rw [hc, List.map_append, List.map_replicate, ← hfull, List.replicate_succ']
            rfl
          rw [hl, h1, hs.pre]
          have he2 : ((List.replicate s.cap (m a)).mapIdx fun i h => (⟨h, globalOfTop i 0⟩ : Entry)) =
              entriesOf 0 (List.replicate s.cap (m a)) := rfl
          have hnd : ¬ (List.replicate s.cap (m a)).Nodup := by
            rw [List.nodup_replicate]
            omega
          rw [he2, (bake_panics_iff_duplicates he hs.sane (first := 0) (by decide) (by decide) (by
            intro h
            have := congrArg List.length h
            rw [List.length_replicate, List.length_nil] at this
            omega) (by
            intro h hh
            rw [List.eq_of_mem_replicate hh, h32, hs.length]) (by rw [List.length_replicate]; exact hs.capIds)
            (by rw [List.length_replicate]; exact hs.capNodes)).2 hnd]
        rw [hp]
      · have hok : append ent s m k (.caller a) = .ok ({ k with top := { k.top with
            map := setMap k.top.map (m a) k.top.cells.length, cells := k.top.cells ++ [.caller a],
            file := k.top.file ++ [m a] } }, globalOfTop k.top.cells.length k.top.first) := by
          unfold append
          dsimp only [Cell.read]
          rw [if_neg (by omega), if_neg (by omega), if_neg hfull]
        rw [hok]
        dsimp only
        have := ih { k with top := { k.top with
            map := setMap k.top.map (m a) k.top.cells.length, cells := k.top.cells ++ [.caller a],
            file := k.top.file ++ [m a] } } h1 (by
              dsimp only
              rw [List.length_append, List.length_singleton, List.replicate_succ', ← hc]) (by
              dsimp only
              rw [List.length_append, List.length_singleton]
              omega) (fun x hx => hm x (by simp [hx]))
        dsimp only at this
        rw [List.length_append, List.length_singleton] at this
        rw [List.length_cons, Nat.add_comm ms.length 1, ← Nat.add_assoc]
        exact this
  have hk0 : k0.top.first = 0 ∧ k0.top.cells = [] := by
    unfold newCake openCake openTop at h0
    rw [if_neg (by simp)] at h0
    dsimp only at h0
    split at h0
    · injection h0 with h0
      rw [← h0]
      exact ⟨rfl, rfl⟩
    · cases h0
    · cases h0
  have := key ms k0 hk0.1 (by rw [hk0.2]; rfl) (by rw [hk0.2]; simpa using hs.capPos) hm
  rw [hk0.2, List.length_nil, Nat.zero_add] at this
  exact this

/-! ## Examples -/

/-- A small cake: batches of two hashes, four reassurance bytes. -/
def demoSettings : Settings := ⟨2, [⟨demoTier, 0, 5⟩, ⟨⟨32, 4, 10, 3, 3, true⟩, 1, 255⟩]⟩

theorem demoSettings_ok : SettingsOK demoSettings ⟨demoTier, 0, 5⟩ :=
  ⟨⟨_, rfl⟩, demoTier_sane, rfl, rfl, by decide, by decide, by decide, by decide, by decide⟩

/-- The settings of the program (cakeconfig.go:28-53), with four reassurance bytes. -/
def realSettings : Settings := ⟨65535, [⟨demoTier, 0, 5⟩, ⟨⟨32, 4, 10, 3, 3, true⟩, 1, 255⟩, ⟨⟨32, 4, 10, 4, 4, true⟩, 2, 255⟩,
  ⟨⟨32, 4, 10, 5, 5, true⟩, 3, 255⟩]⟩

example : SettingsOK realSettings ⟨demoTier, 0, 5⟩ :=
  ⟨⟨_, rfl⟩, demoTier_sane, rfl, rfl, by decide, by decide, by decide, by decide, by decide⟩

def demoH (i : Nat) : Bytes := List.replicate 32 (UInt8.ofNat i)

/-- Five hashes: two batches are baked. -/
def demoOps : List Op := [.append (demoH 1), .append (demoH 2), .append (demoH 3), .append (demoH 4), .append (demoH 5)]

theorem demoOps_ok : History demoSettings ⟨demoTier, 0, 5⟩ demoOps := ⟨by decide, by decide, by decide⟩

theorem demoOps_reopen_ok : History demoSettings ⟨demoTier, 0, 5⟩ (demoOps ++ [.reopen]) := ⟨by decide, by decide, by decide⟩

theorem spread_of_distinct {l : List Bytes} {n cap : Nat} (h : Spread 32 l) (i : Nat) : Spread 32 ((l.drop (i * n)).take cap) :=
  fun x hx y hy => h x (List.mem_of_mem_drop (List.mem_of_mem_take hx)) y (List.mem_of_mem_drop (List.mem_of_mem_take hy))

theorem demo_spread : Spread 32 (appended demoOps) := by unfold Spread; decide +kernel

/-- After five appends a hash not in the cake makes the program crash, and so does the index of the last; after opening
the cake again it is said not to be there. -/
example : ∃ k0 k k' : Cake, newCake demoSettings = .ok k0 ∧ run demoEnt demoSettings k0 demoOps = .ok (k, [0, 1, 2, 3, 4]) ∧
    run demoEnt demoSettings k0 (demoOps ++ [.reopen]) = .ok (k', [0, 1, 2, 3, 4]) ∧
    indexOfHash k (demoH 200) = none ∧ getHashAtIndex (fun _ => []) k 4 = none ∧ getHashAtIndex (fun _ => []) k 77 = none ∧
    getHashAtIndex (fun _ => []) k 3 = some (some (demoH 4)) ∧ indexOfHash k' (demoH 200) ≠ none ∧
    getHashAtIndex (fun _ => []) k' 77 = some none := by
  obtain ⟨k0, h0, -⟩ := new_inv demoEnt demoSettings_ok (by decide)
  obtain ⟨k, hk⟩ := appends_in_order_partial demoEnt_ok demoSettings_ok demoOps_ok (fun i => spread_of_distinct demo_spread i) h0
  obtain ⟨k', hk'⟩ := appends_in_order_partial demoEnt_ok demoSettings_ok demoOps_reopen_ok
    (fun i => spread_of_distinct demo_spread i) h0
  have hd : ¬ BakedAgain demoSettings.cap (demoOps ++ [.reopen]) := by decide
  refine ⟨k0, k, k', h0, hk, hk', ?_, ?_, ?_, ?_, ?_, ?_⟩
  · exact absent_hash_crashes demoEnt_ok demoSettings_ok (by decide) demoOps_ok (by decide) h0 hk _ (by decide) (by decide +kernel)
  · exact recent_hash_unreadable demoEnt_ok demoSettings_ok demoOps_ok h0 hk _ (by decide) (n := 4) (by decide) (by decide)
  · exact unknown_index_crashes demoEnt_ok demoSettings_ok demoOps_ok (by decide) h0 hk _ (.inr (by decide))
  · exact (hash_at_index_partial demoEnt_ok demoSettings_ok demoOps_ok h0 hk _).1 3 (by decide) (by decide)
  · exact (no_lookup_crashes_partial demoEnt_ok demoSettings_ok demoOps_reopen_ok hd h0 hk' _ (by decide)).1
  · exact (hash_at_index_partial demoEnt_ok demoSettings_ok demoOps_reopen_ok h0 hk' _).2 hd 77 (.inr (by decide))

/-- The fourth append bakes a batch which is not the first. -/
example : ∃ (k k' : Cake) (b b' : Below) (rest rest' : List Below) (g : Int), k.chain = b :: rest ∧ b.forests ≠ [] ∧
    k.top.cells.length + 1 = demoSettings.cap ∧ append demoEnt demoSettings (fun _ => []) k (.own (demoH 4)) = .ok (k', g) ∧
    k'.chain = b' :: rest' ∧ b'.forests ≠ [] ∧ ∀ q : Bytes, q.length = 32 → belowIndexOf b' q = some none → indexOfHash k' q = none := by
  have hh : History demoSettings ⟨demoTier, 0, 5⟩ (demoOps.take 3) := ⟨by decide, by decide, by decide⟩
  have hh' : History demoSettings ⟨demoTier, 0, 5⟩ (demoOps.take 4) := ⟨by decide, by decide, by decide⟩
  have hsp : Spread 32 (appended (demoOps.take 3)) := by unfold Spread; decide +kernel
  have hsp' : Spread 32 (appended (demoOps.take 4)) := by unfold Spread; decide +kernel
  obtain ⟨k0, h0, -⟩ := new_inv demoEnt demoSettings_ok (by decide)
  obtain ⟨k, hk⟩ := appends_in_order_partial demoEnt_ok demoSettings_ok hh (fun i => spread_of_distinct hsp i) h0
  obtain ⟨k', hk'⟩ := appends_in_order_partial demoEnt_ok demoSettings_ok hh' (fun i => spread_of_distinct hsp' i) h0
  obtain ⟨bs, cur, hi, e1, -, e2⟩ := history_inv demoEnt_ok demoSettings_ok hh h0 hk
  obtain ⟨bs', cur', hi', -, -, e2'⟩ := history_inv demoEnt_ok demoSettings_ok hh' h0 hk'
  have e2 : bs.length = 1 := e2
  have e2' : bs'.length = 2 := e2'
  have hlen : bs.flatten.length + cur.length = 3 := by rw [← List.length_append, ← e1]; rfl
  rw [flatten_len hi.sizes, e2] at hlen
  have hcap : demoSettings.cap = 2 := rfl
  have hcells : k.top.cells.length + 1 = demoSettings.cap := by rw [hi.cells, List.length_map]; omega
  have hchain : ∀ {k : Cake} {bs : List (List Bytes)} {cur : List Bytes} {dead : Bool},
      Inv demoEnt demoSettings ⟨demoTier, 0, 5⟩ k bs cur dead → bs ≠ [] → ∃ b rest, k.chain = b :: rest ∧ b.forests ≠ [] := by
    intro k bs cur dead hi hbs
    obtain ⟨b, rest, g1, -, -, g4⟩ := hi.chain
    exact ⟨b, rest, g1, by obtain ⟨tier, u1, u2⟩ := g4 hbs; rw [u2]; exact open_forests_ne demoEnt_ok demoSettings_ok hi hbs u1⟩
  obtain ⟨b, rest, c1, c2⟩ := hchain hi (by rintro rfl; simp at e2)
  obtain ⟨b', rest', c1', c2'⟩ := hchain hi' (by rintro rfl; simp at e2')
  obtain ⟨g, hstep⟩ := run_last demoEnt demoSettings (demoH 4) (demoOps.take 3) k0 hk hk'
  exact ⟨k, k', b, b', rest, rest', g, c1, c2, hcells, hstep, c1', c2', fun q hq hnot =>
    bake_cuts_off_deeper_tiers c1 c2 hcells hstep c1' c2' q hq hnot⟩

/-- Every byte reassured. -/
example : ∃ k0 k : Cake, newCake ⟨2, [⟨⟨32, 32, 10, 2, 2, true⟩, 0, 5⟩]⟩ = .ok k0 ∧
    run demoEnt ⟨2, [⟨⟨32, 32, 10, 2, 2, true⟩, 0, 5⟩]⟩ k0 (demoOps ++ [.reopen]) = .ok (k, [0, 1, 2, 3, 4]) ∧
    indexOfHash k (demoH 2) = some 1 ∧ indexOfHash k (demoH 200) = some (-1) := by
  have hs : SettingsOK ⟨2, [⟨⟨32, 32, 10, 2, 2, true⟩, 0, 5⟩]⟩ ⟨⟨32, 32, 10, 2, 2, true⟩, 0, 5⟩ :=
    ⟨⟨_, rfl⟩, ⟨⟨by decide, by decide, by decide, by decide, by decide⟩, rfl, by decide, by decide, by decide⟩, rfl, rfl, by decide,
      by decide, by decide, by decide, by decide⟩
  have hh : History ⟨2, [⟨⟨32, 32, 10, 2, 2, true⟩, 0, 5⟩]⟩ ⟨⟨32, 32, 10, 2, 2, true⟩, 0, 5⟩ (demoOps ++ [.reopen]) :=
    ⟨by decide, by decide, by decide⟩
  obtain ⟨k0, h0, -⟩ := new_inv demoEnt hs (by decide)
  obtain ⟨k, hk⟩ := appends_in_order_partial demoEnt_ok hs hh (fun i => spread_of_distinct demo_spread i) h0
  refine ⟨k0, k, h0, hk, ?_, ?_⟩
  · exact lookups_exact_if_all_reassured_partial demoEnt_ok hs rfl hh (by decide) h0 hk (demoH 2) (by decide)
  · exact lookups_exact_if_all_reassured_partial demoEnt_ok hs rfl hh (by decide) h0 hk (demoH 200) (by decide)

/-- A different hash in the same slice each time. -/
example : ∃ k0, newCake demoSettings = .ok k0 ∧
    appendAll demoEnt demoSettings k0 ([fun _ => demoH 1, fun _ => demoH 2].map fun m => (m, .caller 0)) = .panic := by
  obtain ⟨k0, h0, -⟩ := new_inv demoEnt demoSettings_ok (by decide)
  exact ⟨k0, h0, (reused_slice_crashes demoEnt_ok demoSettings_ok (by decide) h0 0 [fun _ => demoH 1, fun _ => demoH 2]
    (by intro m hm; simp only [List.mem_cons, List.not_mem_nil, or_false] at hm; rcases hm with rfl | rfl <;> rfl)).2 (by decide)⟩

end Verif.Cake
