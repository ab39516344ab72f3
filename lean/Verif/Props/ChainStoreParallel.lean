import Verif.Model.ChainStoreParallel
import Verif.Props.ChainStore

/-! # C38: the order in which the two goroutines work makes no difference -/

namespace Verif.ChainStore

/-! ## What each goroutine touches -/

/-- The files written by the goroutine for the inputs. -/
structure InFiles where
  trnFirstTxi : Words
  txiTx : Words
  txiVout : Words
  parentTransOfTxi : Words

def getIn (s : St) : InFiles := ⟨s.trnFirstTxi, s.txiTx, s.txiVout, s.parentTransOfTxi⟩
def setIn (s : St) (f : InFiles) : St :=
  { s with trnFirstTxi := f.trnFirstTxi, txiTx := f.txiTx, txiVout := f.txiVout, parentTransOfTxi := f.parentTransOfTxi }

/-- The action only looks at the files of the inputs and what neither goroutine writes, and only changes the files of
the inputs. -/
def InLocal (a : Act) : Prop :=
  ∀ r s (t : St), a r (setIn t (getIn s)) = (match a r s with
      | .ok (r', s') => .ok (r', setIn t (getIn s'))
      | .error f => .error f) ∨ t.blkFirstTrans ≠ s.blkFirstTrans ∨ t.trnHashes ≠ s.trnHashes

/-- The action leaves alone what the goroutine for the inputs uses, and does not look at the files of the inputs. -/
def OutLocal (a : Act) : Prop :=
  (∀ r s r' s', a r s = .ok (r', s') → getIn s' = getIn s ∧ s'.blkFirstTrans = s.blkFirstTrans ∧ s'.trnHashes = s.trnHashes) ∧
  ∀ r s f, a r (setIn s f) = (match a r s with
      | .ok (r', s') => .ok (r', setIn s' f)
      | .error e => .error e)

/-- The actions of the inputs goroutine change nothing but the files of the inputs. -/
def InOnly (a : Act) : Prop := ∀ r s r' s', a r s = .ok (r', s') → s' = setIn s (getIn s')

/-- The sequential execution of some actions. -/
def runActs : List Act → Reg → St → Except Fail (Reg × St)
  | [], r, s => .ok (r, s)
  | a :: as, r, s => do
    let x ← a r s
    runActs as x.1 x.2

theorem setIn_setIn (s : St) (f g : InFiles) : setIn (setIn s f) g = setIn s g := rfl
theorem getIn_setIn (s : St) (f : InFiles) : getIn (setIn s f) = f := rfl
theorem setIn_getIn (s : St) : setIn s (getIn s) = s := rfl

/-! ### The programs are made of such actions -/

theorem bind_err {α β : Type} (f : Fail) (g : α → Except Fail β) : ((Except.error f : Except Fail α) >>= g) = .error f := rfl

theorem inOnly_put {w : Nat} {g : St → Words} {off val : Reg → Int} {set : St → Words → St} (hset : ∀ s v, set s v = setIn s (getIn (set s v))) :
    InOnly (fun r s => do let f ← put w (g s) (off r) (val r); .ok (r, set s f)) := by
  intro r s r' s' h
  dsimp only at h
  cases hp : put w (g s) (off r) (val r) with
  | error e => rw [hp, bind_err] at h; simp at h
  | ok v =>
    rw [hp, bind_ok] at h
    simp only [Except.ok.injEq, Prod.mk.injEq] at h
    rw [← h.2]; exact hset s v

theorem inLocal_put {w : Nat} {g : St → Words} {off val : Reg → Int} {set : St → Words → St}
    (hg : ∀ s t, g (setIn t (getIn s)) = g s) (hset : ∀ s t v, set (setIn t (getIn s)) v = setIn t (getIn (set s v))) :
    InLocal (fun r s => do let f ← put w (g s) (off r) (val r); .ok (r, set s f)) := by
  intro r s t
  left
  dsimp only
  rw [hg]
  cases hp : put w (g s) (off r) (val r) with
  | error e => rfl
  | ok v => rw [bind_ok, bind_ok]; dsimp only; rw [hset]

theorem txiSource_setIn (i : Iface) (s : St) (f : InFiles) (x : Txi) : txiSource i (setIn s f) x = txiSource i s x := rfl

theorem txiSource_congr {i : Iface} {s t : St} (h1 : t.blkFirstTrans = s.blkFirstTrans) (h2 : t.trnHashes = s.trnHashes) (x : Txi) :
    txiSource i t x = txiSource i s x := by
  rw [txiSource_eq, txiSource_eq, h1, h2]

theorem txiActs_in (i : Iface) (trans : Int) (x : Txi) : ∀ a ∈ txiActs i trans x, InLocal a ∧ InOnly a := by
  intro a ha
  simp only [txiActs, List.mem_cons, List.not_mem_nil, or_false] at ha
  rcases ha with rfl | rfl | rfl | rfl | rfl
  · constructor
    · intro r s t
      by_cases h1 : t.blkFirstTrans = s.blkFirstTrans
      · by_cases h2 : t.trnHashes = s.trnHashes
        · left
          dsimp only
          rw [txiSource_setIn, txiSource_congr h1 h2]
          cases txiSource i s x <;> rfl
        · exact Or.inr (Or.inr h2)
      · exact Or.inr (Or.inl h1)
    · intro r s r' s' h
      dsimp only at h
      cases hp : txiSource i s x with
      | error e => rw [hp, bind_err] at h; simp at h
      | ok v =>
        rw [hp, bind_ok] at h
        simp only [Except.ok.injEq, Prod.mk.injEq] at h
        rw [← h.2]; rfl
  · constructor
    · intro r s t
      left
      show (if i = .cri ∧ differs x.height (count s.txiTx) = true then _ else _) = _
      dsimp only
      by_cases h : i = .cri ∧ differs x.height (count s.txiTx) = true
      · rw [if_pos h, if_pos h]
      · rw [if_neg h, if_neg h]; rfl
    · intro r s r' s' h
      dsimp only at h
      split at h
      · simp at h
      · simp only [Except.ok.injEq, Prod.mk.injEq] at h
        rw [← h.2]; rfl
  · exact ⟨inLocal_put (g := (·.txiTx)) (off := (·.b)) (val := (·.a)) (fun _ _ => rfl) (fun _ _ _ => rfl),
      inOnly_put (g := (·.txiTx)) (off := (·.b)) (val := (·.a)) (fun _ _ => rfl)⟩
  · exact ⟨inLocal_put (g := (·.txiVout)) (off := (·.b)) (val := fun _ => x.vout) (fun _ _ => rfl) (fun _ _ _ => rfl),
      inOnly_put (g := (·.txiVout)) (off := (·.b)) (val := fun _ => x.vout) (fun _ _ => rfl)⟩
  · exact ⟨inLocal_put (g := (·.parentTransOfTxi)) (off := (·.b)) (val := fun _ => trans) (fun _ _ => rfl) (fun _ _ _ => rfl),
      inOnly_put (g := (·.parentTransOfTxi)) (off := (·.b)) (val := fun _ => trans) (fun _ _ => rfl)⟩

theorem txiProg_in (i : Iface) (trans : Int) (xs : List Txi) : ∀ a ∈ txiProg i trans xs, InLocal a ∧ InOnly a := by
  intro a ha
  simp only [txiProg, List.mem_append, List.mem_cons, List.not_mem_nil, or_false, List.mem_flatMap] at ha
  rcases ha with (rfl | rfl) | ⟨x, _, hx⟩
  · constructor
    · intro r s t; left; rfl
    · intro r s r' s' h
      simp only [Except.ok.injEq, Prod.mk.injEq] at h
      rw [← h.2]; rfl
  · exact ⟨inLocal_put (g := (·.trnFirstTxi)) (off := fun _ => trans) (val := (·.b)) (fun _ _ => rfl) (fun _ _ _ => rfl),
      inOnly_put (g := (·.trnFirstTxi)) (off := fun _ => trans) (val := (·.b)) (fun _ _ => rfl)⟩
  · exact txiActs_in i trans x a hx

theorem outLocal_put {w : Nat} {g : St → Words} {off val : Reg → Int} {set : St → Words → St}
    (hg : ∀ s f, g (setIn s f) = g s) (hset : ∀ s f v, set (setIn s f) v = setIn (set s v) f)
    (hkeep : ∀ s v, getIn (set s v) = getIn s ∧ (set s v).blkFirstTrans = s.blkFirstTrans ∧ (set s v).trnHashes = s.trnHashes) :
    OutLocal (fun r s => do let f ← put w (g s) (off r) (val r); .ok (r, set s f)) := by
  constructor
  · intro r s r' s' h
    dsimp only at h
    cases hp : put w (g s) (off r) (val r) with
    | error e => rw [hp, bind_err] at h; simp at h
    | ok v =>
      rw [hp, bind_ok] at h
      simp only [Except.ok.injEq, Prod.mk.injEq] at h
      rw [← h.2]; exact hkeep s v
  · intro r s f
    dsimp only
    rw [hg]
    cases hp : put w (g s) (off r) (val r) with
    | error e => rfl
    | ok v => rw [bind_ok, bind_ok]; dsimp only; rw [hset]

/-- An action that decides, or computes, from what it may look at, and keeps the store. -/
theorem outLocal_pure {g : Reg → St → Except Fail Reg} (hg : ∀ r s f, g r (setIn s f) = g r s) :
    OutLocal (fun r s => do let r' ← g r s; .ok (r', s)) := by
  constructor
  · intro r s r' s' h
    dsimp only at h
    cases hp : g r s with
    | error e => rw [hp, bind_err] at h; simp at h
    | ok v =>
      rw [hp, bind_ok] at h
      simp only [Except.ok.injEq, Prod.mk.injEq] at h
      rw [← h.2]; exact ⟨rfl, rfl, rfl⟩
  · intro r s f
    dsimp only
    rw [hg]
    cases g r s <;> rfl

theorem txoActs_out (i : Iface) (trans : Int) (x : Txo) : ∀ a ∈ txoActs i trans x, OutLocal a := by
  intro a ha
  simp only [txoActs, List.mem_cons, List.not_mem_nil, or_false] at ha
  rcases ha with rfl | rfl | rfl | rfl | rfl | rfl | rfl | rfl | rfl
  · have := outLocal_pure (g := fun r s => if i = .cri ∧ differs x.height (count s.txoSats) = true then .error .panic else .ok { r with b := count s.txoSats })
      (fun _ _ _ => rfl)
    convert this using 3
    split <;> rfl
  · exact outLocal_put (g := (·.txoSats)) (off := (·.b)) (val := fun _ => x.sats) (fun _ _ => rfl) (fun _ _ _ => rfl) (fun _ _ => ⟨rfl, rfl, rfl⟩)
  · exact outLocal_put (g := (·.parentTransOfTxo)) (off := (·.b)) (val := fun _ => trans) (fun _ _ => rfl) (fun _ _ _ => rfl) (fun _ _ => ⟨rfl, rfl, rfl⟩)
  · have := outLocal_pure (g := fun r s => if indexOf s.adrHashes x.addr = -1 then .error .err else .ok { r with a := indexOf s.adrHashes x.addr })
      (fun _ _ _ => rfl)
    convert this using 3
    split <;> rfl
  · exact outLocal_pure (g := fun r s => .ok { r with c := decide (count s.addrFirstTxo > r.a) }) (fun _ _ _ => rfl)
  · constructor
    · intro r s r' s' h
      dsimp only at h
      split at h
      · cases hp : put 5 s.addrFirstTxo r.a r.b with
        | error e => rw [hp, bind_err] at h; simp at h
        | ok v =>
          rw [hp, bind_ok] at h
          simp only [Except.ok.injEq, Prod.mk.injEq] at h
          rw [← h.2]; exact ⟨rfl, rfl, rfl⟩
      · simp only [Except.ok.injEq, Prod.mk.injEq] at h
        rw [← h.2]; exact ⟨rfl, rfl, rfl⟩
    · intro r s f
      dsimp only
      by_cases hc : r.c = false
      · rw [if_pos hc, if_pos hc]
        show (do let v ← put 5 s.addrFirstTxo r.a r.b; _) = _
        cases put 5 s.addrFirstTxo r.a r.b <;> rfl
      · rw [if_neg hc, if_neg hc]; rfl
  · have := outLocal_pure (g := fun r s =>
      if r.c = false ∧ r.a = testPoint then do
        let v ← get s.addrFirstTxo r.a
        if v ≠ r.b then .error .panic else if v = 0 then .error .panic else .ok r
      else .ok r) (fun _ _ _ => rfl)
    convert this using 3 with r s
    split
    · cases get s.addrFirstTxo r.a with
      | error e => rfl
      | ok v =>
        rw [bind_ok, bind_ok]
        split
        · rfl
        · split <;> rfl
    · rfl
  · exact outLocal_put (g := (·.txoAddress)) (off := (·.b)) (val := (·.a)) (fun _ _ => rfl) (fun _ _ _ => rfl) (fun _ _ => ⟨rfl, rfl, rfl⟩)
  · exact outLocal_put (g := (·.txoSpentTxi)) (off := (·.b)) (val := fun _ => 0) (fun _ _ => rfl) (fun _ _ _ => rfl) (fun _ _ => ⟨rfl, rfl, rfl⟩)

theorem txoProg_out (i : Iface) (trans : Int) (xs : List Txo) : ∀ a ∈ txoProg i trans xs, OutLocal a := by
  intro a ha
  simp only [txoProg, List.mem_append, List.mem_cons, List.not_mem_nil, or_false, List.mem_flatMap] at ha
  rcases ha with (rfl | rfl | rfl | rfl | rfl) | ⟨x, _, hx⟩
  · exact outLocal_pure (g := fun r s => .ok { r with b := count s.txoSats }) (fun _ _ _ => rfl)
  · have := outLocal_pure (g := fun r s => if s.prevFirstTxo ≠ -1 ∧ (r.b < s.prevFirstTxo ∨ trans < s.prevTrans) then .error .panic else .ok r)
      (fun _ _ _ => rfl)
    convert this using 3
    split <;> rfl
  · exact outLocal_put (g := (·.trnFirstTxo)) (off := fun _ => trans) (val := (·.b)) (fun _ _ => rfl) (fun _ _ _ => rfl) (fun _ _ => ⟨rfl, rfl, rfl⟩)
  · constructor
    · intro r s r' s' h
      simp only [Except.ok.injEq, Prod.mk.injEq] at h
      rw [← h.2]; exact ⟨rfl, rfl, rfl⟩
    · intro r s f; rfl
  · constructor
    · intro r s r' s' h
      simp only [Except.ok.injEq, Prod.mk.injEq] at h
      rw [← h.2]; exact ⟨rfl, rfl, rfl⟩
    · intro r s f; rfl
  · exact txoActs_out i trans x a hx

/-! ### Runs of such actions -/

theorem runActs_out {as : List Act} (h : ∀ a ∈ as, OutLocal a) : ∀ (r : Reg) (s : St),
    (∀ f, runActs as r (setIn s f) = (match runActs as r s with
      | .ok (r', s') => .ok (r', setIn s' f)
      | .error e => .error e)) ∧
    ∀ r' s', runActs as r s = .ok (r', s') → getIn s' = getIn s ∧ s'.blkFirstTrans = s.blkFirstTrans ∧ s'.trnHashes = s.trnHashes := by
  induction as with
  | nil =>
    intro r s
    refine ⟨fun f => rfl, ?_⟩
    intro r' s' h
    simp only [runActs, Except.ok.injEq, Prod.mk.injEq] at h
    rw [← h.2]; exact ⟨rfl, rfl, rfl⟩
  | cons a as ih =>
    intro r s
    have ha := h a (by simp)
    have hc : ∀ r s, runActs (a :: as) r s = (a r s >>= fun x => runActs as x.1 x.2) := fun _ _ => rfl
    have ih := ih (fun x hx => h x (by simp [hx]))
    cases hp : a r s with
    | error e =>
      refine ⟨fun f => ?_, ?_⟩
      · rw [hc, hc, ha.2, hp]; rfl
      · intro r' s' h'; rw [hc, hp, bind_err] at h'; simp at h'
    | ok x =>
      obtain ⟨r1, s1⟩ := x
      obtain ⟨g1, g2, g3⟩ := ha.1 r s r1 s1 hp
      refine ⟨fun f => ?_, ?_⟩
      · rw [hc, hc, ha.2, hp, bind_ok, bind_ok]; exact (ih r1 s1).1 f
      · intro r' s' h'
        rw [hc, hp, bind_ok] at h'
        obtain ⟨k1, k2, k3⟩ := (ih r1 s1).2 r' s' h'
        exact ⟨k1.trans g1, k2.trans g2, k3.trans g3⟩

theorem runActs_in {as : List Act} (h : ∀ a ∈ as, InLocal a ∧ InOnly a) : ∀ (r : Reg) (s t : St),
    t.blkFirstTrans = s.blkFirstTrans → t.trnHashes = s.trnHashes →
    runActs as r (setIn t (getIn s)) = (match runActs as r s with
      | .ok (r', s') => .ok (r', setIn t (getIn s'))
      | .error e => .error e) := by
  induction as with
  | nil => intro r s t _ _; rfl
  | cons a as ih =>
    intro r s t h1 h2
    have ha := h a (by simp)
    have hc : ∀ r s, runActs (a :: as) r s = (a r s >>= fun x => runActs as x.1 x.2) := fun _ _ => rfl
    have hloc := (ha.1 r s t).resolve_right (by rintro (h | h); exacts [h h1, h h2])
    rw [hc, hc, hloc]
    cases hp : a r s with
    | error e => rfl
    | ok x =>
      obtain ⟨r1, s1⟩ := x
      have hs1 := ha.2 r s r1 s1 hp
      rw [bind_ok, bind_ok]
      dsimp only
      exact ih (fun x hx => h x (by simp [hx])) r1 s1 t (by rw [hs1]; exact h1) (by rw [hs1]; exact h2)

theorem runActs_append (as bs : List Act) : ∀ (r : Reg) (s : St), runActs (as ++ bs) r s = (runActs as r s >>= fun x => runActs bs x.1 x.2) := by
  induction as with
  | nil => intro r s; rfl
  | cons a as ih =>
    intro r s
    show (a r s >>= fun x => runActs (as ++ bs) x.1 x.2) = ((a r s >>= fun x => runActs as x.1 x.2) >>= _)
    cases a r s with
    | error e => rfl
    | ok x => rw [bind_ok, bind_ok]; exact ih x.1 x.2

/-- The store after a run of actions. -/
def after (x : Except Fail (Reg × St)) : Except Fail St := x.map (·.2)

theorem after_txis (i : Iface) (trans : Int) (xs : List Txi) : ∀ (r : Reg) (s : St),
    after (runActs (xs.flatMap (txiActs i trans)) r s) = appendTxis i trans xs s := by
  induction xs with
  | nil => intro r s; rfl
  | cons x xs ih =>
    intro r s
    rw [List.flatMap_cons, runActs_append]
    unfold appendTxis appendTxi
    simp only [txiActs, runActs]
    cases txiSource i s x with
    | error e => rfl
    | ok v =>
      simp only [bind_ok]
      by_cases h : i = .cri ∧ differs x.height (count s.txiTx) = true
      · rw [if_pos h, if_pos h]; rfl
      · rw [if_neg h, if_neg h]
        simp only [bind_ok]
        cases put 4 s.txiTx (count s.txiTx) v with
        | error e => rfl
        | ok a =>
          simp only [bind_ok]
          cases put 4 s.txiVout (count s.txiTx) x.vout with
          | error e => rfl
          | ok b =>
            simp only [bind_ok]
            cases put 5 s.parentTransOfTxi (count s.txiTx) trans with
            | error e => rfl
            | ok c => simp only [bind_ok]; exact ih _ _

theorem after_txiProg (i : Iface) (trans : Int) (xs : List Txi) (r : Reg) (s : St) :
    after (runActs (txiProg i trans xs) r s) = txiThread i trans xs s := by
  unfold txiProg txiThread
  rw [runActs_append]
  simp only [runActs, bind_ok]
  cases put 5 s.trnFirstTxi trans (count s.txiTx) with
  | error e => rfl
  | ok f => simp only [bind_ok]; exact after_txis i trans xs _ _

theorem after_txos (i : Iface) (trans : Int) (xs : List Txo) : ∀ (r : Reg) (s : St),
    after (runActs (xs.flatMap (txoActs i trans)) r s) = appendTxos i trans xs s := by
  induction xs with
  | nil => intro r s; rfl
  | cons x xs ih =>
    intro r s
    rw [List.flatMap_cons, runActs_append]
    unfold appendTxos appendTxo touchAddress
    simp only [txoActs, runActs]
    by_cases h : i = .cri ∧ differs x.height (count s.txoSats) = true
    · rw [if_pos h, if_pos h]; rfl
    · rw [if_neg h, if_neg h]
      simp only [bind_ok]
      cases put 7 s.txoSats (count s.txoSats) x.sats with
      | error e => rfl
      | ok a =>
        simp only [bind_ok]
        cases put 5 s.parentTransOfTxo (count s.txoSats) trans with
        | error e => rfl
        | ok b =>
          simp only [bind_ok]
          by_cases h1 : indexOf s.adrHashes x.addr = -1
          · rw [if_pos h1, if_pos h1]; rfl
          · rw [if_neg h1, if_neg h1]
            simp only [bind_ok]
            by_cases h2 : count s.addrFirstTxo > indexOf s.adrHashes x.addr
            · rw [if_neg (show ¬ ¬ _ from fun hn => hn h2)]
              simp only [h2, decide_true, Bool.true_eq_false, if_false, bind_ok, false_and]
              cases put 5 s.txoAddress (count s.txoSats) (indexOf s.adrHashes x.addr) with
              | error e => rfl
              | ok c =>
                simp only [bind_ok]
                cases put 5 s.txoSpentTxi (count s.txoSats) 0 with
                | error e => rfl
                | ok d => simp only [bind_ok]; exact ih _ _
            · rw [if_pos h2]
              simp only [h2, decide_false, if_true, true_and]
              cases put 5 s.addrFirstTxo (indexOf s.adrHashes x.addr) (count s.txoSats) with
              | error e => rfl
              | ok f =>
                simp only [bind_ok]
                have rest : ∀ (r : Reg) (s' : St),
                    after (runActs (xs.flatMap (txoActs i trans)) r s') = appendTxos i trans xs s' := ih
                by_cases h3 : indexOf s.adrHashes x.addr = testPoint
                · rw [if_pos (show True ∧ indexOf s.adrHashes x.addr = testPoint from ⟨trivial, h3⟩), if_pos h3]
                  cases get f (indexOf s.adrHashes x.addr) with
                  | error e => rfl
                  | ok v =>
                    simp only [bind_ok]
                    by_cases h4 : v ≠ count s.txoSats
                    · rw [if_pos h4, if_pos h4]; rfl
                    · rw [if_neg h4, if_neg h4]
                      by_cases h5 : v = 0
                      · rw [if_pos h5, if_pos h5]; rfl
                      · rw [if_neg h5, if_neg h5]
                        simp only [bind_ok]
                        cases put 5 s.txoAddress (count s.txoSats) (indexOf s.adrHashes x.addr) with
                        | error e => rfl
                        | ok c =>
                          simp only [bind_ok]
                          cases put 5 s.txoSpentTxi (count s.txoSats) 0 with
                          | error e => rfl
                          | ok d => simp only [bind_ok]; exact ih _ _
                · rw [if_neg (show ¬ (True ∧ indexOf s.adrHashes x.addr = testPoint) from fun hh => h3 hh.2), if_neg h3]
                  simp only [bind_ok]
                  cases put 5 s.txoAddress (count s.txoSats) (indexOf s.adrHashes x.addr) with
                  | error e => rfl
                  | ok c =>
                    simp only [bind_ok]
                    cases put 5 s.txoSpentTxi (count s.txoSats) 0 with
                    | error e => rfl
                    | ok d => simp only [bind_ok]; exact ih _ _

theorem after_txoProg (i : Iface) (trans : Int) (xs : List Txo) (r : Reg) (s : St) :
    after (runActs (txoProg i trans xs) r s) = txoThread i trans xs s := by
  unfold txoProg txoThread
  rw [runActs_append]
  simp only [runActs, bind_ok]
  by_cases h : s.prevFirstTxo ≠ -1 ∧ (count s.txoSats < s.prevFirstTxo ∨ trans < s.prevTrans)
  · rw [if_pos h, if_pos h]; rfl
  · rw [if_neg h, if_neg h]
    simp only [bind_ok]
    cases put 5 s.trnFirstTxo trans (count s.txoSats) with
    | error e => rfl
    | ok f => simp only [bind_ok]; exact after_txos i trans xs _ _

/-! ## Interleavings -/

/-- Where the two goroutines are heading, if both succeed. -/
def outcome (c : Conf) : Option St :=
  match c.txi, c.txo with
  | .run ra pa, .run rb pb =>
    match runActs pa ra c.st, runActs pb rb c.st with
    | .ok (_, sa), .ok (_, sb) => some (setIn sb (getIn sa))
    | _, _ => none
  | _, _ => none

/-- What is left to do only touches what it should. -/
def Apart (c : Conf) : Prop :=
  (∀ r p, c.txi = .run r p → ∀ a ∈ p, InLocal a ∧ InOnly a) ∧ ∀ r p, c.txo = .run r p → ∀ a ∈ p, OutLocal a

theorem step_outcome {c c' : Conf} (hA : Apart c) (hs : Step c c') : Apart c' ∧ outcome c' = outcome c := by
  obtain ⟨ti, tq, s⟩ := c
  cases hs with
  | txi hn =>
    rename_i t s'
    dsimp only at hn
    cases ti with
    | failed f => simp [Thread.next] at hn
    | run ra pa =>
      cases pa with
      | nil => simp [Thread.next] at hn
      | cons a pa =>
        have hin := hA.1 ra (a :: pa) rfl
        have hsub : ∀ x ∈ pa, InLocal x ∧ InOnly x := fun x hx => hin x (by simp [hx])
        simp only [Thread.next] at hn
        have hc : runActs (a :: pa) ra s = (a ra s >>= fun x => runActs pa x.1 x.2) := rfl
        cases hp : a ra s with
        | error e =>
          rw [hp] at hn
          simp only [Option.some.injEq, Prod.mk.injEq] at hn
          obtain ⟨rfl, rfl⟩ := hn
          refine ⟨⟨fun r p h => by simp at h, hA.2⟩, ?_⟩
          cases tq with
          | failed f => rfl
          | run rb pb => simp only [outcome]; rw [hc, hp, bind_err]
        | ok x =>
          obtain ⟨r1, s1⟩ := x
          rw [hp] at hn
          simp only [Option.some.injEq, Prod.mk.injEq] at hn
          obtain ⟨rfl, rfl⟩ := hn
          refine ⟨⟨?_, hA.2⟩, ?_⟩
          · intro r p h x hx
            simp only [Thread.run.injEq] at h
            exact hsub x (by rw [h.2]; exact hx)
          · cases tq with
            | failed f => rfl
            | run rb pb =>
              have hs1 := (hin a (by simp)).2 ra s r1 s1 hp
              have hout := (runActs_out (hA.2 rb pb rfl) rb s).1 (getIn s1)
              rw [← hs1] at hout
              simp only [outcome]
              rw [hc, hp, bind_ok, hout]
              dsimp only
              cases runActs pa r1 s1 with
              | error e => rfl
              | ok y =>
                cases runActs pb rb s with
                | error e => rfl
                | ok z => rfl
  | txo hn =>
    rename_i t s'
    dsimp only at hn
    cases tq with
    | failed f => simp [Thread.next] at hn
    | run rb pb =>
      cases pb with
      | nil => simp [Thread.next] at hn
      | cons b pb =>
        have hout := hA.2 rb (b :: pb) rfl
        have hsub : ∀ x ∈ pb, OutLocal x := fun x hx => hout x (by simp [hx])
        simp only [Thread.next] at hn
        have hc : runActs (b :: pb) rb s = (b rb s >>= fun x => runActs pb x.1 x.2) := rfl
        cases hp : b rb s with
        | error e =>
          rw [hp] at hn
          simp only [Option.some.injEq, Prod.mk.injEq] at hn
          obtain ⟨rfl, rfl⟩ := hn
          refine ⟨⟨hA.1, fun r p h => by simp at h⟩, ?_⟩
          cases ti with
          | failed f => rfl
          | run ra pa =>
            simp only [outcome]
            rw [hc, hp, bind_err]
            cases runActs pa ra s <;> rfl
        | ok x =>
          obtain ⟨r1, s1⟩ := x
          rw [hp] at hn
          simp only [Option.some.injEq, Prod.mk.injEq] at hn
          obtain ⟨rfl, rfl⟩ := hn
          refine ⟨⟨hA.1, ?_⟩, ?_⟩
          · intro r p h x hx
            simp only [Thread.run.injEq] at h
            exact hsub x (by rw [h.2]; exact hx)
          · cases ti with
            | failed f => rfl
            | run ra pa =>
              obtain ⟨g1, g2, g3⟩ := (hout b (by simp)).1 rb s r1 s1 hp
              have hin := runActs_in (hA.1 ra pa rfl) ra s s1 g2 g3
              rw [← g1, setIn_getIn] at hin
              simp only [outcome]
              rw [hc, hp, bind_ok, hin]
              dsimp only
              cases runActs pa ra s with
              | error e => rfl
              | ok y =>
                cases runActs pb r1 s1 with
                | error e => rfl
                | ok z => rfl

theorem reaches_outcome {c c' : Conf} (hA : Apart c) (hr : Reaches c c') : Apart c' ∧ outcome c' = outcome c := by
  induction hr with
  | refl => exact ⟨hA, rfl⟩
  | step _ hs ih =>
    obtain ⟨h1, h2⟩ := ih
    obtain ⟨h3, h4⟩ := step_outcome h1 hs
    exact ⟨h3, h4.trans h2⟩

theorem start_apart (i : Iface) (s : St) (t : Nat) (tx : Tx) (trans : Int) : Apart (startContents i s t tx trans) := by
  constructor
  · intro r p h
    simp only [startContents, Thread.run.injEq] at h
    rw [← h.2]; exact txiProg_in _ _ _
  · intro r p h
    simp only [startContents, Thread.run.injEq] at h
    rw [← h.2]; exact txoProg_out _ _ _

/-- Doing the outputs first and then the inputs leads where the goroutines are heading. -/
theorem start_outcome (i : Iface) (s : St) (t : Nat) (tx : Tx) (trans : Int) :
    outcome (startContents i s t tx trans) =
      (txoThread i trans tx.txos s >>= txiThread i trans (storedTxis i t tx)).toOption := by
  rw [← after_txoProg i trans tx.txos ⟨0, 0, false⟩ s]
  simp only [startContents, outcome]
  have hout := (runActs_out (txoProg_out i trans tx.txos) ⟨0, 0, false⟩ s).2
  cases hb : runActs (txoProg i trans tx.txos) ⟨0, 0, false⟩ s with
  | error e =>
    cases runActs (txiProg i trans (storedTxis i t tx)) ⟨0, 0, false⟩ s <;> rfl
  | ok y =>
    obtain ⟨rb, sb⟩ := y
    obtain ⟨g1, g2, g3⟩ := hout rb sb hb
    have hin := runActs_in (txiProg_in i trans (storedTxis i t tx)) ⟨0, 0, false⟩ s sb g2 g3
    rw [← g1, setIn_getIn] at hin
    show _ = (txiThread i trans (storedTxis i t tx) sb).toOption
    rw [← after_txiProg i trans (storedTxis i t tx) ⟨0, 0, false⟩ sb, hin]
    cases runActs (txiProg i trans (storedTxis i t tx)) ⟨0, 0, false⟩ s with
    | error e => rfl
    | ok x => rfl

/-- The operations still to be done. -/
def Thread.size : Thread → Nat
  | .run _ p => p.length + 1
  | .failed _ => 0

/-- Every step brings the end nearer: no schedule goes on for ever. -/
theorem step_decreases {c c' : Conf} (hs : Step c c') : c'.txi.size + c'.txo.size < c.txi.size + c.txo.size := by
  have hn : ∀ (th t : Thread) (s s' : St), th.next s = some (t, s') → t.size < th.size := by
    intro th t s s' h
    cases th with
    | failed f => simp [Thread.next] at h
    | run r p =>
      cases p with
      | nil => simp [Thread.next] at h
      | cons a p =>
        simp only [Thread.next] at h
        cases hp : a r s with
        | error e => rw [hp] at h; simp only [Option.some.injEq, Prod.mk.injEq] at h; rw [← h.1]; simp [Thread.size]
        | ok x => rw [hp] at h; simp only [Option.some.injEq, Prod.mk.injEq] at h; rw [← h.1]; simp [Thread.size]
  cases hs with
  | txi h => have := hn _ _ _ _ h; dsimp only; omega
  | txo h => have := hn _ _ _ _ h; dsimp only; omega

/-- **C38.** However the two goroutines are interleaved: if both come to their end the store is the one the sequential
order gives; if the sequential order succeeds then no interleaving fails or gets stuck, and if it fails then no
interleaving comes to its end. (`step_decreases`: no interleaving goes on for ever.) -/
theorem parallel_contents (i : Iface) (s : St) (t : Nat) (tx : Tx) (trans : Int) (neis : List Nei)
    (hn : writeNeis tx.fields trans s.trnNei = .ok neis) (c : Conf)
    (hr : Reaches (startContents i { s with trnNei := neis } t tx trans) c) :
    (c.txi.isDone → c.txo.isDone → appendContents i s t tx trans = .ok c.st) ∧
    (∀ s', appendContents i s t tx trans = .ok s' →
      ¬ c.txi.isFailed ∧ ¬ c.txo.isFailed ∧ ((c.txi.isDone ∧ c.txo.isDone) ∨ ∃ c', Step c c')) := by
  obtain ⟨_, ho⟩ := reaches_outcome (start_apart i _ t tx trans) hr
  rw [start_outcome] at ho
  have happ : appendContents i s t tx trans =
      (txoThread i trans tx.txos { s with trnNei := neis } >>= txiThread i trans (storedTxis i t tx)) := by
    unfold appendContents
    rw [hn, bind_ok]
  rw [← happ] at ho
  obtain ⟨ti, tq, st⟩ := c
  constructor
  · intro h1 h2
    cases ti with
    | failed f => exact absurd h1 (by simp [Thread.isDone])
    | run ra pa =>
      cases tq with
      | failed f => exact absurd h2 (by simp [Thread.isDone])
      | run rb pb =>
        cases pa with
        | cons a pa => exact absurd h1 (by simp [Thread.isDone])
        | nil =>
          cases pb with
          | cons b pb => exact absurd h2 (by simp [Thread.isDone])
          | nil =>
            simp only [outcome, runActs, setIn_getIn] at ho
            cases hc : appendContents i s t tx trans with
            | error e => rw [hc] at ho; simp [Except.toOption] at ho
            | ok s' => rw [hc] at ho; simp [Except.toOption] at ho; rw [ho]
  · intro s' hs'
    rw [hs'] at ho
    cases ti with
    | failed f => simp [outcome, Except.toOption] at ho
    | run ra pa =>
      cases tq with
      | failed f => simp [outcome, Except.toOption] at ho
      | run rb pb =>
        refine ⟨by simp [Thread.isFailed], by simp [Thread.isFailed], ?_⟩
        cases pa with
        | cons a pa =>
          right
          cases hp : a ra st with
          | error e => exact ⟨_, Step.txi (t := .failed e) (s := st) (by simp [Thread.next, hp])⟩
          | ok x => exact ⟨_, Step.txi (t := .run x.1 pa) (s := x.2) (by simp [Thread.next, hp])⟩
        | nil =>
          cases pb with
          | nil => left; exact ⟨trivial, trivial⟩
          | cons b pb =>
            right
            cases hp : b rb st with
            | error e => exact ⟨_, Step.txo (t := .failed e) (s := st) (by simp [Thread.next, hp])⟩
            | ok x => exact ⟨_, Step.txo (t := .run x.1 pb) (s := x.2) (by simp [Thread.next, hp])⟩

/-- Some interleaving comes to its end when the sequential order succeeds, and by `parallel_contents` all of them lead
to the same store. -/
theorem parallel_contents_ends (i : Iface) (s : St) (t : Nat) (tx : Tx) (trans : Int) (neis : List Nei)
    (hn : writeNeis tx.fields trans s.trnNei = .ok neis) (s' : St) (hs : appendContents i s t tx trans = .ok s')
    (c : Conf) (hr : Reaches (startContents i { s with trnNei := neis } t tx trans) c) :
    ∃ c', Reaches c c' ∧ c'.txi.isDone ∧ c'.txo.isDone ∧ c'.st = s' := by
  have trans_reaches : ∀ {a b d : Conf}, Reaches a b → Reaches b d → Reaches a d := by
    intro a b d h1 h2
    induction h2 with
    | refl => exact h1
    | step _ st ih => exact .step ih st
  generalize hm : c.txi.size + c.txo.size = m
  induction m using Nat.strongRecOn generalizing c with
  | ind m ih =>
    obtain ⟨p1, p2⟩ := parallel_contents i s t tx trans neis hn c hr
    obtain ⟨_, _, h | ⟨c1, h⟩⟩ := p2 s' hs
    · refine ⟨c, .refl, h.1, h.2, ?_⟩
      have := p1 h.1 h.2
      rw [hs] at this
      exact (Except.ok.inj this).symm
    · have hd := step_decreases h
      obtain ⟨c2, r2, d1, d2, d3⟩ := ih _ (by omega) c1 (.step hr h) rfl
      exact ⟨c2, trans_reaches (.step .refl h) r2, d1, d2, d3⟩

/-- A transaction with two inputs and an output, with one interleaving that lets the inputs go first. -/
example : ∃ c, Reaches (startContents .cri (create (-1) (-1) true ⟨[[1]], [[11]], [[91]]⟩ [] []) 1 ⟨[11], none, some 0, [], [⟨[11], 0, none, none⟩], [⟨5, [91], none⟩]⟩ 0) c ∧
    c.st.trnFirstTxi = [0] ∧ c.st.trnFirstTxo = [] :=
  ⟨_, .step (.step .refl (.txi rfl)) (.txi rfl), rfl, rfl⟩

/-- For that transaction the sequential order succeeds, so every interleaving does. -/
example : (appendContents .cri (create (-1) (-1) true ⟨[[1]], [[11]], [[91]]⟩ [] []) 1 ⟨[11], none, some 0, [], [⟨[11], 0, none, none⟩], [⟨5, [91], none⟩]⟩ 0).toOption.map
    (fun s => (s.trnFirstTxi, s.txiTx, s.txoSats)) = some ([0], [0], [5]) := by decide +kernel

end Verif.ChainStore
