import Verif.Model.Abandon
import Verif.Props.ChainStoreParallel

/-!
# C101: a call that has returned has stopped working

`appendTransactionContents` starts a goroutine for the inputs. When it returns without error, or with the goroutine's, the goroutine has
ended. When storing the outputs fails it returns at once: the goroutine goes on writing, and never ends.
-/

namespace Verif.ChainStore

/-! ## Lemmas -/

theorem Reaches.trans {a b d : Conf} (h1 : Reaches a b) (h2 : Reaches b d) : Reaches a d := by
  induction h2 with
  | refl => exact h1
  | step _ st ih => exact .step ih st

theorem CallReaches.trans {a b d : Call} (h1 : CallReaches a b) (h2 : CallReaches b d) : CallReaches a d := by
  induction h2 with
  | refl => exact h1
  | step _ st ih => exact .step ih st

/-- The two goroutines of a call go on as in `Reaches`. -/
theorem conf_reaches {c d : Call} (h : CallReaches c d) : Reaches c.conf d.conf := by
  induction h with
  | refl => exact .refl
  | step _ st ih =>
    cases st with
    | txi _ h2 => exact .step ih (.txi h2)
    | txo _ h2 => exact .step ih (.txo h2)
    | meet => exact ih

/-- What is true of a call at any time. -/
structure CallOK (c : Call) : Prop where
  txoFailed : c.conf.txo.isFailed → c.phase ≠ .busy
  ended : c.ended = true → (c.conf.txo.isDone ∧ ((c.phase = .returned none ∧ c.conf.txi.isDone) ∨
    (c.phase = .returned (some .err) ∧ c.conf.txi = .failed .err)))
  none : c.phase = .returned none → c.ended = true
  err : ∀ f, c.phase = .returned (some f) → c.ended = true ∨ c.conf.txo = .failed .err

theorem callOK_step {c d : Call} (hc : CallOK c) (h : CallStep c d) : CallOK d := by
  cases h with
  | @txi t s h1 h2 =>
    have hne : c.ended = false := by
      cases he : c.ended with
      | false => rfl
      | true =>
        obtain ⟨_, ⟨_, h4⟩ | ⟨_, h4⟩⟩ := hc.ended he
        · cases hq : c.conf.txi with
          | failed f => rw [hq] at h4; exact absurd h4 (by simp [Thread.isDone])
          | run r as =>
            rw [hq] at h4 h2
            cases as with
            | nil => simp [Thread.next] at h2
            | cons a as => exact absurd h4 (by simp [Thread.isDone])
        · rw [h4] at h2; simp [Thread.next] at h2
    have hph : c.phase.afterTxi t = c.phase ∨ c.phase.afterTxi t = .died := by
      cases t with
      | run => left; rfl
      | failed f => cases f <;> simp [Phase.afterTxi]
    refine ⟨?_, ?_, ?_, ?_⟩
    · intro h3
      dsimp only
      rcases hph with h4 | h4 <;> rw [h4]
      · exact hc.txoFailed h3
      · simp
    · intro h3; rw [hne] at h3; cases h3
    · intro h3
      dsimp only at h3
      rcases hph with h4 | h4 <;> rw [h4] at h3
      · exact hc.none h3
      · cases h3
    · intro f h3
      dsimp only at h3
      rcases hph with h4 | h4 <;> rw [h4] at h3
      · exact hc.err f h3
      · cases h3
  | @txo t s h1 h2 =>
    have hne : c.ended = false := by
      cases he : c.ended with
      | false => rfl
      | true =>
        obtain ⟨_, ⟨h3, _⟩ | ⟨h3, _⟩⟩ := hc.ended he <;> rw [h1] at h3 <;> cases h3
    refine ⟨?_, ?_, ?_, ?_⟩
    · intro h3
      cases t with
      | run => simp [Thread.isFailed] at h3
      | failed f => cases f <;> simp [Phase.afterTxo]
    · intro h3; rw [hne] at h3; cases h3
    · intro h3
      dsimp only at h3
      cases t with
      | run => cases h3
      | failed f => cases f <;> simp [Phase.afterTxo] at h3
    · intro f h3
      dsimp only at h3
      cases t with
      | run => cases h3
      | failed g =>
        cases g with
        | err => right; rfl
        | panic => cases h3
  | @meet r e h1 h2 h3 h4 =>
    refine ⟨?_, ?_, ?_, ?_⟩
    · intro _; simp
    · intro _
      refine ⟨by dsimp only; rw [h3]; trivial, ?_⟩
      rcases h4 with ⟨q, h5, rfl⟩ | ⟨h5, rfl⟩
      · left; exact ⟨rfl, by dsimp only; rw [h5]; trivial⟩
      · right; exact ⟨rfl, h5⟩
    · intro _; rfl
    · intro _ _; left; rfl

theorem callOK_reaches {c d : Call} (hc : CallOK c) (h : CallReaches c d) : CallOK d := by
  induction h with
  | refl => exact hc
  | step _ st ih => exact callOK_step ih st

theorem callOK_start (i : Iface) (s : St) (t : Nat) (tx : Tx) (trans : Int) : CallOK (startCall i s t tx trans) := by
  refine ⟨?_, ?_, ?_, ?_⟩ <;> intro h <;> simp [startCall, startContents, Thread.isFailed] at h ⊢

theorem next_none_of_done {t : Thread} (h : t.isDone) (s : St) : t.next s = none := by
  cases t with
  | failed f => exact absurd h (by simp [Thread.isDone])
  | run r as =>
    cases as with
    | nil => rfl
    | cons a as => exact absurd h (by simp [Thread.isDone])

/-- The caller alone, up to its error. -/
theorem solo_txo {as : List Act} (ha : ∀ a ∈ as, OutLocal a) (ti : Thread) (r : Reg) (s : St) (h : runActs as r s = .error .err) :
    ∃ s', CallReaches ⟨⟨ti, .run r as, s⟩, .busy, false⟩ ⟨⟨ti, .failed .err, s'⟩, .returned (some .err), false⟩ ∧ getIn s' = getIn s ∧
      s'.blkFirstTrans = s.blkFirstTrans ∧ s'.trnHashes = s.trnHashes := by
  induction as generalizing r s with
  | nil => cases h
  | cons a as ih =>
    rw [runActs] at h
    cases hp : a r s with
    | error e =>
      rw [hp, bind_err] at h
      cases h
      exact ⟨s, .step .refl (.txo (c := ⟨⟨ti, .run r (a :: as), s⟩, .busy, false⟩) (t := .failed .err) (s := s) rfl
        (by simp [Thread.next, hp])), rfl, rfl, rfl⟩
    | ok x =>
      rw [hp, bind_ok] at h
      obtain ⟨s', h1, h2, h3, h4⟩ := ih (fun b hb => ha b (by simp [hb])) x.1 x.2 h
      obtain ⟨k1, k2, k3⟩ := (ha a (by simp)).1 r s x.1 x.2 hp
      refine ⟨s', .trans (.step .refl (.txo (c := ⟨⟨ti, .run r (a :: as), s⟩, .busy, false⟩) (t := .run x.1 as) (s := x.2) rfl
        (by simp [Thread.next, hp]))) h1, by rw [h2, k1], by rw [h3, k2], by rw [h4, k3]⟩

/-- The goroutine alone, up to its end. -/
theorem solo_txi (as : List Act) (r : Reg) (c : Call) (hc : c.phase ≠ .died) (hr : c.conf.txi = .run r as) (x : Reg × St)
    (h : runActs as r c.conf.st = .ok x) :
    CallReaches c { c with conf := { c.conf with txi := .run x.1 [], st := x.2 } } := by
  induction as generalizing r c with
  | nil =>
    rw [runActs] at h
    cases h
    have : c = { c with conf := { c.conf with txi := .run r [], st := c.conf.st } } := by
      rw [← hr]
    rw [← this]
    exact .refl
  | cons a as ih =>
    rw [runActs] at h
    cases hp : a r c.conf.st with
    | error e => rw [hp, bind_err] at h; cases h
    | ok y =>
      rw [hp, bind_ok] at h
      have st : CallStep c { c with conf := { c.conf with txi := .run y.1 as, st := y.2 }, phase := c.phase.afterTxi (.run y.1 as) } :=
        .txi hc (by rw [hr]; simp [Thread.next, hp])
      have := ih y.1 { c with conf := { c.conf with txi := .run y.1 as, st := y.2 } } hc rfl h
      exact .trans (.step .refl st) this

/-! ## C101 -/

/-- C101: when the call has returned without error both goroutines have ended, nothing more happens, and the store is the one the
sequential order gives. Partial: the call has to succeed. -/
theorem returned_quiet_partial (i : Iface) (s : St) (t : Nat) (tx : Tx) (trans : Int) (neis : List Nei)
    (hn : writeNeis tx.fields trans s.trnNei = .ok neis) (c : Call) (hr : CallReaches (startCall i { s with trnNei := neis } t tx trans) c)
    (hp : c.phase = .returned none) :
    c.ended = true ∧ (∀ d, ¬ CallStep c d) ∧ appendContents i s t tx trans = .ok c.conf.st := by
  have hok := callOK_reaches (callOK_start i _ t tx trans) hr
  have he := hok.none hp
  obtain ⟨h1, ⟨h2, h3⟩ | ⟨h2, _⟩⟩ := hok.ended he
  · refine ⟨he, ?_, (parallel_contents i s t tx trans neis hn c.conf (conf_reaches hr)).1 h3 h1⟩
    intro d hd
    cases hd with
    | txi _ h5 => rw [next_none_of_done h3] at h5; cases h5
    | txo h4 _ => rw [hp] at h4; cases h4
    | meet h4 => rw [hp] at h4; cases h4
  · rw [hp] at h2; cases h2

/-- C101: when the call has returned with the goroutine's error the goroutine has ended too. -/
theorem returned_quiet_input_error (i : Iface) (s : St) (t : Nat) (tx : Tx) (trans : Int) (c : Call)
    (hr : CallReaches (startCall i s t tx trans) c) (f : Fail) (hp : c.phase = .returned (some f)) (hd : c.conf.txo.isDone) :
    c.ended = true ∧ ∀ d, ¬ CallStep c d := by
  have hok := callOK_reaches (callOK_start i _ t tx trans) hr
  rcases hok.err f hp with he | he
  · refine ⟨he, ?_⟩
    obtain ⟨_, ⟨h2, _⟩ | ⟨_, h3⟩⟩ := hok.ended he
    · rw [hp] at h2; cases h2
    · intro d hd
      cases hd with
      | txi _ h5 => rw [h3] at h5; simp [Thread.next] at h5
      | txo h4 _ => rw [hp] at h4; cases h4
      | meet h4 => rw [hp] at h4; cases h4
  · rw [he] at hd; exact absurd hd (by simp [Thread.isDone])

/-- C101 is violated: when an output could not be stored the goroutine for the inputs never ends, whatever happens. -/
theorem goroutine_left_behind (i : Iface) (s : St) (t : Nat) (tx : Tx) (trans : Int) (c : Call)
    (hr : CallReaches (startCall i s t tx trans) c) (f : Fail) (hp : c.phase = .returned (some f)) (hd : ¬ c.conf.txo.isDone) :
    c.ended = false ∧ ∀ d, CallReaches c d → d.ended = false := by
  have hok := callOK_reaches (callOK_start i _ t tx trans) hr
  have he : c.ended = false := by
    cases h : c.ended with
    | false => rfl
    | true => exact absurd (hok.ended h).1 hd
  have key : ∀ d, CallReaches c d → d.ended = false ∧ d.phase ≠ .busy := by
    intro d hcd
    induction hcd with
    | refl => exact ⟨he, by rw [hp]; simp⟩
    | step _ st ih =>
      obtain ⟨h1, h2⟩ := ih
      cases st with
      | @txi t s _ _ =>
        refine ⟨h1, ?_⟩
        dsimp only
        cases t with
        | run => exact h2
        | failed g => cases g <;> simp [Phase.afterTxi, h2]
      | txo h3 => exact absurd h3 h2
      | meet h3 => exact absurd h3 h2
  exact ⟨he, fun d hcd => (key d hcd).1⟩

/-- C101 is violated: for every transaction whose outputs cannot be stored but whose inputs can, the call can return with the error
before anything is written of the inputs, and all of it is written after that. -/
theorem writes_after_return (i : Iface) (s s2 : St) (t : Nat) (tx : Tx) (trans : Int)
    (ho : txoThread i trans tx.txos s = .error .err) (hi : txiThread i trans (storedTxis i t tx) s = .ok s2) :
    ∃ c d, CallReaches (startCall i s t tx trans) c ∧ c.phase = .returned (some .err) ∧ getIn c.conf.st = getIn s ∧
      CallReaches c d ∧ getIn d.conf.st = getIn s2 ∧ d.ended = false := by
  have h1 : runActs (txoProg i trans tx.txos) ⟨0, 0, false⟩ s = .error .err := by
    rw [← after_txoProg i trans tx.txos ⟨0, 0, false⟩ s] at ho
    cases h : runActs (txoProg i trans tx.txos) ⟨0, 0, false⟩ s with
    | ok x => rw [h] at ho; cases ho
    | error e => rw [h] at ho; rw [Except.error.inj (show Except.error e = Except.error Fail.err from ho)]
  obtain ⟨s', g1, g2, g3, g4⟩ := solo_txo (txoProg_out i trans tx.txos) (.run ⟨0, 0, false⟩ (txiProg i trans (storedTxis i t tx))) _ _ h1
  have h2 : ∃ r', runActs (txiProg i trans (storedTxis i t tx)) ⟨0, 0, false⟩ s = .ok (r', s2) := by
    rw [← after_txiProg i trans (storedTxis i t tx) ⟨0, 0, false⟩ s] at hi
    cases h : runActs (txiProg i trans (storedTxis i t tx)) ⟨0, 0, false⟩ s with
    | ok x =>
      rw [h] at hi
      obtain ⟨x1, x2⟩ := x
      have hi : x2 = s2 := Except.ok.inj hi
      exact ⟨x1, by rw [hi]⟩
    | error e => rw [h] at hi; cases hi
  obtain ⟨r', h2⟩ := h2
  have h3 : runActs (txiProg i trans (storedTxis i t tx)) ⟨0, 0, false⟩ s' = .ok (r', setIn s' (getIn s2)) := by
    have := runActs_in (txiProg_in i trans (storedTxis i t tx)) ⟨0, 0, false⟩ s s' g3 g4
    rw [h2, ← g2, setIn_getIn] at this
    exact this
  refine ⟨_, _, g1, rfl, g2, solo_txi _ _ _ (by simp) rfl _ h3, rfl, rfl⟩

/-! ## Non-vacuity -/

/-- An empty store that knows one transaction hash and one address. -/
def exStore : St := create (-1) (-1) true ⟨[[1]], [[11]], [[91]]⟩ [] []

/-- The second transaction of a block, with an input and an output to an address that is not known. -/
def exBadTx : Tx := ⟨[11], none, some 0, [], [⟨[11], 0, none, none⟩], [⟨5, [92], none⟩]⟩

example : txoThread .chi 0 exBadTx.txos exStore = .error .err := by rfl

example : ((txiThread .chi 0 (storedTxis .chi 1 exBadTx) exStore).toOption.map fun s => (s.trnFirstTxi, s.txiTx)) = some ([0], [0]) := by
  decide +kernel

/-- C101 violated on it: the input is written after the call has returned. -/
example : ∃ c d, CallReaches (startCall .chi exStore 1 exBadTx 0) c ∧ c.phase = .returned (some .err) ∧ c.conf.st.txiTx = [] ∧
    CallReaches c d ∧ d.conf.st.txiTx = [0] := by
  obtain ⟨c, d, h1, h2, h3, h4, h5, _⟩ := writes_after_return .chi exStore _ 1 exBadTx 0 rfl rfl
  exact ⟨c, d, h1, h2, congrArg InFiles.txiTx h3, h4, congrArg InFiles.txiTx h5⟩

/-- A call that returns without error. -/
example : ∃ c, CallReaches (startCall .chi exStore 0 ⟨[11], none, some 0, [], [], []⟩ 0) c ∧ c.phase = .returned none :=
  ⟨_, .step (.step (.step (.step (.step (.step (.step (.step .refl
    (.txo rfl rfl)) (.txo rfl rfl)) (.txo rfl rfl)) (.txo rfl rfl)) (.txo rfl rfl)) (.txi (by decide) rfl)) (.txi (by decide) rfl))
    (.meet rfl rfl rfl (.inl ⟨_, rfl, rfl⟩)), rfl⟩

end Verif.ChainStore
