import Verif.Model.ChainStoreParallel

/-!
# The call that stores a transaction's contents, and its goroutine

chainstorage/concreteappendablechain.go:283-374, 727-797 with the channel `myChan` (284, 728), which has no buffer: the goroutine ends
by sending its error or nil; the caller receives it (367-371, 790-794), but only when it has stored the outputs: an error of its own
makes it return at once (326-365, 760-788). A panic ends the process.
-/

namespace Verif.ChainStore

/-- Where the call is: storing outputs or waiting, returned with an error or nil, or gone with the process. -/
inductive Phase where
  | busy
  | returned (e : Option Fail)
  | died
deriving DecidableEq, Repr

/-- The two goroutines of a call; `ended` says that the one for the inputs has ended. -/
structure Call where
  conf : Conf
  phase : Phase
  ended : Bool

/-- What becomes of the call when the outputs go on to `t`. -/
def Phase.afterTxo : Thread → Phase
  | .failed .err => .returned (some .err)
  | .failed .panic => .died
  | .run _ _ => .busy

/-- What becomes of the call when the inputs go on to `t`. -/
def Phase.afterTxi (p : Phase) : Thread → Phase
  | .failed .panic => .died
  | _ => p

/-- One operation, or the sending and receiving on the channel. -/
inductive CallStep : Call → Call → Prop where
  | txi {c : Call} {t s} : c.phase ≠ .died → c.conf.txi.next c.conf.st = some (t, s) →
      CallStep c { c with conf := { c.conf with txi := t, st := s }, phase := c.phase.afterTxi t }
  | txo {c : Call} {t s} : c.phase = .busy → c.conf.txo.next c.conf.st = some (t, s) →
      CallStep c { c with conf := { c.conf with txo := t, st := s }, phase := Phase.afterTxo t }
  | meet {c : Call} {r : Reg} {e : Option Fail} : c.phase = .busy → c.ended = false → c.conf.txo = .run r [] →
      ((∃ q, c.conf.txi = .run q [] ∧ e = none) ∨ (c.conf.txi = .failed .err ∧ e = some .err)) →
      CallStep c { c with phase := .returned e, ended := true }

/-- The states of a call that can be reached. -/
inductive CallReaches : Call → Call → Prop where
  | refl {c} : CallReaches c c
  | step {c c' c''} : CallReaches c c' → CallStep c' c'' → CallReaches c c''

/-- The call when the non-essential ints are written (`s`) and the goroutine is started. -/
def startCall (i : Iface) (s : St) (t : Nat) (tx : Tx) (trans : Int) : Call := ⟨startContents i s t tx trans, .busy, false⟩

end Verif.ChainStore
