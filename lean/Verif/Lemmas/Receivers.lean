import Verif.Model.Receivers
import Verif.Lemmas.RunAdorn

/-! # Lemmas about handles and receivers -/

namespace Verif.Receivers

open Verif.BinBlock (Block Transaction Storage getTxi getTxo toI32)
open Verif.BlockHolder (makeBlockHandle)

theorem makeSub_ok {i : Nat} (h : i < 2 ^ 32) : makeSub i = some (leEnc 4 i) := by
  unfold makeSub
  rw [if_neg (by omega), Int.toNat_natCast]

theorem indexOf_ok {i : Nat} (h : i < 2 ^ 32) : indexOf (leEnc 4 i) = i := Run.leDec_leEnc4 i h

theorem makeBlockHandle_ok {i : Nat} (h : i < 2 ^ 32) : makeBlockHandle i = some (leEnc 4 i) := makeSub_ok h

theorem sendTrans_ok (bh : Bytes) (r : BlockReceiver) (i n : Nat) (h : i + n ≤ 2 ^ 32) :
    sendTrans bh r i n = some { r with handles := r.handles ++ (List.range' i n).map fun k => ⟨bh, leEnc 4 k⟩ } := by
  induction n generalizing r i with
  | zero => simp [sendTrans]
  | succ n ih =>
    rw [sendTrans, makeSub_ok (by omega)]
    dsimp only
    rw [ih _ _ (by omega)]
    simp [List.range'_succ]

theorem sendTxis_ok (th : TransHandle) (c : Bool) (r : TransReceiver) (i n : Nat) (h : i + n ≤ 2 ^ 32) :
    sendTxis th c r i n =
      some { r with txis := r.txis ++ if c then [] else (List.range' i n).map fun k => ⟨th, leEnc 4 k⟩ } := by
  induction n generalizing r i with
  | zero => simp [sendTxis]
  | succ n ih =>
    rw [sendTxis, makeSub_ok (by omega)]
    dsimp only
    rw [ih _ _ (by omega)]
    cases c <;> simp [List.range'_succ]

theorem sendTxos_ok (th : TransHandle) (r : TransReceiver) (i n : Nat) (h : i + n ≤ 2 ^ 32) :
    sendTxos th r i n = some { r with txos := r.txos ++ (List.range' i n).map fun k => ⟨th, leEnc 4 k⟩ } := by
  induction n generalizing r i with
  | zero => simp [sendTxos]
  | succ n ih =>
    rw [sendTxos, makeSub_ok (by omega)]
    dsimp only
    rw [ih _ _ (by omega)]
    simp [List.range'_succ]

theorem sendScript_ok (scripts : Bytes) (r : TxoReceiver) (s n fuel : Nat) (h : s + n ≤ scripts.length) (hf : n ≤ fuel) :
    sendScript scripts ((s : Int) + n) r s fuel = some { r with script := r.script ++ (scripts.drop s).take n } := by
  induction n generalizing r s fuel with
  | zero => cases fuel <;> simp [sendScript]
  | succ n ih =>
    cases fuel with
    | zero => omega
    | succ fuel =>
      rw [sendScript, if_pos (by push_cast; omega), if_neg (by omega), Int.toNat_natCast, List.getElem?_eq_getElem (by omega)]
      dsimp only
      have := ih { r with script := r.script ++ [scripts[s]'(by omega)] } (s + 1) fuel (by omega) (by omega)
      rw [show ((s : Int) + ((n + 1 : Nat) : Int)) = (((s + 1 : Nat) : Int) + (n : Int)) by push_cast; omega]
      rw [show ((s : Int) + 1) = ((s + 1 : Nat) : Int) by push_cast; rfl, this]
      rw [List.drop_eq_getElem_cons (show s < scripts.length by omega), List.take_succ_cons]
      simp

theorem i32_end (s n : Nat) (h : s + n < 2 ^ 31) : toI32 ((s : Int) + (n : Int)) = (s : Int) + (n : Int) := by
  have := BinBlock.toI32_small h
  rwa [Int.natCast_add] at this

theorem sub_parts {l x : Bytes} {s n : Nat} (h : BinBlock.sub l s (s + n) = some x) : s + n ≤ l.length ∧ (l.drop s).take n = x := by
  unfold BinBlock.sub at h
  split at h
  · rename_i hc
    refine ⟨by omega, ?_⟩
    have h := Option.some.inj h
    rwa [show (((s : Int) + (n : Int) - (s : Int)).toNat) = n by omega, Int.toNat_natCast] at h
  · cases h

theorem sendScript_sub (l : Bytes) (r : TxoReceiver) (s n : Nat) (x : Bytes) (h : BinBlock.sub l s (s + n) = some x) (hl : l.length < 2 ^ 31) :
    sendScript l (toI32 ((s : Int) + (n : Int))) r s (l.length + 1) = some { r with script := r.script ++ x } := by
  obtain ⟨h1, h2⟩ := sub_parts h
  rw [i32_end s n (Nat.lt_of_le_of_lt h1 hl), sendScript_ok _ _ _ _ _ h1 (by clear hl; omega), h2]

theorem getTxoInfo_ok {o : Held} {h : TxxHandle} {r r' : TxoReceiver} {t : Transaction} {x : BinBlock.Txo}
    (h1 : makeBlockHandle o.height = some h.th.bh) (h2 : o.block.transactions[indexOf h.th.tsh]? = some t)
    (h3 : getTxo t o.block.storage (indexOf h.sub) = some x)
    (h4 : sendScript o.block.storage.scripts (toI32 (x.scriptStart + x.scriptLen)) { r.reset with parent := h.th, sats := x.value }
      x.scriptStart (o.block.storage.scripts.length + 1) = some r') : getTxoInfo o h r = .ok r' := by
  unfold getTxoInfo
  rw [h1]
  simp only [ne_eq, not_true_eq_false, if_false, h2, h3, h4]

theorem getTxoInfo_none {o : Held} {h : TxxHandle} {r : TxoReceiver} {t : Transaction}
    (h1 : makeBlockHandle o.height = some h.th.bh) (h2 : o.block.transactions[indexOf h.th.tsh]? = some t)
    (h3 : getTxo t o.block.storage (indexOf h.sub) = none) : getTxoInfo o h r = .panicked := by
  unfold getTxoInfo
  rw [h1]
  simp only [ne_eq, not_true_eq_false, if_false, h2, h3]

/-! ## The stored inputs and outputs of all the transactions -/

theorem outTxos_append (a c : List BinBlock.Out) (n : Nat) :
    BinBlock.outTxos n (a ++ c) = BinBlock.outTxos n a ++ BinBlock.outTxos (n + (a.map BinBlock.Out.script).flatten.length) c := by
  induction a generalizing n with
  | nil => simp [BinBlock.outTxos]
  | cons x a ih =>
    rw [List.cons_append, BinBlock.outTxos, BinBlock.outTxos, ih, List.map_cons, List.flatten_cons, List.length_append,
      List.cons_append, Nat.add_assoc]

theorem storedAll_eq (ts : List BinBlock.Tx) (st : Storage) :
    BinBlock.storedAll ts st =
      { txis := st.txis ++ (ts.flatMap (·.ins)).map BinBlock.In.txi
        txos := st.txos ++ BinBlock.outTxos st.scripts.length (ts.flatMap (·.outs))
        scripts := st.scripts ++ ((ts.flatMap (·.outs)).map BinBlock.Out.script).flatten } := by
  induction ts generalizing st with
  | nil => simp [BinBlock.storedAll, BinBlock.outTxos]
  | cons t ts ih =>
    rw [BinBlock.storedAll, ih]
    unfold BinBlock.Tx.stored
    simp only [List.flatMap_cons, List.map_append, outTxos_append, List.flatten_append, List.append_assoc, List.length_append]

theorem parsedAll_starts (sha : Bytes → Bytes) (ts : List BinBlock.Tx) (st : Storage) {k : Nat} {t : BinBlock.Tx}
    (hk : ts[k]? = some t) :
    ∃ st', (BinBlock.parsedAll sha ts st)[k]? = some (t.parsed sha st') ∧
      st'.txis.length = st.txis.length + ((ts.take k).flatMap (·.ins)).length ∧
      st'.txos.length = st.txos.length + ((ts.take k).flatMap (·.outs)).length := by
  induction ts generalizing st k with
  | nil => simp at hk
  | cons x ts ih =>
    cases k with
    | zero =>
      simp only [List.getElem?_cons_zero, Option.some.injEq] at hk
      subst hk
      exact ⟨st, rfl, by simp, by simp⟩
    | succ k =>
      rw [List.getElem?_cons_succ] at hk
      obtain ⟨st', h1, h2, h3⟩ := ih (x.stored st) hk
      refine ⟨st', by rw [BinBlock.parsedAll, List.getElem?_cons_succ]; exact h1, ?_, ?_⟩
      · rw [h2, List.take_succ_cons, List.flatMap_cons, List.length_append]
        unfold BinBlock.Tx.stored
        simp only [List.length_append, List.length_map]
        omega
      · rw [h3, List.take_succ_cons, List.flatMap_cons, List.length_append]
        unfold BinBlock.Tx.stored
        simp only [List.length_append, BinBlock.outTxos_length]
        omega

theorem scripts_le (ts : List BinBlock.Tx) :
    ((ts.flatMap (·.outs)).map BinBlock.Out.script).flatten.length ≤ (ts.map BinBlock.Tx.enc).flatten.length := by
  have h : ∀ (ts : List BinBlock.Tx) (st : Storage), (BinBlock.storedAll ts st).scripts.length ≤
      st.scripts.length + (ts.map BinBlock.Tx.enc).flatten.length := by
    intro ts
    induction ts with
    | nil => intro st; simp [BinBlock.storedAll]
    | cons t ts ih =>
      intro st
      have h1 := ih (t.stored st)
      have h2 := BinBlock.stored_scripts_le t st
      rw [BinBlock.storedAll, List.map_cons, List.flatten_cons, List.length_append]
      omega
  have := h ts ⟨[], [], []⟩
  rw [storedAll_eq] at this
  simpa using this

end Verif.Receivers
