import Verif.Lemmas.Receivers
import Verif.Props.BinBlock

/-!
# C98, C99, C100: asking for a block through handles

C98: a client that uses the same receivers over and over sees exactly the block. C99: what a handle names that the client puts
together from parts. C100: what a receiver holds after a call.
-/

namespace Verif.Receivers

open Verif.BlockHolder (makeBlockHandle)
open Verif.Run (Env parsed writtenBlk writtenTx txHash txWeight blkHash)

/-! ## Specification -/

/-- All the inputs of a block, in order. -/
def allIns (b : BinBlock.Blk) : List BinBlock.In := b.txs.flatMap (·.ins)

/-- All the outputs of a block, in order. -/
def allOuts (b : BinBlock.Blk) : List BinBlock.Out := b.txs.flatMap (·.outs)

/-- How many inputs the block has before those of transaction `t`. -/
def insBefore (b : BinBlock.Blk) (t : Nat) : Nat := ((b.txs.take t).flatMap (·.ins)).length

/-- How many outputs the block has before those of transaction `t`. -/
def outsBefore (b : BinBlock.Blk) (t : Nat) : Nat := ((b.txs.take t).flatMap (·.outs)).length

/-- A block that can be asked for: in the standard serialization, of less than 2 GB, at a height with a handle. -/
structure Fine (b : BinBlock.Blk) (height : Nat) : Prop where
  wf : b.WF
  size : b.enc.length < 2 ^ 31
  height : height < 2 ^ 32

/-- The holder when it has parsed the block and holds it. -/
def holding (e : Env) (b : BinBlock.Blk) (height median : Nat) : Held := ⟨parsed e b, height, median⟩

/-- `holding` is what the parser makes of the serialized block. -/
theorem holding_parses (e : Env) {b : BinBlock.Blk} {height : Nat} (hf : Fine b height) (median : Nat) :
    BinBlock.parseBlock e.sha b.enc = some (holding e b height median).block := BinBlock.parseBlock_eq e.sha hf.wf hf.size

/-! ## What is answered to any handle -/

theorem tx_index {b : BinBlock.Blk} {height : Nat} (hf : Fine b height) : b.txs.length < 2 ^ 31 := by
  have hc := BinBlock.tx_count_le b.txs hf.wf.txs
  have hs := hf.size
  unfold BinBlock.Blk.enc at hs
  simp only [List.length_append] at hs
  omega

theorem scripts_lt {b : BinBlock.Blk} {height : Nat} (hf : Fine b height) :
    ((allOuts b).map BinBlock.Out.script).flatten.length < 2 ^ 31 := by
  have hc := scripts_le b.txs
  have hs := hf.size
  unfold BinBlock.Blk.enc at hs
  simp only [List.length_append] at hs
  unfold allOuts
  omega

theorem flat_own {α : Type} (ts : List BinBlock.Tx) (f : BinBlock.Tx → List α) {t : Nat} {x : BinBlock.Tx} (hx : ts[t]? = some x) (j : Nat)
    (hj : j < (f x).length) : (ts.flatMap f)[((ts.take t).flatMap f).length + j]? = (f x)[j]? := by
  obtain ⟨hl, hg⟩ := List.getElem?_eq_some_iff.mp hx
  have h1 : ts = ts.take t ++ x :: ts.drop (t + 1) := by
    rw [← hg, ← List.drop_eq_getElem_cons hl, List.take_append_drop]
  have h2 : ts.flatMap f = (ts.take t).flatMap f ++ (f x ++ (ts.drop (t + 1)).flatMap f) := by
    conv => lhs; rw [h1]
    rw [List.flatMap_append, List.flatMap_cons]
  rw [h2, List.getElem?_append_right (by omega), Nat.add_sub_cancel_left, List.getElem?_append_left hj]

theorem flat_next {α : Type} (ts : List BinBlock.Tx) (f : BinBlock.Tx → List α) {t : Nat} {x y : BinBlock.Tx} (hx : ts[t]? = some x)
    (hy : ts[t + 1]? = some y) (j : Nat) (hj : j < (f y).length) :
    (ts.flatMap f)[((ts.take t).flatMap f).length + ((f x).length + j)]? = (f y)[j]? := by
  have h1 := flat_own ts f hy j hj
  obtain ⟨hl, hg⟩ := List.getElem?_eq_some_iff.mp hx
  rw [List.take_succ_eq_append_getElem hl, hg, List.flatMap_append, List.length_append] at h1
  rw [← h1]
  simp [Nat.add_assoc]

/-- C99: every handle with the block's own part is answered by position among all the outputs of the block. -/
theorem txo_answer (e : Env) {b : BinBlock.Blk} {height : Nat} (hf : Fine b height) (median : Nat) (tsh sub : Bytes) (r : TxoReceiver) :
    getTxoInfo (holding e b height median) ⟨⟨leEnc 4 height, tsh⟩, sub⟩ r =
      if leDec tsh < b.txs.length then
        match (allOuts b)[outsBefore b (leDec tsh) + leDec sub]? with
        | some o => .ok ⟨⟨leEnc 4 height, tsh⟩, o.value, o.script⟩
        | none => .panicked
      else .panicked := by
  have hh : makeBlockHandle (holding e b height median).height = some (leEnc 4 height) := makeBlockHandle_ok hf.height
  by_cases ht : leDec tsh < b.txs.length
  · rw [if_pos ht]
    obtain ⟨st', h1, _, h3⟩ := parsedAll_starts e.sha b.txs ⟨[], [], []⟩ (List.getElem?_eq_getElem ht)
    have h1 : (holding e b height median).block.transactions[indexOf tsh]? = _ := h1
    have hst : (parsed e b).storage = _ := storedAll_eq b.txs ⟨[], [], []⟩
    have hlen : st'.txos.length = outsBefore b (leDec tsh) := by rw [h3]; simp [outsBefore]
    have hg : BinBlock.getTxo ((b.txs[leDec tsh]).parsed e.sha st') (parsed e b).storage (indexOf sub) =
        (BinBlock.outTxos 0 (allOuts b))[outsBefore b (leDec tsh) + leDec sub]? := by
      unfold BinBlock.getTxo BinBlock.Tx.parsed
      dsimp only
      rw [if_pos (by omega), hst, hlen]
      dsimp only
      rw [show ((outsBefore b (leDec tsh) : Int) + (indexOf sub : Int)).toNat = outsBefore b (leDec tsh) + leDec sub by
        unfold indexOf; omega]
      simp [allOuts]
    have hsc : (parsed e b).storage.scripts = ((allOuts b).map BinBlock.Out.script).flatten := by rw [hst]; simp [allOuts]
    cases ho : (allOuts b)[outsBefore b (leDec tsh) + leDec sub]? with
    | none =>
      rw [List.getElem?_eq_none (by rw [BinBlock.outTxos_length]; exact List.getElem?_eq_none_iff.mp ho)] at hg
      exact getTxoInfo_none hh h1 hg
    | some o =>
      obtain ⟨s, a1, a2⟩ := BinBlock.outTxos_at (allOuts b) 0 ho
      rw [a1] at hg
      have a3 := a2 [] [] rfl
      rw [List.nil_append, List.append_nil, ← hsc] at a3
      have hl : (parsed e b).storage.scripts.length < 2 ^ 31 := by rw [hsc]; exact scripts_lt hf
      exact getTxoInfo_ok hh h1 hg (sendScript_sub _ ⟨⟨leEnc 4 height, tsh⟩, o.value, []⟩ s o.script.length _ a3 hl)
  · rw [if_neg ht]
    have : (parsed e b).transactions.length = b.txs.length := BinBlock.parsedAll_length _ _ _
    have h1 : (holding e b height median).block.transactions[indexOf tsh]? = none :=
      List.getElem?_eq_none (by unfold indexOf holding; dsimp only; omega)
    unfold getTxoInfo
    rw [hh]
    simp only [ne_eq, not_true_eq_false, if_false, h1]

/-- C99: every handle with the block's own part is answered by position among all the inputs of the block. -/
theorem txi_answer (e : Env) {b : BinBlock.Blk} {height : Nat} (hf : Fine b height) (median : Nat) (tsh sub : Bytes) (r : TxiReceiver) :
    getTxiInfo (holding e b height median) ⟨⟨leEnc 4 height, tsh⟩, sub⟩ r =
      if leDec tsh < b.txs.length then
        match (allIns b)[insBefore b (leDec tsh) + leDec sub]? with
        | some x => .ok ⟨⟨leEnc 4 height, tsh⟩, x.txid, x.vout⟩
        | none => .panicked
      else .panicked := by
  unfold getTxiInfo holding
  dsimp only
  rw [makeBlockHandle_ok hf.height]
  dsimp only
  rw [if_neg (by simp)]
  by_cases ht : leDec tsh < b.txs.length
  · rw [if_pos ht]
    obtain ⟨st', h1, h3, _⟩ := parsedAll_starts e.sha b.txs ⟨[], [], []⟩ (List.getElem?_eq_getElem ht)
    rw [show (parsed e b).transactions[indexOf tsh]? = _ from h1]
    dsimp only
    have hst : (parsed e b).storage = _ := storedAll_eq b.txs ⟨[], [], []⟩
    have hlen : st'.txis.length = insBefore b (leDec tsh) := by rw [h3]; simp [insBefore]
    have hg : BinBlock.getTxi ((b.txs[leDec tsh]).parsed e.sha st') (parsed e b).storage (indexOf sub) =
        ((allIns b).map BinBlock.In.txi)[insBefore b (leDec tsh) + leDec sub]? := by
      unfold BinBlock.getTxi BinBlock.Tx.parsed
      dsimp only
      rw [if_pos (by omega), hst, hlen]
      dsimp only
      rw [show ((insBefore b (leDec tsh) : Int) + (indexOf sub : Int)).toNat = insBefore b (leDec tsh) + leDec sub by
        unfold indexOf; omega]
      simp [allIns]
    rw [hg, List.getElem?_map]
    cases (allIns b)[insBefore b (leDec tsh) + leDec sub]? with
    | none => rfl
    | some o => rfl
  · rw [if_neg ht]
    have : (parsed e b).transactions.length = b.txs.length := BinBlock.parsedAll_length _ _ _
    rw [List.getElem?_eq_none (by unfold indexOf; omega)]

/-- What is answered about a transaction. -/
theorem trans_answer (e : Env) {b : BinBlock.Blk} {height : Nat} (hf : Fine b height) (median : Nat) (tsh : Bytes) (r : TransReceiver) :
    getTransactionInfo (holding e b height median) ⟨leEnc 4 height, tsh⟩ r =
      match b.txs[leDec tsh]? with
      | some x => .ok
          { parent := leEnc 4 height, hash := txHash e x
            txis := if leDec tsh = 0 then [] else (List.range x.ins.length).map fun k => ⟨⟨leEnc 4 height, tsh⟩, leEnc 4 k⟩
            txos := (List.range x.outs.length).map fun k => ⟨⟨leEnc 4 height, tsh⟩, leEnc 4 k⟩
            fields := fun n => if n = "weight" then some (txWeight x : Int) else if n = "vsize" then some (((txWeight x + 3) / 4 : Nat) : Int)
              else if n = "size" then some (x.enc.length : Int) else r.fields n }
      | none => .panicked := by
  unfold getTransactionInfo holding
  dsimp only
  rw [makeBlockHandle_ok hf.height]
  dsimp only
  rw [if_neg (by simp)]
  cases hx : b.txs[leDec tsh]? with
  | none =>
    have : (parsed e b).transactions.length = b.txs.length := BinBlock.parsedAll_length _ _ _
    have := List.getElem?_eq_none_iff.mp hx
    rw [List.getElem?_eq_none (by unfold indexOf; omega)]
  | some x =>
    obtain ⟨st', h1, _, _⟩ := parsedAll_starts e.sha b.txs ⟨[], [], []⟩ hx
    rw [show (parsed e b).transactions[indexOf tsh]? = _ from h1]
    dsimp only
    have hcnt := Run.enc_counts b.txs hf.wf.txs (List.mem_of_getElem? hx)
    have hs := hf.size
    unfold BinBlock.Blk.enc at hs
    simp only [List.length_append] at hs
    have c1 : (x.parsed e.sha st').txisCount.toNat = x.ins.length := by simp [BinBlock.Tx.parsed]
    have c2 : (x.parsed e.sha st').txosCount.toNat = x.outs.length := by simp [BinBlock.Tx.parsed]
    rw [c1, c2, sendTxis_ok _ _ _ _ _ (by omega)]
    dsimp only
    rw [sendTxos_ok _ _ _ _ (by omega)]
    simp only [TransReceiver.reset, List.nil_append, Res.ok.injEq, TransReceiver.mk.injEq, List.range_eq_range', beq_iff_eq, indexOf, true_and]
    refine ⟨rfl, ?_⟩
    funext n
    simp only [Fields.put, BinBlock.Tx.parsed, txWeight, Nat.mul_comm 3]
    push_cast
    rfl

/-- What is answered about the block. -/
theorem block_answer (e : Env) {b : BinBlock.Blk} {height : Nat} (hf : Fine b height) (median : Nat) (r : BlockReceiver) :
    getBlockInfo e.difficulty (holding e b height median) (leEnc 4 height) r = .ok
      { height := height, hash := blkHash e b
        handles := (List.range b.txs.length).map fun k => ⟨leEnc 4 height, leEnc 4 k⟩
        fields := fun n => if n = "difficulty" then some (e.difficulty b.bits)
          else if n = "weight" then some ((3 * Run.strippedSize b + b.enc.length : Nat) : Int)
          else if n = "strippedsize" then some (Run.strippedSize b : Int) else if n = "size" then some (b.enc.length : Int)
          else if n = "mediantime" then some (median : Int) else if n = "time" then some (b.time : Int) else r.fields n } := by
  unfold getBlockInfo holding
  dsimp only
  rw [makeBlockHandle_ok hf.height]
  dsimp only
  rw [if_neg (by simp)]
  have hl : (parsed e b).transactions.length = b.txs.length := BinBlock.parsedAll_length _ _ _
  have := tx_index hf
  rw [hl, sendTrans_ok _ _ _ _ (by omega)]
  simp only [BlockReceiver.reset, List.nil_append, Res.ok.injEq, BlockReceiver.mk.injEq, List.range_eq_range', true_and]
  refine ⟨rfl, ?_⟩
  funext n
  simp only [Fields.put, ← Run.parsed_weight e hf.wf, ← Run.parsed_strippedSize e hf.wf]
  rfl

/-! ## C98: reading a whole block -/

theorem readTxis_ok (e : Env) {b : BinBlock.Blk} {height : Nat} (hf : Fine b height) (median : Nat) {t : Nat} {x : BinBlock.Tx}
    (hx : b.txs[t]? = some x) (l : List BinBlock.In) (k : Nat) (hk : x.ins.drop k = l) (r : TxiReceiver) :
    ∃ r', readTxis (holding e b height median) ((List.range' k l.length).map fun j => ⟨⟨leEnc 4 height, leEnc 4 t⟩, leEnc 4 j⟩) r =
      some (l.map fun y => ⟨y.txid, y.vout, none, none⟩, r') := by
  induction l generalizing k r with
  | nil => exact ⟨r, rfl⟩
  | cons y l ih =>
    have htl := (List.getElem?_eq_some_iff.mp hx).1
    have ht := tx_index hf
    have hy : x.ins[k]? = some y := by rw [← List.head?_drop, hk]; rfl
    have hkl := (List.getElem?_eq_some_iff.mp hy).1
    have hcnt := Run.enc_counts b.txs hf.wf.txs (List.mem_of_getElem? hx)
    have hs := hf.size
    unfold BinBlock.Blk.enc at hs
    simp only [List.length_append] at hs
    rw [List.length_cons, List.range'_succ, List.map_cons, readTxis, txi_answer e hf, Run.leDec_leEnc4 t (by omega),
      Run.leDec_leEnc4 k (by omega), if_pos htl, show (allIns b)[insBefore b t + k]? = _ from flat_own b.txs (·.ins) hx k hkl, hy]
    dsimp only
    obtain ⟨r', h⟩ := ih (k + 1) (by rw [← List.drop_drop, hk]; rfl) ⟨⟨leEnc 4 height, leEnc 4 t⟩, y.txid, y.vout⟩
    rw [h]
    exact ⟨r', rfl⟩

theorem readTxos_ok (e : Env) {b : BinBlock.Blk} {height : Nat} (hf : Fine b height) (median : Nat) {t : Nat} {x : BinBlock.Tx}
    (hx : b.txs[t]? = some x) (l : List BinBlock.Out) (k : Nat) (hk : x.outs.drop k = l) (r : TxoReceiver) :
    ∃ r', readTxos e.sha (holding e b height median) ((List.range' k l.length).map fun j => ⟨⟨leEnc 4 height, leEnc 4 t⟩, leEnc 4 j⟩) r =
      some (l.map fun y => ⟨y.value, e.sha y.script, none⟩, r') := by
  induction l generalizing k r with
  | nil => exact ⟨r, rfl⟩
  | cons y l ih =>
    have htl := (List.getElem?_eq_some_iff.mp hx).1
    have ht := tx_index hf
    have hy : x.outs[k]? = some y := by rw [← List.head?_drop, hk]; rfl
    have hkl := (List.getElem?_eq_some_iff.mp hy).1
    have hcnt := Run.enc_counts b.txs hf.wf.txs (List.mem_of_getElem? hx)
    have hs := hf.size
    unfold BinBlock.Blk.enc at hs
    simp only [List.length_append] at hs
    rw [List.length_cons, List.range'_succ, List.map_cons, readTxos, txo_answer e hf, Run.leDec_leEnc4 t (by omega),
      Run.leDec_leEnc4 k (by omega), if_pos htl, show (allOuts b)[outsBefore b t + k]? = _ from flat_own b.txs (·.outs) hx k hkl, hy]
    dsimp only
    obtain ⟨r', h⟩ := ih (k + 1) (by rw [← List.drop_drop, hk]; rfl) ⟨⟨leEnc 4 height, leEnc 4 t⟩, y.value, y.script⟩
    rw [h]
    exact ⟨r', rfl⟩

theorem readTrans_ok (e : Env) {b : BinBlock.Blk} {height : Nat} (hf : Fine b height) (median : Nat) (l : List BinBlock.Tx) (k : Nat)
    (hk : b.txs.drop k = l) (r : Receivers) :
    ∃ r', readTrans e.sha (holding e b height median) ((List.range' k l.length).map fun t => ⟨leEnc 4 height, leEnc 4 t⟩) r =
      some (l.mapIdx fun i x => writtenTx e .chi (k + i) x, r') := by
  induction l generalizing k r with
  | nil => exact ⟨r, rfl⟩
  | cons x l ih =>
    have ht := tx_index hf
    have hx : b.txs[k]? = some x := by rw [← List.head?_drop, hk]; rfl
    have hkl := (List.getElem?_eq_some_iff.mp hx).1
    rw [List.length_cons, List.range'_succ, List.map_cons, readTrans, trans_answer e hf, Run.leDec_leEnc4 k (by omega), hx]
    dsimp only
    have hi : ∃ i', readTxis (holding e b height median)
        (if k = 0 then [] else (List.range x.ins.length).map fun j => ⟨⟨leEnc 4 height, leEnc 4 k⟩, leEnc 4 j⟩) r.i =
          some (if k = 0 then [] else x.ins.map fun y => ⟨y.txid, y.vout, none, none⟩, i') := by
      by_cases h0 : k = 0
      · rw [if_pos h0, if_pos h0]; exact ⟨r.i, rfl⟩
      · rw [if_neg h0, if_neg h0, List.range_eq_range']
        exact readTxis_ok e hf median hx x.ins 0 rfl r.i
    obtain ⟨i', hi'⟩ := hi
    obtain ⟨o', ho'⟩ := readTxos_ok e hf median hx x.outs 0 rfl r.o
    rw [hi', List.range_eq_range', ho']
    dsimp only
    generalize hq : (Receivers.mk _ _ _ _) = q
    obtain ⟨r', h⟩ := ih (k + 1) (by rw [← List.drop_drop, hk]; rfl) q
    rw [h]
    refine ⟨r', ?_⟩
    simp only [Option.map_some, Option.some.injEq, Prod.mk.injEq, and_true, List.mapIdx_cons, Nat.add_zero, List.cons.injEq]
    constructor
    · unfold writtenTx
      simp [named]
    · congr 1
      funext i y
      rw [Nat.add_right_comm, Nat.add_assoc, Nat.add_comm k]

/-- C98: whatever the receivers were used for before, the client sees exactly the block: its hash, height and six fields, and of
every transaction its hash, its three fields, and all its inputs and outputs in order, none of the inputs of the first one. -/
theorem block_read (e : Env) {b : BinBlock.Blk} {height : Nat} (hf : Fine b height) (median : Nat) (r : Receivers) :
    ∃ r', readBlock e (holding e b height median) (leEnc 4 height) r = some (writtenBlk e .chi height median b, r') := by
  unfold readBlock
  rw [block_answer e hf]
  dsimp only
  generalize hq : (Receivers.mk _ _ _ _) = q
  obtain ⟨r', h⟩ := readTrans_ok e hf median b.txs 0 rfl q
  rw [List.range_eq_range', h]
  refine ⟨r', ?_⟩
  simp only [Option.map_some, Option.some.injEq, Prod.mk.injEq, and_true]
  unfold writtenBlk
  simp [named]

/-- C98: so reading block after block with the same receivers gives the blocks. -/
theorem blocks_read (e : Env) (l : List (BinBlock.Blk × Nat × Nat)) (hf : ∀ x ∈ l, Fine x.1 x.2.1) (r : Receivers) :
    ∃ rs : List Receivers, rs.length = l.length + 1 ∧ rs[0]? = some r ∧ ∀ (i : Nat) x, l[i]? = some x → ∃ a c, rs[i]? = some a ∧ rs[i + 1]? = some c ∧
      readBlock e (holding e x.1 x.2.1 x.2.2) (leEnc 4 x.2.1) a = some (writtenBlk e .chi x.2.1 x.2.2 x.1, c) := by
  induction l generalizing r with
  | nil => exact ⟨[r], rfl, rfl, fun i x h => by simp at h⟩
  | cons y l ih =>
    obtain ⟨r', h⟩ := block_read e (hf y (by simp)) y.2.2 r
    obtain ⟨rs, h1, h2, h3⟩ := ih (fun x hx => hf x (by simp [hx])) r'
    refine ⟨r :: rs, by simp [h1], rfl, ?_⟩
    intro i x hi
    cases i with
    | zero =>
      simp only [List.getElem?_cons_zero, Option.some.injEq] at hi
      subst hi
      exact ⟨r, r', rfl, by simpa using h2, h⟩
    | succ i =>
      rw [List.getElem?_cons_succ] at hi
      obtain ⟨a, c, g1, g2, g3⟩ := h3 i x hi
      exact ⟨a, c, by simpa using g1, by simpa using g2, g3⟩

/-- The client sees what `Verif.Run` takes the block to be shown as. -/
theorem read_refines (e : Env) {b : BinBlock.Blk} {height : Nat} (hf : Fine b height) (median : Nat) (r : Receivers) :
    ∃ r', (readBlock e (holding e b height median) (leEnc 4 height) r) =
      (Run.adorn e .chi (parsed e b) height median).map fun x => (x, r') := by
  obtain ⟨r', h⟩ := block_read e hf median r
  exact ⟨r', by rw [h, Run.adorn_parsed e .chi hf.wf hf.size (by simp)]; rfl⟩

/-! ## C99: handles put together from parts -/

/-- C99: a handle of another block is refused by each of the four calls. -/
theorem other_block_refused (e : Env) {b : BinBlock.Blk} {height : Nat} (hf : Fine b height) (median : Nat) (bh tsh sub : Bytes)
    (hne : bh ≠ leEnc 4 height) (r : Receivers) :
    (∃ x, getBlockInfo e.difficulty (holding e b height median) bh r.b = .err x) ∧
    (∃ x, getTransactionInfo (holding e b height median) ⟨bh, tsh⟩ r.t = .err x) ∧
    (∃ x, getTxiInfo (holding e b height median) ⟨⟨bh, tsh⟩, sub⟩ r.i = .err x) ∧
    ∃ x, getTxoInfo (holding e b height median) ⟨⟨bh, tsh⟩, sub⟩ r.o = .err x := by
  unfold getBlockInfo getTransactionInfo getTxiInfo getTxoInfo holding
  dsimp only
  rw [makeBlockHandle_ok hf.height]
  dsimp only
  rw [if_pos hne, if_pos hne, if_pos hne, if_pos hne]
  exact ⟨⟨_, rfl⟩, ⟨_, rfl⟩, ⟨_, rfl⟩, ⟨_, rfl⟩⟩

/-- C99: with a part that is in range for the transaction, what is answered is that transaction's own input or output.
Partial: the part has to be in range. -/
theorem own_part_partial (e : Env) {b : BinBlock.Blk} {height : Nat} (hf : Fine b height) (median : Nat) {t : Nat} {x : BinBlock.Tx}
    (hx : b.txs[t]? = some x) (j : Nat) (ri : TxiReceiver) (ro : TxoReceiver) :
    (∀ y, x.ins[j]? = some y → getTxiInfo (holding e b height median) ⟨⟨leEnc 4 height, leEnc 4 t⟩, leEnc 4 j⟩ ri =
      .ok ⟨⟨leEnc 4 height, leEnc 4 t⟩, y.txid, y.vout⟩) ∧
    ∀ y, x.outs[j]? = some y → getTxoInfo (holding e b height median) ⟨⟨leEnc 4 height, leEnc 4 t⟩, leEnc 4 j⟩ ro =
      .ok ⟨⟨leEnc 4 height, leEnc 4 t⟩, y.value, y.script⟩ := by
  have htl := (List.getElem?_eq_some_iff.mp hx).1
  have ht := tx_index hf
  have hcnt := Run.enc_counts b.txs hf.wf.txs (List.mem_of_getElem? hx)
  have hs := hf.size
  unfold BinBlock.Blk.enc at hs
  simp only [List.length_append] at hs
  constructor
  · intro y hy
    have hj := (List.getElem?_eq_some_iff.mp hy).1
    rw [txi_answer e hf, Run.leDec_leEnc4 t (by omega), Run.leDec_leEnc4 j (by omega), if_pos htl,
      show (allIns b)[insBefore b t + j]? = _ from flat_own b.txs (·.ins) hx j hj, hy]
  · intro y hy
    have hj := (List.getElem?_eq_some_iff.mp hy).1
    rw [txo_answer e hf, Run.leDec_leEnc4 t (by omega), Run.leDec_leEnc4 j (by omega), if_pos htl,
      show (allOuts b)[outsBefore b t + j]? = _ from flat_own b.txs (·.outs) hx j hj, hy]

/-- C99 is violated: a part that is out of range for a transaction is neither refused nor a panic when a transaction follows it: the
following transaction's input or output is given, and said to be the transaction's own. -/
theorem part_of_next (e : Env) {b : BinBlock.Blk} {height : Nat} (hf : Fine b height) (median : Nat) {t : Nat} {x z : BinBlock.Tx}
    (hx : b.txs[t]? = some x) (hz : b.txs[t + 1]? = some z) (j : Nat) (ri : TxiReceiver) (ro : TxoReceiver) :
    (∀ y, z.ins[j]? = some y → getTxiInfo (holding e b height median) ⟨⟨leEnc 4 height, leEnc 4 t⟩, leEnc 4 (x.ins.length + j)⟩ ri =
      .ok ⟨⟨leEnc 4 height, leEnc 4 t⟩, y.txid, y.vout⟩) ∧
    ∀ y, z.outs[j]? = some y → getTxoInfo (holding e b height median) ⟨⟨leEnc 4 height, leEnc 4 t⟩, leEnc 4 (x.outs.length + j)⟩ ro =
      .ok ⟨⟨leEnc 4 height, leEnc 4 t⟩, y.value, y.script⟩ := by
  have htl := (List.getElem?_eq_some_iff.mp hx).1
  have ht := tx_index hf
  have hcx := Run.enc_counts b.txs hf.wf.txs (List.mem_of_getElem? hx)
  have hcz := Run.enc_counts b.txs hf.wf.txs (List.mem_of_getElem? hz)
  have hs := hf.size
  unfold BinBlock.Blk.enc at hs
  simp only [List.length_append] at hs
  constructor
  · intro y hy
    have hj := (List.getElem?_eq_some_iff.mp hy).1
    rw [txi_answer e hf, Run.leDec_leEnc4 t (by omega), Run.leDec_leEnc4 _ (by omega), if_pos htl,
      show (allIns b)[insBefore b t + (x.ins.length + j)]? = _ from flat_next b.txs (·.ins) hx hz j hj, hy]
  · intro y hy
    have hj := (List.getElem?_eq_some_iff.mp hy).1
    rw [txo_answer e hf, Run.leDec_leEnc4 t (by omega), Run.leDec_leEnc4 _ (by omega), if_pos htl,
      show (allOuts b)[outsBefore b t + (x.outs.length + j)]? = _ from flat_next b.txs (·.outs) hx hz j hj, hy]

/-- C99: the handles sent for a block are all different, and so are those sent for a transaction. -/
theorem handles_differ (e : Env) {b : BinBlock.Blk} {height : Nat} (hf : Fine b height) (median : Nat) (r : Receivers) :
    (∃ x, getBlockInfo e.difficulty (holding e b height median) (leEnc 4 height) r.b = .ok x ∧ x.handles.length = b.txs.length ∧ x.handles.Nodup) ∧
    ∀ (t : Nat) y, b.txs[t]? = some y → ∃ x, getTransactionInfo (holding e b height median) ⟨leEnc 4 height, leEnc 4 t⟩ r.t = .ok x ∧
      x.txis.length = (if t = 0 then 0 else y.ins.length) ∧ x.txos.length = y.outs.length ∧ x.txis.Nodup ∧ x.txos.Nodup := by
  have key : ∀ {α : Type} (f : Bytes → α) (_ : Function.Injective f) (n : Nat), n < 2 ^ 32 →
      ((List.range n).map fun k => f (leEnc 4 k)).Nodup := by
    intro α f hfi n hn
    rw [List.nodup_map_iff_inj_on List.nodup_range]
    intro a ha c hc h
    rw [List.mem_range] at ha hc
    have := congrArg leDec (hfi h)
    rwa [Run.leDec_leEnc4 a (by omega), Run.leDec_leEnc4 c (by omega)] at this
  have ht := tx_index hf
  refine ⟨⟨_, block_answer e hf median r.b, by simp, key (fun s => (⟨leEnc 4 height, s⟩ : TransHandle)) ?_ _ (by omega)⟩, ?_⟩
  · intro a c h
    exact (TransHandle.mk.inj h).2
  · intro t y hy
    have htl := (List.getElem?_eq_some_iff.mp hy).1
    have hc := Run.enc_counts b.txs hf.wf.txs (List.mem_of_getElem? hy)
    have hs := hf.size
    unfold BinBlock.Blk.enc at hs
    simp only [List.length_append] at hs
    rw [trans_answer e hf, Run.leDec_leEnc4 t (by omega), hy]
    have hi : Function.Injective fun s => (⟨⟨leEnc 4 height, leEnc 4 t⟩, s⟩ : TxxHandle) := fun a c h => (TxxHandle.mk.inj h).2
    refine ⟨_, rfl, ?_, by simp, ?_, key _ hi _ (by omega)⟩
    · dsimp only
      split <;> simp
    · dsimp only
      split
      · exact List.nodup_nil
      · exact key _ hi _ (by omega)

/-! ## C100: what a receiver holds after a call -/

/-- The names of a block's fields. -/
def blockNames : List String := ["time", "mediantime", "size", "strippedsize", "weight", "difficulty"]

/-- The names of a transaction's fields. -/
def transNames : List String := ["size", "vsize", "weight"]

/-- C100: after an answer, whatever two receivers held before, they hold the same hash, height, handles, amounts and scripts, and the same
fields among those that are sent. Partial: other fields, and refused calls, leave what was there. -/
theorem receiver_overwritten_partial (e : Env) {b : BinBlock.Blk} {height : Nat} (hf : Fine b height) (median : Nat) (r s : Receivers) :
    (∃ x y, getBlockInfo e.difficulty (holding e b height median) (leEnc 4 height) r.b = .ok x ∧
      getBlockInfo e.difficulty (holding e b height median) (leEnc 4 height) s.b = .ok y ∧
      x.height = y.height ∧ x.hash = y.hash ∧ x.handles = y.handles ∧ (∀ n ∈ blockNames, x.fields n = y.fields n ∧ (x.fields n).isSome) ∧
      ∀ n, n ∉ blockNames → x.fields n = r.b.fields n) ∧
    (∀ tsh, leDec tsh < b.txs.length → ∃ x y, getTransactionInfo (holding e b height median) ⟨leEnc 4 height, tsh⟩ r.t = .ok x ∧
      getTransactionInfo (holding e b height median) ⟨leEnc 4 height, tsh⟩ s.t = .ok y ∧
      x.parent = y.parent ∧ x.hash = y.hash ∧ x.txis = y.txis ∧ x.txos = y.txos ∧
      (∀ n ∈ transNames, x.fields n = y.fields n ∧ (x.fields n).isSome) ∧ ∀ n, n ∉ transNames → x.fields n = r.t.fields n) ∧
    (∀ tsh sub, getTxiInfo (holding e b height median) ⟨⟨leEnc 4 height, tsh⟩, sub⟩ r.i =
      getTxiInfo (holding e b height median) ⟨⟨leEnc 4 height, tsh⟩, sub⟩ s.i) ∧
    ∀ tsh sub, getTxoInfo (holding e b height median) ⟨⟨leEnc 4 height, tsh⟩, sub⟩ r.o =
      getTxoInfo (holding e b height median) ⟨⟨leEnc 4 height, tsh⟩, sub⟩ s.o := by
  refine ⟨⟨_, _, block_answer e hf median r.b, block_answer e hf median s.b, rfl, rfl, rfl, ?_, ?_⟩, ?_, ?_, ?_⟩
  · intro n hn
    simp only [blockNames, List.mem_cons, List.not_mem_nil, or_false] at hn
    rcases hn with rfl | rfl | rfl | rfl | rfl | rfl <;> simp
  · intro n hn
    simp only [blockNames, List.mem_cons, List.not_mem_nil, or_false, not_or] at hn
    simp [hn]
  · intro tsh ht
    rw [trans_answer e hf, trans_answer e hf, List.getElem?_eq_getElem ht]
    refine ⟨_, _, rfl, rfl, rfl, rfl, rfl, rfl, ?_, ?_⟩
    · intro n hn
      simp only [transNames, List.mem_cons, List.not_mem_nil, or_false] at hn
      rcases hn with rfl | rfl | rfl <;> simp
    · intro n hn
      simp only [transNames, List.mem_cons, List.not_mem_nil, or_false, not_or] at hn
      simp [hn]
  · intro tsh sub
    rw [txi_answer e hf, txi_answer e hf]
  · intro tsh sub
    rw [txo_answer e hf, txo_answer e hf]

/-- C100 is violated: after a refused call the receiver still shows the hash, the height and the fields, or the amount, of what was asked for
before, though with no handles, or no script. -/
theorem refusal_keeps (e : Env) {b : BinBlock.Blk} {height : Nat} (hf : Fine b height) (median : Nat) (bh tsh sub : Bytes)
    (hne : bh ≠ leEnc 4 height) (r : Receivers) :
    (∃ x, getBlockInfo e.difficulty (holding e b height median) bh r.b = .err x ∧ x.hash = r.b.hash ∧ x.height = r.b.height ∧
      x.fields = r.b.fields ∧ x.handles = []) ∧
    (∃ x, getTransactionInfo (holding e b height median) ⟨bh, tsh⟩ r.t = .err x ∧ x.hash = r.t.hash ∧ x.fields = r.t.fields ∧ x.txis = [] ∧
      x.txos = []) ∧
    getTxiInfo (holding e b height median) ⟨⟨bh, tsh⟩, sub⟩ r.i = .err r.i ∧
    ∃ x, getTxoInfo (holding e b height median) ⟨⟨bh, tsh⟩, sub⟩ r.o = .err x ∧ x.sats = r.o.sats ∧ x.script = [] := by
  unfold getBlockInfo getTransactionInfo getTxiInfo getTxoInfo holding
  dsimp only
  rw [makeBlockHandle_ok hf.height]
  dsimp only
  rw [if_pos hne, if_pos hne, if_pos hne, if_pos hne]
  exact ⟨⟨_, rfl, rfl, rfl, rfl, rfl⟩, ⟨_, rfl, rfl, rfl, rfl, rfl⟩, rfl, ⟨_, rfl, rfl, rfl⟩⟩

/-! ## Non-vacuity -/

/-- A block with a legacy and a segwit transaction. -/
theorem exFine : Fine BinBlock.exBlk 7 := ⟨BinBlock.exBlk_wf, by decide +kernel, by decide⟩

/-- C98 on a block with two transactions, with receivers that are full of something else. -/
example (e : Env) : ∃ r', readBlock e (holding e BinBlock.exBlk 7 100) (leEnc 4 7)
    ⟨⟨3, [1], [⟨[1], [2]⟩], fun _ => some 5⟩, ⟨[], [], [⟨⟨[1], [2]⟩, [3]⟩], [], fun _ => none⟩, ⟨⟨[1], [2]⟩, [], 4⟩, ⟨⟨[1], [2]⟩, 4, [9]⟩⟩ =
      some (writtenBlk e .chi 7 100 BinBlock.exBlk, r') := block_read e exFine 100 _

/-- C99 violated on it: asked for the second output of the first transaction, which has one, the holder gives 1 satoshi, the first output of
the second transaction. -/
example (e : Env) (r : TxoReceiver) : getTxoInfo (holding e BinBlock.exBlk 7 100) ⟨⟨leEnc 4 7, leEnc 4 0⟩, leEnc 4 1⟩ r =
    .ok ⟨⟨leEnc 4 7, leEnc 4 0⟩, 1, []⟩ :=
  (part_of_next e exFine 100 (t := 0) rfl rfl 0 ⟨⟨[], []⟩, [], 0⟩ r).2 ⟨1, []⟩ rfl

example : leEnc 4 8 ≠ leEnc 4 7 := by decide

end Verif.Receivers
