import Verif.Props.Run

/-!
# C78: a run with a limit on the blocks of phase three

jobs/intrinsicparallel.go:232-261: phase three may be told to store fewer blocks than phases one and two have gathered
and indexed the hashes of.
-/

namespace Verif.ChainStore

/-! ## Specification -/

/-- The hashes of all the blocks are gathered and indexed, the first `m` blocks are appended. -/
def storeFirst (p q : Int) (i : Iface) (d : Bool) (bn tn : List (String × Nat)) (bs : List Blk) (m : Nat) : Except Fail St := do
  let h ← gatherHashes bs ⟨[], [], []⟩
  ingest i 0 (-1) (bs.take m) (create p q d h bn tn)

/-! ## Lemmas -/

/-- The store with the hash stores cut off where the appending ended. -/
def trimmed (s : St) (m n : Nat) : St := { s with blkHashes := s.blkHashes.take m, trnHashes := s.trnHashes.take n }

theorem readSats_trimmed (s : St) (m n : Nat) : ∀ (c : Nat) (k : Int), readSats (trimmed s m n) c k = readSats s c k
  | 0, _ => rfl
  | c + 1, k => by
    unfold readSats
    simp only [readSats_trimmed s m n c]
    rfl

theorem inOrder_take {adr outs : List Bytes} (h : InOrder adr outs) (n : Nat) : InOrder adr (outs.take n) := by
  intro i j a b hij ha hb hnew
  have hi := (List.getElem?_eq_some_iff.mp ha).1
  have hj := (List.getElem?_eq_some_iff.mp hb).1
  rw [List.length_take] at hi hj
  rw [List.getElem?_take_of_lt (by omega)] at ha hb
  apply h i j a b hij ha hb
  rwa [List.take_take, Nat.min_eq_left (by omega)] at hnew

theorem take_append_left {α : Type} (a b : List α) : (a ++ b).take a.length = a := by simp

theorem txReady_prefix {i : Iface} {H : Hashes} {tn : List (String × Nat)} {a b : List Tx} (h : TxReady i H tn (a ++ b)) (H' : Hashes)
    (hH : H'.adr = H.adr) : TxReady i H' tn a := by
  have e1 : txisOf (a ++ b) = txisOf a ++ txisOf b := by simp [txisOf]
  have e2 : txosOf (a ++ b) = txosOf a ++ txosOf b := by simp [txosOf]
  obtain ⟨h1, h2, h3, h4, h5, h6, h7, h8, h9, h10, h11, h12⟩ := h
  rw [e1] at h2 h6 h7
  rw [e2] at h3 h5 h8 h9 h10 h11
  rw [List.length_append] at h1 h2 h3
  have get_left : ∀ {α : Type} (x y : List α) (k : Nat) (z : α), x[k]? = some z → (x ++ y)[k]? = some z := by
    intro α x y k z hz
    rw [List.getElem?_append_left (lt_of_getElem? hz)]; exact hz
  refine ⟨by omega, by omega, by omega, by rw [hH]; exact h4, fun x hx => h5 x (by simp [hx]), fun x hx => h6 x (by simp [hx]),
    fun hi k x hx => h7 hi k x (get_left _ _ _ _ hx), fun hi k x hx => h8 hi k x (get_left _ _ _ _ hx), ?_,
    fun x hx => by rw [hH]; exact h10 x (by simp [hx]), fun x hx => by rw [hH]; exact h11 x (get_left _ _ _ _ hx), fun t ht => h12 t (by simp [ht])⟩
  rw [hH]
  have := inOrder_take h9 ((txosOf a).map (·.addr)).length
  rwa [List.map_append, take_append_left] at this

theorem allKept_append (i : Iface) (a b : List Blk) : allKept i (a ++ b) = allKept i a ++ allKept i b := by simp [allKept]

theorem storeFirst_ok {p q : Int} (hp : p ≤ 0) (hq : q ≤ 0) {i : Iface} {d : Bool} {bn tn : List (String × Nat)} {bs : List Blk}
    (hg : Good i d bn tn bs) (m : Nat) (hm : m ≤ bs.length) : ∃ s, storeFirst p q i d bn tn bs m = .ok s ∧
      Closed d (hashesOf bs) bn tn (srcOf i bs) s (bs.take m) (bs.take m) (allKept i (bs.take m)) ∧
      Reads (hashesOf bs) bn tn (srcOf i bs) (trimmed s m (firstAt bs m)) (bs.take m) (allKept i (bs.take m)) := by
  have hR := good_ready hg
  obtain ⟨s, e, hC⟩ := ingest_prefix hR (bs.drop m) (bs.take m) [] _ (-1) (by simp) (by simp [allKept])
    (create_closed hp hq d (hashesOf bs) bn tn (srcOf i bs))
  rw [List.nil_append] at hC
  refine ⟨s, ?_, hC, ?_⟩
  · unfold storeFirst
    rw [gatherHashes_ok bs _ hg.nonempty, bind_ok]
    have : hashesOf bs = ⟨[] ++ bs.map (·.hash), [] ++ (bs.flatMap (·.txs)).map (·.hash), [] ++ ((bs.flatMap (·.txs)).flatMap (·.txos)).map (·.addr)⟩ := by
      simp [hashesOf, outputs, allTxs]
    rw [← this]
    exact e
  · have hlen : (allKept i (bs.take m)).length = firstAt bs m := by rw [allKept_length]; rfl
    have hle : firstAt bs m ≤ (allTxs bs).length := by
      have h1 := allTxs_length i bs
      have h2 := allKept_append i (bs.take m) (bs.drop m)
      rw [List.take_append_drop] at h2
      rw [h1, h2, List.length_append]
      omega
    have hT : TxReady i ⟨(hashesOf bs).blk.take m, (hashesOf bs).trn.take (firstAt bs m), (hashesOf bs).adr⟩ tn (allKept i (bs.take m)) := by
      have h2 := allKept_append i (bs.take m) (bs.drop m)
      rw [List.take_append_drop] at h2
      have h3 := hR.tx
      rw [show (bs.flatMap fun b => kept i 0 b.txs) = allKept i bs from rfl, h2] at h3
      exact txReady_prefix h3 _ rfl
    have hC' : Closed d ⟨(hashesOf bs).blk.take m, (hashesOf bs).trn.take (firstAt bs m), (hashesOf bs).adr⟩ bn tn (srcOf i bs)
        (trimmed s m (firstAt bs m)) (bs.take m) (bs.take m) (allKept i (bs.take m)) :=
      { hC with
        blkH := by unfold trimmed; dsimp only; rw [hC.blkH]
        trnH := by unfold trimmed; dsimp only; rw [hC.trnH] }
    have hr := reads hC' hT (by simp [hashesOf]) (by
      dsimp only
      rw [hlen, List.length_take]
      have : (hashesOf bs).trn.length = (allTxs bs).length := by simp [hashesOf]
      omega) (fun b hb => hg.nonempty b (List.mem_of_mem_take hb))
    exact ⟨hr.txCount, hr.nthTx, hr.parentBlk, hr.txiCount, hr.txoCount, hr.nthTxi, hr.nthTxo, hr.allSats, hr.sats, hr.address, hr.source,
      hr.parentTxi, hr.parentTxo, hr.addr⟩

theorem firstAt_take (bs : List Blk) {k m : Nat} (h : k ≤ m) : firstAt (bs.take m) k = firstAt bs k := by
  unfold firstAt; rw [List.take_take, Nat.min_eq_left h]

theorem firstAt_le (bs : List Blk) {k m : Nat} (h : k ≤ m) : firstAt bs k ≤ firstAt bs m := by
  unfold firstAt
  rw [show bs.take k = (bs.take m).take k by rw [List.take_take, Nat.min_eq_left h], List.map_take]
  exact sum_take_le _ _

theorem firstAt_succ {bs : List Blk} {k : Nat} {b : Blk} (h : bs[k]? = some b) : firstAt bs (k + 1) = firstAt bs k + b.txs.length := by
  unfold firstAt
  rw [List.map_take, List.map_take]
  exact sum_take_succ _ _ _ (by rw [List.getElem?_map, h]; rfl)

theorem get_past {l : Words} {k : Int} (h : (l.length : Int) ≤ k) : get l k = .error .err := by
  unfold get
  rw [if_neg (by omega), List.getElem?_eq_none_iff.mpr (by omega)]

/-! ## C78 -/

/-- **C78.** With a limit of `m` blocks: every transaction of the first `m` blocks has its height, block, hash, amounts,
outputs and inputs as if the whole chain had been stored; every block but the last of them has its number of
transactions, every transaction but the last its numbers of inputs and outputs. -/
theorem limited_store_partial {p q : Int} (hp : p ≤ 0) (hq : q ≤ 0) {i : Iface} {d : Bool} {bn tn : List (String × Nat)} {bs : List Blk}
    (hg : Good i d bn tn bs) (m : Nat) (hm : m ≤ bs.length) : ∃ s, storeFirst p q i d bn tn bs m = .ok s ∧
      (∀ (k : Nat) b, k < m → bs[k]? = some b →
        s.blkHashes[k]? = some b.hash ∧ indexOf s.blkHashes b.hash = k ∧
        (k + 1 < m → transactionCount s k = .ok (b.txs.length : Int))) ∧
      (∀ (k t : Nat) b tx, k < m → bs[k]? = some b → b.txs[t]? = some tx → ∀ g : Nat, g = firstAt bs k + t →
        nthTransaction s k t = .ok (g : Int) ∧ parentBlockOf s g = .ok (k : Int) ∧ s.trnHashes[g]? = some tx.hash ∧
        allTxoSatoshis s g = .ok (tx.txos.map (·.sats)) ∧
        (g + 1 < firstAt bs m → txoCount s g = .ok (tx.txos.length : Int) ∧ txiCount s g = .ok ((spends i t tx).length : Int)) ∧
        (∀ (n : Nat) o, tx.txos[n]? = some o → ∃ h : Nat, h = outputsBefore bs g + n ∧ (outputs bs)[h]? = some o ∧
          nthTxo s g n = .ok (h : Int) ∧ satoshis s h = .ok o.sats ∧ parentTransOfTxo s h = .ok (g : Int)) ∧
        (∀ (n : Nat) x, (spends i t tx)[n]? = some x → ∃ h : Nat, h = inputsBefore i bs g + n ∧ (inputs i bs)[h]? = some x ∧
          nthTxi s g n = .ok (h : Int) ∧ (∃ g' : Nat, Refers i bs k x g' ∧ sourceTxo s h = .ok (g', x.vout)) ∧
          parentTransOfTxi s h = .ok (g : Int))) := by
  obtain ⟨s, e, hC, hR⟩ := storeFirst_ok hp hq hg m hm
  refine ⟨s, e, ?_, ?_⟩
  · intro k b hk hb
    have hbl : (bs.map (·.hash))[k]? = some b.hash := by rw [List.getElem?_map, hb]; rfl
    refine ⟨by rw [hC.blkH]; exact hbl, by rw [hC.blkH]; exact nodup_indexOf hg.blkHashes hbl, ?_⟩
    intro hk1
    have := hR.txCount k b (by rw [List.getElem?_take_of_lt hk]; exact hb)
    unfold transactionCount at this ⊢
    have hlb : s.blkHashes.length = bs.length := by rw [hC.blkH]; simp [hashesOf]
    have h1 : ((k : Int) + 1 < ((trimmed s m (firstAt bs m)).blkHashes.length : Int)) := by
      unfold trimmed; dsimp only; rw [List.length_take]; omega
    simp only [if_pos h1] at this
    simp only [if_pos (show (k : Int) + 1 < (s.blkHashes.length : Int) by omega)]
    exact this
  · intro k t b tx hk hb ht g hg'
    have hbt : (bs.take m)[k]? = some b := by rw [List.getElem?_take_of_lt hk]; exact hb
    have hkp := allKept_at i (bs.take m) k t b tx hbt ht
    rw [← firstAt_eq, firstAt_take bs (by omega), ← hg'] at hkp
    have hkf := allKept_at i bs k t b tx hb ht
    rw [← firstAt_eq, ← hg'] at hkf
    have happ := allKept_append i (bs.take m) (bs.drop m)
    rw [List.take_append_drop] at happ
    have hgl := lt_of_getElem? hkp
    have htake : (allKept i (bs.take m)).take g = (allKept i bs).take g := by
      rw [happ, List.take_append_of_le_length (by omega)]
    have hlt : t < b.txs.length := lt_of_getElem? ht
    have hlen : s.trnHashes.length = (allTxs bs).length := by rw [hC.trnH]; simp [hashesOf]
    have hfm : firstAt bs m ≤ (allTxs bs).length := by
      have h1 := allTxs_length i bs
      have h2 : (allKept i (bs.take m)).length = firstAt bs m := by rw [allKept_length]; rfl
      rw [h1, happ, List.length_append]
      omega
    refine ⟨?_, ?_, ?_, ?_, ?_, ?_, ?_⟩
    · have := hR.nthTx k t b hbt
      rw [← firstAt_eq, firstAt_take bs (by omega), ← hg'] at this
      exact this
    · have := hR.parentBlk k t b hbt hlt
      rw [← firstAt_eq, firstAt_take bs (by omega), ← hg'] at this
      exact this
    · rw [hC.trnH]
      have := allTxs_at bs k t b tx hb ht
      rw [← firstAt_eq, ← hg'] at this
      show ((allTxs bs).map (·.hash))[g]? = _
      rw [List.getElem?_map]
      unfold allTxs
      rw [this]; rfl
    · have := hR.allSats g _ hkp
      unfold allTxoSatoshis at this ⊢
      simp only [readSats_trimmed] at this
      exact this
    · intro hg1
      have ho := hR.txoCount g _ hkp
      have hi := hR.txiCount g _ hkp
      unfold txoCount at ho ⊢
      unfold txiCount at hi ⊢
      have h1 : ((g : Int) + 1 < ((trimmed s m (firstAt bs m)).trnHashes.length : Int)) := by
        unfold trimmed; dsimp only; rw [List.length_take]; omega
      simp only [if_pos h1] at ho hi
      simp only [if_pos (show (g : Int) + 1 < (s.trnHashes.length : Int) by omega)]
      refine ⟨ho, ?_⟩
      rw [spends_eq]
      exact hi
    · intro n o ho
      refine ⟨_, rfl, ?_, ?_, ?_, ?_⟩
      · rw [outputsBefore_eq i, outputs_eq i]; exact txosOf_at _ _ n _ o hkf ho
      · rw [outputsBefore_eq i, ← htake]; exact hR.nthTxo _ n _ hkp
      · have h1 : (txosOf (allKept i (bs.take m)))[outputsBefore bs g + n]? = some o := by
          rw [outputsBefore_eq i, ← htake]; exact txosOf_at _ _ n _ o hkp ho
        exact hR.sats _ _ h1
      · rw [outputsBefore_eq i, ← htake]; exact hR.parentTxo _ n _ hkp (lt_of_getElem? ho)
    · intro n x hx
      have hx' : (storedTxis i t tx)[n]? = some x := by rw [← spends_eq]; exact hx
      obtain ⟨g', hgl', hr⟩ := hg.refs (b, k) (zipIdx_mem hb) (tx, t) (zipIdx_mem ht) x (List.mem_of_getElem? hx)
      have hsz := good_sizes hg
      have hsrc := refers_srcOf (lt_of_getElem? hb) hr (by omega)
      have hcnt := hg.trnCount
      refine ⟨_, rfl, ?_, ?_, ⟨g', hr, ?_⟩, ?_⟩
      · rw [inputsBefore_eq i, inputs_eq i]; exact txisOf_at _ _ n _ x hkf hx'
      · rw [inputsBefore_eq i, ← htake]; exact hR.nthTxi _ n _ hkp
      · rw [← hsrc]
        apply hR.source
        · rw [inputsBefore_eq i, ← htake]; exact txisOf_at _ _ n _ x hkp hx'
        · rw [hsrc]; omega
      · rw [inputsBefore_eq i, ← htake]; exact hR.parentTxi _ n _ hkp (lt_of_getElem? hx')

/-- C78: but the latest block is said to be the last whose hash was gathered; nothing of a block that was not appended can
be read; and of the last block that was, the number of transactions can not be read, nor of its last transaction the
numbers of inputs and outputs. -/
theorem limited_store_end {p q : Int} (hp : p ≤ 0) (hq : q ≤ 0) {i : Iface} {d : Bool} {bn tn : List (String × Nat)} {bs : List Blk}
    (hg : Good i d bn tn bs) (m : Nat) (h0 : 0 < m) (hm : m < bs.length) : ∃ s, storeFirst p q i d bn tn bs m = .ok s ∧
      latestBlock s = bs.length - 1 ∧ nextBlock s ((m : Int) - 1) = m ∧
      (∀ k : Nat, m ≤ k → transactionCount s k = .error .err ∧ ∀ n, nthTransaction s k n = .error .err) ∧
      transactionCount s ((m : Int) - 1) = .error .err ∧
      txoCount s ((firstAt bs m : Int) - 1) = .error .err ∧ txiCount s ((firstAt bs m : Int) - 1) = .error .err := by
  obtain ⟨s, e, hC, hR⟩ := storeFirst_ok hp hq hg m (by omega)
  have hlb : s.blkHashes.length = bs.length := by rw [hC.blkH]; simp [hashesOf]
  have hbf : s.blkFirstTrans.length = m := by rw [hC.blkFirst, offsets_length, sizes_length, List.length_take]; omega
  have hlen : (allKept i (bs.take m)).length = firstAt bs m := by rw [allKept_length]; rfl
  have h1 : s.trnFirstTxi.length = firstAt bs m := by rw [hC.firstTxi, offsets_length, List.length_map, hlen]
  have h2 : s.trnFirstTxo.length = firstAt bs m := by rw [hC.firstTxo, offsets_length, List.length_map, hlen]
  have hlt : firstAt bs m < s.trnHashes.length := by
    rw [hC.trnH]
    have hb : bs[m]? = some bs[m] := List.getElem?_eq_getElem hm
    have h3 := firstAt_succ hb
    have h4 : 0 < bs[m].txs.length := List.length_pos_iff.mpr (hg.nonempty _ (List.getElem_mem hm))
    have h5 := firstAt_le bs (k := m + 1) (m := bs.length) hm
    have h6 : (allTxs bs).length = firstAt bs bs.length := by
      rw [allTxs_length i, allKept_length]; unfold firstAt; rw [List.take_length]; rfl
    have h7 : (hashesOf bs).trn.length = (allTxs bs).length := by simp [hashesOf]
    omega
  have hpos : 0 < firstAt bs m := by
    have hb : bs[0]? = some bs[0] := List.getElem?_eq_getElem (by omega)
    have h3 := firstAt_succ hb
    have h4 : 0 < bs[0].txs.length := List.length_pos_iff.mpr (hg.nonempty _ (List.getElem_mem (by omega)))
    have h5 := firstAt_le bs (k := 0 + 1) (m := m) (by omega)
    omega
  have bind_err : ∀ (a : Except Fail Int) (f : Int → Except Fail Int), (∀ v, f v = .error .err) → (a = .error .err ∨ ∃ v, a = .ok v) →
      (a >>= f) = .error .err := by
    rintro a f hf (rfl | ⟨v, rfl⟩)
    · rfl
    · exact hf v
  have get_cases : ∀ (l : Words) (k : Int), get l k = .error .err ∨ ∃ v, get l k = .ok v := by
    intro l k
    unfold get
    split
    · left; rfl
    · split
      · left; rfl
      · right; exact ⟨_, rfl⟩
  refine ⟨s, e, ?_, ?_, ?_, ?_, ?_, ?_⟩
  · unfold latestBlock latest
    rw [hlb, if_neg (by omega)]
  · unfold nextBlock next
    rw [hlb, if_neg (by omega)]
    omega
  · intro k hk
    have := get_past (l := s.blkFirstTrans) (k := (k : Int)) (by omega)
    refine ⟨?_, fun n => ?_⟩
    · unfold transactionCount; rw [this]; rfl
    · unfold nthTransaction; rw [this]; rfl
  · unfold transactionCount
    apply bind_err _ _ ?_ (get_cases _ _)
    intro v
    rw [if_pos (by omega), get_past (by omega)]
    rfl
  · unfold txoCount
    apply bind_err _ _ ?_ (get_cases _ _)
    intro v
    rw [if_pos (by omega), get_past (by omega)]
    rfl
  · unfold txiCount
    apply bind_err _ _ ?_ (get_cases _ _)
    intro v
    rw [if_pos (by omega), get_past (by omega)]
    rfl

/-- Two of the three blocks of `demo`. -/
example : (storeFirst (-1) (-1) .cri true [("time", 4)] [("size", 4)] demo 2 >>= fun s => allTxoSatoshis s 2) = .ok [70, 9] := by decide +kernel
example : (storeFirst (-1) (-1) .cri true [("time", 4)] [("size", 4)] demo 2 >>= fun s => txoCount s 2) = .error .err := by decide +kernel
example : (storeFirst (-1) (-1) .cri true [("time", 4)] [("size", 4)] demo 2 >>= fun s => txoCount s 1) = .ok 1 := by decide +kernel

end Verif.ChainStore

namespace Verif.Run

open Verif.ChainStore (Iface St)
open Verif.BlockHolder (SortOK)

variable {e : Env} {i : Iface} {node : Node} {chain : List BinBlock.Blk} {n : Nat}

/-- What the read interface says of the first `m` of the blocks `bs`. -/
structure FaithfulFirst (e : Env) (bs : List BinBlock.Blk) (m : Nat) (s : St) : Prop where
  block : ∀ (k : Nat) b, k < m → bs[k]? = some b →
    s.blkHashes[k]? = some (blkHash e b) ∧ (k + 1 < m → ChainStore.transactionCount s k = .ok (b.txs.length : Int))
  tx : ∀ (k j : Nat) b t, k < m → bs[k]? = some b → b.txs[j]? = some t → ∀ g : Nat, g = txBefore bs k + j →
    ChainStore.nthTransaction s k j = .ok (g : Int) ∧ ChainStore.parentBlockOf s g = .ok (k : Int) ∧ s.trnHashes[g]? = some (txHash e t) ∧
    ChainStore.allTxoSatoshis s g = .ok (t.outs.map fun o => (o.value : Int)) ∧
    (g + 1 < txBefore bs m → ChainStore.txoCount s g = .ok (t.outs.length : Int) ∧
      ChainStore.txiCount s g = .ok ((if j = 0 then 0 else t.ins.length : Nat) : Int)) ∧
    ∀ (o : Nat) x, t.outs[o]? = some x → ∃ h : Nat, h = outBefore bs g + o ∧ ChainStore.nthTxo s g o = .ok (h : Int) ∧
      ChainStore.satoshis s h = .ok (x.value : Int) ∧ ChainStore.parentTransOfTxo s h = .ok (g : Int)
  txi : ∀ (k n j : Nat) b t x, k < m → bs[k]? = some b → b.txs[n]? = some t → n ≠ 0 → t.ins[j]? = some x → ∀ g : Nat, g = txBefore bs k + n →
    ∃ (h : Int) (g' : Nat) (t' : BinBlock.Tx), ChainStore.nthTxi s g j = .ok h ∧ ChainStore.parentTransOfTxi s h = .ok (g : Int) ∧
      ChainStore.sourceTxo s h = .ok (g', (x.vout : Int)) ∧ (txsOf bs)[g']? = some t' ∧ txHash e t' = x.txid

/-- **C78** for the whole run: `n` blocks in phase one, the first `m` of them in phase three. -/
theorem limited_run_partial (hsha : ∀ x, (e.sha x).length = 32) (hs : SortOK e.sort) (hv : Serving e node chain n)
    (hf : Fits e i (chain.take n)) {m : Nat} (h0 : 0 < m) (hm : m ≤ n) {bloat1 bloat3 threads1 threads3 : Nat}
    (ht1 : 0 < threads1) (ht3 : 0 < threads3) {ps1 ps3 : List BinBlock.Block} (h1 : Delivers e node n bloat1 threads1 ps1)
    (h3 : Delivers e node m bloat3 threads3 ps3) : ∃ s, phases e i ps1 ps3 = .ok s ∧ FaithfulFirst e (chain.take n) m s := by
  have hv3 : Serving e node chain m := ⟨hv.wf, by have := hv.longer; omega, hv.genesis, hv.linked, hv.headers, fun b hb => hv.blocks b (by
    have : chain.take m = (chain.take n).take m := by rw [List.take_take, Nat.min_eq_left hm]
    rw [this] at hb
    exact List.mem_of_mem_take hb)⟩
  have hsz : ∀ b ∈ chain.take n, b.enc.length < 2 ^ 31 := fun b hb => by have := hf.size b hb; omega
  have hsz3 : ∀ b ∈ chain.take m, b.enc.length < 2 ^ 31 := by
    intro b hb
    have : chain.take m = (chain.take n).take m := by rw [List.take_take, Nat.min_eq_left hm]
    rw [this] at hb
    exact hsz b (List.mem_of_mem_take hb)
  rw [delivered hv hsz ht1 h1, delivered hv3 hsz3 ht3 h3]
  have hg := written_good (med := medOf e (chain.take n)) (fun b hb => hv.wf b (List.mem_of_mem_take hb)) hf
  have hl := hv.longer
  obtain ⟨s, hst, p1, p2⟩ := ChainStore.limited_store_partial (p := -1) (q := -1) (by omega) (by omega) hg m (by
    unfold written; rw [List.length_mapIdx, List.length_take]; omega)
  unfold ChainStore.storeFirst at hst
  obtain ⟨h, g1, g2⟩ := bind_ok_inv hst
  refine ⟨s, phases_first hsha hs hv hf h0 hm g1 g2, ?_, ?_, ?_⟩
  · intro k b hk hb
    obtain ⟨c1, _, c3⟩ := p1 k _ hk (written_at hb)
    refine ⟨c1, fun hk1 => ?_⟩
    rw [c3 hk1]
    unfold writtenBlk
    simp
  · intro k j b t hk hb ht g hg'
    obtain ⟨c1, c2, c3, c4, c5, c6, _⟩ := p2 k j _ _ hk (written_at hb) (writtenTx_at ht) g (by rw [firstAt_written]; exact hg')
    refine ⟨c1, c2, c3, ?_, ?_, ?_⟩
    · rw [c4]
      unfold writtenTx
      simp [Function.comp_def]
    · intro hlast
      obtain ⟨d1, d2⟩ := c5 (by rw [firstAt_written]; exact hlast)
      rw [d1, d2, spends_written]
      refine ⟨by unfold writtenTx; simp, ?_⟩
      split <;> simp
    · intro o x hx
      obtain ⟨h, hh, _, d1, d2, d3⟩ := c6 o (writtenTxo e x) (by unfold writtenTx; dsimp only; rw [List.getElem?_map, hx]; rfl)
      rw [outputsBefore_written] at hh
      exact ⟨h, hh, d1, d2, d3⟩
  · intro k j l b t x hk hb ht hj hx g hg'
    obtain ⟨_, _, _, _, _, _, c7⟩ := p2 k j _ _ hk (written_at hb) (writtenTx_at ht) g (by rw [firstAt_written]; exact hg')
    have hsp : (ChainStore.spends i j (writtenTx e i j t))[l]? = some (writtenTxi x) := by
      rw [spends_written, if_neg hj, List.getElem?_map, hx]; rfl
    obtain ⟨h', _, _, e3, ⟨g', e4, e5⟩, e6⟩ := c7 l _ hsp
    have hr : ((ChainStore.allTxs (written e i (medOf e (chain.take n)) (chain.take n)))[g']?).map (·.hash) = some x.txid := by
      unfold ChainStore.Refers writtenTxi at e4
      cases i <;> exact e4.1
    rw [allTxs_hash] at hr
    obtain ⟨t', ht', hid⟩ := Option.map_eq_some_iff.mp hr
    exact ⟨h', g', t', e3, e6, e5, ht', hid⟩

/-- C78 for the whole run: what the limit leaves unreadable. -/
theorem limited_run_end (hsha : ∀ x, (e.sha x).length = 32) (hs : SortOK e.sort) (hv : Serving e node chain n)
    (hf : Fits e i (chain.take n)) {m : Nat} (h0 : 0 < m) (hm : m < n) : ∃ s,
      phases e i ((chain.take n).map (parsed e)) ((chain.take m).map (parsed e)) = .ok s ∧
      ChainStore.latestBlock s = n - 1 ∧ (∀ k : Nat, m ≤ k → ChainStore.transactionCount s k = .error .err) ∧
      ChainStore.transactionCount s ((m : Int) - 1) = .error .err ∧
      ChainStore.txoCount s ((txBefore (chain.take n) m : Int) - 1) = .error .err := by
  have hg := written_good (med := medOf e (chain.take n)) (fun b hb => hv.wf b (List.mem_of_mem_take hb)) hf
  have hl := hv.longer
  have hw : (written e i (medOf e (chain.take n)) (chain.take n)).length = n := by
    unfold written; rw [List.length_mapIdx, List.length_take]; omega
  obtain ⟨s, hst, q1, _, q2, q3, q4, _⟩ := ChainStore.limited_store_end (p := -1) (q := -1) (by omega) (by omega) hg m h0 (by omega)
  unfold ChainStore.storeFirst at hst
  obtain ⟨h, g1, g2⟩ := bind_ok_inv hst
  rw [hw] at q1
  rw [firstAt_written] at q4
  exact ⟨s, phases_first hsha hs hv hf h0 (by omega) g1 g2, q1, fun k hk => (q2 k hk).1, q3, q4⟩

/-- One of the two blocks of the example. -/
example : ∃ ps1 ps3 s, Delivers exEnv exNode 2 5 1 ps1 ∧ Delivers exEnv exNode 1 5 3 ps3 ∧ phases exEnv .chi ps1 ps3 = .ok s ∧
    FaithfulFirst exEnv (exChain.take 2) 1 s := by
  have hv : Serving exEnv exNode exChain 1 := ⟨exServing.wf, by decide, exServing.genesis, exServing.linked, exServing.headers,
    fun b hb => exServing.blocks b (List.mem_of_mem_take (i := 1) hb)⟩
  obtain ⟨ps1, h1⟩ := delivery_happens exServing 5 1
  obtain ⟨ps3, h3⟩ := delivery_happens hv 5 3
  obtain ⟨s, h⟩ := limited_run_partial (i := .chi) (m := 1) exSha_length BlockHolder.isort_ok exServing (exFits .chi) (by decide) (by decide)
    (by decide) (by decide) h1 h3
  exact ⟨ps1, ps3, s, h1, h3, h⟩

end Verif.Run
