import Verif.Lemmas.BinBlock

/-! # C41, C42, C43: the binary block parser

The standard serialization is specified in `Verif.Lemmas.BinBlock` (`cs`, `In.enc`, `Out.enc`, `Tx.enc`, `Tx.stripped`,
`Blk.enc`) without reference to the parser. `sha` is any function on byte strings. The parser's slices panic when they
leave the input (`none` in the model); every theorem also says that this does not happen.

Bounds that are there because of the code: the parser keeps script positions in 32-bit signed integers, so the
serialization must be shorter than 2^31 bytes (a real block is shorter than 2^22); amounts are read as 64-bit signed
integers. A transaction without inputs cannot be told from a segwit one in the format itself. -/

namespace Verif.BinBlock

/-- A parsed transaction, looked up in the storage `st`, agrees with `t`. -/
def Agrees (q : Transaction) (st : Storage) (t : Tx) : Prop :=
  q.version = t.version ∧ q.isSegWit = t.segwit ∧ q.txisCount = t.ins.length ∧ q.txosCount = t.outs.length ∧
  (∀ (j : Nat) i, t.ins[j]? = some i → getTxi q st j = some ⟨i.txid, i.vout⟩) ∧
  (∀ (j : Nat) o, t.outs[j]? = some o →
    ∃ x, getTxo q st j = some x ∧ x.value = o.value ∧ scriptOf st x = some o.script)

/-- C41: a block is recovered. -/
theorem block_recovered (sha : Bytes → Bytes) {b : Blk} (hw : b.WF) (hb : b.enc.length < 2 ^ 31) :
    ∃ p, parseBlock sha b.enc = some p ∧ p.hash = sha (sha b.header) ∧ p.version = b.version ∧ p.prevHash = b.prev ∧
      p.merkleRoot = b.merkle ∧ p.time = b.time ∧ p.nBits = b.bits ∧ p.nonce = b.nonce ∧
      p.transactions.length = b.txs.length ∧
      ∀ (k : Nat) t, b.txs[k]? = some t → ∃ q, p.transactions[k]? = some q ∧ Agrees q p.storage t := by
  refine ⟨_, parseBlock_eq sha hw hb, rfl, rfl, rfl, rfl, rfl, rfl, rfl, parsedAll_length _ _ _, ?_⟩
  intro k t hk
  obtain ⟨st', h1, h2⟩ := parsedAll_at sha b.txs ⟨[], [], []⟩ hk
  exact ⟨_, h1, rfl, rfl, rfl, rfl, fun j i hj => getTxi_ok sha t st' h2 hj, fun j o hj => getTxo_ok sha t st' h2 hj⟩

/-- C41: a transaction is recovered from the middle of any input, after any earlier transactions' data, and exactly its
serialized length is consumed. -/
theorem transaction_recovered (sha : Bytes → Bytes) {t : Tx} (hw : t.WF) (pre post : Bytes)
    (hb : (pre ++ t.enc ++ post).length < 2 ^ 31) (st : Storage) (hst : st.scripts.length ≤ pre.length) :
    ∃ q st', parseTransaction sha (pre ++ t.enc ++ post) pre.length st = some (q, st') ∧ Agrees q st' t ∧
      q.size = t.enc.length ∧ Ext st st' := by
  have hA : At (pre ++ t.enc ++ post) pre.length t.enc := ⟨post, by rw [List.append_assoc, List.drop_left]⟩
  refine ⟨_, _, parseTransaction_ok sha hb hw hA st hst, ?_, rfl, ext_stored t st⟩
  have he : Ext (t.stored st) (t.stored st) := ⟨[], [], [], by simp, by simp, by simp⟩
  exact ⟨rfl, rfl, rfl, rfl, fun j i hj => getTxi_ok sha t st he hj, fun j o hj => getTxo_ok sha t st he hj⟩

/-- C41: the header, the count and the transactions make up the whole input. -/
theorem block_consumed (sha : Bytes → Bytes) {b : Blk} (hw : b.WF) (hb : b.enc.length < 2 ^ 31) :
    ∃ p, parseBlock sha b.enc = some p ∧
      80 + ((cs b.txs.length).length : Int) + (p.transactions.map Transaction.size).sum = b.enc.length := by
  refine ⟨_, parseBlock_eq sha hw hb, ?_⟩
  have hs : ∀ ts st, ((parsedAll sha ts st).map Transaction.size).sum = (((ts.map Tx.enc).flatten.length : Nat) : Int) := by
    intro ts
    induction ts with
    | nil => intro st; rfl
    | cons t ts ih =>
      intro st
      rw [parsedAll, List.map_cons, List.sum_cons, ih, List.map_cons, List.flatten_cons, List.length_append]
      unfold Tx.parsed
      push_cast
      rfl
  dsimp only
  rw [hs]
  unfold Blk.enc
  simp only [List.length_append, header_length hw]
  push_cast
  rfl

/-- C41: counts of any size are read back. -/
theorem count_recovered {n : Nat} (hn : n < 2 ^ 64) (pre post : Bytes) :
    readCompactSize (pre ++ cs n ++ post) pre.length = some (n, (cs n).length) :=
  readCompactSize_cs hn ⟨post, by rw [List.append_assoc, List.drop_left]⟩ _ rfl

/-- C42: the id is the double hash of the witness-free serialization. -/
theorem txid_stripped (sha : Bytes → Bytes) {b : Blk} (hw : b.WF) (hb : b.enc.length < 2 ^ 31) :
    ∃ p, parseBlock sha b.enc = some p ∧ p.transactions.map Transaction.txId = b.txs.map fun t => sha (sha t.stripped) := by
  refine ⟨_, parseBlock_eq sha hw hb, ?_⟩
  have hs : ∀ ts st, (parsedAll sha ts st).map Transaction.txId = ts.map fun t => sha (sha t.stripped) := by
    intro ts
    induction ts with
    | nil => intro st; rfl
    | cons t ts ih =>
      intro st
      rw [parsedAll, List.map_cons, List.map_cons, ih]
      rfl
  exact hs _ _

/-- Two serializations of one transaction, apart from the witnesses. -/
def SameTx (t u : Tx) : Prop :=
  t.version = u.version ∧ t.outs = u.outs ∧ t.locktime = u.locktime ∧
    t.ins.map (fun i => (i.txid, i.vout, i.script, i.seq)) = u.ins.map fun i => (i.txid, i.vout, i.script, i.seq)

/-- C42: with different witnesses, or none, anywhere in any inputs, the id is the same. -/
theorem txid_ignores_witness (sha : Bytes → Bytes) {t u : Tx} (ht : t.WF) (hu : u.WF) (h : SameTx t u)
    (pre post pre' post' : Bytes) (hb : (pre ++ t.enc ++ post).length < 2 ^ 31)
    (hb' : (pre' ++ u.enc ++ post').length < 2 ^ 31) (st st' : Storage) (hst : st.scripts.length ≤ pre.length)
    (hst' : st'.scripts.length ≤ pre'.length) :
    ∃ q r, parseTransaction sha (pre ++ t.enc ++ post) pre.length st = some q ∧
      parseTransaction sha (pre' ++ u.enc ++ post') pre'.length st' = some r ∧ q.1.txId = r.1.txId := by
  have hA : At (pre ++ t.enc ++ post) pre.length t.enc := ⟨post, by rw [List.append_assoc, List.drop_left]⟩
  have hB : At (pre' ++ u.enc ++ post') pre'.length u.enc := ⟨post', by rw [List.append_assoc, List.drop_left]⟩
  refine ⟨_, _, parseTransaction_ok sha hb ht hA st hst, parseTransaction_ok sha hb' hu hB st' hst', ?_⟩
  obtain ⟨h1, h2, h3, h4⟩ := h
  have he : t.ins.map In.enc = u.ins.map In.enc := by
    have hf : ∀ l : List In, l.map In.enc =
        (l.map fun i => (i.txid, i.vout, i.script, i.seq)).map fun x => x.1 ++ leEnc 4 x.2.1 ++ varBytes x.2.2.1 ++ x.2.2.2 := by
      intro l
      rw [List.map_map]
      rfl
    rw [hf, hf, h4]
  have hl : t.ins.length = u.ins.length := by
    have := congrArg List.length h4
    rwa [List.length_map, List.length_map] at this
  have : t.stripped = u.stripped := by
    unfold Tx.stripped Tx.body
    rw [h1, h2, h3, he, hl]
  unfold Tx.parsed
  dsimp only
  rw [this]

/-- C43: sizes and weights of transactions. -/
theorem transaction_sizes (sha : Bytes → Bytes) {b : Blk} (hw : b.WF) (hb : b.enc.length < 2 ^ 31) :
    ∃ p, parseBlock sha b.enc = some p ∧ ∀ (k : Nat) t, b.txs[k]? = some t → ∃ q, p.transactions[k]? = some q ∧
      q.size = t.enc.length ∧ q.strippedSize = t.stripped.length ∧ q.weight = 3 * q.strippedSize + q.size ∧
      4 * q.vSize - 3 ≤ q.weight ∧ q.weight ≤ 4 * q.vSize := by
  refine ⟨_, parseBlock_eq sha hw hb, ?_⟩
  intro k t hk
  obtain ⟨st', h1, h2⟩ := parsedAll_at sha b.txs ⟨[], [], []⟩ hk
  refine ⟨_, h1, rfl, rfl, ?_, ?_, ?_⟩ <;> unfold Tx.parsed <;> dsimp only <;> push_cast <;> omega

/-- C43: size, stripped size and weight of a block. -/
theorem block_sizes (sha : Bytes → Bytes) {b : Blk} (hw : b.WF) (hb : b.enc.length < 2 ^ 31) :
    ∃ p, parseBlock sha b.enc = some p ∧ p.size = b.enc.length ∧
      p.strippedSize = (b.header ++ cs b.txs.length ++ (b.txs.map Tx.stripped).flatten).length ∧
      p.weight = 3 * p.strippedSize + p.size := by
  refine ⟨_, parseBlock_eq sha hw hb, rfl, ?_, ?_⟩
  · dsimp only
    simp only [List.length_append, header_length hw, List.length_flatten, List.map_map]
    push_cast
    rfl
  · dsimp only
    unfold Blk.enc
    simp only [List.length_append, header_length hw]
    have : ∀ ts : List Tx, (ts.map fun t => 3 * t.stripped.length + t.enc.length).sum =
        3 * (ts.map fun t => t.stripped.length).sum + (ts.map Tx.enc).flatten.length := by
      intro ts
      induction ts with
      | nil => rfl
      | cons t ts ih =>
        simp only [List.map_cons, List.sum_cons, List.flatten_cons, List.length_append] at ih ⊢
        omega
    rw [this]
    push_cast
    omega

/-! ## Non-vacuity -/

/-- A legacy and a segwit transaction with a 300-byte witness item. -/
def exBlk : Blk :=
  { version := 2, prev := List.replicate 32 7, merkle := List.replicate 32 9, time := 1231006505, bits := 0x1d00ffff
    nonce := 2083236893
    txs := [⟨1, false, [⟨List.replicate 32 0, 0xffffffff, [1, 2, 3], [255, 255, 255, 255], []⟩], [⟨5000000000, [81]⟩], [0, 0, 0, 0]⟩,
      ⟨2, true, [⟨List.replicate 32 5, 1, [], [0, 0, 0, 0], [List.replicate 300 1, [2]]⟩], [⟨1, []⟩, ⟨2, [82, 83]⟩], [1, 0, 0, 0]⟩] }

theorem exBlk_wf : exBlk.WF := by
  refine ⟨by decide, by decide, by decide, by decide, by decide, by decide, ?_⟩
  intro t ht
  simp only [exBlk, List.mem_cons, List.not_mem_nil, or_false] at ht
  rcases ht with rfl | rfl
  · exact ⟨by decide, List.cons_ne_nil _ _, by intro i hi; rw [List.mem_singleton] at hi; subst hi; exact ⟨rfl, by decide, rfl⟩,
      by intro o ho; simp at ho; subst ho; decide, rfl⟩
  · exact ⟨by decide, List.cons_ne_nil _ _, by intro i hi; rw [List.mem_singleton] at hi; subst hi; exact ⟨rfl, by decide, rfl⟩,
      by intro o ho; simp at ho; rcases ho with rfl | rfl <;> decide, rfl⟩

example : exBlk.WF ∧ exBlk.enc.length < 2 ^ 31 ∧ exBlk.enc.length = 524 := ⟨exBlk_wf, by decide +kernel, by decide +kernel⟩

example : ((parseBlock id exBlk.enc).map fun p => (p.transactions.map Transaction.vSize, p.weight)) = some ([64, 148], 1172) := by
  decide +kernel

end Verif.BinBlock
