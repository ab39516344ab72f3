import Verif.Lemmas.ChainStoreRead

/-!
# C34–C37, C39, C40, C56: what a stored chain gives back

A chain of blocks is stored in two passes: the hashes are gathered and indexed, then the blocks are appended. The
theorems say what the read interface answers afterwards, in terms of the chain of blocks alone.
-/

namespace Verif.ChainStore

/-! ## Specification -/

/-- All the transactions, in order; the height of a transaction is its position here. -/
def allTxs (bs : List Blk) : List Tx := bs.flatMap (·.txs)

/-- The number of transactions before block `k`. -/
def firstAt (bs : List Blk) (k : Nat) : Nat := ((bs.take k).map fun b => b.txs.length).sum

/-- All the outputs, in order. -/
def outputs (bs : List Blk) : List Txo := (allTxs bs).flatMap (·.txos)

/-- The number of outputs of the transactions before transaction `g`. -/
def outputsBefore (bs : List Blk) (g : Nat) : Nat := (((allTxs bs).take g).map fun t => t.txos.length).sum

/-- The inputs of the `t`-th transaction of a block, coinbase inputs excluded. A source read by the first interface
gives coinbase transactions without inputs; one read by the handles interface gives them with one. -/
def spends (i : Iface) (t : Nat) (tx : Tx) : List Txi :=
  match i, t with
  | .chi, 0 => []
  | _, _ => tx.txis

/-- The inputs of each transaction, in order. -/
def inputRows (i : Iface) (bs : List Blk) : List (List Txi) := bs.flatMap fun b => b.txs.zipIdx.map fun x => spends i x.2 x.1

/-- All the inputs, in order. -/
def inputs (i : Iface) (bs : List Blk) : List Txi := (inputRows i bs).flatten

/-- The number of inputs of the transactions before transaction `g`. -/
def inputsBefore (i : Iface) (bs : List Blk) (g : Nat) : Nat := (((inputRows i bs).take g).map List.length).sum

/-- An input of a transaction of block `k` refers to the transaction at height `n`: by height, by block height and
position (a block not after its own), or else by hash (the first transaction with that hash). -/
def Refers (i : Iface) (bs : List Blk) (k : Nat) (x : Txi) (n : Nat) : Prop :=
  match i, x.ref with
  | .cri, some (.height h) => h = n
  | .cri, some (.path c m) => 0 ≤ c ∧ c ≤ k ∧ (firstAt bs c.toNat : Int) + m = n
  | _, _ => ((allTxs bs)[n]?).map (·.hash) = some x.txid ∧ ∀ j, j < n → ((allTxs bs)[j]?).map (·.hash) ≠ some x.txid

instance (i : Iface) (bs : List Blk) (k : Nat) (x : Txi) (n : Nat) : Decidable (Refers i bs k x n) := by
  unfold Refers; split <;> infer_instance

/-- A height that is given is the position. -/
def Agrees (h : Option Int) (n : Nat) : Prop := h = none ∨ h = some (n : Int)

instance (h : Option Int) (n : Nat) : Decidable (Agrees h n) := by unfold Agrees; infer_instance

/-- The height of a block: need not be given by a source read by the first interface. -/
def HeightGiven (i : Iface) (b : Blk) (k : Nat) : Prop := b.height = some (k : Int) ∨ (i = .cri ∧ b.height = none)

instance (i : Iface) (b : Blk) (k : Nat) : Decidable (HeightGiven i b k) := by unfold HeightGiven; infer_instance

/-- The chains considered: every block has a transaction; block hashes differ (and transaction hashes, unless their
indexing is delegated); heights that the source gives are right; amounts, positions and counts fit the storage; the
requested non-essential ints are there; every input refers to a transaction of the chain. -/
structure Good (i : Iface) (d : Bool) (bn tn : List (String × Nat)) (bs : List Blk) : Prop where
  nonempty : ∀ b ∈ bs, b.txs ≠ []
  blkHashes : (bs.map (·.hash)).Nodup
  trnHashes : d = false → ((allTxs bs).map (·.hash)).Nodup
  blkHeight : ∀ x ∈ bs.zipIdx, HeightGiven i x.1 x.2
  trnHeight : i = .cri → ∀ x ∈ bs.zipIdx, ∀ y ∈ x.1.txs.zipIdx,
    Agrees y.1.height (firstAt bs x.2 + y.2) ∧ (y.1.height = none → d = true → y.1.nth = some (y.2 : Int))
  txiHeight : i = .cri → ∀ x ∈ (inputs i bs).zipIdx, Agrees x.1.height x.2
  txoHeight : i = .cri → ∀ x ∈ (outputs bs).zipIdx, Agrees x.1.height x.2
  sats : ∀ x ∈ outputs bs, 0 ≤ x.sats ∧ x.sats < 256 ^ 7
  vout : ∀ x ∈ inputs i bs, 0 ≤ x.vout ∧ x.vout < 256 ^ 4
  trnCount : (allTxs bs).length ≤ 256 ^ 4
  txiCount : (inputs i bs).length < 256 ^ 5
  txoCount : (outputs bs).length < 256 ^ 5
  blkFields : ∀ b ∈ bs, ∀ f ∈ bn, lookup b.fields f.1 ≠ none
  trnFields : ∀ t ∈ allTxs bs, ∀ f ∈ tn, lookup t.fields f.1 ≠ none
  refs : ∀ x ∈ bs.zipIdx, ∀ y ∈ x.1.txs.zipIdx, ∀ z ∈ spends i y.2 y.1, ∃ n, n < (allTxs bs).length ∧ Refers i bs x.2 z n

/-- Storing a chain in a process where the package variables are `p` and `q`: -1, unless a chain was stored before.
Phase one gathers the hashes, phase two indexes them, phase three appends the blocks. -/
def store (p q : Int) (i : Iface) (d : Bool) (bn tn : List (String × Nat)) (bs : List Blk) : Except Fail St := do
  let h ← gatherHashes bs ⟨[], [], []⟩
  ingest i 0 (-1) bs (create p q d h bn tn)

/-! ## From the specification to the lemmas -/

theorem spends_eq (i : Iface) (t : Nat) (tx : Tx) : spends i t tx = storedTxis i t tx := by
  unfold spends storedTxis
  cases i <;> cases t <;> simp

theorem inputRows_eq (i : Iface) (bs : List Blk) : inputRows i bs = (allKept i bs).map (·.txis) := by
  unfold inputRows allKept
  rw [List.map_flatMap]
  congr 1
  funext b
  rw [kept_eq, List.map_map]
  apply List.map_congr_left
  intro x _
  exact spends_eq i x.2 x.1

theorem inputs_eq (i : Iface) (bs : List Blk) : inputs i bs = txisOf (allKept i bs) := by
  unfold inputs txisOf
  rw [inputRows_eq, List.flatMap_def]

theorem inputsBefore_eq (i : Iface) (bs : List Blk) (g : Nat) : inputsBefore i bs g = (((allKept i bs).take g).map (·.txis.length)).sum := by
  unfold inputsBefore
  rw [inputRows_eq, ← List.map_take, List.map_map]
  rfl

theorem allKept_txos (i : Iface) (bs : List Blk) : (allKept i bs).map (·.txos) = (allTxs bs).map (·.txos) := by
  unfold allKept allTxs
  rw [List.map_flatMap, List.map_flatMap]
  congr 1
  funext b
  exact kept_txos i b.txs 0

theorem outputs_eq (i : Iface) (bs : List Blk) : outputs bs = txosOf (allKept i bs) := (txosOf_allKept i bs).symm

theorem outputsBefore_eq (i : Iface) (bs : List Blk) (g : Nat) : outputsBefore bs g = (((allKept i bs).take g).map (·.txos.length)).sum := by
  unfold outputsBefore
  have e : ∀ l : List Tx, (l.take g).map (fun t => t.txos.length) = ((l.map (·.txos)).take g).map List.length := by
    intro l; rw [← List.map_take, List.map_map]; rfl
  rw [e, e, allKept_txos]

theorem firstAt_eq (bs : List Blk) (k : Nat) : firstAt bs k = (sizes (bs.take k)).sum := rfl

theorem allTxs_length (i : Iface) (bs : List Blk) : (allTxs bs).length = (allKept i bs).length := by
  have := congrArg List.length (allKept_txos i bs)
  simpa using this.symm

theorem zipIdx_mem {α : Type} {l : List α} {k : Nat} {x : α} (h : l[k]? = some x) : (x, k) ∈ l.zipIdx := by
  rw [List.mem_zipIdx_iff_getElem?]; exact h

theorem agrees_differs {h : Option Int} {n : Nat} (ha : Agrees h n) : differs h n = false := by
  rcases ha with h | h <;> subst h <;> simp [differs]

theorem nodup_indexOf {l : List Bytes} (hn : l.Nodup) {k : Nat} {h : Bytes} (hk : l[k]? = some h) : indexOf l h = k := by
  apply indexOf_first hk
  intro j hj he
  have h1 := lt_of_getElem? hk
  have h2 := lt_of_getElem? he
  rw [List.getElem?_eq_getElem h1] at hk
  rw [List.getElem?_eq_getElem h2] at he
  exact List.pairwise_iff_getElem.mp hn j k h2 h1 hj (by rw [Option.some.inj hk, Option.some.inj he])

/-- The hash lists after phase one. -/
def hashesOf (bs : List Blk) : Hashes := ⟨bs.map (·.hash), (allTxs bs).map (·.hash), (outputs bs).map (·.addr)⟩

/-- The transaction an input refers to, in the whole chain. -/
def srcOf (i : Iface) (bs : List Blk) (x : Txi) : Nat :=
  match srcIn i (offsets (sizes bs)) ((allTxs bs).map (·.hash)) x with
  | .ok v => v.toNat
  | .error _ => 0

theorem take_sizes (bs : List Blk) (c k : Nat) (h : c ≤ k) : (sizes ((bs.take (k + 1)).take c)).sum = (sizes (bs.take c)).sum := by
  rw [List.take_take, Nat.min_eq_left (by omega)]

theorem refers_src {i : Iface} {bs : List Blk} {k n m : Nat} {x : Txi} (hk : k < bs.length) (hkm : k < m) (hr : Refers i bs k x n)
    (hb : (sizes bs).sum < 2 ^ 63) :
    srcIn i (offsets (sizes (bs.take m))) ((allTxs bs).map (·.hash)) x = .ok (n : Int) := by
  have hhash : (((allTxs bs)[n]?).map (·.hash) = some x.txid ∧ ∀ j, j < n → ((allTxs bs)[j]?).map (·.hash) ≠ some x.txid) →
      indexOf ((allTxs bs).map (·.hash)) x.txid = n := by
    rintro ⟨h1, h2⟩
    apply indexOf_first
    · rw [List.getElem?_map]; exact h1
    · intro j hj; rw [List.getElem?_map]; exact h2 j hj
  unfold Refers at hr
  unfold srcIn
  cases i with
  | chi => dsimp only at hr ⊢; rw [hhash hr]
  | cri =>
    cases he : x.ref with
    | none => rw [he] at hr; dsimp only at hr ⊢; rw [hhash hr]
    | some r =>
      rw [he] at hr
      cases r with
      | height h => dsimp only at hr ⊢; rw [hr]
      | path c q =>
        dsimp only at hr ⊢
        obtain ⟨h0, h1, h2⟩ := hr
        have hlen : c.toNat < (sizes (bs.take m)).length := by rw [sizes_length, List.length_take]; omega
        have hle : (sizes (bs.take m)).sum ≤ (sizes bs).sum := by
          have := sum_take_le (sizes bs) m
          simpa [sizes, List.map_take] using this
        have hg := get_offsets (sizes (bs.take m)) c.toNat hlen (by omega)
        rw [show ((c.toNat : Nat) : Int) = c by omega] at hg
        rw [hg, bind_ok]
        congr 1
        rw [← h2, firstAt_eq]
        have : ((sizes (bs.take m)).take c.toNat).sum = (sizes (bs.take c.toNat)).sum := by
          simp only [sizes, ← List.map_take, List.take_take]
          rw [Nat.min_eq_left (by omega)]
        rw [this]

theorem refers_srcOf {i : Iface} {bs : List Blk} {k n : Nat} {x : Txi} (hk : k < bs.length) (hr : Refers i bs k x n)
    (hb : (sizes bs).sum < 2 ^ 63) : srcOf i bs x = n := by
  have := refers_src (m := bs.length) hk hk hr hb
  rw [List.take_length] at this
  unfold srcOf
  rw [this]
  simp

theorem good_sizes {i : Iface} {d : Bool} {bn tn : List (String × Nat)} {bs : List Blk} (hg : Good i d bn tn bs) :
    (sizes bs).sum ≤ 256 ^ 4 := by
  have h1 := hg.trnCount
  rw [allTxs_length i, allKept_length] at h1
  exact h1

theorem mem_kept {i : Iface} {txs : List Tx} {tx : Tx} (h : tx ∈ kept i 0 txs) :
    ∃ (t : Nat) (tx0 : Tx), txs[t]? = some tx0 ∧ tx = { tx0 with txis := storedTxis i t tx0 } := by
  rw [kept_eq, List.mem_map] at h
  obtain ⟨⟨tx0, t⟩, h1, h2⟩ := h
  rw [List.mem_zipIdx_iff_getElem?] at h1
  exact ⟨t, tx0, h1, h2.symm⟩

theorem good_ready {i : Iface} {d : Bool} {bn tn : List (String × Nat)} {bs : List Blk} (hg : Good i d bn tn bs) :
    Ready i d (hashesOf bs) bn tn (srcOf i bs) bs := by
  have hsz := good_sizes hg
  refine ⟨?_, ?_, ?_, ?_, ?_, ?_, ?_⟩
  · show TxReady i (hashesOf bs) tn (allKept i bs)
    constructor
    · rw [← allTxs_length]; exact hg.trnCount
    · rw [← inputs_eq]; exact hg.txiCount
    · rw [← outputs_eq]; exact hg.txoCount
    · have := hg.txoCount
      simp only [hashesOf, List.length_map]
      omega
    · rw [← outputs_eq]; exact hg.sats
    · rw [← inputs_eq]; exact hg.vout
    · rw [← inputs_eq]
      intro hi k x hx
      exact agrees_differs (hg.txiHeight hi (x, k) (zipIdx_mem hx))
    · rw [← outputs_eq]
      intro hi k x hx
      exact agrees_differs (hg.txoHeight hi (x, k) (zipIdx_mem hx))
    · rw [← outputs_eq]; exact inOrder_self _
    · rw [← outputs_eq]
      intro x hx
      exact List.mem_map.mpr ⟨x, hx, rfl⟩
    · rw [← outputs_eq]
      intro x hx
      have : indexOf (hashesOf bs).adr x.addr = (0 : Nat) := by
        apply indexOf_first
        · simp [hashesOf, List.getElem?_map, hx]
        · intro j hj; omega
      rw [this]
      decide
    · intro t ht f hf
      unfold allKept at ht
      obtain ⟨b, hb, htb⟩ := List.mem_flatMap.mp ht
      obtain ⟨n, tx0, h1, rfl⟩ := mem_kept htb
      exact hg.trnFields tx0 (List.mem_flatMap.mpr ⟨b, hb, List.mem_of_getElem? h1⟩) f hf
  · exact hg.nonempty
  · intro k b hb
    exact nodup_indexOf hg.blkHashes (by rw [List.getElem?_map, hb]; rfl)
  · intro k b hb
    have := hg.blkHeight (b, k) (zipIdx_mem hb)
    unfold HeightReady
    cases i with
    | cri => exact agrees_differs (this.symm.imp (·.2) id)
    | chi => exact this.resolve_right (by simp)
  · intro k t b tx hb ht
    constructor
    · intro hd
      exact nodup_indexOf (hg.trnHashes hd) (by rw [List.getElem?_map]; unfold allTxs; rw [allTxs_at bs k t b tx hb ht]; rfl)
    · intro hi
      exact agrees_differs (hg.trnHeight hi (b, k) (zipIdx_mem hb) (tx, t) (zipIdx_mem ht)).1
    · intro hi hd hh
      exact (hg.trnHeight hi (b, k) (zipIdx_mem hb) (tx, t) (zipIdx_mem ht)).2 hh hd
  · exact hg.blkFields
  · intro k b hb tx htx x hx
    obtain ⟨t, tx0, h1, rfl⟩ := mem_kept htx
    obtain ⟨n, hn, hr⟩ := hg.refs (b, k) (zipIdx_mem hb) (tx0, t) (zipIdx_mem h1) x (by rw [spends_eq]; exact hx)
    rw [refers_srcOf (lt_of_getElem? hb) hr (by omega)]
    refine ⟨refers_src (lt_of_getElem? hb) (by omega) hr (by omega), ?_⟩
    have := hg.trnCount
    omega

theorem store_eq (p q : Int) (i : Iface) (d : Bool) (bn tn : List (String × Nat)) (bs : List Blk) (hne : ∀ b ∈ bs, b.txs ≠ []) :
    store p q i d bn tn bs = ingest i 0 (-1) bs (create p q d (hashesOf bs) bn tn) := by
  unfold store
  rw [gatherHashes_ok bs _ hne, bind_ok]
  simp [hashesOf, outputs, allTxs]

theorem store_ok {p q : Int} (hp : p ≤ 0) (hq : q ≤ 0) {i : Iface} {d : Bool} {bn tn : List (String × Nat)} {bs : List Blk}
    (hg : Good i d bn tn bs) : ∃ s, store p q i d bn tn bs = .ok s ∧
      Closed d (hashesOf bs) bn tn (srcOf i bs) s bs bs (allKept i bs) ∧ Reads (hashesOf bs) bn tn (srcOf i bs) s bs (allKept i bs) := by
  have hR := good_ready hg
  obtain ⟨s, e, hC⟩ := ingest_ok hR bs [] _ (-1) (by simp) (by simp [allKept])
    (create_closed hp hq d (hashesOf bs) bn tn (srcOf i bs))
  refine ⟨s, ?_, hC, ?_⟩
  · rw [store_eq p q i d bn tn bs hg.nonempty]; exact e
  · exact reads hC hR.tx (by simp [hashesOf]) (by simp [hashesOf, allTxs_length i]) hg.nonempty

/-! ## A chain to try the theorems on -/

/-- Three blocks; the first interface, inputs given by hash, by block and position, and by height; one address paid
three times, one transaction without outputs, one with two inputs. -/
def demo : List Blk :=
  [⟨[1], some 0, [("time", 7)], [⟨[11], none, some 0, [("size", 100)], [], [⟨50, [91], none⟩, ⟨20, [92], none⟩]⟩]⟩,
   ⟨[2], none, [("time", 8)],
    [⟨[12], none, some 0, [("size", 101)], [], [⟨60, [91], none⟩]⟩,
     ⟨[13], some 2, none, [("size", 102)], [⟨[11], 1, none, none⟩, ⟨[], 0, some (.path 1 0), some 1⟩], [⟨70, [93], none⟩, ⟨9, [91], some 4⟩]⟩]⟩,
   ⟨[3], none, [("time", 9)], [⟨[14], none, some 0, [("size", -1)], [⟨[], 1, some (.height 2), none⟩], []⟩]⟩]

/-- The same chain by the handles interface: coinbase transactions have an input, references are by hash. -/
def demoChi : List Blk :=
  [⟨[1], some 0, [("time", 7)], [⟨[11], none, none, [("size", 100)], [⟨[0], 7, none, none⟩], [⟨50, [91], none⟩, ⟨20, [92], none⟩]⟩]⟩,
   ⟨[2], some 1, [("time", 8)],
    [⟨[12], none, none, [("size", 101)], [⟨[0], 7, none, none⟩], [⟨60, [91], none⟩]⟩,
     ⟨[13], none, none, [("size", 102)], [⟨[11], 1, none, none⟩, ⟨[12], 0, none, none⟩], [⟨70, [93], none⟩, ⟨9, [91], none⟩]⟩]⟩]

theorem demo_good (d : Bool) : Good .cri d [("time", 4)] [("size", 4)] demo := by
  cases d <;> exact ⟨by decide, by decide, by decide, by decide, by decide, by decide, by decide, by decide, by decide, by decide,
    by decide +kernel, by decide +kernel, by decide +kernel, by decide +kernel, by decide +kernel⟩

theorem demoChi_good (d : Bool) : Good .chi d [("time", 4)] [("size", 4)] demoChi := by
  cases d <;> exact ⟨by decide, by decide, by decide, by decide, by decide, by decide, by decide, by decide, by decide, by decide,
    by decide +kernel, by decide +kernel, by decide +kernel, by decide +kernel, by decide +kernel⟩

/-! ## C34 -/

/-- **C34.** Storing succeeds; each block has its transactions, in order, at consecutive heights, and each transaction
knows its block; the heights of the blocks' transactions are all the heights, each once; hashes are found. -/
theorem blocks_partition_transactions {p q : Int} (hp : p ≤ 0) (hq : q ≤ 0) {i : Iface} {d : Bool}
    {bn tn : List (String × Nat)} {bs : List Blk} (hg : Good i d bn tn bs) :
    ∃ s, store p q i d bn tn bs = .ok s ∧
      (∀ (k : Nat) b, bs[k]? = some b →
        transactionCount s k = .ok (b.txs.length : Int) ∧
        s.blkHashes[k]? = some b.hash ∧ indexOf s.blkHashes b.hash = k ∧
        ∀ (n : Nat) tx, b.txs[n]? = some tx →
          nthTransaction s k n = .ok ((firstAt bs k + n : Nat) : Int) ∧
          s.trnHashes[firstAt bs k + n]? = some tx.hash ∧
          parentBlockOf s ((firstAt bs k + n : Nat) : Int) = .ok (k : Int)) ∧
      (∀ (g : Nat), g < s.trnHashes.length →
        ∃ k b n tx, bs[k]? = some b ∧ b.txs[n]? = some tx ∧ g = firstAt bs k + n ∧
          ∀ k' b' n', bs[k']? = some b' → n' < b'.txs.length → g = firstAt bs k' + n' → k' = k ∧ n' = n) ∧
      (∀ (g : Nat), s.trnHashes.length ≤ g → parentBlockOf s g = .error .err) ∧
      s.blkHashes.length = bs.length := by
  obtain ⟨s, e, hC, hR⟩ := store_ok hp hq hg
  have hpar : ∀ (k : Nat) b, bs[k]? = some b → ∀ n, n < b.txs.length → parentBlockOf s ((firstAt bs k + n : Nat) : Int) = .ok (k : Int) :=
    fun k b hb n hn => hR.parentBlk k n b hb hn
  refine ⟨s, e, ?_, ?_, ?_, ?_⟩
  · intro k b hb
    refine ⟨hR.txCount k b hb, ?_, ?_, ?_⟩
    · rw [hC.blkH]; simp [hashesOf, List.getElem?_map, hb]
    · rw [hC.blkH]; exact nodup_indexOf hg.blkHashes (by rw [List.getElem?_map, hb]; rfl)
    · intro n tx hn
      refine ⟨hR.nthTx k n b hb, ?_, hpar k b hb n (lt_of_getElem? hn)⟩
      rw [hC.trnH]
      simp only [hashesOf, List.getElem?_map]
      unfold allTxs
      rw [firstAt_eq, allTxs_at bs k n b tx hb hn]
      rfl
  · intro g hgl
    rw [hC.trnH] at hgl
    have hgl : g < (bs.flatMap (·.txs)).length := by simpa [hashesOf, allTxs] using hgl
    have hex : ∀ (l : List Blk) (g : Nat), g < (l.flatMap (·.txs)).length →
        ∃ (k : Nat) (b : Blk) (n : Nat) (tx : Tx), l[k]? = some b ∧ b.txs[n]? = some tx ∧ g = firstAt l k + n := by
      intro l
      induction l with
      | nil => intro g hg; simp at hg
      | cons b l ih =>
        intro g hg
        by_cases h : g < b.txs.length
        · exact ⟨0, b, g, b.txs[g], by simp, List.getElem?_eq_getElem h, by simp [firstAt]⟩
        · rw [List.flatMap_cons, List.length_append] at hg
          obtain ⟨k, b', n, tx, h1, h2, h3⟩ := ih (g - b.txs.length) (by omega)
          refine ⟨k + 1, b', n, tx, by simpa using h1, h2, ?_⟩
          simp only [firstAt, List.take_succ_cons, List.map_cons, List.sum_cons] at h3 ⊢
          omega
    obtain ⟨k, b, n, tx, h1, h2, h3⟩ := hex bs g hgl
    refine ⟨k, b, n, tx, h1, h2, h3, ?_⟩
    intro k' b' n' h1' h2' h3'
    have a1 := hpar k b h1 n (lt_of_getElem? h2)
    have a2 := hpar k' b' h1' n' h2'
    rw [← h3] at a1
    rw [← h3', a1] at a2
    have : (k : Int) = k' := Except.ok.inj a2
    have : k' = k := by omega
    subst this
    exact ⟨rfl, by omega⟩
  · intro g hgl
    rw [hC.trnH] at hgl
    unfold parentBlockOf
    apply get_none _ _ g rfl
    rw [hC.parentBlk, owners_length]
    have := allKept_length i bs
    rw [← allTxs_length] at this
    simp [hashesOf] at hgl
    omega
  · rw [hC.blkH]; simp [hashesOf]

example : Good .cri true [("time", 4)] [("size", 4)] demo := demo_good true
example : (store (-1) (-1) .cri true [("time", 4)] [("size", 4)] demo >>= fun s => transactionCount s 1) = .ok 2 := by decide +kernel
example : (store (-1) (-1) .chi true [("time", 4)] [("size", 4)] demoChi >>= fun s => parentBlockOf s 2) = .ok 1 := by decide +kernel

/-! ## C35 -/

/-- **C35.** Every transaction has its outputs, in order, with their amounts, and its inputs (coinbase inputs
excluded), in order, with the output they spend; inputs and outputs know their transaction. -/
theorem transactions_keep_inputs_outputs {p q : Int} (hp : p ≤ 0) (hq : q ≤ 0) {i : Iface} {d : Bool}
    {bn tn : List (String × Nat)} {bs : List Blk} (hg : Good i d bn tn bs) :
    ∃ s, store p q i d bn tn bs = .ok s ∧
      ∀ (k t : Nat) b tx, bs[k]? = some b → b.txs[t]? = some tx →
        txoCount s ((firstAt bs k + t : Nat) : Int) = .ok (tx.txos.length : Int) ∧
        allTxoSatoshis s ((firstAt bs k + t : Nat) : Int) = .ok (tx.txos.map (·.sats)) ∧
        (∀ (n : Nat) o, tx.txos[n]? = some o → ∃ h : Nat,
          h = outputsBefore bs (firstAt bs k + t) + n ∧ (outputs bs)[h]? = some o ∧
          nthTxo s ((firstAt bs k + t : Nat) : Int) n = .ok (h : Int) ∧
          satoshis s h = .ok o.sats ∧
          parentTransOfTxo s h = .ok ((firstAt bs k + t : Nat) : Int)) ∧
        txiCount s ((firstAt bs k + t : Nat) : Int) = .ok ((spends i t tx).length : Int) ∧
        (∀ (n : Nat) x, (spends i t tx)[n]? = some x → ∃ h : Nat,
          h = inputsBefore i bs (firstAt bs k + t) + n ∧ (inputs i bs)[h]? = some x ∧
          nthTxi s ((firstAt bs k + t : Nat) : Int) n = .ok (h : Int) ∧
          (∃ g : Nat, Refers i bs k x g ∧ sourceTxo s h = .ok (g, x.vout)) ∧
          parentTransOfTxi s h = .ok ((firstAt bs k + t : Nat) : Int)) := by
  obtain ⟨s, e, hC, hR⟩ := store_ok hp hq hg
  refine ⟨s, e, ?_⟩
  intro k t b tx hb ht
  have hk := allKept_at i bs k t b tx hb ht
  rw [← firstAt_eq] at hk
  have hcount := hR.txoCount _ _ hk
  have hall := hR.allSats _ _ hk
  refine ⟨hcount, hall, ?_, ?_, ?_⟩
  · intro n o ho
    refine ⟨_, rfl, ?_, ?_, ?_, ?_⟩
    · rw [outputsBefore_eq i, outputs_eq i]; exact txosOf_at _ _ n _ o hk ho
    · rw [outputsBefore_eq i]; exact hR.nthTxo _ n _ hk
    · apply hR.sats
      rw [outputsBefore_eq i]; exact txosOf_at _ _ n _ o hk ho
    · rw [outputsBefore_eq i]; exact hR.parentTxo _ n _ hk (lt_of_getElem? ho)
  · rw [spends_eq]; exact hR.txiCount _ _ hk
  · intro n x hx
    have hx' : (storedTxis i t tx)[n]? = some x := by rw [← spends_eq]; exact hx
    obtain ⟨g, hgl, hr⟩ := hg.refs (b, k) (zipIdx_mem hb) (tx, t) (zipIdx_mem ht) x (List.mem_of_getElem? hx)
    have hsz := good_sizes hg
    have hsrc := refers_srcOf (lt_of_getElem? hb) hr (by omega)
    have hcnt := hg.trnCount
    refine ⟨_, rfl, ?_, ?_, ⟨g, hr, ?_⟩, ?_⟩
    · rw [inputsBefore_eq i, inputs_eq i]; exact txisOf_at _ _ n _ x hk hx'
    · rw [inputsBefore_eq i]; exact hR.nthTxi _ n _ hk
    · rw [← hsrc]
      apply hR.source
      · rw [inputsBefore_eq i]; exact txisOf_at _ _ n _ x hk hx'
      · rw [hsrc]; omega
    · rw [inputsBefore_eq i]; exact hR.parentTxi _ n _ hk (lt_of_getElem? hx')

example : (store (-1) (-1) .cri true [("time", 4)] [("size", 4)] demo >>= fun s => txiCount s 3) = .ok 1 := by decide +kernel
example : (store (-1) (-1) .cri true [("time", 4)] [("size", 4)] demo >>= fun s => allTxoSatoshis s 2) = .ok [70, 9] := by decide +kernel
example : (store (-1) (-1) .chi false [("time", 4)] [("size", 4)] demoChi >>= fun s => txiCount s 1) = .ok 0 := by decide +kernel

/-! ## C36 -/

/-- **C36.** An input that refers to transaction `g` of the chain, whose output at that position is `o`, reads back as
that transaction and position; following it gives the height of `o`, its amount and its transaction. -/
theorem input_resolves_to_spent_output {p q : Int} (hp : p ≤ 0) (hq : q ≤ 0) {i : Iface} {d : Bool}
    {bn tn : List (String × Nat)} {bs : List Blk} (hg : Good i d bn tn bs) :
    ∃ s, store p q i d bn tn bs = .ok s ∧
      ∀ (k t n g : Nat) b tx x src o, bs[k]? = some b → b.txs[t]? = some tx → (spends i t tx)[n]? = some x →
        Refers i bs k x g → (allTxs bs)[g]? = some src → src.txos[x.vout.toNat]? = some o →
        ∃ (h : Int) (f : Nat), nthTxi s ((firstAt bs k + t : Nat) : Int) n = .ok h ∧
          sourceTxo s h = .ok (g, x.vout) ∧
          txoOf s (g, x.vout) = .ok (f : Int) ∧ f = outputsBefore bs g + x.vout.toNat ∧
          satoshis s f = .ok o.sats ∧ parentTransOfTxo s f = .ok (g : Int) := by
  obtain ⟨s, e, hC, hR⟩ := store_ok hp hq hg
  refine ⟨s, e, ?_⟩
  intro k t n g b tx x src o hb ht hx hr hsrc ho
  have hk := allKept_at i bs k t b tx hb ht
  rw [← firstAt_eq] at hk
  have hx' : (storedTxis i t tx)[n]? = some x := by rw [← spends_eq]; exact hx
  have hsz := good_sizes hg
  have hs := refers_srcOf (lt_of_getElem? hb) hr (by omega)
  have hcnt := hg.trnCount
  have hgl := lt_of_getElem? hsrc
  have hin := txisOf_at _ _ n _ x hk hx'
  have hv := hg.vout x (by rw [inputs_eq]; exact List.mem_of_getElem? hin)
  -- the source transaction among the stored ones
  have hrow : ((allKept i bs).map (·.txos))[g]? = some src.txos := by rw [allKept_txos, List.getElem?_map, hsrc]; rfl
  rw [List.getElem?_map] at hrow
  cases hk2 : (allKept i bs)[g]? with
  | none => rw [hk2] at hrow; simp at hrow
  | some kt =>
    rw [hk2] at hrow
    simp only [Option.map_some, Option.some.injEq] at hrow
    rw [← hrow] at ho
    refine ⟨_, _, hR.nthTxi _ n _ hk, ?_, ?_, rfl, ?_, ?_⟩
    · rw [← hs]; exact hR.source _ x hin (by rw [hs]; omega)
    · have := hR.nthTxo g x.vout.toNat kt hk2
      unfold nthTxo at this
      unfold txoOf
      rw [show ((x.vout.toNat : Nat) : Int) = x.vout by omega] at this
      rw [outputsBefore_eq i]
      exact this
    · rw [outputsBefore_eq i]; exact hR.sats _ o (txosOf_at _ g _ kt o hk2 ho)
    · rw [outputsBefore_eq i]; exact hR.parentTxo g _ kt hk2 (lt_of_getElem? ho)

/-- The second input of the third transaction of `demo` spends the output worth 60. -/
example : (store (-1) (-1) .cri true [("time", 4)] [("size", 4)] demo >>= fun s => nthTxi s 2 1 >>= sourceTxo s >>= txoOf s >>= satoshis s) =
    .ok 60 := by decide +kernel
example : Refers .cri demo 1 ⟨[], 0, some (.path 1 0), some 1⟩ 1 := by decide

/-! ## C37 -/

theorem mem_positions {outs : List Bytes} {a : Bytes} {h : Nat} : h ∈ positions outs a ↔ outs[h]? = some a := by
  unfold positions
  simp only [List.mem_map, List.mem_filter]
  constructor
  · rintro ⟨⟨x, n⟩, ⟨h1, h2⟩, rfl⟩
    rw [List.mem_zipIdx_iff_getElem?] at h1
    simp at h2
    rw [← h2]; exact h1
  · intro hh
    exact ⟨(a, h), ⟨zipIdx_mem hh, by simp⟩, rfl⟩

theorem positions_sorted (outs : List Bytes) (a : Bytes) : (positions outs a).Pairwise (· < ·) := by
  induction outs using List.reverseRecOn with
  | nil => simp [positions]
  | append_singleton l b ih =>
    rw [positions_snoc]
    split
    · rw [List.pairwise_append]
      refine ⟨ih, by simp, ?_⟩
      intro x hx y hy
      rw [mem_positions] at hx
      simp at hy
      have := lt_of_getElem? hx
      omega
    · exact ih

/-- **C37.** The address of an output is found, from the output or by its hash, and lists the heights of exactly the
outputs that pay it, in increasing order. An address that no output pays is not found. -/
theorem address_lists_its_outputs {p q : Int} (hp : p ≤ 0) (hq : q ≤ 0) {i : Iface} {d : Bool}
    {bn tn : List (String × Nat)} {bs : List Blk} (hg : Good i d bn tn bs) :
    ∃ s, store p q i d bn tn bs = .ok s ∧
      (∀ (h : Nat) o, (outputs bs)[h]? = some o → ∃ (a : Int) (l : List Nat),
        addressOf s h = .ok a ∧ addressByHash s o.addr = .ok a ∧
        s.adrHashes[a.toNat]? = some o.addr ∧
        addressTxos s a = .ok (l.map fun n : Nat => (n : Int)) ∧
        l.Pairwise (· < ·) ∧
        ∀ h' : Nat, h' ∈ l ↔ ∃ o', (outputs bs)[h']? = some o' ∧ o'.addr = o.addr) ∧
      ∀ a, (∀ o ∈ outputs bs, o.addr ≠ a) → addressByHash s a = .error .err := by
  obtain ⟨s, e, hC, hR⟩ := store_ok hp hq hg
  refine ⟨s, e, ?_, ?_⟩
  · intro h o ho
    have hmem : o.addr ∈ (hashesOf bs).adr := List.mem_map.mpr ⟨o, List.mem_of_getElem? ho, rfl⟩
    obtain ⟨n, e1, e2, _⟩ := indexOf_lt (indexOf_mem hmem)
    rw [outputs_eq i] at ho
    refine ⟨indexOf (hashesOf bs).adr o.addr, positions ((outputs bs).map (·.addr)) o.addr, hR.address h o ho, ?_, ?_, ?_, ?_, ?_⟩
    · unfold addressByHash
      rw [hC.adrH, if_neg (by omega)]
    · rw [hC.adrH, e1]; simpa using e2
    · rw [outputs_eq i]; exact hR.addr o (List.mem_of_getElem? ho)
    · exact positions_sorted _ _
    · intro h'
      rw [mem_positions, List.getElem?_map]
      cases (outputs bs)[h']? <;> simp
  · intro a ha
    unfold addressByHash
    rw [if_pos]
    rw [hC.adrH]
    by_contra hc
    obtain ⟨n, _, e2, _⟩ := indexOf_lt hc
    have := List.mem_of_getElem? e2
    obtain ⟨o, h1, h2⟩ := List.mem_map.mp this
    exact ha o h1 h2

example : (store (-1) (-1) .cri true [("time", 4)] [("size", 4)] demo >>= fun s => addressByHash s [91] >>= addressTxos s) = .ok [0, 2, 4] := by
  decide +kernel

/-- The address numbers are positions in the list of all outputs, and one that is not a first appearance (its output
`h` pays an address paid before) reads as an address that owns output 0, provided a later output pays a new address.
`AddressHandleByHeight` accepts such a number. -/
theorem repeated_address_number_owns_output_zero {p q : Int} (hp : p ≤ 0) (hq : q ≤ 0) {i : Iface} {d : Bool}
    {bn tn : List (String × Nat)} {bs : List Blk} (hg : Good i d bn tn bs) (h j m : Nat) (o o' : Txo)
    (h1 : (outputs bs)[h]? = some o) (h2 : (outputs bs)[j]? = some o') (h3 : j < h) (h4 : o.addr = o'.addr)
    (u : Txo) (h5 : (outputs bs)[m]? = some u) (h6 : h < m) (h7 : u.addr ∉ ((outputs bs).take m).map (·.addr)) :
    ∃ s, store p q i d bn tn bs = .ok s ∧ addressTxos s h = .ok [0] := by
  obtain ⟨s, e, hC, hR⟩ := store_ok hp hq hg
  refine ⟨s, e, ?_⟩
  have hA := hC.addr
  rw [← outputs_eq] at hA
  have hno : ∀ a ∈ (outputs bs).map (·.addr), indexOf (hashesOf bs).adr a ≠ h := by
    intro a ha hc
    obtain ⟨n, e1, e2, e3⟩ := indexOf_lt (l := (hashesOf bs).adr) (h := a) (by omega)
    have hn : n = h := by omega
    subst hn
    have : ((outputs bs).map (·.addr))[n]? = some o.addr := by rw [List.getElem?_map, h1]; rfl
    have hao : a = o.addr := Option.some.inj (e2.symm.trans this)
    apply e3 j h3
    rw [hao, h4]
    show ((outputs bs).map (·.addr))[j]? = some o'.addr
    rw [List.getElem?_map, h2]; rfl
  obtain ⟨g1, g2⟩ := hA.gap h hno
  have hu : indexOf (hashesOf bs).adr u.addr = m := by
    apply indexOf_first
    · show ((outputs bs).map (·.addr))[m]? = some u.addr
      rw [List.getElem?_map, h5]; rfl
    · intro k hk he
      apply h7
      rw [List.map_take]
      exact List.mem_iff_getElem?.mpr ⟨k, by rw [List.getElem?_take_of_lt hk]; exact he⟩
  have hlt := hA.lt u.addr (List.mem_map.mpr ⟨u, List.mem_of_getElem? h5, rfl⟩)
  unfold addressTxos
  rw [get_nat _ _ h 0 rfl (g2 (by omega)) (by omega), bind_ok, show (h : Int).toNat = h by simp, g1]
  rfl

/-- Output 2 of `demo` pays the address of output 0, and output 3 a new one. -/
example : (store (-1) (-1) .cri true [("time", 4)] [("size", 4)] demo >>= fun s => addressTxos s 2) = .ok [0] := by decide +kernel

/-! ## C39 -/

theorem good_txs_pos {i : Iface} {d : Bool} {bn tn : List (String × Nat)} {bs : List Blk} (hg : Good i d bn tn bs) (hne : bs ≠ []) :
    allKept i bs ≠ [] := by
  intro h
  have h1 := length_le_sizes hg.nonempty
  rw [← allKept_length i, h] at h1
  exact hne (List.length_eq_zero_iff.mp (by simpa using h1))

/-- **C39, the part that holds.** After a chain of one transaction another chain can be stored in the same process
(and all that is proved of stored chains holds of it). Missing: any first chain of more transactions, for which
`second_chain_panics` shows the opposite. -/
theorem second_chain_partial {i i' : Iface} {d d' : Bool} {bn tn bn' tn' : List (String × Nat)} {bs bs' : List Blk}
    (hg : Good i d bn tn bs) (hg' : Good i' d' bn' tn' bs') (h1 : (allTxs bs).length = 1) :
    ∃ s s', store (-1) (-1) i d bn tn bs = .ok s ∧ store s.prevFirstTxo s.prevTrans i' d' bn' tn' bs' = .ok s' := by
  obtain ⟨s, e, hC, _⟩ := store_ok (p := -1) (q := -1) (by omega) (by omega) hg
  rw [allTxs_length i] at h1
  obtain ⟨t, ht⟩ := List.length_eq_one_iff.mp h1
  obtain ⟨a1, a2⟩ := hC.prevLast (by rw [ht]; simp)
  rw [ht] at a1 a2
  simp only [List.dropLast_singleton, txosOf, List.flatMap_nil, List.length_nil, List.length_singleton] at a1 a2
  obtain ⟨s', e', _⟩ := store_ok (p := s.prevFirstTxo) (q := s.prevTrans) (by omega) (by omega) hg'
  exact ⟨s, s', e, e'⟩

/-- **C39 fails.** Once a chain of more than one transaction has been stored, storing any further chain in the same
process panics at its genesis block. -/
theorem second_chain_panics {i i' : Iface} {d d' : Bool} {bn tn bn' tn' : List (String × Nat)} {bs bs' : List Blk}
    (hg : Good i d bn tn bs) (hg' : Good i' d' bn' tn' bs') (h1 : 1 < (allTxs bs).length) (h2 : bs' ≠ []) :
    ∃ s, store (-1) (-1) i d bn tn bs = .ok s ∧ store s.prevFirstTxo s.prevTrans i' d' bn' tn' bs' = .error .panic := by
  obtain ⟨s, e, hC, _⟩ := store_ok (p := -1) (q := -1) (by omega) (by omega) hg
  refine ⟨s, e, ?_⟩
  have hq : 0 < s.prevTrans := by
    rw [allTxs_length i] at h1
    have := (hC.prevLast (by intro h; rw [h] at h1; simp at h1)).1
    omega
  generalize s.prevFirstTxo = p at *
  generalize s.prevTrans = q at *
  have hR := good_ready hg'
  obtain ⟨b, rest, rfl⟩ := List.exists_cons_of_ne_nil h2
  obtain ⟨tx, txs, htx⟩ := List.exists_cons_of_ne_nil (hg'.nonempty b (by simp))
  rw [store_eq p q i' d' bn' tn' _ hg'.nonempty]
  have hfr : FrameReady i' d' (hashesOf (b :: rest)) 0 0 tx := by
    have := hR.frame 0 0 b tx (by simp) (by rw [htx]; simp)
    simpa [sizes] using this
  -- appending the first block panics whenever its transactions are numbered as they should be
  have key : ∀ s : St, s.delegated = d' → s.blkHashes = (hashesOf (b :: rest)).blk → s.trnHashes = (hashesOf (b :: rest)).trn →
      s.blkNei = (bn'.map fun f => ⟨f.1, f.2, []⟩) → s.prevTrans = q → (d' = true → s.blkFirstTrans[0]? = some 0) →
      (d' = false → s.parentBlockOfTrans = []) → appendBlock i' s b = .error .panic := by
    intro s hd hb ht hn hp hf hpar
    have hix : indexOf s.blkHashes b.hash = (0 : Nat) := by rw [hb]; exact hR.blk 0 b (by simp)
    have hch : checkHeight i' b ((0 : Nat) : Int) = .ok () := by
      have := hR.blkHeight 0 b (by simp)
      unfold HeightReady at this
      unfold checkHeight
      cases i' with
      | cri => dsimp only at this ⊢; rw [if_neg (by rw [this]; simp)]
      | chi => dsimp only at this ⊢; rw [if_neg (by rw [this]; simp)]
    unfold appendBlock
    dsimp only
    rw [hix, if_neg (by omega), hch, bind_ok, hn, writeNeis_ok b.fields 0 bn' (fun _ => []) (hg'.blkFields b (by simp)) (by simp), bind_ok,
      if_neg (by rw [htx]; simp), htx]
    unfold frameLoop
    have hfirst : ∃ s1, appendFrame i' { s with blkNei := bn'.map fun f => ⟨f.1, f.2, [] ++ [neiVal f.2 b.fields f.1]⟩ } ((0 : Nat) : Int) 0 tx =
        .ok (s1, ((0 : Nat) : Int)) ∧ s1.prevTrans = q := by
      cases d' with
      | true => exact ⟨_, appendFrame_deleg (base := 0) hd (hf rfl) (by omega) hfr, hp⟩
      | false => exact ⟨_, appendFrame_own hd ht (by dsimp only; rw [hpar rfl]; rfl) (by omega) hfr, hp⟩
    obtain ⟨s1, e1, e2⟩ := hfirst
    rw [e1, bind_ok]
    dsimp only
    rw [if_pos ⟨rfl, by rw [e2]; exact hq⟩]
    rfl
  unfold ingest
  dsimp only
  cases d' with
  | true =>
    rw [if_pos (show (create p q true (hashesOf (b :: rest)) bn' tn').delegated = true from rfl)]
    have hind : indexBlock (create p q true (hashesOf (b :: rest)) bn' tn') 0 (-1) b.txs =
        .ok { create p q true (hashesOf (b :: rest)) bn' tn' with
          blkFirstTrans := [0]
          parentBlockOfTrans := [] ++ List.replicate b.txs.length 0 } := by
      unfold indexBlock
      rw [put_end 4 _ 0 (-1 + 1) (by rfl) (by omega) (by omega) (by omega), bind_ok]
      exact indexLoop_ok (k := 0) (by omega) b.txs 0 (-1) _ (by omega) rfl
    rw [hind, bind_ok]
    rw [key _ rfl rfl rfl rfl rfl (fun _ => rfl) (fun h => by simp at h)]
    rfl
  | false =>
    rw [if_neg (by simp [create]), bind_ok, key _ rfl rfl rfl rfl rfl (fun h => by simp at h) (fun _ => rfl)]
    rfl

example : 1 < (allTxs demo).length := by decide
example : (store (-1) (-1) .cri true [] [] demo >>= fun s => store s.prevFirstTxo s.prevTrans .cri true [] [] demo).map (fun _ => ()) =
    .error .panic := by decide +kernel
example : (allTxs (demo.take 1)).length = 1 := by decide
example : (store (-1) (-1) .cri true [] [] (demo.take 1) >>= fun s => store s.prevFirstTxo s.prevTrans .cri true [] [] demo).map (fun _ => ()) =
    .ok () := by decide +kernel

/-! ## C40 -/

/-- The handles met from `h` on, until the invalid one, at most `fuel` of them. -/
def walk (nxt : Int → Int) : Nat → Int → List Int
  | 0, _ => []
  | fuel + 1, h => if h = -1 then [] else h :: walk nxt fuel (nxt h)

theorem walk_next (n : Nat) : ∀ (m k fuel : Nat), k + m = n → 0 < m → m ≤ fuel →
    walk (next n) fuel k = (List.range' k m).map fun x : Nat => (x : Int) := by
  intro m
  induction m with
  | zero => intro k fuel _ h; omega
  | succ m ih =>
    intro k fuel hk _ hf
    obtain ⟨fuel, rfl⟩ : ∃ f, fuel = f + 1 := ⟨fuel - 1, by omega⟩
    unfold walk
    rw [if_neg (by omega), List.range'_succ, List.map_cons]
    congr 1
    by_cases hm : m = 0
    · subst hm
      have : next n k = -1 := by unfold next; rw [if_pos (by omega)]
      rw [this]
      cases fuel <;> simp [walk]
    · have : next n k = ((k + 1 : Nat) : Int) := by unfold next; rw [if_neg (by omega)]; omega
      rw [this, ih (k + 1) fuel (by omega) (by omega) (by omega)]

theorem next_previous (n k : Nat) (h : k + 1 < n) : previous (next n k) = k := by
  unfold next previous
  rw [if_neg (by omega), if_neg (by omega)]
  omega

/-- **C40.** In a stored chain, the walk by next block from genesis visits each block once in order, ends (at the
latest block) with the invalid handle, and going back undoes going forward; the same for transactions. -/
theorem navigation {p q : Int} (hp : p ≤ 0) (hq : q ≤ 0) {i : Iface} {d : Bool}
    {bn tn : List (String × Nat)} {bs : List Blk} (hg : Good i d bn tn bs) (hne : bs ≠ []) :
    ∃ s, store p q i d bn tn bs = .ok s ∧
      (∀ fuel, bs.length ≤ fuel → walk (nextBlock s) fuel genesis = (List.range bs.length).map fun k : Nat => (k : Int)) ∧
      latestBlock s = bs.length - 1 ∧ nextBlock s (latestBlock s) = -1 ∧ previous genesis = -1 ∧
      (∀ k : Nat, k + 1 < bs.length → nextBlock s k = ((k + 1 : Nat) : Int) ∧ previous (nextBlock s k) = k) ∧
      (∀ fuel, (allTxs bs).length ≤ fuel →
        walk (nextTransaction s) fuel genesis = (List.range (allTxs bs).length).map fun k : Nat => (k : Int)) ∧
      latestTransaction s = (allTxs bs).length - 1 ∧ nextTransaction s (latestTransaction s) = -1 ∧
      (∀ k : Nat, k + 1 < (allTxs bs).length → nextTransaction s k = ((k + 1 : Nat) : Int) ∧ previous (nextTransaction s k) = k) := by
  obtain ⟨s, e, hC, _⟩ := store_ok hp hq hg
  have hb : s.blkHashes.length = bs.length := by rw [hC.blkH]; simp [hashesOf]
  have ht : s.trnHashes.length = (allTxs bs).length := by rw [hC.trnH]; simp [hashesOf]
  have h1 : 0 < bs.length := List.length_pos_iff.mpr hne
  have h2 : 0 < (allTxs bs).length := by
    rw [allTxs_length i]; exact List.length_pos_iff.mpr (good_txs_pos hg hne)
  have hlat : ∀ n : Nat, 0 < n → latest n = n - 1 ∧ next n (latest n) = -1 := by
    intro n hn
    have : latest n = n - 1 := by unfold latest; rw [if_neg (by omega)]
    refine ⟨this, ?_⟩
    rw [this]; unfold next; rw [if_pos (by omega)]
  refine ⟨s, e, ?_, ?_, ?_, rfl, ?_, ?_, ?_, ?_, ?_⟩
  · intro fuel hf
    unfold nextBlock; rw [hb, List.range_eq_range']
    exact walk_next bs.length bs.length 0 fuel (by omega) h1 hf
  · unfold latestBlock; rw [hb]; exact (hlat _ h1).1
  · unfold latestBlock nextBlock; rw [hb]; exact (hlat _ h1).2
  · intro k hk
    unfold nextBlock; rw [hb]
    exact ⟨by unfold next; rw [if_neg (by omega)]; omega, next_previous _ k hk⟩
  · intro fuel hf
    unfold nextTransaction; rw [ht, List.range_eq_range']
    exact walk_next _ _ 0 fuel (by omega) h2 hf
  · unfold latestTransaction; rw [ht]; exact (hlat _ h2).1
  · unfold latestTransaction nextTransaction; rw [ht]; exact (hlat _ h2).2
  · intro k hk
    unfold nextTransaction; rw [ht]
    exact ⟨by unfold next; rw [if_neg (by omega)]; omega, next_previous _ k hk⟩

example : (store (-1) (-1) .cri true [] [] demo).map (fun s => walk (nextTransaction s) 9 genesis) = .ok [0, 1, 2, 3] := by decide +kernel

/-! ## C56 -/

/-- What a word of `w` bytes gives back: the value itself if it fits, otherwise its remainder. -/
def wraps (w : Nat) (v : Int) : Int := if w = 8 then v else v % (256 : Int) ^ w

theorem ofU64_neiVal (w : Nat) (v : Int) (hw : w ≤ 8) (hv : -2 ^ 63 ≤ v ∧ v < 2 ^ 63) : ofU64 (toU64 v % 256 ^ w) = wraps w v := by
  unfold wraps toU64 ofU64
  by_cases h8 : w = 8
  · subst h8
    rw [if_pos rfl]
    split <;> omega
  · rw [if_neg h8]
    have h7 : w = 0 ∨ w = 1 ∨ w = 2 ∨ w = 3 ∨ w = 4 ∨ w = 5 ∨ w = 6 ∨ w = 7 := by omega
    rcases h7 with rfl | rfl | rfl | rfl | rfl | rfl | rfl | rfl <;> (split <;> omega)

theorem find_nei (fs : List (String × Nat)) (g : String × Nat → Words) (name : String) (w : Nat) (hm : (name, w) ∈ fs) (hn : (fs.map (·.1)).Nodup) :
    (fs.map fun f => (⟨f.1, f.2, g f⟩ : Nei)).find? (fun f => f.name = name) = some ⟨name, w, g (name, w)⟩ := by
  induction fs with
  | nil => simp at hm
  | cons f fs ih =>
    rw [List.map_cons, List.find?_cons]
    rw [List.map_cons, List.nodup_cons] at hn
    by_cases h : f.1 = name
    · have : f = (name, w) := by
        rcases List.mem_cons.mp hm with h' | h'
        · exact h'.symm
        · exact absurd (List.mem_map.mpr ⟨(name, w), h', rfl⟩) (by rw [← h]; exact hn.1)
      subst this
      simp
    · have : ¬ (name, w) = f := by rintro rfl; exact h rfl
      simp only [h, decide_false]
      exact ih ((List.mem_cons.mp hm).resolve_left this) hn.2

/-- **C56.** Every requested non-essential int of every block and transaction reads back: as it was if it fits its
word (in particular every 64-bit value in an 8-byte word), otherwise as its remainder. A value that is negative never
fits a shorter word. -/
theorem non_essential_ints_read_back {p q : Int} (hp : p ≤ 0) (hq : q ≤ 0) {i : Iface} {d : Bool}
    {bn tn : List (String × Nat)} {bs : List Blk} (hg : Good i d bn tn bs)
    (hbn : (bn.map (·.1)).Nodup) (htn : (tn.map (·.1)).Nodup) :
    ∃ s, store p q i d bn tn bs = .ok s ∧
      (∀ (k : Nat) b name w v, bs[k]? = some b → (name, w) ∈ bn → w ≤ 8 → lookup b.fields name = some v → -2 ^ 63 ≤ v ∧ v < 2 ^ 63 →
        readNei s.blkNei name k = some (.ok (wraps w v)) ∧ ((0 ≤ v ∧ v < 256 ^ w) → wraps w v = v)) ∧
      (∀ (k t : Nat) b tx name w v, bs[k]? = some b → b.txs[t]? = some tx → (name, w) ∈ tn → w ≤ 8 → lookup tx.fields name = some v →
        -2 ^ 63 ≤ v ∧ v < 2 ^ 63 →
        readNei s.trnNei name ((firstAt bs k + t : Nat) : Int) = some (.ok (wraps w v)) ∧ ((0 ≤ v ∧ v < 256 ^ w) → wraps w v = v)) := by
  obtain ⟨s, e, hC, _⟩ := store_ok hp hq hg
  have hfit : ∀ (w : Nat) (v : Int), (0 ≤ v ∧ v < 256 ^ w) → wraps w v = v := by
    intro w v h
    unfold wraps
    split
    · rfl
    · exact Int.emod_eq_of_lt h.1 h.2
  have hget : ∀ {α : Type} (l : List α) (f : α → List (String × Int)) (k : Nat) (x : α) (name : String) (w : Nat) (v : Int),
      l[k]? = some x → w ≤ 8 → lookup (f x) name = some v → -2 ^ 63 ≤ v ∧ v < 2 ^ 63 →
      get (l.map fun y => neiVal w (f y) name) k = .ok (wraps w v) := by
    intro α l f k x name w v hx hw hl hv
    unfold get
    rw [if_neg (by omega), show (k : Int).toNat = k by simp, List.getElem?_map, hx]
    simp only [Option.map_some, neiVal, hl, Option.getD_some]
    rw [ofU64_neiVal w v hw hv]
  refine ⟨s, e, ?_, ?_⟩
  · intro k b name w v hb hm hw hl hv
    refine ⟨?_, hfit w v⟩
    unfold readNei
    rw [hC.neiB, find_nei bn _ name w hm hbn, Option.map_some]
    rw [hget bs (·.fields) k b name w v hb hw hl hv]
  · intro k t b tx name w v hb ht hm hw hl hv
    refine ⟨?_, hfit w v⟩
    unfold readNei
    rw [hC.neiT, find_nei tn _ name w hm htn, Option.map_some]
    have hk := allKept_at i bs k t b tx hb ht
    rw [← firstAt_eq] at hk
    rw [hget (allKept i bs) (·.fields) _ _ name w v hk hw hl hv]

example : (store (-1) (-1) .cri true [("time", 4)] [("size", 4)] demo).map (fun s => readNei s.blkNei "time" 1) = .ok (some (.ok 8)) := by
  decide +kernel
/-- A value of -1 in a four-byte word reads back as 4294967295. -/
example : (store (-1) (-1) .cri true [("time", 4)] [("size", 4)] demo).map (fun s => readNei s.trnNei "size" 3) = .ok (some (.ok 4294967295)) := by
  decide +kernel

end Verif.ChainStore
