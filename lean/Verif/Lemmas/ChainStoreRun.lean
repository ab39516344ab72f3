import Verif.Lemmas.ChainStore

/-! # Lemmas about the stored chain: whole blocks and whole runs -/

namespace Verif.ChainStore

/-- The transactions with the inputs that are stored, counting from the `t`-th of the block. -/
def kept (i : Iface) : Nat → List Tx → List Tx
  | _, [] => []
  | t, tx :: txs => { tx with txis := storedTxis i t tx } :: kept i (t + 1) txs

theorem kept_length (i : Iface) (t : Nat) (txs : List Tx) : (kept i t txs).length = txs.length := by
  induction txs generalizing t with
  | nil => rfl
  | cons tx txs ih => simp [kept, ih]

/-- The number stored under a name. -/
def neiVal (width : Nat) (fields : List (String × Int)) (name : String) : Nat :=
  toU64 ((lookup fields name).getD 0) % 256 ^ width

/-- `txiSource`, in terms of the two files read. -/
def srcIn (i : Iface) (first : Words) (trn : List Bytes) (x : Txi) : Except Fail Int :=
  match i, x.ref with
  | .cri, some (.height h) => .ok h
  | .cri, some (.path b n) => do
    let f ← get first b
    .ok (f + n)
  | _, _ => .ok (indexOf trn x.txid)

theorem txiSource_eq (i : Iface) (s : St) (x : Txi) : txiSource i s x = srcIn i s.blkFirstTrans s.trnHashes x := by
  unfold txiSource srcIn
  rfl

/-- The numbers of transactions of some blocks. -/
def sizes (bs : List Blk) : List Nat := bs.map (·.txs.length)

/-- All the inputs, in order. -/
def txisOf (ts : List Tx) : List Txi := ts.flatMap (·.txis)

/-- All the outputs, in order. -/
def txosOf (ts : List Tx) : List Txo := ts.flatMap (·.txos)

/-- What the files hold: `fb` are the blocks whose transactions are numbered, `nb` the blocks whose non-essential ints
are stored, `ts` the transactions whose contents are stored. -/
structure Closed (d : Bool) (H : Hashes) (bn tn : List (String × Nat)) (src : Txi → Nat)
    (s : St) (fb nb : List Blk) (ts : List Tx) : Prop where
  deleg : s.delegated = d
  blkH : s.blkHashes = H.blk
  trnH : s.trnHashes = H.trn
  adrH : s.adrHashes = H.adr
  blkFirst : s.blkFirstTrans = offsets (sizes fb)
  parentBlk : s.parentBlockOfTrans = owners (sizes fb)
  firstTxi : s.trnFirstTxi = offsets (ts.map (·.txis.length))
  tx : s.txiTx = (txisOf ts).map src
  vout : s.txiVout = (txisOf ts).map (·.vout.toNat)
  parentTxi : s.parentTransOfTxi = owners (ts.map (·.txis.length))
  firstTxo : s.trnFirstTxo = offsets (ts.map (·.txos.length))
  sats : s.txoSats = (txosOf ts).map (·.sats.toNat)
  address : s.txoAddress = (txosOf ts).map fun x => (indexOf H.adr x.addr).toNat
  spent : s.txoSpentTxi = List.replicate (txosOf ts).length 0
  parentTxo : s.parentTransOfTxo = owners (ts.map (·.txos.length))
  addr : AddrInv H.adr s.addrFirstTxo s.additional ((txosOf ts).map (·.addr))
  neiB : s.blkNei = bn.map fun f => ⟨f.1, f.2, nb.map fun b => neiVal f.2 b.fields f.1⟩
  neiT : s.trnNei = tn.map fun f => ⟨f.1, f.2, ts.map fun t => neiVal f.2 t.fields f.1⟩
  prevTxo : s.prevFirstTxo ≤ (txosOf ts).length
  prevTrn : s.prevTrans ≤ ts.length
  prevLast : ts ≠ [] → s.prevTrans + 1 = ts.length ∧ s.prevFirstTxo = (txosOf ts.dropLast).length

theorem writeNeis_ok (fields : List (String × Int)) (n : Nat) (fs : List (String × Nat)) (g : String × Nat → Words)
    (hl : ∀ f ∈ fs, lookup fields f.1 ≠ none) (hg : ∀ f, (g f).length = n) :
    writeNeis fields n (fs.map fun f => ⟨f.1, f.2, g f⟩) =
      .ok (fs.map fun f => ⟨f.1, f.2, g f ++ [neiVal f.2 fields f.1]⟩) := by
  induction fs with
  | nil => rfl
  | cons f fs ih =>
    obtain ⟨v, hv⟩ := Option.ne_none_iff_exists'.mp (hl f (by simp))
    simp only [List.map_cons, writeNeis, hv]
    have hp : put f.2 (g f) n v = .ok (g f ++ [neiVal f.2 fields f.1]) := by
      unfold put neiVal
      rw [if_neg (by omega), hv, show (n : Int).toNat = (g f).length by rw [hg]; simp, setExt_end]
      rfl
    rw [hp, bind_ok, ih (fun x hx => hl x (by simp [hx])), bind_ok]

/-- What the appending of a transaction's contents needs of the whole list `T` of transactions. -/
structure TxReady (i : Iface) (H : Hashes) (tn : List (String × Nat)) (T : List Tx) : Prop where
  count : T.length ≤ 256 ^ 4
  txis : (txisOf T).length < 256 ^ 5
  txos : (txosOf T).length < 256 ^ 5
  adr : H.adr.length ≤ 256 ^ 5
  sats : ∀ x ∈ txosOf T, 0 ≤ x.sats ∧ x.sats < 256 ^ 7
  vout : ∀ x ∈ txisOf T, 0 ≤ x.vout ∧ x.vout < 256 ^ 4
  txiHeight : i = .cri → ∀ (k : Nat) x, (txisOf T)[k]? = some x → differs x.height k = false
  txoHeight : i = .cri → ∀ (k : Nat) x, (txosOf T)[k]? = some x → differs x.height k = false
  order : InOrder H.adr ((txosOf T).map (·.addr))
  known : ∀ x ∈ txosOf T, x.addr ∈ H.adr
  test : ∀ x, (txosOf T)[0]? = some x → indexOf H.adr x.addr ≠ testPoint
  fields : ∀ t ∈ T, ∀ f ∈ tn, lookup t.fields f.1 ≠ none

theorem txisOf_snoc (ts : List Tx) (t : Tx) : txisOf (ts ++ [t]) = txisOf ts ++ t.txis := by simp [txisOf]
theorem txosOf_snoc (ts : List Tx) (t : Tx) : txosOf (ts ++ [t]) = txosOf ts ++ t.txos := by simp [txosOf]
theorem txisOf_split (ts : List Tx) (t : Tx) (r : List Tx) : txisOf (ts ++ t :: r) = txisOf ts ++ (t.txis ++ txisOf r) := by
  simp [txisOf]
theorem txosOf_split (ts : List Tx) (t : Tx) (r : List Tx) : txosOf (ts ++ t :: r) = txosOf ts ++ (t.txos ++ txosOf r) := by
  simp [txosOf]

theorem sum_lengths_txis (ts : List Tx) : (ts.map (·.txis.length)).sum = (txisOf ts).length := by
  simp [txisOf, List.length_flatMap]
theorem sum_lengths_txos (ts : List Tx) : (ts.map (·.txos.length)).sum = (txosOf ts).length := by
  simp [txosOf, List.length_flatMap]

theorem getElem?_mid {α : Type} (a b c : List α) (k : Nat) (x : α) (h : b[k]? = some x) : (a ++ (b ++ c))[a.length + k]? = some x := by
  rw [List.getElem?_append_right (by omega), show a.length + k - a.length = k by omega]
  have : k < b.length := by
    by_contra hc
    rw [List.getElem?_eq_none (by omega)] at h
    simp at h
  rw [List.getElem?_append_left this, h]

theorem contents_ok {i : Iface} {d : Bool} {H : Hashes} {bn tn : List (String × Nat)} {src : Txi → Nat}
    {T : List Tx} (hT : TxReady i H tn T) {s : St} {fb nb : List Blk} {ts rest : List Tx} {t : Nat} {tx : Tx}
    (hC : Closed d H bn tn src s fb nb ts)
    (hsplit : T = ts ++ { tx with txis := storedTxis i t tx } :: rest)
    (hsrc : ∀ x ∈ storedTxis i t tx, srcIn i (offsets (sizes fb)) H.trn x = .ok (src x : Int) ∧ src x < 256 ^ 4) :
    ∃ s', appendContents i s t tx ts.length = .ok s' ∧
      Closed d H bn tn src s' fb nb (ts ++ [{ tx with txis := storedTxis i t tx }]) := by
  have hcnt := hT.count
  have hlen : ts.length < 256 ^ 4 := by rw [hsplit] at hcnt; simp at hcnt; omega
  have htxis := hT.txis
  rw [hsplit, txisOf_split] at htxis
  simp only [List.length_append] at htxis
  have htxos := hT.txos
  rw [hsplit, txosOf_split] at htxos
  simp only [List.length_append] at htxos
  unfold appendContents
  have hnei := writeNeis_ok tx.fields ts.length tn (fun f => ts.map fun t => neiVal f.2 t.fields f.1)
    (fun f hf => hT.fields { tx with txis := storedTxis i t tx } (by rw [hsplit]; simp) f hf) (by simp)
  rw [hC.neiT, hnei, bind_ok]
  -- outputs
  have hout : ∃ first more, txoThread i ts.length tx.txos
      { s with trnNei := tn.map fun f => ⟨f.1, f.2, (ts.map fun t => neiVal f.2 t.fields f.1) ++ [neiVal f.2 tx.fields f.1]⟩ } =
      .ok { s with
        trnNei := tn.map fun f => ⟨f.1, f.2, (ts.map fun t => neiVal f.2 t.fields f.1) ++ [neiVal f.2 tx.fields f.1]⟩
        trnFirstTxo := s.trnFirstTxo ++ [(txosOf ts).length]
        prevFirstTxo := (txosOf ts).length
        prevTrans := ts.length
        txoSats := s.txoSats ++ tx.txos.map (·.sats.toNat)
        parentTransOfTxo := s.parentTransOfTxo ++ List.replicate tx.txos.length ts.length
        txoAddress := s.txoAddress ++ tx.txos.map fun x => (indexOf s.adrHashes x.addr).toNat
        txoSpentTxi := s.txoSpentTxi ++ List.replicate tx.txos.length 0
        addrFirstTxo := first
        additional := more } ∧
      AddrInv H.adr first more ((txosOf ts).map (·.addr) ++ tx.txos.map (·.addr)) := by
    have hc : count s.txoSats = (txosOf ts).length := by rw [hC.sats]; simp [count]
    unfold txoThread
    dsimp only
    rw [hc, if_neg (by
      have := hC.prevTxo
      have := hC.prevTrn
      rintro ⟨_, h | h⟩ <;> omega)]
    rw [put_end 5 s.trnFirstTxo _ ((txosOf ts).length : Int) (by rw [hC.firstTxo, offsets_length]; simp) (by omega)
      (by omega) (by omega), bind_ok]
    rw [show (((txosOf ts).length : Nat) : Int).toNat = (txosOf ts).length by simp]
    have := appendTxos_ok i ts.length tx.txos ((txosOf rest).map (·.addr)) ((txosOf ts).map (·.addr))
      { s with
        trnNei := tn.map fun f => ⟨f.1, f.2, (ts.map fun t => neiVal f.2 t.fields f.1) ++ [neiVal f.2 tx.fields f.1]⟩
        trnFirstTxo := s.trnFirstTxo ++ [(txosOf ts).length]
        prevFirstTxo := (txosOf ts).length
        prevTrans := ts.length } (by omega)
      (by dsimp only; rw [hC.sats]; simp) (by dsimp only; rw [hC.parentTxo, owners_length, sum_lengths_txos]; simp)
      (by dsimp only; rw [hC.address]; simp) (by dsimp only; rw [hC.spent]; simp)
      (by dsimp only; rw [hC.adrH]; exact hC.addr)
      (by
        dsimp only; rw [hC.adrH]
        have := hT.order
        rw [hsplit, txosOf_split] at this
        simpa using this)
      (by
        dsimp only; rw [hC.adrH]
        intro x hx
        have hk := hT.known
        rw [hsplit, txosOf_split] at hk
        have : x ∈ (txosOf ts ++ (tx.txos ++ txosOf rest)).map (·.addr) := by simpa using hx
        obtain ⟨o, ho, rfl⟩ := List.mem_map.mp this
        exact hk o ho)
      (by simp; omega) (by dsimp only; rw [hC.adrH]; exact hT.adr)
      (by
        dsimp only; rw [hC.adrH]
        intro a ha
        have ht := hT.test
        rw [hsplit, txosOf_split] at ht
        rw [← List.map_append, List.getElem?_map] at ha
        cases ho : (txosOf ts ++ tx.txos)[0]? with
        | none => rw [ho] at ha; simp at ha
        | some o =>
          rw [ho] at ha
          simp only [Option.map_some, Option.some.injEq] at ha
          subst ha
          apply ht o
          have hpos : 0 < (txosOf ts ++ tx.txos).length := by
            by_contra hcc
            rw [List.getElem?_eq_none (by omega)] at ho
            simp at ho
          rw [← List.append_assoc, List.getElem?_append_left hpos]
          exact ho)
      (by
        intro x hx
        apply hT.sats
        rw [hsplit, txosOf_split]
        simp [hx])
      (by
        intro hi k x hx
        have := hT.txoHeight hi ((txosOf ts).length + k) x
          (by rw [hsplit, txosOf_split]; exact getElem?_mid _ _ _ _ _ hx)
        simpa using this)
    obtain ⟨first, more, e, hA⟩ := this
    refine ⟨first, more, ?_, ?_⟩
    · rw [e]
    · dsimp only at hA; rw [hC.adrH] at hA; exact hA
  obtain ⟨first, more, hout, hA⟩ := hout
  rw [hout, bind_ok]
  -- inputs
  unfold txiThread
  dsimp only
  have hc : count s.txiTx = (txisOf ts).length := by rw [hC.tx]; simp [count]
  rw [hc, put_end 5 s.trnFirstTxi _ ((txisOf ts).length : Int) (by rw [hC.firstTxi, offsets_length]; simp) (by omega)
    (by omega) (by omega), bind_ok]
  rw [appendTxis_ok i ts.length src (storedTxis i t tx) _ (by omega)
    (by dsimp only; rw [hC.vout, hC.tx]; simp)
    (by dsimp only; rw [hC.parentTxi, hC.tx, owners_length, sum_lengths_txis]; simp)
    (by
      intro x hx
      rw [txiSource_eq]
      dsimp only
      rw [hC.blkFirst, hC.trnH]
      exact (hsrc x hx).1)
    (by
      intro x hx
      refine ⟨(hsrc x hx).2, hT.vout x ?_⟩
      rw [hsplit, txisOf_split]
      simp [hx])
    (by
      intro hi k x hx
      dsimp only
      rw [hC.tx, List.length_map]
      exact hT.txiHeight hi ((txisOf ts).length + k) x (by rw [hsplit, txisOf_split]; exact getElem?_mid _ _ _ _ _ hx))]
  refine ⟨_, rfl, ?_⟩
  constructor <;> dsimp only
  · exact hC.deleg
  · exact hC.blkH
  · exact hC.trnH
  · exact hC.adrH
  · exact hC.blkFirst
  · exact hC.parentBlk
  · rw [hC.firstTxi, List.map_append, List.map_singleton, offsets_snoc, sum_lengths_txis]; rfl
  · rw [hC.tx, txisOf_snoc, List.map_append]
  · rw [hC.vout, txisOf_snoc, List.map_append]
  · rw [hC.parentTxi, List.map_append, List.map_singleton, owners_snoc, List.length_map]
  · rw [hC.firstTxo, List.map_append, List.map_singleton, offsets_snoc, sum_lengths_txos]
  · rw [hC.sats, txosOf_snoc, List.map_append]
  · rw [hC.address, hC.adrH, txosOf_snoc, List.map_append]
  · rw [hC.spent, txosOf_snoc, List.length_append, List.replicate_append_replicate]
  · rw [hC.parentTxo, List.map_append, List.map_singleton, owners_snoc, List.length_map]
  · rw [txosOf_snoc, List.map_append]; exact hA
  · exact hC.neiB
  · simp
  · rw [txosOf_snoc, List.length_append]; omega
  · simp; omega
  · intro _; simp

theorem contentsLoop_ok {i : Iface} {d : Bool} {H : Hashes} {bn tn : List (String × Nat)} {src : Txi → Nat}
    {T : List Tx} (hT : TxReady i H tn T) {fb nb : List Blk} (txs : List Tx) :
    ∀ (s : St) (ts rest : List Tx) (t : Nat) (first : Int),
    Closed d H bn tn src s fb nb ts → T = ts ++ kept i t txs ++ rest → first + t = ts.length →
    (∀ tx ∈ kept i t txs, ∀ x ∈ tx.txis, srcIn i (offsets (sizes fb)) H.trn x = .ok (src x : Int) ∧ src x < 256 ^ 4) →
    ∃ s', contentsLoop i first txs t s = .ok s' ∧ Closed d H bn tn src s' fb nb (ts ++ kept i t txs) := by
  induction txs with
  | nil => intro s ts rest t first hC _ _ _; exact ⟨s, rfl, by simpa [kept] using hC⟩
  | cons tx txs ih =>
    intro s ts rest t first hC hsplit hfirst hsrc
    obtain ⟨s1, e1, hC1⟩ := contents_ok (rest := kept i (t + 1) txs ++ rest) hT hC (t := t) (tx := tx)
      (by rw [hsplit]; simp [kept])
      (fun x hx => hsrc { tx with txis := storedTxis i t tx } (by simp [kept]) x hx)
    obtain ⟨s2, e2, hC2⟩ := ih s1 _ rest (t + 1) first hC1 (by rw [hsplit]; simp [kept]) (by simp; omega)
      (fun y hy => hsrc y (by simp [kept, hy]))
    refine ⟨s2, ?_, by simpa [kept] using hC2⟩
    unfold contentsLoop
    rw [hfirst, e1, bind_ok, e2]

/-! ## Frames -/

theorem sizes_snoc (fb : List Blk) (b : Blk) : sizes (fb ++ [b]) = sizes fb ++ [b.txs.length] := by simp [sizes]
theorem sizes_length (fb : List Blk) : (sizes fb).length = fb.length := by simp [sizes]

/-- What numbering the transactions needs of a transaction at position `t` of its block, to be numbered `n`. -/
structure FrameReady (i : Iface) (d : Bool) (H : Hashes) (n t : Nat) (tx : Tx) : Prop where
  own : d = false → indexOf H.trn tx.hash = n
  height : i = .cri → differs tx.height n = false
  nth : i = .cri → d = true → tx.height = none → tx.nth = some (t : Int)

theorem appendFrame_deleg {i : Iface} {H : Hashes} {s : St} {k base t : Nat} {tx : Tx} (hd : s.delegated = true)
    (hf : s.blkFirstTrans[k]? = some base) (hb : base < 256 ^ 4) (hr : FrameReady i true H (base + t) t tx) :
    appendFrame i s k t tx = .ok (s, ((base + t : Nat) : Int)) := by
  have hg : get s.blkFirstTrans k = .ok (base : Int) := get_nat _ _ k base rfl hf (by omega)
  unfold appendFrame
  rw [if_neg (by rw [hd]; simp)]
  cases i with
  | chi => dsimp only; rw [hg, bind_ok]; simp
  | cri =>
    cases hh : tx.height with
    | some h =>
      have := hr.height rfl
      rw [hh] at this
      simp [differs] at this
      dsimp only
      rw [this]; simp
    | none =>
      rw [hr.nth rfl rfl hh]
      dsimp only
      rw [hg, bind_ok]; simp

theorem not_cri_differs {i : Iface} {d : Bool} {H : Hashes} {n t : Nat} {tx : Tx} (hr : FrameReady i d H n t tx) :
    ¬ (i = .cri ∧ differs tx.height (n : Int) = true) := by
  rintro ⟨hi, h⟩
  rw [hr.height hi] at h
  simp at h

theorem frameLoop_deleg {i : Iface} {H : Hashes} {k base : Nat} (hb : base < 256 ^ 4) (txs : List Tx) :
    ∀ (t : Nat) (first : Int) (s : St), s.delegated = true → s.blkFirstTrans[k]? = some base → s.prevTrans ≤ base →
    (t ≠ 0 → first = base) → (t = 0 → txs ≠ []) →
    (∀ (j : Nat) tx, txs[j]? = some tx → FrameReady i true H (base + (t + j)) (t + j) tx) →
    frameLoop i k txs t first s = .ok (s, (base : Int)) := by
  induction txs with
  | nil =>
    intro t first s hd hf hp h1 h2 _
    have : t ≠ 0 := fun h => h2 h rfl
    unfold frameLoop
    rw [h1 this]
  | cons tx txs ih =>
    intro t first s hd hf hp h1 h2 hr
    have hr0 : FrameReady i true H (base + t) t tx := by simpa using hr 0 tx (by simp)
    unfold frameLoop
    rw [appendFrame_deleg hd hf hb hr0, bind_ok]
    dsimp only
    rw [if_neg (by rintro ⟨_, h⟩; omega), if_neg (not_cri_differs hr0), if_neg (by rw [hd]; simp)]
    apply ih (t + 1) _ s hd hf hp
    · intro _
      by_cases ht : t = 0
      · rw [if_pos ht, ht]; simp
      · rw [if_neg ht, h1 ht]
    · intro h; omega
    · intro j tx' hj
      have := hr (j + 1) tx' (by simpa using hj)
      rw [show t + 1 + j = t + (j + 1) by omega]
      exact this

theorem appendFrame_own {i : Iface} {H : Hashes} {s : St} {k n t : Nat} {tx : Tx} (hd : s.delegated = false)
    (hH : s.trnHashes = H.trn) (hp : s.parentBlockOfTrans.length = n) (hk : k < 256 ^ 4) (hr : FrameReady i false H n t tx) :
    appendFrame i s k t tx = .ok ({ s with parentBlockOfTrans := s.parentBlockOfTrans ++ [k] }, (n : Int)) := by
  unfold appendFrame
  rw [if_pos hd]
  dsimp only
  rw [hH, hr.own rfl, if_neg (not_cri_differs hr), put_end 4 _ _ (k : Int) (by rw [hp]) (by omega) (by omega) (by omega), bind_ok]
  simp

theorem frameLoop_own {i : Iface} {H : Hashes} {k : Nat} (hk : k < 256 ^ 4) (txs : List Tx) :
    ∀ (t n : Nat) (first : Int) (s : St), t ≠ 0 → s.delegated = false → s.trnHashes = H.trn →
    s.parentBlockOfTrans.length = n →
    (∀ (j : Nat) tx, txs[j]? = some tx → FrameReady i false H (n + j) (t + j) tx) →
    frameLoop i k txs t first s =
      .ok ({ s with parentBlockOfTrans := s.parentBlockOfTrans ++ List.replicate txs.length k }, first) := by
  induction txs with
  | nil => intro t n first s _ _ _ _ _; simp [frameLoop]
  | cons tx txs ih =>
    intro t n first s ht hd hH hp hr
    have hr0 : FrameReady i false H n t tx := by simpa using hr 0 tx (by simp)
    unfold frameLoop
    rw [appendFrame_own hd hH hp hk hr0, bind_ok]
    dsimp only
    rw [if_neg (by rintro ⟨h, _⟩; exact ht h), if_neg (not_cri_differs hr0), if_neg (by rintro ⟨h, _⟩; exact ht h), if_neg ht]
    rw [ih (t + 1) (n + 1) first { s with parentBlockOfTrans := s.parentBlockOfTrans ++ [k] } (by omega) hd hH
      (by simp [hp])]
    · simp [List.replicate_succ]
    · intro j tx' hj
      have := hr (j + 1) tx' (by simpa using hj)
      rw [show t + 1 + j = t + (j + 1) by omega, show n + 1 + j = n + (j + 1) by omega]
      exact this

theorem indexLoop_ok {k : Nat} (hk : k < 256 ^ 4) (txs : List Tx) :
    ∀ (n : Nat) (h : Int) (s : St), h + 1 = n → s.parentBlockOfTrans.length = n →
    indexLoop k txs h s = .ok { s with parentBlockOfTrans := s.parentBlockOfTrans ++ List.replicate txs.length k } := by
  induction txs with
  | nil => intro n h s _ _; simp [indexLoop]
  | cons tx txs ih =>
    intro n h s h1 h2
    unfold indexLoop
    rw [h1, put_end 4 _ _ (k : Int) (by rw [h2]) (by omega) (by omega) (by omega), bind_ok]
    rw [ih (n + 1) (n : Int) { s with parentBlockOfTrans := s.parentBlockOfTrans ++ [(k : Int).toNat] } (by simp) (by simp [h2])]
    simp [List.replicate_succ]

/-! ## Blocks -/

/-- What the height check needs. -/
def HeightReady (i : Iface) (k : Nat) (b : Blk) : Prop :=
  match i with
  | .cri => differs b.height k = false
  | .chi => b.height = some (k : Int)

/-- What appending a chain of blocks needs. -/
structure Ready (i : Iface) (d : Bool) (H : Hashes) (bn tn : List (String × Nat)) (src : Txi → Nat) (bs : List Blk) : Prop where
  tx : TxReady i H tn (bs.flatMap fun b => kept i 0 b.txs)
  nonempty : ∀ b ∈ bs, b.txs ≠ []
  blk : ∀ (k : Nat) b, bs[k]? = some b → indexOf H.blk b.hash = k
  blkHeight : ∀ (k : Nat) b, bs[k]? = some b → HeightReady i k b
  frame : ∀ (k t : Nat) b tx, bs[k]? = some b → b.txs[t]? = some tx → FrameReady i d H ((sizes (bs.take k)).sum + t) t tx
  fields : ∀ b ∈ bs, ∀ f ∈ bn, lookup b.fields f.1 ≠ none
  src : ∀ (k : Nat) b, bs[k]? = some b → ∀ tx ∈ kept i 0 b.txs, ∀ x ∈ tx.txis,
    srcIn i (offsets (sizes (bs.take (k + 1)))) H.trn x = .ok (src x : Int) ∧ src x < 256 ^ 4

/-- The transactions of some blocks, with the inputs that are stored. -/
def allKept (i : Iface) (bs : List Blk) : List Tx := bs.flatMap fun b => kept i 0 b.txs

theorem allKept_length (i : Iface) (bs : List Blk) : (allKept i bs).length = (sizes bs).sum := by
  simp [allKept, sizes, List.length_flatMap, kept_length]

theorem allKept_snoc (i : Iface) (bs : List Blk) (b : Blk) : allKept i (bs ++ [b]) = allKept i bs ++ kept i 0 b.txs := by
  simp [allKept]

theorem length_le_sizes {bs : List Blk} (h : ∀ b ∈ bs, b.txs ≠ []) : bs.length ≤ (sizes bs).sum := by
  induction bs with
  | nil => simp
  | cons b bs ih =>
    have h1 := ih (fun x hx => h x (by simp [hx]))
    have h2 := List.length_pos_iff.mpr (h b (by simp))
    simp only [sizes, List.map_cons, List.sum_cons, List.length_cons] at h1 ⊢
    omega

theorem indexBlock_ok {d : Bool} {H : Hashes} {bn tn : List (String × Nat)} {src : Txi → Nat} {s : St} {fb nb : List Blk}
    {ts : List Tx} (hC : Closed d H bn tn src s fb nb ts) (b : Blk) (hk : fb.length < 256 ^ 4)
    (hts : ts.length = (sizes fb).sum) (ht : ts.length < 256 ^ 4) (l : Int) (hl : l + 1 = ts.length) :
    ∃ s', indexBlock s fb.length l b.txs = .ok s' ∧ Closed d H bn tn src s' (fb ++ [b]) nb ts := by
  unfold indexBlock
  rw [hl, put_end 4 _ _ (ts.length : Int) (by rw [hC.blkFirst, offsets_length, sizes_length]) (by omega) (by omega) (by omega),
    bind_ok, indexLoop_ok hk b.txs ts.length l _ hl (by dsimp only; rw [hC.parentBlk, owners_length, hts])]
  refine ⟨_, rfl, ?_⟩
  refine { hC with blkFirst := ?_, parentBlk := ?_ }
  · dsimp only; rw [hC.blkFirst, sizes_snoc, offsets_snoc, ← hts]; simp
  · dsimp only; rw [hC.parentBlk, sizes_snoc, owners_snoc, sizes_length]

theorem block_ok {i : Iface} {d : Bool} {H : Hashes} {bn tn : List (String × Nat)} {src : Txi → Nat}
    {bs fb rest : List Blk} {b : Blk} (hR : Ready i d H bn tn src bs) (hsplit : bs = fb ++ b :: rest) {s : St}
    (hC : Closed d H bn tn src s (if d then fb ++ [b] else fb) fb (allKept i fb)) :
    ∃ s', appendBlock i s b = .ok s' ∧ Closed d H bn tn src s' (fb ++ [b]) (fb ++ [b]) (allKept i (fb ++ [b])) := by
  have hbk : bs[fb.length]? = some b := by rw [hsplit, List.getElem?_append_right (Nat.le_refl _)]; simp
  have hne : b.txs ≠ [] := hR.nonempty b (by rw [hsplit]; simp)
  have hpre : ∀ x ∈ fb, x.txs ≠ [] := fun x hx => hR.nonempty x (by rw [hsplit]; simp [hx])
  have hTeq : bs.flatMap (fun b => kept i 0 b.txs) = allKept i fb ++ kept i 0 b.txs ++ allKept i rest := by
    rw [hsplit]; simp [allKept]
  have hcnt := hR.tx.count
  rw [hTeq, List.length_append, List.length_append, kept_length, allKept_length] at hcnt
  have hbpos : 0 < b.txs.length := List.length_pos_iff.mpr hne
  have hfb : fb.length < 256 ^ 4 := by have := length_le_sizes hpre; omega
  have hbase : (sizes fb).sum < 256 ^ 4 := by omega
  have htake : bs.take fb.length = fb := by rw [hsplit, List.take_left' rfl]
  have htake1 : bs.take (fb.length + 1) = fb ++ [b] := by
    rw [hsplit, show fb ++ b :: rest = (fb ++ [b]) ++ rest by simp, List.take_left' (by simp)]
  have hfr : ∀ (j : Nat) tx, b.txs[j]? = some tx → FrameReady i d H ((sizes fb).sum + j) j tx := by
    intro j tx hj
    have := hR.frame fb.length j b tx hbk hj
    rwa [htake] at this
  have hsrc : ∀ tx ∈ kept i 0 b.txs, ∀ x ∈ tx.txis,
      srcIn i (offsets (sizes (fb ++ [b]))) H.trn x = .ok (src x : Int) ∧ src x < 256 ^ 4 := by
    have := hR.src fb.length b hbk
    rwa [htake1] at this
  have hix : indexOf s.blkHashes b.hash = fb.length := by rw [hC.blkH]; exact hR.blk fb.length b hbk
  unfold appendBlock
  dsimp only
  rw [hix, if_neg (by omega)]
  have hch : checkHeight i b fb.length = .ok () := by
    have := hR.blkHeight fb.length b hbk
    unfold checkHeight
    cases i with
    | cri => dsimp only at this ⊢; rw [if_neg (by rw [this]; simp)]
    | chi => dsimp only at this ⊢; rw [if_neg (by rw [this]; simp)]
  rw [hch, bind_ok, hC.neiB, writeNeis_ok b.fields fb.length bn _ (fun f hf => hR.fields b (by rw [hsplit]; simp) f hf) (by simp), bind_ok,
    if_neg hne]
  have hneiB : (bn.map fun f => (⟨f.1, f.2, (fb.map fun b => neiVal f.2 b.fields f.1) ++ [neiVal f.2 b.fields f.1]⟩ : Nei)) =
      bn.map fun f => ⟨f.1, f.2, (fb ++ [b]).map fun b => neiVal f.2 b.fields f.1⟩ := by simp
  rw [hneiB]
  have hframes : ∃ s1, frameLoop i fb.length b.txs 0 (-1)
        { s with blkNei := bn.map fun f => ⟨f.1, f.2, (fb ++ [b]).map fun b => neiVal f.2 b.fields f.1⟩ } =
        .ok (s1, ((sizes fb).sum : Int)) ∧
      Closed d H bn tn src s1 (fb ++ [b]) (fb ++ [b]) (allKept i fb) := by
    cases d with
    | true =>
      rw [if_pos rfl] at hC
      refine ⟨_, frameLoop_deleg (H := H) hbase b.txs 0 (-1) _ hC.deleg ?_ ?_ (by intro h; exact absurd rfl h) (fun _ => hne)
        (by simpa using hfr), ?_⟩
      · dsimp only
        rw [hC.blkFirst, sizes_snoc, offsets_snoc, List.getElem?_append_right (by rw [offsets_length, sizes_length]; exact Nat.le_refl _)]
        rw [offsets_length, sizes_length]; simp
      · have := hC.prevTrn
        rw [allKept_length] at this
        exact this
      · exact { hC with neiB := rfl }
    | false =>
      rw [if_neg (by simp)] at hC
      obtain ⟨tx, txs, htx⟩ := List.exists_cons_of_ne_nil hne
      rw [htx] at hfr
      have hr0 : FrameReady i false H (sizes fb).sum 0 tx := by simpa using hfr 0 tx (by simp)
      rw [htx]
      unfold frameLoop
      rw [appendFrame_own (n := (sizes fb).sum) (s := { s with blkNei := bn.map fun f => ⟨f.1, f.2, (fb ++ [b]).map fun b => neiVal f.2 b.fields f.1⟩ }) hC.deleg hC.trnH (by dsimp only; rw [hC.parentBlk, owners_length]) hfb hr0, bind_ok]
      dsimp only
      have hpt := hC.prevTrn
      rw [allKept_length] at hpt
      rw [if_neg (by rintro ⟨_, h⟩; omega), if_neg (not_cri_differs hr0), if_pos ⟨rfl, hC.deleg⟩,
        put_end 4 _ _ ((sizes fb).sum : Int) (by rw [hC.blkFirst, offsets_length, sizes_length]) (by omega) (by omega) (by omega), bind_ok]
      refine ⟨_, frameLoop_own (H := H) hfb txs (0 + 1) ((sizes fb).sum + 1) _ _ (by omega) hC.deleg hC.trnH ?_ ?_, ?_⟩
      · dsimp only; rw [hC.parentBlk, List.length_append, owners_length]; rfl
      · intro j tx' hj
        have := hfr (j + 1) tx' (by simpa using hj)
        rw [show (sizes fb).sum + 1 + j = (sizes fb).sum + (j + 1) by omega, show 0 + 1 + j = j + 1 by omega]
        exact this
      refine { hC with blkFirst := ?_, parentBlk := ?_, neiB := rfl }
      · dsimp only; rw [hC.blkFirst, sizes_snoc, offsets_snoc]; simp
      · dsimp only; rw [hC.parentBlk, sizes_snoc, owners_snoc, sizes_length, htx]; simp [List.replicate_succ]
  obtain ⟨s1, e1, hC1⟩ := hframes
  rw [e1, bind_ok]
  obtain ⟨s2, e2, hC2⟩ := contentsLoop_ok hR.tx b.txs s1 (allKept i fb) (allKept i rest) 0 ((sizes fb).sum : Int) hC1 hTeq
    (by rw [allKept_length]; simp) hsrc
  exact ⟨s2, e2, by rw [allKept_snoc]; exact hC2⟩

/-- The first blocks of a chain whose hashes are all known. -/
theorem ingest_prefix {i : Iface} {d : Bool} {H : Hashes} {bn tn : List (String × Nat)} {src : Txi → Nat}
    {bs : List Blk} (hR : Ready i d H bn tn src bs) (tail rest : List Blk) :
    ∀ (fb : List Blk) (s : St) (l : Int), bs = fb ++ (rest ++ tail) → l + 1 = (allKept i fb).length →
    Closed d H bn tn src s fb fb (allKept i fb) →
    ∃ s', ingest i fb.length l rest s = .ok s' ∧ Closed d H bn tn src s' (fb ++ rest) (fb ++ rest) (allKept i (fb ++ rest)) := by
  induction rest with
  | nil => intro fb s l hs _ hC; exact ⟨s, rfl, by simpa using hC⟩
  | cons b rest ih =>
    intro fb s l hs hl hC
    have hpre : ∀ x ∈ fb, x.txs ≠ [] := fun x hx => hR.nonempty x (by rw [hs]; simp [hx])
    have hb : b.txs ≠ [] := hR.nonempty b (by rw [hs]; simp)
    have hcnt := hR.tx.count
    rw [show bs.flatMap (fun b => kept i 0 b.txs) = allKept i fb ++ kept i 0 b.txs ++ allKept i (rest ++ tail) by rw [hs]; simp [allKept],
      List.length_append, List.length_append, kept_length, allKept_length] at hcnt
    have hbpos : 0 < b.txs.length := List.length_pos_iff.mpr hb
    have hle := length_le_sizes hpre
    have h1 : ∃ s1, (if s.delegated then indexBlock s fb.length l b.txs else .ok s) = .ok s1 ∧
        Closed d H bn tn src s1 (if d then fb ++ [b] else fb) fb (allKept i fb) := by
      rw [hC.deleg]
      cases d with
      | true =>
        rw [if_pos rfl, if_pos rfl]
        exact indexBlock_ok hC b (by omega) (allKept_length i fb) (by rw [allKept_length]; omega) l hl
      | false => rw [if_neg (by simp), if_neg (by simp)]; exact ⟨s, rfl, hC⟩
    obtain ⟨s1, e1, hC1⟩ := h1
    obtain ⟨s2, e2, hC2⟩ := block_ok hR (rest := rest ++ tail) (by rw [hs]; simp) hC1
    obtain ⟨s3, e3, hC3⟩ := ih (fb ++ [b]) s2 (l + b.txs.length) (by rw [hs]; simp)
      (by rw [allKept_snoc, List.length_append, kept_length]; omega) hC2
    refine ⟨s3, ?_, by simpa using hC3⟩
    have e4 : (do let s2 ← appendBlock i s1 b; ingest i (fb.length + 1) (l + b.txs.length) rest s2) = .ok s3 := by
      rw [e2, bind_ok]
      rw [List.length_append] at e3
      exact e3
    unfold ingest
    dsimp only
    by_cases hd : s.delegated = true
    · rw [if_pos hd] at e1 ⊢
      rw [e1, bind_ok]
      exact e4
    · rw [if_neg hd] at e1 ⊢
      rw [e1, bind_ok]
      exact e4

theorem ingest_ok {i : Iface} {d : Bool} {H : Hashes} {bn tn : List (String × Nat)} {src : Txi → Nat}
    {bs : List Blk} (hR : Ready i d H bn tn src bs) (rest : List Blk) :
    ∀ (fb : List Blk) (s : St) (l : Int), bs = fb ++ rest → l + 1 = (allKept i fb).length →
    Closed d H bn tn src s fb fb (allKept i fb) →
    ∃ s', ingest i fb.length l rest s = .ok s' ∧ Closed d H bn tn src s' bs bs (allKept i bs) := by
  intro fb s l hs hl hC
  obtain ⟨s', e, h⟩ := ingest_prefix hR [] rest fb s l (by rw [List.append_nil]; exact hs) hl hC
  exact ⟨s', e, by rw [hs]; exact h⟩

end Verif.ChainStore
