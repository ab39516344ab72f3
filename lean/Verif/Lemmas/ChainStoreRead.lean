import Verif.Lemmas.ChainStoreRun

/-! # Lemmas about the stored chain: what the files give when read -/

namespace Verif.ChainStore

theorem sum_take_le (ns : List Nat) (k : Nat) : (ns.take k).sum ≤ ns.sum := by
  conv => rhs; rw [← List.take_append_drop k ns, List.sum_append]
  omega

theorem sum_take_succ (ns : List Nat) (k m : Nat) (h : ns[k]? = some m) : (ns.take (k + 1)).sum = (ns.take k).sum + m := by
  rw [List.take_add_one, h]; simp

theorem lt_of_getElem? {α : Type} {l : List α} {k : Nat} {x : α} (h : l[k]? = some x) : k < l.length := by
  by_contra hc
  rw [List.getElem?_eq_none (by omega)] at h
  simp at h

theorem get_offsets (ns : List Nat) (k : Nat) (hk : k < ns.length) (hs : ns.sum < 2 ^ 63) :
    get (offsets ns) k = .ok ((ns.take k).sum : Int) :=
  get_nat _ _ k _ rfl (offsets_getElem? ns k hk) (by have := sum_take_le ns k; omega)

/-- The number of members of a range, as read from a table of first members. -/
theorem count_range (ns : List Nat) (k m N : Nat) (total : Int) (hN : N = ns.length) (ht : total = ns.sum) (hm : ns[k]? = some m) (hs : ns.sum < 2 ^ 63) :
    (do
      let first ← get (offsets ns) k
      if (k : Int) + 1 < N then do
        let next ← get (offsets ns) ((k : Int) + 1)
        .ok (next - first)
      else .ok (total - first)) = (.ok (m : Int) : Except Fail Int) := by
  have hk := lt_of_getElem? hm
  have h1 := sum_take_succ ns k m hm
  rw [get_offsets ns k hk hs, bind_ok]
  by_cases hl : k + 1 < ns.length
  · rw [if_pos (by omega), show (k : Int) + 1 = ((k + 1 : Nat) : Int) by omega, get_offsets ns (k + 1) hl hs, bind_ok]
    congr 1; omega
  · rw [if_neg (by omega)]
    have : ns.take (k + 1) = ns := List.take_of_length_le (by omega)
    rw [this] at h1
    congr 1; omega

theorem get_map {α : Type} (l : List α) (f : α → Nat) (k : Nat) (x : α) (h : l[k]? = some x) (hv : f x < 2 ^ 63) :
    get (l.map f) k = .ok (f x : Int) :=
  get_nat _ _ k _ rfl (by rw [List.getElem?_map, h]; rfl) hv

theorem get_owners (ns : List Nat) (k n m : Nat) (h : ns[k]? = some m) (hn : n < m) (hs : ns.length < 2 ^ 63) :
    get (owners ns) (((ns.take k).sum + n : Nat) : Int) = .ok (k : Int) :=
  get_nat _ _ _ k rfl (owners_at ns k n m h hn) (by have := lt_of_getElem? h; omega)

theorem readSats_ok (s : St) (l : List Txo) (hs : s.txoSats = l.map (·.sats.toNat)) (hb : ∀ x ∈ l, 0 ≤ x.sats ∧ x.sats < 256 ^ 7) (n : Nat) :
    ∀ (k : Nat), k + n ≤ l.length → readSats s n k = .ok (((l.drop k).take n).map (·.sats)) := by
  induction n with
  | zero => intro k _; simp [readSats]
  | succ n ih =>
    intro k hk
    have hlt : k < l.length := by omega
    have hx := hb l[k] (List.getElem_mem hlt)
    unfold readSats
    rw [hs, get_map l _ k l[k] (List.getElem?_eq_getElem hlt) (by omega), bind_ok, show (k : Int) + 1 = ((k + 1 : Nat) : Int) by omega, ih (k + 1) (by omega), bind_ok,
      List.drop_eq_getElem_cons hlt, List.take_succ_cons, List.map_cons]
    congr 2
    omega

theorem flatten_range {α : Type} (l : List (List α)) (k : Nat) (row : List α) (h : l[k]? = some row) :
    (l.flatten.drop ((l.take k).map List.length).sum).take row.length = row := by
  induction l generalizing k with
  | nil => simp at h
  | cons a l ih =>
    cases k with
    | zero => simp only [List.getElem?_cons_zero, Option.some.injEq] at h; subst h; simp
    | succ k =>
      rw [List.getElem?_cons_succ] at h
      have := ih k h
      simp only [List.take_succ_cons, List.map_cons, List.sum_cons, List.flatten_cons]
      rw [List.drop_append, List.drop_of_length_le (by omega), List.nil_append, show a.length + ((l.take k).map List.length).sum - a.length = ((l.take k).map List.length).sum by omega]
      exact this

theorem txosOf_at (ts : List Tx) (g n : Nat) (tx : Tx) (x : Txo) (h : ts[g]? = some tx) (hx : tx.txos[n]? = some x) :
    (txosOf ts)[((ts.take g).map (·.txos.length)).sum + n]? = some x := by
  have h1 : (ts.map (·.txos))[g]? = some tx.txos := by rw [List.getElem?_map, h]; rfl
  have := flatten_at _ g n _ h1 (lt_of_getElem? hx)
  rw [hx, ← List.map_take, List.map_map] at this
  exact this

theorem txisOf_at (ts : List Tx) (g n : Nat) (tx : Tx) (x : Txi) (h : ts[g]? = some tx) (hx : tx.txis[n]? = some x) :
    (txisOf ts)[((ts.take g).map (·.txis.length)).sum + n]? = some x := by
  have h1 : (ts.map (·.txis))[g]? = some tx.txis := by rw [List.getElem?_map, h]; rfl
  have := flatten_at _ g n _ h1 (lt_of_getElem? hx)
  rw [hx, ← List.map_take, List.map_map] at this
  exact this

/-- What the store gives when read, for a chain that is wholly stored. -/
structure Reads (H : Hashes) (bn tn : List (String × Nat)) (src : Txi → Nat) (s : St) (bs : List Blk) (T : List Tx) : Prop where
  txCount : ∀ (k : Nat) b, bs[k]? = some b → transactionCount s k = .ok (b.txs.length : Int)
  nthTx : ∀ (k n : Nat) b, bs[k]? = some b → nthTransaction s k n = .ok (((sizes (bs.take k)).sum + n : Nat) : Int)
  parentBlk : ∀ (k n : Nat) b, bs[k]? = some b → n < b.txs.length → parentBlockOf s (((sizes (bs.take k)).sum + n : Nat) : Int) = .ok (k : Int)
  txiCount : ∀ (g : Nat) t, T[g]? = some t → txiCount s g = .ok (t.txis.length : Int)
  txoCount : ∀ (g : Nat) t, T[g]? = some t → txoCount s g = .ok (t.txos.length : Int)
  nthTxi : ∀ (g n : Nat) t, T[g]? = some t → nthTxi s g n = .ok ((((T.take g).map (·.txis.length)).sum + n : Nat) : Int)
  nthTxo : ∀ (g n : Nat) t, T[g]? = some t → nthTxo s g n = .ok ((((T.take g).map (·.txos.length)).sum + n : Nat) : Int)
  allSats : ∀ (g : Nat) t, T[g]? = some t → allTxoSatoshis s g = .ok (t.txos.map (·.sats))
  sats : ∀ (h : Nat) x, (txosOf T)[h]? = some x → satoshis s h = .ok x.sats
  address : ∀ (h : Nat) x, (txosOf T)[h]? = some x → addressOf s h = .ok (indexOf H.adr x.addr)
  source : ∀ (h : Nat) x, (txisOf T)[h]? = some x → src x < 256 ^ 4 → sourceTxo s h = .ok (src x, x.vout)
  parentTxi : ∀ (g n : Nat) t, T[g]? = some t → n < t.txis.length →
    parentTransOfTxi s ((((T.take g).map (·.txis.length)).sum + n : Nat) : Int) = .ok (g : Int)
  parentTxo : ∀ (g n : Nat) t, T[g]? = some t → n < t.txos.length →
    parentTransOfTxo s ((((T.take g).map (·.txos.length)).sum + n : Nat) : Int) = .ok (g : Int)
  addr : ∀ x ∈ txosOf T, addressTxos s (indexOf H.adr x.addr) = .ok ((positions ((txosOf T).map (·.addr)) x.addr).map fun n : Nat => (n : Int))

theorem reads {i : Iface} {d : Bool} {H : Hashes} {bn tn : List (String × Nat)} {src : Txi → Nat} {bs : List Blk} {s : St}
    (hC : Closed d H bn tn src s bs bs (allKept i bs)) (hT : TxReady i H tn (allKept i bs)) (hb : H.blk.length = bs.length)
    (ht : H.trn.length = (allKept i bs).length) (hne : ∀ b ∈ bs, b.txs ≠ []) : Reads H bn tn src s bs (allKept i bs) := by
  have hcnt := hT.count
  have htxi := hT.txis
  have htxo := hT.txos
  have hlb := length_le_sizes hne
  have hk := allKept_length i bs
  generalize hTe : allKept i bs = T at *
  have hti := sum_lengths_txis T
  have hto := sum_lengths_txos T
  constructor
  · intro k b h
    unfold transactionCount
    rw [hC.blkH, hC.trnH, hC.blkFirst]
    exact count_range (sizes bs) k _ _ _ (by rw [hb, sizes_length]) (by rw [ht, hk]) (by simp [sizes, h]) (by omega)
  · intro k n b h
    unfold nthTransaction
    rw [hC.blkFirst, get_offsets (sizes bs) k (by rw [sizes_length]; exact lt_of_getElem? h) (by omega), bind_ok]
    simp [sizes, List.map_take]
  · intro k n b h hn
    unfold parentBlockOf
    rw [hC.parentBlk]
    have := get_owners (sizes bs) k n _ (by simp [sizes, h]) hn (by rw [sizes_length]; omega)
    simp only [sizes, List.map_take] at this ⊢
    exact this
  · intro g t h
    unfold ChainStore.txiCount
    rw [hC.trnH, hC.firstTxi, hC.tx]
    exact count_range (T.map (·.txis.length)) g t.txis.length H.trn.length (count ((txisOf T).map src)) (by rw [ht]; simp) (by rw [hti]; simp [count]) (by simp [h]) (by omega)
  · intro g t h
    unfold ChainStore.txoCount
    rw [hC.trnH, hC.firstTxo, hC.sats]
    exact count_range (T.map (·.txos.length)) g t.txos.length H.trn.length (count ((txosOf T).map (·.sats.toNat))) (by rw [ht]; simp) (by rw [hto]; simp [count]) (by simp [h]) (by omega)
  · intro g n t h
    unfold ChainStore.nthTxi
    rw [hC.firstTxi, get_offsets _ g (by simpa using lt_of_getElem? h) (by omega), bind_ok]
    simp [List.map_take]
  · intro g n t h
    unfold ChainStore.nthTxo
    rw [hC.firstTxo, get_offsets _ g (by simpa using lt_of_getElem? h) (by omega), bind_ok]
    simp [List.map_take]
  · intro g t h
    have hg := lt_of_getElem? h
    have hrow : (T.map (·.txos))[g]? = some t.txos := by rw [List.getElem?_map, h]; rfl
    have hfr := flatten_range _ g _ hrow
    rw [← List.map_take, List.map_map] at hfr
    have hsucc := sum_take_succ (T.map (·.txos.length)) g t.txos.length (by simp [h])
    have hle := sum_take_le (T.map (·.txos.length)) (g + 1)
    have hlast : (if (g : Int) = count s.trnFirstTxo - 1 then (.ok (count s.txoSats) : Except Fail Int) else get s.trnFirstTxo ((g : Int) + 1)) =
        .ok (((((T.map (·.txos.length)).take g).sum + t.txos.length : Nat)) : Int) := by
      rw [hC.firstTxo, hC.sats]
      by_cases hl : g + 1 < T.length
      · rw [if_neg (by simp only [count, offsets_length, List.length_map]; omega), show (g : Int) + 1 = ((g + 1 : Nat) : Int) by omega,
          get_offsets _ (g + 1) (by simpa using hl) (by omega), hsucc]
      · have : (T.map (·.txos.length)).take (g + 1) = T.map (·.txos.length) := List.take_of_length_le (by simp; omega)
        rw [this, hto] at hsucc
        rw [if_pos (by simp only [count, offsets_length, List.length_map]; omega), ← hsucc]
        simp [count]
    unfold allTxoSatoshis
    rw [hC.firstTxo] at hlast ⊢
    rw [get_offsets _ g (by simpa using hg) (by omega), bind_ok]
    have hread := readSats_ok s (txosOf T) hC.sats hT.sats t.txos.length ((T.map (·.txos.length)).take g).sum (by rw [← hto]; omega)
    have hbody : ∀ v : Int, v = (((((T.map (·.txos.length)).take g).sum + t.txos.length : Nat)) : Int) →
        readSats s (v - ((((T.map (·.txos.length)).take g).sum : Nat) : Int)).toNat ((((T.map (·.txos.length)).take g).sum : Nat) : Int) = .ok (t.txos.map (·.sats)) := by
      rintro v rfl
      rw [show ((((((T.map (·.txos.length)).take g).sum + t.txos.length : Nat)) : Int) - ((((T.map (·.txos.length)).take g).sum : Nat) : Int)).toNat = t.txos.length by omega, hread]
      congr 2
      rw [← List.map_take]
      exact hfr
    dsimp only
    by_cases hc : (g : Int) = count (offsets (T.map (·.txos.length))) - 1
    · rw [if_pos hc] at hlast ⊢
      rw [bind_ok]
      exact hbody _ (Except.ok.inj hlast)
    · rw [if_neg hc] at hlast ⊢
      rw [hlast, bind_ok]
      exact hbody _ rfl
  · intro h x hx
    have := hT.sats x (List.mem_of_getElem? hx)
    unfold satoshis
    rw [hC.sats, get_map _ _ h x hx (by omega)]
    congr 1; omega
  · intro h x hx
    obtain ⟨n, e1, e2, _⟩ := indexOf_lt (indexOf_mem (hT.known x (List.mem_of_getElem? hx)))
    have := lt_of_getElem? e2
    have := hT.adr
    unfold addressOf
    rw [hC.address, get_map _ _ h x hx (by omega)]
    congr 1; omega
  · intro h x hx hs
    have := hT.vout x (List.mem_of_getElem? hx)
    unfold sourceTxo
    rw [hC.tx, get_map _ _ h x hx (by omega), bind_ok, hC.vout, get_map _ _ h x hx (by omega), bind_ok]
    congr 2; omega
  · intro g n t h hn
    unfold parentTransOfTxi
    rw [hC.parentTxi, List.map_take]
    exact get_owners _ g n _ (by simp [h]) hn (by simp; omega)
  · intro g n t h hn
    unfold parentTransOfTxo
    rw [hC.parentTxo, List.map_take]
    exact get_owners _ g n _ (by simp [h]) hn (by simp; omega)
  · intro x hx
    have hm : x.addr ∈ (txosOf T).map (·.addr) := List.mem_map.mpr ⟨x, hx, rfl⟩
    obtain ⟨p, ps, e1, e2, e3⟩ := hC.addr.some _ hm
    obtain ⟨n, f1, f2, _⟩ := indexOf_lt (indexOf_mem (hT.known x hx))
    have hp : p < (txosOf T).length := by
      have : p ∈ positions ((txosOf T).map (·.addr)) x.addr := by rw [e1]; simp
      unfold positions at this
      obtain ⟨y, hy, rfl⟩ := List.mem_map.mp this
      have := List.mem_filter.mp hy
      have := List.snd_lt_add_of_mem_zipIdx this.1
      simpa using this
    unfold addressTxos
    rw [get_nat _ _ n p f1 (by rw [f1] at e2; simpa using e2) (by omega), bind_ok, e3, e1]
    simp

/-! ## The readiness of a chain -/

theorem gatherHashes_ok (bs : List Blk) : ∀ (h : Hashes), (∀ b ∈ bs, b.txs ≠ []) →
    gatherHashes bs h = .ok ⟨h.blk ++ bs.map (·.hash), h.trn ++ (bs.flatMap (·.txs)).map (·.hash),
      h.adr ++ ((bs.flatMap (·.txs)).flatMap (·.txos)).map (·.addr)⟩ := by
  have hfold : ∀ (txs : List Tx) (h : Hashes),
      txs.foldl (fun h tx => { h with trn := h.trn ++ [tx.hash], adr := h.adr ++ tx.txos.map (·.addr) }) h =
        ⟨h.blk, h.trn ++ txs.map (·.hash), h.adr ++ (txs.flatMap (·.txos)).map (·.addr)⟩ := by
    intro txs
    induction txs with
    | nil => intro h; simp
    | cons tx txs ih => intro h; rw [List.foldl_cons, ih]; simp
  induction bs with
  | nil => intro h _; simp [gatherHashes]
  | cons b bs ih =>
    intro h hne
    unfold gatherHashes appendHashes
    rw [if_neg (hne b (by simp)), bind_ok, ih _ (fun x hx => hne x (by simp [hx])), hfold]
    simp

theorem create_closed {p q : Int} (hp : p ≤ 0) (hq : q ≤ 0) (d : Bool) (H : Hashes) (bn tn : List (String × Nat)) (src : Txi → Nat) :
    Closed d H bn tn src (create p q d H bn tn) [] [] [] := by
  constructor <;> first | rfl | skip
  · constructor
    · intro a ha; simp [txosOf] at ha
    · left; rfl
    · intro a _ _; rfl
    · intro a ha; simp [txosOf] at ha
    · intro k _; exact ⟨rfl, fun h => by simp [create] at h⟩
  · simpa [create, txosOf] using hp
  · simpa [create] using hq
  · intro h; exact absurd rfl h

/-- Numbering by the list of all outputs' addresses is numbering by first appearance. -/
theorem inOrder_self (outs : List Bytes) : InOrder outs outs := by
  intro i j a b hij ha hb hnew
  have hj : indexOf outs b = j := by
    apply indexOf_first hb
    intro k hk he
    exact hnew (List.mem_iff_getElem?.mpr ⟨k, by rw [List.getElem?_take_of_lt hk]; exact he⟩)
  obtain ⟨n, e1, e2, e3⟩ := indexOf_lt (indexOf_mem (List.mem_of_getElem? ha))
  have : n ≤ i := by
    by_contra hc
    exact e3 i (by omega) ha
  omega

theorem kept_eq (i : Iface) (txs : List Tx) : ∀ (t : Nat), kept i t txs = (txs.zipIdx t).map fun x => { x.1 with txis := storedTxis i x.2 x.1 } := by
  induction txs with
  | nil => intro t; rfl
  | cons tx txs ih => intro t; simp [kept, ih]

theorem kept_txos (i : Iface) (txs : List Tx) : ∀ (t : Nat), (kept i t txs).map (·.txos) = txs.map (·.txos) := by
  induction txs with
  | nil => intro t; rfl
  | cons tx txs ih => intro t; simp [kept, ih]

theorem txosOf_allKept (i : Iface) (bs : List Blk) : txosOf (allKept i bs) = (bs.flatMap (·.txs)).flatMap (·.txos) := by
  induction bs with
  | nil => rfl
  | cons b bs ih =>
    have h2 : txosOf (allKept i (b :: bs)) = txosOf (kept i 0 b.txs) ++ txosOf (allKept i bs) := by simp [txosOf, allKept]
    rw [h2, ih]
    have : txosOf (kept i 0 b.txs) = b.txs.flatMap (·.txos) := by
      unfold txosOf; rw [List.flatMap_def, kept_txos, ← List.flatMap_def]
    rw [this]; simp

theorem allKept_at (i : Iface) (bs : List Blk) (k t : Nat) (b : Blk) (tx : Tx) (hb : bs[k]? = some b) (ht : b.txs[t]? = some tx) :
    (allKept i bs)[(sizes (bs.take k)).sum + t]? = some { tx with txis := storedTxis i t tx } := by
  have h1 : (bs.map fun b => kept i 0 b.txs)[k]? = some (kept i 0 b.txs) := by rw [List.getElem?_map, hb]; rfl
  have h2 := flatten_at _ k t _ h1 (by rw [kept_length]; exact lt_of_getElem? ht)
  rw [← List.map_take, List.map_map] at h2
  have h3 : (List.length ∘ fun b : Blk => kept i 0 b.txs) = fun b => b.txs.length := by funext b; simp [kept_length]
  rw [h3] at h2
  unfold allKept
  rw [List.flatMap_def]
  have h4 : (kept i 0 b.txs)[t]? = some { tx with txis := storedTxis i t tx } := by
    rw [kept_eq, List.getElem?_map, List.getElem?_zipIdx, ht]; simp
  rw [← h4]
  exact h2

theorem allTxs_at (bs : List Blk) (k t : Nat) (b : Blk) (tx : Tx) (hb : bs[k]? = some b) (ht : b.txs[t]? = some tx) :
    (bs.flatMap (·.txs))[(sizes (bs.take k)).sum + t]? = some tx := by
  have h1 : (bs.map (·.txs))[k]? = some b.txs := by rw [List.getElem?_map, hb]; rfl
  have h2 := flatten_at _ k t _ h1 (lt_of_getElem? ht)
  rw [← List.map_take, List.map_map, ht] at h2
  exact h2

end Verif.ChainStore
