import Verif.Model.Handles
import Verif.Props.ChainStore

/-!
# C89: every way of naming a block, transaction, input or output of a stored chain leads to it
-/

namespace Verif.Handles

open Verif.ChainStore

/-! ## Specification: what a way of naming means, in terms of the chain -/

/-- The block at height `k` is what the name means. -/
def BlkE.Is (bs : List Blk) : BlkE → Nat → Prop
  | .genesis, k => k = 0 ∧ k < bs.length
  | .latest, k => k + 1 = bs.length
  | .byHeight h, k => h = k ∧ k < bs.length
  | .byHash x, k => (bs[k]?).map (·.hash) = some x
  | .ofHash x, k => (bs[k]?).map (·.hash) = some x
  | .next e, k => ∃ j, e.Is bs j ∧ k = j + 1 ∧ k < bs.length
  | .parent e, k => ∃ j, e.Is bs j ∧ j = k + 1
  | .object e, k => e.Is bs k

/-- The input at height `h` is `x`, in a transaction of block `k`. -/
def InputAt (i : Iface) (bs : List Blk) (h k : Nat) (x : Txi) : Prop :=
  ∃ b t tx n, bs[k]? = some b ∧ b.txs[t]? = some tx ∧ (spends i t tx)[n]? = some x ∧ h = inputsBefore i bs (firstAt bs k + t) + n

mutual
/-- The transaction at height `g` is what the name means. A hash means the first transaction with it. -/
def TrnE.Is (i : Iface) (bs : List Blk) : TrnE → Nat → Prop
  | .genesis, g => g = 0 ∧ g < (allTxs bs).length
  | .latest, g => g + 1 = (allTxs bs).length
  | .byHeight h, g => h = g ∧ g < (allTxs bs).length
  | .byHash x, g => ((allTxs bs)[g]?).map (·.hash) = some x ∧ ∀ j, j < g → ((allTxs bs)[j]?).map (·.hash) ≠ some x
  | .ofHash x, g => ((allTxs bs)[g]?).map (·.hash) = some x ∧ ∀ j, j < g → ((allTxs bs)[j]?).map (·.hash) ≠ some x
  | .next e, g => ∃ j, e.Is i bs j ∧ g = j + 1 ∧ g < (allTxs bs).length
  | .previous e, g => ∃ j, e.Is i bs j ∧ j = g + 1
  | .object e, g => e.Is i bs g
  | .nth b n, g => ∃ (k t : Nat) (blk : Blk), b.Is bs k ∧ bs[k]? = some blk ∧ n = t ∧ t < blk.txs.length ∧ g = firstAt bs k + t
  | .sourceTrans x, g => ∃ (h k : Nat) (y : Txi), x.Is i bs h ∧ InputAt i bs h k y ∧ Refers i bs k y g ∧ g < (allTxs bs).length
/-- The input at height `h` is what the name means. -/
def TxiE.Is (i : Iface) (bs : List Blk) : TxiE → Nat → Prop
  | .byHeight h', h => h' = h ∧ h < (inputs i bs).length
  | .nth t n, h => ∃ (g m : Nat) (row : List Txi), t.Is i bs g ∧ (inputRows i bs)[g]? = some row ∧ n = m ∧ m < row.length ∧ h = inputsBefore i bs g + m
  | .ofParent t n, h => ∃ (g m : Nat) (row : List Txi), t.Is i bs g ∧ (inputRows i bs)[g]? = some row ∧ n = m ∧ m < row.length ∧ h = inputsBefore i bs g + m
  | .object e, h => e.Is i bs h
end

/-- The output at height `h` is what the name means. -/
def TxoE.Is (i : Iface) (bs : List Blk) : TxoE → Nat → Prop
  | .byHeight h', h => h' = h ∧ h < (outputs bs).length
  | .nth t n, h => ∃ (g m : Nat) (tx : Tx), t.Is i bs g ∧ (allTxs bs)[g]? = some tx ∧ n = m ∧ m < tx.txos.length ∧ h = outputsBefore bs g + m
  | .ofParent t n, h => ∃ (g m : Nat) (tx : Tx), t.Is i bs g ∧ (allTxs bs)[g]? = some tx ∧ n = m ∧ m < tx.txos.length ∧ h = outputsBefore bs g + m
  | .source x, h => ∃ (hx k g : Nat) (y : Txi) (tx : Tx), x.Is i bs hx ∧ InputAt i bs hx k y ∧ Refers i bs k y g ∧ (allTxs bs)[g]? = some tx ∧
      y.vout.toNat < tx.txos.length ∧ h = outputsBefore bs g + y.vout.toNat
  | .object e, h => e.Is i bs h

/-- The handle was looked up by hash, and nothing has been done with it. -/
def BlkE.fresh : BlkE → Bool
  | .byHash _ => true
  | _ => false

/-- The handle was looked up by hash, and nothing has been done with it. -/
def TrnE.fresh : TrnE → Bool
  | .byHash _ => true
  | _ => false

/-! ## Handles with a height -/

/-- `v` names height `k` and, unless `f`, can be asked for its hash. -/
def Names (f : Bool) (v : HI) (k : Nat) : Prop :=
  v = .handle (.ofHeight k) ∨ v = .obj k ∨ (f = true ∧ v = .handle (.found k))

theorem names_height {f : Bool} {v : HI} {k : Nat} (h : Names f v k) (l : List Bytes) : v.height l = .ok k := by
  rcases h with rfl | rfl | ⟨_, rfl⟩ <;> rfl

theorem names_invalid {f : Bool} {v : HI} {k : Nat} (h : Names f v k) (l : List Bytes) : v.isInvalid l = .ok false := by
  unfold HI.isInvalid
  rw [names_height h, bind_ok, decide_eq_false (by omega)]

theorem names_spec {f : Bool} {v : HI} {k : Nat} (h : Names f v k) : v.heightSpecified = true ∧ v.hashSpecified = true := by
  rcases h with rfl | rfl | ⟨_, rfl⟩ <;> exact ⟨rfl, rfl⟩

theorem names_object {f : Bool} {v : HI} {k : Nat} (h : Names f v k) (l : List Bytes) : v.object l = .ok k := by
  unfold HI.object
  rw [if_pos (names_spec h).1, names_height h]

theorem names_hash {v : HI} {k : Nat} (h : Names false v k) (l : List Bytes) : v.hash l = hashAt l k := by
  rcases h with rfl | rfl | ⟨h, _⟩
  · rfl
  · rfl
  · cases h

theorem names_next {f : Bool} {v : HI} {k : Nat} (h : Names f v k) (l : List Bytes) (hk : k + 1 < l.length) :
    ∃ w, v.next l = .ok w ∧ Names false w (k + 1) := by
  refine ⟨_, ?_, Or.inl rfl⟩
  unfold HI.next
  rw [names_height h, bind_ok, if_neg (by omega)]
  rfl

theorem names_parent {f : Bool} {v : HI} {k : Nat} (h : Names f v (k + 1)) (l : List Bytes) :
    ∃ w, v.parent l = .ok w ∧ Names false w k := by
  refine ⟨_, ?_, Or.inl rfl⟩
  unfold HI.parent
  rw [names_invalid h, bind_ok, if_neg (by simp), if_neg (by simp [(names_spec h).1]), names_height h, bind_ok]
  rw [show ((k + 1 : Nat) : Int) - 1 = k by omega]

theorem names_latest {l : List Bytes} {k : Nat} (h : k + 1 = l.length) : Names false (HI.latest l) k := by
  left
  unfold HI.latest
  rw [if_neg (by omega), show ((l.length : Nat) : Int) - 1 = k by omega]

theorem names_byHash {l : List Bytes} {x : Bytes} {k : Nat} (h : indexOf l x = k) : ∃ w, HI.byHash l x = .ok w ∧ Names true w k := by
  refine ⟨_, ?_, Or.inr (Or.inr ⟨rfl, rfl⟩)⟩
  unfold HI.byHash
  rw [h, if_neg (by omega)]

theorem object_foreign {l : List Bytes} {x : Bytes} {k : Nat} (h : indexOf l x = k) : HI.object l (.foreign none (some x)) = .ok k := by
  show (Except.ok (indexOf l x) : Except Fail Int) = _
  rw [h]

/-! ## The reading of a stored chain -/

/-- The facts about the store that the names use. -/
structure Facts (i : Iface) (bs : List Blk) (s : St) : Prop where
  blk : s.blkHashes = bs.map (·.hash)
  trn : s.trnHashes = (allTxs bs).map (·.hash)
  adr : s.adrHashes = (outputs bs).map (·.addr)
  nodup : (bs.map (·.hash)).Nodup
  nthTx : ∀ (k n : Nat) b, bs[k]? = some b → nthTransaction s k n = .ok ((firstAt bs k + n : Nat) : Int)
  nthTxi : ∀ (g n : Nat) row, (inputRows i bs)[g]? = some row → nthTxi s g n = .ok ((inputsBefore i bs g + n : Nat) : Int)
  nthTxo : ∀ (g n : Nat) tx, (allTxs bs)[g]? = some tx → nthTxo s g n = .ok ((outputsBefore bs g + n : Nat) : Int)
  source : ∀ (h k g : Nat) x, InputAt i bs h k x → Refers i bs k x g → g < (allTxs bs).length → sourceTxo s h = .ok (g, x.vout) ∧ 0 ≤ x.vout
  sats : ∀ (h : Nat) o, (outputs bs)[h]? = some o → satoshis s h = .ok o.sats
  address : ∀ (h : Nat) o, (outputs bs)[h]? = some o → addressOf s h = .ok (indexOf s.adrHashes o.addr)

theorem facts {p q : Int} (hp : p ≤ 0) (hq : q ≤ 0) {i : Iface} {d : Bool} {bn tn : List (String × Nat)} {bs : List Blk}
    (hg : Good i d bn tn bs) : ∃ s, store p q i d bn tn bs = .ok s ∧ Facts i bs s := by
  obtain ⟨s, e, hC, hR⟩ := store_ok hp hq hg
  have hout : ∀ (h : Nat) o, (outputs bs)[h]? = some o → (txosOf (allKept i bs))[h]? = some o := fun h o ho => by rw [← outputs_eq]; exact ho
  refine ⟨s, e, ?_, ?_, ?_, hg.blkHashes, ?_, ?_, ?_, ?_, ?_, ?_⟩
  · rw [hC.blkH]; rfl
  · rw [hC.trnH]; rfl
  · rw [hC.adrH]; rfl
  · intro k n b hb
    exact hR.nthTx k n b hb
  · intro g n row hrow
    rw [inputRows_eq, List.getElem?_map] at hrow
    cases hk : (allKept i bs)[g]? with
    | none => rw [hk] at hrow; cases hrow
    | some kt => rw [inputsBefore_eq]; exact hR.nthTxi g n kt hk
  · intro g n tx htx
    have hl : g < (allKept i bs).length := by rw [← allTxs_length]; exact lt_of_getElem? htx
    rw [outputsBefore_eq i]; exact hR.nthTxo g n _ (List.getElem?_eq_getElem hl)
  · rintro h k g x ⟨b, t, tx, n, hb, ht, hx, rfl⟩ hr hgl
    have hk := allKept_at i bs k t b tx hb ht
    rw [← firstAt_eq] at hk
    have hx' : (storedTxis i t tx)[n]? = some x := by rw [← spends_eq]; exact hx
    have hsz := good_sizes hg
    have hs := refers_srcOf (lt_of_getElem? hb) hr (by omega)
    have hin := txisOf_at _ _ n _ x hk hx'
    have hv := hg.vout x (by rw [inputs_eq]; exact List.mem_of_getElem? hin)
    have hcnt := hg.trnCount
    refine ⟨?_, hv.1⟩
    rw [← hs, inputsBefore_eq i]
    exact hR.source _ x hin (by rw [hs]; omega)
  · intro h o ho
    exact hR.sats h o (hout h o ho)
  · intro h o ho
    rw [hC.adrH]
    exact hR.address h o (hout h o ho)

theorem indexOf_block {i : Iface} {bs : List Blk} {s : St} (hF : Facts i bs s) {x : Bytes} {k : Nat}
    (h : (bs[k]?).map (·.hash) = some x) : indexOf s.blkHashes x = k := by
  rw [hF.blk]
  exact nodup_indexOf hF.nodup (by rw [List.getElem?_map]; exact h)

theorem indexOf_trans {i : Iface} {bs : List Blk} {s : St} (hF : Facts i bs s) {x : Bytes} {g : Nat}
    (h : ((allTxs bs)[g]?).map (·.hash) = some x) (hf : ∀ j, j < g → ((allTxs bs)[j]?).map (·.hash) ≠ some x) : indexOf s.trnHashes x = g := by
  rw [hF.trn]
  apply indexOf_first
  · rw [List.getElem?_map]; exact h
  · intro j hj
    rw [List.getElem?_map]; exact hf j hj

theorem blk_run {i : Iface} {bs : List Blk} {s : St} (hF : Facts i bs s) : ∀ (e : BlkE) (k : Nat), e.Is bs k →
    ∃ v, e.run s = .ok v ∧ Names e.fresh v k ∧ k < bs.length := by
  have hlen : s.blkHashes.length = bs.length := by rw [hF.blk, List.length_map]
  intro e
  induction e with
  | genesis => rintro k ⟨rfl, h⟩; exact ⟨_, rfl, Or.inl rfl, h⟩
  | latest => intro k h; exact ⟨_, rfl, names_latest (by rw [hlen]; exact h), by simp only [BlkE.Is] at h; omega⟩
  | byHeight h => rintro k ⟨rfl, h⟩; exact ⟨_, rfl, Or.inl rfl, h⟩
  | byHash x =>
    intro k h
    obtain ⟨w, h1, h2⟩ := names_byHash (indexOf_block hF h)
    refine ⟨w, h1, h2, ?_⟩
    cases hb : bs[k]? with
    | none => simp only [BlkE.Is] at h; rw [hb] at h; cases h
    | some b => exact lt_of_getElem? hb
  | ofHash x =>
    intro k h
    refine ⟨.obj k, ?_, Or.inr (Or.inl rfl), ?_⟩
    · simp only [BlkE.run]; rw [object_foreign (indexOf_block hF h), bind_ok]
    · cases hb : bs[k]? with
      | none => simp only [BlkE.Is] at h; rw [hb] at h; cases h
      | some b => exact lt_of_getElem? hb
  | next e ih =>
    rintro k ⟨j, hj, rfl, hk⟩
    obtain ⟨v, h1, h2, _⟩ := ih j hj
    obtain ⟨w, h3, h4⟩ := names_next h2 s.blkHashes (by rw [hlen]; exact hk)
    exact ⟨w, by simp only [BlkE.run]; rw [h1, bind_ok, h3], h4, hk⟩
  | parent e ih =>
    rintro k ⟨j, hj, rfl⟩
    obtain ⟨v, h1, h2, h3⟩ := ih _ hj
    obtain ⟨w, h4, h5⟩ := names_parent h2 s.blkHashes
    exact ⟨w, by simp only [BlkE.run]; rw [h1, bind_ok, h4], h5, by omega⟩
  | object e ih =>
    intro k h
    obtain ⟨v, h1, h2, h3⟩ := ih _ h
    exact ⟨.obj k, by simp only [BlkE.run]; rw [h1, bind_ok, names_object h2, bind_ok], Or.inr (Or.inl rfl), h3⟩

/-- An input handle or object for height `h`. -/
def XNames (v : XI) (h : Nat) : Prop := v.heightSpecified = true ∧ v.parentSpecified = false ∧ v.height = .ok h ∧ ∃ t, v.parentTrans = .ok (.handle t) ∧
  t.heightSpecified = false

theorem xnames_object {v : XI} {h : Nat} (hv : XNames v h) (s : St) (first : Words) : v.object s first = .ok h := by
  unfold XI.object
  rw [if_pos hv.1, hv.2.2.1]

theorem xnames_obj (h : Nat) : XNames (.obj h) h := ⟨rfl, rfl, rfl, _, rfl, rfl⟩

theorem object_parent {s : St} {first : Words} {f : Bool} {v : HI} {g : Nat} (hv : Names f v g) {n : Int} {h : Int}
    (hn : (do let x ← get first g; Except.ok (x + n)) = .ok h) : XI.object s first (.foreign (some (v, n)) none) = .ok h := by
  show (do
    let t ← v.object s.trnHashes
    let f ← get first t
    let n ← (Except.ok n : Except Fail Int)
    Except.ok (f + n)) = _
  rw [names_object hv, bind_ok, ← hn]
  cases get first (g : Int) <;> rfl

mutual
theorem trn_run {i : Iface} {bs : List Blk} {s : St} (hF : Facts i bs s) (e : TrnE) : ∀ g : Nat, e.Is i bs g →
    ∃ v, e.run s = .ok v ∧ Names e.fresh v g ∧ g < (allTxs bs).length := by
  have hlen : s.trnHashes.length = (allTxs bs).length := by rw [hF.trn, List.length_map]
  have hlt : ∀ (x : Bytes) (g : Nat), ((allTxs bs)[g]?).map (·.hash) = some x → g < (allTxs bs).length := by
    intro x g h
    cases hb : (allTxs bs)[g]? with
    | none => rw [hb] at h; cases h
    | some b => exact lt_of_getElem? hb
  match e with
  | .genesis => intro g h; rw [TrnE.Is] at h; obtain ⟨rfl, h⟩ := h; exact ⟨_, by rw [TrnE.run]; rfl, Or.inl rfl, h⟩
  | .latest => intro g h; rw [TrnE.Is] at h; exact ⟨_, by rw [TrnE.run], names_latest (by rw [hlen]; exact h), by omega⟩
  | .byHeight h => intro g h; rw [TrnE.Is] at h; obtain ⟨rfl, h⟩ := h; exact ⟨_, by rw [TrnE.run]; rfl, Or.inl rfl, h⟩
  | .byHash x =>
    intro g h
    rw [TrnE.Is] at h
    obtain ⟨w, h1, h2⟩ := names_byHash (indexOf_trans hF h.1 h.2)
    exact ⟨w, by rw [TrnE.run, h1], h2, hlt x g h.1⟩
  | .ofHash x =>
    intro g h
    rw [TrnE.Is] at h
    refine ⟨.obj g, ?_, Or.inr (Or.inl rfl), hlt x g h.1⟩
    rw [TrnE.run, object_foreign (indexOf_trans hF h.1 h.2), bind_ok]
  | .next e =>
    intro g h
    rw [TrnE.Is] at h
    obtain ⟨j, hj, rfl, hk⟩ := h
    obtain ⟨v, h1, h2, _⟩ := trn_run hF e j hj
    obtain ⟨w, h3, h4⟩ := names_next h2 s.trnHashes (by rw [hlen]; exact hk)
    exact ⟨w, by rw [TrnE.run, h1, bind_ok, h3], h4, hk⟩
  | .previous e =>
    intro g h
    rw [TrnE.Is] at h
    obtain ⟨j, hj, rfl⟩ := h
    obtain ⟨v, h1, h2, h3⟩ := trn_run hF e _ hj
    obtain ⟨w, h4, h5⟩ := names_parent h2 s.trnHashes
    exact ⟨w, by rw [TrnE.run, h1, bind_ok, h4], h5, by omega⟩
  | .object e =>
    intro g h
    rw [TrnE.Is] at h
    obtain ⟨v, h1, h2, h3⟩ := trn_run hF e g h
    exact ⟨.obj g, by rw [TrnE.run, h1, bind_ok, names_object h2, bind_ok], Or.inr (Or.inl rfl), h3⟩
  | .nth b n =>
    intro g h
    rw [TrnE.Is] at h
    obtain ⟨k, t, blk, hb, hbk, rfl, ht, rfl⟩ := h
    obtain ⟨v, h1, h2, _⟩ := blk_run hF b k hb
    refine ⟨_, ?_, Or.inl rfl, ?_⟩
    · rw [TrnE.run, h1, bind_ok, names_object h2, bind_ok, nthTrans, hF.nthTx k t blk hbk, bind_ok]
    · have := allKept_at i bs k t blk _ hbk (List.getElem?_eq_getElem ht)
      rw [← firstAt_eq] at this
      rw [allTxs_length i]
      exact lt_of_getElem? this
  | .sourceTrans x =>
    intro g h
    rw [TrnE.Is] at h
    obtain ⟨hx, k, y, h1, h2, h3, h4⟩ := h
    obtain ⟨v, r1, r2⟩ := txi_run hF x hx h1
    refine ⟨.handle (.ofHeight g), ?_, Or.inl rfl, h4⟩
    rw [TrnE.run, r1, bind_ok, xnames_object r2, bind_ok, sourceHandle, (hF.source hx k g y h2 h3 h4).1, bind_ok, bind_ok]
    rfl
theorem txi_run {i : Iface} {bs : List Blk} {s : St} (hF : Facts i bs s) (e : TxiE) : ∀ h : Nat, e.Is i bs h →
    ∃ v, e.run s = .ok v ∧ XNames v h := by
  match e with
  | .byHeight h => intro g h; rw [TxiE.Is] at h; obtain ⟨rfl, h⟩ := h; exact ⟨_, by rw [TxiE.run], rfl, rfl, rfl, _, rfl, rfl⟩
  | .nth t n =>
    intro h hh
    rw [TxiE.Is] at hh
    obtain ⟨g, m, row, h1, h2, rfl, h3, rfl⟩ := hh
    obtain ⟨v, r1, r2, _⟩ := trn_run hF t g h1
    refine ⟨_, by rw [TxiE.run, r1, bind_ok, names_object r2, bind_ok, nthTxiHandle, hF.nthTxi g m row h2, bind_ok], rfl, rfl, rfl, _, rfl, rfl⟩
  | .ofParent t n =>
    intro h hh
    rw [TxiE.Is] at hh
    obtain ⟨g, m, row, h1, h2, rfl, h3, rfl⟩ := hh
    obtain ⟨v, r1, r2, _⟩ := trn_run hF t g h1
    refine ⟨_, by rw [TxiE.run, r1, bind_ok, object_parent r2 (hF.nthTxi g m row h2), bind_ok], xnames_obj _⟩
  | .object e =>
    intro h hh
    rw [TxiE.Is] at hh
    obtain ⟨v, h1, h2⟩ := txi_run hF e h hh
    exact ⟨.obj h, by rw [TxiE.run, h1, bind_ok, xnames_object h2, bind_ok], xnames_obj h⟩
end

/-- An output handle or object for height `h`: it has the height, or the transaction and the index. -/
def ONames (bs : List Blk) (v : XI) (h : Nat) : Prop :=
  XNames v h ∨ ∃ g n : Nat, v = .handle ⟨.ofHeight g, n, -1, true, false⟩ ∧ g < (allTxs bs).length ∧ h = outputsBefore bs g + n

theorem onames_object {i : Iface} {bs : List Blk} {s : St} (hF : Facts i bs s) {v : XI} {h : Nat} (hv : ONames bs v h) :
    v.object s s.trnFirstTxo = .ok h := by
  rcases hv with hv | ⟨g, n, rfl, hg, rfl⟩
  · exact xnames_object hv s _
  · have := hF.nthTxo g n _ (List.getElem?_eq_getElem hg)
    rw [ChainStore.nthTxo] at this
    rw [← this]
    show (do
      let t ← HI.object s.trnHashes (.handle (.ofHeight g))
      let f ← get s.trnFirstTxo t
      let n ← (Except.ok (n : Int) : Except Fail Int)
      Except.ok (f + n)) = _
    rw [names_object (f := false) (k := g) (Or.inl rfl), bind_ok]
    rfl

theorem txo_lt {i : Iface} {bs : List Blk} {g m : Nat} {tx : Tx} (h : (allTxs bs)[g]? = some tx) (hm : m < tx.txos.length) :
    outputsBefore bs g + m < (outputs bs).length := by
  have hrow : ((allKept i bs).map (·.txos))[g]? = some tx.txos := by rw [allKept_txos, List.getElem?_map, h]; rfl
  rw [List.getElem?_map] at hrow
  cases hk : (allKept i bs)[g]? with
  | none => rw [hk] at hrow; cases hrow
  | some kt =>
    rw [hk] at hrow
    simp only [Option.map_some, Option.some.injEq] at hrow
    rw [outputs_eq i, outputsBefore_eq i]
    exact lt_of_getElem? (txosOf_at _ g m kt _ hk (List.getElem?_eq_getElem (by rw [hrow]; exact hm)))

theorem txo_run {i : Iface} {bs : List Blk} {s : St} (hF : Facts i bs s) : ∀ (e : TxoE) (h : Nat), e.Is i bs h →
    ∃ v, e.run s = .ok v ∧ ONames bs v h ∧ h < (outputs bs).length := by
  intro e
  induction e with
  | byHeight h => rintro g ⟨rfl, h⟩; exact ⟨_, rfl, Or.inl ⟨rfl, rfl, rfl, _, rfl, rfl⟩, h⟩
  | nth t n =>
    rintro h ⟨g, m, tx, h1, h2, rfl, h3, rfl⟩
    obtain ⟨v, r1, r2, _⟩ := trn_run hF t g h1
    refine ⟨.handle ⟨.zero, 0, ((outputsBefore bs g + m : Nat) : Int), false, true⟩, ?_, Or.inl ⟨rfl, rfl, rfl, _, rfl, rfl⟩, txo_lt (i := i) h2 h3⟩
    simp only [TxoE.run]
    rw [r1, bind_ok, names_object r2, bind_ok, nthTxoHandle, hF.nthTxo g m tx h2, bind_ok]
  | ofParent t n =>
    rintro h ⟨g, m, tx, h1, h2, rfl, h3, rfl⟩
    obtain ⟨v, r1, r2, _⟩ := trn_run hF t g h1
    refine ⟨.obj ((outputsBefore bs g + m : Nat) : Int), ?_, Or.inl (xnames_obj _), txo_lt (i := i) h2 h3⟩
    simp only [TxoE.run]
    rw [r1, bind_ok, object_parent r2 (hF.nthTxo g m tx h2), bind_ok]
  | source x =>
    rintro h ⟨hx, k, g, y, tx, h1, h2, h3, h4, h5, rfl⟩
    obtain ⟨v, r1, r2⟩ := txi_run hF x hx h1
    have hgl := lt_of_getElem? h4
    obtain ⟨q1, q2⟩ := hF.source hx k g y h2 h3 hgl
    refine ⟨_, ?_, Or.inr ⟨g, y.vout.toNat, rfl, hgl, rfl⟩, txo_lt (i := i) h4 h5⟩
    simp only [TxoE.run]
    rw [r1, bind_ok, xnames_object r2, bind_ok, sourceHandle, q1, bind_ok, Int.toNat_of_nonneg q2]
  | object e ih =>
    intro h hh
    obtain ⟨v, h1, h2, h3⟩ := ih h hh
    refine ⟨.obj h, ?_, Or.inl (xnames_obj h), h3⟩
    simp only [TxoE.run]
    rw [h1, bind_ok, onames_object hF h2, bind_ok]

/-! ## C89 -/

/-- **C89 (partial).** In a stored chain, every name that means a block, transaction, input or output can be run, is not
invalid, gives the right height, and its object is the right one; blocks and transactions give their hash, also through
the handle itself. Missing: the hash through a handle just looked up by hash (`handle_by_hash_panics`), and the hash of
a transaction whose hash has occurred before (C79). -/
theorem names_lead_to_their_meaning_partial {p q : Int} (hp : p ≤ 0) (hq : q ≤ 0) {i : Iface} {d : Bool} {bn tn : List (String × Nat)}
    {bs : List Blk} (hg : Good i d bn tn bs) : ∃ s, store p q i d bn tn bs = .ok s ∧
      (∀ (e : BlkE) (k : Nat), e.Is bs k → ∃ v b, bs[k]? = some b ∧ e.run s = .ok v ∧ v.isInvalid s.blkHashes = .ok false ∧
        v.height s.blkHashes = .ok k ∧ v.object s.blkHashes = .ok k ∧ HI.hash s.blkHashes (.obj k) = .ok b.hash ∧
        (e.fresh = false → v.hash s.blkHashes = .ok b.hash)) ∧
      (∀ (e : TrnE) (g : Nat), e.Is i bs g → ∃ v tx, (allTxs bs)[g]? = some tx ∧ e.run s = .ok v ∧ v.isInvalid s.trnHashes = .ok false ∧
        v.height s.trnHashes = .ok g ∧ v.object s.trnHashes = .ok g ∧
        ((∀ j, j < g → ((allTxs bs)[j]?).map (·.hash) ≠ some tx.hash) → HI.hash s.trnHashes (.obj g) = .ok tx.hash ∧
          (e.fresh = false → v.hash s.trnHashes = .ok tx.hash))) ∧
      (∀ (e : TxiE) (h : Nat), e.Is i bs h → ∃ v, e.run s = .ok v ∧ v.heightSpecified = true ∧ v.height = .ok h ∧ v.object s s.trnFirstTxi = .ok h) ∧
      (∀ (e : TxoE) (h : Nat), e.Is i bs h → ∃ v o, (outputs bs)[h]? = some o ∧ e.run s = .ok v ∧ v.object s s.trnFirstTxo = .ok h ∧
        satoshis s h = .ok o.sats ∧ addressOf s h = .ok (indexOf s.adrHashes o.addr) ∧
        (v.heightSpecified = true → v.height = .ok h) ∧
        (v.parentSpecified = true → ∃ (t : HI) (g n : Nat), v.parentTrans = .ok t ∧ v.parentIndex = .ok n ∧ t.height s.trnHashes = .ok g ∧
          h = outputsBefore bs g + n) ∧
        (v.heightSpecified = true ∨ v.parentSpecified = true)) := by
  obtain ⟨s, e, hF⟩ := facts hp hq hg
  refine ⟨s, e, ?_, ?_, ?_, ?_⟩
  · intro e k he
    obtain ⟨v, h1, h2, h3⟩ := blk_run hF e k he
    have hb : bs[k]? = some bs[k] := List.getElem?_eq_getElem h3
    have hh : hashAt s.blkHashes k = .ok (bs[k]).hash := by
      unfold hashAt
      rw [if_neg (by omega), Int.toNat_natCast, hF.blk, List.getElem?_map, hb]
      simp only [Option.map_some]
      rw [← hF.blk, if_pos (indexOf_block hF (by rw [hb]; rfl))]
    exact ⟨v, _, hb, h1, names_invalid h2 _, names_height h2 _, names_object h2 _, hh, fun hf => by rw [hf] at h2; rw [names_hash h2]; exact hh⟩
  · intro e g he
    obtain ⟨v, h1, h2, h3⟩ := trn_run hF e g he
    have hb : (allTxs bs)[g]? = some (allTxs bs)[g] := List.getElem?_eq_getElem h3
    refine ⟨v, _, hb, h1, names_invalid h2 _, names_height h2 _, names_object h2 _, fun hfirst => ?_⟩
    have hh : hashAt s.trnHashes g = .ok ((allTxs bs)[g]).hash := by
      unfold hashAt
      rw [if_neg (by omega), Int.toNat_natCast, hF.trn, List.getElem?_map, hb]
      simp only [Option.map_some]
      rw [← hF.trn, if_pos (indexOf_trans hF (by rw [hb]; rfl) hfirst)]
    exact ⟨hh, fun hf => by rw [hf] at h2; rw [names_hash h2]; exact hh⟩
  · intro e h he
    obtain ⟨v, h1, h2⟩ := txi_run hF e h he
    exact ⟨v, h1, h2.1, h2.2.2.1, xnames_object h2 _ _⟩
  · intro e h he
    obtain ⟨v, h1, h2, h3⟩ := txo_run hF e h he
    have ho : (outputs bs)[h]? = some (outputs bs)[h] := List.getElem?_eq_getElem h3
    refine ⟨v, _, ho, h1, onames_object hF h2, hF.sats h _ ho, hF.address h _ ho, ?_, ?_, ?_⟩
    · rcases h2 with h2 | ⟨g, n, rfl, hgl, rfl⟩
      · exact fun _ => h2.2.2.1
      · exact fun hc => by cases hc
    · rcases h2 with h2 | ⟨g, n, rfl, hgl, rfl⟩
      · exact fun hc => by rw [h2.2.1] at hc; cases hc
      · exact fun _ => ⟨_, g, n, rfl, rfl, names_height (f := false) (Or.inl rfl) _, rfl⟩
    · rcases h2 with h2 | ⟨g, n, rfl, hgl, rfl⟩
      · exact Or.inl h2.1
      · exact Or.inr rfl

/-- **C89, where the code violates it.** The handle of a block or transaction looked up by its hash says that it
specifies a hash, and panics when asked for it. -/
theorem handle_by_hash_panics {p q : Int} (hp : p ≤ 0) (hq : q ≤ 0) {i : Iface} {d : Bool} {bn tn : List (String × Nat)}
    {bs : List Blk} (hg : Good i d bn tn bs) : ∃ s, store p q i d bn tn bs = .ok s ∧
      (∀ b ∈ bs, ∃ v, (BlkE.byHash b.hash).run s = .ok v ∧ v.hashSpecified = true ∧ v.hash s.blkHashes = .error .panic) ∧
      (∀ tx ∈ allTxs bs, ∃ v, (TrnE.byHash tx.hash).run s = .ok v ∧ v.hashSpecified = true ∧ v.hash s.trnHashes = .error .panic) := by
  obtain ⟨s, e, hF⟩ := facts hp hq hg
  have key : ∀ (l : List Bytes) (x : Bytes), x ∈ l → ∃ v, HI.byHash l x = .ok v ∧ v.hashSpecified = true ∧ v.hash l = .error .panic := by
    intro l x hx
    have hk := indexOf_mem hx
    refine ⟨.handle (.found (indexOf l x)), ?_, rfl, rfl⟩
    unfold HI.byHash
    rw [if_neg hk]
  refine ⟨s, e, ?_, ?_⟩
  · intro b hb
    exact key s.blkHashes b.hash (by rw [hF.blk]; exact List.mem_map_of_mem hb)
  · intro tx htx
    rw [TrnE.run]
    exact key s.trnHashes tx.hash (by rw [hF.trn]; exact List.mem_map_of_mem htx)

/-- Hashes that are not in the chain are refused by the chain's own lookup, but a handle of another package with such a
hash is turned into an object for height -1 without an error. -/
theorem unknown_hash {p q : Int} (hp : p ≤ 0) (hq : q ≤ 0) {i : Iface} {d : Bool} {bn tn : List (String × Nat)}
    {bs : List Blk} (hg : Good i d bn tn bs) : ∃ s, store p q i d bn tn bs = .ok s ∧
      (∀ x, x ∉ bs.map (·.hash) → (BlkE.byHash x).run s = .error .err ∧ (BlkE.ofHash x).run s = .ok (.obj (-1))) ∧
      (∀ x, x ∉ (allTxs bs).map (·.hash) → (TrnE.byHash x).run s = .error .err ∧ (TrnE.ofHash x).run s = .ok (.obj (-1))) := by
  obtain ⟨s, e, hF⟩ := facts hp hq hg
  have key : ∀ (l : List Bytes) (x : Bytes), x ∉ l → indexOf l x = -1 := by
    intro l x hx
    unfold indexOf
    rw [List.findIdx?_eq_none_iff.mpr]
    intro y hy
    simp only [decide_eq_false_iff_not]
    rintro rfl
    exact hx hy
  refine ⟨s, e, ?_, ?_⟩
  · intro x hx
    have h := key s.blkHashes x (by rw [hF.blk]; exact hx)
    constructor
    · simp only [BlkE.run, HI.byHash]; rw [if_pos h]
    · show (Except.ok (HI.obj (indexOf s.blkHashes x)) : Except Fail HI) = _
      rw [h]
  · intro x hx
    have h := key s.trnHashes x (by rw [hF.trn]; exact hx)
    constructor
    · rw [TrnE.run, HI.byHash, if_pos h]
    · rw [TrnE.run]
      show (Except.ok (HI.obj (indexOf s.trnHashes x)) : Except Fail HI) = _
      rw [h]

/-- The ends: after the latest and before the first comes the invalid handle; before the invalid handle comes the
invalid handle, but after it comes the first block again. The object of the invalid handle is made without an error,
and everything asked of it is an error. -/
theorem ends_of_the_chain {p q : Int} (hp : p ≤ 0) (hq : q ≤ 0) {i : Iface} {d : Bool} {bn tn : List (String × Nat)}
    {bs : List Blk} (hg : Good i d bn tn bs) (hne : bs ≠ []) : ∃ s, store p q i d bn tn bs = .ok s ∧
      (∀ (e : BlkE) (k : Nat), e.Is bs k → k + 1 = bs.length → ∃ v, (BlkE.next e).run s = .ok v ∧ v.isInvalid s.blkHashes = .ok true) ∧
      (∀ e : BlkE, e.Is bs 0 → ∃ v, (BlkE.parent e).run s = .ok v ∧ v.isInvalid s.blkHashes = .ok true) ∧
      ∀ v : HI, v.isInvalid s.blkHashes = .ok true → v.parent s.blkHashes = .ok .invalid ∧ v.next s.blkHashes = .ok .genesis ∧
        v.object s.blkHashes = .ok (-1) ∧ HI.hash s.blkHashes (.obj (-1)) = .error .err ∧
        transactionCount s (-1) = .error .err ∧ ∀ n, nthTrans s (-1) n = .error .err := by
  obtain ⟨s, e, hF⟩ := facts hp hq hg
  have hlen : s.blkHashes.length = bs.length := by rw [hF.blk, List.length_map]
  have hpos : 0 < bs.length := List.length_pos_iff.mpr hne
  refine ⟨s, e, ?_, ?_, ?_⟩
  · intro e k he hk
    obtain ⟨v, h1, h2, _⟩ := blk_run hF e k he
    refine ⟨.invalid, ?_, rfl⟩
    simp only [BlkE.run]
    rw [h1, bind_ok, HI.next, names_height h2, bind_ok, if_pos (by omega)]
  · intro e he
    obtain ⟨v, h1, h2, _⟩ := blk_run hF e 0 he
    refine ⟨.invalid, ?_, rfl⟩
    simp only [BlkE.run]
    rw [h1, bind_ok, HI.parent, names_invalid h2, bind_ok, if_neg (by simp), if_neg (by simp [(names_spec h2).1]), names_height h2, bind_ok]
    rfl
  · intro v hv
    have hh : v.height s.blkHashes = .ok (-1) := by
      unfold HI.isInvalid at hv
      cases hc : v.height s.blkHashes with
      | error f => rw [hc] at hv; cases hv
      | ok h =>
        rw [hc, bind_ok] at hv
        have : h = -1 := by simpa using hv
        rw [this]
    have hsp : v.heightSpecified = true := by
      cases v with
      | handle h => rfl
      | obj h => rfl
      | foreign h x =>
        cases h with
        | none => cases hh
        | some h => rfl
    refine ⟨?_, ?_, ?_, rfl, rfl, fun _ => rfl⟩
    · rw [HI.parent, hv, bind_ok, if_pos rfl]
    · rw [HI.next, hh, bind_ok, if_neg (by omega)]
      rfl
    · rw [HI.object, if_pos hsp, hh]

/-- The transaction handle of an input, and that of an output unless it was reached from an input, panics when asked
for anything but whether it specifies a height. (The handle of the input or output does say that it does not specify it.) -/
theorem unspecified_parent_panics {p q : Int} (hp : p ≤ 0) (hq : q ≤ 0) {i : Iface} {d : Bool} {bn tn : List (String × Nat)}
    {bs : List Blk} (hg : Good i d bn tn bs) : ∃ s, store p q i d bn tn bs = .ok s ∧
      ∀ (t : TrnE) (g : Nat), t.Is i bs g → ∀ n : Nat, ∃ tx, (allTxs bs)[g]? = some tx ∧ (n < tx.txos.length →
        ∃ v w, (TxoE.nth t n).run s = .ok v ∧ v.parentSpecified = false ∧ v.parentTrans = .ok w ∧ w.heightSpecified = true ∧
          w.height s.trnHashes = .error .panic ∧ w.hash s.trnHashes = .error .panic ∧ w.isInvalid s.trnHashes = .error .panic) := by
  obtain ⟨s, e, hF⟩ := facts hp hq hg
  refine ⟨s, e, ?_⟩
  intro t g ht n
  obtain ⟨v, r1, r2, r3⟩ := trn_run hF t g ht
  have htx : (allTxs bs)[g]? = some (allTxs bs)[g] := List.getElem?_eq_getElem r3
  refine ⟨_, htx, fun hn => ?_⟩
  refine ⟨.handle ⟨.zero, 0, ((outputsBefore bs g + n : Nat) : Int), false, true⟩, .handle .zero, ?_, rfl, rfl, rfl, rfl, rfl, rfl⟩
  simp only [TxoE.run]
  rw [r1, bind_ok, names_object r2, bind_ok, nthTxoHandle, hF.nthTxo g n _ htx, bind_ok]

/-! ### Examples -/

/-- The second output of the transaction before the latest one, by way of the last block. -/
example : (TxoE.nth (.previous (.nth (.object .latest) 0)) 1).Is .cri demo 4 := by
  refine ⟨2, 1, _, ?_, rfl, rfl, by decide, by decide⟩
  rw [TrnE.Is]
  refine ⟨3, ?_, rfl⟩
  rw [TrnE.Is]
  exact ⟨2, 0, _, rfl, rfl, rfl, by decide, by decide⟩

/-- The output spent by the first input of the third transaction. -/
example : (TxoE.source (.nth (.byHeight 2) 0)).Is .cri demo 1 := by
  refine ⟨0, 1, 0, ⟨[11], 1, none, none⟩, _, ?_, ⟨_, 1, _, 0, rfl, rfl, rfl, by decide⟩, by decide, rfl, by decide, by decide⟩
  rw [TxiE.Is]
  refine ⟨2, 0, _, ?_, rfl, rfl, by decide, by decide⟩
  rw [TrnE.Is]
  exact ⟨rfl, by decide⟩

example : (store (-1) (-1) .cri true [] [] demo >>= fun s => (TxoE.source (.nth (.byHeight 2) 0)).run s) =
    .ok (.handle ⟨.ofHeight 0, 1, -1, true, false⟩) := by decide +kernel
example : (store (-1) (-1) .cri true [] [] demo >>= fun s => (BlkE.byHash [2]).run s >>= HI.hash s.blkHashes) = .error .panic := by decide +kernel
example : (store (-1) (-1) .cri true [] [] demo >>= fun s => (BlkE.object (.byHash [2])).run s >>= HI.hash s.blkHashes) = .ok [2] := by decide +kernel

end Verif.Handles
