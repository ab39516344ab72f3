import Verif.Model.TinyChain

/-!
# C103: a client walking an in-memory chain sees every block, transaction, input and output once

For every chain laid out as the hard coded one is, and the hard coded one is laid out so.
-/

namespace Verif.TinyChain

/-! ## Specification -/

/-- The parts of a transaction at place `t` say where they are, and its inputs spend outputs that exist. -/
structure TransOK (c : Chain) (t : Nat) (x : Trans) : Prop where
  height : x.height = t
  txis : x.txis.map (·.handle) = (List.range x.txis.length).map fun k : Nat => ⟨t, (k : Int)⟩
  txos : x.txos.map (·.handle) = (List.range x.txos.length).map fun k : Nat => ⟨t, (k : Int)⟩
  sources : ∀ i ∈ x.txis, ∃ (s k : Nat) (y : Trans), c.transactions[s]? = some y ∧ k < y.txos.length ∧ i.sourceTxo = ⟨s, k⟩

/-- A chain that is put together rightly. -/
structure Sound (c : Chain) : Prop where
  nonempty : c.blocks ≠ []
  heights : c.blocks.map (·.height) = (List.range c.blocks.length).map fun k : Nat => (k : Int)
  trans : c.transactions = c.blocks.flatMap (·.transactions)
  full : ∀ b ∈ c.blocks, b.transactions ≠ []
  each : ∀ t x, c.transactions[t]? = some x → TransOK c t x

/-- Going on with `next` from handle `h` until an invalid handle, and looking at each one with `look`, shows `l`. -/
inductive Shows {α : Type} (next : Int → Int) (look : Int → Option α) : Int → List α → Prop where
  | stop {h} : isInvalid h = true → Shows next look h []
  | go {h a l} : isInvalid h = false → look h = some a → Shows next look (next h) l → Shows next look h (a :: l)

/-! ## Lemmas -/

theorem at?_nat {α : Type} (l : List α) (i : Nat) : at? l (i : Int) = l[i]? := by
  unfold at?
  rw [if_neg (by omega)]
  simp

theorem isInvalid_nat (i : Nat) : isInvalid (i : Int) = false := by
  unfold isInvalid
  rw [beq_eq_false_iff_ne]
  omega

theorem height_of {l : List Block} (h : l.map (·.height) = (List.range l.length).map fun k : Nat => (k : Int)) (i : Nat) {b : Block}
    (hb : l[i]? = some b) : b.height = i := by
  have hi : i < l.length := by
    rw [List.getElem?_eq_some_iff] at hb
    exact hb.1
  have h1 : (l.map (·.height))[i]? = some b.height := by rw [List.getElem?_map, hb]; rfl
  rw [h, List.getElem?_map, List.getElem?_range hi] at h1
  simpa using h1.symm

theorem handle_of {α : Type} {l : List α} {f : α → TxxHandle} {t : Nat}
    (h : l.map f = (List.range l.length).map fun k : Nat => ⟨t, (k : Int)⟩) (i : Nat) {b : α} (hb : l[i]? = some b) : f b = ⟨t, i⟩ := by
  have hi : i < l.length := by
    rw [List.getElem?_eq_some_iff] at hb
    exact hb.1
  have h1 : (l.map f)[i]? = some (f b) := by rw [List.getElem?_map, hb]; rfl
  rw [h, List.getElem?_map, List.getElem?_range hi] at h1
  simpa using h1.symm

/-- Counting up shows the rest of a list. -/
theorem shows_from {α : Type} (l : List α) (i : Nat) (hi : i < l.length) :
    Shows (fun h => if h + 1 = (l.length : Int) then -1 else h + 1) (at? l) (i : Int) (l.drop i) := by
  rw [List.drop_eq_getElem_cons hi]
  refine .go (isInvalid_nat i) (by rw [at?_nat, List.getElem?_eq_getElem hi]) ?_
  by_cases h : i + 1 = l.length
  · rw [if_pos (by omega), h, List.drop_length]
    exact .stop rfl
  · rw [if_neg (by omega)]
    exact shows_from l (i + 1) (by omega)
termination_by l.length - i

/-- Counting down shows the list before, backwards. -/
theorem shows_down {α : Type} (l : List α) (i : Nat) (hi : i ≤ l.length) :
    Shows (fun h => h - 1) (at? l) ((i : Int) - 1) (l.take i).reverse := by
  induction i with
  | zero => exact .stop rfl
  | succ i ih =>
    rw [List.take_succ_eq_append_getElem (by omega), List.reverse_append]
    have e : ((i + 1 : Nat) : Int) - 1 = (i : Nat) := by omega
    rw [e]
    exact .go (isInvalid_nat i) (by rw [at?_nat, List.getElem?_eq_getElem (by omega)]) (ih (by omega))

theorem shows_congr {α : Type} {f g : Int → Int} {look : Int → Option α} {h : Int} {l : List α}
    (hfg : ∀ x a, isInvalid x = false → look x = some a → f x = g x) (hs : Shows f look h l) : Shows g look h l := by
  induction hs with
  | stop h => exact .stop h
  | go h1 h2 _ ih => exact .go h1 h2 (by rw [← hfg _ _ h1 h2]; exact ih)

theorem parent_of {c : Chain} (hc : Sound c) (i : Nat) (hi : i ≤ c.blocks.length) : parentBlock c (i : Int) = some ((i : Int) - 1) := by
  unfold parentBlock
  cases i with
  | zero => rfl
  | succ i =>
    rw [if_pos (by omega), show ((i + 1 : Nat) : Int) - 1 = (i : Nat) by omega, at?_nat, List.getElem?_eq_getElem (by omega)]
    exact congrArg some (height_of hc.heights i (List.getElem?_eq_getElem (by omega)))

theorem genesis_of {c : Chain} (hc : Sound c) : genesisBlock c = some 0 := by
  have h0 : 0 < c.blocks.length := List.length_pos_iff.mpr hc.nonempty
  unfold genesisBlock
  rw [show (0 : Int) = ((0 : Nat) : Int) from rfl, at?_nat, List.getElem?_eq_getElem h0]
  exact congrArg some (height_of hc.heights 0 (List.getElem?_eq_getElem h0))

theorem first_of {c : Chain} (hc : Sound c) : 0 < c.transactions.length := by
  cases hb : c.blocks with
  | nil => exact absurd hb hc.nonempty
  | cons b l =>
    have := List.length_pos_iff.mpr (hc.full b (by rw [hb]; exact List.mem_cons_self))
    rw [hc.trans, hb, List.flatMap_cons, List.length_append]
    omega

/-! ## C103 -/

/-- C103: from `GenesisBlock` with `NextBlock` until an invalid handle, `BlockInterface` shows every block once, in order; from
`LatestBlock` with `ParentBlock` every block once, backwards. -/
theorem blocks_walked (c : Chain) (hc : Sound c) :
    (∃ g, genesisBlock c = some g ∧ Shows (nextBlock c) (blockInterface c) g c.blocks) ∧
      ∃ l, latestBlock c = some l ∧ Shows (fun b => (parentBlock c b).getD 0) (blockInterface c) l c.blocks.reverse := by
  have h0 : 0 < c.blocks.length := List.length_pos_iff.mpr hc.nonempty
  refine ⟨⟨0, genesis_of hc, ?_⟩, (c.blocks.length : Int) - 1, ?_, ?_⟩
  · exact shows_from c.blocks 0 h0
  · unfold latestBlock
    have e : (c.blocks.length : Int) - 1 = ((c.blocks.length - 1 : Nat) : Int) := by omega
    rw [e, at?_nat, List.getElem?_eq_getElem (by omega)]
    exact congrArg some (height_of hc.heights _ (List.getElem?_eq_getElem (by omega)))
  · have := shows_down c.blocks c.blocks.length (Nat.le_refl _)
    rw [List.take_length] at this
    refine shows_congr ?_ this
    intro x a _ ha
    unfold blockInterface at? at ha
    by_cases hx : x < 0
    · rw [if_pos hx] at ha; cases ha
    · rw [if_neg hx, List.getElem?_eq_some_iff] at ha
      obtain ⟨hlt, _⟩ := ha
      have := parent_of hc x.toNat (by omega)
      rw [show ((x.toNat : Nat) : Int) = x by omega] at this
      rw [this]
      rfl

/-- C103: from `GenesisTransaction` with `NextTransaction` until an invalid handle, `TransInterface` shows the transactions of all blocks,
block after block; from `LatestTransaction` with `PreviousTransaction` the same backwards. -/
theorem transactions_walked (c : Chain) (hc : Sound c) :
    (∃ g, genesisTransaction c = some g ∧ Shows (nextTransaction c) (transInterface c) g (c.blocks.flatMap (·.transactions))) ∧
      Shows previousTransaction (transInterface c) (latestTransaction c) (c.blocks.flatMap (·.transactions)).reverse := by
  have h1 := first_of hc
  refine ⟨⟨0, ?_, ?_⟩, ?_⟩
  · cases hb : c.blocks with
    | nil => exact absurd hb hc.nonempty
    | cons b l =>
      cases hx : b.transactions with
      | nil => exact absurd hx (hc.full b (by rw [hb]; exact List.mem_cons_self))
      | cons x xs =>
        have hx0 : c.transactions[0]? = some x := by rw [hc.trans, hb, List.flatMap_cons, hx]; rfl
        have hh := (hc.each 0 x hx0).height
        unfold genesisTransaction
        rw [genesis_of hc]
        show (blockInterface c 0).bind (nthTransaction · 0) = some 0
        unfold blockInterface
        rw [show (0 : Int) = ((0 : Nat) : Int) from rfl, at?_nat, hb]
        show nthTransaction b ((0 : Nat) : Int) = _
        unfold nthTransaction
        rw [at?_nat, hx]
        exact congrArg some hh
  · rw [← hc.trans]
    exact shows_from c.transactions 0 h1
  · rw [← hc.trans]
    have := shows_down c.transactions c.transactions.length (Nat.le_refl _)
    rw [List.take_length] at this
    exact this

/-- C103: the n-th transaction of a block is a handle to that very transaction. -/
theorem nth_transaction (c : Chain) (hc : Sound c) (b : Block) (hb : b ∈ c.blocks) (n : Nat) (hn : n < b.transactions.length) :
    (nthTransaction b n).bind (transInterface c) = b.transactions[n]? := by
  obtain ⟨l1, l2, hl⟩ := List.append_of_mem hb
  let k := (l1.flatMap (·.transactions)).length
  have hk : c.transactions[k + n]? = some b.transactions[n] := by
    rw [hc.trans, hl, List.flatMap_append, List.flatMap_cons, List.getElem?_append_right (by omega), Nat.add_sub_cancel_left,
      List.getElem?_append_left hn, List.getElem?_eq_getElem hn]
  have hh := (hc.each _ _ hk).height
  unfold nthTransaction transInterface
  rw [at?_nat, List.getElem?_eq_getElem hn, Option.map_some, Option.bind_some, hh, at?_nat, hk]

/-- C103: the n-th input of a transaction is a handle to that very input and its source is an output of the chain; the n-th output is a
handle to that very output. -/
theorem nth_parts (c : Chain) (hc : Sound c) (t : Nat) (x : Trans) (hx : c.transactions[t]? = some x) :
    (∀ (n : Nat) i, x.txis[n]? = some i → (nthTxi x n).bind (txiInterface c) = some i ∧ (txoInterface c i.sourceTxo).isSome) ∧
      ∀ (n : Nat) o, x.txos[n]? = some o → (nthTxo x n).bind (txoInterface c) = some o := by
  have h := hc.each t x hx
  refine ⟨?_, ?_⟩
  · intro n i hi
    refine ⟨?_, ?_⟩
    · unfold nthTxi
      rw [at?_nat, hi]
      show txiInterface c i.handle = some i
      rw [handle_of h.txis n hi]
      unfold txiInterface
      rw [at?_nat, hx]
      show at? x.txis (n : Int) = some i
      rw [at?_nat, hi]
    · obtain ⟨s, k, y, h1, h2, h3⟩ := h.sources i (List.mem_of_getElem? hi)
      rw [h3]
      unfold txoInterface
      rw [at?_nat, h1]
      show (at? y.txos (k : Int)).isSome
      rw [at?_nat, List.getElem?_eq_getElem h2]
      rfl
  · intro n o ho
    unfold nthTxo
    rw [at?_nat, ho]
    show txoInterface c o.handle = some o
    rw [handle_of h.txos n ho]
    unfold txoInterface
    rw [at?_nat, hx]
    show at? x.txos (n : Int) = some o
    rw [at?_nat, ho]

/-- C103: the hard coded chain is put together rightly, so all of the above holds of it. -/
theorem tiny_sound : Sound theTinyChain := by
  refine ⟨by decide, by decide, by decide, by decide, ?_⟩
  intro t x hx
  have ht : t < 6 := by
    rw [List.getElem?_eq_some_iff] at hx
    exact hx.1
  match t, ht with
  | 0, _ => cases hx; exact ⟨rfl, rfl, rfl, fun i hi => by cases hi⟩
  | 1, _ => cases hx; exact ⟨rfl, rfl, rfl, fun i hi => by cases hi⟩
  | 2, _ =>
    cases hx
    refine ⟨rfl, rfl, rfl, fun i hi => ?_⟩
    simp only [List.mem_singleton] at hi
    subst hi
    exact ⟨0, 0, _, rfl, by decide, rfl⟩
  | 3, _ => cases hx; exact ⟨rfl, rfl, rfl, fun i hi => by cases hi⟩
  | 4, _ =>
    cases hx
    refine ⟨rfl, rfl, rfl, fun i hi => ?_⟩
    simp only [List.mem_singleton] at hi
    subst hi
    exact ⟨5, 0, _, rfl, by decide, rfl⟩
  | 5, _ =>
    cases hx
    refine ⟨rfl, rfl, rfl, fun i hi => ?_⟩
    simp only [List.mem_cons, List.not_mem_nil, or_false] at hi
    rcases hi with rfl | rfl
    · exact ⟨2, 0, _, rfl, by decide, rfl⟩
    · exact ⟨2, 1, _, rfl, by decide, rfl⟩

/-- C103: no output of the hard coded chain is spent twice, and no transaction but those without inputs pays out more than it takes in. -/
theorem tiny_money : (theTinyChain.transactions.flatMap fun x => x.txis.map (·.sourceTxo)).Nodup ∧
    ∀ x ∈ theTinyChain.transactions, x.txis ≠ [] →
      (x.txos.map (·.satoshis)).sum ≤ (x.txis.map fun i => ((txoInterface theTinyChain i.sourceTxo).map (·.satoshis)).getD 0).sum := by
  decide +kernel

/-- C103: a violation. What comes after the end is the beginning: `NextBlock` and `NextTransaction` of the invalid handle are valid, so a
client that goes on once too often starts again; and the transaction before the invalid one has height -2 and is said to be valid, but looking
at it panics. -/
theorem invalid_goes_on (c : Chain) (hc : Sound c) (h2 : c.blocks.length ≠ 0) :
    nextBlock c invalid = 0 ∧ isInvalid (nextBlock c invalid) = false ∧ nextTransaction c invalid = 0 ∧
      isInvalid (previousTransaction invalid) = false ∧ transInterface c (previousTransaction invalid) = none := by
  have h1 := first_of hc
  unfold nextBlock nextTransaction invalid
  rw [if_neg (by omega), if_neg (by omega)]
  exact ⟨rfl, rfl, rfl, rfl, rfl⟩

/-- C103: a violation. In the hard coded chain a transaction spends an output of a later one. -/
theorem tiny_spends_later : ∃ x ∈ theTinyChain.transactions, ∃ i ∈ x.txis, x.height < i.sourceTxo.trans :=
  ⟨⟨4, [⟨⟨4, 0⟩, ⟨5, 0⟩⟩], [⟨⟨4, 0⟩, 40⟩]⟩, by decide, ⟨⟨4, 0⟩, ⟨5, 0⟩⟩, by decide, by decide⟩

/-! ## Non-vacuity -/

/-- The walk of the hard coded chain, from the theorem. -/
example : ∃ g, genesisBlock theTinyChain = some g ∧ Shows (nextBlock theTinyChain) (blockInterface theTinyChain) g [block0, block1, block2] :=
  (blocks_walked theTinyChain tiny_sound).1

/-- The second output of the third transaction. -/
example : ((transInterface theTinyChain 2).bind (nthTxo · 1)).bind (txoInterface theTinyChain) = some ⟨⟨2, 1⟩, 25⟩ :=
  (nth_parts theTinyChain tiny_sound 2 _ rfl).2 1 _ rfl

end Verif.TinyChain
