import Verif.Model.Run
import Verif.Props.BlockHolder
import Verif.Props.ChainStore

/-! # Lemmas about whole runs: the loop over the blocks -/

namespace Verif.Run

open Verif.BinBlock (Block Transaction Storage getTxi getTxo scriptOf)
open Verif.ChainStore (Iface Fail St Hashes)
open Verif.BlockHolder (Held Call State Out window lastEleven IsUpperMedian SortOK IsChain medianTime)

variable {σ : Type}

/-! ## The indexer calls -/

/-- The calls for the transactions of a block. -/
def loopCalls (block : Int) : List Bytes → Int → List Call
  | [], _ => []
  | x :: xs, h => .parentBlock (h + 1) block :: .hashHeight x (h + 1) :: loopCalls block xs (h + 1)

/-- The calls for a block. -/
def callsOf (block latest : Int) (xs : List Bytes) : List Call := .firstTrans block (latest + 1) :: loopCalls block xs latest

theorem gatherLoop_all (e : BlockHolder.Env) (block : Int) : ∀ (xs : List Bytes) (h : Int) (calls : List Call),
    (∀ pre c post, loopCalls block xs h = pre ++ c :: post → e.accepts (calls ++ pre) c = true) →
    BlockHolder.gatherLoop e block xs h calls = (calls ++ loopCalls block xs h, h + xs.length, true) := by
  intro xs
  induction xs with
  | nil => intro h calls _; simp [BlockHolder.gatherLoop, loopCalls]
  | cons x xs ih =>
    intro h calls ha
    unfold BlockHolder.gatherLoop
    dsimp only [BlockHolder.call]
    have h1 := ha [] _ _ (by rw [loopCalls]; rfl)
    rw [List.append_nil] at h1
    have h2 := ha [.parentBlock (h + 1) block] (.hashHeight x (h + 1)) (loopCalls block xs (h + 1)) rfl
    rw [if_neg (by rw [h1]; simp), if_neg (by rw [h2]; simp)]
    rw [ih (h + 1) _ (by
      intro pre c post hp
      rw [List.append_assoc, List.append_assoc]
      apply ha _ c post
      rw [loopCalls, hp]; rfl)]
    rw [loopCalls]
    simp only [List.append_assoc, List.cons_append, List.nil_append, List.length_cons, Prod.mk.injEq, true_and, and_true]
    push_cast
    omega

theorem gather_all (e : BlockHolder.Env) (s : State) (b : Held)
    (ha : e.indexer = true → ∀ pre c post, callsOf b.height s.latest b.blk.txids = pre ++ c :: post →
      e.accepts (s.calls ++ pre) c = true) :
    BlockHolder.gather e s b =
      (if e.indexer then { s with calls := s.calls ++ callsOf b.height s.latest b.blk.txids, latest := s.latest + b.blk.txids.length }
        else s, true) := by
  unfold BlockHolder.gather
  cases he : e.indexer with
  | false => simp
  | true =>
    rw [if_neg (by simp), if_pos rfl]
    have ha := ha he
    have h1 := ha [] _ _ rfl
    rw [List.append_nil] at h1
    dsimp only [BlockHolder.call]
    rw [if_neg (by rw [h1]; simp)]
    rw [gatherLoop_all e b.height b.blk.txids s.latest _ (by
      intro pre c post hp
      rw [List.append_assoc]
      exact ha _ c post (by rw [callsOf, hp]; rfl))]
    rw [if_neg (by simp)]
    simp [callsOf]

/-- When calls succeed, so do the first of them. -/
def PrefixOK (k : Sink σ) : Prop := ∀ x cs ds y, k.calls x (cs ++ ds) = .ok y → ∃ z, k.calls x cs = .ok z

/-- The calls for a block, if the sink is the indexer. -/
def sinkCalls (k : Sink σ) (block latest : Int) (xs : List Bytes) : List Call :=
  if k.indexer then callsOf block latest xs else []

theorem gather_around (e : Env) (k : Sink σ) (hk : PrefixOK k) (x y : σ) (s0 s : State) (b : Held) (hs : s.calls = s0.calls)
    (hy : k.calls x (sinkCalls k b.height s.latest b.blk.txids) = .ok y) :
    ∃ s', BlockHolder.gather (around e k x s0) s b = (s', true) ∧ s'.cur = s.cur ∧ s'.height = s.height ∧
      s'.times = s.times ∧ s'.input = s.input ∧ (k.indexer = true → s'.latest = s.latest + b.blk.txids.length) ∧
      absorb k x s0 s' = .ok y := by
  rw [gather_all]
  · refine ⟨_, rfl, ?_⟩
    unfold sinkCalls at hy
    unfold absorb
    have hi : (around e k x s0).indexer = k.indexer := rfl
    rw [hi]
    cases hki : k.indexer with
    | false =>
      rw [hki, if_neg (by simp)] at hy
      rw [if_neg (by simp), hs, List.drop_length]
      exact ⟨rfl, rfl, rfl, rfl, by simp, hy⟩
    | true =>
      rw [hki, if_pos rfl] at hy
      rw [if_pos rfl]
      refine ⟨rfl, rfl, rfl, rfl, fun _ => rfl, ?_⟩
      dsimp only
      rw [hs, List.drop_left]
      exact hy
  · intro hi pre c post hp
    have hi : k.indexer = true := hi
    unfold sinkCalls at hy
    rw [hi, if_pos rfl, hp, show pre ++ c :: post = (pre ++ [c]) ++ post by simp] at hy
    obtain ⟨z, hz⟩ := hk _ _ _ _ hy
    unfold around
    dsimp only
    rw [hs, List.drop_left, hz]

/-! ## The blocks -/

/-- Blocks fed into a sink one by one: the indexer calls, then the block. -/
def feed (k : Sink σ) : Int → Int → List ChainStore.Blk → σ → Except Fail σ
  | _, _, [], x => .ok x
  | height, latest, b :: bs, x => do
    let x1 ← k.calls x (sinkCalls k height latest (b.txs.map (·.hash)))
    let x2 ← k.append x1 b
    feed k (height + 1) (latest + b.txs.length) bs x2

theorem mapM_some_length {α β : Type} {f : α → Option β} {l : List α} {r : List β} (h : l.mapM f = some r) :
    l.length = r.length := by
  induction l generalizing r with
  | nil => simp at h; subst h; rfl
  | cons a l ih =>
    rw [List.mapM_cons] at h
    cases ha : f a with
    | none => rw [ha] at h; cases h
    | some b =>
      rw [ha] at h
      cases hl : l.mapM f with
      | none => rw [hl] at h; cases h
      | some bs =>
        rw [hl] at h
        cases h
        rw [List.length_cons, List.length_cons, ih hl]

theorem mapM_some_map {α β γ : Type} {f : α → Option β} {g : β → γ} {h : α → γ} (hf : ∀ a b, f a = some b → g b = h a)
    {l : List α} {r : List β} (hr : l.mapM f = some r) : r.map g = l.map h := by
  induction l generalizing r with
  | nil => simp at hr; subst hr; rfl
  | cons a l ih =>
    rw [List.mapM_cons] at hr
    cases ha : f a with
    | none => rw [ha] at hr; cases hr
    | some b =>
      rw [ha] at hr
      cases hl : l.mapM f with
      | none => rw [hl] at hr; cases hr
      | some bs =>
        rw [hl] at hr
        cases hr
        rw [List.map_cons, List.map_cons, ih hl, hf a b ha]

theorem txOf_hash {e : Env} {i : Iface} {p : Block} {t : Nat} {q : Transaction} {tx : ChainStore.Tx}
    (h : txOf e i p t q = some tx) : tx.hash = q.txId := by
  unfold txOf at h
  dsimp only at h
  cases h1 : inputsOf i p.storage (shown i p t q).1 (shown i p t q).2 with
  | none => rw [h1] at h; cases h
  | some xs =>
    rw [h1] at h
    cases h2 : outputsOf e i p.storage (shown i p t q).1 with
    | none => simp [h2] at h
    | some ys =>
      simp [h2] at h
      rw [← h]

theorem adorn_hash {e : Env} {i : Iface} {p : Block} {h : Int} {m : Nat} {b : ChainStore.Blk} (hb : adorn e i p h m = some b) :
    b.txs.map (·.hash) = (proj p).txids := by
  unfold adorn at hb
  split at hb
  · cases hb
  · cases ht : (p.transactions.zipIdx).mapM fun x => txOf e i p x.2 x.1 with
    | none => rw [ht] at hb; cases hb
    | some txs =>
      rw [ht] at hb
      cases hb
      dsimp only [proj]
      rw [mapM_some_map (g := (·.hash)) (h := fun x : Transaction × Nat => x.1.txId) (fun a b hh => txOf_hash hh) ht]
      conv => rhs; rw [← List.zipIdx_map_fst 0 p.transactions, List.map_map]
      rfl

/-! ## The holder -/

/-- What the holder is when it has delivered block `n` of `all`. -/
structure Holds (i : Iface) (k : Sink σ) (all : List Block) (med : Nat → Nat) (n : Nat) (p : Block) (held : Held) (handle : Bytes)
    (latest : Int) (s : State) : Prop where
  this : all[n]? = some p
  cur : s.cur = some held
  blk : held.blk = proj p
  height : held.height = n
  median : held.median = med n
  height' : i = .cri → s.height = n
  times : s.times = window ((all.take (n + 1)).map (·.time))
  latest_ : k.indexer = true → s.latest = latest
  input : s.input = (all.drop (n + 1)).map fun p => some (proj p)
  handle_ : handle = match i with | .cri => p.hash | .chi => leEnc 4 n

theorem lastEleven_window (ts : List Nat) (k : Nat) (h : k < ts.length) : lastEleven ts k = window (ts.take (k + 1)) := by
  unfold lastEleven window
  rw [List.length_take, Nat.min_eq_left (by omega)]

/-- The medians of the times. -/
def Medians (all : List Block) (med : Nat → Nat) : Prop :=
  ∀ k, k < all.length → IsUpperMedian (med k) (lastEleven (all.map (·.time)) k)

theorem median_next {e : BlockHolder.Env} (hs : SortOK e.sort) {all : List Block} {med : Nat → Nat} (hm : Medians all med) {n : Nat} {p : Block}
    (hp : all[n]? = some p) :
    medianTime e (window ((all.take n).map (·.time))) p.time = (window ((all.take (n + 1)).map (·.time)), med n) := by
  obtain ⟨h1, h2⟩ := BlockHolder.medianTime_eq e hs ((all.take n).map (·.time)) p.time
  have hlt := (List.getElem?_eq_some_iff.mp hp).1
  have e1 : (all.take n).map (·.time) ++ [p.time] = (all.take (n + 1)).map (·.time) := by
    rw [List.take_add_one, hp, List.map_append]; rfl
  rw [e1] at h1 h2
  have h3 := hm n hlt
  rw [lastEleven_window _ _ (by simpa using hlt), ← List.map_take] at h3
  have := BlockHolder.upperMedian_unique h2 h3
  exact Prod.ext h1 this

theorem leDec_leEnc4 (n : Nat) (h : n < 2 ^ 32) : leDec (leEnc 4 n) = n := by
  rw [leDec_leEnc]; omega

/-- Asking for the next block. -/
theorem askNext_more {e : Env} (hs : SortOK e.sort) {i : Iface} {k : Sink σ} (hk : PrefixOK k) {all : List Block} {med : Nat → Nat}
    (hm : Medians all med) (hc : IsChain (all.map proj)) (hsz : i = .chi → all.length < 2 ^ 32) {n : Nat} {p p' : Block}
    {held : Held} {handle : Bytes} {latest : Int} {s : State} (hh : Holds i k all med n p held handle latest s)
    (hp' : all[n + 1]? = some p') (x y : σ) (hy : k.calls x (sinkCalls k ((n + 1 : Nat) : Int) latest (proj p').txids) = .ok y) :
    ∃ s' held' handle', askNext i (around e k x s) s handle = (s', .block held', handle') ∧
      Holds i k all med (n + 1) p' held' handle' (latest + (proj p').txids.length) s' ∧ absorb k x s s' = .ok y := by
  have hlt := (List.getElem?_eq_some_iff.mp hp').1
  have hlink : (proj p').prev = (proj p).hash := hc.2 n _ _ (by rw [List.getElem?_map, hh.this]; rfl) (by rw [List.getElem?_map, hp']; rfl)
  have hdrop : all.drop (n + 1) = p' :: all.drop (n + 2) := by
    rw [List.drop_eq_getElem_cons hlt]
    congr 1
    exact (List.getElem?_eq_some_iff.mp hp').2
  have hrecv : BlockHolder.receive s = (some (proj p'), { s with input := (all.drop (n + 2)).map fun p => some (proj p) }) := by
    unfold BlockHolder.receive
    rw [hh.input, hdrop]
    rfl
  have hmed := median_next (e := around e k x s) hs hm hp'
  rw [← hh.times] at hmed
  have hcalls : sinkCalls k ((n + 1 : Nat) : Int) latest (proj p').txids = sinkCalls k ((n + 1 : Nat) : Int) s.latest (proj p').txids := by
    unfold sinkCalls
    split
    · rw [hh.latest_ (by assumption)]
    · rfl
  rw [hcalls] at hy
  cases i with
  | cri =>
    have hhe := hh.height' rfl
    obtain ⟨s', g1, g2, g3, g4, g5, g6, g7⟩ := gather_around e k hk x y s
      { s with input := (all.drop (n + 2)).map fun p => some (proj p)
               times := window ((all.take (n + 1 + 1)).map (·.time))
               cur := some ⟨proj p', ((n + 1 : Nat) : Int), med (n + 1)⟩, height := ((n + 1 : Nat) : Int) }
      ⟨proj p', ((n + 1 : Nat) : Int), med (n + 1)⟩ rfl hy
    refine ⟨s', ⟨proj p', ((n + 1 : Nat) : Int), med (n + 1)⟩, p'.hash, ?_, ?_, g7⟩
    · unfold askNext BlockHolder.criNext
      rw [hh.cur]
      dsimp only
      have e0 : handle = held.blk.hash := by rw [hh.handle_, hh.blk]; rfl
      rw [if_neg (by rw [e0]; simp), hrecv]
      dsimp only
      have e1 : ({ s with input := (all.drop (n + 2)).map fun p => some (proj p) } : State).times = s.times := rfl
      have e2 : (proj p').time = p'.time := rfl
      rw [e2, hmed]
      dsimp only
      rw [if_neg (by rw [e0, hlink, hh.blk]; simp), hhe, show (n : Int) + 1 = ((n + 1 : Nat) : Int) by omega, g1]
      rfl
    · refine ⟨hp', ?_, rfl, rfl, rfl, ?_, ?_, ?_, ?_, rfl⟩
      · rw [g2]
      · intro _; rw [g3]
      · rw [g4]
      · intro hi; rw [g6 hi]; dsimp only; rw [hh.latest_ hi]
      · rw [g5]
  | chi =>
    have hsz := hsz rfl
    obtain ⟨s', g1, g2, g3, g4, g5, g6, g7⟩ := gather_around e k hk x y s
      { s with input := (all.drop (n + 2)).map fun p => some (proj p)
               times := window ((all.take (n + 1 + 1)).map (·.time))
               cur := some ⟨proj p', ((n + 1 : Nat) : Int), med (n + 1)⟩ }
      ⟨proj p', ((n + 1 : Nat) : Int), med (n + 1)⟩ rfl hy
    refine ⟨s', ⟨proj p', ((n + 1 : Nat) : Int), med (n + 1)⟩, leEnc 4 (n + 1), ?_, ?_, g7⟩
    · unfold askNext BlockHolder.chiNext
      rw [hh.cur]
      dsimp only
      have e0 : leDec handle = n := by rw [hh.handle_]; exact leDec_leEnc4 n (by omega)
      rw [if_neg (by rw [e0, hh.height]; simp), hrecv]
      dsimp only
      have e2 : (proj p').time = p'.time := rfl
      rw [e2, hmed]
      dsimp only
      rw [if_neg (by rw [hlink, hh.blk]; simp), e0, show (n : Int) + 1 = ((n + 1 : Nat) : Int) by omega, g1]
      dsimp only
      rw [if_neg (by simp)]
      have : BlockHolder.makeBlockHandle ((n + 1 : Nat) : Int) = some (leEnc 4 (n + 1)) := by
        unfold BlockHolder.makeBlockHandle
        rw [if_neg (by omega)]
        rfl
      rw [this]
    · refine ⟨hp', ?_, rfl, rfl, rfl, (by intro h; cases h), ?_, ?_, ?_, rfl⟩
      · rw [g2]
      · rw [g4]
      · intro hi; rw [g6 hi]; dsimp only; rw [hh.latest_ hi]
      · rw [g5]

/-- Asking for a block after the last one. -/
theorem askNext_done {e : BlockHolder.Env} {i : Iface} {k : Sink σ} {all : List Block} {med : Nat → Nat}
    (hsz : i = .chi → all.length < 2 ^ 32) {n : Nat} {p : Block}
    {held : Held} {handle : Bytes} {latest : Int} {s : State} (hh : Holds i k all med n p held handle latest s)
    (hn : all[n + 1]? = none) : (askNext i e s handle).2.1 = .done := by
  have hlt := (List.getElem?_eq_some_iff.mp hh.this).1
  have hrecv : BlockHolder.receive s = (none, s) := by
    unfold BlockHolder.receive
    rw [hh.input, List.drop_eq_nil_of_le (List.getElem?_eq_none_iff.mp hn)]
    rfl
  cases i with
  | cri =>
    unfold askNext BlockHolder.criNext
    rw [hh.cur]
    dsimp only
    have e0 : handle = held.blk.hash := by rw [hh.handle_, hh.blk]; rfl
    rw [if_neg (by rw [e0]; simp), hrecv]
  | chi =>
    have hsz := hsz rfl
    unfold askNext BlockHolder.chiNext
    rw [hh.cur]
    dsimp only
    have e0 : leDec handle = n := by rw [hh.handle_]; exact leDec_leEnc4 n (by omega)
    rw [if_neg (by rw [e0, hh.height]; simp), hrecv]

/-- Asking for the genesis block. -/
theorem askFirst_ok {e : Env} (hs : SortOK e.sort) {i : Iface} {k : Sink σ} (hk : PrefixOK k) {all : List Block} {med : Nat → Nat}
    (hm : Medians all med) (hc : IsChain (all.map proj)) {p : Block} (hp : all[0]? = some p) (x y : σ)
    (hy : k.calls x (sinkCalls k 0 (-1) (proj p).txids) = .ok y) :
    let s := BlockHolder.create (all.map fun p => some (proj p))
    ∃ s' held handle, askFirst i (around e k x s) s = (s', .block held, handle) ∧
      Holds i k all med 0 p held handle (-1 + (proj p).txids.length) s' ∧ absorb k x s s' = .ok y := by
  intro s
  obtain ⟨ps, rfl⟩ : ∃ ps, all = p :: ps := by
    cases all with
    | nil => cases hp
    | cons a l => cases hp; exact ⟨l, rfl⟩
  have hgen : BlockHolder.looksLikeGenesis (proj p).hash = true := BlockHolder.looksLikeGenesis_of_take _ (hc.1 _ rfl)
  have hrecv : BlockHolder.receive s = (some (proj p), { s with input := ps.map fun p => some (proj p) }) := rfl
  have hmed := median_next (e := around e k x s) hs hm hp
  have hw : window (((p :: ps).take 0).map (·.time)) = s.times := rfl
  rw [hw] at hmed
  obtain ⟨s', g1, g2, g3, g4, g5, g6, g7⟩ := gather_around e k hk x y s
    { s with input := ps.map fun p => some (proj p)
             times := window (((p :: ps).take (0 + 1)).map (·.time))
             cur := some ⟨proj p, 0, med 0⟩, height := if i = .cri then 0 else -1 }
    ⟨proj p, 0, med 0⟩ rfl hy
  cases i with
  | cri =>
    rw [if_pos rfl] at g1 g3
    refine ⟨s', ⟨proj p, 0, med 0⟩, p.hash, ?_, ?_, g7⟩
    · unfold askFirst BlockHolder.criGenesis
      rw [if_neg (show ¬ s.height ≠ -1 from fun h => h rfl), hrecv]
      dsimp only
      have e2 : (proj p).time = p.time := rfl
      rw [e2, hmed]
      dsimp only
      rw [g1]
      dsimp only
      rw [if_neg (by simp), if_pos hgen]
      rfl
    · exact ⟨hp, g2, rfl, rfl, rfl, fun _ => by rw [g3]; rfl, g4, fun hi => g6 hi, g5, rfl⟩
  | chi =>
    rw [if_neg (by simp)] at g1 g3
    refine ⟨s', ⟨proj p, 0, med 0⟩, [0, 0, 0, 0], ?_, ?_, g7⟩
    · unfold askFirst BlockHolder.chiGenesis
      rw [if_neg (show ¬ s.cur.isSome = true by simp [s, BlockHolder.create]), hrecv]
      dsimp only
      have e2 : (proj p).time = p.time := rfl
      rw [e2, hmed]
      dsimp only
      have e3 : s.height = -1 := rfl
      rw [e3, g1]
      dsimp only
      rw [if_neg (by simp), if_pos hgen]
    · exact ⟨hp, g2, rfl, rfl, rfl, (fun h => by cases h), g4, fun hi => g6 hi, g5, by rfl⟩

/-! ## The loop -/

/-- The blocks as they are shown. -/
def Shown (e : Env) (i : Iface) (all : List Block) (med : Nat → Nat) (bs : List ChainStore.Blk) : Prop :=
  bs.length = all.length ∧ ∀ (n : Nat) p b, all[n]? = some p → bs[n]? = some b → adorn e i p n (med n) = some b

theorem bind_ok_inv {α β : Type} {a : Except Fail α} {f : α → Except Fail β} {y : β} (h : (a >>= f) = .ok y) :
    ∃ x, a = .ok x ∧ f x = .ok y := by
  cases a with
  | error _ => cases h
  | ok x => exact ⟨x, rfl, h⟩

theorem loop_feed {e : Env} (hs : SortOK e.sort) {i : Iface} {k : Sink σ} (hk : PrefixOK k) {all : List Block} {med : Nat → Nat}
    (hm : Medians all med) (hc : IsChain (all.map proj)) (hsz : i = .chi → all.length < 2 ^ 32) {bs : List ChainStore.Blk}
    (hb : Shown e i all med bs) : ∀ (rest : List Block) (n : Nat) (p : Block) (held : Held) (handle : Bytes) (latest : Int) (s : State)
      (b : ChainStore.Blk) (x x1 y : σ), rest = all.drop (n + 1) → Holds i k all med n p held handle latest s → bs[n]? = some b →
      k.append x b = .ok x1 → feed k ((n + 1 : Nat) : Int) latest (bs.drop (n + 1)) x1 = .ok y →
      loop e i k rest p held handle s x = .ok y := by
  intro rest
  induction rest with
  | nil =>
    intro n p held handle latest s b x x1 y hr hh hbn hx hf
    have hlt := (List.getElem?_eq_some_iff.mp hh.this).1
    have hend : all.length ≤ n + 1 := by
      have := congrArg List.length hr
      rw [List.length_drop, List.length_nil] at this
      omega
    rw [List.drop_eq_nil_of_le (by rw [hb.1]; exact hend)] at hf
    cases hf
    rw [loop, round]
    have hdone := askNext_done (e := around e k x1 s) hsz hh (List.getElem?_eq_none_iff.mpr hend)
    rw [if_neg, hh.height, hh.median, hb.2 n p b hh.this hbn]
    · dsimp only
      rw [hx, ChainStore.bind_ok, hdone]
      rfl
    · rintro ⟨rfl, h2⟩
      have := hsz rfl
      rw [hh.handle_] at h2
      have := congrArg leDec h2
      unfold BlockHolder.invalidHandle at this
      rw [leDec_leEnc4 _ (by omega), leDec_leEnc4 _ (by omega)] at this
      omega
  | cons p' rest ih =>
    intro n p held handle latest s b x x1 y hr hh hbn hx hf
    have hlt := (List.getElem?_eq_some_iff.mp hh.this).1
    have hp' : all[n + 1]? = some p' := by rw [← List.head?_drop, ← hr]; rfl
    have hlt' := (List.getElem?_eq_some_iff.mp hp').1
    have hbl : n + 1 < bs.length := by rw [hb.1]; exact hlt'
    have hb' : bs[n + 1]? = some bs[n + 1] := List.getElem?_eq_getElem hbl
    rw [List.drop_eq_getElem_cons hbl, feed] at hf
    obtain ⟨x2, f1, hf⟩ := bind_ok_inv hf
    obtain ⟨x3, f2, hf⟩ := bind_ok_inv hf
    rw [adorn_hash (hb.2 (n + 1) p' _ hp' hb')] at f1
    obtain ⟨s', held', handle', a1, a2, a3⟩ := askNext_more (e := e) hs hk hm hc hsz hh hp' x1 x2 f1
    have hlen : (proj p').txids.length = bs[n + 1].txs.length := by
      rw [← adorn_hash (hb.2 (n + 1) p' _ hp' hb'), List.length_map]
    rw [hlen] at a2
    rw [loop, round]
    rw [if_neg, hh.height, hh.median, hb.2 n p b hh.this hbn]
    · dsimp only
      rw [hx, ChainStore.bind_ok, a1]
      dsimp only
      rw [a3, ChainStore.bind_ok, ChainStore.bind_ok]
      dsimp only
      apply ih (n + 1) p' held' handle' _ s' bs[n + 1] x2 x3 y ?_ a2 hb' f2 ?_
      · rw [← List.drop_drop, ← hr]; rfl
      · rw [← hf]; congr 1
    · rintro ⟨rfl, h2⟩
      have := hsz rfl
      rw [hh.handle_] at h2
      have := congrArg leDec h2
      unfold BlockHolder.invalidHandle at this
      rw [leDec_leEnc4 _ (by omega), leDec_leEnc4 _ (by omega)] at this
      omega

/-- A phase feeds the blocks of a chain into its sink. -/
theorem phase_feed {e : Env} (hs : SortOK e.sort) {i : Iface} {k : Sink σ} (hk : PrefixOK k) {all : List Block} {med : Nat → Nat}
    (hm : Medians all med) (hc : IsChain (all.map proj)) (hsz : i = .chi → all.length < 2 ^ 32) {bs : List ChainStore.Blk}
    (hb : Shown e i all med bs) (hne : all ≠ []) (x y : σ) (hf : feed k 0 (-1) bs x = .ok y) : phase e i k all x = .ok y := by
  obtain ⟨p, ps, rfl⟩ : ∃ p ps, all = p :: ps := by
    cases all with
    | nil => exact absurd rfl hne
    | cons a l => exact ⟨a, l, rfl⟩
  obtain ⟨b, bs', rfl⟩ : ∃ b bs', bs = b :: bs' := by
    cases bs with
    | nil => have := hb.1; simp at this
    | cons a l => exact ⟨a, l, rfl⟩
  rw [feed] at hf
  obtain ⟨x1, f1, hf⟩ := bind_ok_inv hf
  obtain ⟨x2, f2, hf⟩ := bind_ok_inv hf
  have had := hb.2 0 p b rfl rfl
  rw [adorn_hash had] at f1
  obtain ⟨s', held, handle, a1, a2, a3⟩ := askFirst_ok (e := e) (i := i) hs hk hm hc (p := p) rfl x x1 f1
  unfold phase
  dsimp only
  rw [a1]
  dsimp only
  rw [a3, ChainStore.bind_ok]
  have hlen : (proj p).txids.length = b.txs.length := by rw [← adorn_hash had, List.length_map]
  rw [hlen] at a2
  exact loop_feed hs hk hm hc hsz hb ps 0 p held handle _ s' b x1 x2 y rfl a2 rfl f2 hf

end Verif.Run
