import Verif.Model.FaultyReads
import Verif.Props.ChainStore

/-!
# C123: reading a stored chain from a disk that may fail

The specification is `truth`: what the same call gives when every access succeeds, by the reading functions of
Model.ChainStore, whose meaning for a stored chain is C34 to C37 and C40.
-/

namespace Verif.FaultyReads

open Verif.ChainStore (St Words Nei Fail Iface Blk indexOf)

/-! ## The specification -/

/-- The value of a call, if it has one. -/
def val {ε α : Type} : Except ε α → Option α
  | .ok v => some v
  | .error _ => none

/-- The non-essential ints, one value for each file. -/
def intsAt : List Nei → Int → Option (List (String × Int))
  | [], _ => some []
  | f :: fs, h => (val (ChainStore.get f.words h)).bind fun v => (intsAt fs h).map ((f.name, v) :: ·)

/-- The right answer, if there is one. -/
def truth (s : St) : Question → Option Answer
  | .blockHash b => (val (Handles.hashAt s.blkHashes b)).map .hash
  | .transactionCount b => (val (ChainStore.transactionCount s b)).map .num
  | .nthTransaction b n => (val (ChainStore.nthTransaction s b n)).map .num
  | .blockInts b => (intsAt s.blkNei b).map .ints
  | .transHash t => (val (Handles.hashAt s.trnHashes t)).map .hash
  | .transInts t => (intsAt s.trnNei t).map .ints
  | .allTxoSatoshis t => (val (ChainStore.allTxoSatoshis s t)).map .nums
  | .txiCount t => (val (ChainStore.txiCount s t)).map .num
  | .nthTxi t n => (val (ChainStore.nthTxi s t n)).map .num
  | .txoCount t => (val (ChainStore.txoCount s t)).map .num
  | .nthTxo t n => (val (ChainStore.nthTxo s t n)).map .num
  | .sourceTxo i => (val (ChainStore.sourceTxo s i)).map fun p => .pair p.1 p.2
  | .satoshis o => (val (ChainStore.satoshis s o)).map .num
  | .addressOf o => (val (ChainStore.addressOf s o)).map .num
  | .addressTxos a =>
    (val (Handles.hashAt s.adrHashes a)).bind fun _ => (val (ChainStore.addressTxos s a)).map .nums
  | .latestBlock => some (.num (ChainStore.latestBlock s))
  | .nextBlock b => some (.num (ChainStore.nextBlock s b))
  | .latestTransaction => some (.num (ChainStore.latestTransaction s))
  | .nextTransaction t => some (.num (ChainStore.nextTransaction s t))
  | .blockByHash x => if x ∈ s.blkHashes then some (.num (indexOf s.blkHashes x)) else none
  | .transactionByHash x => if x ∈ s.trnHashes then some (.num (indexOf s.trnHashes x)) else none
  | .addressByHash x => if x ∈ s.adrHashes then some (.num (indexOf s.adrHashes x)) else none
  | .parentBlockOfTrans t => (val (ChainStore.parentBlockOf s t)).map .num
  | .parentTransOfTxi i => (val (ChainStore.parentTransOfTxi s i)).map .num
  | .parentTransOfTxo o => (val (ChainStore.parentTransOfTxo s o)).map .num

/-- Every access succeeds. -/
def Working (d : Disk) : Prop := ∀ b ∈ d, b = true

/-- What the client would compute from the right answers; `none`: it asks something that has none. -/
def Client.meaning {α : Type} (s : St) : Client α → Option α
  | .done v => some v
  | .ask q k => (truth s q).bind fun a => (k a).meaning s

/-! ## Calls that read `v` -/

/-- Whatever the disk does, a success is `v`; and on a working disk the call gives `v`. -/
structure Reads {α : Type} (c : Call α) (v : Option α) : Prop where
  sound : ∀ d a, (c d).1 = .ok a → v = some a
  works : ∀ d, Working d → val (c d).1 = v ∧ Working (c d).2

theorem reads_ret {α : Type} (a : α) : Reads (ret a) (some a) :=
  ⟨fun d b h => by simp only [ret, Except.ok.injEq] at h; rw [h], fun d h => ⟨rfl, h⟩⟩

theorem reads_access {α : Type} (v : Except Fail α) : Reads (access v) (val v) := by
  constructor
  · intro d a h
    match d, v, h with
    | [], .ok v, h => simp only [access, Except.ok.injEq] at h; rw [← h]; rfl
    | [], .error _, h => simp [access] at h
    | true :: d, .ok v, h => simp only [access, Except.ok.injEq] at h; rw [← h]; rfl
    | true :: d, .error _, h => simp [access] at h
    | false :: d, v, h => simp [access] at h
  · intro d h
    match d, v, h with
    | [], .ok v, h => exact ⟨rfl, h⟩
    | [], .error _, h => exact ⟨rfl, h⟩
    | true :: d, .ok v, h => exact ⟨rfl, fun b hb => h b (List.mem_cons_of_mem _ hb)⟩
    | true :: d, .error _, h => exact ⟨rfl, fun b hb => h b (List.mem_cons_of_mem _ hb)⟩
    | false :: d, v, h => exact absurd (h false (by simp)) (by decide)

theorem reads_andThen {α β : Type} {c : Call α} {v : Option α} {f : α → Call β} {w : α → Option β} (h : Reads c v)
    (hf : ∀ a, v = some a → Reads (f a) (w a)) : Reads (andThen c f) (v.bind w) := by
  constructor
  · intro d b hb
    cases hc : c d with
    | mk r d' =>
      cases r with
      | error e => simp [andThen, hc] at hb
      | ok a =>
        have hv := h.sound d a (by rw [hc])
        simp only [andThen, hc] at hb
        rw [hv]
        exact (hf a hv).sound d' b hb
  · intro d hd
    have hw := h.works d hd
    cases hc : c d with
    | mk r d' =>
      rw [hc] at hw
      cases r with
      | error e =>
        have : v = none := hw.1.symm
        simp only [andThen, hc, this]
        exact ⟨rfl, hw.2⟩
      | ok a =>
        have hv : v = some a := hw.1.symm
        have := (hf a hv).works d' hw.2
        simp only [andThen, hc, hv]
        exact this

theorem reads_as {α : Type} {c : Call α} {v : Option α} (f : α → Answer) (h : Reads c v) : Reads (as f c) (v.map f) := by
  have := reads_andThen (w := fun a => some (f a)) h fun a _ => reads_ret (f a)
  cases v <;> exact this

theorem val_bind {ε α β : Type} (x : Except ε α) (f : α → Except ε β) : val (x >>= f) = (val x).bind fun a => val (f a) := by
  cases x <;> rfl

theorem reads_byHash (l : List Bytes) (x : Bytes) :
    Reads (byHash l x) (if x ∈ l then some (indexOf l x) else none) := by
  have hmem : x ∈ l ↔ indexOf l x ≠ -1 := by
    unfold indexOf
    cases h : l.findIdx? (· = x) with
    | none =>
      rw [List.findIdx?_eq_none_iff] at h
      refine ⟨fun hx => absurd (h x hx) (by simp), fun hx => absurd rfl hx⟩
    | some i =>
      refine ⟨fun _ => by show ((i : Int)) ≠ -1; omega, fun _ => ?_⟩
      rw [List.findIdx?_eq_some_iff_getElem] at h
      obtain ⟨hi, hx, _⟩ := h
      have : l[i] = x := by simpa using hx
      rw [← this]; exact List.getElem_mem hi
  have hno : ∀ d', andThen (ret (-1 : Int)) (fun i => if i = -1 then fail .notFound else ret i) d' = ((.error .notFound : Except Err Int), d') := fun _ => rfl
  have hyes : ∀ d d', indexOfHash l x d = (.ok (indexOf l x), d') →
      byHash l x d = (if x ∈ l then .ok (indexOf l x) else .error .notFound, d') := by
    intro d d' h
    by_cases hx : x ∈ l
    · have := hmem.1 hx
      simp only [byHash, andThen, ignoring, h, if_neg this, if_pos hx, ret]
    · have : indexOf l x = -1 := Classical.not_not.1 fun hn => hx (hmem.2 hn)
      simp only [byHash, andThen, ignoring, h, if_pos this, if_neg hx, fail]
  constructor
  · intro d a h
    match d, h with
    | [], h =>
      rw [hyes [] [] rfl] at h
      by_cases hx : x ∈ l
      · rw [if_pos hx] at h ⊢; simp only [Except.ok.injEq] at h; rw [h]
      · rw [if_neg hx] at h; cases h
    | true :: d, h =>
      rw [hyes (true :: d) d rfl] at h
      by_cases hx : x ∈ l
      · rw [if_pos hx] at h ⊢; simp only [Except.ok.injEq] at h; rw [h]
      · rw [if_neg hx] at h; cases h
    | false :: d, h => cases h
  · intro d hd
    match d, hd with
    | [], hd =>
      rw [hyes [] [] rfl]
      by_cases hx : x ∈ l
      · rw [if_pos hx, if_pos hx]; exact ⟨rfl, hd⟩
      · rw [if_neg hx, if_neg hx]; exact ⟨rfl, hd⟩
    | true :: d, hd =>
      rw [hyes (true :: d) d rfl]
      have hd' : Working d := fun b hb => hd b (List.mem_cons_of_mem _ hb)
      by_cases hx : x ∈ l
      · rw [if_pos hx, if_pos hx]; exact ⟨rfl, hd'⟩
      · rw [if_neg hx, if_neg hx]; exact ⟨rfl, hd'⟩
    | false :: d, hd => exact absurd (hd false (by simp)) (by decide)

theorem reads_ints (fs : List Nei) (h : Int) : Reads (ints fs h) (intsAt fs h) := by
  induction fs with
  | nil => exact reads_ret _
  | cons f fs ih =>
    refine reads_andThen (reads_access _) fun v _ => ?_
    have := reads_andThen (w := fun m => some ((f.name, v) :: m)) ih fun m _ => reads_ret ((f.name, v) :: m)
    cases hv : intsAt fs h <;> rw [hv] at this <;> exact this

theorem reads_sats (s : St) (n : Nat) : ∀ i : Int, Reads (satsLoop s n i) (val (ChainStore.readSats s n i)) := by
  induction n with
  | zero => intro i; exact reads_ret _
  | succ n ih =>
    intro i
    simp only [ChainStore.readSats, val_bind]
    refine reads_andThen (reads_access _) fun v _ => ?_
    exact reads_andThen (ih (i + 1)) fun m _ => reads_ret _

/-- Count first, then read the first and, unless it is the last, the next: the shape of the three counts. -/
theorem reads_span (w : Words) (n m k : Int) :
    Reads (andThen (readWord w k) fun first =>
        if k + 1 < n then andThen (readWord w (k + 1)) fun next => ret (next - first) else ret (m - first))
      (val (do
        let first ← ChainStore.get w k
        if k + 1 < n then do
          let next ← ChainStore.get w (k + 1)
          .ok (next - first)
        else .ok (m - first))) := by
  rw [val_bind]
  refine reads_andThen (reads_access _) fun first _ => ?_
  by_cases hk : k + 1 < n
  · simp only [if_pos hk, val_bind]
    exact reads_andThen (reads_access _) fun next _ => reads_ret _
  · simp only [if_neg hk]
    exact reads_ret _

theorem reads_first (w : Words) (k n : Int) :
    Reads (andThen (readWord w k) fun first => ret (first + n)) (val (do let first ← ChainStore.get w k; .ok (first + n))) := by
  rw [val_bind]
  exact reads_andThen (reads_access _) fun first _ => reads_ret _

theorem reads_after {α β : Type} {v : α} {f : α → Call β} {w : Option β} (h : Reads (f v) w) :
    Reads (andThen (access (.ok v)) f) w := by
  refine reads_andThen (v := some v) (w := fun _ => w) (reads_access (.ok v)) fun a ha => ?_
  cases ha; exact h

theorem reads_allSats (s : St) (t : Int) : Reads (allTxoSatoshis s t) (val (ChainStore.allTxoSatoshis s t)) := by
  refine reads_after ?_
  simp only [ChainStore.allTxoSatoshis, val_bind]
  refine reads_andThen (reads_access _) fun first _ => ?_
  by_cases ht : t = ChainStore.count s.trnFirstTxo - 1
  · rw [if_pos ht, if_pos ht, val_bind]
    exact reads_andThen (reads_access _) fun last _ => reads_sats s _ _
  · rw [if_neg ht, if_neg ht, val_bind]
    exact reads_andThen (reads_access _) fun last _ => reads_sats s _ _

/-! ## The address object -/

/-- What is known of the object: a hash or list it claims to have read is the right one. -/
structure Sure (s : St) (h : Int) (a : Adr) : Prop where
  height : a.height = h
  unread : a.hashSpecified = false → a.hash = zeros 32
  hash : a.hashSpecified = true → Handles.hashAt s.adrHashes h = .ok a.hash
  list : a.populated = true → a.hashSpecified = true ∧ ChainStore.addressTxos s h = .ok a.txos

theorem sure_fresh (s : St) (h : Int) : Sure s h (.fresh h) :=
  ⟨rfl, fun _ => rfl, fun e => (by cases e), fun e => (by cases e)⟩

theorem access_cases {α : Type} (v : Except Fail α) (d : Disk) :
    (∃ a d', access v d = (.ok a, d') ∧ v = .ok a) ∨ (∃ e d', access v d = (.error e, d')) := by
  match d, v with
  | [], .ok v => exact .inl ⟨v, [], rfl, rfl⟩
  | [], .error e => exact .inr ⟨_, [], rfl⟩
  | true :: d, .ok v => exact .inl ⟨v, d, rfl, rfl⟩
  | true :: d, .error e => exact .inr ⟨_, d, rfl⟩
  | false :: d, v => exact .inr ⟨_, d, rfl⟩

theorem access_works {α : Type} {v : Except Fail α} {a : α} (hv : v = .ok a) {d : Disk} (hd : Working d) :
    ∃ d', access v d = (.ok a, d') ∧ Working d' := by
  subst hv
  match d, hd with
  | [], hd => exact ⟨[], rfl, hd⟩
  | true :: d, hd => exact ⟨d, rfl, fun b hb => hd b (List.mem_cons_of_mem _ hb)⟩
  | false :: d, hd => exact absurd (hd false (by simp)) (by decide)

theorem addressTxos_ok {s : St} {h f : Int} (hf : ChainStore.get s.addrFirstTxo h = .ok f) :
    ChainStore.addressTxos s h = .ok (f :: (s.additional h.toNat).map fun n : Nat => (n : Int)) := by
  simp only [ChainStore.addressTxos, hf]; rfl

theorem readHash_sure {s : St} {h : Int} {a : Adr} (ha : Sure s h a) (d : Disk) :
    ∃ a1 b d1, readHash s a d = (a1, b, d1) ∧ Sure s h a1 ∧ a1.populated = a.populated ∧ a1.txos = a.txos ∧
      (b = true → a1.hashSpecified = true) := by
  unfold readHash
  by_cases hs : a.hashSpecified = true
  · rw [if_pos hs]; exact ⟨a, true, d, rfl, ha, rfl, rfl, fun _ => hs⟩
  · rw [if_neg hs]
    rcases access_cases (Handles.hashAt s.adrHashes a.height) d with ⟨x, d', e, hv⟩ | ⟨e', d', e⟩
    · simp only [getHash, e]
      refine ⟨_, _, _, rfl, ⟨ha.height, fun e => (by cases e), fun _ => ?_, fun hp => ?_⟩, rfl, rfl, fun _ => rfl⟩
      · rw [← ha.height]; exact hv
      · exact ⟨rfl, (ha.list hp).2⟩
    · simp only [getHash, e]
      exact ⟨_, _, _, rfl, ha, rfl, rfl, fun e => by cases e⟩

theorem populate_sure {s : St} {h : Int} {a : Adr} (ha : Sure s h a) (hp : a.populated = false) (d : Disk) :
    ∃ a' b d', populate s a d = (a', b, d') ∧ Sure s h a' ∧ (b = true → a'.populated = true) := by
  have ha0 : Sure s h { a with txos := [] } :=
    ⟨ha.height, ha.unread, ha.hash, fun e => absurd (show a.populated = true from e) (by rw [hp]; decide)⟩
  obtain ⟨a1, b, d1, e1, h1, hp1, -, hb⟩ := readHash_sure ha0 d
  have hp1' : a1.populated = false := hp1.trans hp
  unfold populate
  rw [e1]
  cases b with
  | false => exact ⟨a1, false, d1, rfl, h1, fun e => by cases e⟩
  | true =>
    rcases access_cases (ChainStore.get s.addrFirstTxo a.height) d1 with ⟨f, d2, e2, hf⟩ | ⟨_, d2, e2⟩
    · simp only [readWord, e2]
      rcases access_cases (.ok ((s.additional a.height.toNat).map fun n : Nat => (n : Int))) d2 with ⟨m, d3, e3, hm⟩ | ⟨_, d3, e3⟩
      · simp only [getArray, e3]
        refine ⟨_, _, _, rfl, ⟨h1.height, h1.unread, h1.hash, fun _ => ⟨hb rfl, ?_⟩⟩, fun _ => rfl⟩
        rw [ha.height] at hf hm
        rw [addressTxos_ok hf]
        simp only [Except.ok.injEq] at hm
        simp only [hm]
      · simp only [getArray, e3]
        refine ⟨_, _, _, rfl, ⟨h1.height, h1.unread, h1.hash, fun e => ?_⟩, fun e => by cases e⟩
        exact absurd (show a1.populated = true from e) (by rw [hp1']; decide)
    · simp only [readWord, e2]
      exact ⟨_, _, _, rfl, h1, fun e => by cases e⟩

theorem ensure_sure {s : St} {h : Int} {a : Adr} (ha : Sure s h a) (d : Disk) :
    ∃ a' b d', ensure s a d = (a', b, d') ∧ Sure s h a' ∧ (b = true → a'.populated = true) := by
  unfold ensure
  by_cases hp : a.populated = true
  · rw [if_pos hp]; exact ⟨a, true, d, rfl, ha, fun _ => hp⟩
  · rw [if_neg hp]; exact populate_sure ha (by simpa using hp) d

theorem ensure_works {s : St} {h : Int} {a : Adr} (ha : Sure s h a) {x : Bytes} {l : List Int}
    (hx : Handles.hashAt s.adrHashes h = .ok x) (hl : ChainStore.addressTxos s h = .ok l) {d : Disk} (hd : Working d) :
    ∃ a' d', ensure s a d = (a', true, d') ∧ a'.hash = x ∧ a'.txos = l ∧ Working d' := by
  unfold ensure
  by_cases hp : a.populated = true
  · rw [if_pos hp]
    obtain ⟨h1, h2⟩ := ha.list hp
    have h3 := ha.hash h1
    rw [hx] at h3; rw [hl] at h2
    simp only [Except.ok.injEq] at h2 h3
    exact ⟨a, d, rfl, h3.symm, h2.symm, hd⟩
  · rw [if_neg hp]
    have hf : ∃ f, ChainStore.get s.addrFirstTxo h = .ok f := by
      cases hg : ChainStore.get s.addrFirstTxo h with
      | ok f => exact ⟨f, rfl⟩
      | error e => simp only [ChainStore.addressTxos, hg] at hl; cases hl
    obtain ⟨f, hf⟩ := hf
    rw [addressTxos_ok hf] at hl
    simp only [Except.ok.injEq] at hl
    have hr : ∃ a1 d1, readHash s { a with txos := [] } d = (a1, true, d1) ∧ a1.hash = x ∧ Working d1 := by
      unfold readHash
      by_cases hs : a.hashSpecified = true
      · rw [if_pos hs]
        have h3 := ha.hash hs
        rw [hx] at h3
        simp only [Except.ok.injEq] at h3
        exact ⟨_, d, rfl, h3.symm, hd⟩
      · rw [if_neg hs]
        have hx' := hx
        rw [← ha.height] at hx'
        obtain ⟨d1, e1, hd1⟩ := access_works hx' hd
        simp only [getHash, e1]
        exact ⟨_, d1, rfl, rfl, hd1⟩
    obtain ⟨a1, d1, e1, hx1, hd1⟩ := hr
    have hf' := hf
    rw [← ha.height] at hf'
    obtain ⟨d2, e2, hd2⟩ := access_works hf' hd1
    obtain ⟨d3, e3, hd3⟩ := access_works (v := .ok ((s.additional a.height.toNat).map fun n : Nat => (n : Int))) rfl hd2
    unfold populate
    simp only [e1, readWord, e2, getArray, e3]
    refine ⟨_, d3, rfl, hx1, ?_, hd3⟩
    rw [← hl, ha.height]

theorem val_hash {s : St} {h : Int} {x : Bytes} (hx : Handles.hashAt s.adrHashes h = .ok x) :
    val (Handles.hashAt s.adrHashes h) = some x := by rw [hx]; rfl

theorem reads_address (s : St) (h : Int) :
    Reads (addressTxos s h) ((val (Handles.hashAt s.adrHashes h)).bind fun _ => val (ChainStore.addressTxos s h)) := by
  constructor
  · intro d l hl
    obtain ⟨a, b, d', e, ha, hb⟩ := ensure_sure (sure_fresh s h) d
    simp only [addressTxos, e] at hl
    cases b with
    | false => cases hl
    | true =>
      simp only [Except.ok.injEq] at hl
      obtain ⟨h1, h2⟩ := ha.list (hb rfl)
      rw [ha.hash h1, h2, ← hl]; rfl
  · intro d hd
    unfold addressTxos ensure
    rw [if_neg (by simp [Adr.fresh])]
    unfold populate readHash
    rw [if_neg (by simp [Adr.fresh])]
    simp only [getHash, readWord, getArray, Adr.fresh]
    have k1 := (reads_access (Handles.hashAt s.adrHashes h)).works d hd
    cases hc1 : access (Handles.hashAt s.adrHashes h) d with
    | mk r1 d1 =>
      rw [hc1] at k1
      cases r1 with
      | error e => rw [← k1.1]; exact ⟨rfl, k1.2⟩
      | ok x =>
        rw [← k1.1]
        have k2 := (reads_access (ChainStore.get s.addrFirstTxo h)).works d1 k1.2
        cases hc2 : access (ChainStore.get s.addrFirstTxo h) d1 with
        | mk r2 d2 =>
          rw [hc2] at k2
          simp only [hc2]
          cases r2 with
          | error e =>
            refine ⟨?_, k2.2⟩
            have : ∃ e', ChainStore.get s.addrFirstTxo h = .error e' := by
              cases hg : ChainStore.get s.addrFirstTxo h with
              | ok f => rw [hg] at k2; cases k2.1
              | error e' => exact ⟨e', rfl⟩
            obtain ⟨e', he⟩ := this
            simp only [ChainStore.addressTxos, he]; rfl
          | ok f =>
            have hf : ChainStore.get s.addrFirstTxo h = .ok f := by
              cases hg : ChainStore.get s.addrFirstTxo h with
              | ok f' => rw [hg] at k2; simp only [val, Option.some.injEq] at k2; rw [k2.1]
              | error e' => rw [hg] at k2; cases k2.1
            obtain ⟨d3, e3, hd3⟩ := access_works (v := .ok ((s.additional h.toNat).map fun n : Nat => (n : Int))) rfl k2.2
            simp only [e3]
            rw [addressTxos_ok hf]
            exact ⟨rfl, hd3⟩

/-! ## Every question -/

theorem reads_ask (s : St) (q : Question) : Reads (ask s q) (truth s q) := by
  cases q with
  | blockHash b => exact reads_as _ (reads_access _)
  | transactionCount b => exact reads_as _ (reads_after (reads_after (reads_span _ _ _ _)))
  | nthTransaction b n => exact reads_as _ (reads_first _ _ _)
  | blockInts b => exact reads_as _ (reads_ints _ _)
  | transHash t => exact reads_as _ (reads_access _)
  | transInts t => exact reads_as _ (reads_ints _ _)
  | allTxoSatoshis t => exact reads_as _ (reads_allSats _ _)
  | txiCount t => exact reads_as _ (reads_after (reads_after (reads_span _ _ _ _)))
  | nthTxi t n => exact reads_as _ (reads_first _ _ _)
  | txoCount t => exact reads_as _ (reads_after (reads_after (reads_span _ _ _ _)))
  | nthTxo t n => exact reads_as _ (reads_first _ _ _)
  | sourceTxo i =>
    refine reads_as _ ?_
    simp only [ChainStore.sourceTxo, val_bind]
    exact reads_andThen (reads_access _) fun t _ => reads_andThen (reads_access _) fun v _ => reads_ret _
  | satoshis o => exact reads_as _ (reads_access _)
  | addressOf o => exact reads_as _ (reads_access _)
  | addressTxos a =>
    have h := reads_as .nums (reads_address s a)
    have e : truth s (.addressTxos a) =
        ((val (Handles.hashAt s.adrHashes a)).bind fun _ => val (ChainStore.addressTxos s a)).map .nums := by
      simp only [truth]
      cases val (Handles.hashAt s.adrHashes a) <;> rfl
    rw [e]; exact h
  | latestBlock =>
    have : Reads (latest s.blkHashes) (some (ChainStore.latestBlock s)) := by
      refine reads_after ?_
      unfold ChainStore.latestBlock ChainStore.latest
      by_cases h : s.blkHashes.length = 0
      · rw [if_pos h, if_pos (by omega)]; exact reads_ret _
      · rw [if_neg h, if_neg (by omega)]; exact reads_ret _
    exact reads_as .num this
  | nextBlock b =>
    have : Reads (next s.blkHashes b) (some (ChainStore.nextBlock s b)) := by
      refine reads_after ?_
      unfold ChainStore.nextBlock ChainStore.next
      by_cases h : b + 1 ≥ (s.blkHashes.length : Int)
      · rw [if_pos h, if_pos h]; exact reads_ret _
      · rw [if_neg h, if_neg h]; exact reads_ret _
    exact reads_as .num this
  | latestTransaction =>
    have : Reads (latest s.trnHashes) (some (ChainStore.latestTransaction s)) := by
      refine reads_after ?_
      unfold ChainStore.latestTransaction ChainStore.latest
      by_cases h : s.trnHashes.length = 0
      · rw [if_pos h, if_pos (by omega)]; exact reads_ret _
      · rw [if_neg h, if_neg (by omega)]; exact reads_ret _
    exact reads_as .num this
  | nextTransaction t =>
    have : Reads (next s.trnHashes t) (some (ChainStore.nextTransaction s t)) := by
      refine reads_after ?_
      unfold ChainStore.nextTransaction ChainStore.next
      by_cases h : t + 1 ≥ (s.trnHashes.length : Int)
      · rw [if_pos h, if_pos h]; exact reads_ret _
      · rw [if_neg h, if_neg h]; exact reads_ret _
    exact reads_as .num this
  | blockByHash x => 
    have h := reads_as .num (reads_byHash s.blkHashes x)
    simp only [truth]
    by_cases hx : x ∈ s.blkHashes
    · rw [if_pos hx] at h ⊢; exact h
    · rw [if_neg hx] at h ⊢; exact h
  | transactionByHash x =>
    have h := reads_as .num (reads_byHash s.trnHashes x)
    simp only [truth]
    by_cases hx : x ∈ s.trnHashes
    · rw [if_pos hx] at h ⊢; exact h
    · rw [if_neg hx] at h ⊢; exact h
  | addressByHash x =>
    have h := reads_as .num (reads_byHash s.adrHashes x)
    simp only [truth]
    by_cases hx : x ∈ s.adrHashes
    · rw [if_pos hx] at h ⊢; exact h
    · rw [if_neg hx] at h ⊢; exact h
  | parentBlockOfTrans t => exact reads_as _ (reads_access _)
  | parentTransOfTxi i => exact reads_as _ (reads_access _)
  | parentTransOfTxo o => exact reads_as _ (reads_access _)

theorem reads_client {α : Type} (s : St) (c : Client α) : Reads (c.run s) (c.meaning s) := by
  induction c with
  | done v => exact reads_ret v
  | ask q k ih => exact reads_andThen (reads_ask s q) fun a _ => ih a

/-! ## C123 -/

/-- **C123.** Whatever accesses fail, a call that gives an answer gives the right one. -/
theorem an_answer_from_a_failing_disk_is_right (s : St) (q : Question) (d : Disk) (a : Answer)
    (h : (ask s q d).1 = .ok a) : truth s q = some a :=
  (reads_ask s q).sound d a h

/-- **C123.** While the disk works, every call that has an answer gives it, and the others give an error. -/
theorem a_working_disk_answers (s : St) (q : Question) (d : Disk) (hd : Working d) : val (ask s q d).1 = truth s q :=
  ((reads_ask s q).works d hd).1

/-- **C123.** A client that goes on with each answer, and stops at the first error, ends with an error or with what it
would have computed from the right answers, whatever accesses fail. -/
theorem a_client_is_told_an_error_or_the_truth {α : Type} (s : St) (c : Client α) (d : Disk) :
    (∃ e, (c.run s d).1 = .error e) ∨ ∃ v, (c.run s d).1 = .ok v ∧ c.meaning s = some v := by
  cases h : (c.run s d).1 with
  | error e => exact .inl ⟨e, rfl⟩
  | ok v => exact .inr ⟨v, rfl, (reads_client s c).sound d v h⟩

/-- **C123.** In particular for the chain as it was stored: a number of transactions, a transaction of a block, or the
amounts of a transaction's outputs are those of the blocks that were stored, or an error. -/
theorem a_stored_chain_on_a_failing_disk {p q : Int} (hp : p ≤ 0) (hq : q ≤ 0) {i : Iface} {dl : Bool}
    {bn tn : List (String × Nat)} {bs : List Blk} (hg : ChainStore.Good i dl bn tn bs) :
    ∃ s, ChainStore.store p q i dl bn tn bs = .ok s ∧
      ∀ (k : Nat) b, bs[k]? = some b → ∀ (d : Disk) (a : Answer),
        ((ask s (.transactionCount k) d).1 = .ok a → a = .num b.txs.length) ∧
        ∀ (n : Nat) tx, b.txs[n]? = some tx →
          ((ask s (.nthTransaction k n) d).1 = .ok a → a = .num ((ChainStore.firstAt bs k + n : Nat) : Int)) ∧
          ((ask s (.allTxoSatoshis ((ChainStore.firstAt bs k + n : Nat) : Int)) d).1 = .ok a →
            a = .nums (tx.txos.map (·.sats))) := by
  obtain ⟨s, e, h1, -⟩ := ChainStore.blocks_partition_transactions hp hq hg
  obtain ⟨s', e', h2⟩ := ChainStore.transactions_keep_inputs_outputs hp hq hg
  rw [e] at e'
  simp only [Except.ok.injEq] at e'
  subst e'
  refine ⟨s, e, fun k b hb d a => ⟨fun h => ?_, fun n tx hn => ⟨fun h => ?_, fun h => ?_⟩⟩⟩
  · have := an_answer_from_a_failing_disk_is_right s _ d a h
    simp only [truth, (h1 k b hb).1] at this
    exact (Option.some.inj this).symm
  · have := an_answer_from_a_failing_disk_is_right s _ d a h
    simp only [truth, ((h1 k b hb).2.2.2 n tx hn).1] at this
    exact (Option.some.inj this).symm
  · have := an_answer_from_a_failing_disk_is_right s _ d a h
    simp only [truth, (h2 k n b tx hb hn).2.1] at this
    exact (Option.some.inj this).symm

/-- Violation: a lookup by hash does not say that the disk failed. When its access fails, it says that the hash is not
there, of every hash in the chain. -/
theorem a_failing_disk_says_a_stored_hash_is_not_found (s : St) (x : Bytes) (d : Disk) :
    (ask s (.blockByHash x) (false :: d)).1 = .error .notFound ∧
    (ask s (.transactionByHash x) (false :: d)).1 = .error .notFound ∧
    (ask s (.addressByHash x) (false :: d)).1 = .error .notFound := ⟨rfl, rfl, rfl⟩

/-- On a disk that works, "not found" is said of exactly the hashes that are not there. -/
theorem not_found_is_right_on_a_working_disk_partial (s : St) (x : Bytes) (d : Disk) (hd : Working d) :
    ((ask s (.blockByHash x) d).1 = .error .notFound ↔ x ∉ s.blkHashes) ∧
    ((ask s (.transactionByHash x) d).1 = .error .notFound ↔ x ∉ s.trnHashes) ∧
    ((ask s (.addressByHash x) d).1 = .error .notFound ↔ x ∉ s.adrHashes) := by
  have key : ∀ l : List Bytes, (as .num (byHash l x) d).1 = .error .notFound ↔ x ∉ l := by
    intro l
    have h := (reads_byHash l x).works d hd
    cases hc : byHash l x d with
    | mk r d' =>
      rw [hc] at h
      have hr : ∀ e, r = .error e → e = .notFound := by
        intro e he
        have : (byHash l x d).1 = .error e := by rw [hc, he]
        simp only [byHash, andThen, ignoring] at this
        cases hi : indexOfHash l x d with
        | mk r1 d1 =>
          rw [hi] at this
          cases r1 with
          | error e1 => simp only [if_true, fail, Except.error.injEq] at this; exact this.symm
          | ok j =>
            by_cases hj : j = -1
            · simp only [if_pos hj, fail, Except.error.injEq] at this; exact this.symm
            · simp only [if_neg hj, ret] at this; cases this
      by_cases hx : x ∈ l
      · rw [if_pos hx] at h
        cases r with
        | error e => cases h.1
        | ok v => simp only [as, andThen, hc, ret]; exact ⟨fun e => (by cases e), fun e => absurd hx e⟩
      · rw [if_neg hx] at h
        cases r with
        | error e => simp only [as, andThen, hc, hr e rfl]; exact ⟨fun _ => hx, fun _ => trivial⟩
        | ok v => cases h.1
  exact ⟨key _, key _, key _⟩

/-! ### The address object -/

/-- What an answer of the object of the address at height `h` may be. -/
def Honest (s : St) (h : Int) : AdrCall → Seen → Prop
  | .txoCount, o => o = .error ∨ ∃ l, ChainStore.addressTxos s h = .ok l ∧ o = .num l.length
  | .nthTxo n, o => o = .error ∨ ∃ l, ChainStore.addressTxos s h = .ok l ∧
      ((∃ v, 0 ≤ n ∧ l[n.toNat]? = some v ∧ o = .num v) ∨ ((n < 0 ∨ l.length ≤ n.toNat) ∧ o = .panic))
  | .hash, o => o = .hash (zeros 32) ∨ ∃ x, Handles.hashAt s.adrHashes h = .ok x ∧ o = .hash x

theorem nth_cases (l : List Int) (n : Int) :
    (∃ v, 0 ≤ n ∧ l[n.toNat]? = some v ∧ nth l n = .num v) ∨ ((n < 0 ∨ l.length ≤ n.toNat) ∧ nth l n = .panic) := by
  unfold nth
  by_cases hn : n < 0
  · rw [if_pos hn]; exact .inr ⟨.inl hn, rfl⟩
  · rw [if_neg hn]
    cases hl : l[n.toNat]? with
    | none => exact .inr ⟨.inr (List.getElem?_eq_none_iff.1 hl), rfl⟩
    | some v => exact .inl ⟨v, by omega, rfl, rfl⟩

theorem adrCall_sure {s : St} {h : Int} {a : Adr} (ha : Sure s h a) (c : AdrCall) (d : Disk) :
    Sure s h (adrCall s a c d).1 ∧ Honest s h c (adrCall s a c d).2.1 := by
  obtain ⟨a', b, d', e, ha', hb⟩ := ensure_sure ha d
  unfold adrCall
  rw [e]
  refine ⟨ha', ?_⟩
  cases c with
  | txoCount =>
    cases b with
    | false => exact .inl rfl
    | true => exact .inr ⟨_, (ha'.list (hb rfl)).2, rfl⟩
  | nthTxo n =>
    cases b with
    | false => exact .inl rfl
    | true => exact .inr ⟨_, (ha'.list (hb rfl)).2, nth_cases _ _⟩
  | hash =>
    by_cases hs : a'.hashSpecified = true
    · exact .inr ⟨_, ha'.hash hs, rfl⟩
    · exact .inl (congrArg Seen.hash (ha'.unread (by simpa using hs)))

/-- **C123, the address object.** In any sequence of calls, with any accesses failing, each number of outputs and each
output is the right one or an error (an index out of range panics); each hash is the right one or all zeros. -/
theorem an_address_on_a_failing_disk_partial (s : St) (h : Int) (cs : List AdrCall) (d : Disk) :
    List.Forall₂ (Honest s h) cs (adrCalls s (.fresh h) cs d) := by
  have key : ∀ (cs : List AdrCall) (a : Adr) (d : Disk), Sure s h a → List.Forall₂ (Honest s h) cs (adrCalls s a cs d) := by
    intro cs
    induction cs with
    | nil => intro a d _; exact .nil
    | cons c cs ih =>
      intro a d ha
      have := adrCall_sure ha c d
      exact .cons this.2 (ih _ _ this.1)
  exact key cs _ d (sure_fresh s h)

/-- The object of the address at height `h` after some calls, with some accesses failing. -/
inductive Used (s : St) (h : Int) : Adr → Prop
  | fresh : Used s h (.fresh h)
  | call {a : Adr} (c : AdrCall) (d : Disk) : Used s h a → Used s h (adrCall s a c d).1

theorem used_sure {s : St} {h : Int} {a : Adr} (hu : Used s h a) : Sure s h a := by
  induction hu with
  | fresh => exact sure_fresh s h
  | call c d _ ih => exact (adrCall_sure ih c d).1

/-- **C123, the address object.** Failures do no lasting harm: however the object has been used on a failing disk, once
the disk works each call gives the right answer. -/
theorem an_address_recovers {s : St} {h : Int} {a : Adr} (hu : Used s h a) {x : Bytes} {l : List Int}
    (hx : Handles.hashAt s.adrHashes h = .ok x) (hl : ChainStore.addressTxos s h = .ok l) {d : Disk} (hd : Working d) :
    (adrCall s a .txoCount d).2.1 = .num l.length ∧ (adrCall s a .hash d).2.1 = .hash x ∧
    ∀ (n : Nat) v, l[n]? = some v → (adrCall s a (.nthTxo n) d).2.1 = .num v := by
  obtain ⟨a', d', e, h1, h2, -⟩ := ensure_works (used_sure hu) hx hl hd
  refine ⟨?_, ?_, fun n v hv => ?_⟩
  · simp only [adrCall, e, h2, if_true]
  · simp only [adrCall, e, h1]
  · simp only [adrCall, e, h2, if_true, nth]
    rw [if_neg (by omega), show ((n : Int).toNat) = n from rfl, hv]

/-- Violation: `Hash` of an address whose hash cannot be read is the hash of zeros, without an error (it has none to
return), for every address; the object says all the while that its hash is specified (address.go:82-84). -/
theorem a_failing_disk_gives_a_hash_of_zeros (s : St) (h : Int) (d : Disk) {x : Bytes}
    (_hx : Handles.hashAt s.adrHashes h = .ok x) (hz : x ≠ zeros 32) :
    (adrCall s (.fresh h) .hash (false :: d)).2.1 = .hash (zeros 32) ∧ Seen.hash (zeros 32) ≠ .hash x :=
  ⟨rfl, fun e => hz (Seen.hash.inj e).symm⟩

/-! ### Examples: the chain of C34 -/

/-- Ask a question of the demonstration chain. -/
def askDemo (q : Question) (d : Disk) : Option (Except Err Answer) :=
  match ChainStore.store (-1) (-1) .cri true [("time", 4)] [("size", 4)] ChainStore.demo with
  | .ok s => some (ask s q d).1
  | .error _ => none

/-- Calls on an address object of the demonstration chain. -/
def adrDemo (h : Int) (cs : List AdrCall) (d : Disk) : List Seen :=
  match ChainStore.store (-1) (-1) .cri true [("time", 4)] [("size", 4)] ChainStore.demo with
  | .ok s => adrCalls s (.fresh h) cs d
  | .error _ => []

deriving instance DecidableEq for Except

example : askDemo (.transactionCount 1) [true, true, true, true, false] = some (.ok (.num 2)) := by decide +kernel
example : askDemo (.transactionCount 1) [true, true, true, false] = some (.error .other) := by decide +kernel
example : askDemo (.blockByHash [2]) [] = some (.ok (.num 1)) ∧
    askDemo (.blockByHash [2]) [false] = some (.error .notFound) ∧
    askDemo (.blockByHash [99]) [] = some (.error .notFound) := by decide +kernel
example : adrDemo 0 [.hash, .txoCount, .hash, .txoCount, .nthTxo 2, .nthTxo 3] [false, true, true, false] =
    [.hash (zeros 32), .error, .hash [91], .num 3, .num 4, .panic] := by decide +kernel
/-- A client that adds up the transactions of two blocks. -/
example : (match ChainStore.store (-1) (-1) .cri true [("time", 4)] [("size", 4)] ChainStore.demo with
    | .ok s =>
      let c : Client Answer := .ask (.transactionCount 0) fun a => .ask (.transactionCount 1) fun b =>
        .done (match a, b with | .num m, .num n => .num (m + n) | _, _ => .num 0)
      (some (c.run s []).1, some (c.run s [true, true, true, true, true, false]).1, c.meaning s)
    | .error _ => (none, none, none)) = (some (.ok (.num 3)), some (.error .other), some (.num 3)) := by decide +kernel

end Verif.FaultyReads
