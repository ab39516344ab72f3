import Verif.Model.FaultyHashes
import Verif.Props.FaultyFile
import Verif.Props.HashesChain

/-! # C124: gathering hashes on a failing disk -/

namespace Verif.FaultyHashes

open Faulty (FF Fates Fine)
open HashesChain (Blk Folder blkHashes trnHashes adrHashes ListOK over sampleHash)

/-! ## A chain is three lists -/

/-- Appending hashes one by one, going on after errors; whether there was none. -/
def feed (h : HF) : List Bytes → HF × Bool
  | [] => (h, true)
  | v :: vs => ((feed (appendHash h v).1 vs).1, (appendHash h v).2 && (feed (appendHash h v).1 vs).2)

theorem feed_append (h : HF) (xs ys : List Bytes) :
    feed h (xs ++ ys) = ((feed (feed h xs).1 ys).1, (feed h xs).2 && (feed (feed h xs).1 ys).2) := by
  induction xs generalizing h with
  | nil => simp [feed]
  | cons x xs ih => simp only [List.cons_append, feed, ih, Bool.and_assoc]

theorem chi_feed (h : HF) (as : List Bytes) : appendAddrsChi h as = (feed h as).1 := by
  induction as generalizing h with
  | nil => rfl
  | cons a as ih => simp only [appendAddrsChi, feed, ih]

theorem cri_feed {h h' : HF} {as : List Bytes} : appendAddrsCri h as = (h', true) ↔ feed h as = (h', true) := by
  induction as generalizing h with
  | nil => rfl
  | cons a as ih =>
    simp only [appendAddrsCri, feed]
    generalize appendHash h a = r
    obtain ⟨h1, ok⟩ := r
    cases ok
    · simp
    · simp only [Bool.true_and, ih]

theorem txs_iff {chi : Bool} {c c' : Chain} {txs : List (Bytes × List Bytes)} :
    appendTxs chi c txs = (c', true) ↔ c'.blk = c.blk ∧ feed c.trn (txs.map (·.1)) = (c'.trn, true) ∧
      (feed c.adr (txs.flatMap (·.2))).1 = c'.adr ∧ (chi = false → (feed c.adr (txs.flatMap (·.2))).2 = true) := by
  induction txs generalizing c with
  | nil =>
    obtain ⟨b, t, a⟩ := c
    obtain ⟨b', t', a'⟩ := c'
    simp only [appendTxs, List.map_nil, List.flatMap_nil, feed, Prod.mk.injEq, and_true, Chain.mk.injEq, implies_true]
    constructor
    · rintro ⟨rfl, rfl, rfl⟩; exact ⟨rfl, rfl, rfl⟩
    · rintro ⟨rfl, rfl, rfl⟩; exact ⟨rfl, rfl, rfl⟩
  | cons t ts ih =>
    simp only [appendTxs, List.map_cons, List.flatMap_cons, feed_append]
    rw [feed]
    generalize appendHash c.trn t.1 = r
    obtain ⟨h1, ok⟩ := r
    cases ok
    · simp
    · simp only [Bool.true_and]
      cases chi
      · simp only [Bool.false_eq_true, if_false, forall_const, Bool.and_eq_true]
        generalize hr : appendAddrsCri c.adr t.2 = r
        obtain ⟨a1, ok⟩ := r
        cases ok
        · constructor
          · simp
          · rintro ⟨_, _, _, g, _⟩
            have : appendAddrsCri c.adr t.2 = ((feed c.adr t.2).1, true) := cri_feed.mpr (Prod.ext rfl g)
            rw [hr] at this
            simp at this
        · have := cri_feed.mp hr
          simp only [this, ih, forall_const, true_and]
      · simp only [if_true, ih, chi_feed, Bool.true_eq_false, false_implies, and_true]

theorem append_iff {chi : Bool} {c c' : Chain} {b : Blk} (hb : b.txs ≠ []) :
    append chi c b = (c', .nil) ↔ feed c.blk [b.hash] = (c'.blk, true) ∧ feed c.trn (b.txs.map (·.1)) = (c'.trn, true) ∧
      (feed c.adr (b.txs.flatMap (·.2))).1 = c'.adr ∧ (chi = false → (feed c.adr (b.txs.flatMap (·.2))).2 = true) := by
  have hne : ¬ b.txs.length = 0 := fun h => hb (List.length_eq_zero_iff.mp h)
  simp only [append, feed, Bool.and_true]
  generalize appendHash c.blk b.hash = r
  obtain ⟨h1, ok⟩ := r
  cases ok
  · simp
  · simp only [if_neg hne]
    have := txs_iff (chi := chi) (c := { c with blk := h1 }) (c' := c') (txs := b.txs)
    dsimp only at this
    rw [show ((h1, true) = (c'.blk, true) ↔ c'.blk = h1) from ⟨fun e => (Prod.mk.inj e).1.symm, fun e => by rw [e]⟩, ← this]
    generalize appendTxs chi { c with blk := h1 } b.txs = q
    obtain ⟨c1, ok⟩ := q
    cases ok <;> simp

theorem gather_iff {chi : Bool} {c c' : Chain} {bs : List Blk} (hb : ∀ b ∈ bs, b.OK) :
    gather chi c bs = (c', .nil) ↔ feed c.blk (blkHashes bs) = (c'.blk, true) ∧ feed c.trn (trnHashes bs) = (c'.trn, true) ∧
      (feed c.adr (adrHashes bs)).1 = c'.adr ∧ (chi = false → (feed c.adr (adrHashes bs)).2 = true) := by
  induction bs generalizing c with
  | nil =>
    obtain ⟨b, t, a⟩ := c
    obtain ⟨b', t', a'⟩ := c'
    simp [gather, blkHashes, trnHashes, adrHashes, feed]
  | cons b bs ih =>
    have e1 : blkHashes (b :: bs) = [b.hash] ++ blkHashes bs := rfl
    have e2 : trnHashes (b :: bs) = b.txs.map (·.1) ++ trnHashes bs := rfl
    have e3 : adrHashes (b :: bs) = b.txs.flatMap (·.2) ++ adrHashes bs := rfl
    rw [e1, e2, e3]
    simp only [feed_append, gather]
    generalize hr : append chi c b = r
    obtain ⟨c1, res⟩ := r
    have hA := fun c' => append_iff (chi := chi) (c := c) (c' := c') (hb b (by simp)).ne
    have hno : res ≠ .nil → ¬ ((feed c.blk [b.hash]).2 = true ∧ (feed c.trn (b.txs.map (·.1))).2 = true ∧
        (chi = false → (feed c.adr (b.txs.flatMap (·.2))).2 = true)) := by
      rintro hres ⟨g1, g2, g3⟩
      have := (hA ⟨(feed c.blk [b.hash]).1, (feed c.trn (b.txs.map (·.1))).1, (feed c.adr (b.txs.flatMap (·.2))).1⟩).mpr
        ⟨Prod.ext rfl g1, Prod.ext rfl g2, rfl, g3⟩
      rw [hr] at this
      exact hres (Prod.mk.inj this).2
    have hback : (((feed (feed c.blk [b.hash]).1 (blkHashes bs)).1, (feed c.blk [b.hash]).2 && (feed (feed c.blk [b.hash]).1 (blkHashes bs)).2) = (c'.blk, true) ∧
        ((feed (feed c.trn (b.txs.map (·.1))).1 (trnHashes bs)).1, (feed c.trn (b.txs.map (·.1))).2 && (feed (feed c.trn (b.txs.map (·.1))).1 (trnHashes bs)).2) = (c'.trn, true) ∧
        (feed (feed c.adr (b.txs.flatMap (·.2))).1 (adrHashes bs)).1 = c'.adr ∧
        (chi = false → ((feed c.adr (b.txs.flatMap (·.2))).2 && (feed (feed c.adr (b.txs.flatMap (·.2))).1 (adrHashes bs)).2) = true)) → res = .nil := by
      rintro ⟨g1, g2, _, g4⟩
      by_contra hres
      refine hno hres ⟨?_, ?_, fun e => ?_⟩
      · exact (Bool.and_eq_true_iff.mp (Prod.mk.inj g1).2).1
      · exact (Bool.and_eq_true_iff.mp (Prod.mk.inj g2).2).1
      · exact (Bool.and_eq_true_iff.mp (g4 e)).1
    cases res with
    | nil =>
      obtain ⟨g1, g2, g3, g4⟩ := (hA c1).mp hr
      dsimp only
      rw [ih (fun x hx => hb x (by simp [hx])), g1, g2, g3]
      simp only [Bool.true_and]
      constructor
      · rintro ⟨k1, k2, k3, k4⟩
        exact ⟨k1, k2, k3, fun e => by rw [g4 e, k4 e]; rfl⟩
      · rintro ⟨k1, k2, k3, k4⟩
        exact ⟨k1, k2, k3, fun e => (Bool.and_eq_true_iff.mp (k4 e)).2⟩
    | error =>
      exact ⟨fun h => by simp at h, fun h => absurd (hback h) (by simp)⟩
    | panics =>
      exact ⟨fun h => by simp at h, fun h => absurd (hback h) (by simp)⟩

/-! ## A list without an error is the list on a working disk -/

def er (x : HF) : HashFile.HF := ⟨x.file.erase, x.hashCount⟩

theorem append_sim {x x' : HF} {old : Bytes} {hs : List Bytes} {v : Bytes} (hi : ListOK (er x) old hs) (hf : Fine x.file)
    (hv : v.length = 32) (h : appendHash x v = (x', true)) : ListOK (er x') old (hs ++ [v]) ∧ Fine x'.file := by
  unfold appendHash at h
  generalize hw : Faulty.writeAt x.file (x.hashCount * 32) v = r at h
  obtain ⟨f, ok⟩ := r
  cases ok
  · simp at h
  · simp only [Prod.mk.injEq, and_true] at h
    subst h
    obtain ⟨h1, h2⟩ := Faulty.writeAt_ok hf hw
    refine ⟨?_, h2⟩
    have := HashesChain.listOK_append hi hv
    have e : er ⟨f, x.hashCount + 1⟩ = (HashFile.appendHash (er x) v).1 := by
      unfold HashFile.appendHash HashFile.writeHashAt er
      dsimp only
      rw [h1, if_pos (by omega)]
    rw [e]
    exact this

theorem feed_sim {x x' : HF} {old : Bytes} {hs vs : List Bytes} (hi : ListOK (er x) old hs) (hf : Fine x.file)
    (hv : ∀ v ∈ vs, v.length = 32) (h : feed x vs = (x', true)) : ListOK (er x') old (hs ++ vs) ∧ Fine x'.file := by
  induction vs generalizing x hs with
  | nil =>
    simp only [feed, Prod.mk.injEq, and_true] at h
    subst h
    simpa using ⟨hi, hf⟩
  | cons v vs ih =>
    simp only [feed] at h
    generalize hr : appendHash x v = r at h
    obtain ⟨x1, ok⟩ := r
    cases ok
    · simp at h
    · simp only [Bool.true_and] at h
      obtain ⟨h1, h2⟩ := append_sim hi hf (hv v (by simp)) hr
      have := ih h1 h2 (fun w hw => hv w (by simp [hw])) h
      simpa using this

/-- A hash that was not appended is not counted. -/
theorem feed_count (x : HF) (vs : List Bytes) :
    (feed x vs).1.hashCount ≤ x.hashCount + vs.length ∧
      ((feed x vs).2 = false → (feed x vs).1.hashCount + 1 ≤ x.hashCount + vs.length) := by
  induction vs generalizing x with
  | nil => simp [feed]
  | cons v vs ih =>
    have h1 : (appendHash x v).1.hashCount ≤ x.hashCount + 1 ∧
        ((appendHash x v).2 = false → (appendHash x v).1.hashCount + 1 ≤ x.hashCount + 1) := by
      unfold appendHash
      generalize Faulty.writeAt x.file (x.hashCount * 32) v = r
      obtain ⟨f, ok⟩ := r
      cases ok <;> simp
    have h2 := ih (appendHash x v).1
    simp only [feed, List.length_cons, Bool.and_eq_false_iff]
    refine ⟨by omega, ?_⟩
    rintro (h | h)
    · have := h1.2 h
      omega
    · have := h2.2 h
      omega

theorem listOK_new (f : Fates) : ListOK (er ⟨Faulty.openFile [] f, 0⟩) [] [] := HashesChain.listOK_open []

theorem fine_new (f : Fates) : Fine (Faulty.openFile [] f) := fun w e => by cases e

theorem synced {x : HF} {f : FF} {hs : List Bytes} (hi : ListOK (er x) [] hs) (h : Faulty.sync x.file = (f, true)) :
    f.disk.file.data = hs.flatten := by
  have h1 := (Faulty.sync_ok h).1
  have h2 := (AppendOpt.inv_flush hi.file).2.1
  rw [over, List.drop_nil, List.append_nil] at h2
  rw [← h2]
  exact congrArg (fun a : AppendOpt.AOF => a.file.data) h1

theorem closed {x : HF} {hs : List Bytes} (hi : ListOK (er x) [] hs) (h : (Faulty.close x.file).2 = true) :
    (Faulty.close x.file).1 = hs.flatten := by
  have h1 := Faulty.close_ok (a := x.file) (b := (Faulty.close x.file).1) (Prod.ext rfl h)
  rw [h1]
  have := HashesChain.listOK_close hi
  rwa [over, List.drop_nil, List.append_nil] at this

theorem blk_len {bs : List Blk} (hb : ∀ b ∈ bs, b.OK) : ∀ v ∈ blkHashes bs, v.length = 32 := by
  intro v hv
  obtain ⟨b, hb', rfl⟩ := List.mem_map.mp hv
  exact (hb b hb').hash

theorem trn_len {bs : List Blk} (hb : ∀ b ∈ bs, b.OK) : ∀ v ∈ trnHashes bs, v.length = 32 := by
  intro v hv
  obtain ⟨b, hb', hv⟩ := List.mem_flatMap.mp hv
  obtain ⟨t, ht, rfl⟩ := List.mem_map.mp hv
  exact ((hb b hb').txs t ht).1

theorem adr_len {bs : List Blk} (hb : ∀ b ∈ bs, b.OK) : ∀ v ∈ adrHashes bs, v.length = 32 := by
  intro v hv
  obtain ⟨b, hb', hv⟩ := List.mem_flatMap.mp hv
  obtain ⟨t, ht, hv⟩ := List.mem_flatMap.mp hv
  exact ((hb b hb').txs t ht).2 v hv

/-- The lists after blocks were gathered without an error; the addresses if `AppendHashesCri` was used, or if they are all
counted. -/
theorem gather_sim {chi : Bool} {fb ft fa : Fates} {bs : List Blk} (hb : ∀ b ∈ bs, b.OK) {c : Chain}
    (h : gather chi (openNew fb ft fa) bs = (c, .nil)) :
    ListOK (er c.blk) [] (blkHashes bs) ∧ ListOK (er c.trn) [] (trnHashes bs) ∧
      (chi = false ∨ c.adr.hashCount = (adrHashes bs).length → ListOK (er c.adr) [] (adrHashes bs)) := by
  obtain ⟨h1, h2, h3, h4⟩ := (gather_iff hb).mp h
  refine ⟨?_, ?_, ?_⟩
  · simpa using (feed_sim (listOK_new fb) (fine_new fb) (blk_len hb) h1).1
  · simpa using (feed_sim (listOK_new ft) (fine_new ft) (trn_len hb) h2).1
  · intro hc
    have hok : (feed (openNew fb ft fa).adr (adrHashes bs)).2 = true := by
      rcases hc with hc | hc
      · exact h4 hc
      · by_contra hno
        have := (feed_count (openNew fb ft fa).adr (adrHashes bs)).2 (by simpa using hno)
        rw [h3, hc] at this
        simp only [openNew] at this
        omega
    simpa using (feed_sim (listOK_new fa) (fine_new fa) (adr_len hb) (Prod.ext h3 hok)).1

/-- **C124, no error.** Hashes are gathered on a disk on which any write may fail, and every call returned nil. If then `Sync` returns
nil, the files hold every block hash and every transaction hash, in order; and every address hash, if `AppendHashesCri` was used, or
if `CountHashes` counts as many as there are outputs. The same if the files are closed and none gave an error.

Missing: that a lost address hash is reported by `AppendHashesChi`, or an error of closing by the job, which is false
(`lost_addresses_are_not_reported`, `a_refused_last_write_is_not_reported`). -/
theorem nil_means_gathered_partial {chi : Bool} {fb ft fa : Fates} {bs : List Blk} (hb : ∀ b ∈ bs, b.OK) {c : Chain}
    (h : gather chi (openNew fb ft fa) bs = (c, .nil)) (ha : chi = false ∨ (count c).2.2 = (adrHashes bs).length) :
    (∀ c', sync c = (c', true) → onDisk c' =
        ⟨some (blkHashes bs).flatten, some (trnHashes bs).flatten, some (adrHashes bs).flatten⟩) ∧
      (closesWell c = true → close c =
        ⟨some (blkHashes bs).flatten, some (trnHashes bs).flatten, some (adrHashes bs).flatten⟩) := by
  obtain ⟨h1, h2, h3⟩ := gather_sim hb h
  have h3 := h3 ha
  refine ⟨fun c' hs => ?_, fun hs => ?_⟩
  · unfold sync at hs
    generalize g1 : Faulty.sync c.blk.file = r1 at hs
    obtain ⟨f1, ok1⟩ := r1
    cases ok1
    · simp at hs
    dsimp only at hs
    generalize g2 : Faulty.sync c.trn.file = r2 at hs
    obtain ⟨f2, ok2⟩ := r2
    cases ok2
    · simp at hs
    dsimp only at hs
    generalize g3 : Faulty.sync c.adr.file = r3 at hs
    obtain ⟨f3, ok3⟩ := r3
    simp only [Prod.mk.injEq] at hs
    obtain ⟨rfl, rfl⟩ := hs
    simp only [onDisk, synced h1 g1, synced h2 g2, synced h3 g3]
  · simp only [closesWell, Bool.and_eq_true] at hs
    simp only [close, closed h1 hs.1.1, closed h2 hs.1.2, closed h3 hs.2]

/-- **C124, blocks and transactions.** The block and transaction hashes are stored when every call returned nil, whichever of the two
ways to append was used and whatever happened to the addresses. -/
theorem blocks_and_transactions_are_gathered {chi : Bool} {fb ft fa : Fates} {bs : List Blk} (hb : ∀ b ∈ bs, b.OK) {c c' : Chain}
    (h : gather chi (openNew fb ft fa) bs = (c, .nil)) (hs : sync c = (c', true)) :
    (onDisk c').blk = some (blkHashes bs).flatten ∧ (onDisk c').trn = some (trnHashes bs).flatten := by
  obtain ⟨h1, h2, _⟩ := gather_sim hb h
  unfold sync at hs
  generalize g1 : Faulty.sync c.blk.file = r1 at hs
  obtain ⟨f1, ok1⟩ := r1
  cases ok1
  · simp at hs
  dsimp only at hs
  generalize g2 : Faulty.sync c.trn.file = r2 at hs
  obtain ⟨f2, ok2⟩ := r2
  cases ok2
  · simp at hs
  dsimp only at hs
  generalize g3 : Faulty.sync c.adr.file = r3 at hs
  obtain ⟨f3, ok3⟩ := r3
  simp only [Prod.mk.injEq] at hs
  obtain ⟨rfl, rfl⟩ := hs
  exact ⟨by simp only [onDisk, synced h1 g1], by simp only [onDisk, synced h2 g2]⟩

/-- A block with one transaction of `n` outputs. -/
def oneBlock (n : Nat) : List Blk := [⟨sampleHash 1, [(sampleHash 2, List.replicate n (sampleHash 3))]⟩]

theorem oneBlock_ok (n : Nat) : ∀ b ∈ oneBlock n, b.OK := by
  intro b hb
  simp only [oneBlock, List.mem_singleton] at hb
  subst hb
  refine ⟨by simp [sampleHash], ?_, by simp⟩
  intro t ht
  simp only [List.mem_singleton] at ht
  subst ht
  exact ⟨by simp [sampleHash], fun a ha => by rw [(List.mem_replicate.mp ha).2]; simp [sampleHash]⟩

/-- A block with two outputs on disks that fail later: two calls of each go well. -/
example : (gather true (openNew [none, none, some 7] [none, none, some 0] [none, none]) (oneBlock 2)).2 = .nil ∧
    ∀ c c', gather true (openNew [none, none, some 7] [none, none, some 0] [none, none]) (oneBlock 2) = (c, .nil) → sync c = (c', true) →
      onDisk c' = ⟨some (sampleHash 1), some (sampleHash 2), some (sampleHash 3 ++ sampleHash 3)⟩ := by
  refine ⟨by decide +kernel, fun c c' h hs => ?_⟩
  have hc : (count c).2.2 = (adrHashes (oneBlock 2)).length := by
    have e : (count (gather true (openNew [none, none, some 7] [none, none, some 0] [none, none]) (oneBlock 2)).1).2.2 = 2 := by
      decide +kernel
    rw [h] at e
    exact e
  have := (nil_means_gathered_partial (oneBlock_ok 2) h (.inr hc)).1 c' hs
  rw [this]
  decide +kernel

example : (onDisk (sync (gather true (openNew [] [] [some 0]) (oneBlock 2)).1).1).trn = some (sampleHash 2) ∧
    (sync (gather true (openNew [] [] [some 0]) (oneBlock 2)).1).2 = false := by decide +kernel

/-! ## What a hash file does, write by write -/

/-- Nothing in the buffer; the file counts `c` hashes. -/
def idle (done : Bytes) (pos : Nat) (f : Fates) (c n : Nat) : HF := ⟨⟨⟨⟨done, pos⟩, f⟩, none, n, c * 32⟩, c⟩

/-- `done` is on disk and `pend` in the buffer; the file counts `c` hashes. -/
def busy (done pend : Bytes) (f : Fates) (c : Nat) : HF :=
  ⟨⟨⟨⟨done, done.length⟩, f⟩, some ⟨pend, false⟩, c * 32, c * 32⟩, c⟩

theorem idle_append (done : Bytes) (pos : Nat) (f : Fates) (c n : Nat) {v : Bytes} (hv : v.length = 32) :
    appendHash (idle done pos f c n) v = (busy done v f (c + 1), true) := by
  have h : Faulty.writeAt (idle done pos f c n).file (c * 32) v = ((busy done v f (c + 1)).file, true) := by
    simp [Faulty.writeAt, idle, busy, Faulty.Writer.write, AppendOpt.bufCap, hv, Nat.add_mul]
  have h' : Faulty.writeAt (idle done pos f c n).file ((idle done pos f c n).hashCount * 32) v =
      ((busy done v f (c + 1)).file, true) := h
  simp only [appendHash, h']
  rfl

theorem busy_room (done pend : Bytes) (f : Fates) (c : Nat) {v : Bytes} (hv : v.length = 32) (hp : pend.length + 32 ≤ 4096) :
    appendHash (busy done pend f c) v = (busy done (pend ++ v) f (c + 1), true) := by
  have h' : Faulty.writeAt (busy done pend f c).file ((busy done pend f c).hashCount * 32) v =
      ((busy done (pend ++ v) f (c + 1)).file, true) := by
    have : 32 ≤ 4096 - pend.length := by omega
    simp [Faulty.writeAt, busy, Faulty.Writer.write, AppendOpt.bufCap, hv, Nat.add_mul, this]
  simp only [appendHash, h']
  rfl

theorem write_end (d p : Bytes) : (⟨d, d.length⟩ : AppendOpt.OsFile).write p = ⟨d ++ p, (d ++ p).length⟩ := by
  simp [AppendOpt.OsFile.write, AppendOpt.writeAt_end]

theorem busy_full (done pend : Bytes) (f r : Fates) (hf : f = none :: r ∨ f = [] ∧ r = []) (c : Nat) {v : Bytes} (hv : v.length = 32)
    (hp : pend.length = 4096) : appendHash (busy done pend f c) v = (busy (done ++ pend) v r (c + 1), true) := by
  have hne : pend ≠ [] := by intro e; rw [e] at hp; simp at hp
  have h' : Faulty.writeAt (busy done pend f c).file ((busy done pend f c).hashCount * 32) v =
      ((busy (done ++ pend) v r (c + 1)).file, true) := by
    rcases hf with rfl | ⟨rfl, rfl⟩
    · simp [Faulty.writeAt, busy, Faulty.Writer.write, AppendOpt.bufCap, hv, Nat.add_mul, hp, hne, Faulty.Writer.flush, Faulty.Disk.write,
        write_end]
    · simp [Faulty.writeAt, busy, Faulty.Writer.write, AppendOpt.bufCap, hv, Nat.add_mul, hp, hne, Faulty.Writer.flush, Faulty.Disk.write,
        write_end]
  simp only [appendHash, h']
  rfl

theorem busy_refused (done pend : Bytes) (r : Fates) (c : Nat) {v : Bytes} (hv : v.length = 32) (hp : pend.length = 4096) :
    appendHash (busy done pend (some 0 :: r) c) v = (idle done done.length r c (c * 32), false) := by
  have hne : pend ≠ [] := by intro e; rw [e] at hp; simp at hp
  have h' : Faulty.writeAt (busy done pend (some 0 :: r) c).file ((busy done pend (some 0 :: r) c).hashCount * 32) v =
      ((idle done done.length r c (c * 32)).file, false) := by
    simp [Faulty.writeAt, busy, idle, Faulty.Writer.write, AppendOpt.bufCap, hv, hp, hne, Faulty.Writer.flush,
      Faulty.Disk.write, AppendOpt.OsFile.write, Verif.writeAt]
  simp only [appendHash, h']
  rfl

/-- The disk works from now on; `bytes` are what has been written. -/
def Work (x : HF) (bytes : Bytes) (c : Nat) : Prop :=
  (∃ pos n, x = idle bytes pos [] c n) ∨
    ∃ done pend k, x = busy done pend [] c ∧ done ++ pend = bytes ∧ pend.length = 32 * k ∧ k ≤ 128

theorem work_append {x : HF} {bytes v : Bytes} {c : Nat} (h : Work x bytes c) (hv : v.length = 32) :
    ∃ x', appendHash x v = (x', true) ∧ Work x' (bytes ++ v) (c + 1) := by
  rcases h with ⟨pos, n, rfl⟩ | ⟨done, pend, k, rfl, rfl, h2, h3⟩
  · exact ⟨_, idle_append _ _ _ _ _ hv, .inr ⟨bytes, v, 1, rfl, rfl, by omega, by omega⟩⟩
  · by_cases hk : k = 128
    · refine ⟨_, busy_full done pend [] [] (.inr ⟨rfl, rfl⟩) c hv (by omega), .inr ⟨done ++ pend, v, 1, rfl, rfl, by omega, by omega⟩⟩
    · exact ⟨_, busy_room done pend [] c hv (by omega), .inr ⟨done, pend ++ v, k + 1, rfl, by simp, by simp; omega, by omega⟩⟩

theorem work_feed {x : HF} {bytes : Bytes} {c : Nat} {vs : List Bytes} (h : Work x bytes c) (hv : ∀ v ∈ vs, v.length = 32) :
    ∃ x', feed x vs = (x', true) ∧ Work x' (bytes ++ vs.flatten) (c + vs.length) := by
  induction vs generalizing x bytes c with
  | nil => exact ⟨x, rfl, by simpa using h⟩
  | cons v vs ih =>
    obtain ⟨x1, h1, h2⟩ := work_append h (hv v (by simp))
    obtain ⟨x2, h3, h4⟩ := ih h2 (fun w hw => hv w (by simp [hw]))
    refine ⟨x2, by simp only [feed, h1, h3, Bool.and_self], ?_⟩
    simp only [List.flatten_cons, List.length_cons]
    rw [← List.append_assoc, show c + (vs.length + 1) = c + 1 + vs.length by omega]
    exact h4

theorem Work.count {x : HF} {bytes : Bytes} {c : Nat} (h : Work x bytes c) : x.hashCount = c := by
  rcases h with ⟨_, _, rfl⟩ | ⟨_, _, _, rfl, _⟩ <;> rfl

theorem Work.sync {x : HF} {bytes : Bytes} {c : Nat} (h : Work x bytes c) :
    ∃ f, Faulty.sync x.file = (f, true) ∧ f.disk.file.data = bytes := by
  rcases h with ⟨pos, n, rfl⟩ | ⟨done, pend, k, rfl, rfl, _, _⟩
  · exact ⟨_, rfl, rfl⟩
  · by_cases hp : pend = []
    · subst hp
      exact ⟨_, rfl, by simp [busy]⟩
    · simp [Faulty.sync, Faulty.flush, busy, Faulty.Writer.flush, hp, Faulty.Disk.write, write_end, Faulty.Disk.fsync]

theorem Work.close {x : HF} {bytes : Bytes} {c : Nat} (h : Work x bytes c) : Faulty.close x.file = (bytes, true) := by
  rcases h with ⟨pos, n, rfl⟩ | ⟨done, pend, k, rfl, rfl, _, _⟩
  · rfl
  · by_cases hp : pend = []
    · subst hp
      simp [Faulty.close, Faulty.flush, busy, Faulty.Writer.flush]
    · simp [Faulty.close, Faulty.flush, busy, Faulty.Writer.flush, hp, Faulty.Disk.write, write_end]

theorem work_new : Work ⟨Faulty.openFile [] [], 0⟩ [] 0 := .inl ⟨0, 0, rfl⟩

/-- The first writes go well: what is on disk and what is in the buffer after any number of hashes. -/
theorem feed_well (rest : Fates) {hs : List Bytes} (hv : ∀ v ∈ hs, v.length = 32) (hne : hs ≠ []) {q : Nat} (hq : (hs.length - 1) / 128 ≤ q) :
    feed ⟨Faulty.openFile [] (List.replicate q none ++ rest), 0⟩ hs =
      (busy (hs.take (128 * ((hs.length - 1) / 128))).flatten (hs.drop (128 * ((hs.length - 1) / 128))).flatten
        (List.replicate (q - (hs.length - 1) / 128) none ++ rest) hs.length, true) := by
  induction hs using List.reverseRecOn with
  | nil => exact absurd rfl hne
  | append_singleton hs v ih =>
    have hv0 : v.length = 32 := hv v (by simp)
    by_cases h0 : hs = []
    · subst h0
      have := idle_append [] 0 (List.replicate q none ++ rest) 0 0 hv0
      simp only [List.nil_append, feed]
      rw [show (⟨Faulty.openFile [] (List.replicate q none ++ rest), 0⟩ : HF) = idle [] 0 (List.replicate q none ++ rest) 0 0 from rfl,
        this]
      simp
    · have hpos : 0 < hs.length := List.length_pos_iff.mpr h0
      simp only [List.length_append, List.length_singleton, Nat.add_sub_cancel] at hq ⊢
      have hmono : (hs.length - 1) / 128 ≤ hs.length / 128 := Nat.div_le_div_right (by omega)
      have ih := ih (fun w hw => hv w (by simp [hw])) h0 (by omega)
      rw [feed_append, ih]
      have hlen : ∀ l : List Bytes, (∀ w ∈ l, w.length = 32) → l.flatten.length = 32 * l.length := by
        intro l hl
        induction l with
        | nil => rfl
        | cons a l ih =>
          simp only [List.flatten_cons, List.length_append, List.length_cons, hl a (by simp), ih (fun w hw => hl w (by simp [hw]))]
          omega
      have hpend := hlen (hs.drop (128 * ((hs.length - 1) / 128))) (fun w hw => hv w (by simp [List.mem_of_mem_drop hw]))
      rw [List.length_drop] at hpend
      simp only [feed, Bool.and_true, Bool.true_and]
      by_cases hk : hs.length % 128 = 0
      · have e1 : (hs.length - 1) / 128 + 1 = hs.length / 128 := by omega
        have e2 : 128 * (hs.length / 128) = hs.length := by omega
        have hf : List.replicate (q - (hs.length - 1) / 128) none ++ rest =
            none :: (List.replicate (q - hs.length / 128) none ++ rest : Fates) := by
          rw [show q - (hs.length - 1) / 128 = (q - hs.length / 128) + 1 by omega, List.replicate_succ, List.cons_append]
        rw [hf, busy_full _ _ _ _ (.inl rfl) _ hv0 (by rw [hpend]; omega), e2]
        rw [List.take_left' rfl, List.drop_left' rfl, ← List.flatten_append, List.take_append_drop]
        simp
      · have e1 : (hs.length - 1) / 128 = hs.length / 128 := by omega
        rw [busy_room _ _ _ _ hv0 (by rw [hpend]; omega), e1]
        rw [List.take_append_of_le_length (by omega), List.drop_append_of_le_length (by omega)]
        simp

/-! ## On a working disk -/

/-- **C124, a working disk.** With no failures phase one returns nil and the files hold every hash (so the theorems above are about
something). -/
theorem a_working_disk_gathers (chi : Bool) {bs : List Blk} (hb : ∀ b ∈ bs, b.OK) :
    phaseOne chi [] [] [] bs =
      (.nil, ⟨some (blkHashes bs).flatten, some (trnHashes bs).flatten, some (adrHashes bs).flatten⟩) := by
  obtain ⟨x1, g1, w1⟩ := work_feed work_new (blk_len hb)
  obtain ⟨x2, g2, w2⟩ := work_feed work_new (trn_len hb)
  obtain ⟨x3, g3, w3⟩ := work_feed work_new (adr_len hb)
  have h : gather chi (openNew [] [] []) bs = (⟨x1, x2, x3⟩, .nil) :=
    (gather_iff hb).mpr ⟨g1, g2, congrArg Prod.fst g3, fun _ => congrArg Prod.snd g3⟩
  simp only [phaseOne, h, close, w1.close, w2.close, w3.close, List.nil_append]

example : phaseOne false [] [] [] (oneBlock 300) = (.nil, ⟨some (blkHashes (oneBlock 300)).flatten,
    some (trnHashes (oneBlock 300)).flatten, some (adrHashes (oneBlock 300)).flatten⟩) :=
  a_working_disk_gathers false (oneBlock_ok 300)

/-! ## Where the code is wrong -/

/-- **C124 is violated: lost address hashes are not reported.** One write of the file of address hashes is refused, the disk being
full for a moment, and everything else works. `AppendHashesChi` returns nil for every block, `Sync` returns nil, closing gives no
error, and phase one returns nil; but 129 address hashes are missing from the middle of the file, and all later ones have moved
forward. For any blocks with more than 128 outputs, and any full buffer of them. -/
theorem lost_addresses_are_not_reported {bs : List Blk} (hb : ∀ b ∈ bs, b.OK) {q : Nat} (hq : 128 * (q + 1) < (adrHashes bs).length) :
    ∃ fa c, gather true (openNew [] [] fa) bs = (c, .nil) ∧ (count c).2.2 + 1 = (adrHashes bs).length ∧
      (∃ c', sync c = (c', true) ∧
        (onDisk c').adr = some ((adrHashes bs).take (128 * q) ++ (adrHashes bs).drop (128 * q + 129)).flatten) ∧
      closesWell c = true ∧
      phaseOne true [] [] fa bs = (.nil, ⟨some (blkHashes bs).flatten, some (trnHashes bs).flatten,
        some ((adrHashes bs).take (128 * q) ++ (adrHashes bs).drop (128 * q + 129)).flatten⟩) := by
  have hv := adr_len hb
  generalize hA : adrHashes bs = A at *
  obtain ⟨x1, g1, w1⟩ := work_feed work_new (blk_len hb)
  obtain ⟨x2, g2, w2⟩ := work_feed work_new (trn_len hb)
  have hl : (A.take (128 * (q + 1))).length = 128 * (q + 1) := by rw [List.length_take]; omega
  have hd : (128 * (q + 1) - 1) / 128 = q := by omega
  have f1 := feed_well [some 0] (hs := A.take (128 * (q + 1))) (fun v hm => hv v (List.mem_of_mem_take hm))
    (by intro e; rw [e] at hl; simp at hl) (q := q) (by rw [hl, hd]; exact Nat.le_refl _)
  rw [hl, hd, Nat.sub_self, List.replicate_zero, List.nil_append] at f1
  rw [List.take_take, Nat.min_eq_left (by omega)] at f1
  have hpend : ((A.take (128 * (q + 1))).drop (128 * q)).flatten.length = 4096 := by
    have : ∀ l : List Bytes, (∀ w ∈ l, w.length = 32) → l.flatten.length = 32 * l.length := by
      intro l hl
      induction l with
      | nil => rfl
      | cons a l ih =>
        simp only [List.flatten_cons, List.length_append, List.length_cons, hl a (by simp), ih (fun w hw => hl w (by simp [hw]))]
        omega
    rw [this _ (fun w hw => hv w (List.mem_of_mem_take (List.mem_of_mem_drop hw))), List.length_drop, hl]
    omega
  have hsplit : A = A.take (128 * (q + 1)) ++ [A[128 * (q + 1)]] ++ A.drop (128 * q + 129) := by
    rw [List.take_append_getElem, show 128 * q + 129 = 128 * (q + 1) + 1 by omega, List.take_append_drop]
  have f2 := busy_refused (A.take (128 * q)).flatten _ [] (128 * (q + 1)) (hv A[128 * (q + 1)] (List.getElem_mem hq)) hpend
  obtain ⟨x3, g3, w3⟩ := work_feed (x := idle (A.take (128 * q)).flatten (A.take (128 * q)).flatten.length [] (128 * (q + 1)) (128 * (q + 1) * 32))
    (.inl ⟨_, _, rfl⟩) (vs := A.drop (128 * q + 129)) (fun v hm => hv v (List.mem_of_mem_drop hm))
  have h3 : (feed ⟨Faulty.openFile [] (List.replicate q none ++ [some 0]), 0⟩ A).1 = x3 := by
    conv_lhs => rw [hsplit]
    rw [feed_append, feed_append, f1]
    simp only [feed, f2, g3]
  rw [← List.flatten_append] at w3
  have h : gather true (openNew [] [] (List.replicate q none ++ [some 0])) bs = (⟨x1, x2, x3⟩, .nil) :=
    (gather_iff hb).mpr ⟨g1, g2, by rw [hA]; exact h3, by simp⟩
  refine ⟨List.replicate q none ++ [some 0], ⟨x1, x2, x3⟩, h, ?_, ?_, ?_, ?_⟩
  · have := w3.count
    rw [List.length_drop] at this
    simp only [count]
    omega
  · obtain ⟨s1, e1, _⟩ := w1.sync
    obtain ⟨s2, e2, _⟩ := w2.sync
    obtain ⟨s3, e3, e4⟩ := w3.sync
    exact ⟨⟨⟨s1, x1.hashCount⟩, ⟨s2, x2.hashCount⟩, ⟨s3, x3.hashCount⟩⟩, by simp only [sync, e1, e2, e3], by simp only [onDisk, e4]⟩
  · simp only [closesWell, w1.close, w2.close, w3.close, Bool.and_self]
  · simp only [phaseOne, h, close, w1.close, w2.close, w3.close, List.nil_append]

theorem oneBlock_adr (n : Nat) : adrHashes (oneBlock n) = List.replicate n (sampleHash 3) := by
  simp [adrHashes, oneBlock]

/-- A block with 300 outputs; the second full buffer is refused. -/
example : ∃ fa, (phaseOne true [] [] fa (oneBlock 300)).1 = .nil ∧
    (phaseOne true [] [] fa (oneBlock 300)).2.adr = some (List.replicate 171 (sampleHash 3)).flatten := by
  obtain ⟨fa, c, _, _, _, _, h⟩ := lost_addresses_are_not_reported (oneBlock_ok 300) (q := 1) (by rw [oneBlock_adr, List.length_replicate]; omega)
  refine ⟨fa, by rw [h], ?_⟩
  rw [h, oneBlock_adr]
  simp only [List.take_replicate, List.drop_replicate, List.replicate_append_replicate]
  rfl

/-- **C124 is violated: a refused last write is not reported.** The last write of the file of block hashes, when it is closed, is
refused. Both variants of phase one return nil, and the file lacks the hashes of the last blocks: up to 128 of them, and at least
one. For any blocks. -/
theorem a_refused_last_write_is_not_reported (chi : Bool) {bs : List Blk} (hb : ∀ b ∈ bs, b.OK) (hne : bs ≠ []) :
    ∃ fb n, n < bs.length ∧ bs.length ≤ n + 128 ∧
      phaseOne chi fb [] [] bs =
        (.nil, ⟨some (blkHashes (bs.take n)).flatten, some (trnHashes bs).flatten, some (adrHashes bs).flatten⟩) := by
  have hpos : 0 < bs.length := List.length_pos_iff.mpr hne
  obtain ⟨x2, g2, w2⟩ := work_feed work_new (trn_len hb)
  obtain ⟨x3, g3, w3⟩ := work_feed work_new (adr_len hb)
  have hl : (blkHashes bs).length = bs.length := by simp [blkHashes]
  have f1 := feed_well [some 0] (blk_len hb) (by intro e; rw [e] at hl; simp at hl; omega) (q := (bs.length - 1) / 128)
    (by rw [hl]; exact Nat.le_refl _)
  rw [hl, Nat.sub_self, List.replicate_zero, List.nil_append] at f1
  have h := (gather_iff (chi := chi) (c := openNew (List.replicate ((bs.length - 1) / 128) none ++ [some 0]) [] [])
    (c' := ⟨_, x2, x3⟩) hb).mpr ⟨f1, g2, congrArg Prod.fst g3, fun _ => congrArg Prod.snd g3⟩
  refine ⟨List.replicate ((bs.length - 1) / 128) none ++ [some 0], 128 * ((bs.length - 1) / 128), by omega, by omega, ?_⟩
  have hp : ((blkHashes bs).drop (128 * ((bs.length - 1) / 128))).flatten ≠ [] := by
    intro e
    have hlt : 128 * ((bs.length - 1) / 128) < (blkHashes bs).length := by omega
    rw [List.drop_eq_getElem_cons hlt, List.flatten_cons, List.append_eq_nil_iff] at e
    have := blk_len hb _ (List.getElem_mem hlt)
    rw [e.1] at this
    simp at this
  have hc : (Faulty.close (busy ((blkHashes bs).take (128 * ((bs.length - 1) / 128))).flatten
      ((blkHashes bs).drop (128 * ((bs.length - 1) / 128))).flatten [some 0] bs.length).file).1 =
      (blkHashes (bs.take (128 * ((bs.length - 1) / 128)))).flatten := by
    simp only [Faulty.close, Faulty.flush, busy, Faulty.Writer.flush, hp, Faulty.Disk.write, AppendOpt.OsFile.write, Bool.false_eq_true,
      if_false, List.take_zero]
    simp [Verif.writeAt, blkHashes, List.map_take]
  simp only [phaseOne, h, close, w2.close, w3.close, List.nil_append]
  exact congrArg (fun b => (Res.nil, Folder.mk (some b) (some (trnHashes bs).flatten) (some (adrHashes bs).flatten))) hc

/-- A single block: the file of block hashes is empty. -/
example : ∃ fb, phaseOne false fb [] [] (oneBlock 1) = (.nil, ⟨some [], some (sampleHash 2), some (sampleHash 3)⟩) := by
  obtain ⟨fb, n, h1, _, h3⟩ := a_refused_last_write_is_not_reported false (oneBlock_ok 1) (by simp [oneBlock])
  have h0 : n = 0 := by simp [oneBlock] at h1; omega
  subst h0
  refine ⟨fb, ?_⟩
  rw [h3]
  decide +kernel

end Verif.FaultyHashes
