import Verif.Model.HashesChain
import Verif.Lemmas.AppendOpt
import Verif.Lemmas.Records
import Verif.Lemmas.ChainStoreRead

/-!
# C84: the chain of hashes keeps every hash, in order

Specification: three lists of hashes.
-/

namespace Verif.HashesChain

open Verif.HashFile (HF)

/-- The blocks that are appended. -/
def blocksOf : List Op → List Blk
  | [] => []
  | .append b :: ops => b :: blocksOf ops
  | .count :: ops => blocksOf ops
  | .sync :: ops => blocksOf ops

/-- The hashes of blocks, of transactions and of addresses, in order. -/
def blkHashes (bs : List Blk) : List Bytes := bs.map (·.hash)
def trnHashes (bs : List Blk) : List Bytes := bs.flatMap fun b => b.txs.map (·.1)
def adrHashes (bs : List Blk) : List Bytes := bs.flatMap fun b => b.txs.flatMap (·.2)

/-- Their numbers. -/
def counts (bs : List Blk) : Nat × Nat × Nat := ((blkHashes bs).length, (trnHashes bs).length, (adrHashes bs).length)

/-- The counts a client sees, when the blocks `bs` have been appended before. -/
def countsSeen (bs : List Blk) : List Op → List (Nat × Nat × Nat)
  | [] => []
  | .append b :: ops => countsSeen (bs ++ [b]) ops
  | .count :: ops => counts bs :: countsSeen bs ops
  | .sync :: ops => countsSeen bs ops

/-- Hashes are of 32 bytes and the block has a transaction. -/
structure Blk.OK (b : Blk) : Prop where
  hash : b.hash.length = 32
  txs : ∀ t ∈ b.txs, t.1.length = 32 ∧ ∀ a ∈ t.2, a.length = 32
  ne : b.txs ≠ []

/-- New hashes over the beginning of old contents. -/
def over (old : Bytes) (hs : List Bytes) : Bytes := hs.flatten ++ old.drop hs.flatten.length

/-- A list of hashes written over old contents. -/
structure ListOK (h : HF) (old : Bytes) (hs : List Bytes) : Prop where
  file : AppendOpt.Inv h.file (over old hs)
  count : h.hashCount = hs.length
  len : hs.flatten.length = hs.length * 32

theorem listOK_open (old : Bytes) : ListOK (openList old) old [] :=
  ⟨by simpa [over, openList] using AppendOpt.inv_open old, rfl, rfl⟩

theorem listOK_append {h : HF} {old : Bytes} {hs : List Bytes} (hi : ListOK h old hs) {v : Bytes} (hv : v.length = 32) :
    ListOK (HashFile.appendHash h v).1 old (hs ++ [v]) := by
  have hne : v ≠ [] := by intro h; rw [h] at hv; cases hv
  have hl := hi.len
  refine ⟨?_, ?_, ?_⟩
  · have h1 := AppendOpt.inv_writeAt (off := h.hashCount * 32) hi.file (Or.inl hne)
    simp only [HashFile.appendHash, HashFile.writeHashAt]
    have h2 : Verif.writeAt (over old hs) (h.hashCount * 32) v = over old (hs ++ [v]) := by
      rw [Verif.writeAt, if_neg hne, hi.count, ← hl]
      unfold over
      have h3 : hs.flatten.length - (hs.flatten ++ old.drop hs.flatten.length).length = 0 := by
        rw [List.length_append]; omega
      rw [h3]
      simp only [zeros, List.replicate_zero, List.append_nil, List.flatten_append, List.flatten_cons, List.flatten_nil]
      rw [List.take_left, List.length_append, ← List.drop_drop, List.drop_left, List.drop_drop]
    rw [← h2]
    exact h1
  · simp only [HashFile.appendHash, HashFile.writeHashAt, hi.count, List.length_append, List.length_singleton]
    rw [if_pos (by omega)]
  · simp only [List.flatten_append, List.length_append, List.length_singleton, hl, List.flatten_cons, List.flatten_nil,
      List.append_nil, hv]
    omega

theorem listOK_sync {h : HF} {old : Bytes} {hs : List Bytes} (hi : ListOK h old hs) :
    ListOK { h with file := AppendOpt.sync h.file } old hs := ⟨(AppendOpt.inv_flush hi.file).1, hi.count, hi.len⟩

theorem listOK_addrs {old : Bytes} (as : List Bytes) (ha : ∀ a ∈ as, a.length = 32) {h : HF} {hs : List Bytes}
    (hi : ListOK h old hs) : ListOK (appendAddrs h as) old (hs ++ as) := by
  induction as generalizing h hs with
  | nil => simpa [appendAddrs] using hi
  | cons a as ih =>
    have := ih (fun x hx => ha x (by simp [hx])) (listOK_append hi (ha a (by simp)))
    simpa [appendAddrs] using this

/-- The chain holds the hashes of the blocks over the old contents. -/
structure ChainOK (c : Chain) (b t a : Bytes) (bs : List Blk) : Prop where
  blk : ListOK c.blk b (blkHashes bs)
  trn : ListOK c.trn t (trnHashes bs)
  adr : ListOK c.adr a (adrHashes bs)

theorem chainOK_txs {c : Chain} {t a : Bytes} {hs as : List Bytes} (txs : List (Bytes × List Bytes))
    (hx : ∀ x ∈ txs, x.1.length = 32 ∧ ∀ y ∈ x.2, y.length = 32) (h1 : ListOK c.trn t hs) (h2 : ListOK c.adr a as) :
    (appendTxs c txs).blk = c.blk ∧ ListOK (appendTxs c txs).trn t (hs ++ txs.map (·.1)) ∧
    ListOK (appendTxs c txs).adr a (as ++ txs.flatMap (·.2)) := by
  induction txs generalizing c hs as with
  | nil => exact ⟨rfl, by simpa [appendTxs] using h1, by simpa [appendTxs] using h2⟩
  | cons x xs ih =>
    have hx0 := hx x (by simp)
    have := ih (c := { c with trn := (HashFile.appendHash c.trn x.1).1, adr := appendAddrs c.adr x.2 })
      (fun y hy => hx y (by simp [hy])) (listOK_append h1 hx0.1) (listOK_addrs x.2 hx0.2 h2)
    simpa [appendTxs] using this

theorem chainOK_append {c : Chain} {b t a : Bytes} {bs : List Blk} (h : ChainOK c b t a bs) {x : Blk} (hx : x.OK) :
    (append c x).2 = false ∧ ChainOK (append c x).1 b t a (bs ++ [x]) := by
  have hne : ¬ x.txs.length = 0 := fun h => hx.ne (List.length_eq_zero_iff.mp h)
  have := chainOK_txs (c := { c with blk := (HashFile.appendHash c.blk x.hash).1 }) x.txs hx.txs h.trn h.adr
  unfold append
  simp only [if_neg hne]
  refine ⟨trivial, ?_, ?_, ?_⟩
  · rw [this.1]
    simpa [blkHashes] using listOK_append h.blk hx.hash
  · simpa [trnHashes] using this.2.1
  · simpa [adrHashes] using this.2.2

theorem chainOK_run {b t a : Bytes} (ops : List Op) (hops : ∀ x ∈ blocksOf ops, x.OK) {c : Chain} {bs : List Blk}
    (h : ChainOK c b t a bs) : (run c ops).2 = (countsSeen bs ops, false) ∧ ChainOK (run c ops).1 b t a (bs ++ blocksOf ops) := by
  induction ops generalizing c bs with
  | nil => exact ⟨rfl, by simpa [run, blocksOf] using h⟩
  | cons op ops ih =>
    cases op with
    | append x =>
      obtain ⟨h1, h2⟩ := chainOK_append h (hops x (by simp [blocksOf]))
      have := ih (fun y hy => hops y (by simp [blocksOf, hy])) h2
      simpa [run, blocksOf, countsSeen, h1] using this
    | count =>
      have := ih (fun y hy => hops y (by simpa [blocksOf] using hy)) h
      refine ⟨?_, this.2⟩
      simp only [run, countsSeen, this.1]
      simp [count, counts, HashFile.countHashes, h.blk.count, h.trn.count, h.adr.count]
    | sync => exact ih (fun y hy => hops y (by simpa [blocksOf] using hy)) ⟨listOK_sync h.blk, listOK_sync h.trn, listOK_sync h.adr⟩

theorem listOK_close {h : HF} {old : Bytes} {hs : List Bytes} (hi : ListOK h old hs) : AppendOpt.close h.file = over old hs :=
  (AppendOpt.inv_flush hi.file).2.1

/-- C84. A session on files with any contents: the counts seen are those of the hashes of this session, and the files left
are the hashes of this session over the beginning of what there was. -/
theorem session_exact (b t a : Bytes) (ops : List Op) (hops : ∀ x ∈ blocksOf ops, x.OK) :
    ∃ c, openChain ⟨some b, some t, some a⟩ = some c ∧ (run c ops).2 = (countsSeen [] ops, false) ∧
    close (run c ops).1 = ⟨some (over b (blkHashes (blocksOf ops))), some (over t (trnHashes (blocksOf ops))),
      some (over a (adrHashes (blocksOf ops)))⟩ := by
  have h := chainOK_run ops hops (c := ⟨openList b, openList t, openList a⟩) (bs := [])
    ⟨listOK_open b, listOK_open t, listOK_open a⟩
  refine ⟨_, rfl, h.1, ?_⟩
  rw [close, listOK_close h.2.blk, listOK_close h.2.trn, listOK_close h.2.adr]
  simp

/-- The list can be read back from a file of its hashes. -/
theorem recs_flatten {hs : List Bytes} (h : ∀ x ∈ hs, x.length = 32) : recs 32 hs.flatten = hs := by
  have hl : ∀ l : List Bytes, (∀ x ∈ l, x.length = 32) → l.flatten.length = l.length * 32 := by
    intro l
    induction l with
    | nil => intro _; rfl
    | cons x xs ih =>
      intro hx
      have h1 := hx x (by simp)
      have h2 := ih fun y hy => hx y (by simp [hy])
      rw [List.flatten_cons, List.length_append, h1, h2, List.length_cons]; omega
  unfold recs
  rw [hl hs h, Nat.mul_div_cancel _ (by omega)]
  clear hl
  induction hs with
  | nil => rfl
  | cons x xs ih =>
    have hx := h x (by simp)
    rw [List.length_cons, List.range_succ_eq_map, List.map_cons, List.map_map]
    congr 1
    · rw [slice, List.flatten_cons]; simp [List.take_left' hx]
    · refine Eq.trans ?_ (ih fun y hy => h y (by simp [hy]))
      apply List.map_congr_left
      intro i _
      simp only [Function.comp, slice, List.flatten_cons, Nat.succ_eq_add_one]
      rw [show (i + 1) * 32 = 32 + i * 32 by omega, ← List.drop_drop, List.drop_left' hx]

/-- C84. From making the files to closing them, whatever is appended, counted and synchronized in between: the counts seen
are those of the hashes so far, and the three files are read back as exactly the hashes of the blocks, of their transactions
and of their addresses, in order. Making them is refused exactly if there is a file of block hashes.
Missing: the same for a chain that is opened again, see `reopening_overwrites`. -/
theorem first_session_keeps_every_hash_partial (f : Folder) (ops : List Op) (hops : ∀ x ∈ blocksOf ops, x.OK) :
    (create f = none ↔ f.blk ≠ none) ∧
    (f.blk = none → ∃ f' c b t a, create f = some f' ∧ openChain f' = some c ∧ (run c ops).2 = (countsSeen [] ops, false) ∧
      close (run c ops).1 = ⟨some b, some t, some a⟩ ∧ recs 32 b = blkHashes (blocksOf ops) ∧
      recs 32 t = trnHashes (blocksOf ops) ∧ recs 32 a = adrHashes (blocksOf ops)) := by
  refine ⟨?_, fun hf => ?_⟩
  · unfold create exists?
    cases f.blk <;> simp
  · obtain ⟨c, h1, h2, h3⟩ := session_exact [] [] [] ops hops
    refine ⟨_, c, _, _, _, by simp [create, exists?, hf], h1, h2, h3, ?_, ?_, ?_⟩
    · rw [over, List.drop_nil, List.append_nil]
      apply recs_flatten
      intro x hx
      obtain ⟨y, hy, rfl⟩ := List.mem_map.mp hx
      exact (hops y hy).hash
    · rw [over, List.drop_nil, List.append_nil]
      apply recs_flatten
      intro x hx
      obtain ⟨y, hy, hx⟩ := List.mem_flatMap.mp hx
      obtain ⟨t, ht, rfl⟩ := List.mem_map.mp hx
      exact ((hops y hy).txs t ht).1
    · rw [over, List.drop_nil, List.append_nil]
      apply recs_flatten
      intro x hx
      obtain ⟨y, hy, hx⟩ := List.mem_flatMap.mp hx
      obtain ⟨t, ht, hx⟩ := List.mem_flatMap.mp hx
      exact ((hops y hy).txs t ht).2 x hx

/-- C84. If the machine stops at any moment of the first session, what is on disk are hashes from the beginning of each list,
the last one perhaps cut off. -/
theorem stop_loses_only_the_end (ops : List Op) (hops : ∀ x ∈ blocksOf ops, x.OK) :
    ∃ c b t a, openChain ⟨some [], some [], some []⟩ = some c ∧ onDisk (run c ops).1 = ⟨some b, some t, some a⟩ ∧
    b <+: (blkHashes (blocksOf ops)).flatten ∧ t <+: (trnHashes (blocksOf ops)).flatten ∧
    a <+: (adrHashes (blocksOf ops)).flatten := by
  have h := (chainOK_run ops hops (c := ⟨openList [], openList [], openList []⟩) (bs := [])
    ⟨listOK_open [], listOK_open [], listOK_open []⟩).2
  have hp : ∀ {x : HF} {hs : List Bytes}, ListOK x [] hs → x.file.file.data <+: hs.flatten := by
    intro x hs hx
    have := hx.file.data
    rw [over, List.drop_nil, List.append_nil] at this
    exact ⟨_, this⟩
  exact ⟨_, _, _, _, rfl, rfl, hp h.blk, hp h.trn, hp h.adr⟩

theorem bytes_writeAt_grows (f p : Bytes) (off : Nat) : f.length ≤ (Verif.writeAt f off p).length := by
  unfold Verif.writeAt
  split
  · exact Nat.le_refl _
  · simp only [List.length_append, List.length_take, List.length_drop, zeros, List.length_replicate]
    omega

theorem write_grows (f : AppendOpt.OsFile) (p : Bytes) : f.data.length ≤ (f.write p).data.length :=
  bytes_writeAt_grows f.data p f.pos

theorem flush_grows (a : AppendOpt.AOF) : a.file.data.length ≤ (AppendOpt.flush a).file.data.length := by
  unfold AppendOpt.flush
  split
  · exact Nat.le_refl _
  · dsimp only
    split
    · exact Nat.le_refl _
    · exact write_grows _ _

theorem bufWrite_grows (f : AppendOpt.OsFile) (q p : Bytes) : f.data.length ≤ (AppendOpt.bufWrite f q p).1.data.length := by
  unfold AppendOpt.bufWrite
  split
  · exact Nat.le_refl _
  split
  · exact write_grows _ _
  · dsimp only
    split
    · exact write_grows _ _
    · exact Nat.le_trans (write_grows _ _) (write_grows _ _)

theorem writeAt_grows (a : AppendOpt.AOF) (off : Nat) (p : Bytes) :
    a.file.data.length ≤ (AppendOpt.writeAt a off p).file.data.length := by
  unfold AppendOpt.writeAt
  split
  · split
    · exact bufWrite_grows _ _ _
    · exact Nat.le_trans (flush_grows a) (bytes_writeAt_grows _ _ _)
  · split
    · exact bufWrite_grows { a.file with pos := a.file.data.length } _ _
    · exact bytes_writeAt_grows _ _ _

/-- On disk the files of `d` are at least as long as those of `c`. -/
def Grows (c d : Chain) : Prop :=
  c.blk.file.file.data.length ≤ d.blk.file.file.data.length ∧ c.trn.file.file.data.length ≤ d.trn.file.file.data.length ∧
  c.adr.file.file.data.length ≤ d.adr.file.file.data.length

theorem Grows.trans {c d e : Chain} (h : Grows c d) (h' : Grows d e) : Grows c e :=
  ⟨Nat.le_trans h.1 h'.1, Nat.le_trans h.2.1 h'.2.1, Nat.le_trans h.2.2 h'.2.2⟩

theorem appendHash_grows (h : HF) (v : Bytes) :
    h.file.file.data.length ≤ (HashFile.appendHash h v).1.file.file.data.length := writeAt_grows _ _ _

theorem appendAddrs_grows (h : HF) (as : List Bytes) :
    h.file.file.data.length ≤ (appendAddrs h as).file.file.data.length := by
  induction as generalizing h with
  | nil => exact Nat.le_refl _
  | cons a as ih => exact Nat.le_trans (appendHash_grows h a) (ih _)

theorem appendTxs_grows (c : Chain) (txs : List (Bytes × List Bytes)) : Grows c (appendTxs c txs) := by
  induction txs generalizing c with
  | nil => exact ⟨Nat.le_refl _, Nat.le_refl _, Nat.le_refl _⟩
  | cons t ts ih =>
    rw [appendTxs]
    refine Grows.trans ?_ (ih _)
    exact ⟨Nat.le_refl _, appendHash_grows _ _, appendAddrs_grows _ _⟩

theorem append_grows (c : Chain) (b : Blk) : Grows c (append c b).1 := by
  have h : Grows c { c with blk := (HashFile.appendHash c.blk b.hash).1 } :=
    ⟨appendHash_grows _ _, Nat.le_refl _, Nat.le_refl _⟩
  unfold append
  dsimp only
  split
  · exact h
  · exact h.trans (appendTxs_grows _ _)

theorem run_grows (c : Chain) (ops : List Op) : Grows c (run c ops).1 := by
  induction ops generalizing c with
  | nil => exact ⟨Nat.le_refl _, Nat.le_refl _, Nat.le_refl _⟩
  | cons op ops ih =>
    cases op with
    | append b =>
      rw [run]
      split
      · exact append_grows c b
      · exact (append_grows c b).trans (ih _)
    | count => exact ih c
    | sync => exact Grows.trans ⟨flush_grows _, flush_grows _, flush_grows _⟩ (ih _)

theorem run_append (c : Chain) (ops1 ops2 : List Op) (h : (run c ops1).2.2 = false) :
    (run c (ops1 ++ ops2)).1 = (run (run c ops1).1 ops2).1 := by
  induction ops1 generalizing c with
  | nil => rfl
  | cons op ops ih =>
    cases op with
    | append b =>
      rw [List.cons_append, run, run]
      rw [run] at h
      split
      · rename_i hp
        rw [if_pos hp] at h
        cases h
      · rename_i hp
        rw [if_neg hp] at h
        exact ih _ h
    | count => exact ih c h
    | sync => exact ih _ h

theorem blocksOf_append (ops1 ops2 : List Op) : blocksOf (ops1 ++ ops2) = blocksOf ops1 ++ blocksOf ops2 := by
  induction ops1 with
  | nil => rfl
  | cons op ops ih => cases op <;> simp [blocksOf, ih]

/-- C84. What was appended before the files were synchronized is on disk from then on. -/
theorem synchronized_is_durable (ops1 ops2 : List Op) (h1 : ∀ x ∈ blocksOf ops1, x.OK) (h2 : ∀ x ∈ blocksOf ops2, x.OK) :
    ∃ c b t a, openChain ⟨some [], some [], some []⟩ = some c ∧
    onDisk (run c (ops1 ++ .sync :: ops2)).1 = ⟨some b, some t, some a⟩ ∧
    (blkHashes (blocksOf ops1)).flatten <+: b ∧ (trnHashes (blocksOf ops1)).flatten <+: t ∧
    (adrHashes (blocksOf ops1)).flatten <+: a := by
  have hbl : blocksOf (ops1 ++ .sync :: ops2) = blocksOf ops1 ++ blocksOf ops2 := by simp [blocksOf_append, blocksOf]
  obtain ⟨c, b, t, a, hc, hd, hb, ht, ha⟩ := stop_loses_only_the_end (ops1 ++ .sync :: ops2) (by
    intro x hx
    rw [hbl, List.mem_append] at hx
    exact hx.elim (h1 x) (h2 x))
  rw [hbl] at hb ht ha
  have hr := chainOK_run ops1 h1 (c := c) (bs := []) (by cases hc; exact ⟨listOK_open [], listOK_open [], listOK_open []⟩)
  have hg := run_grows (sync (run c ops1).1) ops2
  rw [run_append c ops1 _ (by rw [hr.1])] at hd
  rw [run] at hd
  injection hd with e1 e2 e3
  injection e1 with e1
  injection e2 with e2
  injection e3 with e3
  have hfl : ∀ {x : HF} {hs : List Bytes}, ListOK x [] hs → (AppendOpt.sync x.file).file.data = hs.flatten := by
    intro x hs hx
    have := (AppendOpt.inv_flush hx.file).2.1
    rwa [over, List.drop_nil, List.append_nil] at this
  refine ⟨c, b, t, a, hc, ?_, ?_, ?_, ?_⟩
  · rw [run_append c ops1 _ (by rw [hr.1]), run, onDisk, e1, e2, e3]
  · refine List.prefix_of_prefix_length_le ?_ hb ?_
    · simp [blkHashes]
    · have := hg.1
      rw [e1] at this
      exact Nat.le_trans (Nat.le_of_eq (congrArg List.length (hfl hr.2.blk).symm)) this
  · refine List.prefix_of_prefix_length_le ?_ ht ?_
    · simp [trnHashes]
    · have := hg.2.1
      rw [e2] at this
      exact Nat.le_trans (Nat.le_of_eq (congrArg List.length (hfl hr.2.trn).symm)) this
  · refine List.prefix_of_prefix_length_le ?_ ha ?_
    · simp [adrHashes]
    · have := hg.2.2
      rw [e3] at this
      exact Nat.le_trans (Nat.le_of_eq (congrArg List.length (hfl hr.2.adr).symm)) this

/-- C84 does not hold for a chain that is opened again: the counts begin at zero, and every hash that is appended takes the
place of an old one. -/
theorem reopening_overwrites {b t a : Bytes} {ops : List Op} (hops : ∀ x ∈ blocksOf ops, x.OK)
    (hb : (blkHashes (blocksOf ops)).flatten.length ≤ b.length) :
    ∃ c f, openChain ⟨some b, some t, some a⟩ = some c ∧ count c = (0, 0, 0) ∧ close (run c ops).1 = f ∧
    f.blk = some ((blkHashes (blocksOf ops)).flatten ++ b.drop (blkHashes (blocksOf ops)).flatten.length) ∧
    ∀ d, f.blk = some d → d.length = b.length := by
  obtain ⟨c, h1, _, h3⟩ := session_exact b t a ops hops
  refine ⟨c, _, h1, ?_, rfl, by rw [h3]; rfl, ?_⟩
  · cases h1; rfl
  · intro d hd
    rw [h3] at hd
    cases hd
    rw [over, List.length_append, List.length_drop]
    omega

/-- A block without transactions makes the program panic when its hash has been appended. -/
example (c : Chain) (h : Bytes) :
    (append c ⟨h, []⟩).2 = true ∧ (append c ⟨h, []⟩).1.blk = (HashFile.appendHash c.blk h).1 := ⟨rfl, rfl⟩

/-- What is appended of a block of the source chain. -/
def ofBlk (b : ChainStore.Blk) : Blk := ⟨b.hash, b.txs.map fun t => (t.hash, t.txos.map (·.addr))⟩

/-- C84. The lists of hashes that the model of a whole run (C77, C79) works with are what is read back from the files. -/
theorem files_of_phase_one (bs : List ChainStore.Blk) (hb : ∀ b ∈ bs, (ofBlk b).OK) :
    ∃ h c b t a, ChainStore.gatherHashes bs ⟨[], [], []⟩ = .ok h ∧ openChain ⟨some [], some [], some []⟩ = some c ∧
    close (run c (bs.map fun b => .append (ofBlk b))).1 = ⟨some b, some t, some a⟩ ∧
    recs 32 b = h.blk ∧ recs 32 t = h.trn ∧ recs 32 a = h.adr := by
  have hops : blocksOf (bs.map fun b => Op.append (ofBlk b)) = bs.map ofBlk := by
    clear hb
    induction bs with
    | nil => rfl
    | cons b bs ih => simp [blocksOf, ih]
  have hne : ∀ b ∈ bs, b.txs ≠ [] := by
    intro b hx he
    apply (hb b hx).ne
    simp [ofBlk, he]
  obtain ⟨_, h1⟩ := first_session_keeps_every_hash_partial ⟨none, none, none⟩ (bs.map fun b => Op.append (ofBlk b)) (by
    intro x hx
    rw [hops] at hx
    obtain ⟨b, hbm, rfl⟩ := List.mem_map.mp hx
    exact hb b hbm)
  obtain ⟨f', c, b, t, a, h2, h3, _, h4, h5, h6, h7⟩ := h1 rfl
  cases h2
  refine ⟨_, c, b, t, a, ChainStore.gatherHashes_ok bs _ hne, h3, h4, ?_, ?_, ?_⟩
  · rw [h5, hops]; simp [blkHashes, ofBlk]
  · rw [h6, hops]; simp [trnHashes, ofBlk, List.flatMap_map, List.map_flatMap, Function.comp_def]
  · rw [h7, hops]
    simp [adrHashes, ofBlk, List.flatMap_map, List.map_flatMap, List.flatMap_assoc, Function.comp_def]

/-- A hash for examples. -/
def sampleHash (x : UInt8) : Bytes := List.replicate 32 x

/-- Two blocks, the first with two transactions, in a first session. -/
example :
    let ops := [Op.append ⟨sampleHash 1, [(sampleHash 2, [sampleHash 3, sampleHash 4]), (sampleHash 5, [])]⟩, .sync, .count,
      .append ⟨sampleHash 6, [(sampleHash 7, [sampleHash 3])]⟩, .count]
    (∀ x ∈ blocksOf ops, x.OK) ∧ countsSeen [] ops = [(1, 2, 2), (2, 3, 3)] ∧
    adrHashes (blocksOf ops) = [sampleHash 3, sampleHash 4, sampleHash 3] := by
  refine ⟨?_, by decide, by decide⟩
  intro x hx
  simp only [blocksOf, List.mem_cons, List.not_mem_nil, or_false] at hx
  rcases hx with rfl | rfl
  · exact ⟨by decide, by decide, by simp⟩
  · exact ⟨by decide, by decide, by simp⟩

/-- Two sessions of one block each leave one block hash: the first is lost. -/
example : ∃ c1 c2 f, openChain ⟨some [], some [], some []⟩ = some c1 ∧
    close (run c1 [.append ⟨sampleHash 1, [(sampleHash 2, [])]⟩]).1 = f ∧ openChain f = some c2 ∧
    (close (run c2 [.append ⟨sampleHash 3, [(sampleHash 4, [])]⟩]).1).blk = some (sampleHash 3) :=
  ⟨_, _, _, rfl, rfl, rfl, by decide +kernel⟩

/-- A chain of one block with two transactions meets the hypotheses of `files_of_phase_one`. -/
example : ∀ b ∈ [(⟨sampleHash 1, none, [], [⟨sampleHash 2, none, none, [], [], [⟨50, sampleHash 3, none⟩]⟩,
    ⟨sampleHash 4, none, none, [], [], []⟩]⟩ : ChainStore.Blk)], (ofBlk b).OK := by
  intro b hb
  rw [List.mem_singleton] at hb
  subst hb
  exact ⟨by decide, by decide, by simp [ofBlk, sampleHash]⟩

end Verif.HashesChain
