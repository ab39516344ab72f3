import Verif.Lemmas.Run

/-! # Lemmas about whole runs: the two sinks -/

namespace Verif.Run

open Verif.ChainStore
open Verif.BlockHolder (Call)

/-! ## Appending does not change who indexes -/

theorem appendTxi_d {i : Iface} {t : Int} {s s' : St} {x : Txi} (h : appendTxi i t s x = .ok s') : s'.delegated = s.delegated := by
  unfold appendTxi at h
  obtain ⟨a, _, h⟩ := bind_ok_inv h
  dsimp only at h
  split at h
  · cases h
  · obtain ⟨b, _, h⟩ := bind_ok_inv h
    obtain ⟨c, _, h⟩ := bind_ok_inv h
    obtain ⟨d, _, h⟩ := bind_ok_inv h
    cases h
    rfl

theorem appendTxis_d {i : Iface} {t : Int} (xs : List Txi) {s s' : St} (h : appendTxis i t xs s = .ok s') :
    s'.delegated = s.delegated := by
  induction xs generalizing s with
  | nil => cases h; rfl
  | cons x xs ih =>
    obtain ⟨a, h1, h⟩ := bind_ok_inv h
    rw [ih h, appendTxi_d h1]

theorem txiThread_d {i : Iface} {t : Int} {xs : List Txi} {s s' : St} (h : txiThread i t xs s = .ok s') :
    s'.delegated = s.delegated := by
  obtain ⟨a, _, h⟩ := bind_ok_inv h
  rw [appendTxis_d xs h]

theorem appendTxo_d {i : Iface} {t : Int} {s s' : St} {x : Txo} (h : appendTxo i t s x = .ok s') : s'.delegated = s.delegated := by
  unfold appendTxo at h
  dsimp only at h
  split at h
  · cases h
  · obtain ⟨a, _, h⟩ := bind_ok_inv h
    obtain ⟨b, _, h⟩ := bind_ok_inv h
    obtain ⟨c, _, h⟩ := bind_ok_inv h
    obtain ⟨d, _, h⟩ := bind_ok_inv h
    obtain ⟨f, _, h⟩ := bind_ok_inv h
    cases h
    rfl

theorem appendTxos_d {i : Iface} {t : Int} (xs : List Txo) {s s' : St} (h : appendTxos i t xs s = .ok s') :
    s'.delegated = s.delegated := by
  induction xs generalizing s with
  | nil => cases h; rfl
  | cons x xs ih =>
    obtain ⟨a, h1, h⟩ := bind_ok_inv h
    rw [ih h, appendTxo_d h1]

theorem txoThread_d {i : Iface} {t : Int} {xs : List Txo} {s s' : St} (h : txoThread i t xs s = .ok s') :
    s'.delegated = s.delegated := by
  unfold txoThread at h
  dsimp only at h
  split at h
  · cases h
  · obtain ⟨a, _, h⟩ := bind_ok_inv h
    rw [appendTxos_d xs h]

theorem appendContents_d {i : Iface} {s s' : St} {t : Nat} {tx : Tx} {n : Int} (h : appendContents i s t tx n = .ok s') :
    s'.delegated = s.delegated := by
  obtain ⟨a, _, h⟩ := bind_ok_inv h
  obtain ⟨b, h1, h⟩ := bind_ok_inv h
  rw [txiThread_d h, txoThread_d h1]

theorem contentsLoop_d {i : Iface} {first : Int} (txs : List Tx) {t : Nat} {s s' : St} (h : contentsLoop i first txs t s = .ok s') :
    s'.delegated = s.delegated := by
  induction txs generalizing s t with
  | nil => cases h; rfl
  | cons x xs ih =>
    obtain ⟨a, h1, h⟩ := bind_ok_inv h
    rw [ih h, appendContents_d h1]

theorem appendFrame_d {i : Iface} {s : St} {k : Int} {t : Nat} {tx : Tx} {r : St × Int} (h : appendFrame i s k t tx = .ok r) :
    r.1.delegated = s.delegated := by
  unfold appendFrame at h
  split at h
  · dsimp only at h
    split at h
    · cases h
    · obtain ⟨a, _, h⟩ := bind_ok_inv h
      cases h
      rfl
  · split at h
    · cases h; rfl
    · obtain ⟨a, _, h⟩ := bind_ok_inv h
      cases h; rfl
    · cases h
    · obtain ⟨a, _, h⟩ := bind_ok_inv h
      cases h; rfl

theorem frameLoop_d {i : Iface} {k : Int} (txs : List Tx) {t : Nat} {first : Int} {s : St} {r : St × Int}
    (h : frameLoop i k txs t first s = .ok r) : r.1.delegated = s.delegated := by
  induction txs generalizing s t first with
  | nil => cases h; rfl
  | cons x xs ih =>
    obtain ⟨a, h1, h⟩ := bind_ok_inv h
    split at h
    · cases h
    · split at h
      · cases h
      · split at h
        · obtain ⟨b, _, h⟩ := bind_ok_inv h
          rw [ih h]
          exact appendFrame_d h1
        · rw [ih h, appendFrame_d h1]

theorem appendBlock_d {i : Iface} {s s' : St} {b : Blk} (h : appendBlock i s b = .ok s') : s'.delegated = s.delegated := by
  unfold appendBlock at h
  dsimp only at h
  split at h
  · cases h
  · obtain ⟨_, _, h⟩ := bind_ok_inv h
    obtain ⟨a, _, h⟩ := bind_ok_inv h
    split at h
    · cases h
    · obtain ⟨r, h1, h⟩ := bind_ok_inv h
      rw [contentsLoop_d _ h, frameLoop_d _ h1]

/-! ## Phase one -/

theorem hashSink_prefix : PrefixOK hashSink := fun x _ _ _ _ => ⟨x, rfl⟩

theorem feed_hashes (bs : List Blk) (h l : Int) (x : Hashes) : feed hashSink h l bs x = gatherHashes bs x := by
  induction bs generalizing h l x with
  | nil => rfl
  | cons b bs ih =>
    rw [feed, gatherHashes]
    have : hashSink.calls x (sinkCalls hashSink h l (b.txs.map (·.hash))) = .ok x := rfl
    rw [this, bind_ok]
    have e2 : hashSink.append x b = appendHashes x b := rfl
    rw [e2]
    cases appendHashes x b with
    | error _ => rfl
    | ok y => rw [bind_ok, bind_ok, ih]

/-! ## Phase three -/

theorem applyCalls_append (s : St) (a b : List Call) :
    applyCalls s (a ++ b) = (applyCalls s a >>= fun s' => applyCalls s' b) := by
  induction a generalizing s with
  | nil => rfl
  | cons c cs ih =>
    rw [List.cons_append, applyCalls, applyCalls]
    cases applyCall s c with
    | error _ => rfl
    | ok s' => rw [bind_ok, bind_ok, ih]

theorem chainSink_prefix (i : Iface) : PrefixOK (chainSink i) := by
  intro x cs ds y h
  have h : applyCalls x (cs ++ ds) = .ok y := h
  rw [applyCalls_append] at h
  obtain ⟨z, h1, _⟩ := bind_ok_inv h
  exact ⟨z, h1⟩

theorem applyCalls_loop (block : Int) (txs : List Tx) (h : Int) (s : St) :
    applyCalls s (loopCalls block (txs.map (·.hash)) h) = indexLoop block txs h s := by
  induction txs generalizing h s with
  | nil => rfl
  | cons x xs ih =>
    rw [List.map_cons, loopCalls, applyCalls, indexLoop]
    dsimp only [applyCall]
    cases put 4 s.parentBlockOfTrans (h + 1) block with
    | error _ => rfl
    | ok f =>
      rw [bind_ok, bind_ok, applyCalls, bind_ok]
      exact ih _ _

theorem applyCalls_block (block latest : Int) (txs : List Tx) (s : St) :
    applyCalls s (callsOf block latest (txs.map (·.hash))) = indexBlock s block latest txs := by
  unfold callsOf indexBlock
  rw [applyCalls]
  dsimp only [applyCall]
  cases put 4 s.blkFirstTrans block (latest + 1) with
  | error _ => rfl
  | ok f =>
    rw [bind_ok, bind_ok]
    exact applyCalls_loop _ _ _ _

theorem indexLoop_d {block : Int} (txs : List Tx) {h : Int} {s s' : St} (hh : indexLoop block txs h s = .ok s') :
    s'.delegated = s.delegated := by
  induction txs generalizing s h with
  | nil => cases hh; rfl
  | cons x xs ih =>
    obtain ⟨a, _, hh⟩ := bind_ok_inv hh
    rw [ih hh]

theorem feed_chain (i : Iface) (bs : List Blk) (h l : Int) (s : St) (hd : s.delegated = true) :
    feed (chainSink i) h l bs s = ingest i h l bs s := by
  induction bs generalizing h l s with
  | nil => rfl
  | cons b bs ih =>
    rw [feed, ingest, if_pos hd]
    have e1 : (chainSink i).calls s (sinkCalls (chainSink i) h l (b.txs.map (·.hash))) = indexBlock s h l b.txs :=
      applyCalls_block h l b.txs s
    rw [e1]
    cases h1 : indexBlock s h l b.txs with
    | error _ => rfl
    | ok s1 =>
      rw [bind_ok, bind_ok]
      have e2 : (chainSink i).append s1 b = appendBlock i s1 b := rfl
      rw [e2]
      dsimp only
      cases h2 : appendBlock i s1 b with
      | error _ => rfl
      | ok s2 =>
        rw [bind_ok, bind_ok]
        apply ih
        rw [appendBlock_d h2]
        obtain ⟨f, _, h1⟩ := bind_ok_inv h1
        rw [indexLoop_d _ h1]
        exact hd

end Verif.Run
