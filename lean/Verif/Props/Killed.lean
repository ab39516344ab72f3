import Verif.Model.Killed
import Verif.Props.ChainFactory

/-!
# C93: what a killed run leaves
-/

namespace Verif.Killed

open ChainStore
open WordFile (WF wordsOf)

/-! ## Specification -/

/-- The bytes of a word and the words of a file of the store. -/
def fileOf (s : St) : File → Nat × Words
  | .blkFirstTrans => (4, s.blkFirstTrans)
  | .parentBlockOfTrans => (4, s.parentBlockOfTrans)
  | .trnFirstTxi => (5, s.trnFirstTxi)
  | .txiTx => (4, s.txiTx)
  | .txiVout => (4, s.txiVout)
  | .parentTransOfTxi => (5, s.parentTransOfTxi)
  | .trnFirstTxo => (5, s.trnFirstTxo)
  | .txoSats => (7, s.txoSats)
  | .txoAddress => (5, s.txoAddress)
  | .txoSpentTxi => (5, s.txoSpentTxi)
  | .parentTransOfTxo => (5, s.parentTransOfTxo)
  | .addrFirstTxo => (5, s.addrFirstTxo)
  | .blkNei k => ((s.blkNei[k]?).map fun n => (n.width, n.words)).getD (1, [])
  | .trnNei k => ((s.trnNei[k]?).map fun n => (n.width, n.words)).getD (1, [])

/-- The words of a file of `w`-byte words after some calls, starting from `l`. -/
def replay (w : Nat) : Words → List WordFile.Op → Words
  | l, [] => l
  | l, .write v off :: ops => replay w (setExt l off (toU64 v % 256 ^ w) 0) ops
  | l, _ :: ops => replay w l ops

/-- How many writes there were since the last sync. -/
def unsynced (m : Nat) : List WordFile.Op → Nat
  | [] => m
  | .write _ _ :: ops => unsynced (m + 1) ops
  | .sync :: ops => unsynced 0 ops
  | _ :: ops => unsynced m ops

/-! ## The calls make the files -/

theorem replay_append (w : Nat) (l : Words) (a b : List WordFile.Op) : replay w l (a ++ b) = replay w (replay w l a) b := by
  induction a generalizing l with
  | nil => rfl
  | cons op a ih => cases op <;> simp [replay, ih]

theorem opsOn_append (f : File) (a b : List Ev) : opsOn f (a ++ b) = opsOn f a ++ opsOn f b := by
  induction a with
  | nil => rfl
  | cons e a ih => cases e <;> simp only [List.cons_append, opsOn, ih] <;> (try split) <;> simp

/-- The calls `es` take the files of `s` to those of `s'`. -/
def Eff (s : St) (es : List Ev) (s' : St) : Prop :=
  ∀ f, fileOf s' f = ((fileOf s f).1, replay (fileOf s f).1 (fileOf s f).2 (opsOn f es))

theorem Eff.refl (s : St) : Eff s [] s := fun _ => rfl

theorem Eff.trans {s s1 s2 : St} {a b : List Ev} (h1 : Eff s a s1) (h2 : Eff s1 b s2) : Eff s (a ++ b) s2 := by
  intro f
  rw [h2 f, h1 f, opsOn_append, replay_append]

theorem Eff.same {s s' t : St} {es : List Ev} (h : Eff s es s') (ht : ∀ f, fileOf t f = fileOf s' f) : Eff s es t :=
  fun f => (ht f).trans (h f)

theorem Eff.read (s : St) (g : File) (off : Int) : Eff s [.read g off] s := by
  intro f
  simp only [opsOn]
  split <;> rfl

theorem Eff.sync (s : St) : Eff s [.sync] s := fun _ => rfl

theorem put_ok {w : Nat} {l l' : Words} {off v : Int} (h : put w l off v = .ok l') :
    0 ≤ off ∧ l' = setExt l off.toNat (toU64 v % 256 ^ w) 0 := by
  unfold put at h
  split at h
  · simp at h
  · simp only [Except.ok.injEq] at h
    exact ⟨by omega, h.symm⟩

theorem Eff.write {s s' : St} {g : File} {w : Nat} {l l' : Words} {off v : Int} (hp : put w l off v = .ok l')
    (hg : fileOf s g = (w, l)) (hg' : fileOf s' g = (w, l')) (ho : ∀ f, f ≠ g → fileOf s' f = fileOf s f) :
    Eff s [.write g off v] s' := by
  intro f
  by_cases hf : f = g
  · subst hf
    rw [hg', hg, (put_ok hp).2]
    simp [opsOn, replay]
  · rw [ho f hf]
    simp only [opsOn]
    rw [if_neg (fun h => hf h.symm)]
    rfl

/-- Unfold one step of the error monad. -/
theorem bindE {α β : Type} {x : Except Fail α} {f : α → Except Fail β} {b : β} (h : (x >>= f) = .ok b) :
    ∃ a, x = .ok a ∧ f a = .ok b := by
  cases x with
  | error e => cases h
  | ok a => exact ⟨a, rfl, h⟩

theorem neis_calls (mk : Nat → File) (hmk : ∀ a b, mk a = mk b → a = b) (fields : List (String × Int)) (at_ : Int)
    (l l' : List Nei) (k : Nat) (h : writeNeis fields at_ l = .ok l') :
    (∀ j, ((l'[j]?).map fun n => (n.width, n.words)).getD (1, []) =
      let p := ((l[j]?).map fun n => (n.width, n.words)).getD (1, [])
      (p.1, replay p.1 p.2 (opsOn (mk (k + j)) (neiEvs mk fields at_ l k)))) ∧
    ∀ f, (∀ j, f ≠ mk (k + j)) → opsOn f (neiEvs mk fields at_ l k) = [] := by
  induction l generalizing l' k with
  | nil =>
    simp only [writeNeis, Except.ok.injEq] at h
    subst h
    exact ⟨fun j => by simp [neiEvs, opsOn, replay], fun f _ => rfl⟩
  | cons x xs ih =>
    unfold writeNeis at h
    cases hv : lookup fields x.name with
    | none => simp [hv] at h
    | some v =>
      simp only [hv] at h
      obtain ⟨ws, h1, h⟩ := bindE h
      obtain ⟨rest, h2, h⟩ := bindE h
      cases h
      obtain ⟨g1, g2⟩ := ih rest (k + 1) h2
      constructor
      · intro j
        cases j with
        | zero =>
          have e1 : opsOn (mk (k + 0)) (neiEvs mk fields at_ (x :: xs) k) = [.write v at_.toNat] := by
            simp only [neiEvs, hv, opsOn, Nat.add_zero, if_true]
            rw [g2 (mk k) (fun j hj => by have := hmk _ _ hj; omega)]
          dsimp only
          rw [e1]
          simp [replay, (put_ok h1).2]
        | succ j =>
          have := g1 j
          dsimp only at this ⊢
          rw [List.getElem?_cons_succ, List.getElem?_cons_succ, this]
          congr 2
          simp only [neiEvs, hv, opsOn]
          rw [if_neg (fun hj => by have := hmk _ _ hj; omega), show k + 1 + j = k + (j + 1) by omega]
      · intro f hf
        simp only [neiEvs, hv, opsOn]
        rw [if_neg (fun h => hf 0 (by simpa using h.symm))]
        exact g2 f (fun j => by have := hf (j + 1); rwa [show k + (j + 1) = k + 1 + j by omega] at this)

theorem Eff.blkNeis {fields : List (String × Int)} {at_ : Int} {s : St} {l' : List Nei}
    (h : writeNeis fields at_ s.blkNei = .ok l') :
    Eff s (neiEvs .blkNei fields at_ s.blkNei 0) { s with blkNei := l' } := by
  obtain ⟨h1, h2⟩ := neis_calls .blkNei (by intro a b h; cases h; rfl) fields at_ _ _ 0 h
  intro f
  cases f with
  | blkNei k => simpa [fileOf] using h1 k
  | _ => rw [h2 _ (by intro j; simp)]; rfl

theorem Eff.trnNeis {fields : List (String × Int)} {at_ : Int} {s : St} {l' : List Nei}
    (h : writeNeis fields at_ s.trnNei = .ok l') :
    Eff s (neiEvs .trnNei fields at_ s.trnNei 0) { s with trnNei := l' } := by
  obtain ⟨h1, h2⟩ := neis_calls .trnNei (by intro a b h; cases h; rfl) fields at_ _ _ 0 h
  intro f
  cases f with
  | trnNei k => simpa [fileOf] using h1 k
  | _ => rw [h2 _ (by intro j; simp)]; rfl

theorem ref_calls (i : Iface) (s : St) (x : Txi) :
    Eff s (match i, x.ref with | .cri, some (.path b _) => [.read .blkFirstTrans b] | _, _ => []) s := by
  split
  · exact Eff.read _ _ _
  · exact Eff.refl _

theorem txi_calls {i : Iface} {trans : Int} {s s' : St} {x : Txi} (h : appendTxi i trans s x = .ok s') :
    Eff s (txiEvs i trans s x) s' := by
  unfold appendTxi at h
  obtain ⟨src, h1, h⟩ := bindE h
  dsimp only at h
  split at h
  · simp at h
  · obtain ⟨a, h2, h⟩ := bindE h
    obtain ⟨b, h3, h⟩ := bindE h
    obtain ⟨c, h4, h⟩ := bindE h
    cases h
    unfold txiEvs
    refine (ref_calls i s x).trans ?_
    rw [h1]
    dsimp only
    have e2 : Eff s [.write .txiTx (count s.txiTx) src] { s with txiTx := a } :=
      Eff.write h2 rfl rfl (by intro f hf; cases f <;> first | rfl | exact absurd rfl hf)
    have e3 : Eff { s with txiTx := a } [.write .txiVout (count s.txiTx) x.vout] { s with txiTx := a, txiVout := b } :=
      Eff.write h3 rfl rfl (by intro f hf; cases f <;> first | rfl | exact absurd rfl hf)
    have e4 : Eff { s with txiTx := a, txiVout := b } [.write .parentTransOfTxi (count s.txiTx) trans]
        { s with txiTx := a, txiVout := b, parentTransOfTxi := c } :=
      Eff.write h4 rfl rfl (by intro f hf; cases f <;> first | rfl | exact absurd rfl hf)
    exact (e2.trans e3).trans e4

theorem txis_calls {i : Iface} {trans : Int} {xs : List Txi} {s s' : St} (h : appendTxis i trans xs s = .ok s') :
    Eff s (txisEvs i trans xs s) s' := by
  induction xs generalizing s with
  | nil =>
    cases h
    exact Eff.refl _
  | cons x xs ih =>
    unfold appendTxis at h
    obtain ⟨s1, h1, h⟩ := bindE h
    unfold txisEvs
    rw [h1]
    exact (txi_calls h1).trans (ih h)

theorem txiThread_calls {i : Iface} {trans : Int} {xs : List Txi} {s s' : St} (h : txiThread i trans xs s = .ok s') :
    Eff s (txiThreadEvs i trans xs s) s' := by
  unfold txiThread at h
  obtain ⟨first, h1, h⟩ := bindE h
  unfold txiThreadEvs
  rw [h1]
  have e1 : Eff s [.write .trnFirstTxi trans (count s.txiTx)] { s with trnFirstTxi := first } :=
    Eff.write h1 rfl rfl (by intro f hf; cases f <;> first | rfl | exact absurd rfl hf)
  exact e1.trans (txis_calls h)

theorem txo_calls {i : Iface} {trans : Int} {s s' : St} {x : Txo} (h : appendTxo i trans s x = .ok s') :
    Eff s (txoEvs trans s x) s' := by
  unfold appendTxo at h
  dsimp only at h
  split at h
  · simp at h
  · obtain ⟨a, h1, h⟩ := bindE h
    obtain ⟨b, h2, h⟩ := bindE h
    obtain ⟨r, h3, h⟩ := bindE h
    obtain ⟨c, h4, h⟩ := bindE h
    obtain ⟨d, h5, h⟩ := bindE h
    cases h
    have e1 : Eff s [.write .txoSats (count s.txoSats) x.sats] { s with txoSats := a } :=
      Eff.write h1 rfl rfl (by intro f hf; cases f <;> first | rfl | exact absurd rfl hf)
    have e2 : Eff { s with txoSats := a } [.write .parentTransOfTxo (count s.txoSats) trans]
        { s with txoSats := a, parentTransOfTxo := b } :=
      Eff.write h2 rfl rfl (by intro f hf; cases f <;> first | rfl | exact absurd rfl hf)
    have e3 : r.1 = indexOf s.adrHashes x.addr ∧
        Eff { s with txoSats := a, parentTransOfTxo := b } (addressEvs s x.addr (count s.txoSats))
          { s with txoSats := a, parentTransOfTxo := b, addrFirstTxo := r.2.1, additional := r.2.2 } := by
      unfold touchAddress at h3
      unfold addressEvs
      dsimp only at h3 ⊢
      generalize indexOf s.adrHashes x.addr = k at h3 ⊢
      by_cases hk : k = -1
      · rw [if_pos hk] at h3
        simp at h3
      rw [if_neg hk] at h3 ⊢
      by_cases hc : ¬ (count s.addrFirstTxo > k)
      · rw [if_pos hc] at h3 ⊢
        obtain ⟨f, h6, h3⟩ := bindE h3
        have e : Eff { s with txoSats := a, parentTransOfTxo := b } [.write .addrFirstTxo k (count s.txoSats)]
            { s with txoSats := a, parentTransOfTxo := b, addrFirstTxo := f } :=
          Eff.write h6 rfl rfl (by intro f hf; cases f <;> first | rfl | exact absurd rfl hf)
        by_cases ht : k = testPoint
        · rw [if_pos ht] at h3 ⊢
          obtain ⟨v, _, h3⟩ := bindE h3
          split at h3
          · simp at h3
          · split at h3
            · simp at h3
            · cases h3
              exact ⟨rfl, (e.trans (Eff.read _ _ _)).same (by intro f; cases f <;> rfl)⟩
        · rw [if_neg ht] at h3 ⊢
          cases h3
          exact ⟨rfl, e.same (by intro f; cases f <;> rfl)⟩
      · rw [if_neg hc] at h3 ⊢
        cases h3
        exact ⟨rfl, (Eff.refl _).same (by intro f; cases f <;> rfl)⟩
    have e4 : Eff { s with txoSats := a, parentTransOfTxo := b, addrFirstTxo := r.2.1, additional := r.2.2 }
        [.write .txoAddress (count s.txoSats) (indexOf s.adrHashes x.addr)]
        { s with txoSats := a, parentTransOfTxo := b, addrFirstTxo := r.2.1, additional := r.2.2, txoAddress := c } := by
      rw [← e3.1]
      exact Eff.write h4 rfl rfl (by intro f hf; cases f <;> first | rfl | exact absurd rfl hf)
    have e5 : Eff { s with txoSats := a, parentTransOfTxo := b, addrFirstTxo := r.2.1, additional := r.2.2, txoAddress := c }
        [.write .txoSpentTxi (count s.txoSats) 0]
        { s with txoSats := a, parentTransOfTxo := b, addrFirstTxo := r.2.1, additional := r.2.2, txoAddress := c, txoSpentTxi := d } :=
      Eff.write h5 rfl rfl (by intro f hf; cases f <;> first | rfl | exact absurd rfl hf)
    exact ((e1.trans e2).trans e3.2).trans (e4.trans e5)

theorem txos_calls {i : Iface} {trans : Int} {xs : List Txo} {s s' : St} (h : appendTxos i trans xs s = .ok s') :
    Eff s (txosEvs i trans xs s) s' := by
  induction xs generalizing s with
  | nil =>
    cases h
    exact Eff.refl _
  | cons x xs ih =>
    unfold appendTxos at h
    obtain ⟨s1, h1, h⟩ := bindE h
    unfold txosEvs
    rw [h1]
    exact (txo_calls h1).trans (ih h)

theorem txoThread_calls {i : Iface} {trans : Int} {xs : List Txo} {s s' : St} (h : txoThread i trans xs s = .ok s') :
    Eff s (txoThreadEvs i trans xs s) s' := by
  unfold txoThread at h
  dsimp only at h
  split at h
  · simp at h
  · obtain ⟨first, h1, h⟩ := bindE h
    unfold txoThreadEvs
    dsimp only
    rw [h1]
    have e1 : Eff s [.write .trnFirstTxo trans (count s.txoSats)]
        { s with trnFirstTxo := first, prevFirstTxo := count s.txoSats, prevTrans := trans } :=
      Eff.write h1 rfl rfl (by intro f hf; cases f <;> first | rfl | exact absurd rfl hf)
    exact e1.trans (txos_calls h)

theorem contents_calls {i : Iface} {s s' : St} {t : Nat} {tx : Tx} {trans : Int}
    (h : appendContents i s t tx trans = .ok s') : Eff s (contentsEvs i s t tx trans) s' := by
  unfold appendContents at h
  obtain ⟨neis, h1, h⟩ := bindE h
  obtain ⟨s1, h2, h⟩ := bindE h
  unfold contentsEvs
  rw [h1]
  dsimp only
  rw [h2]
  exact (Eff.trnNeis h1).trans ((txoThread_calls h2).trans (txiThread_calls h))

theorem frame_calls {i : Iface} {s : St} {blkNum : Int} {t : Nat} {tx : Tx} {r : St × Int}
    (h : appendFrame i s blkNum t tx = .ok r) : Eff s (frameEvs i s blkNum tx) r.1 := by
  unfold appendFrame at h
  unfold frameEvs
  by_cases hd : s.delegated = false
  · rw [if_pos hd] at h ⊢
    dsimp only at h
    split at h
    · simp at h
    · obtain ⟨p, h1, h⟩ := bindE h
      cases h
      exact Eff.write h1 rfl rfl (by intro f hf; cases f <;> first | rfl | exact absurd rfl hf)
  · rw [if_neg hd] at h ⊢
    cases i with
    | cri =>
      cases hh : tx.height with
      | some x =>
        simp only [hh] at h ⊢
        cases h
        exact Eff.refl _
      | none =>
        simp only [hh] at h ⊢
        cases hn : tx.nth with
        | none => simp [hn] at h
        | some n =>
          simp only [hn] at h
          obtain ⟨f, _, h⟩ := bindE h
          cases h
          exact Eff.read _ _ _
    | chi =>
      dsimp only at h ⊢
      obtain ⟨f, _, h⟩ := bindE h
      cases h
      exact Eff.read _ _ _

theorem frames_calls {i : Iface} {blkNum : Int} {txs : List Tx} {t : Nat} {first : Int} {s : St} {r : St × Int}
    (h : frameLoop i blkNum txs t first s = .ok r) : Eff s (framesEvs i blkNum txs t s) r.1 := by
  induction txs generalizing t first s with
  | nil =>
    cases h
    exact Eff.refl _
  | cons tx txs ih =>
    unfold frameLoop at h
    obtain ⟨q, h1, h⟩ := bindE h
    unfold framesEvs
    rw [h1]
    dsimp only at h ⊢
    refine (frame_calls h1).trans ?_
    split at h
    · simp at h
    · split at h
      · simp at h
      · split at h
        · rename_i hc
          obtain ⟨f, h2, h⟩ := bindE h
          rw [if_pos hc, h2]
          have e : Eff q.1 [.write .blkFirstTrans blkNum q.2] { q.1 with blkFirstTrans := f } :=
            Eff.write h2 rfl rfl (by intro f hf; cases f <;> first | rfl | exact absurd rfl hf)
          exact e.trans (ih h)
        · rename_i hc
          rw [if_neg hc]
          exact ih h

theorem contentsLoop_calls {i : Iface} {first : Int} {txs : List Tx} {t : Nat} {s s' : St}
    (h : contentsLoop i first txs t s = .ok s') : Eff s (contentsLoopEvs i first txs t s) s' := by
  induction txs generalizing t s with
  | nil =>
    cases h
    exact Eff.refl _
  | cons tx txs ih =>
    unfold contentsLoop at h
    obtain ⟨s1, h1, h⟩ := bindE h
    unfold contentsLoopEvs
    rw [h1]
    exact (contents_calls h1).trans (ih h)

theorem block_calls {i : Iface} {s s' : St} {b : Blk} (h : appendBlock i s b = .ok s') : Eff s (blockEvs i s b) s' := by
  unfold appendBlock at h
  dsimp only at h
  split at h
  · simp at h
  · obtain ⟨_, _, h⟩ := bindE h
    obtain ⟨neis, h1, h⟩ := bindE h
    split at h
    · simp at h
    · obtain ⟨r, h2, h⟩ := bindE h
      unfold blockEvs
      dsimp only
      rw [h1]
      dsimp only
      rw [h2]
      exact (Eff.blkNeis h1).trans ((frames_calls h2).trans (contentsLoop_calls h))

theorem indexLoop_calls {block : Int} {txs : List Tx} {h : Int} {s s' : St} (hi : indexLoop block txs h s = .ok s') :
    Eff s (indexLoopEvs block txs h) s' := by
  induction txs generalizing h s with
  | nil =>
    cases hi
    exact Eff.refl _
  | cons tx txs ih =>
    unfold indexLoop at hi
    obtain ⟨p, h1, hi⟩ := bindE hi
    have e : Eff s [.write .parentBlockOfTrans (h + 1) block] { s with parentBlockOfTrans := p } :=
      Eff.write h1 rfl rfl (by intro f hf; cases f <;> first | rfl | exact absurd rfl hf)
    exact e.trans (ih hi)

theorem index_calls {s s' : St} {height latest : Int} {txs : List Tx} (h : indexBlock s height latest txs = .ok s') :
    Eff s (indexEvs height latest txs) s' := by
  unfold indexBlock at h
  obtain ⟨f, h1, h⟩ := bindE h
  have e : Eff s [.write .blkFirstTrans height (latest + 1)] { s with blkFirstTrans := f } :=
    Eff.write h1 rfl rfl (by intro f hf; cases f <;> first | rfl | exact absurd rfl hf)
  exact e.trans (indexLoop_calls h)

theorem ingest_step {i : Iface} {height latest : Int} {b : Blk} {bs : List Blk} {s s' : St}
    (h : ingest i height latest (b :: bs) s = .ok s') :
    ∃ s1, (if s.delegated = true then indexBlock s height latest b.txs else .ok s) = .ok s1 ∧
      (do let s2 ← appendBlock i s1 b; ingest i (height + 1) (latest + b.txs.length) bs s2) = .ok s' := by
  unfold ingest at h
  dsimp only at h
  split at h
  · rename_i hd
    obtain ⟨s1, h1, h⟩ := bindE h
    exact ⟨s1, by rw [if_pos hd]; exact h1, h⟩
  · rename_i hd
    obtain ⟨s1, h1, h⟩ := bindE h
    exact ⟨s1, by rw [if_neg hd]; exact h1, h⟩

/-- The calls listed make the files of the store: replaying those on one file, from the words it had, gives the words it
has after the run. -/
theorem ingest_calls {i : Iface} {height latest : Int} {bs : List Blk} {s s' : St}
    (h : ingest i height latest bs s = .ok s') (f : File) :
    fileOf s' f = ((fileOf s f).1, replay (fileOf s f).1 (fileOf s f).2 (opsOn f (ingestEvs i height latest bs s))) := by
  revert f
  change Eff s _ s'
  induction bs generalizing height latest s with
  | nil =>
    cases h
    exact Eff.refl _
  | cons b bs ih =>
    obtain ⟨s1, h1, h⟩ := ingest_step h
    obtain ⟨s2, h2, h⟩ := bindE h
    unfold ingestEvs
    rw [h1]
    dsimp only
    rw [h2]
    have e1 : Eff s (if s.delegated = true then indexEvs height latest b.txs else []) s1 := by
      split
      · rename_i hd
        rw [if_pos hd] at h1
        exact index_calls h1
      · rename_i hd
        rw [if_neg hd] at h1
        cases h1
        exact Eff.refl _
    have e2 : Eff s1 (if height % 10000 = 0 then [.sync] else []) s1 := by
      split
      · exact Eff.sync _
      · exact Eff.refl _
    exact (e1.trans e2).trans ((block_calls h2).trans (ih h))

/-! ## The file of values is only appended to -/

/-- From `n` words on, the calls write each word at the end; the number of words afterwards. -/
def appEnd : Nat → List WordFile.Op → Option Nat
  | n, [] => some n
  | n, .write _ off :: ops => if off = n then appEnd (n + 1) ops else none
  | n, .sync :: ops => appEnd n ops
  | _, _ :: _ => none

theorem appEnd_append {n m : Nat} {a b : List WordFile.Op} (h : appEnd n a = some m) : appEnd n (a ++ b) = appEnd m b := by
  induction a generalizing n with
  | nil =>
    cases h
    rfl
  | cons op a ih =>
    cases op with
    | write v off =>
      simp only [List.cons_append, appEnd] at h ⊢
      split at h
      · rename_i ho
        rw [if_pos ho, ih h]
      · simp at h
    | sync => exact ih h
    | read _ => simp [appEnd] at h
    | count => simp [appEnd] at h

theorem appEnd_prefix {n m : Nat} {a b : List WordFile.Op} (h : appEnd n b = some m) (hp : a <+: b) :
    ∃ k, appEnd n a = some k := by
  induction a generalizing n b with
  | nil => exact ⟨n, rfl⟩
  | cons op a ih =>
    obtain ⟨c, rfl⟩ := hp
    cases op with
    | write v off =>
      simp only [List.cons_append, appEnd] at h ⊢
      split at h
      · rename_i ho
        rw [if_pos ho]
        exact ih h ⟨c, rfl⟩
      · simp at h
    | sync => exact ih (b := a ++ c) h ⟨c, rfl⟩
    | read _ => simp [appEnd] at h
    | count => simp [appEnd] at h

/-- The values file is appended to by `es`. -/
def App (s : St) (es : List Ev) (s' : St) : Prop :=
  appEnd s.txoSats.length (opsOn .txoSats es) = some s'.txoSats.length

theorem App.trans {s s1 s2 : St} {a b : List Ev} (h1 : App s a s1) (h2 : App s1 b s2) : App s (a ++ b) s2 := by
  unfold App
  rw [opsOn_append, appEnd_append h1, h2]

theorem App.none {s s' : St} {es : List Ev} (h : Eff s es s') (h0 : opsOn .txoSats es = []) : App s es s' := by
  have := h .txoSats
  rw [h0] at this
  simp only [fileOf, replay, Prod.mk.injEq, true_and] at this
  unfold App
  rw [h0, this]
  rfl

theorem neiEvs_txo (mk : Nat → File) (hmk : ∀ k, mk k ≠ .txoSats) (fields : List (String × Int)) (at_ : Int) (l : List Nei)
    (k : Nat) : opsOn .txoSats (neiEvs mk fields at_ l k) = [] := by
  induction l generalizing k with
  | nil => rfl
  | cons x xs ih =>
    unfold neiEvs
    split
    · rfl
    · simp only [opsOn]
      rw [if_neg (hmk k)]
      exact ih _

theorem txiEvs_txo (i : Iface) (trans : Int) (s : St) (x : Txi) : opsOn .txoSats (txiEvs i trans s x) = [] := by
  unfold txiEvs
  rw [opsOn_append]
  rw [List.append_eq_nil_iff]
  constructor <;> split <;> simp [opsOn]

theorem txisEvs_txo (i : Iface) (trans : Int) (xs : List Txi) (s : St) : opsOn .txoSats (txisEvs i trans xs s) = [] := by
  induction xs generalizing s with
  | nil => rfl
  | cons x xs ih =>
    unfold txisEvs
    rw [opsOn_append, txiEvs_txo]
    split
    · rfl
    · exact ih _

theorem txiThreadEvs_txo (i : Iface) (trans : Int) (xs : List Txi) (s : St) :
    opsOn .txoSats (txiThreadEvs i trans xs s) = [] := by
  unfold txiThreadEvs
  simp only [opsOn]
  rw [if_neg (by simp)]
  split
  · rfl
  · exact txisEvs_txo _ _ _ _

theorem addressEvs_txo (s : St) (addr : Bytes) (h : Int) : opsOn .txoSats (addressEvs s addr h) = [] := by
  unfold addressEvs
  dsimp only
  split
  · rfl
  · split
    · split <;> simp [opsOn]
    · rfl

theorem framesEvs_txo (i : Iface) (blkNum : Int) (txs : List Tx) (t : Nat) (s : St) :
    opsOn .txoSats (framesEvs i blkNum txs t s) = [] := by
  induction txs generalizing t s with
  | nil => rfl
  | cons tx txs ih =>
    unfold framesEvs
    have h1 : opsOn .txoSats (frameEvs i s blkNum tx) = [] := by
      unfold frameEvs
      split
      · simp [opsOn]
      · split <;> simp [opsOn]
    rw [opsOn_append, h1]
    split
    · rfl
    · split
      · simp only [opsOn]
        rw [if_neg (by simp)]
        split
        · rfl
        · exact ih _ _
      · exact ih _ _

theorem indexEvs_txo (height latest : Int) (txs : List Tx) : opsOn .txoSats (indexEvs height latest txs) = [] := by
  have : ∀ txs latest, opsOn .txoSats (indexLoopEvs height txs latest) = [] := by
    intro txs
    induction txs with
    | nil => intro _; rfl
    | cons tx txs ih =>
      intro latest
      simp only [indexLoopEvs, opsOn]
      rw [if_neg (by simp)]
      exact ih _
  simp only [indexEvs, opsOn]
  rw [if_neg (by simp)]
  exact this _ _

theorem txos_app {i : Iface} {trans : Int} {xs : List Txo} {s s' : St} (h : appendTxos i trans xs s = .ok s') :
    App s (txosEvs i trans xs s) s' := by
  induction xs generalizing s with
  | nil =>
    cases h
    exact App.none (Eff.refl _) rfl
  | cons x xs ih =>
    unfold appendTxos at h
    obtain ⟨s1, h1, h⟩ := bindE h
    unfold txosEvs
    rw [h1]
    refine App.trans (s1 := s1) ?_ (ih h)
    have he := txo_calls h1 .txoSats
    have hops : opsOn .txoSats (txoEvs trans s x) = [.write x.sats s.txoSats.length] := by
      unfold txoEvs
      dsimp only
      rw [opsOn_append, opsOn_append, addressEvs_txo]
      simp [opsOn, count]
    unfold App
    rw [hops] at he ⊢
    simp only [fileOf, replay, Prod.mk.injEq, true_and] at he
    rw [he, setExt_length]
    simp [appEnd]

theorem contentsLoop_app {i : Iface} {first : Int} {txs : List Tx} {t : Nat} {s s' : St}
    (h : contentsLoop i first txs t s = .ok s') : App s (contentsLoopEvs i first txs t s) s' := by
  induction txs generalizing t s with
  | nil =>
    cases h
    exact App.none (Eff.refl _) rfl
  | cons tx txs ih =>
    unfold contentsLoop at h
    obtain ⟨s1, h1, h⟩ := bindE h
    unfold contentsLoopEvs
    rw [h1]
    refine App.trans (s1 := s1) ?_ (ih h)
    unfold appendContents at h1
    obtain ⟨neis, g1, h1⟩ := bindE h1
    obtain ⟨s2, g2, h1⟩ := bindE h1
    unfold contentsEvs
    rw [g1]
    dsimp only
    rw [g2]
    refine App.trans (App.none (Eff.trnNeis g1) (neiEvs_txo _ (by simp) _ _ _ _)) (App.trans (s1 := s2) ?_
      (App.none (txiThread_calls h1) (txiThreadEvs_txo _ _ _ _)))
    unfold txoThread at g2
    dsimp only at g2
    split at g2
    · simp at g2
    · obtain ⟨first, g3, g2⟩ := bindE g2
      unfold txoThreadEvs
      dsimp only at g3 ⊢
      rw [g3]
      have := txos_app g2
      unfold App at this ⊢
      simp only [opsOn]
      rw [if_neg (by simp)]
      exact this

theorem ingest_app {i : Iface} {height latest : Int} {bs : List Blk} {s s' : St}
    (h : ingest i height latest bs s = .ok s') : App s (ingestEvs i height latest bs s) s' := by
  induction bs generalizing height latest s with
  | nil =>
    cases h
    exact App.none (Eff.refl _) rfl
  | cons b bs ih =>
    obtain ⟨s1, h1, h⟩ := ingest_step h
    obtain ⟨s2, h2, h⟩ := bindE h
    unfold ingestEvs
    rw [h1]
    dsimp only
    rw [h2]
    have e1 : App s (if s.delegated = true then indexEvs height latest b.txs else []) s1 := by
      split
      · rename_i hd
        rw [if_pos hd] at h1
        exact App.none (index_calls h1) (indexEvs_txo _ _ _)
      · rename_i hd
        rw [if_neg hd] at h1
        cases h1
        exact App.none (Eff.refl _) rfl
    have e2 : App s1 (if height % 10000 = 0 then [.sync] else []) s1 := by
      split <;> rfl
    refine (e1.trans e2).trans (App.trans (s1 := s2) ?_ (ih h))
    unfold appendBlock at h2
    dsimp only at h2
    split at h2
    · simp at h2
    · obtain ⟨_, _, h2⟩ := bindE h2
      obtain ⟨neis, g1, h2⟩ := bindE h2
      split at h2
      · simp at h2
      · obtain ⟨r, g2, h2⟩ := bindE h2
        unfold blockEvs
        dsimp only
        rw [g1]
        dsimp only
        rw [g2]
        exact App.trans (App.none (Eff.blkNeis g1) (neiEvs_txo _ (by simp) _ _ _ _))
          (App.trans (App.none (frames_calls g2) (framesEvs_txo _ _ _ _ _)) (contentsLoop_app h2))

/-! ## What is on disk -/

/-- A word file on which the words `l` have been written. -/
structure Holds (wf : WF) (w : Nat) (l : Words) : Prop where
  size : wf.wordSize = w
  bound : ∀ v ∈ l, v < 256 ^ w
  file : ∃ plain, AppendOpt.Inv wf.file plain ∧ plain.length % w = 0 ∧ recs w plain = l.map (leEnc w)

theorem holds_fresh (w : Nat) : Holds (fresh w) w [] := by
  refine ⟨rfl, by simp, [], AppendOpt.inv_open [], by simp, ?_⟩
  simp [recs]

theorem setExt_mem {α : Type} {l : List α} {i : Nat} {a pad v : α} (h : v ∈ setExt l i a pad) : v ∈ l ∨ v = a ∨ v = pad := by
  unfold setExt at h
  rcases List.mem_append.mp h with h | h
  · have := List.mem_of_mem_take h
    rcases List.mem_append.mp this with h | h
    · exact Or.inl h
    · exact Or.inr (Or.inr (List.eq_of_mem_replicate h))
  · rcases List.mem_cons.mp h with h | h
    · exact Or.inr (Or.inl h)
    · exact Or.inl (List.mem_of_mem_drop h)

theorem leEnc_mod (w n : Nat) : leEnc w (n % 256 ^ w) = leEnc w n := by
  apply leDec_injective (by simp)
  rw [leDec_leEnc, leDec_leEnc, Nat.mod_mod]

theorem step_read (wf : WF) (off : Nat) : (WordFile.step wf (.read off)).1.file = AppendOpt.flush wf.file ∧
    (WordFile.step wf (.read off)).1.wordSize = wf.wordSize := by
  simp only [WordFile.step]
  unfold WordFile.readWordAt
  dsimp only [AppendOpt.readAt]
  by_cases h : (List.take wf.wordSize (List.drop (off * wf.wordSize) (AppendOpt.flush wf.file).file.data)).length <
      wf.wordSize
  · rw [if_pos h]; exact ⟨rfl, rfl⟩
  · rw [if_neg h]; exact ⟨rfl, rfl⟩

theorem Holds.step {wf : WF} {w : Nat} (hw : 0 < w ∧ w ≤ 8) {l : Words} (h : Holds wf w l) (op : WordFile.Op) :
    Holds (WordFile.step wf op).1 w (replay w l [op]) := by
  obtain ⟨hs, hb, plain, h1, h2, h3⟩ := h
  cases op with
  | write v off =>
    have htake : (leEnc 8 (toU64 v)).take w = leEnc w (toU64 v) := leEnc_take hw.2
    have hne : leEnc w (toU64 v) ≠ [] := by
      intro hh
      have := leEnc_length w (toU64 v)
      rw [hh] at this; simp at this; omega
    refine ⟨hs, ?_, writeAt plain (off * w) (leEnc w (toU64 v)), ?_, ?_, ?_⟩
    · intro x hx
      rcases setExt_mem hx with hx | hx | hx
      · exact hb x hx
      · subst hx; exact Nat.mod_lt _ (Nat.pow_pos (by decide))
      · subst hx; exact Nat.pow_pos (by decide)
    · simp only [WordFile.step, WordFile.writeWordAt, hs, htake]
      exact AppendOpt.inv_writeAt h1 (Or.inl hne)
    · exact writeAt_rec_mod hw.1 h2 (leEnc_length _ _) off
    · rw [recs_writeAt hw.1 h2 (leEnc_length _ _) off, h3]
      simp only [replay]
      rw [setExt_map, leEnc_mod, leEnc_zero]
  | read off =>
    have hr := step_read wf off
    exact ⟨hr.2.trans hs, hb, plain, by rw [hr.1]; exact (AppendOpt.inv_flush h1).1, h2, h3⟩
  | count => exact ⟨hs, hb, plain, h1, h2, h3⟩
  | sync => exact ⟨hs, hb, plain, (AppendOpt.inv_flush h1).1, h2, h3⟩

theorem run_cons (wf : WF) (op : WordFile.Op) (ops : List WordFile.Op) :
    (WordFile.run wf (op :: ops)).1 = (WordFile.run (WordFile.step wf op).1 ops).1 := rfl

theorem run_append (wf : WF) (a b : List WordFile.Op) :
    (WordFile.run wf (a ++ b)).1 = (WordFile.run (WordFile.run wf a).1 b).1 := by
  induction a generalizing wf with
  | nil => rfl
  | cons op a ih => rw [List.cons_append, run_cons, run_cons, ih]

theorem replay_cons (w : Nat) (l : Words) (op : WordFile.Op) (ops : List WordFile.Op) :
    replay w l (op :: ops) = replay w (replay w l [op]) ops := replay_append w l [op] ops

theorem Holds.run {w : Nat} (hw : 0 < w ∧ w ≤ 8) (ops : List WordFile.Op) {wf : WF} {l : Words} (h : Holds wf w l) :
    Holds (WordFile.run wf ops).1 w (replay w l ops) := by
  induction ops generalizing wf l with
  | nil => exact h
  | cons op ops ih =>
    rw [replay_cons, run_cons]
    exact ih (h.step hw op)

theorem writeAt_length_ge (f : Bytes) (off : Nat) (d : Bytes) : f.length ≤ (Verif.writeAt f off d).length := by
  by_cases hd : d = []
  · subst hd; simp [Verif.writeAt]
  · rw [writeAt_length hd]; omega

theorem bufWrite_grows (f : AppendOpt.OsFile) (pend p : Bytes) : f.data.length ≤ (AppendOpt.bufWrite f pend p).1.data.length := by
  have hw : ∀ (g : AppendOpt.OsFile) (d : Bytes), g.data.length ≤ (g.write d).data.length := fun g d =>
    writeAt_length_ge _ _ _
  unfold AppendOpt.bufWrite
  split
  · exact Nat.le_refl _
  · split
    · exact hw _ _
    · dsimp only
      split
      · exact hw _ _
      · exact Nat.le_trans (hw _ _) (hw _ _)

theorem flush_grows (a : AppendOpt.AOF) : a.file.data.length ≤ (AppendOpt.flush a).file.data.length := by
  unfold AppendOpt.flush
  split
  · exact Nat.le_refl _
  · dsimp only
    split
    · exact Nat.le_refl _
    · exact writeAt_length_ge _ _ _

theorem step_grows (wf : WF) (op : WordFile.Op) :
    wf.file.file.data.length ≤ (WordFile.step wf op).1.file.file.data.length := by
  cases op with
  | write v off =>
    simp only [WordFile.step, WordFile.writeWordAt]
    unfold AppendOpt.writeAt
    cases wf.file.buf with
    | none =>
      dsimp only
      split
      · exact bufWrite_grows { wf.file.file with pos := wf.file.file.data.length } _ _
      · exact writeAt_length_ge _ _ _
    | some pend =>
      dsimp only
      split
      · exact bufWrite_grows _ _ _
      · exact Nat.le_trans (flush_grows _) (writeAt_length_ge _ _ _)
  | read off =>
    rw [(step_read wf off).1]
    exact flush_grows _
  | count => exact Nat.le_refl _
  | sync => exact flush_grows _

theorem run_grows (ops : List WordFile.Op) (wf : WF) :
    wf.file.file.data.length ≤ (WordFile.run wf ops).1.file.file.data.length := by
  induction ops generalizing wf with
  | nil => exact Nat.le_refl _
  | cons op ops ih => exact Nat.le_trans (step_grows wf op) (ih _)

/-- A whole word on disk is the word last written there. -/
theorem Holds.word {wf : WF} {w : Nat} (hw : 0 < w ∧ w ≤ 8) {l : Words} (h : Holds wf w l) {j v : Nat} (hv : l[j]? = some v)
    (hj : (j + 1) * w ≤ wf.file.file.data.length) : (wordsOf w wf.file.file.data)[j]? = some (ofU64 v) := by
  obtain ⟨_, hb, plain, h1, h2, h3⟩ := h
  have hd := h1.data
  have hlt : j < wf.file.file.data.length / w := (Nat.le_div_iff_mul_le hw.1).mpr hj
  have h4 : (recs w plain)[j]? = some (leEnc w v) := by rw [h3, List.getElem?_map, hv]; rfl
  have hjp : j < plain.length / w := by
    have := (List.getElem?_eq_some_iff.mp h4).1
    rwa [recs_length] at this
  rw [recs_getElem?, if_pos hjp, Option.some.injEq] at h4
  unfold wordsOf
  rw [List.getElem?_map, recs_getElem?, if_pos hlt]
  have : slice wf.file.file.data (j * w) w = slice plain (j * w) w := by
    rw [← hd]
    unfold slice
    rw [Nat.add_mul, Nat.one_mul] at hj
    rw [List.drop_append_of_le_length (by omega), List.take_append_of_le_length (by rw [List.length_drop]; omega)]
  rw [this, h4]
  simp only [Option.map_some]
  rw [leDec_leEnc_of_lt (hb v (List.mem_of_getElem? hv))]

/-- After a sync all words are on disk. -/
theorem Holds.synced {wf : WF} {w : Nat} {l : Words} (h : Holds wf w l) :
    (WordFile.step wf .sync).1.file.file.data.length = l.length * w := by
  obtain ⟨_, _, plain, h1, h2, h3⟩ := h
  have : (WordFile.step wf .sync).1.file.file.data = plain := (AppendOpt.inv_flush h1).2.1
  rw [this]
  have hl := congrArg List.length h3
  rw [recs_length, List.length_map] at hl
  rw [← hl, Nat.div_mul_cancel (Nat.dvd_of_mod_eq_zero h2)]

/-! ## How long a file that is only appended to is on disk -/

/-- `N` words have been appended, `m` of them since the last sync. -/
structure Buf (wf : WF) (w N m : Nat) : Prop where
  size : wf.wordSize = w
  total : wf.file.totalSize = N * w
  le : m ≤ N
  clean : m = 0 → wf.file.buf = .none ∧ wf.file.file.data.length = N * w
  dirty : 0 < m → ∃ pend k, wf.file.buf = .some pend ∧ wf.file.nextAppend = N * w ∧
    wf.file.file.pos = wf.file.file.data.length ∧ wf.file.file.data.length = (N - m) * w + 4096 * k ∧
    4096 * k + pend.length = m * w ∧ 1 ≤ pend.length ∧ pend.length ≤ 4096

theorem Buf.write {wf : WF} {w N m : Nat} (hw : 0 < w ∧ w ≤ 8) (h : Buf wf w N m) (v : Int) :
    Buf (WordFile.step wf (.write v N)).1 w (N + 1) (m + 1) := by
  obtain ⟨h1, h2, h3, h4, h5⟩ := h
  have hp : ((leEnc 8 (toU64 v)).take w).length = w := by rw [List.length_take, leEnc_length]; omega
  have hN : (N + 1) * w = N * w + w := by rw [Nat.add_mul, Nat.one_mul]
  have hM : (m + 1) * w = m * w + w := by rw [Nat.add_mul, Nat.one_mul]
  have hs : N + 1 - (m + 1) = N - m := by omega
  generalize hq : (leEnc 8 (toU64 v)).take w = q at hp
  simp only [WordFile.step, WordFile.writeWordAt, h1, hq]
  by_cases hm : m = 0
  · obtain ⟨hb, hd⟩ := h4 hm
    have e : AppendOpt.writeAt wf.file (N * w) q =
        ⟨⟨wf.file.file.data, wf.file.file.data.length⟩, .some q, N * w + w, N * w + w⟩ := by
      unfold AppendOpt.writeAt
      rw [hb, if_pos h2.symm, AppendOpt.bufWrite, if_pos (show q.length ≤ AppendOpt.bufCap - ([] : Bytes).length by
        simp [AppendOpt.bufCap]; omega)]
      simp [h2, hp]
    rw [e]
    refine ⟨rfl, hN.symm, by omega, by omega, fun _ => ⟨q, 0, rfl, hN.symm, rfl, ?_, ?_, by omega, by omega⟩⟩
    · dsimp only; rw [hd, hs, hm]; simp
    · rw [hM, hm, hp]; simp
  · obtain ⟨pend, k, b1, b2, b3, b4, b5, b6, b7⟩ := h5 (by omega)
    unfold AppendOpt.writeAt
    rw [b1]
    dsimp only
    rw [if_pos b2.symm, AppendOpt.bufWrite]
    by_cases hc : q.length ≤ AppendOpt.bufCap - pend.length
    · rw [if_pos hc]
      unfold AppendOpt.bufCap at hc
      refine ⟨rfl, ?_, by omega, by omega, fun _ => ⟨pend ++ q, k, rfl, ?_, b3, ?_, ?_, ?_, ?_⟩⟩
      · dsimp only; rw [h2, hN, hp]
      · dsimp only; rw [b2, hN, hp]
      · dsimp only; rw [b4, hs]
      · rw [List.length_append, hp, hM]; omega
      · rw [List.length_append]; omega
      · rw [List.length_append]; omega
    · have hne : pend ≠ [] := by
        intro e
        rw [e] at b6
        simp at b6
      have hw1 := AppendOpt.write_end wf.file.file (pend ++ q.take (AppendOpt.bufCap - pend.length)) b3
      rw [if_neg hc, if_neg hne]
      dsimp only
      rw [if_pos (show (q.drop (AppendOpt.bufCap - pend.length)).length ≤ AppendOpt.bufCap by
        rw [List.length_drop]; unfold AppendOpt.bufCap; omega)]
      unfold AppendOpt.bufCap at hc hw1 ⊢
      refine ⟨rfl, ?_, by omega, by omega, fun _ => ⟨q.drop (4096 - pend.length), k + 1, rfl, ?_, ?_, ?_, ?_, ?_, ?_⟩⟩
      · dsimp only; rw [h2, hN, hp]
      · dsimp only; rw [b2, hN, hp]
      · dsimp only; rw [hw1.2, hw1.1]
      · dsimp only
        rw [hw1.1, hs]
        simp only [List.length_append, List.length_take]
        omega
      · rw [List.length_drop, hM]; omega
      · rw [List.length_drop]; omega
      · rw [List.length_drop]; omega

theorem Buf.sync {wf : WF} {w N m : Nat} (h : Buf wf w N m) : Buf (WordFile.step wf .sync).1 w N 0 := by
  obtain ⟨h1, h2, h3, h4, h5⟩ := h
  simp only [WordFile.step, AppendOpt.sync]
  by_cases hm : m = 0
  · obtain ⟨hb, hd⟩ := h4 hm
    have : AppendOpt.flush wf.file = wf.file := by unfold AppendOpt.flush; rw [hb]
    rw [this]
    exact ⟨h1, h2, by omega, fun _ => ⟨hb, hd⟩, by omega⟩
  · obtain ⟨pend, k, b1, b2, b3, b4, b5, b6, b7⟩ := h5 (by omega)
    have hne : pend ≠ [] := by
      intro e
      rw [e] at b6
      simp at b6
    have e : AppendOpt.flush wf.file = { wf.file with file := wf.file.file.write pend, buf := .none } := by
      unfold AppendOpt.flush
      rw [b1]
      dsimp only
      rw [if_neg hne]
    rw [e]
    refine ⟨h1, h2, by omega, fun _ => ⟨rfl, ?_⟩, by omega⟩
    dsimp only
    rw [(AppendOpt.write_end _ _ b3).1, List.length_append, b4]
    have : N * w = (N - m) * w + m * w := by rw [← Nat.add_mul]; congr 1; omega
    omega

theorem Buf.run {w : Nat} (hw : 0 < w ∧ w ≤ 8) (ops : List WordFile.Op) {wf : WF} {N m N' : Nat} (h : Buf wf w N m)
    (ha : appEnd N ops = some N') : Buf (WordFile.run wf ops).1 w N' (unsynced m ops) := by
  induction ops generalizing wf N m with
  | nil =>
    cases ha
    exact h
  | cons op ops ih =>
    rw [run_cons]
    cases op with
    | write v off =>
      simp only [appEnd] at ha
      split at ha
      · rename_i ho
        subst ho
        exact ih (h.write hw v) ha
      · simp at ha
    | sync => exact ih h.sync ha
    | read _ => simp [appEnd] at ha
    | count => simp [appEnd] at ha

/-- A file appended to from new on: `N` words, `m` of them since the last sync; on disk are the first `N - m` and as many
whole buffers as come before the last byte. -/
theorem disk_length {w : Nat} (hw : 0 < w ∧ w ≤ 8) {ops : List WordFile.Op} {N : Nat} (ha : appEnd 0 ops = some N) :
    unsynced 0 ops ≤ N ∧
    (diskAfter w ops).length = (N - unsynced 0 ops) * w + 4096 * ((unsynced 0 ops * w - 1) / 4096) := by
  have h0 : Buf (fresh w) w 0 0 := ⟨rfl, by simp [fresh, WordFile.new, AppendOpt.openFile], by omega,
    fun _ => ⟨rfl, by simp [fresh, WordFile.new, AppendOpt.openFile]⟩, by omega⟩
  obtain ⟨_, _, h3, h4, h5⟩ := h0.run hw ops ha
  refine ⟨h3, ?_⟩
  unfold diskAfter
  by_cases hm : unsynced 0 ops = 0
  · rw [(h4 hm).2, hm]; simp
  · obtain ⟨pend, k, _, _, _, b4, b5, b6, b7⟩ := h5 (by omega)
    rw [b4]
    have : k = (unsynced 0 ops * w - 1) / 4096 := by omega
    rw [this]

/-! ## The theorems -/

/-- The calls up to the sync before block `b`, the first blocks `bs` having led to `s1`. -/
def syncPoint (i : Iface) (s0 : St) (bs : List Blk) (b : Blk) (s1 : St) : List Ev :=
  ingestEvs i 0 (-1) bs s0 ++
    ((if s1.delegated then indexEvs bs.length (-1 + ((bs.map fun b => b.txs.length).sum : Nat)) b.txs else []) ++ [.sync])

theorem ingestEvs_append {i : Iface} {height latest : Int} {bs : List Blk} {s s1 : St} (cs : List Blk)
    (h : ingest i height latest bs s = .ok s1) :
    ingestEvs i height latest (bs ++ cs) s = ingestEvs i height latest bs s ++
      ingestEvs i (height + bs.length) (latest + ((bs.map fun b => b.txs.length).sum : Nat)) cs s1 := by
  induction bs generalizing height latest s with
  | nil =>
    cases h
    simp [ingestEvs]
  | cons b bs ih =>
    obtain ⟨s2, h1, h⟩ := ingest_step h
    obtain ⟨s3, h2, h⟩ := bindE h
    have e1 : height + ((b :: bs).length : Nat) = height + 1 + (bs.length : Nat) := by
      rw [List.length_cons]; push_cast; omega
    have e2 : latest + ((((b :: bs).map fun b => b.txs.length).sum : Nat) : Int) =
        latest + (b.txs.length : Nat) + (((bs.map fun b => b.txs.length).sum : Nat) : Int) := by
      rw [List.map_cons, List.sum_cons]; push_cast; omega
    rw [e1, e2]
    rw [List.cons_append]
    conv_lhs => unfold ingestEvs
    conv_rhs => lhs; unfold ingestEvs
    rw [h1]
    dsimp only
    rw [h2]
    dsimp only
    rw [ih h, List.append_assoc, List.append_assoc, List.append_assoc, List.append_assoc]

/-- Before every ten thousandth block there is a sync point. -/
theorem syncPoint_prefix {i : Iface} {s0 s1 : St} {bs : List Blk} (b : Blk) (cs : List Blk)
    (h : ingest i 0 (-1) bs s0 = .ok s1) (hl : bs.length % 10000 = 0) :
    syncPoint i s0 bs b s1 <+: ingestEvs i 0 (-1) (bs ++ b :: cs) s0 := by
  rw [ingestEvs_append (b :: cs) h]
  unfold syncPoint
  refine List.prefix_append_right_inj _ |>.mpr ?_
  conv_rhs => unfold ingestEvs
  have : (0 + (bs.length : Int)) % 10000 = 0 := by omega
  rw [if_pos this, Int.zero_add]
  exact List.prefix_append _ _

theorem replay_length_le (w : Nat) (ops : List WordFile.Op) (l : Words) : l.length ≤ (replay w l ops).length := by
  induction ops generalizing l with
  | nil => exact Nat.le_refl _
  | cons op ops ih =>
    cases op with
    | write v off =>
      refine Nat.le_trans ?_ (ih _)
      rw [setExt_length]
      omega
    | read _ => exact ih _
    | count => exact ih _
    | sync => exact ih _

/-- The widths of the non-essential ints. -/
def Widths (bn tn : List (String × Nat)) : Prop := ∀ x ∈ bn ++ tn, 0 < x.2 ∧ x.2 ≤ 8

theorem place_new {bn tn : List (String × Nat)} (hw : Widths bn tn) (p q : Int) (dl : Bool) (h : Hashes) {f : File}
    {d n : String} {w : Nat} (hf : File.place bn tn f = some (d, n, w)) :
    fileOf (create p q dl h bn tn) f = (w, []) ∧ 0 < w ∧ w ≤ 8 := by
  cases f with
  | blkNei k =>
    simp only [File.place, Option.map_eq_some_iff, Prod.mk.injEq] at hf
    obtain ⟨x, hx, _, _, rfl⟩ := hf
    exact ⟨by simp [fileOf, create, hx], hw x (List.mem_append_left _ (List.mem_of_getElem? hx))⟩
  | trnNei k =>
    simp only [File.place, Option.map_eq_some_iff, Prod.mk.injEq] at hf
    obtain ⟨x, hx, _, _, rfl⟩ := hf
    exact ⟨by simp [fileOf, create, hx], hw x (List.mem_append_right _ (List.mem_of_getElem? hx))⟩
  | _ =>
    cases hf
    exact ⟨rfl, by omega, by omega⟩

theorem index_effect {height latest : Int} {b : Blk} {s s1 : St}
    (h : (if s.delegated = true then indexBlock s height latest b.txs else .ok s) = .ok s1) :
    Eff s (if s.delegated = true then indexEvs height latest b.txs else []) s1 := by
  split
  · rename_i hd
    rw [if_pos hd] at h
    exact index_calls h
  · rename_i hd
    rw [if_neg hd] at h
    cases h
    exact Eff.refl _

/-- What is left of a file whose last call was a sync, when the calls before it lead to the words `l`. -/
theorem disk_synced {w : Nat} (hw : 0 < w ∧ w ≤ 8) {ops : List WordFile.Op} :
    (diskAfter w (ops ++ [.sync])).length = (replay w [] ops).length * w ∧
    wordsOf w (diskAfter w (ops ++ [.sync])) = (replay w [] ops).map ofU64 := by
  have h := (holds_fresh w).run hw ops
  have h2 := (holds_fresh w).run hw (ops ++ [.sync])
  have hl : (diskAfter w (ops ++ [.sync])).length = (replay w [] ops).length * w := by
    unfold diskAfter
    rw [run_append]
    exact h.synced
  refine ⟨hl, List.ext_getElem? fun j => ?_⟩
  have hr : replay w [] (ops ++ [.sync]) = replay w [] ops := by rw [replay_append]; rfl
  rw [hr] at h2
  by_cases hj : j < (replay w [] ops).length
  · have hv : (replay w [] ops)[j]? = some (replay w [] ops)[j] := List.getElem?_eq_getElem hj
    have hle : (j + 1) * w ≤ (diskAfter w (ops ++ [.sync])).length := by
      rw [hl]; exact Nat.mul_le_mul_right w hj
    rw [List.getElem?_map, hv]
    exact h2.word hw hv hle
  · have h3 : (wordsOf w (diskAfter w (ops ++ [.sync]))).length = (replay w [] ops).length := by
      rw [wordsOf, List.length_map, recs_length, hl, Nat.mul_div_cancel _ hw.1]
    rw [List.getElem?_eq_none (by omega), List.getElem?_eq_none (by rw [List.length_map]; omega)]

theorem place_folder {bn tn : List (String × Nat)} {f : File} {d n : String} {w : Nat}
    (hf : File.place bn tn f = some (d, n, w)) : d ∉ ChainFactory.hashFolders := by
  cases f with
  | blkNei k =>
    simp only [File.place, Option.map_eq_some_iff, Prod.mk.injEq] at hf
    obtain ⟨_, _, rfl, _⟩ := hf
    decide
  | trnNei k =>
    simp only [File.place, Option.map_eq_some_iff, Prod.mk.injEq] at hf
    obtain ⟨_, _, rfl, _⟩ := hf
    decide
  | _ =>
    cases hf
    decide

theorem essential_place (bn tn : List (String × Nat)) {e : String × String × Nat} (he : e ∈ ChainFactory.essential) :
    ∃ f, File.place bn tn f = some e := by
  simp only [ChainFactory.essential, List.mem_cons, List.not_mem_nil, or_false] at he
  rcases he with rfl | rfl | rfl | rfl | rfl | rfl | rfl | rfl | rfl | rfl | rfl | rfl
  · exact ⟨.blkFirstTrans, rfl⟩
  · exact ⟨.trnFirstTxi, rfl⟩
  · exact ⟨.trnFirstTxo, rfl⟩
  · exact ⟨.txiTx, rfl⟩
  · exact ⟨.txiVout, rfl⟩
  · exact ⟨.txoSats, rfl⟩
  · exact ⟨.txoAddress, rfl⟩
  · exact ⟨.txoSpentTxi, rfl⟩
  · exact ⟨.addrFirstTxo, rfl⟩
  · exact ⟨.parentBlockOfTrans, rfl⟩
  · exact ⟨.parentTransOfTxi, rfl⟩
  · exact ⟨.parentTransOfTxo, rfl⟩

theorem left_params {bn tn : List (String × Nat)} {fs fs' : ChainFactory.FS} {done : File → List WordFile.Op}
    (hl : Left bn tn fs done fs') (hp : ChainFactory.Params fs) : ChainFactory.Params fs' := by
  intro d hd
  rw [hl.params]
  exact hp d hd

/-- When every file's last call was a sync (or a close), the folder is a chain and every file holds the words of the
state reached. -/
theorem synced_folder {bn tn : List (String × Nat)} (hw : Widths bn tn) {p q : Int} {dl : Bool} {h : Hashes} {es : List Ev}
    {s : St} (he : Eff (create p q dl h bn tn) es s) {fs fs' : ChainFactory.FS} {done : File → List WordFile.Op}
    (hd : ∀ f, done f = opsOn f es ++ [.sync]) (hl : Left bn tn fs done fs')
    (hh : ∀ d ∈ ChainFactory.hashFolders, ChainFactory.HashReady fs d) :
    ChainFactory.Complete fs' ∧
    ∀ f d n w, File.place bn tn f = some (d, n, w) →
      ∃ data, fs'.file d n = some data ∧ wordsOf w data = (fileOf s f).2.map ofU64 := by
  refine ⟨⟨fun d hd' => ?_, fun e he' => ?_⟩, fun f d n w hf => ?_⟩
  · have hf : ∀ n, fs'.file d n = fs.file d n := fun n => hl.others d n fun f w hp => place_folder hp hd'
    have := hh d hd'
    unfold ChainFactory.HashReady ChainFactory.Whole at this ⊢
    rw [hl.params]
    simp only [hf]
    exact this
  · obtain ⟨f, hf⟩ := essential_place bn tn he'
    obtain ⟨_, h2⟩ := place_new hw p q dl h hf
    refine ⟨_, hl.words f _ _ _ hf, ?_⟩
    rw [hd f, (disk_synced h2).1]
    exact Nat.mul_mod_left _ _
  · obtain ⟨h1, h2⟩ := place_new hw p q dl h hf
    refine ⟨_, hl.words f _ _ _ hf, ?_⟩
    have := he f
    rw [h1] at this
    rw [hd f, (disk_synced h2).2, this]

/-- **C93.** A run that ends with the chain closed leaves a chain: it can be opened, and its files hold exactly the words of
the chain. -/
theorem a_finished_run_leaves_its_chain {bn tn : List (String × Nat)} (hw : Widths bn tn) {p q : Int} {dl : Bool}
    {h : Hashes} {i : Iface} {bs : List Blk} {s : St} (hrun : ingest i 0 (-1) bs (create p q dl h bn tn) = .ok s)
    {fs fs' : ChainFactory.FS} {done : File → List WordFile.Op}
    (hd : ∀ f, done f = opsOn f (ingestEvs i 0 (-1) bs (create p q dl h bn tn)) ++ [.sync]) (hl : Left bn tn fs done fs')
    (hp : ChainFactory.Params fs) (hh : ∀ d ∈ ChainFactory.hashFolders, ChainFactory.HashReady fs d)
    {bn' tn' : List String} {fac : ChainFactory.Factory} (hf : ChainFactory.newFactory fs' bn' tn' false = .ok fac) :
    (∃ c, fac.open_ fs' = .ok c) ∧
    ∀ f d n w, File.place bn tn f = some (d, n, w) →
      ∃ data, fs'.file d n = some data ∧ wordsOf w data = (fileOf s f).2.map ofU64 := by
  have hk := synced_folder hw (ingest_calls hrun) hd hl hh
  exact ⟨(ChainFactory.open_shows_the_files (left_params hl hp) hf).1.mpr hk.1, hk.2⟩

/-- **C93.** A run killed just after a sync leaves a chain: it can be opened, and its files hold exactly the words of the
chain of the blocks before (with the next block's transactions indexed already, if indexing is delegated). -/
theorem a_run_killed_at_a_sync_leaves_its_chain {bn tn : List (String × Nat)} (hw : Widths bn tn) {p q : Int} {dl : Bool}
    {h : Hashes} {i : Iface} {bs : List Blk} {s1 s2 : St} (hrun : ingest i 0 (-1) bs (create p q dl h bn tn) = .ok s1)
    {b : Blk} (hidx : (if s1.delegated = true then
      indexBlock s1 bs.length (-1 + ((bs.map fun b => b.txs.length).sum : Nat)) b.txs else .ok s1) = .ok s2)
    {fs fs' : ChainFactory.FS} {done : File → List WordFile.Op}
    (hd : ∀ f, done f = opsOn f (syncPoint i (create p q dl h bn tn) bs b s1)) (hl : Left bn tn fs done fs')
    (hp : ChainFactory.Params fs) (hh : ∀ d ∈ ChainFactory.hashFolders, ChainFactory.HashReady fs d)
    {bn' tn' : List String} {fac : ChainFactory.Factory} (hf : ChainFactory.newFactory fs' bn' tn' false = .ok fac) :
    (∃ c, fac.open_ fs' = .ok c) ∧
    ∀ f d n w, File.place bn tn f = some (d, n, w) →
      ∃ data, fs'.file d n = some data ∧ wordsOf w data = (fileOf s2 f).2.map ofU64 := by
  have he := (Eff.trans (ingest_calls hrun) (index_effect hidx))
  have hk := synced_folder hw he (done := done) (fun f => by
    rw [hd f, syncPoint, ← List.append_assoc, opsOn_append]
    rfl) hl hh
  exact ⟨(ChainFactory.open_shows_the_files (left_params hl hp) hf).1.mpr hk.1, hk.2⟩

/-- **C93.** Whatever happens after a sync, the words of the blocks before it are on disk: a later kill leaves for each of
them the word last written. -/
theorem synced_blocks_survive_a_kill {bn tn : List (String × Nat)} (hw : Widths bn tn) {p q : Int} {dl : Bool}
    {h : Hashes} {i : Iface} {bs : List Blk} {s1 : St} (hrun : ingest i 0 (-1) bs (create p q dl h bn tn) = .ok s1)
    {b : Blk} {fs fs' : ChainFactory.FS} {done : File → List WordFile.Op}
    (hd : ∀ f, opsOn f (syncPoint i (create p q dl h bn tn) bs b s1) <+: done f) (hl : Left bn tn fs done fs')
    {f : File} {d n : String} {w : Nat} (hf : File.place bn tn f = some (d, n, w)) :
    ∃ data, fs'.file d n = some data ∧ ∀ j < (fileOf s1 f).2.length,
      ∃ v, (replay w [] (done f))[j]? = some v ∧ (wordsOf w data)[j]? = some (ofU64 v) := by
  obtain ⟨h1, h2⟩ := place_new hw p q dl h hf
  refine ⟨_, hl.words f _ _ _ hf, fun j hj => ?_⟩
  obtain ⟨rest, hr⟩ := hd f
  have hE := ingest_calls hrun f
  rw [h1] at hE
  rw [hE] at hj
  dsimp only at hj
  rw [syncPoint, ← List.append_assoc, opsOn_append] at hr
  generalize hA : opsOn f (ingestEvs i 0 (-1) bs (create p q dl h bn tn) ++
      if s1.delegated = true then indexEvs bs.length (-1 + ((bs.map fun b => b.txs.length).sum : Nat)) b.txs else []) = A at hr
  have hr' : done f = (A ++ [.sync]) ++ rest := by rw [← hr]; rfl
  have hjA : j < (replay w [] A).length := by
    rw [← hA, opsOn_append, replay_append]
    exact Nat.lt_of_lt_of_le hj (replay_length_le _ _ _)
  have hjD : j < (replay w [] (done f)).length := by
    rw [hr', replay_append, replay_append]
    exact Nat.lt_of_lt_of_le hjA (replay_length_le _ _ _)
  refine ⟨_, List.getElem?_eq_getElem hjD, ?_⟩
  refine ((holds_fresh w).run h2 (done f)).word h2 (List.getElem?_eq_getElem hjD) ?_
  have hg : (diskAfter w (A ++ [.sync])).length ≤ (diskAfter w (done f)).length := by
    unfold diskAfter
    rw [hr', run_append _ (A ++ [WordFile.Op.sync]) rest]
    exact run_grows _ _
  rw [(disk_synced h2).1] at hg
  exact Nat.le_trans (Nat.mul_le_mul_right w hjA) hg

/-- **C93 fails.** A run killed anywhere else, `m` outputs after the last sync: what was written of the file of values is
whole buffers of 4096 bytes, so unless a multiple of seven buffers was written the folder cannot be opened as a chain, by
any factory, nor can the chain be created again from the hash stores: the folder has to be cleared by
hand. -/
theorem a_killed_run_leaves_no_chain {bn tn : List (String × Nat)} {p q : Int} {dl : Bool} {h : Hashes} {i : Iface}
    {bs : List Blk} {s : St} (hrun : ingest i 0 (-1) bs (create p q dl h bn tn) = .ok s)
    {done : File → List WordFile.Op} (hd : Stopped (ingestEvs i 0 (-1) bs (create p q dl h bn tn)) done)
    (hm : ¬ 7 ∣ (unsynced 0 (done .txoSats) * 7 - 1) / 4096)
    {fs fs' : ChainFactory.FS} (hl : Left bn tn fs done fs')
    (hp : ChainFactory.Params fs) {bn' tn' : List String} {fac : ChainFactory.Factory}
    (hf : ChainFactory.newFactory fs' bn' tn' false = .ok fac) :
    (¬ ∃ c, fac.open_ fs' = .ok c) ∧ (¬ ∃ c, fac.openReadOnly fs' = .ok c) ∧
    fac.createFromHashStores fs' = (fs', false) := by
  have happ := ingest_app hrun
  have h0 : (create p q dl h bn tn).txoSats.length = 0 := rfl
  unfold App at happ
  rw [h0] at happ
  obtain ⟨N, hN⟩ := appEnd_prefix happ (hd .txoSats)
  obtain ⟨hle, hlen⟩ := disk_length (w := 7) (by omega) hN
  have hfile := hl.words .txoSats _ _ _ rfl
  have hno : ¬ ChainFactory.Complete fs' := by
    intro hc
    obtain ⟨data, hdat, hmod⟩ := hc.2 ("TransactionOutputs", "value.int", 7) (by simp [ChainFactory.essential])
    dsimp only at hdat hmod
    rw [hfile] at hdat
    cases hdat
    rw [hlen] at hmod
    omega
  refine ⟨fun hc => hno ((ChainFactory.open_shows_the_files (left_params hl hp) hf).1.mp hc),
    fun hc => hno ((ChainFactory.open_read_only_shows_the_files (left_params hl hp) hf).1.mp hc), ?_⟩
  obtain ⟨b, t, a, _, _, _, _, _, _, rfl⟩ := ChainFactory.newFactory_ok.mp hf
  have hx := hl.words .blkFirstTrans _ _ _ rfl
  unfold ChainFactory.Factory.createFromHashStores
  rw [if_neg (by simp [ChainFactory.theFactory]), if_pos]
  show (fs'.file "Blocks" "firsttrans.int").isSome = true
  rw [hx]
  rfl

/-! ## Runs of up to ten thousand blocks -/

theorem neiEvs_quiet (mk : Nat → File) (fields : List (String × Int)) (at_ : Int) (l : List Nei) (k : Nat) :
    Ev.sync ∉ neiEvs mk fields at_ l k := by
  induction l generalizing k with
  | nil => simp [neiEvs]
  | cons x xs ih =>
    unfold neiEvs
    split
    · simp
    · simp [ih]

theorem txiEvs_quiet (i : Iface) (trans : Int) (s : St) (x : Txi) : Ev.sync ∉ txiEvs i trans s x := by
  unfold txiEvs
  rw [List.mem_append, not_or]
  constructor <;> split <;> simp

theorem txisEvs_quiet (i : Iface) (trans : Int) (xs : List Txi) (s : St) : Ev.sync ∉ txisEvs i trans xs s := by
  induction xs generalizing s with
  | nil => simp [txisEvs]
  | cons x xs ih =>
    unfold txisEvs
    rw [List.mem_append, not_or]
    refine ⟨txiEvs_quiet _ _ _ _, ?_⟩
    split
    · simp
    · exact ih _

theorem txiThreadEvs_quiet (i : Iface) (trans : Int) (xs : List Txi) (s : St) : Ev.sync ∉ txiThreadEvs i trans xs s := by
  unfold txiThreadEvs
  split
  · simp
  · simp [txisEvs_quiet]

theorem txosEvs_quiet (i : Iface) (trans : Int) (xs : List Txo) (s : St) : Ev.sync ∉ txosEvs i trans xs s := by
  induction xs generalizing s with
  | nil => simp [txosEvs]
  | cons x xs ih =>
    unfold txosEvs
    rw [List.mem_append, not_or]
    constructor
    · unfold txoEvs addressEvs
      dsimp only
      split
      · simp
      · split
        · split <;> simp
        · simp
    · split
      · simp
      · exact ih _

theorem contentsLoopEvs_quiet (i : Iface) (first : Int) (txs : List Tx) (t : Nat) (s : St) :
    Ev.sync ∉ contentsLoopEvs i first txs t s := by
  induction txs generalizing t s with
  | nil => simp [contentsLoopEvs]
  | cons tx txs ih =>
    unfold contentsLoopEvs
    rw [List.mem_append, not_or]
    constructor
    · unfold contentsEvs
      rw [List.mem_append, not_or]
      refine ⟨neiEvs_quiet _ _ _ _ _, ?_⟩
      split
      · simp
      · rw [List.mem_append, not_or]
        constructor
        · unfold txoThreadEvs
          dsimp only
          split
          · simp
          · simp [txosEvs_quiet]
        · split
          · simp
          · exact txiThreadEvs_quiet _ _ _ _
    · split
      · simp
      · exact ih _ _

theorem framesEvs_quiet (i : Iface) (blkNum : Int) (txs : List Tx) (t : Nat) (s : St) :
    Ev.sync ∉ framesEvs i blkNum txs t s := by
  induction txs generalizing t s with
  | nil => simp [framesEvs]
  | cons tx txs ih =>
    unfold framesEvs
    rw [List.mem_append, not_or]
    constructor
    · unfold frameEvs
      split
      · simp
      · split <;> simp
    · split
      · simp
      · split
        · split
          · simp
          · simp [ih]
        · exact ih _ _

theorem indexEvs_quiet (height latest : Int) (txs : List Tx) : Ev.sync ∉ indexEvs height latest txs := by
  have : ∀ txs latest, Ev.sync ∉ indexLoopEvs height txs latest := by
    intro txs
    induction txs with
    | nil => simp [indexLoopEvs]
    | cons tx txs ih => intro latest; simp [indexLoopEvs, ih]
  simp [indexEvs, this]

theorem blockEvs_quiet (i : Iface) (s : St) (b : Blk) : Ev.sync ∉ blockEvs i s b := by
  unfold blockEvs
  dsimp only
  rw [List.mem_append, not_or]
  refine ⟨neiEvs_quiet _ _ _ _ _, ?_⟩
  split
  · simp
  · rw [List.mem_append, not_or]
    refine ⟨framesEvs_quiet _ _ _ _ _, ?_⟩
    split
    · simp
    · exact contentsLoopEvs_quiet _ _ _ _ _

theorem ingestEvs_quiet (i : Iface) (height latest : Int) (bs : List Blk) (s : St) (h0 : 0 < height)
    (h1 : height + bs.length ≤ 10000) : Ev.sync ∉ ingestEvs i height latest bs s := by
  induction bs generalizing height latest s with
  | nil => simp [ingestEvs]
  | cons b bs ih =>
    rw [List.length_cons] at h1
    push_cast at h1
    unfold ingestEvs
    rw [List.mem_append, List.mem_append, not_or, not_or, if_neg (show ¬ height % 10000 = 0 by omega)]
    refine ⟨⟨?_, by simp⟩, ?_⟩
    · split
      · exact indexEvs_quiet _ _ _
      · simp
    · split
      · simp
      · rw [List.mem_append, not_or]
        refine ⟨blockEvs_quiet _ _ _, ?_⟩
        split
        · simp
        · exact ih _ _ _ (by omega) (by omega)

theorem opsOn_quiet {f : File} {es : List Ev} (h : Ev.sync ∉ es) : WordFile.Op.sync ∉ opsOn f es := by
  induction es with
  | nil => simp [opsOn]
  | cons e es ih =>
    rw [List.mem_cons, not_or] at h
    cases e with
    | write g off val =>
      simp only [opsOn]
      split
      · simp [ih h.2]
      · exact ih h.2
    | read g off =>
      simp only [opsOn]
      split
      · simp [ih h.2]
      · exact ih h.2
    | sync => exact absurd rfl h.1

theorem unsynced_quiet {n N m : Nat} {ops : List WordFile.Op} (ha : appEnd n ops = some N) (hq : WordFile.Op.sync ∉ ops) :
    unsynced m ops + n = m + N := by
  induction ops generalizing n m with
  | nil =>
    cases ha
    rfl
  | cons op ops ih =>
    rw [List.mem_cons, not_or] at hq
    cases op with
    | write v off =>
      simp only [appEnd] at ha
      split at ha
      · have := ih (m := m + 1) ha hq.2
        simp only [unsynced]
        omega
      · simp at ha
    | sync => exact absurd rfl hq.1
    | read _ => simp [appEnd] at ha
    | count => simp [appEnd] at ha

theorem unsynced_append_sync (m : Nat) (a b : List WordFile.Op) :
    unsynced m (a ++ .sync :: b) = unsynced 0 b := by
  induction a generalizing m with
  | nil => rfl
  | cons op a ih => cases op <;> exact ih _

/-- In a run of at most ten thousand blocks all outputs are unsynced until the close. -/
theorem short_run_unsynced {i : Iface} {latest : Int} {bs : List Blk} {s0 s : St} (h0 : s0.txoSats = [])
    (hl : bs.length ≤ 10000) (hrun : ingest i 0 latest bs s0 = .ok s) :
    unsynced 0 (opsOn .txoSats (ingestEvs i 0 latest bs s0)) = s.txoSats.length := by
  cases bs with
  | nil =>
    cases hrun
    simp [ingestEvs, opsOn, unsynced, h0]
  | cons b bs =>
    rw [List.length_cons] at hl
    have happ := ingest_app hrun
    unfold App at happ
    obtain ⟨s1, h1, h⟩ := ingest_step hrun
    obtain ⟨s2, h2, h⟩ := bindE h
    unfold ingestEvs at happ ⊢
    rw [h1] at happ ⊢
    dsimp only at happ ⊢
    rw [h2] at happ ⊢
    dsimp only at happ ⊢
    rw [if_pos (show (0 : Int) % 10000 = 0 by omega)] at happ ⊢
    have hidx : opsOn .txoSats (if s0.delegated = true then indexEvs 0 latest b.txs else []) = [] := by
      split
      · exact indexEvs_txo _ _ _
      · rfl
    rw [opsOn_append, opsOn_append, hidx, List.nil_append] at happ ⊢
    simp only [opsOn, List.cons_append, List.nil_append, appEnd, unsynced] at happ ⊢
    have hq : Ev.sync ∉ blockEvs i s1 b ++ ingestEvs i (0 + 1) (latest + b.txs.length) bs s2 := by
      rw [List.mem_append, not_or]
      exact ⟨blockEvs_quiet _ _ _, ingestEvs_quiet _ _ _ _ _ (by omega) (by omega)⟩
    have := unsynced_quiet (m := 0) happ (opsOn_quiet hq)
    rw [h0] at this
    simpa using this

/-- **C93 fails.** Any good chain of at most ten thousand blocks and, say, a thousand outputs is stored without an error; a
kill after its last block, but before the chain is closed, leaves a folder that cannot be opened and is in the way of
creating the chain again. -/
theorem a_good_chain_killed_before_closing_is_lost {p q : Int} (hp : p ≤ 0) (hq : q ≤ 0) {i : Iface} {d : Bool}
    {bn tn : List (String × Nat)} {bs : List Blk} (hg : Good i d bn tn bs) (hl : bs.length ≤ 10000)
    (ho : 586 ≤ (outputs bs).length ∧ (outputs bs).length ≤ 4096) :
    ∃ s, store p q i d bn tn bs = .ok s ∧
      ∀ fs fs' done, ChainFactory.Params fs →
        (∀ f, done f = opsOn f (ingestEvs i 0 (-1) bs (create p q d (hashesOf bs) bn tn))) → Left bn tn fs done fs' →
        ∀ bn' tn' fac, ChainFactory.newFactory fs' bn' tn' false = .ok fac →
          (¬ ∃ c, fac.open_ fs' = .ok c) ∧ (¬ ∃ c, fac.openReadOnly fs' = .ok c) ∧
          fac.createFromHashStores fs' = (fs', false) := by
  obtain ⟨s, hs, hC, _⟩ := store_ok hp hq hg
  refine ⟨s, hs, fun fs fs' done hpar hd hleft bn' tn' fac hf => ?_⟩
  rw [store_eq p q i d bn tn bs hg.nonempty] at hs
  have hm := short_run_unsynced rfl hl hs
  rw [hC.sats, List.length_map, ← outputs_eq] at hm
  refine a_killed_run_leaves_no_chain hs (done := done) (fun f => by rw [hd f]; exact List.prefix_rfl) ?_ hleft hpar hf
  rw [hd .txoSats, hm]
  omega

/-! ## Examples -/

/-- The folder left after these calls. -/
def leave (bn tn : List (String × Nat)) (fs : ChainFactory.FS) (done : File → List WordFile.Op) : List File → ChainFactory.FS
  | [] => fs
  | f :: l =>
    let fs1 := leave bn tn fs done l
    match File.place bn tn f with
    | none => fs1
    | some (d, n, w) => { fs1 with file := fun d' n' => if d' = d ∧ n' = n then some (diskAfter w (done f)) else fs1.file d' n' }

/-- The twelve essential word files. -/
def allFiles : List File :=
  [.blkFirstTrans, .parentBlockOfTrans, .trnFirstTxi, .txiTx, .txiVout, .parentTransOfTxi, .trnFirstTxo, .txoSats,
   .txoAddress, .txoSpentTxi, .parentTransOfTxo, .addrFirstTxo]

theorem leave_left (fs : ChainFactory.FS) (done : File → List WordFile.Op) : Left [] [] fs done (leave [] [] fs done allFiles) := by
  refine ⟨rfl, fun f d n w hf => ?_, fun d n hn => ?_⟩
  · cases f <;> simp only [File.place, List.getElem?_nil, Option.map_none, Option.some.injEq, Prod.mk.injEq] at hf <;>
      first
      | (obtain ⟨rfl, rfl, rfl⟩ := hf; simp [leave, allFiles, File.place])
      | cases hf
  · have h : ∀ f ∈ allFiles, ∀ d' n' w', File.place [] [] f = some (d', n', w') → ¬ (d = d' ∧ n = n') := by
      rintro f _ d' n' w' hp ⟨rfl, rfl⟩
      exact hn f w' hp
    have : ∀ l : List File, (∀ f ∈ l, ∀ d' n' w', File.place [] [] f = some (d', n', w') → ¬ (d = d' ∧ n = n')) →
        (leave [] [] fs done l).file d n = fs.file d n := by
      intro l
      induction l with
      | nil => intro _; rfl
      | cons f l ih =>
        intro hl
        unfold leave
        dsimp only
        split
        · exact ih fun g hg => hl g (List.mem_cons_of_mem _ hg)
        · rename_i d' n' w' hp
          dsimp only
          rw [if_neg (hl f List.mem_cons_self _ _ _ hp)]
          exact ih fun g hg => hl g (List.mem_cons_of_mem _ hg)
    exact this _ h

/-- One block with one transaction that pays one address six hundred times. -/
def six : List Blk := [⟨[1], some 0, [], [⟨[11], none, some 0, [], [], List.replicate 600 ⟨50, [91], none⟩⟩]⟩]

/-- The new chain for it. -/
def sixNew : St := create (-1) (-1) true ⟨[[1]], [[11]], [[91]]⟩ [] []

/-- The hash stores of a chain, indexed before. -/
def indexed : ChainFactory.FS :=
  ⟨fun d n => if d ∈ ChainFactory.hashFolders then if n = "BinStarts.bes" ∨ n = "BinNums.int" then some [] else none else none,
   fun _ => some ⟨3, 12⟩, none⟩

theorem six_good : Good .cri true [] [] six :=
  ⟨by decide, by decide, by decide, by decide, by decide, by decide, by decide +kernel, by decide +kernel, by decide, by decide,
    by decide +kernel, by decide +kernel, by decide +kernel, by decide +kernel, by decide +kernel⟩

example : Widths [("time", 4)] [("size", 4)] := by simp [Widths]
example : (store (-1) (-1) .cri true [("time", 4)] [("size", 4)] demo).toOption.isSome = true := by decide +kernel
example : Good .cri true [] [] six ∧ (outputs six).length = 600 := ⟨six_good, by decide +kernel⟩
example (fs : ChainFactory.FS) (es : List Ev) : Left [] [] fs (fun f => opsOn f es) (leave [] [] fs (fun f => opsOn f es) allFiles) :=
  leave_left _ _
/-- From 586 to 4096 outputs after a sync there is no chain. -/
example (m : Nat) (h1 : 586 ≤ m) (h2 : m ≤ 4096) : ¬ 7 ∣ (m * 7 - 1) / 4096 := by omega
example : ∀ d ∈ ChainFactory.hashFolders, ChainFactory.HashReady indexed d := by
  intro d hd
  simp only [ChainFactory.HashReady, ChainFactory.Whole, indexed, if_pos hd]
  simp
example : ChainFactory.Params indexed := fun d _ => ⟨⟨3, 12⟩, rfl, by decide⟩

end Verif.Killed
