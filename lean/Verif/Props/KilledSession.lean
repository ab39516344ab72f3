import Verif.Props.ChainedFiles
import Verif.Props.KilledAppend

/-!
# C111: what a kill leaves of the earlier sessions of a collision-chained store whose lookups are held in memory
-/

namespace Verif.ChainedFiles

open ChainedHashStore (Params Res msb keyOf hasMsb CH Inv bucket)
open HashStores (Found firstIndex)

/-! ### What is expected -/

/-- How many of the hashes have the partial key of `v`. -/
def sharing (p : Params) (hs : List Bytes) (v : Bytes) : Nat := (hs.filter (fun x => keyOf p x == keyOf p v)).length

/-- What is known of `v` when `old` was stored before the session that was killed and `new` appended in it: everything if two of
the old hashes already had the key of `v`, otherwise only what was known before. -/
def survived (p : Params) (old new : List Bytes) (v : Bytes) : Found :=
  if 2 ≤ sharing p old v then firstIndex (old ++ new) v else firstIndex old v

/-! ### Proof -/

/-- Once two hashes have a key its lookup does not change any more. -/
theorem lookup_stays {p : Params} (hp : p.Valid) {c c' : CH} {chains : Nat → List Nat} {nch : Nat} (inv : Inv p c chains nch)
    {v : Bytes} {i k : Nat} (hlen : c.hashes.length < msb p) (ha : ChainedHashStore.appendHash p c v = .ok (c', i))
    (hk : 2 ≤ (bucket p c.hashes k).length) : c'.lookups k = c.lookups k := by
  have hb := KilledAppend.below_killed hp inv v (KilledAppend.writes p c v).length k (by
    by_cases e : k = keyOf p v
    · right; rw [← e]; omega
    · left; exact e) hlen
  rw [KilledAppend.killedAfter, List.take_length, KilledAppend.writes_are_the_append p c v c' i ha] at hb
  apply hb.look
  obtain ⟨ch, _, hl⟩ := inv.look2 k hk
  rw [hl]; omega

theorem session {p : Params} (hp : p.Valid) (l : List Bytes) (hw : ∀ h ∈ l, h.length = 32) {s : Store} {c : CH}
    {chains : Nat → List Nat} {nch : Nat} (hsim : Sim p s c) (inv : Inv p c chains nch)
    (hlen : c.hashes.length + l.length < msb p) :
    ∃ s' c' chains' nch', Sim p s' c' ∧ Inv p c' chains' nch' ∧ c'.hashes = c.hashes ++ l ∧ s.lkp.sameKind s'.lkp ∧
      (∀ k, 2 ≤ (bucket p c.hashes k).length → c'.lookups k = c.lookups k) ∧
      ∀ ops, (run p s (l.map .append ++ ops)).2 = (List.range' c.hashes.length l.length).map .index ++ (run p s' ops).2 := by
  induction l generalizing s c chains nch with
  | nil => exact ⟨s, c, chains, nch, hsim, inv, by simp, Lkp.sameKind_refl _, fun _ _ => rfl, fun ops => by simp⟩
  | cons v l ih =>
    simp only [List.length_cons] at hlen
    obtain ⟨c1, ch1, n1, h1, h2, h3⟩ := ChainedHashStore.append_ok hp inv (by omega) v
    obtain ⟨s1, e1, e2, _, e4⟩ := appendHash_sim hsim (hw v (by simp)) h1
    obtain ⟨s', c', ch', n', f1, f2, f3, f4, f5, f6⟩ := ih (fun x hx => hw x (by simp [hx])) e2 h3
      (by rw [h2, List.length_append, List.length_singleton]; omega)
    refine ⟨s', c', ch', n', f1, f2, by rw [f3, h2]; simp, e4.trans f4, ?_, fun ops => ?_⟩
    · intro k hk
      rw [f5 k (by rw [h2, ChainedHashStore.bucket_append, List.length_append]; omega),
        lookup_stays hp inv (by omega) h1 hk]
    · rw [List.map_cons, List.cons_append, run, step, e1]
      simp only
      rw [f6, h2, List.length_append, List.length_singleton, List.length_cons, List.range'_succ]
      rfl

/-- Searching with the lookups of before. -/
theorem index_mixed {p : Params} (hp : p.Valid) {c c' : CH} {chains chains' : Nat → List Nat} {nch nch' : Nat}
    (inv : Inv p c chains nch) (inv' : Inv p c' chains' nch') {new : List Bytes} (hh : c'.hashes = c.hashes ++ new)
    (hlen : c'.hashes.length < msb p) (hl : ∀ k, 2 ≤ (bucket p c.hashes k).length → c'.lookups k = c.lookups k) (v : Bytes) :
    ChainedHashStore.indexOfHash p ⟨c'.hashes, c.lookups, c'.coll⟩ v = some (survived p c.hashes new v) := by
  have hcl : c.hashes.length ≤ c'.hashes.length := by rw [hh]; simp
  unfold survived
  have hsh : sharing p c.hashes v = (bucket p c.hashes (keyOf p v)).length := (KilledAppend.bucket_filter p c.hashes _).symm
  rw [hsh]
  by_cases h2 : 2 ≤ (bucket p c.hashes (keyOf p v)).length
  · rw [if_pos h2, ← hh, ← ChainedHashStore.indexOf_ok hp inv' hlen v]
    have hsc : ∀ base n j, ChainedHashStore.scanSlots ⟨c'.hashes, c.lookups, c'.coll⟩ v base j n =
        ChainedHashStore.scanSlots c' v base j n := by
      intro base n
      induction n with
      | zero => intro j; rfl
      | succ n ih => intro j; rw [ChainedHashStore.scanSlots, ChainedHashStore.scanSlots]; simp only [ih]
    have hse : ∀ fuel link, ChainedHashStore.searchChain p ⟨c'.hashes, c.lookups, c'.coll⟩ v fuel link =
        ChainedHashStore.searchChain p c' v fuel link := by
      intro fuel
      induction fuel with
      | zero => intro link; rfl
      | succ fuel ih => intro link; rw [ChainedHashStore.searchChain, ChainedHashStore.searchChain]; simp only [hsc, ih]
    unfold ChainedHashStore.indexOfHash
    simp only [hse, hl _ h2]
  · rw [if_neg h2, ← ChainedHashStore.findIn_bucket p]
    unfold ChainedHashStore.indexOfHash
    dsimp only
    rcases hb : bucket p c.hashes (keyOf p v) with _ | ⟨i, _ | ⟨i', rest⟩⟩
    · rw [inv.look0 _ hb, ChainedHashStore.hasMsb_small hp.nbytes_pos (ChainedHashStore.msb_pos p)]
      simp [ChainedHashStore.findIn]
    · have hi : i < c.hashes.length := ChainedHashStore.bucket_lt (k := keyOf p v) (p := p) (by simp [hb])
      rw [inv.look1 _ i hb, ChainedHashStore.hasMsb_small hp.nbytes_pos (by omega)]
      simp only [if_true, Nat.add_sub_cancel]
      rw [if_neg (by omega), hh, List.getElem?_append_left hi, List.getElem?_eq_getElem hi]
      by_cases e : c.hashes[i] = v
      · simp [ChainedHashStore.findIn, List.getElem?_eq_getElem hi, e]
      · simp [ChainedHashStore.findIn, List.getElem?_eq_getElem hi, e]
    · exact absurd (by simp [hb]) h2

/-- **C111 (partial).** Fill a store, close it, open it with the lookups held in memory, append any hashes, synchronize, be
killed, and open it again: no lookup is an error; all hashes are there by index; of every hash `IndexOfHash` says what
`survived` says. So what was stored before the session is found as before, and of the session's own hashes exactly those are found whose
partial key was shared by two of the earlier ones, or which had been stored before. Missing from the full
statement: the other hashes of the session, though `Sync` had returned nil. -/
theorem killed_session_partial (p : Params) (hp : p.Valid) (m0 m : Mode) (slack : Bytes) (opt : Bool) (old new : List Bytes)
    (hw : ∀ h ∈ old ++ new, h.length = 32) (hlen : (old ++ new).length < msb p) (v : Bytes) (i : Nat) :
    (run p (openStore m0 (create p)) (old.map .append ++ .reopen ⟨some slack, opt⟩ :: (new.map .append ++
      [.sync, .killed m, .get i, .count, .indexOf v]))).2 =
      (List.range old.length).map .index ++ .unit :: ((List.range' old.length new.length).map .index ++
        [.unit, .unit, .hash (old ++ new)[i]?, .count (old ++ new).length, .found (survived p old new v)]) := by
  rw [List.length_append] at hlen
  obtain ⟨s0, d0, h1, _, h3⟩ := appends_ok hp old (fun h hh => hw h (by simp [hh])) (ok_create hp m0) (by
    rw [List.length_nil]; omega)
  rw [h3, List.length_nil, List.range_eq_range']
  congr 1
  have h1' := ok_reopen h1 ⟨some slack, opt⟩
  rw [List.nil_append] at h1'
  rw [run]
  simp only [step]
  congr 1
  obtain ⟨c, chains, nch, hsim, inv, hc⟩ := h1'.sim
  generalize hs1 : openStore ⟨some slack, opt⟩ (close s0) = s1 at *
  have hlk : ∃ b, s1.lkp = .mem b slack b := by rw [← hs1]; exact ⟨_, rfl⟩
  obtain ⟨b, hlk⟩ := hlk
  have hbuf : BufOK p b c.lookups := by
    have := hsim.lkp
    rw [hlk] at this
    exact this
  obtain ⟨s, c', chains', nch', e1, e2, e3, e4, e5, e6⟩ := session hp new (fun h hh => hw h (by simp [hh])) hsim inv
    (by rw [hc]; omega)
  rw [e6, hc]
  congr 1
  obtain ⟨b', sl', hl'⟩ := e4.1 _ _ _ hlk
  have hk : kill (sync s) = ⟨s.hsh.closed, b, s.cls⟩ := by
    unfold sync
    cases hh : s.hsh with
    | plain d => simp only [kill, hh, hl']; rfl
    | opt a => simp only [kill, hl']; rfl
  have hS : Sim p (openStore m (kill (sync s))) ⟨c'.hashes, c.lookups, c'.coll⟩ := by
    rw [hk]
    exact sim_open m (hshOK_closed e1.hsh).1 (hshOK_closed e1.hsh).2 hbuf e1.cmod e1.cls
  have hall : c'.hashes = old ++ new := by rw [e3, hc]
  generalize hq : openStore m (kill (sync s)) = q at hS
  obtain ⟨g1, g2⟩ := hshOK_read hS.hsh i
  have hS' : Sim p { q with hsh := (readHash q.hsh i).1 } ⟨c'.hashes, c.lookups, c'.coll⟩ := ⟨g1, hS.cnt, hS.lkp, hS.cmod, hS.cls⟩
  have hans := index_mixed hp inv e2 e3 (by rw [hall, List.length_append]; omega) e5 v
  have hx := (indexOf_sim hp.nbytes_pos hS' v hans).1
  rw [hc] at hx
  have hlast : (step p { q with hsh := (readHash q.hsh i).1 } (.indexOf v)).2 = .found (survived p old new v) := by
    simp only [step]
    cases hr : indexOfHash p { q with hsh := (readHash q.hsh i).1 } v with
    | mk x y =>
      rw [hr] at hx
      simp only at hx
      subst hx
      rfl
  have hcnt : q.count = (old ++ new).length := by rw [hS.cnt, hall]
  have hq' : (step p (step p s .sync).1 (.killed m)).1 = q := hq
  simp only [run]
  rw [hq']
  show [Out.unit, Out.unit, Out.hash (readHash q.hsh i).2, Out.count q.count,
    (step p { q with hsh := (readHash q.hsh i).1 } (.indexOf v)).2] = _
  rw [hlast, g2, hcnt, hall]

/-- In words of found and not found: every hash of before is found under its index. -/
theorem earlier_sessions_survive (p : Params) (old new : List Bytes) (v : Bytes) (hv : v ∈ old) :
    survived p old new v = firstIndex old v := by
  unfold survived
  split
  · obtain ⟨j, hj⟩ : ∃ j, firstIndex old v = .at j := by
      cases hf : firstIndex old v with
      | «at» j => exact ⟨j, rfl⟩
      | absent => exact absurd hv (HashStores.firstIndex_absent.mp hf)
      | err => simp [firstIndex] at hf; split at hf <;> simp at hf
    rw [hj, HashStores.firstIndex_at]
    rw [HashStores.firstIndex_at] at hj
    have hlt := lt_of_getElem?_some hj.1
    refine ⟨by rw [List.getElem?_append_left hlt]; exact hj.1, ?_⟩
    intro k hk
    rw [List.getElem?_append_left (by omega)]
    exact hj.2 k hk
  · rfl

/-- A hash first appended in the killed session is forgotten exactly if fewer than two earlier hashes have its key. -/
theorem the_session_is_forgotten (p : Params) (old new : List Bytes) (v : Bytes) (hv : v ∈ new) (ho : v ∉ old) :
    survived p old new v = .absent ↔ sharing p old v < 2 := by
  unfold survived
  constructor
  · intro h
    split at h
    · exact absurd (List.mem_append_right old hv) (HashStores.firstIndex_absent.mp h)
    · omega
  · intro h
    rw [if_neg (by omega)]
    exact HashStores.firstIndex_absent.mpr ho

/-- Example: two hashes with one key and one with another before; one with each key, and one with a third, in the session. -/
example :
    let p : Params := ⟨4, 4, 3⟩
    let old := [mkHash 1, mkHash 17, mkHash 2]
    let new := [mkHash 33, mkHash 18, mkHash 5]
    (∀ h ∈ old ++ new, h.length = 32) ∧ (old ++ new).length < msb p ∧
    [mkHash 1, mkHash 17, mkHash 2, mkHash 33, mkHash 18, mkHash 5].map (survived p old new) =
      [.at 0, .at 1, .at 2, .at 3, .absent, .absent] := by
  refine ⟨by decide, by decide, by decide +kernel⟩

end Verif.ChainedFiles
