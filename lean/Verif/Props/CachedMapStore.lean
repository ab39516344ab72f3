import Verif.Lemmas.CachedMapStore

/-!
# C10: the caching array store keeps every element; its memory bookkeeping
-/

namespace Verif.CachedMapStore

open Verif.IAA (IAA)
open Verif.MapStore
open Verif.WordFile (fits)

theorem inv_loadIntoCache {c : Cfg} (hf : 0 < c.digitsPerFolder) {fuel : Nat} {s s' : CMS}
    {log : List (Nat × Int)} (h : Inv c s log none) (hl : LogOK c log) {k : Nat}
    (hr : loadIntoCache c fuel s k = some s') :
    Inv c s' log (some (keyOf c k)) ∧ keyOf c k ∈ s'.cache.map (·.key) := by
  unfold loadIntoCache at hr
  by_cases hc : keyOf c k ∈ s.cache.map (·.key)
  · have : (s.cache.any fun e => e.key = keyOf c k) = true := by
      obtain ⟨e, he, hk⟩ := List.mem_map.mp hc
      exact List.any_eq_true.mpr ⟨e, he, by simpa using hk⟩
    rw [if_pos this] at hr
    simp at hr; subst hr
    refine ⟨⟨h.nodup, ?_, h.tallies, h.files, h.count⟩, hc⟩
    intro e he
    obtain ⟨k', h1, h2, h3, h4⟩ := h.entries e he
    exact ⟨k', h1, h2, fun _ => h3 (by simp), h4⟩
  · have hn : ¬ (s.cache.any fun e => e.key = keyOf c k) = true := by
      intro ha
      obtain ⟨e, he, hk⟩ := List.any_eq_true.mp ha
      exact hc (List.mem_map.mpr ⟨e, he, by simpa using hk⟩)
    rw [if_neg hn] at hr
    obtain ⟨x, e, h1, h2, _, h4⟩ := load_tally (h.files k hc) hl
    rw [h1] at hr
    exact inv_trimLoop hf fuel (inv_loaded h hc h2 h4) (by simp) hr

theorem sum_update_entry {c : Cfg} {cache : List Entry} (hn : (cache.map (·.key)).Nodup) {key : Path}
    (hin : key ∈ cache.map (·.key)) (g : Entry → Entry)
    (hg : ∀ e, held c.perFile (g e).iaa = held c.perFile e.iaa + 1) :
    heldAll c (cache.map fun e => if e.key = key then g e else e) = heldAll c cache + 1 := by
  induction cache with
  | nil => simp at hin
  | cons x l ih =>
    simp only [List.map_cons, List.nodup_cons] at hn
    by_cases hx : x.key = key
    · have hl : l.map (fun e => if e.key = key then g e else e) = l := by
        conv => rhs; rw [← List.map_id l]
        apply List.map_congr_left
        intro y hy
        rw [if_neg]; rfl
        intro e
        exact hn.1 (by rw [hx, ← e]; exact List.mem_map_of_mem (f := (·.key)) hy)
      rw [List.map_cons, hl, if_pos hx]
      simp only [heldAll, List.map_cons, List.sum_cons, hg]
      omega
    · have hin' : key ∈ l.map (·.key) := by
        simp only [List.map_cons, List.mem_cons] at hin
        rcases hin with e | h
        · exact absurd e.symm hx
        · exact h
      have := ih hn.2 hin'
      rw [List.map_cons, if_neg hx]
      simp only [heldAll, List.map_cons, List.sum_cons] at this ⊢
      omega

/-- The second half of `AppendToArray`. -/
theorem inv_put {c : Cfg} (hf : 0 < c.digitsPerFolder) {s : CMS} {log : List (Nat × Int)} {k : Nat} {v : Int}
    (h1 : Inv c s log (some (keyOf c k))) (hin : keyOf c k ∈ s.cache.map (·.key)) :
    Inv c { s with
        count := s.count + 1
        counter := s.counter + 1
        cache := s.cache.map fun e =>
          if e.key = keyOf c k then
            { e with
              iaa := { IAA.appendToArray e.iaa (k % c.perFile) v with elementTally := e.iaa.elementTally }
              lastAccess := s.counter + 1 }
          else e } (log ++ [(k, v)]) none := by
  have hkeys : (s.cache.map fun e =>
      if e.key = keyOf c k then
        { e with
          iaa := { IAA.appendToArray e.iaa (k % c.perFile) v with elementTally := e.iaa.elementTally }
          lastAccess := s.counter + 1 }
      else e).map (·.key) = s.cache.map (·.key) := by
    rw [List.map_map]
    apply List.map_congr_left
    intro e _
    simp only [Function.comp]
    split <;> rfl
  refine ⟨?_, ?_, ?_, ?_, ?_⟩
  · simp only; rw [hkeys]; exact h1.nodup
  · intro e he
    obtain ⟨x, hx, rfl⟩ := List.mem_map.mp he
    obtain ⟨k', a1, a2, a3, a4⟩ := h1.entries x hx
    by_cases hk : x.key = keyOf c k
    · have hdiv : k / c.perFile = k' / c.perFile := (keyOf_iff hf _ _).mp (hk.symm.trans a1)
      rw [if_pos hk]
      have := (a4.congr hdiv).append_same v
      exact ⟨k, hk, by rw [folderPath_congr hdiv]; exact a2, fun _ => fileUsed_append.mpr (Or.inr rfl),
        ⟨this.count, this.width, this.data⟩⟩
    · rw [if_neg hk]
      refine ⟨k', a1, a2, fun _ => fileUsed_append.mpr (Or.inl (a3 ?_)), a4.append_other ?_ v⟩
      · intro e; simp only [Option.some.injEq] at e; exact hk e.symm
      · intro e; exact hk (a1.trans ((keyOf_iff hf _ _).mpr e.symm))
  · intro e he
    obtain ⟨x, hx, rfl⟩ := List.mem_map.mp he
    have := h1.tallies x hx
    split
    · simp only [held_tally]
      rw [held_append _ _ (Nat.mod_lt _ (perFile_pos c))]
      simp only [Int.natCast_add]
      omega
    · exact this
  · intro k' hk'
    simp only at hk'
    rw [hkeys] at hk'
    refine (h1.files k' hk').append_other ?_ v
    intro e
    exact hk' (by rw [(keyOf_iff hf k' k).mpr e.symm]; exact hin)
  · have hc := h1.count
    simp only
    rw [sum_update_entry h1.nodup hin (fun e => { e with
          iaa := { IAA.appendToArray e.iaa (k % c.perFile) v with elementTally := e.iaa.elementTally }
          lastAccess := s.counter + 1 }) (fun e => by
            simp only [held_tally]
            exact held_append _ _ (Nat.mod_lt _ (perFile_pos c)) _)]
    omega

theorem inv_append {c : Cfg} (hf : 0 < c.digitsPerFolder) {fuel : Nat} {s s' : CMS} {log : List (Nat × Int)}
    (h : Inv c s log none) (hl : LogOK c log) {k : Nat} {v : Int} (hr : append c fuel s k v = some s') :
    Inv c s' (log ++ [(k, v)]) none := by
  unfold append at hr
  cases e1 : loadIntoCache c fuel s k with
  | none => rw [e1] at hr; simp at hr
  | some s1 =>
    rw [e1] at hr
    simp only [Option.some.injEq] at hr
    obtain ⟨h1, hin⟩ := inv_loadIntoCache hf h hl e1
    subst hr
    exact inv_put hf h1 hin

theorem flush_files {c : Cfg} (hf : 0 < c.digitsPerFolder) {log : List (Nat × Int)} (cache : List Entry) (fs : FS)
    (hn : (cache.map (·.key)).Nodup) (he : ∀ e ∈ cache, EntryOK c log none e)
    (hfile : ∀ k, keyOf c k ∉ cache.map (·.key) → FileOK c fs log k) (k : Nat) :
    FileOK c (cache.foldl (save c) fs) log k := by
  induction cache generalizing fs with
  | nil => exact hfile k (by simp)
  | cons x l ih =>
    simp only [List.map_cons, List.nodup_cons] at hn
    rw [List.foldl_cons]
    apply ih _ hn.2 (fun e h => he e (by simp [h]))
    intro k' hk'
    obtain ⟨kx, a1, a2, a3, a4⟩ := he x (by simp)
    have : FileOK c
        { fs with files := fun q => if q = c.filePath kx then some (IAA.saveBytes x.iaa) else fs.files q }
        log k' := by
      refine FileOK.write hf a4 (a3 (by simp)) k' ?_
      intro hd
      refine hfile k' ?_
      simp only [List.map_cons, List.mem_cons, not_or]
      exact ⟨fun e => hd ((keyOf_iff hf _ _).mp (e.trans a1)), hk'⟩
    exact this.files_eq (save_files a1 a2)

theorem inv_flush {c : Cfg} (hf : 0 < c.digitsPerFolder) {s : CMS} {log : List (Nat × Int)}
    (h : Inv c s log none) : Inv c (flush c s) log none := by
  refine ⟨by simp [flush], by simp [flush], by simp [flush], ?_, by simp [flush, heldAll]⟩
  intro k _
  exact flush_files hf s.cache s.fs h.nodup h.entries h.files k

theorem inv_get {c : Cfg} (hf : 0 < c.digitsPerFolder) {s : CMS} {log : List (Nat × Int)}
    (h : Inv c s log none) (hl : LogOK c log) (k : Nat) :
    getArray c s k = some (flush c s, elems log k, !decide (fileUsed c.perFile log k)) := by
  have h1 := inv_flush hf h
  obtain ⟨x, e, hload, hx, he, _⟩ := load_tally (h1.files k (by simp [flush])) hl
  unfold getArray
  dsimp only
  rw [hload]
  by_cases hu : fileUsed c.perFile log k
  · have : e = false := by rw [he]; simp [hu]
    subst this
    simp [hx.data k rfl, hu]
  · have : e = true := by rw [he]; simp [hu]
    subst this
    simp [hu, elems_unused hu rfl]

theorem run_inv {c : Cfg} (hf : 0 < c.digitsPerFolder) (fuel : Nat) (ops : List Op) :
    ∀ (s : CMS) (log : List (Nat × Int)), Inv c s log none → LogOK c log →
      (∀ op ∈ ops, op.fits c.elementByteSize) → log.length + ops.length < 2 ^ 63 →
      ∀ s' outs, run c fuel s ops = some (s', outs) →
        outs = (specRun c.perFile log ops).2 ∧ Inv c s' (specRun c.perFile log ops).1 none := by
  induction ops with
  | nil => intro s log h _ _ _ s' outs hr; simp [run] at hr; exact ⟨hr.2, hr.1 ▸ h⟩
  | cons op ops ih =>
    intro s log h hl hfit hlen s' outs hr
    have hfit' : ∀ op ∈ ops, op.fits c.elementByteSize := fun o ho => hfit o (by simp [ho])
    simp only [List.length_cons] at hlen
    cases op with
    | append k v =>
      simp only [run, step] at hr
      cases e1 : append c fuel s k v with
      | none => rw [e1] at hr; simp at hr
      | some s1 =>
        rw [e1] at hr
        dsimp only at hr
        have h1 := inv_append hf h hl e1
        have hl1 : LogOK c (log ++ [(k, v)]) := by
          refine ⟨hl.width, ?_, by simp; omega⟩
          intro e he
          rcases List.mem_append.mp he with he | he
          · exact hl.fit e he
          · simp at he; subst he; exact hfit (.append k v) (by simp)
        cases e2 : run c fuel s1 ops with
        | none => rw [e2] at hr; simp at hr
        | some r =>
          obtain ⟨s2, os⟩ := r
          rw [e2] at hr
          simp at hr
          obtain ⟨g1, g2⟩ := ih s1 _ h1 hl1 hfit' (by simp; omega) s2 os e2
          rw [← hr.2, g1, ← hr.1]
          exact ⟨rfl, g2⟩
    | get k =>
      simp only [run, step, inv_get hf h hl k] at hr
      cases e2 : run c fuel (flush c s) ops with
      | none => rw [e2] at hr; simp at hr
      | some r =>
        obtain ⟨s2, os⟩ := r
        rw [e2] at hr
        simp only [Option.some.injEq, Prod.mk.injEq] at hr
        obtain ⟨g1, g2⟩ := ih _ _ (inv_flush hf h) hl hfit' (by omega) s2 os e2
        rw [← hr.2, g1, ← hr.1]
        exact ⟨rfl, g2⟩
    | flush =>
      simp only [run, step] at hr
      cases e2 : run c fuel (flush c s) ops with
      | none => rw [e2] at hr; simp at hr
      | some r =>
        obtain ⟨s2, os⟩ := r
        rw [e2] at hr
        simp only [Option.some.injEq, Prod.mk.injEq] at hr
        obtain ⟨g1, g2⟩ := ih _ _ (inv_flush hf h) hl hfit' (by omega) s2 os e2
        rw [← hr.2, g1, ← hr.1]
        exact ⟨rfl, g2⟩

/-- **C10 (partial).** For every cache limit and every session whose calls all return, every read returns
exactly the elements appended to that array, in order, whatever was evicted in between. No restriction on the
order in which arrays are used. Missing: sessions in which a call never returns (`cached_store_hangs`). -/
theorem cached_store_keeps_everything_partial (c : Cfg) (hf : 0 < c.digitsPerFolder)
    (hw : c.elementByteSize ≤ 8) (otherDirs : Path → Bool) (limit : Int) (fuel : Nat) (ops : List Op)
    (hfit : ∀ op ∈ ops, op.fits c.elementByteSize) (hlen : ops.length < 2 ^ 63) (s' : CMS) (outs : List Out)
    (hr : run c fuel (create c otherDirs limit) ops = some (s', outs)) :
    outs = (specRun c.perFile [] ops).2 :=
  (run_inv hf fuel ops _ [] (inv_create c otherDirs limit) ⟨hw, by simp, by simp⟩ hfit (by simpa using hlen)
    s' outs hr).1

/-- **C10, bookkeeping (partial).** The element count that is compared with the limit never underestimates
the number of elements really held in the cache. Missing: it can overestimate it
(`cached_count_drifts`). -/
theorem cached_count_bounds_held_partial (c : Cfg) (hf : 0 < c.digitsPerFolder)
    (hw : c.elementByteSize ≤ 8) (otherDirs : Path → Bool) (limit : Int) (fuel : Nat) (ops : List Op)
    (hfit : ∀ op ∈ ops, op.fits c.elementByteSize) (hlen : ops.length < 2 ^ 63) (s' : CMS) (outs : List Out)
    (hr : run c fuel (create c otherDirs limit) ops = some (s', outs)) :
    heldAll c s'.cache ≤ s'.count :=
  (run_inv hf fuel ops _ [] (inv_create c otherDirs limit) ⟨hw, by simp, by simp⟩ hfit (by simpa using hlen)
    s' outs hr).2.count

/-- A session that fills a file, reloads it, and then evicts it. -/
def driftOps : List Op :=
  [.append 0 1, .append 0 2, .flush, .append 0 3, .append 10 4, .append 20 5]

/-- **C10, where the bookkeeping is wrong.** After this session (limit 4) the store counts 3 cached elements
but holds 2: the element appended to the evicted file is never subtracted, because the tally of the cached
value is not updated by appends. -/
theorem cached_count_drifts :
    ∃ s outs, run demo 5 (create demo (fun _ => false) 4) driftOps = some (s, outs) ∧
      s.count = 3 ∧ heldAll demo s.cache = 2 := by
  have : (run demo 5 (create demo (fun _ => false) 4) driftOps).map
      (fun r => (r.1.count, heldAll demo r.1.cache)) = some (3, 2) := by decide +kernel
  cases h : run demo 5 (create demo (fun _ => false) 4) driftOps with
  | none => rw [h] at this; simp at this
  | some r =>
    rw [h] at this
    simp at this
    exact ⟨r.1, r.2, rfl, this.1, this.2⟩

/-- The hypotheses of the two partial theorems are met by that session, which evicts a file. -/
example : (run demo 5 (create demo (fun _ => false) 4) (driftOps ++ [.get 0])).map (·.2) =
    some [.done, .done, .done, .done, .done, .done, .array [1, 2, 3] false] ∧
    ∀ op ∈ driftOps, op.fits demo.elementByteSize :=
  ⟨by decide +kernel, by simp [driftOps, Op.fits, WordFile.fits, demo]⟩

theorem trimLoop_stuck {c : Cfg} {ex : Path} {s : CMS} (hc : s.count ≥ s.limit)
    (ho : oldest ex s.counter s.cache = none) (fuel : Nat) : trimLoop c ex fuel s = none := by
  have ht : trimCache c s ex = s := by unfold trimCache; rw [ho]
  induction fuel with
  | zero => simp [trimLoop, hc]
  | succ n ih => rw [trimLoop, if_pos hc, ht, ih]

/-- The state after `m+1` appends to array 0. -/
theorem fill_state (c : Cfg) (od : Path → Bool) (limit : Nat) (v : Int) (fuel m : Nat) (hm : m < limit)
    (ops : List Op) :
    ∃ s e, run c fuel (create c od limit) (List.replicate (m + 1) (.append 0 v) ++ ops) =
        (run c fuel s ops).map (fun r => (r.1, List.replicate (m + 1) .done ++ r.2)) ∧
      s.cache = [e] ∧ e.key = keyOf c 0 ∧ e.lastAccess = m + 1 ∧ s.counter = m + 1 ∧ s.count = (m : Int) + 1 ∧
      s.limit = limit ∧ s.fs.files = fun _ => none := by
  induction m generalizing ops with
  | zero =>
    have hlt : ¬ ((0 : Int) ≥ limit) := by omega
    have ht : (IAA.loadMissing (IAA.new c.perFile c.elementByteSize)).elementTally = 0 := rfl
    have hloop : ∀ s : CMS, s.count = 0 → s.limit = limit → trimLoop c (keyOf c 0) fuel s = some s := by
      intro s h1 h2
      cases fuel <;> simp [trimLoop, h1, h2] <;> omega
    have hload : append c fuel (create c od limit) 0 v = some
        { fs := (create c od limit).fs, limit := limit, count := 1, counter := 1,
          cache := [{ key := keyOf c 0, folderPath := c.folderPath 0,
                      iaa := { IAA.appendToArray (IAA.loadMissing (IAA.new c.perFile c.elementByteSize))
                        (0 % c.perFile) v with elementTally := 0 }, lastAccess := 1 }] } := by
      unfold append loadIntoCache
      simp only [create, List.any_nil, Bool.false_eq_true, if_false, loadFile, ht]
      rw [hloop _ (by simp) rfl]
      simp [ht]
    have hrun : ∀ s, append c fuel (create c od limit) 0 v = some s →
        run c fuel (create c od limit) (List.replicate (0 + 1) (.append 0 v) ++ ops) =
        (run c fuel s ops).map (fun r => (r.1, List.replicate (0 + 1) .done ++ r.2)) := by
      intro s hs
      simp only [List.replicate_succ, List.replicate_zero, List.cons_append, List.nil_append, run, step]
      rw [hs]
      dsimp only
      cases run c fuel s ops <;> rfl
    exact ⟨_, _, hrun _ hload, rfl, rfl, rfl, rfl, rfl, rfl, rfl⟩
  | succ m ih =>
    obtain ⟨s, e, h1, h2, h3, h4, h5, h6, h7, h8⟩ := ih (by omega) (.append 0 v :: ops)
    have happ : append c fuel s 0 v = some
        { s with count := s.count + 1, counter := s.counter + 1,
                 cache := [{ e with iaa := { IAA.appendToArray e.iaa (0 % c.perFile) v with
                    elementTally := e.iaa.elementTally }, lastAccess := s.counter + 1 }] } := by
      unfold append loadIntoCache
      simp [h2, h3]
    have hrun : ∀ s1, append c fuel s 0 v = some s1 →
        run c fuel (create c od limit) (List.replicate (m + 1 + 1) (.append 0 v) ++ ops) =
        (run c fuel s1 ops).map (fun r => (r.1, List.replicate (m + 1 + 1) .done ++ r.2)) := by
      intro s1 hs
      have : List.replicate (m + 1 + 1) (Op.append 0 v) ++ ops =
          List.replicate (m + 1) (.append 0 v) ++ (.append 0 v :: ops) := by
        rw [List.replicate_succ']; simp
      rw [this, h1]
      simp only [run, step]
      rw [hs]
      dsimp only
      cases run c fuel s1 ops with
      | none => rfl
      | some r => simp [List.replicate_succ' (n := m + 1)]
    exact ⟨_, _, hrun _ happ, rfl, h3, by simp [h5], by simp [h5], by simp [h6], h7, h8⟩

/-- **C10, where the code never returns.** For every cache limit `L ≥ 1`, after `L` appends to array 0 an
append to any array of another file never returns: the trimming loop repeats forever whatever the number of
iterations allowed, because the most recently used file is never eligible for eviction. -/
theorem cached_store_hangs (c : Cfg) (hf : 0 < c.digitsPerFolder) (od : Path → Bool) (L : Nat) (hL : 1 ≤ L)
    (v w : Int) (k : Nat) (hk : c.perFile ≤ k) (fuel : Nat) :
    run c fuel (create c od L) (List.replicate L (.append 0 v) ++ [.append k w]) = none := by
  obtain ⟨m, rfl⟩ : ∃ m, L = m + 1 := ⟨L - 1, by omega⟩
  obtain ⟨s, e, h1, h2, h3, h4, h5, h6, h7, h8⟩ := fill_state c od (m + 1) v fuel m (by omega) [.append k w]
  rw [h1]
  have hne : keyOf c 0 ≠ keyOf c k := by
    intro e
    have := (keyOf_iff hf _ _).mp e
    rw [Nat.zero_div] at this
    have := Nat.div_pos hk (perFile_pos c)
    omega
  have : append c fuel s k w = none := by
    unfold append loadIntoCache
    simp only [h2, h3, List.any_cons, List.any_nil, Bool.or_false, hne, decide_false, Bool.false_eq_true,
      if_false, loadFile, h8]
    rw [trimLoop_stuck]
    · simp [h6, h7, IAA.loadMissing]
    · simp [oldest, h4, h5, h3, hne]
  simp [run, step, this]

/-! ### No hang while fewer elements than the limit have been appended -/

theorem sum_indicator {α : Type} [DecidableEq α] (ks : List α) (hn : ks.Nodup) (a : α) :
    (ks.map fun κ => if a = κ then 1 else 0).sum ≤ 1 := by
  induction ks with
  | nil => simp
  | cons x l ih =>
    rw [List.nodup_cons] at hn
    simp only [List.map_cons, List.sum_cons]
    by_cases h : a = x
    · subst h
      have : (l.map fun κ => if a = κ then 1 else 0) = l.map fun _ => 0 := by
        apply List.map_congr_left
        intro y hy
        rw [if_neg]; rintro rfl; exact hn.1 hy
      have hz : ∀ l : List α, (l.map fun _ => 0).sum = 0 := by
        intro l; induction l with
        | nil => rfl
        | cons _ l ih => simp [ih]
      rw [this, hz]; simp
    · rw [if_neg h]; have := ih hn.2; omega

theorem sum_filters {α β : Type} [DecidableEq β] (f : α → β) (ks : List β) (hn : ks.Nodup) (log : List α) :
    (ks.map fun κ => (log.filter fun x => f x = κ).length).sum ≤ log.length := by
  induction log with
  | nil =>
    have hz : ∀ l : List β, (l.map fun _ => 0).sum = 0 := by
      intro l; induction l with
      | nil => rfl
      | cons _ l ih => simp [ih]
    simp [hz]
  | cons x log ih =>
    have : (ks.map fun κ => ((x :: log).filter fun x => f x = κ).length).sum =
        (ks.map fun κ => if f x = κ then 1 else 0).sum +
          (ks.map fun κ => (log.filter fun x => f x = κ).length).sum := by
      have hadd : ∀ l : List β, (l.map fun κ => ((x :: log).filter fun x => f x = κ).length).sum =
        (l.map fun κ => if f x = κ then 1 else 0).sum +
          (l.map fun κ => (log.filter fun x => f x = κ).length).sum := by
        intro l
        induction l with
        | nil => rfl
        | cons κ l ihl =>
          simp only [List.map_cons, List.sum_cons, ihl]
          by_cases h : f x = κ
          · simp [h]; omega
          · simp [h]; omega
      exact hadd ks
    have h1 := sum_indicator ks hn (f x)
    simp only [List.length_cons]
    omega

theorem file_elems_count (N q : Nat) (hN : 0 < N) (log : List (Nat × Int)) :
    ((List.range N).map fun i => (elems log (q * N + i)).length).sum =
      (log.filter fun e => e.1 / N = q).length := by
  induction log with
  | nil =>
    have hz : ∀ l : List Nat, (l.map fun _ => 0).sum = 0 := by
      intro l; induction l with
      | nil => rfl
      | cons _ l ih => simp [ih]
    simp [elems, hz]
  | cons x log ih =>
    have he : ∀ j, (elems (x :: log) j).length = (if j = x.1 then 1 else 0) + (elems log j).length := by
      intro j
      unfold elems
      by_cases h : j = x.1
      · subst h; simp; omega
      · simp [h, Ne.symm h]
    by_cases hq : x.1 / N = q
    · have hx : x.1 = q * N + x.1 % N := by
        have := Nat.div_add_mod x.1 N
        rw [hq, Nat.mul_comm] at this; omega
      have := sum_map_update (List.range N) List.nodup_range (fun i => (elems log (q * N + i)).length) (x.1 % N)
        (by simpa using Nat.mod_lt _ hN)
      rw [List.filter_cons_of_pos (by simpa using hq), List.length_cons, ← ih, ← this]
      congr 1
      apply List.map_congr_left
      intro i hi
      rw [he]
      by_cases h : i = x.1 % N
      · subst h; rw [if_pos hx.symm, if_pos rfl]; omega
      · rw [if_neg (by omega), if_neg h]; omega
    · rw [List.filter_cons_of_neg (by simpa using hq), ← ih]
      congr 1
      apply List.map_congr_left
      intro i hi
      rw [he, if_neg]
      · omega
      · intro e
        apply hq
        rw [← e, Nat.mul_comm, Nat.mul_add_div hN, Nat.div_eq_of_lt (by simpa using hi)]; simp

theorem held_eq {c : Cfg} {a : IAA} {log : List (Nat × Int)} {k : Nat} (h : Holds c a log k) :
    held c.perFile a = (log.filter fun e => e.1 / c.perFile = k / c.perFile).length := by
  rw [← file_elems_count _ _ (perFile_pos c)]
  unfold held
  congr 1
  apply List.map_congr_left
  intro i hi
  obtain ⟨e1, e2⟩ := index_of (perFile_pos c) k i (by simpa using hi)
  have := h.data _ e1
  rw [e2] at this
  rw [this]

theorem heldAll_le {c : Cfg} (hf : 0 < c.digitsPerFolder) {s : CMS} {log : List (Nat × Int)} {ex : Option Path}
    (h : Inv c s log ex) : heldAll c s.cache ≤ log.length := by
  have h1 := sum_filters (fun e : Nat × Int => keyOf c e.1) _ h.nodup log
  have h2 : heldAll c s.cache =
      (((s.cache.map (·.key)).map fun κ => (log.filter fun x => keyOf c x.1 = κ).length).sum : Nat) := by
    unfold heldAll
    have hent := h.entries
    generalize s.cache = l at hent
    induction l with
    | nil => rfl
    | cons x l ih =>
      obtain ⟨k, a1, _, _, a4⟩ := hent x (by simp)
      have := held_eq a4
      simp only [List.map_cons, List.sum_cons, ih (fun e he => hent e (by simp [he]))]
      rw [this, a1]
      simp only [keyOf_iff hf]
      omega
  omega

/-- As long as fewer elements were appended than the limit, appending one more returns. -/
theorem append_below {c : Cfg} (hf : 0 < c.digitsPerFolder) {fuel : Nat} {s : CMS} {log : List (Nat × Int)} {limit : Int}
    (h : Inv c s log none) (hl : LogOK c log) (hcnt : s.count = heldAll c s.cache) (hlm : s.limit = limit) (hlim : (log.length : Int) < limit)
    {k : Nat} {v : Int} : ∃ s2, append c fuel s k v = some s2 ∧ s2.count = heldAll c s2.cache ∧ s2.limit = limit := by
  have hload : ∃ s1, loadIntoCache c fuel s k = some s1 ∧ s1.count = heldAll c s1.cache ∧ s1.limit = limit := by
    unfold loadIntoCache
    by_cases hc : keyOf c k ∈ s.cache.map (·.key)
    · have : (s.cache.any fun e => e.key = keyOf c k) = true := by
        obtain ⟨e, he, hk⟩ := List.mem_map.mp hc
        exact List.any_eq_true.mpr ⟨e, he, by simpa using hk⟩
      exact ⟨s, by rw [if_pos this], hcnt, hlm⟩
    · have hn : ¬ (s.cache.any fun e => e.key = keyOf c k) = true := by
        intro ha
        obtain ⟨e, he, hk⟩ := List.any_eq_true.mp ha
        exact hc (List.mem_map.mpr ⟨e, he, by simpa using hk⟩)
      rw [if_neg hn]
      obtain ⟨x, e, h1, h2, _, h4⟩ := load_tally (h.files k hc) hl
      rw [h1]
      have hi := inv_loaded h hc h2 h4
      have hle := heldAll_le hf hi
      refine ⟨{ s with
        cache := s.cache ++ [{ key := keyOf c k, folderPath := c.folderPath k, iaa := x, lastAccess := 0 }]
        count := s.count + x.elementTally }, ?_, ?_, hlm⟩
      · have hlt : ¬ (s.count + x.elementTally ≥ s.limit) := by
          simp only [heldAll, List.map_append, List.sum_append, List.map_cons, List.map_nil,
            List.sum_cons, List.sum_nil] at hle hcnt
          omega
        cases fuel <;> simp only [trimLoop] <;> rw [if_neg hlt]
      · simp only [heldAll, List.map_append, List.sum_append, List.map_cons, List.map_nil,
            List.sum_cons, List.sum_nil] at hcnt ⊢
        omega
  obtain ⟨s1, e1, hc1, hlm1⟩ := hload
  obtain ⟨hi1, hin1⟩ := inv_loadIntoCache hf h hl e1
  unfold append
  rw [e1]
  refine ⟨_, rfl, ?_, hlm1⟩
  simp only
  rw [sum_update_entry hi1.nodup hin1 (fun e => { e with
    iaa := { IAA.appendToArray e.iaa (k % c.perFile) v with elementTally := e.iaa.elementTally }
    lastAccess := s1.counter + 1 }) (fun e => by
      simp only [held_tally]
      exact held_append _ _ (Nat.mod_lt _ (perFile_pos c)) _)]
  omega

/-- The appends among the calls. -/
def isAppend : Op → Bool
  | .append .. => true
  | _ => false

/-- **C10 (partial).** If the number of appends in a session stays below the cache limit, every call returns
(whatever the order of arrays, and however often it is read or flushed), and every read returns exactly the elements appended.
Missing: longer sessions, which can hang (`cached_store_hangs`). -/
theorem cached_store_below_limit_partial (c : Cfg) (hf : 0 < c.digitsPerFolder)
    (hw : c.elementByteSize ≤ 8) (otherDirs : Path → Bool) (limit : Int) (fuel : Nat) (ops : List Op)
    (hfit : ∀ op ∈ ops, op.fits c.elementByteSize) (hlen : ops.length < 2 ^ 63) (hlim : (ops.countP isAppend : Int) < limit) :
    ∃ s', run c fuel (create c otherDirs limit) ops = some (s', (specRun c.perFile [] ops).2) := by
  have key : ∀ (ops : List Op) (s : CMS) (log : List (Nat × Int)), Inv c s log none → LogOK c log →
      s.count = heldAll c s.cache → s.limit = limit →
      (∀ op ∈ ops, op.fits c.elementByteSize) → log.length + ops.length < 2 ^ 63 →
      ((log.length + ops.countP isAppend : Nat) : Int) < limit →
      ∃ s', run c fuel s ops = some (s', (specRun c.perFile log ops).2) := by
    intro ops
    induction ops with
    | nil => intro s log _ _ _ _ _ _ _; exact ⟨s, rfl⟩
    | cons op ops ih =>
      intro s log h hl hcnt hlm hfit hlen hlim
      have hfit' : ∀ op ∈ ops, op.fits c.elementByteSize := fun o ho => hfit o (by simp [ho])
      simp only [List.length_cons] at hlen
      cases op with
      | append k v =>
        rw [List.countP_cons_of_pos rfl] at hlim
        obtain ⟨s2, e2, hc2, hlm2⟩ := append_below hf h hl hcnt hlm (by omega) (k := k) (v := v) (fuel := fuel)
        have h2 := inv_append hf h hl e2
        have hl1 : LogOK c (log ++ [(k, v)]) := by
          refine ⟨hw, ?_, by simp; omega⟩
          intro e he
          rcases List.mem_append.mp he with he | he
          · exact hl.fit e he
          · simp at he; subst he; exact hfit (.append k v) (by simp)
        obtain ⟨s', e'⟩ := ih s2 _ h2 hl1 hc2 hlm2 hfit' (by simp; omega) (by simp; omega)
        exact ⟨s', by simp [run, step, e2, e', specRun, specStep]⟩
      | get k =>
        rw [List.countP_cons_of_neg (by simp [isAppend])] at hlim
        have h1 := inv_flush hf h
        obtain ⟨s', e'⟩ := ih (flush c s) _ h1 hl (by simp [flush, heldAll]) hlm hfit' (by omega) (by omega)
        exact ⟨s', by simp [run, step, inv_get hf h hl k, e', specRun, specStep]⟩
      | flush =>
        rw [List.countP_cons_of_neg (by simp [isAppend])] at hlim
        have h1 := inv_flush hf h
        obtain ⟨s', e'⟩ := ih (flush c s) _ h1 hl (by simp [flush, heldAll]) hlm hfit' (by omega) (by omega)
        exact ⟨s', by simp [run, step, e', specRun, specStep]⟩
  exact key ops _ [] (inv_create c otherDirs limit) ⟨hw, by simp, by simp⟩ (by simp [create, heldAll]) rfl hfit
    (by simpa using hlen) (by simpa using hlim)

example : (demoOps.countP isAppend : Int) < 8000000000 / 2 ∧ ∀ op ∈ demoOps, op.fits demo.elementByteSize := by
  refine ⟨by decide, by simp [demoOps, Op.fits, WordFile.fits, demo]⟩

example : demo.perFile ≤ 10 ∧ 0 < demo.digitsPerFolder := by decide

end Verif.CachedMapStore
