import Verif.Model.FaultyArrays
import Verif.Props.KilledSave

/-!
# C119: an array store on a failing disk
-/

namespace Verif.FaultyArrays

open Verif.IAA (IAA)
open Verif.MapStore (Path FS Cfg Op Out elems fileUsed Holds LogOK FileOK demo)
open Verif.CachedMapStore (CMS Entry keyOf filePath2 oldest Inv EntryOK)
open Verif.KilledSave (appended)

/-! ## Failed saves touch only what is in the cache -/

theorem filePath2_inj {c : Cfg} {a b : Path} (h : filePath2 c a = filePath2 c b) : a = b := by
  unfold filePath2 at h
  have h1 := List.append_cancel_left h
  simp only [List.cons.injEq, true_and] at h1
  exact List.append_cancel_right h1

theorem writeFile_files {fs fs' : FS} {p : Path} {b : Bytes} {q : Path} (hq : q ≠ p) (h : fs' = (fs.writeFile p b).getD fs) : fs'.files q = fs.files q := by
  rw [h, KilledSave.writeFile_other fs p q b hq]

theorem save_other {c : Cfg} {fate : Fate} {fs : FS} {e : Entry} {q : Path} (hq : q ≠ filePath2 c e.key) : (save c fate fs e).1.files q = fs.files q := by
  cases fate with
  | noDir => rfl
  | refused => rfl
  | cut m => exact writeFile_files (fs := fs.mkdirAll e.folderPath) hq rfl
  | ok => exact writeFile_files (fs := fs.mkdirAll e.folderPath) hq rfl

theorem save_ok {c : Cfg} {fate : Fate} {fs fs' : FS} {e : Entry} (h : save c fate fs e = (fs', true)) : fs' = CachedMapStore.save c fs e := by
  cases fate with
  | ok => injection h with h; exact h.symm
  | _ => simp [save] at h

theorem inv_fs {c : Cfg} {s : CMS} {log : List (Nat × Int)} {ex : Option Path} {fs : FS} (h : Inv c s log ex)
    (hfs : ∀ k, keyOf c k ∉ s.cache.map (·.key) → fs.files (c.filePath k) = s.fs.files (c.filePath k)) : Inv c { s with fs := fs } log ex :=
  ⟨h.nodup, h.entries, h.tallies, fun k hk => KilledSave.fileOK_at (hfs k hk) (h.files k hk), h.count⟩

theorem other_path {c : Cfg} {s : CMS} {e : Entry} (he : e ∈ s.cache) {k : Nat} (hk : keyOf c k ∉ s.cache.map (·.key)) : c.filePath k ≠ filePath2 c e.key := by
  rw [← CachedMapStore.filePath2_keyOf]
  intro h
  exact hk (by rw [filePath2_inj h]; exact List.mem_map_of_mem he)

theorem inv_trim {c : Cfg} (hf : 0 < c.digitsPerFolder) {x : F} {log : List (Nat × Int)} {ex : Path} (h : Inv c x.s log (some ex)) :
    Inv c (trimCache c x ex).s log (some ex) ∧ (ex ∈ x.s.cache.map (·.key) → ex ∈ (trimCache c x ex).s.cache.map (·.key)) ∧
    (trimCache c x ex).reads = x.reads := by
  have hg := CachedMapStore.inv_trim hf h
  unfold CachedMapStore.trimCache at hg
  unfold trimCache
  cases ho : oldest ex x.s.counter x.s.cache with
  | none => exact ⟨h, id, rfl⟩
  | some e =>
    rw [ho] at hg
    have hmem := (CachedMapStore.oldest_some ho).1
    dsimp only at hg ⊢
    generalize hq : save c (x.saves 0) x.s.fs e = q
    obtain ⟨fs, ok⟩ := q
    cases ok with
    | true =>
      rw [← save_ok hq] at hg
      exact ⟨hg.1, hg.2, rfl⟩
    | false =>
      refine ⟨inv_fs h fun k hk => ?_, id, rfl⟩
      have := save_other (fate := x.saves 0) (fs := x.s.fs) (other_path hmem hk)
      rw [hq] at this
      exact this

theorem inv_trimLoop {c : Cfg} (hf : 0 < c.digitsPerFolder) {log : List (Nat × Int)} {ex : Path} : ∀ (fuel : Nat) {x x' : F},
    Inv c x.s log (some ex) → ex ∈ x.s.cache.map (·.key) → trimLoop c ex fuel x = some x' →
    Inv c x'.s log (some ex) ∧ ex ∈ x'.s.cache.map (·.key) ∧ x'.reads = x.reads
  | 0, x, x', h, hin, hr => by
    unfold trimLoop at hr
    split at hr
    · cases hr
    · injection hr with hr; subst hr; exact ⟨h, hin, rfl⟩
  | n + 1, x, x', h, hin, hr => by
    unfold trimLoop at hr
    split at hr
    · obtain ⟨h1, h2, h3⟩ := inv_trim hf h
      obtain ⟨i1, i2, i3⟩ := inv_trimLoop hf n h1 (h2 hin) hr
      exact ⟨i1, i2, i3.trans h3⟩
    · injection hr with hr; subst hr; exact ⟨h, hin, rfl⟩

/-- All reads to come succeed. -/
def Reads (x : F) : Prop := ∀ n, x.reads n = true

theorem inv_loadIntoCache {c : Cfg} (hf : 0 < c.digitsPerFolder) {fuel : Nat} {x x' : F} {log : List (Nat × Int)} (h : Inv c x.s log none)
    (hl : LogOK c log) (hrd : Reads x) {k : Nat} (hr : loadIntoCache c fuel x k = some x') :
    Inv c x'.s log (some (keyOf c k)) ∧ keyOf c k ∈ x'.s.cache.map (·.key) ∧ Reads x' := by
  unfold loadIntoCache at hr
  by_cases hc : keyOf c k ∈ x.s.cache.map (·.key)
  · have : (x.s.cache.any fun e => e.key = keyOf c k) = true := by
      obtain ⟨e, he, hk⟩ := List.mem_map.mp hc
      exact List.any_eq_true.mpr ⟨e, he, by simpa using hk⟩
    rw [if_pos this] at hr
    injection hr with hr
    subst hr
    refine ⟨⟨h.nodup, ?_, h.tallies, h.files, h.count⟩, hc, hrd⟩
    intro e he
    obtain ⟨k', h1, h2, h3, h4⟩ := h.entries e he
    exact ⟨k', h1, h2, fun _ => h3 (by simp), h4⟩
  · have hn : ¬ (x.s.cache.any fun e => e.key = keyOf c k) = true := by
      intro ha
      obtain ⟨e, he, hk⟩ := List.any_eq_true.mp ha
      exact hc (List.mem_map.mpr ⟨e, he, by simpa using hk⟩)
    rw [if_neg hn] at hr
    obtain ⟨y, e, h1, h2, _, h4⟩ := CachedMapStore.load_tally (h.files k hc) hl
    unfold loadFile at hr
    rw [if_pos (hrd 0), h1] at hr
    obtain ⟨i1, i2, i3⟩ := inv_trimLoop hf fuel (CachedMapStore.inv_loaded h hc h2 h4) (by simp) hr
    exact ⟨i1, i2, fun n => by rw [i3]; exact hrd (n + 1)⟩

theorem inv_append {c : Cfg} (hf : 0 < c.digitsPerFolder) {fuel : Nat} {x x' : F} {log : List (Nat × Int)} (h : Inv c x.s log none)
    (hl : LogOK c log) (hrd : Reads x) {k : Nat} {v : Int} (hr : append c fuel x k v = some x') :
    Inv c x'.s (log ++ [(k, v)]) none ∧ Reads x' := by
  unfold append at hr
  cases e1 : loadIntoCache c fuel x k with
  | none => rw [e1] at hr; cases hr
  | some x1 =>
    rw [e1] at hr
    injection hr with hr
    obtain ⟨h1, hin, h2⟩ := inv_loadIntoCache hf h hl hrd e1
    subst hr
    exact ⟨CachedMapStore.inv_put hf h1 hin, h2⟩

theorem saveAll_other {c : Cfg} : ∀ (es : List Entry) (fs : FS) (saves : Nat → Fate) {q : Path}, (∀ e ∈ es, q ≠ filePath2 c e.key) →
    (saveAll c es fs saves).1.files q = fs.files q
  | [], _, _, _, _ => rfl
  | e :: es, fs, saves, q, hq => by
    have hs := save_other (fate := saves 0) (fs := fs) (hq e (List.mem_cons_self ..))
    unfold saveAll
    generalize save c (saves 0) fs e = r at hs ⊢
    obtain ⟨fs', ok⟩ := r
    cases ok with
    | false => exact hs
    | true => exact (saveAll_other es fs' _ fun y hy => hq y (List.mem_cons_of_mem _ hy)).trans hs

theorem saveAll_ok {c : Cfg} : ∀ (es : List Entry) (fs fs' : FS) (saves saves' : Nat → Fate), saveAll c es fs saves = (fs', saves', true) →
    fs' = es.foldl (CachedMapStore.save c) fs
  | [], _, _, _, _, h => by injection h with h; exact h.symm
  | e :: es, fs, fs', saves, saves', h => by
    unfold saveAll at h
    generalize hq : save c (saves 0) fs e = r at h
    obtain ⟨fs1, ok⟩ := r
    cases ok with
    | false => simp at h
    | true =>
      rw [List.foldl_cons, ← save_ok hq]
      exact saveAll_ok es fs1 fs' _ saves' h

/-- Go walks the map in some order. -/
def Walks (order : List Entry → List Entry) : Prop := ∀ l, (order l).Perm l

theorem inv_flush {c : Cfg} (hf : 0 < c.digitsPerFolder) {order : List Entry → List Entry} (ho : Walks order) {x x' : F} {ok : Bool}
    {log : List (Nat × Int)} (h : Inv c x.s log none) (hr : flush c order x = (x', ok)) :
    Inv c x'.s log none ∧ x'.reads = x.reads ∧ (ok = true → x'.s.cache = []) := by
  unfold flush at hr
  generalize hq : saveAll c (order x.s.cache) x.s.fs x.saves = q at hr
  obtain ⟨fs, saves, b⟩ := q
  cases b with
  | false =>
    injection hr with h1 h2
    subst h1 h2
    refine ⟨inv_fs h fun k hk => ?_, rfl, fun e => by cases e⟩
    have := saveAll_other (c := c) (order x.s.cache) x.s.fs x.saves (q := c.filePath k) fun e he => other_path ((ho _).mem_iff.1 he) hk
    rw [hq] at this
    exact this
  | true =>
    injection hr with h1 h2
    subst h1 h2
    refine ⟨⟨by simp, by simp, by simp, fun k _ => ?_, by simp [CachedMapStore.heldAll]⟩, rfl, fun _ => rfl⟩
    rw [saveAll_ok _ _ _ _ _ hq]
    refine CachedMapStore.flush_files hf _ _ (((ho _).map _).nodup_iff.2 h.nodup) (fun e he => h.entries e ((ho _).mem_iff.1 he)) (fun k hk => ?_) k
    exact h.files k fun hin => hk (((ho _).map _).mem_iff.2 hin)

theorem inv_get {c : Cfg} (hf : 0 < c.digitsPerFolder) {order : List Entry → List Entry} (ho : Walks order) {x x' : F} {l : List Int} {er : Bool}
    {log : List (Nat × Int)} (h : Inv c x.s log none) (hl : LogOK c log) (hrd : Reads x) {k : Nat} (hr : getArray c order x k = some (x', l, er)) :
    Inv c x'.s log none ∧ Reads x' ∧ (er = false → l = elems log k) := by
  unfold getArray at hr
  generalize hq : flush c order x = q at hr
  obtain ⟨x1, ok⟩ := q
  obtain ⟨h1, h2, h3⟩ := inv_flush hf ho h hq
  have hrd1 : Reads x1 := fun n => by rw [h2]; exact hrd n
  cases ok with
  | false =>
    injection hr with hr
    simp only [Prod.mk.injEq] at hr
    obtain ⟨rfl, rfl, rfl⟩ := hr
    exact ⟨h1, hrd1, fun e => by cases e⟩
  | true =>
    obtain ⟨y, e, hload, hy, he, _⟩ := CachedMapStore.load_tally (h1.files k (by rw [h3 rfl]; simp)) hl
    dsimp only [loadFile] at hr
    rw [if_pos (hrd1 0), hload] at hr
    cases e with
    | true =>
      simp only [Option.some.injEq, Prod.mk.injEq] at hr
      obtain ⟨rfl, rfl, rfl⟩ := hr
      exact ⟨h1, fun n => hrd1 (n + 1), fun e => by cases e⟩
    | false =>
      simp only [Option.some.injEq, Prod.mk.injEq] at hr
      obtain ⟨rfl, rfl, rfl⟩ := hr
      exact ⟨h1, fun n => hrd1 (n + 1), fun _ => hy.data k rfl⟩

theorem run_inv {c : Cfg} (hf : 0 < c.digitsPerFolder) {order : List Entry → List Entry} (ho : Walks order) (fuel : Nat) :
    ∀ (ops : List Op) {x x' : F} {log : List (Nat × Int)} {outs : List Out}, Inv c x.s log none → LogOK c log → Reads x →
      (∀ op ∈ ops, op.fits c.elementByteSize) → log.length + ops.length < 2 ^ 63 → run c order fuel x ops = some (x', outs) →
      Inv c x'.s (log ++ appended ops) none ∧ LogOK c (log ++ appended ops) ∧ Reads x'
  | [], x, x', log, outs, h, hl, hrd, _, _, hr => by
    injection hr with hr
    injection hr with h1 h2
    subst h1
    rw [appended, List.append_nil]
    exact ⟨h, hl, hrd⟩
  | op :: ops, x, x', log, outs, h, hl, hrd, hfit, hlen, hr => by
    simp only [run] at hr
    simp only [List.length_cons] at hlen
    have hfit' : ∀ op ∈ ops, op.fits c.elementByteSize := fun o ho => hfit o (List.mem_cons_of_mem _ ho)
    cases hs : step c order fuel x op with
    | none => rw [hs] at hr; cases hr
    | some q =>
      obtain ⟨x1, o⟩ := q
      rw [hs] at hr
      dsimp only at hr
      cases hr2 : run c order fuel x1 ops with
      | none => rw [hr2] at hr; cases hr
      | some q2 =>
        obtain ⟨x2, os⟩ := q2
        rw [hr2] at hr
        simp only [Option.map_some, Option.some.injEq, Prod.mk.injEq] at hr
        obtain ⟨rfl, rfl⟩ := hr
        cases op with
        | append k v =>
          simp only [step] at hs
          cases ha : append c fuel x k v with
          | none => rw [ha] at hs; cases hs
          | some y =>
            rw [ha] at hs
            simp only [Option.map_some, Option.some.injEq, Prod.mk.injEq] at hs
            obtain ⟨rfl, rfl⟩ := hs
            obtain ⟨a1, a2⟩ := inv_append hf h hl hrd ha
            have hl1 : LogOK c (log ++ [(k, v)]) := by
              refine ⟨hl.width, ?_, by simp; omega⟩
              intro e he
              rcases List.mem_append.mp he with he | he
              · exact hl.fit e he
              · rw [List.mem_singleton.1 he]; exact hfit (.append k v) (List.mem_cons_self ..)
            have := run_inv hf ho fuel ops a1 hl1 a2 hfit' (by simp; omega) hr2
            rw [List.append_assoc] at this
            exact this
        | get k =>
          simp only [step] at hs
          cases ha : getArray c order x k with
          | none => rw [ha] at hs; cases hs
          | some y =>
            obtain ⟨y, l, er⟩ := y
            rw [ha] at hs
            simp only [Option.map_some, Option.some.injEq, Prod.mk.injEq] at hs
            obtain ⟨rfl, rfl⟩ := hs
            obtain ⟨a1, a2, -⟩ := inv_get hf ho h hl hrd ha
            exact run_inv hf ho fuel ops a1 hl a2 hfit' (by omega) hr2
        | flush =>
          simp only [step] at hs
          generalize hq : flush c order x = q at hs
          obtain ⟨y, ok⟩ := q
          obtain ⟨a1, a2, -⟩ := inv_flush hf ho h hq
          have hy : x1 = y := by cases ok <;> (injection hs with hs; injection hs with hs; exact hs.symm)
          subst hy
          exact run_inv hf ho fuel ops a1 hl (fun n => by rw [a2]; exact hrd n) hfit' (by omega) hr2

theorem inv_openNew (c : Cfg) (od : Path → Bool) (limit : Int) :
    Inv c (openStore (CachedMapStore.create c od limit).fs limit reads saves).s [] none := CachedMapStore.inv_create c od limit

/-! ## The theorems -/

/-- **C119 (partial).** However many saves the disk refuses or cuts short, as long as it lets the store read: a `Sync` that returns nil means that
everything appended so far is in the files, also what an earlier `Sync` failed to save, so that a store opened on them later shows it; and `GetArray` without
an error gives exactly the elements appended. Missing: reads that fail (`a_failed_read_loses_what_was_synced`), and that every call returns
(`a_refusing_disk_hangs_the_store`). -/
theorem nil_sync_means_saved_partial (c : Cfg) (hf : 0 < c.digitsPerFolder) (hw : c.elementByteSize ≤ 8) (order : List Entry → List Entry) (ho : Walks order)
    (otherDirs : Path → Bool) (limit : Int) (fuel : Nat) (reads : Nat → Bool) (hrd : ∀ n, reads n = true) (saves : Nat → Fate) (ops : List Op)
    (hfit : ∀ op ∈ ops, op.fits c.elementByteSize) (hlen : ops.length < 2 ^ 63) {x : F} {outs : List Out}
    (hr : run c order fuel (openStore (CachedMapStore.create c otherDirs limit).fs limit reads saves) ops = some (x, outs)) :
    (∀ x', flush c order x = (x', true) → ∀ limit' k,
      ∃ s, CachedMapStore.getArray c (KilledSave.reopen x'.s.fs limit') k =
        some (s, elems (appended ops) k, !decide (fileUsed c.perFile (appended ops) k))) ∧
    (∀ x' k l, getArray c order x k = some (x', l, false) → l = elems (appended ops) k) := by
  obtain ⟨h1, h2, h3⟩ := run_inv hf ho fuel ops (inv_openNew c otherDirs limit) ⟨hw, by simp, by simp⟩ hrd hfit (by simpa using hlen) hr
  rw [List.nil_append] at h1 h2
  refine ⟨fun x' hx' limit' k => ?_, fun x' k l hg => (inv_get hf ho h1 h2 h3 hg).2.2 rfl⟩
  obtain ⟨i1, -, i3⟩ := inv_flush hf ho h1 hx'
  have hi : Inv c (KilledSave.reopen x'.s.fs limit') (appended ops) none :=
    ⟨by simp [KilledSave.reopen], by simp [KilledSave.reopen], by simp [KilledSave.reopen], fun k _ => i1.files k (by rw [i3 rfl]; simp),
      by simp [KilledSave.reopen, CachedMapStore.heldAll]⟩
  exact ⟨_, CachedMapStore.inv_get hf hi h2 k⟩

/-- **C119: violated.** When the disk refuses every save, an append that finds the cache full does not return: whatever the number of rounds, the
loop that makes room goes on. -/
theorem a_refusing_disk_hangs_the_store (c : Cfg) (x : F) (hsaves : ∀ n, x.saves n ≠ .ok) (k : Nat) (v : Int)
    (hnew : keyOf c k ∉ x.s.cache.map (·.key)) (htally : ∀ a e, loadFile c (x.reads 0) x.s.fs (c.filePath k) = some (a, e) → x.s.limit ≤ x.s.count + a.elementTally) :
    ∀ fuel, append c fuel x k v = none := by
  have hloop : ∀ (fuel : Nat) (ex : Path) (y : F), (∀ n, y.saves n ≠ .ok) → y.s.limit ≤ y.s.count → trimLoop c ex fuel y = none := by
    intro fuel ex
    induction fuel with
    | zero => intro y _ h; unfold trimLoop; rw [if_pos h]
    | succ n ih =>
      intro y hy h
      unfold trimLoop
      rw [if_pos h]
      unfold trimCache
      split
      · exact ih y hy h
      · next e _ =>
        have h0 := hy 0
        dsimp only
        generalize hq : save c (y.saves 0) y.s.fs e = q
        obtain ⟨fs, ok⟩ := q
        cases ok with
        | true =>
          exfalso
          generalize y.saves 0 = fate at h0 hq
          cases fate with
          | ok => exact h0 rfl
          | _ => simp [save] at hq
        | false => exact ih _ (fun m => hy (m + 1)) h
  intro fuel
  unfold append loadIntoCache
  rw [if_neg (by
    intro ha
    obtain ⟨e, he, hk⟩ := List.any_eq_true.mp ha
    exact hnew (List.mem_map.mpr ⟨e, he, by simpa using hk⟩))]
  cases hl : loadFile c (x.reads 0) x.s.fs (c.filePath k) with
  | none => rfl
  | some r =>
    obtain ⟨a, e⟩ := r
    dsimp only
    rw [hloop fuel]
    · exact hsaves
    · exact htally a e hl

/-- **C119: violated.** Whatever is in the files: if the read of a file fails when the first append of a session needs it, the store takes it for empty. No call
returns an error, and after the next `Sync` every array of the file has lost its elements but for the one just appended. -/
theorem a_failed_read_loses_what_was_synced (c : Cfg) (hf : 0 < c.digitsPerFolder) (hw : c.elementByteSize ≤ 8) (order : List Entry → List Entry) (ho : Walks order)
    (fs : FS) (limit : Int) (hlim : 0 < limit) (fuel : Nat) (reads : Nat → Bool) (h0 : reads 0 = false) (hrd : ∀ n, reads (n + 1) = true) (saves : Nat → Fate)
    (hs : ∀ n, saves n = .ok) (k j : Nat) (hj : j / c.perFile = k / c.perFile) (v : Int) (hv : WordFile.fits c.elementByteSize v) :
    ∃ x, run c order fuel (openStore fs limit reads saves) [.append k v, .flush, .get j] =
      some (x, [.done, .done, .array (if j = k then [v] else []) false]) := by
  -- the entry in the cache after the append
  let a : IAA := { IAA.appendToArray (IAA.loadMissing (IAA.new c.perFile c.elementByteSize)) (k % c.perFile) v with elementTally := 0 }
  let e : Entry := { key := keyOf c k, folderPath := c.folderPath k, iaa := a, lastAccess := 1 }
  have hnew : Holds c (IAA.loadMissing (IAA.new c.perFile c.elementByteSize)) [] k := ⟨rfl, rfl, fun _ _ => rfl⟩
  have hold : Holds c a [(k, v)] k := by
    have := hnew.append_same v
    exact ⟨this.count, this.width, this.data⟩
  have happ : append c fuel (openStore fs limit reads saves) k v =
      some ⟨{ fs, limit, count := 1, counter := 1, cache := [e] }, fun n => reads (n + 1), saves⟩ := by
    have hload : loadIntoCache c fuel (openStore fs limit reads saves) k =
        some ⟨{ fs, limit, count := 0, counter := 0, cache := [Entry.mk (keyOf c k) (c.folderPath k)
          (IAA.loadMissing (IAA.new c.perFile c.elementByteSize)) 0] }, fun n => reads (n + 1), saves⟩ := by
      unfold loadIntoCache openStore loadFile
      dsimp only
      rw [if_neg (by simp), if_neg (by rw [h0]; decide)]
      dsimp only
      have hlt : ¬ (0 : Int) + (IAA.loadMissing (IAA.new c.perFile c.elementByteSize)).elementTally ≥ limit := by
        show ¬ (0 : Int) + 0 ≥ limit
        omega
      cases fuel <;> (unfold trimLoop; rw [if_neg hlt]; rfl)
    unfold append
    rw [hload]
    dsimp only
    rw [List.map_cons, List.map_nil, if_pos rfl]
    rfl
  have horder : ∀ y : Entry, order [y] = [y] := fun y => List.perm_singleton.1 (ho [y])
  have hnil : order [] = [] := List.perm_nil.1 (ho [])
  have hflush : flush c order ⟨{ fs, limit, count := 1, counter := 1, cache := [e] }, fun n => reads (n + 1), saves⟩ =
      (⟨{ fs := CachedMapStore.save c fs e, limit, count := 0, counter := 0, cache := [] }, fun n => reads (n + 1), fun n => saves (n + 1)⟩, true) := by
    unfold flush
    dsimp only
    rw [horder]
    simp only [saveAll, save, hs]
  have hfile : FileOK c (CachedMapStore.save c fs e) [(k, v)] j := by
    have := FileOK.write hf (fs := fs) hold ⟨_, List.mem_singleton.2 rfl, rfl⟩ j (fun hne => absurd hj hne)
    exact this.files_eq (CachedMapStore.save_files rfl rfl)
  obtain ⟨y, er, hload, hy, her, -⟩ := CachedMapStore.load_tally hfile ⟨hw, by
    intro p hp
    rw [List.mem_singleton.1 hp]
    exact hv, by simp⟩
  have hu : fileUsed c.perFile [(k, v)] j := ⟨_, List.mem_singleton.2 rfl, hj.symm⟩
  have her' : er = false := by rw [her]; simp [hu]
  subst her'
  have hget : getArray c order ⟨{ fs := CachedMapStore.save c fs e, limit, count := 0, counter := 0, cache := [] }, fun n => reads (n + 1),
      fun n => saves (n + 1)⟩ j = some (⟨{ fs := CachedMapStore.save c fs e, limit, count := 0, counter := 0, cache := [] }, fun n => reads (n + 2),
      fun n => saves (n + 1)⟩, (if j = k then [v] else []), false) := by
    unfold getArray flush
    dsimp only
    rw [hnil]
    simp only [saveAll, loadFile, hrd, if_true, hload]
    rw [hy.data j rfl]
    simp only [elems, List.filter]
    by_cases hjk : j = k
    · rw [if_pos hjk]; subst hjk; simp
    · rw [if_neg hjk]
      have : ¬ k = j := fun e => hjk e.symm
      simp [this]
  refine ⟨⟨{ fs := CachedMapStore.save c fs e, limit, count := 0, counter := 0, cache := [] }, fun n => reads (n + 2), fun n => saves (n + 1)⟩, ?_⟩
  simp only [run, step, happ, hflush, hget, Option.map_some]

/-- When no save is refused the store without a cache is the one of C09. -/
theorem appendUncached_false (c : Cfg) (s : MapStore.MS) (k : Nat) (v : Int) : appendUncached false c s k v = MapStore.append c s k v := by
  unfold appendUncached
  dsimp only
  split
  · rfl
  · next h1 =>
    split
    · next h2 =>
      unfold MapStore.append
      dsimp only
      rw [if_neg h1, if_pos h2]
      simp only [Bool.false_eq_true, if_false]
      rfl
    · rfl

/-- **C119: violated.** In the store without a cache a save that the disk refuses when an append goes on to a later file is not reported: that
append and the next `Sync` return nil, and the elements of the file before are nowhere. -/
theorem a_refused_save_is_not_reported (c : Cfg) (hf : 0 < c.digitsPerFolder) (otherDirs : Path → Bool) (k1 k2 : Nat) (v1 v2 : Int)
    (h1 : 0 < k1 / c.perFile) (h2 : k1 / c.perFile < k2 / c.perFile) :
    ∃ s1 s2 s3 s4, MapStore.append c (MapStore.create c otherDirs) k1 v1 = .ok s1 ∧ appendUncached true c s1 k2 v2 = .ok s2 ∧
      MapStore.flush s2 = .ok s3 ∧ MapStore.getArray c s3 k1 = some (s4, [], true) := by
  have hn : ∀ k, NumberedFolders.fileNum c.digitsPerFile c.digitsPerFolder k = k / c.perFile * c.perFile := NumberedFolders.fileNum_eq hf c.digitsPerFile
  have hpos := MapStore.perFile_pos c
  have hne : c.filePath k1 ≠ c.filePath k2 := fun e => by have := (MapStore.filePath_iff hf _ _).1 e; omega
  have hm1 : 0 < k1 / c.perFile * c.perFile := Nat.mul_pos h1 hpos
  have hm2 : k1 / c.perFile * c.perFile < k2 / c.perFile * c.perFile := Nat.mul_lt_mul_of_pos_right h2 hpos
  have a1 : MapStore.append c (MapStore.create c otherDirs) k1 v1 = .ok { MapStore.create c otherDirs with
      fs := (MapStore.create c otherDirs).fs.mkdirAll (c.folderPath k1), latestPath := c.filePath k1, latestNum := k1 / c.perFile * c.perFile,
      latest := IAA.appendToArray (IAA.loadMissing (IAA.new c.perFile c.elementByteSize)) (k1 % c.perFile) v1 } := by
    unfold MapStore.append
    dsimp only
    rw [if_neg (fun e => MapStore.filePath_ne_nil c k1 e.symm), if_pos (by rw [hn]; exact hm1)]
    simp [MapStore.create, MapStore.loadFile, FS.mkdirAll, hn]
  have a2 : ∀ s1 : MapStore.MS, s1.latestPath = c.filePath k1 → s1.latestNum = k1 / c.perFile * c.perFile → s1.olderPath = [] → (∀ p, s1.fs.files p = none) →
      ∃ s2, appendUncached true c s1 k2 v2 = .ok s2 ∧ s2.olderPath = [] ∧ s2.latestPath = c.filePath k2 ∧ s2.fs.dirs (c.folderPath k2) = true ∧
        ∀ p, s2.fs.files p = none := by
    intro s1 e1 e2 e3 e4
    unfold appendUncached
    dsimp only
    rw [if_neg (by rw [e1]; exact hne), if_pos (by rw [hn, e2]; exact hm2), if_pos (by rw [e1]; exact MapStore.filePath_ne_nil c k1), if_pos rfl]
    have hl : MapStore.loadFile (s1.fs.mkdirAll (c.folderPath k2)) s1.latest (c.filePath k2) = some (IAA.loadMissing s1.latest, true) := by
      unfold MapStore.loadFile
      rw [show (s1.fs.mkdirAll (c.folderPath k2)).files (c.filePath k2) = none from e4 _]
    rw [hl]
    exact ⟨_, rfl, e3, rfl, MapStore.mkdirAll_self _ _, e4⟩
  obtain ⟨s1, a1, c1, c2, c3, c4⟩ : ∃ s1, MapStore.append c (MapStore.create c otherDirs) k1 v1 = .ok s1 ∧ s1.latestPath = c.filePath k1 ∧
      s1.latestNum = k1 / c.perFile * c.perFile ∧ s1.olderPath = [] ∧ ∀ p, s1.fs.files p = none := ⟨_, a1, rfl, rfl, rfl, fun _ => rfl⟩
  obtain ⟨s2, b1, b2, b3, b4, b5⟩ := a2 s1 c1 c2 c3 c4
  have a3 : ∃ s3, MapStore.flush s2 = .ok s3 ∧ s3.olderPath = [] ∧ s3.latestPath = [] ∧ s3.fs.files (c.filePath k1) = none := by
    unfold MapStore.flush MapStore.flushOlder
    rw [if_neg (by rw [b2]; simp)]
    dsimp only
    rw [if_pos (by rw [b3]; exact MapStore.filePath_ne_nil c k2), b3, MapStore.writeFile_ok b4]
    exact ⟨_, rfl, b2, rfl, by dsimp only; rw [if_neg hne]; exact b5 _⟩
  obtain ⟨s3, d1, d2, d3, d4⟩ := a3
  refine ⟨_, s2, s3, s3, a1, b1, d1, ?_⟩
  unfold MapStore.getArray MapStore.flush MapStore.flushOlder
  rw [if_neg (by rw [d2]; simp)]
  dsimp only
  rw [if_neg (by rw [d3]; simp)]
  dsimp only
  unfold MapStore.loadFile
  rw [d4]

/-! ## Examples -/

/-- Ten arrays to a file; the first `Sync` fails part way through the first file, the second is carried out: all there. -/
example : (run demo id 5 (openStore (CachedMapStore.create demo (fun _ => false) 4).fs 100 (fun _ => true) (fun n => if n = 0 then .cut 3 else .ok))
    [.append 0 1, .append 10 2, .flush, .append 0 3, .get 0, .get 10]).map (·.2) =
    some [.done, .done, .error, .done, .array [1, 3] false, .array [2] false] := by decide +kernel

/-- The session of `CachedMapStore.driftOps`, which makes room by saving a file, on a disk that refuses every save after the first: its last append
does not return. -/
example : ((run demo id 5 (openStore (CachedMapStore.create demo (fun _ => false) 4).fs 4 (fun _ => true) (fun n => if n = 0 then .ok else .refused))
    (CachedMapStore.driftOps.take 5)).map fun r => (r.1.s.count, (r.1.s.cache.map (·.key)).contains (keyOf demo 20), (r.1.saves 0, r.1.saves 1))) =
    some (4, false, (.refused, .refused)) ∧
    (run demo id 50 (openStore (CachedMapStore.create demo (fun _ => false) 4).fs 4 (fun _ => true) (fun n => if n = 0 then .ok else .refused))
      CachedMapStore.driftOps).isNone = true := by decide +kernel

/-- A file with elements in two arrays, a read that fails: both are gone. -/
example : ((run demo id 5 (openStore (CachedMapStore.create demo (fun _ => false) 4).fs 100 (fun _ => true) (fun _ => .ok))
    [.append 0 1, .append 3 2, .flush, .get 3]).bind fun r => (run demo id 5 (openStore r.1.s.fs 100 (fun n => n != 0) (fun _ => .ok))
    [.append 0 7, .flush, .get 3, .get 0]).map fun r' => (r.2, r'.2)) =
    some ([.done, .done, .done, .array [2] false], [.done, .done, .array [] false, .array [7] false]) := by decide +kernel

/-- The hypotheses of `a_refused_save_is_not_reported`. -/
example : 0 < 17 / demo.perFile ∧ 17 / demo.perFile < 25 / demo.perFile ∧ 0 < demo.digitsPerFolder := by decide

end Verif.FaultyArrays
