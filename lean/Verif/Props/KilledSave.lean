import Verif.Model.KilledSave
import Verif.Props.CachedMapStore

/-!
# C112: a process killed while the caching array store saves its files
-/

namespace Verif.KilledSave

open Verif.IAA (IAA)
open Verif.MapStore (Path FS Cfg Op Out elems fileUsed Holds LogOK FileOK specRun loadFile demo)
open Verif.CachedMapStore

/-! ### Specification -/

/-- Specification: the appends made by a session, in order. -/
def appended : List Op → List (Nat × Int)
  | [] => []
  | .append k v :: ops => (k, v) :: appended ops
  | .get _ :: ops => appended ops
  | .flush :: ops => appended ops

theorem specRun_log (N : Nat) (ops : List Op) : ∀ log, (specRun N log ops).1 = log ++ appended ops := by
  induction ops with
  | nil => intro log; simp [specRun, appended]
  | cons op ops ih =>
    intro log
    cases op <;> simp [specRun, MapStore.specStep, appended, ih]

theorem appended_append (a b : List Op) : appended (a ++ b) = appended a ++ appended b := by
  induction a with
  | nil => rfl
  | cons op a ih => cases op <;> simp [appended, ih]

theorem appended_length (ops : List Op) : (appended ops).length ≤ ops.length := by
  induction ops with
  | nil => simp [appended]
  | cons op ops ih => cases op <;> simp [appended] <;> omega

theorem appended_fits {w : Nat} {ops : List Op} (h : ∀ op ∈ ops, op.fits w) :
    ∀ e ∈ appended ops, WordFile.fits w e.2 := by
  induction ops with
  | nil => simp [appended]
  | cons op ops ih =>
    have ih' := ih (fun o ho => h o (by simp [ho]))
    cases op with
    | append k v =>
      intro e he
      simp only [appended, List.mem_cons] at he
      rcases he with rfl | he
      · exact h (.append k v) (by simp)
      · exact ih' e he
    | get k => exact ih'
    | flush => exact ih'

/-! ### The disk operations of a call are the call -/

theorem saveOps_save (c : Cfg) (fs : FS) (e : Entry) : (saveOps c e).foldl DiskOp.apply fs = save c fs e := by
  simp only [saveOps, List.foldl_cons, List.foldl_nil, DiskOp.apply, save, FS.writeFile]
  by_cases h : (fs.mkdirAll e.folderPath).dirs (MapStore.parent (filePath2 c e.key))
  · simp only [h, if_true, Option.getD_some]
    congr 1
    funext q
    by_cases hq : q = filePath2 c e.key <;> simp [hq]
  · simp [h]

theorem foldl_saves (c : Cfg) (es : List Entry) : ∀ fs : FS,
    (es.flatMap (saveOps c)).foldl DiskOp.apply fs = es.foldl (save c) fs := by
  induction es with
  | nil => intro fs; rfl
  | cons e es ih =>
    intro fs
    rw [List.flatMap_cons, List.foldl_append, saveOps_save, ih, List.foldl_cons]

theorem crash_append (fs : FS) (a b : List DiskOp) (n m : Nat) :
    crash fs (a ++ b) n m =
      if n < a.length then crash fs a n m else crash (a.foldl DiskOp.apply fs) b (n - a.length) m := by
  by_cases h : n < a.length
  · rw [if_pos h]
    unfold crash
    rw [List.take_append_of_le_length (by omega), List.getElem?_append_left h]
  · rw [if_neg h]
    unfold crash
    rw [List.getElem?_append_right (by omega)]
    have : (a ++ b).take n = a ++ b.take (n - a.length) := by
      rw [List.take_append, List.take_of_length_le (by omega)]
    rw [this, List.foldl_append]

theorem halfWritten_append (a b : List DiskOp) (n : Nat) :
    halfWritten (a ++ b) n = if n < a.length then halfWritten a n else halfWritten b (n - a.length) := by
  unfold halfWritten
  by_cases h : n < a.length
  · rw [if_pos h, List.getElem?_append_left h]
  · rw [if_neg h, List.getElem?_append_right (by omega)]

/-! ### The files on disk while the store runs -/

/-- Every file but `x` holds what had been appended to it at some moment between `lo` and `hi`. -/
def Old (c : Cfg) (fs : FS) (lo hi : List (Nat × Int)) (x : Option Path) : Prop :=
  ∀ k, some (c.filePath k) ≠ x → ∃ L, lo <+: L ∧ L <+: hi ∧ FileOK c fs L k

/-- An entry worth saving: it holds the log for a file in use. -/
def Good (c : Cfg) (log : List (Nat × Int)) (e : Entry) : Prop :=
  ∃ k, e.key = keyOf c k ∧ e.folderPath = c.folderPath k ∧ fileUsed c.perFile log k ∧ Holds c e.iaa log k

theorem fileOK_at {c : Cfg} {fs fs' : FS} {L : List (Nat × Int)} {k : Nat}
    (h : fs'.files (c.filePath k) = fs.files (c.filePath k)) (hk : FileOK c fs L k) : FileOK c fs' L k := by
  unfold FileOK at *; rw [h]; exact hk

theorem Old.mono {c : Cfg} {fs : FS} {lo hi hi' : List (Nat × Int)} {x : Option Path} (h : Old c fs lo hi x)
    (hh : hi <+: hi') : Old c fs lo hi' x := by
  intro k hk
  obtain ⟨L, h1, h2, h3⟩ := h k hk
  exact ⟨L, h1, h2.trans hh, h3⟩

theorem old_save {c : Cfg} (hf : 0 < c.digitsPerFolder) {fs : FS} {lo hi : List (Nat × Int)}
    (h : Old c fs lo hi none) (hlo : lo <+: hi) {e : Entry} (he : Good c hi e) : Old c (save c fs e) lo hi none := by
  obtain ⟨k, h1, h2, h3, h4⟩ := he
  intro j hj
  have hs := save_files (fs := fs) h1 h2
  by_cases hd : j / c.perFile = k / c.perFile
  · refine ⟨hi, hlo, List.prefix_rfl, ?_⟩
    unfold FileOK
    rw [if_pos ((MapStore.fileUsed_congr hd).mpr h3), hs]
    exact ⟨e.iaa, by simp [(MapStore.filePath_iff hf j k).mpr hd], h4.congr hd⟩
  · obtain ⟨L, l1, l2, l3⟩ := h j hj
    refine ⟨L, l1, l2, fileOK_at ?_ l3⟩
    have hne : c.filePath j ≠ c.filePath k := fun x => hd ((MapStore.filePath_iff hf _ _).mp x)
    rw [hs]; simp [hne]

theorem old_saves {c : Cfg} (hf : 0 < c.digitsPerFolder) {lo hi : List (Nat × Int)} (hlo : lo <+: hi)
    (es : List Entry) : ∀ {fs : FS}, Old c fs lo hi none → (∀ e ∈ es, Good c hi e) →
      Old c (es.foldl (save c) fs) lo hi none := by
  induction es with
  | nil => intro fs h _; exact h
  | cons e es ih =>
    intro fs h hg
    exact ih (old_save hf h hlo (hg e (by simp))) (fun e he => hg e (by simp [he]))

theorem writeFile_other (fs : FS) (p q : Path) (b : Bytes) (h : q ≠ p) :
    ((fs.writeFile p b).getD fs).files q = fs.files q := by
  unfold FS.writeFile
  split <;> simp [h]

theorem old_crash_one {c : Cfg} {fs : FS} {lo hi : List (Nat × Int)} (h : Old c fs lo hi none) (e : Entry)
    (n m : Nat) (hn : n < 3) :
    Old c (crash fs (saveOps c e) n m) lo hi (halfWritten (saveOps c e) n) := by
  intro j hj
  obtain ⟨L, l1, l2, l3⟩ := h j (by simp)
  refine ⟨L, l1, l2, fileOK_at ?_ l3⟩
  match n, hn with
  | 0, _ => rfl
  | 1, _ => rfl
  | 2, _ =>
    have hne : c.filePath j ≠ filePath2 c e.key := fun x => hj (by simp [halfWritten, saveOps, x])
    simp only [crash, saveOps, List.take_succ_cons, List.take_zero, List.foldl_cons, List.foldl_nil,
      List.getElem?_cons_succ, List.getElem?_cons_zero, DiskOp.apply]
    rw [writeFile_other _ _ _ _ hne, writeFile_other _ _ _ _ hne]
    rfl

theorem old_crash {c : Cfg} (hf : 0 < c.digitsPerFolder) {lo hi : List (Nat × Int)} (hlo : lo <+: hi)
    (es : List Entry) : ∀ {fs : FS} (n m : Nat), Old c fs lo hi none → (∀ e ∈ es, Good c hi e) →
      Old c (crash fs (es.flatMap (saveOps c)) n m) lo hi (halfWritten (es.flatMap (saveOps c)) n) := by
  induction es with
  | nil => intro fs n m h _; simpa [crash, halfWritten] using h
  | cons e es ih =>
    intro fs n m h hg
    rw [List.flatMap_cons, crash_append, halfWritten_append]
    have hlen : (saveOps c e).length = 3 := rfl
    rw [hlen]
    by_cases hn : n < 3
    · rw [if_pos hn, if_pos hn]
      exact old_crash_one h e n m hn
    · rw [if_neg hn, if_neg hn, saveOps_save]
      exact ih _ _ (old_save hf h hlo (hg e (by simp))) (fun e he => hg e (by simp [he]))

/-! ### What each call saves -/

theorem trimSaves_spec {c : Cfg} (hf : 0 < c.digitsPerFolder) {log : List (Nat × Int)} {ex : Path} (fuel : Nat) :
    ∀ {s s' : CMS}, Inv c s log (some ex) → trimLoop c ex fuel s = some s' →
      s'.fs = (trimSaves c ex fuel s).foldl (save c) s.fs ∧ ∀ e ∈ trimSaves c ex fuel s, Good c log e := by
  induction fuel with
  | zero =>
    intro s s' h hr
    unfold trimLoop at hr
    split at hr
    · simp at hr
    · simp at hr; subst hr; simp [trimSaves]
  | succ n ih =>
    intro s s' h hr
    unfold trimLoop at hr
    unfold trimSaves
    by_cases hc : s.count ≥ s.limit
    · rw [if_pos hc] at hr
      rw [if_pos hc]
      obtain ⟨h1, h2⟩ := ih (inv_trim hf h).1 hr
      cases ho : oldest ex s.counter s.cache with
      | none =>
        have : trimCache c s ex = s := by unfold trimCache; rw [ho]
        rw [this] at h1 h2 ⊢
        simpa using ⟨h1, h2⟩
      | some e =>
        obtain ⟨hmem, hne⟩ := oldest_some ho
        obtain ⟨k, a1, a2, a3, a4⟩ := h.entries e hmem
        have hfs : (trimCache c s ex).fs = save c s.fs e := by unfold trimCache; rw [ho]
        refine ⟨?_, ?_⟩
        · rw [h1, hfs]; rfl
        · intro x hx
          simp only [Option.toList_some, List.cons_append, List.nil_append, List.mem_cons] at hx
          rcases hx with rfl | hx
          · exact ⟨k, a1, a2, a3 (fun y => hne (by simpa using y.symm)), a4⟩
          · exact h2 x hx
    · rw [if_neg hc] at hr
      rw [if_neg hc]
      simp at hr; subst hr; simp

theorem appendSaves_spec {c : Cfg} (hf : 0 < c.digitsPerFolder) {fuel : Nat} {s s' : CMS}
    {log : List (Nat × Int)} (h : Inv c s log none) (hl : LogOK c log) {k : Nat} {v : Int}
    (hr : append c fuel s k v = some s') :
    s'.fs = (appendSaves c fuel s k).foldl (save c) s.fs ∧ ∀ e ∈ appendSaves c fuel s k, Good c log e := by
  unfold append at hr
  cases e1 : loadIntoCache c fuel s k with
  | none => rw [e1] at hr; simp at hr
  | some s1 =>
    rw [e1] at hr
    simp only [Option.some.injEq] at hr
    subst hr
    show s1.fs = _ ∧ _
    unfold loadIntoCache at e1
    unfold appendSaves
    by_cases hc : (s.cache.any fun e => e.key = keyOf c k) = true
    · rw [if_pos hc] at e1
      rw [if_pos hc]
      simp at e1; subst e1; simp
    · rw [if_neg hc] at e1
      rw [if_neg hc]
      have hc' : keyOf c k ∉ s.cache.map (·.key) := by
        intro hin
        obtain ⟨e, he, hk⟩ := List.mem_map.mp hin
        exact hc (List.any_eq_true.mpr ⟨e, he, by simpa using hk⟩)
      obtain ⟨x, e, h1, h2, _, h4⟩ := load_tally (h.files k hc') hl
      rw [h1] at e1 ⊢
      exact trimSaves_spec hf fuel (inv_loaded h hc' h2 h4) e1

theorem cache_good {c : Cfg} {s : CMS} {log : List (Nat × Int)} (h : Inv c s log none) :
    ∀ e ∈ s.cache, Good c log e := by
  intro e he
  obtain ⟨k, a1, a2, a3, a4⟩ := h.entries e he
  exact ⟨k, a1, a2, a3 (by simp), a4⟩

/-- Saving two different files: the order does not matter. -/
theorem save_comm {c : Cfg} {log : List (Nat × Int)} {x y : Entry} (hx : Good c log x) (hy : Good c log y)
    (hne : x.key ≠ y.key) (fs : FS) : save c (save c fs x) y = save c (save c fs y) x := by
  obtain ⟨a, a1, a2, _, _⟩ := hx
  obtain ⟨b, b1, b2, _, _⟩ := hy
  have hp : filePath2 c x.key ≠ filePath2 c y.key := by
    intro h
    unfold filePath2 at h
    have h1 := List.append_cancel_left h
    simp only [List.cons.injEq, true_and] at h1
    exact hne (List.append_cancel_right h1)
  rw [a1, b1, filePath2_keyOf, filePath2_keyOf] at hp
  have hdirs : ∀ (fs : FS) (e : Entry) (k : Nat), e.key = keyOf c k → e.folderPath = c.folderPath k →
      (save c fs e).dirs = (fs.mkdirAll e.folderPath).dirs := by
    intro fs e k h1 h2
    unfold save
    dsimp only
    rw [h1, filePath2_keyOf, h2, MapStore.writeFile_ok (MapStore.mkdirAll_self _ _)]
    rfl
  have hext : ∀ u v : FS, u.files = v.files → u.dirs = v.dirs → u = v := by
    intro u v h1 h2; cases u; cases v; simp_all
  apply hext
  · rw [save_files b1 b2, save_files a1 a2, save_files a1 a2, save_files b1 b2]
    funext q
    by_cases h1 : q = c.filePath a
    · have : q ≠ c.filePath b := fun h => hp (h1 ▸ h)
      simp [h1, hp]
    · simp [h1]
  · rw [hdirs _ y b b1 b2, hdirs _ x a a1 a2]
    unfold FS.mkdirAll
    dsimp only
    rw [hdirs _ x a a1 a2, hdirs _ y b b1 b2]
    unfold FS.mkdirAll
    dsimp only
    funext q
    cases fs.dirs q <;> cases (q == x.folderPath) <;> cases (q == y.folderPath) <;>
      cases (q ++ ['/']).isPrefixOf x.folderPath <;> cases (q ++ ['/']).isPrefixOf y.folderPath <;> rfl

theorem saves_perm {c : Cfg} {log : List (Nat × Int)} {s : CMS} (h : Inv c s log none) {l : List Entry}
    (hp : l.Perm s.cache) : l.foldl (save c) s.fs = s.cache.foldl (save c) s.fs := by
  refine List.Perm.foldl_eq' hp ?_ s.fs
  intro x hx y hy z
  have hx' := hp.subset hx
  have hy' := hp.subset hy
  by_cases e : x.key = y.key
  · have : x = y := by
      have hn := h.nodup
      have key : ∀ (l : List Entry), (l.map (·.key)).Nodup → x ∈ l → y ∈ l → x = y := by
        intro l
        induction l with
        | nil => intro _ h; simp at h
        | cons a l ih =>
          intro hn h1 h2
          simp only [List.map_cons, List.nodup_cons] at hn
          rcases List.mem_cons.mp h1 with h1 | h1 <;> rcases List.mem_cons.mp h2 with h2 | h2
          · rw [h1, h2]
          · exact absurd (List.mem_map.mpr ⟨y, h2, by rw [← e, h1]⟩) hn.1
          · exact absurd (List.mem_map.mpr ⟨x, h1, by rw [e, h2]⟩) hn.1
          · exact ih hn.2 h1 h2
      exact key _ hn hx' hy'
    rw [this]
  · exact save_comm (cache_good h x hx') (cache_good h y hy') e z

/-- One call: what it saves, and that its disk operations, carried out in full, leave the disk it leaves. -/
theorem step_saves {c : Cfg} (hf : 0 < c.digitsPerFolder) {order : List Entry → List Entry}
    (ho : ∀ l, (order l).Perm l) {fuel : Nat} {s s' : CMS} {log : List (Nat × Int)} (h : Inv c s log none)
    (hl : LogOK c log) {op : Op} {o : Out} (hr : step c fuel s op = some (s', o)) :
    s'.fs = (saves c order fuel s op).foldl (save c) s.fs ∧ (∀ e ∈ saves c order fuel s op, Good c log e) ∧
      Inv c s' (log ++ appended [op]) none := by
  cases op with
  | append k v =>
    simp only [step] at hr
    cases e1 : append c fuel s k v with
    | none => rw [e1] at hr; simp at hr
    | some s1 =>
      rw [e1] at hr
      simp only [Option.some.injEq, Prod.mk.injEq] at hr
      obtain ⟨rfl, _⟩ := hr
      obtain ⟨h1, h2⟩ := appendSaves_spec hf h hl e1
      exact ⟨h1, h2, inv_append hf h hl e1⟩
  | get k =>
    simp only [step, inv_get hf h hl k, Option.some.injEq, Prod.mk.injEq] at hr
    obtain ⟨rfl, _⟩ := hr
    refine ⟨(saves_perm h (ho _)).symm, fun e he => cache_good h e ((ho _).subset he), ?_⟩
    simpa [appended] using inv_flush hf h
  | flush =>
    simp only [step, Option.some.injEq, Prod.mk.injEq] at hr
    obtain ⟨rfl, _⟩ := hr
    refine ⟨(saves_perm h (ho _)).symm, fun e he => cache_good h e ((ho _).subset he), ?_⟩
    simpa [appended] using inv_flush hf h

theorem logOK_append {c : Cfg} {log : List (Nat × Int)} (hl : LogOK c log) {ops : List Op}
    (hfit : ∀ op ∈ ops, op.fits c.elementByteSize) (hlen : log.length + ops.length < 2 ^ 63) :
    LogOK c (log ++ appended ops) := by
  refine ⟨hl.width, ?_, ?_⟩
  · intro e he
    rcases List.mem_append.mp he with he | he
    · exact hl.fit e he
    · exact appended_fits hfit e he
  · have := appended_length ops
    rw [List.length_append]; omega

theorem killed_old {c : Cfg} (hf : 0 < c.digitsPerFolder) {order : List Entry → List Entry}
    (ho : ∀ l, (order l).Perm l) (fuel : Nat) (lo : List (Nat × Int)) (ops : List Op) :
    ∀ (s : CMS) (log : List (Nat × Int)), Inv c s log none → LogOK c log → lo <+: log →
      Old c s.fs lo log none → (∀ op ∈ ops, op.fits c.elementByteSize) → log.length + ops.length < 2 ^ 63 →
      ∀ s' outs, run c fuel s ops = some (s', outs) → ∀ n m,
        Old c (killed c order fuel s ops n m) lo (log ++ appended ops) (saving c order fuel s ops n) := by
  induction ops with
  | nil => intro s log _ _ _ h _ _ s' outs _ n m; simpa [killed, saving, appended] using h
  | cons op ops ih =>
    intro s log h hl hlo hold hfit hlen s' outs hr n m
    have hfit' : ∀ op ∈ ops, op.fits c.elementByteSize := fun o ho => hfit o (by simp [ho])
    have happ : log ++ appended (op :: ops) = (log ++ appended [op]) ++ appended ops := by
      have := appended_append [op] ops
      simp only [List.cons_append, List.nil_append] at this
      rw [this, List.append_assoc]
    simp only [List.length_cons] at hlen
    simp only [run] at hr
    cases e1 : step c fuel s op with
    | none => rw [e1] at hr; simp at hr
    | some r =>
      obtain ⟨s1, o⟩ := r
      rw [e1] at hr
      dsimp only at hr
      obtain ⟨g1, g2, g3⟩ := step_saves hf ho h hl e1
      have hl1 : LogOK c (log ++ appended [op]) :=
        logOK_append hl (fun o h => by simp at h; subst h; exact hfit _ (by simp)) (by simp; omega)
      simp only [killed, saving, e1]
      by_cases hn : n < (diskOps c order fuel s op).length
      · rw [if_pos hn, if_pos hn]
        refine (old_crash hf hlo _ n m hold g2).mono ?_
        rw [happ, List.append_assoc]; exact List.prefix_append _ _
      · rw [if_neg hn, if_neg hn, happ]
        cases e2 : run c fuel s1 ops with
        | none => rw [e2] at hr; simp at hr
        | some r2 =>
          obtain ⟨s2, os⟩ := r2
          have hle : (appended [op]).length ≤ 1 := appended_length [op]
          refine ih s1 _ g3 hl1 (hlo.trans (List.prefix_append _ _)) ?_ hfit'
            (by rw [List.length_append]; omega) s2 os e2 _ m
          rw [g1]
          exact (old_saves hf hlo _ hold g2).mono (List.prefix_append _ _)

theorem elems_prefix {a b : List (Nat × Int)} (h : a <+: b) (k : Nat) : elems a k <+: elems b k := by
  obtain ⟨t, rfl⟩ := h
  simp [elems, List.filter_append]

theorem cache_after_flush (c : Cfg) (fuel : Nat) : ∀ (ops : List Op) (s s' : CMS) (outs : List Out),
    run c fuel s (ops ++ [.flush]) = some (s', outs) → s'.cache = [] := by
  intro ops
  induction ops with
  | nil => intro s s' outs h; simp [run, step] at h; rw [← h.1]; rfl
  | cons op ops ih =>
    intro s s' outs h
    simp only [List.cons_append, run] at h
    cases e1 : step c fuel s op with
    | none => rw [e1] at h; simp at h
    | some r =>
      rw [e1] at h
      dsimp only at h
      cases e2 : run c fuel r.1 (ops ++ [.flush]) with
      | none => rw [e2] at h; simp at h
      | some r2 =>
        obtain ⟨s2, os⟩ := r2
        rw [e2] at h
        simp only [Option.some.injEq, Prod.mk.injEq] at h
        rw [← h.1]
        exact ih _ _ _ e2

/-- **C112 (partial).** A session of the caching array store syncs, goes on, and the process is killed at any
moment after that: between any two disk operations or part way through writing a file, whatever order the
files were walked in. The store is opened again. Then reading any array that does not live in the file being
written at that moment returns, in order, everything appended to it before the sync and possibly more of what
was appended after it, and never anything else; it reports an error only if nothing had been appended to that
file before the sync. Missing: the arrays of the file being written (`a_kill_while_saving_loses_the_file`). -/
theorem a_kill_while_saving_partial (c : Cfg) (hf : 0 < c.digitsPerFolder) (hw : c.elementByteSize ≤ 8)
    (otherDirs : Path → Bool) (limit limit' : Int) (fuel : Nat) (order : List Entry → List Entry)
    (ho : ∀ l, (order l).Perm l) (before after : List Op)
    (hfit : ∀ op ∈ before ++ after, op.fits c.elementByteSize) (hlen : (before ++ after).length + 1 < 2 ^ 63)
    (s1 s2 : CMS) (outs1 outs2 : List Out)
    (hr1 : run c fuel (create c otherDirs limit) (before ++ [.flush]) = some (s1, outs1))
    (hr2 : run c fuel s1 after = some (s2, outs2)) (n m : Nat) (k : Nat)
    (hk : saving c order fuel s1 after n ≠ some (c.filePath k)) :
    ∃ s' l e, getArray c (reopen (killed c order fuel s1 after n m) limit') k = some (s', l, e) ∧
      elems (appended before) k <+: l ∧ l <+: elems (appended (before ++ after)) k ∧
      (e = true → ¬ fileUsed c.perFile (appended before) k) := by
  have hl0 : LogOK c [] := ⟨hw, by simp, by simp⟩
  have hb : ∀ op ∈ before ++ [.flush], op.fits c.elementByteSize := by
    intro op h
    rcases List.mem_append.mp h with h | h
    · exact hfit op (by simp [h])
    · simp at h; subst h; trivial
  have ha : ∀ op ∈ after, op.fits c.elementByteSize := fun op h => hfit op (by simp [h])
  simp only [List.length_append] at hlen
  have hi1 := (run_inv hf fuel _ _ [] (inv_create c otherDirs limit) hl0 hb (by simp; omega) s1 outs1 hr1).2
  rw [specRun_log, List.nil_append, appended_append] at hi1
  simp only [appended, List.append_nil] at hi1
  have hl1 : LogOK c (appended before) := by
    have := logOK_append hl0 (ops := before) (fun op h => hfit op (by simp [h])) (by simp; omega)
    simpa using this
  have hcache : s1.cache = [] := cache_after_flush c fuel _ _ _ _ hr1
  have hold : Old c s1.fs (appended before) (appended before) none := by
    intro j _
    exact ⟨_, List.prefix_rfl, List.prefix_rfl, hi1.files j (by simp [hcache])⟩
  have hlb := appended_length before
  obtain ⟨L, h1, h2, h3⟩ := killed_old hf ho fuel _ after s1 _ hi1 hl1 List.prefix_rfl hold ha (by omega) s2
    outs2 hr2 n m k (fun h => hk h.symm)
  have hl2 := logOK_append hl1 ha (by omega)
  have hlL : LogOK c L := ⟨hw, fun e he => hl2.fit e (h2.subset he), by
    have := h2.length_le
    have := hl2.len
    omega⟩
  rw [← appended_append] at h2
  obtain ⟨x, e, g1, g2, g3⟩ := h3.load hlL (b := IAA.new c.perFile c.elementByteSize) ⟨rfl, rfl⟩
  unfold getArray
  dsimp only [flush, reopen, List.foldl_nil]
  rw [g1]
  by_cases hu : fileUsed c.perFile L k
  · have : e = false := by rw [g3]; simp [hu]
    subst this
    refine ⟨_, _, _, rfl, ?_, ?_, by simp⟩
    · rw [g2.data k rfl]; exact elems_prefix h1 k
    · rw [g2.data k rfl]; exact elems_prefix h2 k
  · have : e = true := by rw [g3]; simp [hu]
    subst this
    have hnu : ¬ fileUsed c.perFile (appended before) k := by
      rintro ⟨e, he, h⟩
      exact hu ⟨e, h1.subset he, h⟩
    refine ⟨_, _, _, rfl, ?_, by simp, fun _ => hnu⟩
    rw [MapStore.elems_unused hnu rfl]; simp

/-! ### The file being written -/

theorem oldest_only {ex : Path} {counter : Nat} {e : Entry} (h : e.key = ex) : oldest ex counter [e] = none := by
  simp [oldest, h]

theorem trim_only (c : Cfg) {ex : Path} (fuel : Nat) {s s' : CMS} {e : Entry} (hs : s.cache = [e])
    (h : e.key = ex) (hr : trimLoop c ex fuel s = some s') : s' = s ∧ trimSaves c ex fuel s = [] := by
  have ht : trimCache c s ex = s := by unfold trimCache; rw [hs, oldest_only h]
  induction fuel with
  | zero =>
    unfold trimLoop at hr
    split at hr
    · simp at hr
    · simp at hr; exact ⟨hr.symm, rfl⟩
  | succ n ih =>
    unfold trimLoop at hr
    unfold trimSaves
    by_cases hc : s.count ≥ s.limit
    · rw [if_pos hc, ht] at hr
      rw [if_pos hc, ht]
      obtain ⟨h1, h2⟩ := ih hr
      exact ⟨h1, by rw [h2, hs, oldest_only h]; rfl⟩
    · rw [if_neg hc] at hr
      rw [if_neg hc]
      simp at hr
      exact ⟨hr.symm, rfl⟩

theorem append_only {c : Cfg} {fuel : Nat} {s s' : CMS} {k : Nat} {v : Int} (hs : s.cache = [])
    (hr : append c fuel s k v = some s') :
    appendSaves c fuel s k = [] ∧ ∃ e, s'.cache = [e] ∧ e.key = keyOf c k ∧ e.folderPath = c.folderPath k := by
  unfold append at hr
  cases e1 : loadIntoCache c fuel s k with
  | none => rw [e1] at hr; simp at hr
  | some s1 =>
    rw [e1] at hr
    simp only [Option.some.injEq] at hr
    subst hr
    unfold loadIntoCache at e1
    unfold appendSaves
    rw [hs] at e1 ⊢
    simp only [List.any_nil, Bool.false_eq_true, ↓reduceIte, List.nil_append] at e1 ⊢
    cases e2 : loadFile s.fs (IAA.new c.perFile c.elementByteSize) (c.filePath k) with
    | none => rw [e2] at e1; simp at e1
    | some r =>
      obtain ⟨a, b⟩ := r
      rw [e2] at e1
      dsimp only at e1
      obtain ⟨h1, h2⟩ := trim_only c fuel (e := Entry.mk (keyOf c k) (c.folderPath k) a 0) rfl rfl e1
      refine ⟨h2, ?_⟩
      subst h1
      refine ⟨_, rfl, ?_, ?_⟩ <;> simp

theorem load_empty {c : Cfg} {fs : FS} {k : Nat} (h : fs.files (c.filePath k) = some []) :
    loadFile fs (IAA.new c.perFile c.elementByteSize) (c.filePath k) = none := by
  have hp := MapStore.perFile_pos c
  have : IAA.loadBytes (IAA.new c.perFile c.elementByteSize) [] = none := by
    unfold IAA.loadBytes
    show (match IAA.loadArrays c.elementByteSize c.perFile 0 [] (fun _ => none) 0 with
      | some (arrays, elementTally) => some { IAA.new c.perFile c.elementByteSize with arrays, elementTally }
      | none => none) = none
    obtain ⟨q, hq⟩ : ∃ q, c.perFile = q + 1 := ⟨c.perFile - 1, by omega⟩
    rw [hq]
    rfl
  simp only [loadFile, h, this]

/-- **C112, where it fails.** Whatever was appended and synced before, let one more value be appended to array
`k` and the store be synced again. A process killed inside that second sync, when the file has been emptied
and not yet written, leaves every array of that file unusable, values synced long before included: after
opening the store again both reading and appending to any of them panic. -/
theorem a_kill_while_saving_loses_the_file (c : Cfg) (hf : 0 < c.digitsPerFolder)
    (otherDirs : Path → Bool) (limit limit' : Int) (fuel : Nat) (order : List Entry → List Entry)
    (ho : ∀ l, (order l).Perm l) (before : List Op) (k : Nat) (v : Int) (s1 s2 : CMS) (outs1 outs2 : List Out)
    (hr1 : run c fuel (create c otherDirs limit) (before ++ [.flush]) = some (s1, outs1))
    (hr2 : run c fuel s1 [.append k v, .flush] = some (s2, outs2)) (j : Nat)
    (hj : j / c.perFile = k / c.perFile) :
    getArray c (reopen (killed c order fuel s1 [.append k v, .flush] 2 0) limit') j = none ∧
      ∀ fuel' v', append c fuel' (reopen (killed c order fuel s1 [.append k v, .flush] 2 0) limit') j v' =
        none := by
  have hcache : s1.cache = [] := cache_after_flush c fuel _ _ _ _ hr1
  have hfile : (killed c order fuel s1 [.append k v, .flush] 2 0).files (c.filePath j) = some [] := by
    simp only [run, step] at hr2
    cases e1 : append c fuel s1 k v with
    | none => rw [e1] at hr2; simp at hr2
    | some s' =>
      obtain ⟨h1, e, h2, h3, h4⟩ := append_only hcache e1
      have hord : order [e] = [e] := List.perm_singleton.mp (ho [e])
      simp only [killed, diskOps, saves, h1, List.flatMap_nil, List.length_nil, Nat.not_lt_zero, ↓reduceIte,
        step, e1, h2, hord, List.flatMap_cons, List.append_nil, Nat.sub_zero]
      have hlen : (saveOps c e).length = 3 := rfl
      rw [hlen, if_pos (by omega)]
      simp only [crash, saveOps, List.take_succ_cons, List.take_zero, List.foldl_cons, List.foldl_nil,
        List.getElem?_cons_succ, List.getElem?_cons_zero, DiskOp.apply]
      rw [h3, h4, filePath2_keyOf, MapStore.writeFile_ok (MapStore.mkdirAll_self _ _)]
      simp only [Option.getD_some]
      rw [MapStore.writeFile_ok (by exact MapStore.mkdirAll_self _ _)]
      simp [(MapStore.filePath_iff hf j k).mpr hj]
  refine ⟨?_, ?_⟩
  · unfold getArray
    dsimp only [flush, reopen, List.foldl_nil]
    rw [load_empty hfile]
  · intro fuel' v'
    unfold append loadIntoCache
    simp only [reopen, List.any_nil, Bool.false_eq_true, ↓reduceIte]
    rw [load_empty hfile]

/-- **C112, the model.** In every session, the disk operations of a call, carried out in full and in any
order of the cached files, leave exactly the disk that the call leaves. -/
theorem the_disk_operations_are_the_call (c : Cfg) (hf : 0 < c.digitsPerFolder) (hw : c.elementByteSize ≤ 8)
    (otherDirs : Path → Bool) (limit : Int) (fuel : Nat) (order : List Entry → List Entry)
    (ho : ∀ l, (order l).Perm l) (before : List Op) (hfit : ∀ op ∈ before, op.fits c.elementByteSize)
    (hlen : before.length < 2 ^ 63) (s s' : CMS) (outs : List Out) (op : Op) (o : Out)
    (hr : run c fuel (create c otherDirs limit) before = some (s, outs))
    (hs : step c fuel s op = some (s', o)) :
    (diskOps c order fuel s op).foldl DiskOp.apply s.fs = s'.fs := by
  have hl0 : LogOK c [] := ⟨hw, by simp, by simp⟩
  have hi := (run_inv hf fuel _ _ [] (inv_create c otherDirs limit) hl0 hfit (by simpa using hlen) s outs hr).2
  rw [specRun_log, List.nil_append] at hi
  have hl := logOK_append hl0 hfit (by simpa using hlen)
  rw [List.nil_append] at hl
  unfold diskOps
  rw [foldl_saves]
  exact (step_saves hf ho hi hl hs).1.symm

/-- Before the sync: two arrays of one file and one of another. -/
def witnessBefore : List Op := [.append 0 1, .append 3 2, .append 10 4]

/-- The hypotheses of the theorems are met: a session with one-digit files in which the second sync saves the
file of arrays 0 to 9, killed with the file emptied. Array 10 is read in full; array 0, synced long before, is
gone, and so is array 3. -/
example : ∃ s1 outs1 s2 outs2,
    run demo 5 (create demo (fun _ => false) 100) (witnessBefore ++ [.flush]) = some (s1, outs1) ∧
    run demo 5 s1 [.append 0 7, .flush] = some (s2, outs2) ∧
    ((getArray demo (reopen (killed demo id 5 s1 [.append 0 7, .flush] 2 0) 100) 10).map (·.2)) =
      some ([4], false) ∧
    ((getArray demo (reopen (killed demo id 5 s1 [.append 0 7, .flush] 1 0) 100) 0).map (·.2)) =
      some ([1], false) ∧
    ((getArray demo (reopen (killed demo id 5 s1 [.append 0 7, .flush] 3 0) 100) 0).map (·.2)) =
      some ([1, 7], false) ∧
    ((getArray demo (reopen (killed demo id 5 s1 [.append 0 7, .flush] 2 0) 100) 3).map (·.2)) = none := by
  cases h1 : run demo 5 (create demo (fun _ => false) 100) (witnessBefore ++ [.flush]) with
  | none =>
    have : (run demo 5 (create demo (fun _ => false) 100) (witnessBefore ++ [.flush])).isSome = true := by
      decide +kernel
    rw [h1] at this; simp at this
  | some r1 =>
    have x1 : ((run demo 5 (create demo (fun _ => false) 100) (witnessBefore ++ [.flush])).map fun r =>
        (run demo 5 r.1 [.append 0 7, .flush]).isSome) = some true := by decide +kernel
    have x2 : ((run demo 5 (create demo (fun _ => false) 100) (witnessBefore ++ [.flush])).map fun r =>
        (getArray demo (reopen (killed demo id 5 r.1 [.append 0 7, .flush] 2 0) 100) 10).map (·.2)) =
        some (some ([4], false)) := by decide +kernel
    have x3 : ((run demo 5 (create demo (fun _ => false) 100) (witnessBefore ++ [.flush])).map fun r =>
        (getArray demo (reopen (killed demo id 5 r.1 [.append 0 7, .flush] 1 0) 100) 0).map (·.2)) =
        some (some ([1], false)) := by decide +kernel
    have x4 : ((run demo 5 (create demo (fun _ => false) 100) (witnessBefore ++ [.flush])).map fun r =>
        (getArray demo (reopen (killed demo id 5 r.1 [.append 0 7, .flush] 3 0) 100) 0).map (·.2)) =
        some (some ([1, 7], false)) := by decide +kernel
    have x5 : ((run demo 5 (create demo (fun _ => false) 100) (witnessBefore ++ [.flush])).map fun r =>
        (getArray demo (reopen (killed demo id 5 r.1 [.append 0 7, .flush] 2 0) 100) 3).map (·.2)) =
        some (none) := by decide +kernel
    rw [h1] at x1 x2 x3 x4 x5
    simp only [Option.map_some, Option.some.injEq] at x1 x2 x3 x4 x5
    cases h2 : run demo 5 r1.1 [.append 0 7, .flush] with
    | none => rw [h2] at x1; simp at x1
    | some r2 => exact ⟨r1.1, r1.2, r2.1, r2.2, rfl, h2, x2, x3, x4, x5⟩

end Verif.KilledSave
