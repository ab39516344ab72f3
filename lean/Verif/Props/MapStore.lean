import Verif.Lemmas.MapStore

/-!
# C09: the array map store keeps every appended element in order
-/

namespace Verif.MapStore

open Verif.IAA (IAA)
open Verif.WordFile (fits)

/-! ### Specification -/

/-- Specification: the store is the list of appends made so far. Reading array `k` gives the elements
appended to `k`, in order; an error (with an empty array) is reported only when nothing was ever appended
to any array of the same file. -/
def specStep (N : Nat) (log : List (Nat × Int)) : Op → List (Nat × Int) × Out
  | .append k v => (log ++ [(k, v)], .done)
  | .get k => (log, .array (elems log k) (!decide (fileUsed N log k)))
  | .flush => (log, .done)

/-- Specification: a session. -/
def specRun (N : Nat) (log : List (Nat × Int)) : List Op → List (Nat × Int) × List Out
  | [] => (log, [])
  | op :: ops =>
    let (log', o) := specStep N log op
    let (log'', os) := specRun N log' ops
    (log'', o :: os)

/-- Every append goes to a folder some earlier append went to, or to the root folder, or to a file later
than every file used so far (arrays are first used in increasing order of file). -/
def foldersInOrder (c : Cfg) (log : List (Nat × Int)) : List Op → Prop
  | [] => True
  | .append k v :: ops =>
    ((∃ e ∈ log, c.folderPath e.1 = c.folderPath k) ∨ c.folderPath k = c.root ∨
      ∀ e ∈ log, e.1 / c.perFile < k / c.perFile) ∧ foldersInOrder c (log ++ [(k, v)]) ops
  | _ :: ops => foldersInOrder c log ops

/-- Values appended fit the element size. -/
def Op.fits (w : Nat) : Op → Prop
  | .append _ v => WordFile.fits w v
  | _ => True

/-! ### Invariant -/

/-- The in-memory "latest" and "older" arrays and the files on disk together hold the log. -/
structure Inv (c : Cfg) (s : MS) (log : List (Nat × Int)) : Prop where
  latestDims : s.latest.arrayCount = c.perFile ∧ s.latest.elementByteSize = c.elementByteSize
  olderDims : s.older.arrayCount = c.perFile ∧ s.older.elementByteSize = c.elementByteSize
  latest : (s.latestPath = [] ∧ s.latestNum = 0) ∨ ∃ k, fileUsed c.perFile log k ∧
    s.latestPath = c.filePath k ∧ s.latestNum = k / c.perFile * c.perFile ∧ Holds c s.latest log k
  older : s.olderPath = [] ∨ ∃ k, fileUsed c.perFile log k ∧ s.olderPath = c.filePath k ∧
    k / c.perFile * c.perFile ≤ s.latestNum ∧ s.olderPath ≠ s.latestPath ∧ Holds c s.older log k
  files : ∀ k, c.filePath k ≠ s.latestPath → c.filePath k ≠ s.olderPath → FileOK c s.fs log k
  dirs : ∀ k, fileUsed c.perFile log k → s.fs.dirs (c.folderPath k) = true
  rootDir : s.fs.dirs c.root = true

theorem inv_create (c : Cfg) (od : Path → Bool) : Inv c (create c od) [] := by
  refine ⟨⟨rfl, rfl⟩, ⟨rfl, rfl⟩, Or.inl ⟨rfl, rfl⟩, Or.inl rfl, ?_, ?_, ?_⟩
  · intro k _ _
    simp [FileOK, fileUsed, create]
  · intro k h; simp [fileUsed] at h
  · simp [create]

theorem FileOK.files_eq {c : Cfg} {fs fs' : FS} (h : fs'.files = fs.files) {log : List (Nat × Int)} {k : Nat}
    (hk : FileOK c fs log k) : FileOK c fs' log k := by
  unfold FileOK at *; rw [h]; exact hk

theorem mkdirAll_self (fs : FS) (p : Path) : (fs.mkdirAll p).dirs p = true := by simp [FS.mkdirAll]

theorem mkdirAll_mono {fs : FS} {p q : Path} (h : fs.dirs q = true) : (fs.mkdirAll p).dirs q = true := by
  simp [FS.mkdirAll, h]

theorem dims_append {c : Cfg} {a : IAA}
    (h : a.arrayCount = c.perFile ∧ a.elementByteSize = c.elementByteSize) (i : Nat) (v : Int) :
    (IAA.appendToArray a i v).arrayCount = c.perFile ∧
      (IAA.appendToArray a i v).elementByteSize = c.elementByteSize := h

/-- After writing the previous latest (if any), every file but the older one is right. -/
theorem inv_save_latest {c : Cfg} (hf : 0 < c.digitsPerFolder) {s : MS} {log : List (Nat × Int)}
    (h : Inv c s log) :
    ∃ fs1, (if s.latestPath ≠ [] then
        (s.fs.writeFile s.latestPath (IAA.saveBytes s.latest)).getD s.fs else s.fs) = fs1 ∧
      fs1.dirs = s.fs.dirs ∧ ∀ k, c.filePath k ≠ s.olderPath → FileOK c fs1 log k := by
  rcases h.latest with ⟨e, _⟩ | ⟨k0, hu, hp, _, hh⟩
  · refine ⟨s.fs, by simp [e], rfl, ?_⟩
    intro k hk
    exact h.files k (by rw [e]; exact filePath_ne_nil c k) hk
  · have hw := writeFile_ok (h.dirs k0 hu) (IAA.saveBytes s.latest)
    refine ⟨_, rfl, ?_, ?_⟩
    · rw [if_pos (by rw [hp]; exact filePath_ne_nil c k0), hp, hw]; rfl
    · intro k hk
      rw [if_pos (by rw [hp]; exact filePath_ne_nil c k0), hp, hw]
      refine FileOK.write hf hh hu k ?_
      intro e
      exact h.files k (fun x => e ((filePath_iff hf _ _).mp (x.trans hp))) hk

theorem inv_append {c : Cfg} (hd : 0 < c.digitsPerFile) (hf : 0 < c.digitsPerFolder) {s : MS}
    {log : List (Nat × Int)} (h : Inv c s log) (hl : LogOK c log) (k : Nat) (v : Int)
    (hk : (∃ e ∈ log, c.folderPath e.1 = c.folderPath k) ∨ c.folderPath k = c.root ∨
      ∀ e ∈ log, e.1 / c.perFile < k / c.perFile) :
    ∃ s', append c s k v = .ok s' ∧ Inv c s' (log ++ [(k, v)]) := by
  have hnum := NumberedFolders.fileNum_eq hf c.digitsPerFile k
  change _ = k / c.perFile * c.perFile at hnum
  -- facts about the extended log
  have hne : ∀ {k'}, c.filePath k' ≠ c.filePath k → k / c.perFile ≠ k' / c.perFile :=
    fun hx e => hx ((filePath_iff hf _ _).mpr e.symm)
  have hdirs : ∀ {fs : FS}, (∀ k, fileUsed c.perFile log k → fs.dirs (c.folderPath k) = true) →
      fs.dirs (c.folderPath k) = true →
      ∀ k', fileUsed c.perFile (log ++ [(k, v)]) k' → fs.dirs (c.folderPath k') = true := by
    intro fs h1 h2 k' hu
    rcases fileUsed_append.mp hu with hu | e
    · exact h1 k' hu
    · rw [← folderPath_congr e]; exact h2
  have husedk : fileUsed c.perFile (log ++ [(k, v)]) k := fileUsed_append.mpr (Or.inr rfl)
  have huse : ∀ {k'}, fileUsed c.perFile log k' → fileUsed c.perFile (log ++ [(k, v)]) k' :=
    fun hu => fileUsed_append.mpr (Or.inl hu)
  have hlat : s.latestPath ≠ c.filePath k →
      (s.latestPath = [] ∧ s.latestNum = 0) ∨ ∃ k', fileUsed c.perFile (log ++ [(k, v)]) k' ∧
        s.latestPath = c.filePath k' ∧ s.latestNum = k' / c.perFile * c.perFile ∧
        Holds c s.latest (log ++ [(k, v)]) k' := by
    intro hx
    rcases h.latest with e | ⟨k0, hu, hp, hn, hh⟩
    · exact Or.inl e
    · exact Or.inr ⟨k0, huse hu, hp, hn, hh.append_other (hne (by rw [← hp]; exact hx)) v⟩
  unfold append
  dsimp only
  by_cases c1 : s.latestPath = c.filePath k
  · -- already the latest
    rw [if_pos c1]
    refine ⟨_, rfl, ?_⟩
    rcases h.latest with ⟨e, _⟩ | ⟨k0, hu, hp, hn, hh⟩
    · exact absurd (c1 ▸ e) (filePath_ne_nil c k)
    have e0 : k / c.perFile = k0 / c.perFile := (filePath_iff hf _ _).mp (c1 ▸ hp)
    refine ⟨dims_append h.latestDims _ _, h.olderDims, Or.inr ⟨k, husedk, c1, by rw [hn, e0],
      (hh.congr e0).append_same v⟩, ?_, ?_, ?_, h.rootDir⟩
    · rcases h.older with e | ⟨ko, huo, hpo, hno, hneo, hho⟩
      · exact Or.inl e
      · exact Or.inr ⟨ko, huse huo, hpo, hno, hneo, hho.append_other (hne (by rw [← hpo, ← c1]; exact hneo)) v⟩
    · intro k' h1 h2
      exact (h.files k' h1 h2).append_other (hne (by rw [← c1]; exact h1)) v
    · exact hdirs h.dirs (folderPath_congr e0 ▸ h.dirs k0 hu)
  rw [if_neg c1]
  by_cases c2 : NumberedFolders.fileNum c.digitsPerFile c.digitsPerFolder k > s.latestNum
  · -- a new latest
    rw [if_pos c2]
    obtain ⟨fs1, hfs1, hdir1, hfile1⟩ := inv_save_latest hf h
    rw [hfs1]
    have hko : c.filePath k ≠ s.olderPath := by
      intro e
      rcases h.older with e' | ⟨ko, _, hpo, hno, _, _⟩
      · exact filePath_ne_nil c k (e.trans e')
      · have := (filePath_iff hf _ _).mp (e.trans hpo)
        rw [hnum, this] at c2; omega
    have hfk : FileOK c (fs1.mkdirAll (c.folderPath k)) log k := (hfile1 k hko).files_eq rfl
    obtain ⟨x, e, hload, hx, _⟩ := hfk.load hl h.latestDims
    rw [hload]
    refine ⟨_, rfl, dims_append ⟨hx.count, hx.width⟩ _ _, h.olderDims,
      Or.inr ⟨k, husedk, rfl, hnum, hx.append_same v⟩, ?_, ?_, ?_, ?_⟩
    · rcases h.older with e | ⟨ko, huo, hpo, hno, hneo, hho⟩
      · exact Or.inl e
      · refine Or.inr ⟨ko, huse huo, hpo, by simp only; omega, fun e => hko e.symm,
          hho.append_other (hne ?_) v⟩
        rw [← hpo]; exact fun e => hko e.symm
    · intro k' h1 h2
      exact ((hfile1 k' h2).files_eq rfl : FileOK c (fs1.mkdirAll (c.folderPath k)) log k').append_other
        (hne h1) v
    · refine hdirs ?_ (mkdirAll_self _ _)
      intro k' hu
      exact mkdirAll_mono (by rw [hdir1]; exact h.dirs k' hu)
    · exact mkdirAll_mono (by rw [hdir1]; exact h.rootDir)
  rw [if_neg c2]
  by_cases c3 : s.olderPath = c.filePath k
  · -- the existing older
    rw [if_pos c3]
    refine ⟨_, rfl, ?_⟩
    rcases h.older with e | ⟨ko, hu, hp, hn, hneo, hh⟩
    · exact absurd (c3 ▸ e) (filePath_ne_nil c k)
    have e0 : k / c.perFile = ko / c.perFile := (filePath_iff hf _ _).mp (c3 ▸ hp)
    refine ⟨h.latestDims, dims_append h.olderDims _ _, hlat c1, Or.inr ⟨k, husedk, c3, by rw [e0]; exact hn, hneo,
      (hh.congr e0).append_same v⟩, ?_, ?_, h.rootDir⟩
    · intro k' h1 h2
      exact (h.files k' h1 h2).append_other (hne (by rw [← c3]; exact h2)) v
    · exact hdirs h.dirs (folderPath_congr e0 ▸ h.dirs ko hu)
  rw [if_neg c3]
  by_cases c4 : s.olderPath = []
  · -- first older
    rw [if_neg (by simp [c4])]
    have hfk : FileOK c s.fs log k := h.files k (fun e => c1 e.symm) (fun e => c3 e.symm)
    obtain ⟨x, e, hload, hx, _⟩ := hfk.load hl h.olderDims
    rw [hload]
    have hdk : s.fs.dirs (c.folderPath k) = true := by
      rcases hk with ⟨e, he, hfe⟩ | hr | hbig
      · rw [← hfe]; exact h.dirs e.1 ⟨e, he, rfl⟩
      · rw [hr]; exact h.rootDir
      · rcases h.latest with ⟨_, hn0⟩ | ⟨k0, ⟨e, he, hek⟩, _, hn, _⟩
        · have : k / c.perFile = 0 := by
            rw [hnum, hn0] at c2
            have := perFile_pos c
            rcases Nat.eq_zero_or_pos (k / c.perFile) with z | z
            · exact z
            · have := Nat.mul_pos z this; omega
          rw [folderPath_first hd this]; exact h.rootDir
        · have h1 := hbig e he
          rw [hek] at h1
          rw [hnum, hn] at c2
          exact absurd (Nat.mul_lt_mul_of_pos_right h1 (perFile_pos c)) c2
    refine ⟨_, rfl, h.latestDims, dims_append ⟨hx.count, hx.width⟩ _ _, hlat c1,
      Or.inr ⟨k, husedk, rfl, by simp only; omega, fun e => c1 e.symm, hx.append_same v⟩, ?_, hdirs h.dirs hdk,
      h.rootDir⟩
    intro k' h1 h2
    exact (h.files k' h1 (by rw [c4]; exact filePath_ne_nil c k')).append_other (hne h2) v
  · -- replace the older
    rw [if_pos c4]
    rcases h.older with e | ⟨ko, hu, hp, hn, hneo, hh⟩
    · exact absurd e c4
    have hdo : (s.fs.mkdirAll (c.folderPath k)).dirs (c.folderPath ko) = true := mkdirAll_mono (h.dirs ko hu)
    rw [hp, writeFile_ok hdo]
    have hfile : ∀ k', c.filePath k' ≠ s.latestPath → FileOK c
        { (s.fs.mkdirAll (c.folderPath k)) with
          files := fun q => if q = c.filePath ko then some (IAA.saveBytes s.older)
            else (s.fs.mkdirAll (c.folderPath k)).files q } log k' := by
      intro k' h1
      refine FileOK.write hf hh hu k' ?_
      intro e
      exact (h.files k' h1 (fun x => e ((filePath_iff hf _ _).mp (x.trans hp)))).files_eq rfl
    obtain ⟨x, e, hload, hx, _⟩ := (hfile k (fun e => c1 e.symm)).load hl h.olderDims
    dsimp only
    rw [hload]
    refine ⟨_, rfl, h.latestDims, dims_append ⟨hx.count, hx.width⟩ _ _, hlat c1,
      Or.inr ⟨k, husedk, rfl, by simp only; omega, fun e => c1 e.symm, hx.append_same v⟩, ?_, ?_, ?_⟩
    · intro k' h1 h2
      exact (hfile k' h1).append_other (hne h2) v
    · refine hdirs ?_ (mkdirAll_self _ _)
      intro k' hu'
      exact mkdirAll_mono (h.dirs k' hu')
    · exact mkdirAll_mono h.rootDir

theorem inv_flush {c : Cfg} (hf : 0 < c.digitsPerFolder) {s : MS} {log : List (Nat × Int)} (h : Inv c s log) :
    ∃ s', flush s = .ok s' ∧ Inv c s' log ∧ s'.latestPath = [] ∧ s'.olderPath = [] := by
  -- write the older
  have step1 : ∃ s1, flushOlder s = some s1 ∧ Inv c s1 log ∧ s1.olderPath = [] := by
    unfold flushOlder
    rcases h.older with e | ⟨ko, hu, hp, hn, hneo, hh⟩
    · exact ⟨s, by simp [e], h, e⟩
    · rw [if_pos (by rw [hp]; exact filePath_ne_nil c ko), hp, writeFile_ok (h.dirs ko hu)]
      refine ⟨_, rfl, ⟨h.latestDims, h.olderDims, h.latest, Or.inl rfl, ?_, h.dirs, h.rootDir⟩, rfl⟩
      intro k h1 _
      refine FileOK.write hf hh hu k ?_
      intro e
      exact h.files k h1 (fun x => e ((filePath_iff hf _ _).mp (x.trans hp)))
  obtain ⟨s1, e1, h1, ho1⟩ := step1
  unfold flush
  rw [e1]
  dsimp only
  rcases h1.latest with ⟨e, hn⟩ | ⟨kl, hu, hp, hn, hh⟩
  · exact ⟨s1, by simp [e], h1, e, ho1⟩
  · rw [if_pos (by rw [hp]; exact filePath_ne_nil c kl), hp, writeFile_ok (h1.dirs kl hu)]
    refine ⟨_, rfl, ⟨h1.latestDims, h1.olderDims, Or.inl ⟨rfl, rfl⟩, Or.inl ho1, ?_, h1.dirs, h1.rootDir⟩, rfl, ho1⟩
    intro k _ h2
    refine FileOK.write hf hh hu k ?_
    intro e
    exact h1.files k (fun x => e ((filePath_iff hf _ _).mp (x.trans hp))) h2

theorem inv_get {c : Cfg} (hf : 0 < c.digitsPerFolder) {s : MS} {log : List (Nat × Int)} (h : Inv c s log)
    (hl : LogOK c log) (k : Nat) :
    ∃ s', getArray c s k = some (s', elems log k, !decide (fileUsed c.perFile log k)) ∧ Inv c s' log := by
  obtain ⟨s1, e1, h1, hp1, ho1⟩ := inv_flush hf h
  obtain ⟨x, e, hload, hx, he⟩ := (h1.files k (by rw [hp1]; exact filePath_ne_nil c k)
    (by rw [ho1]; exact filePath_ne_nil c k)).load hl (b := IAA.new c.perFile c.elementByteSize) ⟨rfl, rfl⟩
  unfold getArray
  rw [e1]
  dsimp only
  rw [hload]
  by_cases hu : fileUsed c.perFile log k
  · have : e = false := by rw [he]; simp [hu]
    subst this
    exact ⟨s1, by simp [hx.data k rfl, hu], h1⟩
  · have : e = true := by rw [he]; simp [hu]
    subst this
    exact ⟨s1, by simp [hu, elems_unused hu rfl], h1⟩

/-- **C09 (partial).** For every session of appends, reads and flushes whose values fit and in which arrays
are first used in increasing folder order, no call panics or fails, and every read returns exactly the
elements appended to that array so far, in order, however appends to other arrays are interleaved.
Missing from the full claim: first use of an earlier folder after a later one, where the code fails
(`flush_fails_for_earlier_folder`). -/
theorem mapstore_keeps_everything_partial (c : Cfg) (hd : 0 < c.digitsPerFile) (hf : 0 < c.digitsPerFolder)
    (hw : c.elementByteSize ≤ 8) (otherDirs : Path → Bool) (ops : List Op)
    (hfit : ∀ op ∈ ops, op.fits c.elementByteSize) (hlen : ops.length < 2 ^ 63)
    (hord : foldersInOrder c [] ops) :
    ∃ s', run c (create c otherDirs) ops = some (s', (specRun c.perFile [] ops).2) := by
  have key : ∀ (ops : List Op) (s : MS) (log : List (Nat × Int)), Inv c s log → LogOK c log →
      (∀ op ∈ ops, op.fits c.elementByteSize) → log.length + ops.length < 2 ^ 63 →
      foldersInOrder c log ops → ∃ s', run c s ops = some (s', (specRun c.perFile log ops).2) := by
    intro ops
    induction ops with
    | nil => intro s log _ _ _ _ _; exact ⟨s, rfl⟩
    | cons op ops ih =>
      intro s log h hl hfit hlen hord
      have hfit' : ∀ op ∈ ops, op.fits c.elementByteSize := fun o ho => hfit o (by simp [ho])
      simp only [List.length_cons] at hlen
      cases op with
      | append k v =>
        obtain ⟨s1, e1, h1⟩ := inv_append hd hf h hl k v hord.1
        have hl1 : LogOK c (log ++ [(k, v)]) := by
          refine ⟨hw, ?_, by simp; omega⟩
          intro e he
          rcases List.mem_append.mp he with he | he
          · exact hl.fit e he
          · simp at he; subst he; exact hfit (.append k v) (by simp)
        obtain ⟨s', e'⟩ := ih s1 _ h1 hl1 hfit' (by simp; omega) hord.2
        exact ⟨s', by simp [run, step, e1, e', specRun, specStep]⟩
      | get k =>
        obtain ⟨s1, e1, h1⟩ := inv_get hf h hl k
        obtain ⟨s', e'⟩ := ih s1 _ h1 hl hfit' (by omega) hord
        exact ⟨s', by simp [run, step, e1, e', specRun, specStep]⟩
      | flush =>
        obtain ⟨s1, e1, h1, _⟩ := inv_flush hf h
        obtain ⟨s', e'⟩ := ih s1 _ h1 hl hfit' (by omega) hord
        exact ⟨s', by simp [run, step, e1, e', specRun, specStep]⟩
  exact key ops _ [] (inv_create c otherDirs) ⟨hw, by simp, by simp⟩ hfit (by simpa using hlen) hord

/-- The settings of the examples: 1 digit per file, 1 digit per folder level, 2-byte elements. -/
def demo : Cfg := { root := "r".toList, digitsPerFile := 1, digitsPerFolder := 1, elementByteSize := 2 }

/-- A session that satisfies the hypotheses of `mapstore_keeps_everything_partial`: files 0, 1 (same file
twice, then another folder), then back to older files. -/
def demoOps : List Op :=
  [.append 3 7, .append 12 300, .append 123 5, .append 12 301, .append 3 8, .flush, .get 12, .get 3, .get 9, .get 77]

example : (∀ op ∈ demoOps, op.fits demo.elementByteSize) ∧ foldersInOrder demo [] demoOps ∧
    (specRun demo.perFile [] demoOps).2 =
      [.done, .done, .done, .done, .done, .done, .array [300, 301] false, .array [7, 8] false,
        .array [] false, .array [] true] := by
  refine ⟨?_, ?_, by decide⟩
  · simp [demoOps, Op.fits, WordFile.fits, demo]
  · simp [demoOps, foldersInOrder, demo, Cfg.perFile]

/-- **C09, where the code fails.** Appending to an array in a folder that sorts before everything used so
far, and whose folder does not exist yet, is accepted, but the next flush returns an error and reading the
array back gives an error and nothing, although the folder could simply have been created: only folders of
newly "latest" files are created. -/
theorem flush_fails_for_earlier_folder :
    ∃ s, run demo (create demo fun _ => false) [.append 500 1, .append 20 2, .flush, .get 20] =
      some (s, [.done, .done, .error, .array [] true]) ∧
    (specRun demo.perFile [] [.append 500 1, .append 20 2, .flush, .get 20]).2 =
      [.done, .done, .done, .array [2] false] := by
  have : (run demo (create demo fun _ => false) [.append 500 1, .append 20 2, .flush, .get 20]).map (·.2) =
      some [.done, .done, .error, .array [] true] := by decide +kernel
  cases h : run demo (create demo fun _ => false) [.append 500 1, .append 20 2, .flush, .get 20] with
  | none => rw [h] at this; simp at this
  | some r =>
    rw [h] at this
    obtain ⟨s, o⟩ := r
    simp at this
    subst this
    exact ⟨s, rfl, by decide⟩

end Verif.MapStore
