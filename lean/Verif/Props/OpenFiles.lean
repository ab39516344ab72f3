import Verif.Model.OpenFiles
import Verif.Props.ChainFactory

/-!
# C114: the files left open
-/

namespace Verif.OpenFiles

open ROWords (Res)
open ChainFactory (FS WordCreator HashCreator HashParams Parts Factory Chain supportedBlk supportedTrn newFactory
  theFactory essential blkNames trnNames Whole newFactory_ok bare)

/-! ## Specification -/

/-- A table of open files: no number is used again. -/
def Tab.Wf (t : Tab) : Prop := ∀ x ∈ t.files, x.1 < t.next

/-- The open files, by path. -/
def Tab.paths (t : Tab) : List Path := t.files.map (·.2)

/-- One of the things a chain consists of: when it can be opened, the files open when it is, and the files found there
when it cannot be opened. -/
structure Need where
  ok : Prop
  own : List Path
  rest : List Path

/-- The file, if there is one. -/
def present (fs : FS) (folder name : String) : List Path :=
  if (fs.file folder name).isSome then [(folder, name)] else []

/-- A file of words of `w` bytes. -/
def wordNeed (fs : FS) (folder name : String) (w : Nat) : Need :=
  ⟨Whole fs folder name w, [(folder, name)], present fs folder name⟩

/-- A hash store: `BinStarts.bes` and the word file `BinNums.int`. -/
def hashNeed (fs : FS) (folder : String) (w : Nat) : Need :=
  ⟨(fs.file folder "BinStarts.bes").isSome ∧ Whole fs folder "BinNums.int" w,
    [(folder, "BinStarts.bes"), (folder, "BinNums.int")],
    if (fs.file folder "BinStarts.bes").isSome then (folder, "BinStarts.bes") :: present fs folder "BinNums.int" else []⟩

/-- What a chain consists of, in the order in which it is opened; `b`, `t`, `a` are the bytes of a bin number in the
three hash stores. -/
def needs (b t a : Nat) (fs : FS) : List Need :=
  [hashNeed fs "Blocks/Hashes" b, hashNeed fs "Transactions/Hashes" t, hashNeed fs "Addresses/Hashes" a] ++
    essential.map fun e => wordNeed fs e.1 e.2.1 e.2.2

/-- A file of words of `w` bytes held in RAM: it must not be empty, and is closed when it cannot be used. -/
def ramNeed (fs : FS) (folder name : String) (w : Nat) : Need :=
  ⟨Whole fs folder name w ∧ fs.file folder name ≠ some [], [(folder, name)], []⟩

/-- The same for a chain held in RAM. -/
def needsInRam (b t a : Nat) (fs : FS) : List Need :=
  [hashNeed fs "Blocks/Hashes" b, hashNeed fs "Transactions/Hashes" t, hashNeed fs "Addresses/Hashes" a] ++
    essential.map fun e => ramNeed fs e.1 e.2.1 e.2.2

/-- The optional files that are there. -/
def optional (fs : FS) : List Path :=
  blkNames.flatMap (fun s => present fs "Blocks" (s.1 ++ ".int")) ++
    trnNames.flatMap (fun s => present fs "Transactions" (s.1 ++ ".int"))

/-- The file is there, and not in whole words. -/
def torn (fs : FS) (folder name : String) (w : Nat) : List Path :=
  match fs.file folder name with
  | none => []
  | some d => if d.length % w = 0 then [] else [(folder, name)]

/-- The optional files that are there but not in whole words. -/
def tornOptional (fs : FS) : List Path :=
  blkNames.flatMap (fun s => torn fs "Blocks" (s.1 ++ ".int") s.2) ++
    trnNames.flatMap (fun s => torn fs "Transactions" (s.1 ++ ".int") s.2)

/-! ## Lemmas -/

theorem obj_close_eq (o : Obj) (t : Tab) :
    Obj.close o t = ⟨t.next, t.files.filter fun x => x.1 ∉ o⟩ := by
  unfold Obj.close
  induction o generalizing t with
  | nil => exact congrArg (Tab.mk t.next) (List.filter_eq_self.2 (by simp)).symm
  | cons i o ih =>
    rw [List.foldl_cons, ih]
    simp only [Tab.close, List.filter_filter, Tab.mk.injEq, true_and]
    apply List.filter_congr
    intro x _
    by_cases h1 : x.1 = i <;> by_cases h2 : x.1 ∈ o <;> simp [h1, h2]

theorem closeAll_eq (os : List Obj) (t : Tab) :
    closeAll os t = ⟨t.next, t.files.filter fun x => x.1 ∉ os.flatten⟩ := by
  unfold closeAll
  induction os generalizing t with
  | nil => exact congrArg (Tab.mk t.next) (List.filter_eq_self.2 (by simp)).symm
  | cons o os ih =>
    rw [List.foldl_cons, ih, obj_close_eq]
    simp only [List.filter_filter, Tab.mk.injEq, true_and]
    apply List.filter_congr
    intro x _
    by_cases h1 : x.1 ∈ o <;> by_cases h2 : x.1 ∈ os.flatten <;> simp [h1, h2, -List.mem_flatten]

/-- `t'` is `t` with the new open files `new`. -/
structure Adds (t : Tab) (new : List (Nat × Path)) (t' : Tab) : Prop where
  eq : t'.files = t.files ++ new
  ids : ∀ x ∈ new, t.next ≤ x.1 ∧ x.1 < t'.next
  le : t.next ≤ t'.next

theorem Adds.wf {t t' : Tab} {new} (h : Adds t new t') (hw : t.Wf) : t'.Wf := by
  intro x hx
  rw [h.eq, List.mem_append] at hx
  rcases hx with hx | hx
  · exact Nat.lt_of_lt_of_le (hw x hx) h.le
  · exact (h.ids x hx).2

/-- What an opening does: `own` is opened when it succeeds, `rest` stays open when it does not. -/
structure Does (op : Tab → Res Obj × Tab) (n : Need) : Prop where
  ok : ∀ t t' o, t.Wf → op t = (.ok o, t') →
    n.ok ∧ ∃ new, Adds t new t' ∧ new.map (·.2) = n.own ∧ ∀ i, i ∈ o ↔ i ∈ new.map (·.1)
  err : ∀ t t', t.Wf → op t = (.err, t') → ¬ n.ok ∧ ∃ new, Adds t new t' ∧ new.map (·.2) = n.rest

theorem adds_opened (t : Tab) (p : Path) : Adds t [(t.next, p)] (t.opened p).2 := by
  refine ⟨rfl, ?_, Nat.le_succ _⟩
  intro x hx
  simp only [List.mem_singleton] at hx
  subst hx
  exact ⟨Nat.le_refl _, Nat.lt_succ_self _⟩

theorem opened_close {t : Tab} (hw : t.Wf) (p : Path) :
    (t.opened p).2.close t.next = ⟨t.next + 1, t.files⟩ := by
  simp only [Tab.opened, Tab.close, List.filter_append, Tab.mk.injEq, true_and]
  have h1 : t.files.filter (fun x => decide (x.1 ≠ t.next)) = t.files := by
    rw [List.filter_eq_self]
    intro x hx
    have := hw x hx
    simp only [decide_eq_true_eq]
    omega
  rw [h1]
  simp

theorem adds_nil {t : Tab} : Adds t [] t := ⟨by simp, by simp, Nat.le_refl _⟩

theorem adds_trans {t t' t'' : Tab} {a b} (h : Adds t a t') (h' : Adds t' b t'') : Adds t (a ++ b) t'' := by
  refine ⟨by rw [h'.eq, h.eq, List.append_assoc], ?_, Nat.le_trans h.le h'.le⟩
  intro x hx
  rw [List.mem_append] at hx
  rcases hx with hx | hx
  · exact ⟨(h.ids x hx).1, Nat.lt_of_lt_of_le (h.ids x hx).2 h'.le⟩
  · exact ⟨Nat.le_trans h.le (h'.ids x hx).1, (h'.ids x hx).2⟩

theorem openWordFile_iff (w : Nat) (d : Bytes) : WordFile.openWordFile w d = none ↔ d.length % w ≠ 0 := by
  unfold WordFile.openWordFile WordFile.fileWordCount
  by_cases h : d.length % w = 0 <;> simp [h]

theorem does_openWord (fs : FS) (c : WordCreator) (hr : c.inRam = false) :
    Does (openWord fs c) (wordNeed fs c.folder (c.name ++ ".int") c.wordSize) := by
  constructor
  · intro t t' o _ h
    unfold openWord at h
    rw [hr] at h
    simp only [Bool.false_eq_true, ↓reduceIte] at h
    cases hf : fs.file c.folder (c.name ++ ".int") with
    | none => rw [hf] at h; simp at h
    | some d =>
      rw [hf] at h
      simp only at h
      cases hw : WordFile.openWordFile c.wordSize d with
      | none => rw [hw] at h; simp at h
      | some wf =>
        rw [hw] at h
        simp only at h
        by_cases h8 : c.wordSize > 8
        · simp [h8] at h
        · simp only [h8, if_false, Prod.mk.injEq, Res.ok.injEq] at h
          obtain ⟨rfl, rfl⟩ := h
          refine ⟨⟨d, hf, ?_⟩, [(t.next, path c)], adds_opened t _, rfl, ?_⟩
          · by_contra hne
            rw [(openWordFile_iff _ _).2 hne] at hw
            cases hw
          · intro i; simp [Tab.opened]
  · intro t t' _ h
    unfold openWord at h
    rw [hr] at h
    simp only [Bool.false_eq_true, ↓reduceIte] at h
    cases hf : fs.file c.folder (c.name ++ ".int") with
    | none =>
      rw [hf] at h
      simp only [Prod.mk.injEq, true_and] at h
      subst h
      refine ⟨?_, [], adds_nil, by simp [wordNeed, present, hf]⟩
      rintro ⟨d, hd, _⟩
      rw [hf] at hd; cases hd
    | some d =>
      rw [hf] at h
      simp only at h
      cases hw : WordFile.openWordFile c.wordSize d with
      | none =>
        rw [hw] at h
        simp only [Prod.mk.injEq, true_and] at h
        subst h
        refine ⟨?_, [(t.next, path c)], adds_opened t _, by simp [wordNeed, present, hf, path]⟩
        rintro ⟨d', hd', hl⟩
        rw [hf] at hd'
        obtain rfl := Option.some.inj hd'
        exact (openWordFile_iff _ _).1 hw hl
      | some wf =>
        rw [hw] at h
        simp only at h
        by_cases h8 : c.wordSize > 8 <;> simp [h8] at h

theorem fileWordCount_iff (w n : Nat) : WordFile.fileWordCount w n = none ↔ n % w ≠ 0 := by
  unfold WordFile.fileWordCount
  by_cases h : n % w = 0 <;> simp [h]

theorem does_openWordReadOnly (fs : FS) (c : WordCreator) (hr : c.inRam = false) :
    Does (openWordReadOnly fs c) (wordNeed fs c.folder (c.name ++ ".int") c.wordSize) := by
  constructor
  · intro t t' o _ h
    unfold openWordReadOnly at h
    rw [hr] at h
    by_cases h0 : c.wordSize = 0
    · simp [h0] at h
    simp only [h0, Bool.false_eq_true, ↓reduceIte] at h
    cases hf : fs.file c.folder (c.name ++ ".int") with
    | none => rw [hf] at h; simp at h
    | some d =>
      rw [hf] at h
      simp only at h
      cases hw : WordFile.fileWordCount c.wordSize d.length with
      | none => rw [hw] at h; simp at h
      | some n =>
        rw [hw] at h
        simp only at h
        by_cases h8 : c.wordSize > 8
        · simp [h8] at h
        · simp only [h8, if_false, Prod.mk.injEq, Res.ok.injEq] at h
          obtain ⟨rfl, rfl⟩ := h
          refine ⟨⟨d, hf, ?_⟩, [(t.next, path c)], adds_opened t _, rfl, ?_⟩
          · by_contra hne
            rw [(fileWordCount_iff _ _).2 hne] at hw
            cases hw
          · intro i; simp [Tab.opened]
  · intro t t' _ h
    unfold openWordReadOnly at h
    rw [hr] at h
    by_cases h0 : c.wordSize = 0
    · simp [h0] at h
    simp only [h0, Bool.false_eq_true, ↓reduceIte] at h
    cases hf : fs.file c.folder (c.name ++ ".int") with
    | none =>
      rw [hf] at h
      simp only [Prod.mk.injEq, true_and] at h
      subst h
      refine ⟨?_, [], adds_nil, by simp [wordNeed, present, hf]⟩
      rintro ⟨d, hd, _⟩
      rw [hf] at hd; cases hd
    | some d =>
      rw [hf] at h
      simp only at h
      cases hw : WordFile.fileWordCount c.wordSize d.length with
      | none =>
        rw [hw] at h
        simp only [Prod.mk.injEq, true_and] at h
        subst h
        refine ⟨?_, [(t.next, path c)], adds_opened t _, by simp [wordNeed, present, hf, path]⟩
        rintro ⟨d', hd', hl⟩
        rw [hf] at hd'
        obtain rfl := Option.some.inj hd'
        exact (fileWordCount_iff _ _).1 hw hl
      | some n =>
        rw [hw] at h
        simp only at h
        by_cases h8 : c.wordSize > 8 <;> simp [h8] at h

theorem adds_opened_close {t : Tab} (hw : t.Wf) (p : Path) : Adds t [] ((t.opened p).2.close t.next) := by
  rw [opened_close hw]
  exact ⟨by simp, by simp, Nat.le_succ _⟩

theorem does_openWordRam (fs : FS) (c : WordCreator) (hr : c.inRam = true) :
    Does (openWordReadOnly fs c) (ramNeed fs c.folder (c.name ++ ".int") c.wordSize) := by
  constructor
  · intro t t' o _ h
    unfold openWordReadOnly at h
    rw [hr] at h
    by_cases h0 : c.wordSize = 0
    · simp [h0] at h
    simp only [h0, ↓reduceIte] at h
    cases hf : fs.file c.folder (c.name ++ ".int") with
    | none => rw [hf] at h; simp at h
    | some d =>
      rw [hf] at h
      simp only at h
      cases hw : WordFile.fileWordCount c.wordSize d.length with
      | none => rw [hw] at h; simp at h
      | some n =>
        rw [hw] at h
        simp only at h
        by_cases hd : d.length = 0
        · simp [hd] at h
        by_cases h8 : c.wordSize > 8
        · simp [hd, h8] at h
        · simp only [hd, h8, if_false, Prod.mk.injEq, Res.ok.injEq] at h
          obtain ⟨rfl, rfl⟩ := h
          refine ⟨⟨⟨d, hf, ?_⟩, ?_⟩, [(t.next, path c)], adds_opened t _, rfl, ?_⟩
          · by_contra hne
            rw [(fileWordCount_iff _ _).2 hne] at hw
            cases hw
          · rw [hf]
            rintro h
            obtain rfl := Option.some.inj h
            exact hd rfl
          · intro i; simp [Tab.opened]
  · intro t t' hwf h
    unfold openWordReadOnly at h
    rw [hr] at h
    by_cases h0 : c.wordSize = 0
    · simp [h0] at h
    simp only [h0, ↓reduceIte] at h
    cases hf : fs.file c.folder (c.name ++ ".int") with
    | none =>
      rw [hf] at h
      simp only [Prod.mk.injEq, true_and] at h
      subst h
      refine ⟨?_, [], adds_nil, rfl⟩
      rintro ⟨⟨d, hd, _⟩, _⟩
      rw [hf] at hd; cases hd
    | some d =>
      rw [hf] at h
      simp only at h
      cases hw : WordFile.fileWordCount c.wordSize d.length with
      | none =>
        rw [hw] at h
        simp only [Prod.mk.injEq, true_and] at h
        subst h
        refine ⟨?_, [], adds_opened_close hwf _, rfl⟩
        rintro ⟨⟨d', hd', hl⟩, _⟩
        rw [hf] at hd'
        obtain rfl := Option.some.inj hd'
        exact (fileWordCount_iff _ _).1 hw hl
      | some n =>
        rw [hw] at h
        simp only at h
        by_cases hd : d.length = 0
        · simp only [hd, ↓reduceIte, Prod.mk.injEq, true_and] at h
          subst h
          refine ⟨?_, [], adds_opened_close hwf _, rfl⟩
          rintro ⟨_, hne⟩
          rw [hf, List.length_eq_zero_iff.1 hd] at hne
          exact hne rfl
        · by_cases h8 : c.wordSize > 8 <;> simp [hd, h8] at h

theorem does_openHash (op : WordCreator → Tab → Res Obj × Tab) (fs : FS) (c : HashCreator)
    (hop : Does (op c.binNums) (wordNeed fs c.folder "BinNums.int" c.params.binNumBytes)) :
    Does (openHash op fs c) (hashNeed fs c.folder c.params.binNumBytes) := by
  constructor
  · intro t t' o hwf h
    unfold openHash at h
    cases hf : fs.file c.folder "BinStarts.bes" with
    | none => rw [hf] at h; simp at h
    | some d =>
      rw [hf] at h
      simp only at h
      generalize hr : op c.binNums (t.opened (c.folder, "BinStarts.bes")).2 = r at h
      have ha := adds_opened t (c.folder, "BinStarts.bes")
      obtain ⟨r, t1⟩ := r
      cases r with
      | err => simp at h
      | panic => simp at h
      | ok o1 =>
        simp only [Prod.mk.injEq, Res.ok.injEq] at h
        obtain ⟨rfl, rfl⟩ := h
        obtain ⟨hok, new, hadd, hown, hids⟩ := hop.ok _ _ _ (ha.wf hwf) hr
        refine ⟨⟨by simp [hf], hok⟩, _, adds_trans ha hadd, ?_, ?_⟩
        · rw [List.map_append, hown]; rfl
        · intro i
          rw [List.mem_append, hids]
          simp [Tab.opened, or_comm]
  · intro t t' hwf h
    unfold openHash at h
    cases hf : fs.file c.folder "BinStarts.bes" with
    | none =>
      rw [hf] at h
      simp only [Prod.mk.injEq, true_and] at h
      subst h
      exact ⟨by simp [hashNeed, hf], [], adds_nil, by simp [hashNeed, hf]⟩
    | some d =>
      rw [hf] at h
      simp only at h
      generalize hr : op c.binNums (t.opened (c.folder, "BinStarts.bes")).2 = r at h
      have ha := adds_opened t (c.folder, "BinStarts.bes")
      obtain ⟨r, t1⟩ := r
      cases r with
      | ok o => simp at h
      | panic => simp at h
      | err =>
        simp only [Prod.mk.injEq, true_and] at h
        subst h
        obtain ⟨hok, new, hadd, hown⟩ := hop.err _ _ (ha.wf hwf) hr
        refine ⟨fun h => hok h.2, _, adds_trans ha hadd, ?_⟩
        rw [List.map_append, hown]
        simp [hashNeed, hf, wordNeed]

/-- In `t`, reached from `t0`, the objects `objs` are open, `L` besides; `P` are the paths of all new files. -/
structure Holds (t0 t : Tab) (objs : List Obj) (L : List (Nat × Path)) (P : List Path) : Prop where
  wf : t.Wf
  le : t0.next ≤ t.next
  ids : ∀ i ∈ objs.flatten, t0.next ≤ i ∧ i < t.next
  eq : t.files.filter (fun x => x.1 ∉ objs.flatten) = t0.files ++ L
  paths : t.paths = t0.paths ++ P

theorem holds_start {t0 : Tab} (h : t0.Wf) : Holds t0 t0 [] [] [] := by
  refine ⟨h, Nat.le_refl _, by simp, by simp, by simp⟩

theorem step_ok {t0 t t' : Tab} {objs L P op n o} (H : Holds t0 t objs L P) (hd : Does op n)
    (h : op t = (.ok o, t')) : n.ok ∧ Holds t0 t' (objs ++ [o]) L (P ++ n.own) := by
  obtain ⟨hok, new, ha, hown, hids⟩ := hd.ok _ _ _ H.wf h
  have hfl : (objs ++ [o]).flatten = objs.flatten ++ o := by simp
  refine ⟨hok, ha.wf H.wf, Nat.le_trans H.le ha.le, ?_, ?_, ?_⟩
  · intro i hi
    rw [hfl, List.mem_append] at hi
    rcases hi with hi | hi
    · exact ⟨(H.ids i hi).1, Nat.lt_of_lt_of_le (H.ids i hi).2 ha.le⟩
    · obtain ⟨x, hx, rfl⟩ := List.mem_map.1 ((hids i).1 hi)
      exact ⟨Nat.le_trans H.le (ha.ids x hx).1, (ha.ids x hx).2⟩
  · rw [ha.eq, List.filter_append, hfl]
    have h2 : new.filter (fun x => decide (x.1 ∉ objs.flatten ++ o)) = [] := by
      rw [List.filter_eq_nil_iff]
      intro x hx
      have : x.1 ∈ o := (hids _).2 (List.mem_map_of_mem hx)
      simp [this, -List.mem_flatten]
    have h1 : t.files.filter (fun x => decide (x.1 ∉ objs.flatten ++ o)) =
        t.files.filter (fun x => decide (x.1 ∉ objs.flatten)) := by
      apply List.filter_congr
      intro x hx
      have : x.1 ∉ o := by
        intro hm
        obtain ⟨y, hy, he⟩ := List.mem_map.1 ((hids _).1 hm)
        have := (ha.ids y hy).1
        have := H.wf x hx
        omega
      simp [this, -List.mem_flatten]
    rw [h1, h2, H.eq, List.append_nil]
  · unfold Tab.paths
    rw [ha.eq, List.map_append, hown]
    have := H.paths
    unfold Tab.paths at this
    rw [this, List.append_assoc]

theorem step_err {t0 t t' : Tab} {objs L P op n} (H : Holds t0 t objs L P) (hd : Does op n)
    (h : op t = (.err, t')) : ¬ n.ok ∧ ∃ new : List (Nat × Path), new.map (·.2) = n.rest ∧
      Holds t0 t' objs (L ++ new) (P ++ n.rest) := by
  obtain ⟨hok, new, ha, hown⟩ := hd.err _ _ H.wf h
  refine ⟨hok, new, hown, ha.wf H.wf, Nat.le_trans H.le ha.le, ?_, ?_, ?_⟩
  · intro i hi
    exact ⟨(H.ids i hi).1, Nat.lt_of_lt_of_le (H.ids i hi).2 ha.le⟩
  · rw [ha.eq, List.filter_append, H.eq, List.append_assoc]
    have h2 : new.filter (fun x => decide (x.1 ∉ objs.flatten)) = new := by
      rw [List.filter_eq_self]
      intro x hx
      have h1 := (ha.ids x hx).1
      rw [decide_eq_true_eq]
      intro hm
      have := (H.ids _ hm).2
      omega
    rw [h2]
  · unfold Tab.paths
    rw [ha.eq, List.map_append, hown]
    have := H.paths
    unfold Tab.paths at this
    rw [this, List.append_assoc]

theorem opening_post {β : Type} {Q : Res β × Tab → Prop} {op n objs onErr k} {t0 t : Tab} {P}
    (hd : Does op n) (H : Holds t0 t objs [] P) (he : onErr = objs)
    (hk : n.ok → ∀ o t', Holds t0 t' (objs ++ [o]) [] (P ++ n.own) → Q (k o t'))
    (hr : ¬ n.ok → ∀ t' new, t'.Wf → t'.files = t0.files ++ new → new.map (·.2) = n.rest → Q (.err, t'))
    (hp : ∀ t', Q (.panic, t')) : Q (opening op onErr k t) := by
  unfold opening
  generalize ho : op t = r
  obtain ⟨r, t'⟩ := r
  cases r with
  | ok o =>
    obtain ⟨hok, H'⟩ := step_ok H hd ho
    exact hk hok o t' H'
  | err =>
    obtain ⟨hok, new, hn, H'⟩ := step_err H hd ho
    subst he
    refine hr hok _ new ?_ ?_ hn
    · rw [closeAll_eq]
      intro x hx
      exact H'.wf x (List.mem_filter.1 hx).1
    · rw [closeAll_eq]
      exact H'.eq
  | panic => exact hp t'

/-- The loop over the optional files. -/
theorem openNeis_post (op : WordCreator → Tab → Res Obj × Tab) (folder : String) (r : Bool)
    (n : String × Nat → Need) {t0 : Tab} :
    ∀ (sup : List (String × Nat)) (_ : ∀ s ∈ sup, Does (op ⟨s.1, folder, s.2, r⟩) (n s))
      (_ : ∀ s ∈ sup, ∀ t, (op ⟨s.1, folder, s.2, r⟩ t).1 ≠ .panic)
      {t : Tab} {objs L P} (_ : Holds t0 t objs L P) (torn pres : String × Nat → List Path)
      (_ : ∀ s ∈ sup, (n s).ok → torn s = [] ∧ pres s = (n s).own)
      (_ : ∀ s ∈ sup, ¬ (n s).ok → torn s = (n s).rest ∧ pres s = (n s).rest),
      ∃ new : List (Nat × Path), new.map (·.2) = sup.flatMap torn ∧
        Holds t0 (openNeis op folder r sup t).2 (objs ++ (openNeis op folder r sup t).1.map (·.2)) (L ++ new)
          (P ++ sup.flatMap pres)
  | [], _, _, t, objs, L, P, H, _, _, _, _ => ⟨[], rfl, by simpa [openNeis] using H⟩
  | s :: rest, hd, hp, t, objs, L, P, H, torn, pres, ht, hf => by
    have ih := fun {t objs L P} (H : Holds t0 t objs L P) =>
      openNeis_post op folder r n rest (fun s hs => hd s (List.mem_cons_of_mem _ hs))
        (fun s hs => hp s (List.mem_cons_of_mem _ hs)) H torn pres
        (fun s hs => ht s (List.mem_cons_of_mem _ hs)) (fun s hs => hf s (List.mem_cons_of_mem _ hs))
    unfold openNeis
    have hpan := hp s List.mem_cons_self t
    generalize ho : op ⟨s.1, folder, s.2, r⟩ t = q at hpan
    obtain ⟨q, t'⟩ := q
    cases q with
    | ok o =>
      obtain ⟨hok, H'⟩ := step_ok H (hd s List.mem_cons_self) ho
      obtain ⟨new, hn, H''⟩ := ih H'
      obtain ⟨e1, e2⟩ := ht s List.mem_cons_self hok
      refine ⟨new, ?_, ?_⟩
      · rw [hn, List.flatMap_cons, e1, List.nil_append]
      · simp only [List.map_cons, List.flatMap_cons]
        rw [e2]
        simpa [List.append_assoc] using H''
    | err =>
      obtain ⟨hok, new0, hn0, H'⟩ := step_err H (hd s List.mem_cons_self) ho
      obtain ⟨new, hn, H''⟩ := ih H'
      obtain ⟨e1, e2⟩ := hf s List.mem_cons_self hok
      refine ⟨new0 ++ new, ?_, ?_⟩
      · rw [List.map_append, hn, hn0, List.flatMap_cons, e1]
      · simp only [List.flatMap_cons]
        rw [e2]
        simpa [List.append_assoc] using H''
    | panic => exact absurd rfl hpan

/-- The objects of a chain, in the order of their opening. -/
def objects (c : Chain Obj) : List Obj :=
  [c.parts.blkHashes, c.parts.trnHashes, c.parts.addrHashes, c.parts.blkFirstTrans, c.parts.trnFirstTxi,
    c.parts.trnFirstTxo, c.parts.txiTx, c.parts.txiVout, c.parts.txoSats, c.parts.txoAddress, c.parts.txoSpentTxi,
    c.parts.addrFirstTxo, c.parts.parentBlockOfTrans, c.parts.parentTransOfTxi, c.parts.parentTransOfTxo] ++
    c.blkNei.map (·.2) ++ c.trnNei.map (·.2)

theorem closeChain_files (c : Chain Obj) (t : Tab) :
    closeChain c t = ⟨t.next, t.files.filter fun x => x.1 ∉ (objects c).flatten⟩ := by
  unfold closeChain
  simp only [obj_close_eq, closeAll_eq, List.filter_filter, Tab.mk.injEq, true_and]
  apply List.filter_congr
  intro x _
  rw [Bool.eq_iff_iff]
  simp only [objects, List.flatten_append, List.flatten_cons, List.flatten_nil, List.append_nil, Bool.and_eq_true,
    decide_eq_true_eq, List.mem_append, not_or]
  tauto

/-- How opening a chain ends. -/
def Post (ns : List Need) (torn pres : List Path) (t0 : Tab) : Res (Chain Obj) × Tab → Prop
  | (.ok c, t') => (∀ n ∈ ns, n.ok) ∧ ∃ new : List (Nat × Path), new.map (·.2) = torn ∧
      Holds t0 t' (objects c) new (ns.flatMap (·.own) ++ pres)
  | (.err, t') => ∃ pre n post, ns = pre ++ n :: post ∧ (∀ m ∈ pre, m.ok) ∧ ¬ n.ok ∧ t'.Wf ∧
      ∃ new : List (Nat × Path), t'.files = t0.files ++ new ∧ new.map (·.2) = n.rest
  | (.panic, _) => True

theorem openParts_post (hop : HashCreator → Tab → Res Obj × Tab) (op : WordCreator → Tab → Res Obj × Tab) (f : Factory)
    (hn : HashCreator → Need) (wn : WordCreator → Need) (n : String → String × Nat → Need)
    (h0 : Does (hop f.creators.blkHashes) (hn f.creators.blkHashes))
    (h1 : Does (hop f.creators.trnHashes) (hn f.creators.trnHashes))
    (h2 : Does (hop f.creators.addrHashes) (hn f.creators.addrHashes))
    (h3 : Does (op f.creators.blkFirstTrans) (wn f.creators.blkFirstTrans))
    (h4 : Does (op f.creators.trnFirstTxi) (wn f.creators.trnFirstTxi))
    (h5 : Does (op f.creators.trnFirstTxo) (wn f.creators.trnFirstTxo))
    (h6 : Does (op f.creators.txiTx) (wn f.creators.txiTx))
    (h7 : Does (op f.creators.txiVout) (wn f.creators.txiVout))
    (h8 : Does (op f.creators.txoSats) (wn f.creators.txoSats))
    (h9 : Does (op f.creators.txoAddress) (wn f.creators.txoAddress))
    (h10 : Does (op f.creators.txoSpentTxi) (wn f.creators.txoSpentTxi))
    (h11 : Does (op f.creators.addrFirstTxo) (wn f.creators.addrFirstTxo))
    (h12 : Does (op f.creators.parentBlockOfTrans) (wn f.creators.parentBlockOfTrans))
    (h13 : Does (op f.creators.parentTransOfTxi) (wn f.creators.parentTransOfTxi))
    (h14 : Does (op f.creators.parentTransOfTxo) (wn f.creators.parentTransOfTxo))
    (hb : ∀ s ∈ supportedBlk, Does (op ⟨s.1, "Blocks", s.2, f.inRam⟩) (n "Blocks" s))
    (ht : ∀ s ∈ supportedTrn, Does (op ⟨s.1, "Transactions", s.2, f.inRam⟩) (n "Transactions" s))
    (hbp : ∀ s ∈ supportedBlk, ∀ t, (op ⟨s.1, "Blocks", s.2, f.inRam⟩ t).1 ≠ .panic)
    (htp : ∀ s ∈ supportedTrn, ∀ t, (op ⟨s.1, "Transactions", s.2, f.inRam⟩ t).1 ≠ .panic)
    (torn pres : String → String × Nat → List Path)
    (hok : ∀ d s, (n d s).ok → torn d s = [] ∧ pres d s = (n d s).own)
    (hno : ∀ d s, ¬ (n d s).ok → torn d s = (n d s).rest ∧ pres d s = (n d s).rest)
    (t0 : Tab) (hwf : t0.Wf) :
    Post [hn f.creators.blkHashes, hn f.creators.trnHashes, hn f.creators.addrHashes, wn f.creators.blkFirstTrans, wn f.creators.trnFirstTxi, wn f.creators.trnFirstTxo, wn f.creators.txiTx, wn f.creators.txiVout, wn f.creators.txoSats, wn f.creators.txoAddress, wn f.creators.txoSpentTxi, wn f.creators.addrFirstTxo, wn f.creators.parentBlockOfTrans, wn f.creators.parentTransOfTxi, wn f.creators.parentTransOfTxo]
      (supportedBlk.flatMap (torn "Blocks") ++ supportedTrn.flatMap (torn "Transactions"))
      (supportedBlk.flatMap (pres "Blocks") ++ supportedTrn.flatMap (pres "Transactions")) t0
      (openParts hop op f t0) := by
  unfold openParts
  refine opening_post h0 (holds_start hwf) rfl (fun k0 o0 t1 H1 => ?_)
    (fun hne t' new hw he hm => ⟨[], _, _, rfl, by simp, hne, hw, new, he, hm⟩)
    (fun _ => trivial)
  refine opening_post h1 H1 rfl (fun k1 o1 t2 H2 => ?_)
    (fun hne t' new hw he hm => ⟨[hn f.creators.blkHashes], _, _, rfl, by simp [k0], hne, hw, new, he, hm⟩)
    (fun _ => trivial)
  refine opening_post h2 H2 rfl (fun k2 o2 t3 H3 => ?_)
    (fun hne t' new hw he hm => ⟨[hn f.creators.blkHashes, hn f.creators.trnHashes], _, _, rfl, by simp [k0, k1], hne, hw, new, he, hm⟩)
    (fun _ => trivial)
  refine opening_post h3 H3 rfl (fun k3 o3 t4 H4 => ?_)
    (fun hne t' new hw he hm => ⟨[hn f.creators.blkHashes, hn f.creators.trnHashes, hn f.creators.addrHashes], _, _, rfl, by simp [k0, k1, k2], hne, hw, new, he, hm⟩)
    (fun _ => trivial)
  refine opening_post h4 H4 rfl (fun k4 o4 t5 H5 => ?_)
    (fun hne t' new hw he hm => ⟨[hn f.creators.blkHashes, hn f.creators.trnHashes, hn f.creators.addrHashes, wn f.creators.blkFirstTrans], _, _, rfl, by simp [k0, k1, k2, k3], hne, hw, new, he, hm⟩)
    (fun _ => trivial)
  refine opening_post h5 H5 rfl (fun k5 o5 t6 H6 => ?_)
    (fun hne t' new hw he hm => ⟨[hn f.creators.blkHashes, hn f.creators.trnHashes, hn f.creators.addrHashes, wn f.creators.blkFirstTrans, wn f.creators.trnFirstTxi], _, _, rfl, by simp [k0, k1, k2, k3, k4], hne, hw, new, he, hm⟩)
    (fun _ => trivial)
  refine opening_post h6 H6 rfl (fun k6 o6 t7 H7 => ?_)
    (fun hne t' new hw he hm => ⟨[hn f.creators.blkHashes, hn f.creators.trnHashes, hn f.creators.addrHashes, wn f.creators.blkFirstTrans, wn f.creators.trnFirstTxi, wn f.creators.trnFirstTxo], _, _, rfl, by simp [k0, k1, k2, k3, k4, k5], hne, hw, new, he, hm⟩)
    (fun _ => trivial)
  refine opening_post h7 H7 rfl (fun k7 o7 t8 H8 => ?_)
    (fun hne t' new hw he hm => ⟨[hn f.creators.blkHashes, hn f.creators.trnHashes, hn f.creators.addrHashes, wn f.creators.blkFirstTrans, wn f.creators.trnFirstTxi, wn f.creators.trnFirstTxo, wn f.creators.txiTx], _, _, rfl, by simp [k0, k1, k2, k3, k4, k5, k6], hne, hw, new, he, hm⟩)
    (fun _ => trivial)
  refine opening_post h8 H8 rfl (fun k8 o8 t9 H9 => ?_)
    (fun hne t' new hw he hm => ⟨[hn f.creators.blkHashes, hn f.creators.trnHashes, hn f.creators.addrHashes, wn f.creators.blkFirstTrans, wn f.creators.trnFirstTxi, wn f.creators.trnFirstTxo, wn f.creators.txiTx, wn f.creators.txiVout], _, _, rfl, by simp [k0, k1, k2, k3, k4, k5, k6, k7], hne, hw, new, he, hm⟩)
    (fun _ => trivial)
  refine opening_post h9 H9 rfl (fun k9 o9 t10 H10 => ?_)
    (fun hne t' new hw he hm => ⟨[hn f.creators.blkHashes, hn f.creators.trnHashes, hn f.creators.addrHashes, wn f.creators.blkFirstTrans, wn f.creators.trnFirstTxi, wn f.creators.trnFirstTxo, wn f.creators.txiTx, wn f.creators.txiVout, wn f.creators.txoSats], _, _, rfl, by simp [k0, k1, k2, k3, k4, k5, k6, k7, k8], hne, hw, new, he, hm⟩)
    (fun _ => trivial)
  refine opening_post h10 H10 rfl (fun k10 o10 t11 H11 => ?_)
    (fun hne t' new hw he hm => ⟨[hn f.creators.blkHashes, hn f.creators.trnHashes, hn f.creators.addrHashes, wn f.creators.blkFirstTrans, wn f.creators.trnFirstTxi, wn f.creators.trnFirstTxo, wn f.creators.txiTx, wn f.creators.txiVout, wn f.creators.txoSats, wn f.creators.txoAddress], _, _, rfl, by simp [k0, k1, k2, k3, k4, k5, k6, k7, k8, k9], hne, hw, new, he, hm⟩)
    (fun _ => trivial)
  refine opening_post h11 H11 rfl (fun k11 o11 t12 H12 => ?_)
    (fun hne t' new hw he hm => ⟨[hn f.creators.blkHashes, hn f.creators.trnHashes, hn f.creators.addrHashes, wn f.creators.blkFirstTrans, wn f.creators.trnFirstTxi, wn f.creators.trnFirstTxo, wn f.creators.txiTx, wn f.creators.txiVout, wn f.creators.txoSats, wn f.creators.txoAddress, wn f.creators.txoSpentTxi], _, _, rfl, by simp [k0, k1, k2, k3, k4, k5, k6, k7, k8, k9, k10], hne, hw, new, he, hm⟩)
    (fun _ => trivial)
  refine opening_post h12 H12 rfl (fun k12 o12 t13 H13 => ?_)
    (fun hne t' new hw he hm => ⟨[hn f.creators.blkHashes, hn f.creators.trnHashes, hn f.creators.addrHashes, wn f.creators.blkFirstTrans, wn f.creators.trnFirstTxi, wn f.creators.trnFirstTxo, wn f.creators.txiTx, wn f.creators.txiVout, wn f.creators.txoSats, wn f.creators.txoAddress, wn f.creators.txoSpentTxi, wn f.creators.addrFirstTxo], _, _, rfl, by simp [k0, k1, k2, k3, k4, k5, k6, k7, k8, k9, k10, k11], hne, hw, new, he, hm⟩)
    (fun _ => trivial)
  refine opening_post h13 H13 rfl (fun k13 o13 t14 H14 => ?_)
    (fun hne t' new hw he hm => ⟨[hn f.creators.blkHashes, hn f.creators.trnHashes, hn f.creators.addrHashes, wn f.creators.blkFirstTrans, wn f.creators.trnFirstTxi, wn f.creators.trnFirstTxo, wn f.creators.txiTx, wn f.creators.txiVout, wn f.creators.txoSats, wn f.creators.txoAddress, wn f.creators.txoSpentTxi, wn f.creators.addrFirstTxo, wn f.creators.parentBlockOfTrans], _, _, rfl, by simp [k0, k1, k2, k3, k4, k5, k6, k7, k8, k9, k10, k11, k12], hne, hw, new, he, hm⟩)
    (fun _ => trivial)
  refine opening_post h14 H14 rfl (fun k14 o14 t15 H15 => ?_)
    (fun hne t' new hw he hm => ⟨[hn f.creators.blkHashes, hn f.creators.trnHashes, hn f.creators.addrHashes, wn f.creators.blkFirstTrans, wn f.creators.trnFirstTxi, wn f.creators.trnFirstTxo, wn f.creators.txiTx, wn f.creators.txiVout, wn f.creators.txoSats, wn f.creators.txoAddress, wn f.creators.txoSpentTxi, wn f.creators.addrFirstTxo, wn f.creators.parentBlockOfTrans, wn f.creators.parentTransOfTxi], _, _, rfl, by simp [k0, k1, k2, k3, k4, k5, k6, k7, k8, k9, k10, k11, k12, k13], hne, hw, new, he, hm⟩)
    (fun _ => trivial)
  obtain ⟨new1, e1, G1⟩ := openNeis_post op "Blocks" f.inRam (n "Blocks") supportedBlk hb hbp H15 (torn "Blocks")
    (pres "Blocks") (fun s _ => hok _ s) (fun s _ => hno _ s)
  obtain ⟨new2, e2, G2⟩ := openNeis_post op "Transactions" f.inRam (n "Transactions") supportedTrn ht htp G1
    (torn "Transactions") (pres "Transactions") (fun s _ => hok _ s) (fun s _ => hno _ s)
  generalize openNeis op "Blocks" f.inRam supportedBlk t15 = r1 at G1 G2 ⊢
  obtain ⟨l1, u1⟩ := r1
  simp only at G1 G2 ⊢
  generalize openNeis op "Transactions" f.inRam supportedTrn u1 = r2 at G2 ⊢
  obtain ⟨l2, u2⟩ := r2
  simp only at G2 ⊢
  refine ⟨by simp [k0, k1, k2, k3, k4, k5, k6, k7, k8, k9, k10, k11, k12, k13, k14], new1 ++ new2,
    by rw [List.map_append, e1, e2], ?_⟩
  simpa [objects, List.append_assoc] using G2

theorem torn_ok (fs : FS) (d m : String) (w : Nat) (h : Whole fs d m w) :
    torn fs d m w = [] ∧ present fs d m = [(d, m)] := by
  obtain ⟨x, hx, hl⟩ := h
  simp [torn, present, hx, hl]

theorem torn_no (fs : FS) (d m : String) (w : Nat) (h : ¬ Whole fs d m w) : torn fs d m w = present fs d m := by
  unfold torn present
  cases hx : fs.file d m with
  | none => simp
  | some x =>
    have : x.length % w ≠ 0 := fun hl => h ⟨x, hx, hl⟩
    simp [this]

theorem sizes : (∀ s ∈ supportedBlk, s.2 ≠ 0 ∧ ¬ s.2 > 8) ∧ ∀ s ∈ supportedTrn, s.2 ≠ 0 ∧ ¬ s.2 > 8 := by decide

theorem openWord_nopanic (fs : FS) (c : WordCreator) (h8 : ¬ c.wordSize > 8) (t : Tab) : (openWord fs c t).1 ≠ .panic := by
  unfold openWord
  split
  · simp
  · split
    · simp
    · simp only
      split
      · simp
      · simp [h8]

theorem openWordReadOnly_nopanic (fs : FS) (c : WordCreator) (h0 : c.wordSize ≠ 0) (h8 : ¬ c.wordSize > 8) (t : Tab) :
    (openWordReadOnly fs c t).1 ≠ .panic := by
  unfold openWordReadOnly
  rw [if_neg h0]
  split
  · simp
  · simp only
    split
    · simp
    · split
      · split <;> simp [h8]
      · simp [h8]

theorem open_post (fs : FS) (b t a : HashParams) (bn tn : List String) (t0 : Tab) (hwf : t0.Wf) :
    Post (needs b.binNumBytes t.binNumBytes a.binNumBytes fs) (tornOptional fs) (optional fs) t0
      (openChain (theFactory b t a bn tn false) fs t0) := by
  have hh : ∀ d p, Does (openHash (openWord fs) fs ⟨d, p⟩) (hashNeed fs d p.binNumBytes) := fun d p =>
    does_openHash _ _ _ (does_openWord fs (HashCreator.binNums ⟨d, p⟩) rfl)
  have hw : ∀ c : WordCreator, c.inRam = false →
      Does (openWord fs c) (wordNeed fs c.folder (c.name ++ ".int") c.wordSize) := fun c h => does_openWord fs c h
  have key := openParts_post (openHash (openWord fs) fs) (openWord fs) (theFactory b t a bn tn false)
    (fun c => hashNeed fs c.folder c.params.binNumBytes)
    (fun c => wordNeed fs c.folder (c.name ++ ".int") c.wordSize)
    (fun d s => wordNeed fs d (s.1 ++ ".int") s.2)
    (hh _ _) (hh _ _) (hh _ _) (hw _ rfl) (hw _ rfl) (hw _ rfl) (hw _ rfl) (hw _ rfl) (hw _ rfl) (hw _ rfl) (hw _ rfl)
    (hw _ rfl) (hw _ rfl) (hw _ rfl) (hw _ rfl)
    (fun s _ => hw ⟨s.1, "Blocks", s.2, false⟩ rfl) (fun s _ => hw ⟨s.1, "Transactions", s.2, false⟩ rfl)
    (fun s hs t => openWord_nopanic fs ⟨s.1, "Blocks", s.2, false⟩ (sizes.1 s hs).2 t)
    (fun s hs t => openWord_nopanic fs ⟨s.1, "Transactions", s.2, false⟩ (sizes.2 s hs).2 t)
    (fun d s => torn fs d (s.1 ++ ".int") s.2) (fun d s => present fs d (s.1 ++ ".int"))
    (fun d s h => torn_ok _ _ _ _ h) (fun d s h => ⟨torn_no _ _ _ _ h, rfl⟩) t0 hwf
  exact key

theorem read_post (fs : FS) (b t a : HashParams) (bn tn : List String) (t0 : Tab) (hwf : t0.Wf) :
    Post (needs b.binNumBytes t.binNumBytes a.binNumBytes fs) (tornOptional fs) (optional fs) t0
      (openChainReadOnly (theFactory b t a bn tn false) fs t0) := by
  have hh : ∀ d p, Does (openHash (openWordReadOnly fs) fs ⟨d, p⟩) (hashNeed fs d p.binNumBytes) := fun d p =>
    does_openHash _ _ _ (does_openWordReadOnly fs (HashCreator.binNums ⟨d, p⟩) rfl)
  have hw : ∀ c : WordCreator, c.inRam = false →
      Does (openWordReadOnly fs c) (wordNeed fs c.folder (c.name ++ ".int") c.wordSize) :=
    fun c h => does_openWordReadOnly fs c h
  have key := openParts_post (openHash (openWordReadOnly fs) fs) (openWordReadOnly fs) (theFactory b t a bn tn false)
    (fun c => hashNeed fs c.folder c.params.binNumBytes)
    (fun c => wordNeed fs c.folder (c.name ++ ".int") c.wordSize)
    (fun d s => wordNeed fs d (s.1 ++ ".int") s.2)
    (hh _ _) (hh _ _) (hh _ _) (hw _ rfl) (hw _ rfl) (hw _ rfl) (hw _ rfl) (hw _ rfl) (hw _ rfl) (hw _ rfl) (hw _ rfl)
    (hw _ rfl) (hw _ rfl) (hw _ rfl) (hw _ rfl)
    (fun s _ => hw ⟨s.1, "Blocks", s.2, false⟩ rfl) (fun s _ => hw ⟨s.1, "Transactions", s.2, false⟩ rfl)
    (fun s hs t => openWordReadOnly_nopanic fs ⟨s.1, "Blocks", s.2, false⟩ (sizes.1 s hs).1 (sizes.1 s hs).2 t)
    (fun s hs t => openWordReadOnly_nopanic fs ⟨s.1, "Transactions", s.2, false⟩ (sizes.2 s hs).1 (sizes.2 s hs).2 t)
    (fun d s => torn fs d (s.1 ++ ".int") s.2) (fun d s => present fs d (s.1 ++ ".int"))
    (fun d s h => torn_ok _ _ _ _ h) (fun d s h => ⟨torn_no _ _ _ _ h, rfl⟩) t0 hwf
  exact key

/-- The file, if there is one that can be held in RAM. -/
def usable (fs : FS) (folder name : String) (w : Nat) : List Path :=
  match fs.file folder name with
  | none => []
  | some d => if d.length % w = 0 ∧ d ≠ [] then [(folder, name)] else []

theorem usable_eq (fs : FS) (d m : String) (w : Nat) :
    ((ramNeed fs d m w).ok → usable fs d m w = [(d, m)]) ∧ (¬ (ramNeed fs d m w).ok → usable fs d m w = []) := by
  unfold usable ramNeed Whole
  cases hf : fs.file d m with
  | none => simp
  | some x => simp

theorem ram_post (fs : FS) (b t a : HashParams) (bn tn : List String) (t0 : Tab) (hwf : t0.Wf) :
    Post (needsInRam b.binNumBytes t.binNumBytes a.binNumBytes fs)
      (supportedBlk.flatMap (fun _ => []) ++ supportedTrn.flatMap (fun _ => []))
      (supportedBlk.flatMap (fun s => usable fs "Blocks" (s.1 ++ ".int") s.2) ++
        supportedTrn.flatMap (fun s => usable fs "Transactions" (s.1 ++ ".int") s.2)) t0
      (openChainReadOnly (theFactory b t a bn tn true) fs t0) := by
  have hh : ∀ d p, Does (openHash (openWordReadOnly fs) fs ⟨d, p⟩) (hashNeed fs d p.binNumBytes) := fun d p =>
    does_openHash _ _ _ (does_openWordReadOnly fs (HashCreator.binNums ⟨d, p⟩) rfl)
  have hw : ∀ c : WordCreator, c.inRam = true →
      Does (openWordReadOnly fs c) (ramNeed fs c.folder (c.name ++ ".int") c.wordSize) :=
    fun c h => does_openWordRam fs c h
  have key := openParts_post (openHash (openWordReadOnly fs) fs) (openWordReadOnly fs) (theFactory b t a bn tn true)
    (fun c => hashNeed fs c.folder c.params.binNumBytes)
    (fun c => ramNeed fs c.folder (c.name ++ ".int") c.wordSize)
    (fun d s => ramNeed fs d (s.1 ++ ".int") s.2)
    (hh _ _) (hh _ _) (hh _ _) (hw _ rfl) (hw _ rfl) (hw _ rfl) (hw _ rfl) (hw _ rfl) (hw _ rfl) (hw _ rfl) (hw _ rfl)
    (hw _ rfl) (hw _ rfl) (hw _ rfl) (hw _ rfl)
    (fun s _ => hw ⟨s.1, "Blocks", s.2, true⟩ rfl) (fun s _ => hw ⟨s.1, "Transactions", s.2, true⟩ rfl)
    (fun s hs t => openWordReadOnly_nopanic fs ⟨s.1, "Blocks", s.2, true⟩ (sizes.1 s hs).1 (sizes.1 s hs).2 t)
    (fun s hs t => openWordReadOnly_nopanic fs ⟨s.1, "Transactions", s.2, true⟩ (sizes.2 s hs).1 (sizes.2 s hs).2 t)
    (fun _ _ => []) (fun d s => usable fs d (s.1 ++ ".int") s.2)
    (fun d s h => ⟨rfl, (usable_eq _ _ _ _).1 h⟩) (fun d s h => ⟨rfl, (usable_eq _ _ _ _).2 h⟩) t0 hwf
  exact key

theorem close_new {t : Tab} (hw : t.Wf) (n : Nat) (l : List (Nat × Path)) (i : Nat) (hi : t.next ≤ i) :
    (Tab.mk n (t.files ++ l)).close i = ⟨n, t.files ++ l.filter fun x => x.1 ≠ i⟩ := by
  unfold Tab.close
  simp only [List.filter_append, Tab.mk.injEq, true_and]
  congr 1
  rw [List.filter_eq_self]
  intro x hx
  have := hw x hx
  rw [decide_eq_true_eq]
  omega

theorem createWord_eq (c : WordCreator) {t : Tab} (hw : t.Wf) : createWord c t = ⟨t.next + 1, t.files⟩ :=
  opened_close hw _

theorem Tab.Wf.succ {t : Tab} (hw : t.Wf) : (Tab.mk (t.next + 1) t.files).Wf := fun x hx => Nat.lt_succ_of_lt (hw x hx)

/-- The table has the same files open, and is well formed. -/
def Quiet (t t' : Tab) : Prop := t'.files = t.files ∧ t'.Wf

theorem quiet_word (c : WordCreator) {t t' : Tab} (h : Quiet t t') : Quiet t (createWord c t') := by
  rw [createWord_eq c h.2]
  exact ⟨h.1, h.2.succ⟩

theorem quiet_neis (d : String) (req : List String) (sup : List (String × Nat)) {t t' : Tab} (h : Quiet t t') :
    Quiet t (createNeiFiles d req sup t') := by
  unfold createNeiFiles
  induction sup generalizing t' with
  | nil => exact h
  | cons s sup ih =>
    rw [List.foldl_cons]
    apply ih
    split
    · exact quiet_word _ h
    · exact h

theorem quiet_createFrom (f : Factory) (fs : FS) {t t' : Tab} (h : Quiet t t') :
    Quiet t (createFromHashStores f fs t') := by
  unfold createFromHashStores
  split
  · exact h
  split
  · exact h
  have q : Quiet t (createNeiFiles "Blocks" f.requestedBlk supportedBlk
      (createWord f.creators.parentTransOfTxo (createWord f.creators.parentTransOfTxi
      (createWord f.creators.parentBlockOfTrans (createWord f.creators.addrFirstTxo
      (createWord f.creators.txoSpentTxi (createWord f.creators.txoAddress (createWord f.creators.txoSats
      (createWord f.creators.txiVout (createWord f.creators.txiTx (createWord f.creators.trnFirstTxo
      (createWord f.creators.trnFirstTxi (createWord f.creators.blkFirstTrans t'))))))))))))) :=
    quiet_neis _ _ _ (quiet_word _ (quiet_word _ (quiet_word _ (quiet_word _ (quiet_word _ (quiet_word _ (quiet_word _
      (quiet_word _ (quiet_word _ (quiet_word _ (quiet_word _ (quiet_word _ h))))))))))))
  simp only
  split
  · exact q
  · exact quiet_neis _ _ _ q

theorem createHash_eq (c : HashCreator) {t : Tab} (hw : t.Wf) :
    (createHash c t).Wf ∧ (createHash c t).paths = t.paths ++ [(c.folder, "BinStarts.bes")] := by
  unfold createHash
  simp only
  rw [createWord_eq _ hw]
  exact ⟨(adds_opened _ _).wf hw.succ, by simp [Tab.opened, Tab.paths]⟩

theorem wf_of_post {ns torn pres t0 r t'} (h : Post ns torn pres t0 (r, t')) (hr : r ≠ .panic) : t'.Wf := by
  cases r with
  | ok c => obtain ⟨_, _, _, H⟩ := h; exact H.wf
  | err => obtain ⟨_, _, _, _, _, _, H, _⟩ := h; exact H
  | panic => exact absurd rfl hr

/-- Two calls end alike, with values related by `R`. -/
def Alike {α β : Type} (R : α → β → Prop) : Res α → Res β → Prop
  | .ok a, .ok b => R a b
  | .err, .err => True
  | .panic, .panic => True
  | _, _ => False

theorem alike_opening {β γ δ : Type} {R : β → γ → Prop} {op : Tab → Res Obj × Tab} {x : Res δ} {e k} {g : δ → Res γ} {t : Tab}
    (hx : Alike (fun _ _ => True) (op t).1 x) (hk : ∀ o t' a, Alike R (k o t').1 (g a)) :
    Alike R (opening op e k t).1 (x >>= g) := by
  show Alike R _ (ChainFactory.Res.bind x g)
  unfold opening
  generalize op t = r at hx
  obtain ⟨r, t'⟩ := r
  cases r <;> cases x <;> simp only [Alike, ChainFactory.Res.bind] at hx ⊢
  exact hk _ _ _

theorem alike_neis {α : Type} (op : WordCreator → Tab → Res Obj × Tab) (op' : WordCreator → Res α)
    (h : ∀ c t, Alike (fun _ _ => True) (op c t).1 (op' c)) (d : String) (r : Bool) (sup : List (String × Nat)) (t : Tab) :
    (openNeis op d r sup t).1.map (·.1) = (ChainFactory.neis op' d r sup).map (·.1) := by
  induction sup generalizing t with
  | nil => rfl
  | cons s sup ih =>
    have hs := h ⟨s.1, d, s.2, r⟩ t
    unfold openNeis
    unfold ChainFactory.neis at ih ⊢
    generalize op ⟨s.1, d, s.2, r⟩ t = q at hs
    obtain ⟨q, t'⟩ := q
    generalize hq : op' ⟨s.1, d, s.2, r⟩ = q' at hs
    cases q <;> cases q' <;> simp only [Alike] at hs <;> simp [hq, ih]

theorem alike_parts {α : Type} (hop : HashCreator → Tab → Res Obj × Tab) (op : WordCreator → Tab → Res Obj × Tab)
    (hop' : HashCreator → Res α) (op' : WordCreator → Res α)
    (hh : ∀ c t, Alike (fun _ _ => True) (hop c t).1 (hop' c))
    (h : ∀ c t, Alike (fun _ _ => True) (op c t).1 (op' c)) (f : Factory) (t : Tab) :
    Alike (fun c c' => c.blkNei.map (·.1) = c'.blkNei.map (·.1) ∧ c.trnNei.map (·.1) = c'.trnNei.map (·.1))
      (openParts hop op f t).1 (ChainFactory.openParts hop' op' f) := by
  unfold openParts ChainFactory.openParts
  refine alike_opening (hh _ _) fun _ _ _ => ?_
  refine alike_opening (hh _ _) fun _ _ _ => ?_
  refine alike_opening (hh _ _) fun _ _ _ => ?_
  refine alike_opening (h _ _) fun _ _ _ => ?_
  refine alike_opening (h _ _) fun _ _ _ => ?_
  refine alike_opening (h _ _) fun _ _ _ => ?_
  refine alike_opening (h _ _) fun _ _ _ => ?_
  refine alike_opening (h _ _) fun _ _ _ => ?_
  refine alike_opening (h _ _) fun _ _ _ => ?_
  refine alike_opening (h _ _) fun _ _ _ => ?_
  refine alike_opening (h _ _) fun _ _ _ => ?_
  refine alike_opening (h _ _) fun _ _ _ => ?_
  refine alike_opening (h _ _) fun _ _ _ => ?_
  refine alike_opening (h _ _) fun _ _ _ => ?_
  refine alike_opening (h _ _) fun _ _ _ => ?_
  exact ⟨alike_neis op op' h _ _ _ _, alike_neis op op' h _ _ _ _⟩

theorem alike_word (fs : FS) (c : WordCreator) (t : Tab) : Alike (fun _ _ => True) (openWord fs c t).1 (c.open_ fs) := by
  unfold openWord WordCreator.open_
  cases c.inRam with
  | true => trivial
  | false =>
    simp only [Bool.false_eq_true, ↓reduceIte]
    cases fs.file c.folder (c.name ++ ".int") with
    | none => trivial
    | some d =>
      simp only
      cases WordFile.openWordFile c.wordSize d with
      | none => trivial
      | some w => by_cases h8 : c.wordSize > 8 <;> simp [h8, Alike]

theorem alike_wordReadOnly (fs : FS) (c : WordCreator) (t : Tab) :
    Alike (fun _ _ => True) (openWordReadOnly fs c t).1 (c.openReadOnly fs) := by
  unfold openWordReadOnly WordCreator.openReadOnly ROWords.openReadOnly
  by_cases h0 : c.wordSize = 0
  · simp [h0, Alike]
  rw [if_neg h0, if_neg h0]
  cases fs.file c.folder (c.name ++ ".int") with
  | none => trivial
  | some d =>
    simp only
    cases WordFile.fileWordCount c.wordSize d.length with
    | none => cases c.inRam <;> trivial
    | some n =>
      cases c.inRam <;> by_cases h8 : c.wordSize > 8 <;> by_cases hd : d.length = 0 <;> simp [h8, hd, Alike]

theorem alike_hash {α : Type} (op : WordCreator → Tab → Res Obj × Tab) (op' : WordCreator → Res α) (fs : FS)
    (h : ∀ c t, Alike (fun _ _ => True) (op c t).1 (op' c)) (c : HashCreator) (t : Tab) :
    Alike (fun _ _ => True) (openHash op fs c t).1
      (match fs.file c.folder "BinStarts.bes" with | none => .err | some _ => op' c.binNums) := by
  unfold openHash
  cases fs.file c.folder "BinStarts.bes" with
  | none => trivial
  | some d =>
    simp only
    have := h c.binNums (t.opened (c.folder, "BinStarts.bes")).2
    generalize op c.binNums (t.opened (c.folder, "BinStarts.bes")).2 = q at this ⊢
    obtain ⟨q, t'⟩ := q
    generalize op' c.binNums = q' at this ⊢
    cases q <;> cases q' <;> simp_all [Alike]

/-! ## Theorems -/

/-- The openings are those of C90: they succeed, fail and panic alike, and find the same optional files. -/
theorem the_openings_are_those_of_the_factory (f : Factory) (fs : FS) (t : Tab) :
    Alike (fun c c' => c.blkNei.map (·.1) = c'.blkNei.map (·.1) ∧ c.trnNei.map (·.1) = c'.trnNei.map (·.1))
      (openChain f fs t).1 (f.open_ fs) ∧
    Alike (fun c c' => c.blkNei.map (·.1) = c'.blkNei.map (·.1) ∧ c.trnNei.map (·.1) = c'.trnNei.map (·.1))
      (openChainReadOnly f fs t).1 (f.openReadOnly fs) := by
  constructor
  · unfold openChain Factory.open_
    cases f.inRam with
    | true => trivial
    | false =>
      exact alike_parts _ _ _ _ (alike_hash _ (·.open_ fs) fs (alike_word fs)) (alike_word fs) f t
  · exact alike_parts _ _ _ _ (alike_hash _ (·.openReadOnly fs) fs (alike_wordReadOnly fs)) (alike_wordReadOnly fs) f t

/-- C114, exactly: a chain that has been opened and closed again leaves open the optional files that were not in whole
words, and no other; while it is open, the files it needs and the optional ones are open. -/
theorem what_a_closed_chain_leaves_open (fs0 fs : FS) (bn tn : List String) (f : Factory)
    (hf : newFactory fs0 bn tn false = .ok f) (t t' : Tab) (hw : t.Wf) (c : Chain Obj)
    (ho : openChain f fs t = (.ok c, t')) :
    (∃ b tr a, t'.paths = t.paths ++ (needs b tr a fs).flatMap (·.own) ++ optional fs) ∧
      ∃ new : List (Nat × Path), (closeChain c t').files = t.files ++ new ∧ new.map (·.2) = tornOptional fs := by
  obtain ⟨b, tt, a, _, _, _, _, _, _, rfl⟩ := newFactory_ok.1 hf
  have hp := open_post fs b tt a bn tn t hw
  rw [ho] at hp
  obtain ⟨_, new, hn, H⟩ := hp
  refine ⟨⟨b.binNumBytes, tt.binNumBytes, a.binNumBytes, by rw [H.paths, List.append_assoc]⟩, new, ?_, hn⟩
  rw [closeChain_files]
  exact H.eq

/-- C114: when no optional file is torn, opening and closing a chain leaves no file open.

Missing: a torn optional file, which stays open (`a_torn_optional_file_stays_open`). -/
theorem closing_a_chain_closes_every_file_partial (fs0 fs : FS) (bn tn : List String) (f : Factory)
    (hf : newFactory fs0 bn tn false = .ok f) (t t' : Tab) (hw : t.Wf) (c : Chain Obj)
    (ho : openChain f fs t = (.ok c, t')) (hn : tornOptional fs = []) : (closeChain c t').files = t.files := by
  obtain ⟨_, new, h, hm⟩ := what_a_closed_chain_leaves_open fs0 fs bn tn f hf t t' hw c ho
  rw [hn, List.map_eq_nil_iff] at hm
  rw [h, hm, List.append_nil]

/-- C114 fails: a torn optional file does not keep the chain from opening, and no call closes it any more. -/
theorem a_torn_optional_file_stays_open (fs0 fs : FS) (bn tn : List String) (f : Factory)
    (hf : newFactory fs0 bn tn false = .ok f) (t t' : Tab) (hw : t.Wf) (c : Chain Obj)
    (ho : openChain f fs t = (.ok c, t')) (p : Path) (hp : p ∈ tornOptional fs) :
    (closeChain c t').paths.count p > t.paths.count p := by
  obtain ⟨_, new, h, hm⟩ := what_a_closed_chain_leaves_open fs0 fs bn tn f hf t t' hw c ho
  unfold Tab.paths
  rw [h, List.map_append, List.count_append, hm]
  have := List.count_pos_iff.2 hp
  omega

/-- C114, exactly: when a chain does not open, what stays open are the files found of the first of the things it needs
that cannot be opened; for reading as for writing. -/
theorem what_a_failed_open_leaves_open (fs0 fs : FS) (bn tn : List String) (f : Factory)
    (hf : newFactory fs0 bn tn false = .ok f) (b tr a : HashParams) (hb : fs0.params "Blocks/Hashes" = some b)
    (htr : fs0.params "Transactions/Hashes" = some tr) (ha : fs0.params "Addresses/Hashes" = some a)
    (t t' : Tab) (hw : t.Wf) (ho : openChain f fs t = (.err, t') ∨ openChainReadOnly f fs t = (.err, t')) :
    ∃ pre n post, needs b.binNumBytes tr.binNumBytes a.binNumBytes fs = pre ++ n :: post ∧ (∀ m ∈ pre, m.ok) ∧ ¬ n.ok ∧
      ∃ new : List (Nat × Path), t'.files = t.files ++ new ∧ new.map (·.2) = n.rest := by
  obtain ⟨b', tr', a', h1, _, h2, _, h3, _, rfl⟩ := newFactory_ok.1 hf
  obtain rfl := Option.some.inj (hb.symm.trans h1)
  obtain rfl := Option.some.inj (htr.symm.trans h2)
  obtain rfl := Option.some.inj (ha.symm.trans h3)
  have hp : Post (needs b.binNumBytes tr.binNumBytes a.binNumBytes fs) (tornOptional fs) (optional fs) t
      (.err, t') := by
    rcases ho with ho | ho
    · rw [← ho]; exact open_post fs b tr a bn tn t hw
    · rw [← ho]; exact read_post fs b tr a bn tn t hw
  obtain ⟨pre, n, post, h, h', h'', _, hx⟩ := hp
  exact ⟨pre, n, post, h, h', h'', hx⟩

/-- C114: when all that is wrong is that files are missing, word files or whole hash stores, a chain that does not open
leaves no file open.

Missing: a torn word file, and a hash store with one of its two files (`a_failed_open_leaves_a_file_open`). -/
theorem a_failed_open_leaves_nothing_open_partial (fs0 fs : FS) (bn tn : List String) (f : Factory)
    (hf : newFactory fs0 bn tn false = .ok f) (b tr a : HashParams) (hb : fs0.params "Blocks/Hashes" = some b)
    (htr : fs0.params "Transactions/Hashes" = some tr) (ha : fs0.params "Addresses/Hashes" = some a)
    (t t' : Tab) (hw : t.Wf) (ho : openChain f fs t = (.err, t') ∨ openChainReadOnly f fs t = (.err, t'))
    (hm : ∀ n ∈ needs b.binNumBytes tr.binNumBytes a.binNumBytes fs, n.ok ∨ n.rest = []) : t'.files = t.files := by
  obtain ⟨pre, n, post, h, _, h'', new, he, hx⟩ :=
    what_a_failed_open_leaves_open fs0 fs bn tn f hf b tr a hb htr ha t t' hw ho
  rcases hm n (by rw [h]; simp) with h1 | h1
  · exact absurd h1 h''
  · rw [h1, List.map_eq_nil_iff] at hx
    rw [he, hx, List.append_nil]

/-- C114: a chain to be held in RAM that does not open leaves open at most files of one of its hash stores; none when
each of those has both its files, in whole words, or has no bin starts. -/
theorem a_failed_open_in_ram (fs0 fs : FS) (bn tn : List String) (f : Factory)
    (hf : newFactory fs0 bn tn true = .ok f) (t t' : Tab) (hw : t.Wf) (ho : openChainReadOnly f fs t = (.err, t')) :
    (∃ d ∈ ChainFactory.hashFolders, ∃ new : List (Nat × Path), t'.files = t.files ++ new ∧ ∀ x ∈ new, x.2.1 = d) ∧
      ((∀ d ∈ ChainFactory.hashFolders, fs.file d "BinStarts.bes" = none ∨
        ∀ p, fs0.params d = some p → Whole fs d "BinNums.int" p.binNumBytes) → t'.files = t.files) := by
  obtain ⟨b, tr, a, h1, _, h2, _, h3, _, rfl⟩ := newFactory_ok.1 hf
  have hp := ram_post fs b tr a bn tn t hw
  rw [ho] at hp
  obtain ⟨pre, n, post, h, _, hno, _, new, he, hm⟩ := hp
  have hn : n ∈ needsInRam b.binNumBytes tr.binNumBytes a.binNumBytes fs := by rw [h]; simp
  have hhash : ∀ d ∈ ChainFactory.hashFolders, ∀ p : HashParams, fs0.params d = some p →
      n = hashNeed fs d p.binNumBytes →
      (∃ d ∈ ChainFactory.hashFolders, ∃ new : List (Nat × Path), t'.files = t.files ++ new ∧ ∀ x ∈ new, x.2.1 = d) ∧
      ((∀ d ∈ ChainFactory.hashFolders, fs.file d "BinStarts.bes" = none ∨
        ∀ p, fs0.params d = some p → Whole fs d "BinNums.int" p.binNumBytes) → t'.files = t.files) := by
    intro d hd p hpp hn
    subst hn
    constructor
    · refine ⟨d, hd, new, he, ?_⟩
      intro x hx
      have : x.2 ∈ (hashNeed fs d p.binNumBytes).rest := by rw [← hm]; exact List.mem_map_of_mem hx
      unfold hashNeed present at this
      simp only at this
      split at this
      · simp only [List.mem_cons] at this
        rcases this with e | e
        · rw [e]
        · split at e
          · simp only [List.mem_singleton] at e; rw [e]
          · simp at e
      · simp at this
    · intro hall
      have hr : (hashNeed fs d p.binNumBytes).rest = [] := by
        rcases hall d hd with e | e
        · simp [hashNeed, e]
        · have hwh := e p hpp
          unfold hashNeed at hno ⊢
          simp only at hno ⊢
          rw [if_neg (fun hs => hno ⟨hs, hwh⟩)]
      rw [hr, List.map_eq_nil_iff] at hm
      rw [he, hm, List.append_nil]
  unfold needsInRam at hn
  rw [List.mem_append] at hn
  rcases hn with hn | hn
  · simp only [List.mem_cons, List.not_mem_nil, or_false] at hn
    rcases hn with rfl | rfl | rfl
    · exact hhash _ (by simp [ChainFactory.hashFolders]) b h1 rfl
    · exact hhash _ (by simp [ChainFactory.hashFolders]) tr h2 rfl
    · exact hhash _ (by simp [ChainFactory.hashFolders]) a h3 rfl
  · obtain ⟨e, _, rfl⟩ := List.mem_map.1 hn
    have : new = [] := by
      rw [← List.map_eq_nil_iff (f := fun x : Nat × Path => x.2)]
      exact hm
    subst this
    rw [List.append_nil] at he
    exact ⟨⟨_, List.mem_cons_self, [], by rw [he, List.append_nil], by simp⟩, fun _ => he⟩

/-- C114: opening for reading leaves at least 18 more files open, those of the hash stores and of the word files, all
that the chain needs and the optional ones that are there; and the chain for reading has no `Close`. -/
theorem a_chain_opened_for_reading_stays_open (fs0 fs : FS) (bn tn : List String) (f : Factory)
    (hf : newFactory fs0 bn tn false = .ok f) (b tr a : HashParams) (hb : fs0.params "Blocks/Hashes" = some b)
    (htr : fs0.params "Transactions/Hashes" = some tr) (ha : fs0.params "Addresses/Hashes" = some a)
    (t t' : Tab) (hw : t.Wf) (c : Chain Obj) (ho : openChainReadOnly f fs t = (.ok c, t')) :
    t'.paths = t.paths ++ (needs b.binNumBytes tr.binNumBytes a.binNumBytes fs).flatMap (·.own) ++ optional fs ∧
      t.paths.length + 18 ≤ t'.paths.length := by
  obtain ⟨b', tr', a', h1, _, h2, _, h3, _, rfl⟩ := newFactory_ok.1 hf
  obtain rfl := Option.some.inj (hb.symm.trans h1)
  obtain rfl := Option.some.inj (htr.symm.trans h2)
  obtain rfl := Option.some.inj (ha.symm.trans h3)
  have hp := read_post fs b tr a bn tn t hw
  rw [ho] at hp
  obtain ⟨_, _, _, H⟩ := hp
  refine ⟨by rw [H.paths, List.append_assoc], ?_⟩
  rw [H.paths, List.length_append, List.length_append]
  have : ((needs b.binNumBytes tr.binNumBytes a.binNumBytes fs).flatMap (·.own)).length = 18 := by
    simp [needs, hashNeed, wordNeed, essential]
  omega

/-- Opening the same chain for reading again and again. -/
def reads (f : Factory) (fs : FS) : Nat → Tab → Tab
  | 0, t => t
  | n + 1, t => reads f fs n (openChainReadOnly f fs t).2

/-- C114 fails: a process that opens a chain for reading `n` times has `18 * n` more files open, however long ago it has
finished with the chains. -/
theorem reading_again_and_again (fs0 fs : FS) (bn tn : List String) (f : Factory)
    (hf : newFactory fs0 bn tn false = .ok f) (c' : Chain ROWords.Reader) (hc : f.openReadOnly fs = .ok c')
    (n : Nat) (t : Tab) (hw : t.Wf) : t.paths.length + 18 * n ≤ (reads f fs n t).paths.length := by
  induction n generalizing t with
  | zero => simp [reads]
  | succ n ih =>
    obtain ⟨c, t', h⟩ : ∃ c t', openChainReadOnly f fs t = (.ok c, t') := by
      have := (the_openings_are_those_of_the_factory f fs t).2
      rw [hc] at this
      generalize openChainReadOnly f fs t = q at this
      obtain ⟨q, t'⟩ := q
      cases q with
      | ok c => exact ⟨c, t', rfl⟩
      | err => exact this.elim
      | panic => exact this.elim
    obtain ⟨b, tr, a, h1, _, h2, _, h3, _, rfl⟩ := newFactory_ok.1 hf
    have hp := (a_chain_opened_for_reading_stays_open fs0 fs bn tn _ hf b tr a h1 h2 h3 t t' hw c h).2
    have hw' : t'.Wf := by
      have := read_post fs b tr a bn tn t hw
      rw [h] at this
      exact wf_of_post this (by simp)
    have := ih t' hw'
    simp only [reads, h]
    omega

/-- C114: creating a chain on hash stores that are there leaves no file open, whether it succeeds or not. -/
theorem creating_from_hash_stores_leaves_nothing_open (f : Factory) (fs : FS) (t : Tab) (hw : t.Wf) :
    (createFromHashStores f fs t).files = t.files :=
  (quiet_createFrom f fs ⟨rfl, hw⟩).1

/-- C114 fails: creating a chain leaves three files open, the bin starts of its hash stores; a refused creation leaves
none. -/
theorem creating_a_chain_leaves_three_files_open (fs0 fs : FS) (bn tn : List String) (f : Factory)
    (hf : newFactory fs0 bn tn false = .ok f) (t : Tab) (hw : t.Wf) :
    (create f fs t).paths = t.paths ++ if f.exists_ fs then [] else
      [("Blocks/Hashes", "BinStarts.bes"), ("Transactions/Hashes", "BinStarts.bes"),
        ("Addresses/Hashes", "BinStarts.bes")] := by
  obtain ⟨b, tr, a, _, _, _, _, _, _, rfl⟩ := newFactory_ok.1 hf
  unfold create
  rw [if_neg (by simp [theFactory])]
  split
  · simp
  · have q1 := createHash_eq (theFactory b tr a bn tn false).creators.blkHashes hw
    have q2 := createHash_eq (theFactory b tr a bn tn false).creators.trnHashes q1.1
    have q3 := createHash_eq (theFactory b tr a bn tn false).creators.addrHashes q2.1
    have q := creating_from_hash_stores_leaves_nothing_open (theFactory b tr a bn tn false)
    have e : ∀ t t' : Tab, t'.files = t.files → t'.paths = t.paths := fun t t' h => by unfold Tab.paths; rw [h]
    simp only
    rw [e _ _ (q _ _ q3.1), q3.2, q2.2, q1.2]
    simp [theFactory]

/-- C114: a chain of hashes that has been opened and closed leaves no file open. -/
theorem closing_a_chain_of_hashes (d : HashesChain.Folder) (t t' : Tab) (hw : t.Wf) (c : Nat × Nat × Nat)
    (ho : openHashes d t = (some c, t')) : (closeHashes c t').files = t.files := by
  obtain ⟨b, n, a⟩ := d
  cases b <;> cases n <;> cases a <;> simp [openHashes] at ho
  obtain ⟨rfl, rfl⟩ := ho
  simp only [closeHashes, Tab.opened, List.append_assoc]
  rw [close_new hw _ _ _ (by omega), close_new hw _ _ _ (by omega), close_new hw _ _ _ (by omega)]
  simp

/-- C114 fails: when a chain of hashes does not open because a file is missing, the files before it stay open. -/
theorem a_chain_of_hashes_that_does_not_open (d : HashesChain.Folder) (t t' : Tab)
    (ho : openHashes d t = (none, t')) :
    t'.paths = t.paths ++
      if d.blk.isNone then [] else if d.trn.isNone then [hashesPath "Blocks"]
      else [hashesPath "Blocks", hashesPath "Transactions"] := by
  obtain ⟨b, n, a⟩ := d
  cases b <;> cases n <;> cases a <;> simp [openHashes] at ho <;> subst ho <;> simp [Tab.paths, Tab.opened]

/-- C114: a chained hash store leaves no file open: neither its creation, nor an opening that fails, nor one that
succeeds once it is closed. -/
theorem a_chained_hash_store_leaves_nothing_open (mem : Bool) (folder name : String) (d : Chained) (t : Tab) (hw : t.Wf) :
    (createChained folder name t).files = t.files ∧
    (∀ t', openChained mem folder name d t = (.err, t') → t'.files = t.files) ∧
    (∀ o t', openChained mem folder name d t = (.ok o, t') → (Obj.close o t').files = t.files) := by
  obtain ⟨h, l, c⟩ := d
  refine ⟨?_, ?_, ?_⟩
  · simp only [createChained, Tab.opened, List.append_assoc]
    rw [close_new hw _ _ _ (by omega), close_new hw _ _ _ (by omega), close_new hw _ _ _ (by omega)]
    simp
  · intro t' ho
    cases mem <;> cases h <;> cases l <;> cases c <;> simp [openChained] at ho <;> subst ho <;>
      simp only [Obj.close, List.foldl_cons, List.foldl_nil, Tab.opened, List.append_assoc] <;>
      (repeat rw [close_new hw _ _ _ (by omega)]) <;> simp
  · intro o t' ho
    cases mem <;> cases h <;> cases l <;> cases c <;> simp [openChained] at ho <;> obtain ⟨rfl, rfl⟩ := ho <;>
      simp only [Obj.close, List.foldl_cons, List.foldl_nil, Tab.opened, List.append_assoc] <;>
      (repeat rw [close_new hw _ _ _ (by omega)]) <;> simp

/-! ## Instances -/

/-- The factory of the instances, and a chain it has created. -/
def demoFactory : Factory := theFactory ⟨3, 12⟩ ⟨3, 12⟩ ⟨3, 12⟩ ["time"] ["size"] false

/-- The folder of the chain. -/
def made : FS := (demoFactory.create bare).1

/-- Nothing open. -/
def empty : Tab := ⟨0, []⟩

/-- C114 fails: a chain of which a hash store has lost one of its files does not open, and leaves the other open; one
of which a word file is torn leaves that open. -/
theorem a_failed_open_leaves_a_file_open :
    ∃ f fs t', newFactory bare ["time"] ["size"] false = .ok f ∧ openChain f fs empty = (.err, t') ∧
      t'.paths = [("Transactions", "firsttxo.int")] ∧
    ∃ fs t', openChain f fs empty = (.err, t') ∧ t'.paths = [("Addresses/Hashes", "BinStarts.bes")] := by
  refine ⟨demoFactory, made.put "Transactions" "firsttxo.int" [1, 2, 3], _, rfl, rfl, by decide +kernel, ?_⟩
  exact ⟨{ made with file := fun d n => if d = "Addresses/Hashes" ∧ n = "BinNums.int" then none else made.file d n }, _,
    rfl, by decide +kernel⟩

/-- The chain opens with twenty files, and closing it closes them all; nothing is torn. -/
example : ∃ c t', newFactory bare ["time"] ["size"] false = .ok demoFactory ∧ openChain demoFactory made empty = (.ok c, t') ∧
    t'.paths.length = 20 ∧ tornOptional made = [] ∧ (closeChain c t').files = [] :=
  ⟨_, _, rfl, rfl, by decide +kernel, by decide +kernel, by decide +kernel⟩

/-- With its times torn the chain opens; they are open after it has been closed. -/
example : ∃ c t', openChain demoFactory (made.put "Blocks" "time.int" [1, 2, 3]) empty = (.ok c, t') ∧
    (closeChain c t').paths = [("Blocks", "time.int")] :=
  ⟨_, _, rfl, by decide +kernel⟩

/-- Two openings for reading: forty files. -/
example : (∃ c', demoFactory.openReadOnly made = .ok c') ∧ (reads demoFactory made 2 empty).paths.length = 40 :=
  ⟨⟨_, rfl⟩, by decide +kernel⟩

/-- With a word file missing the chain does not open, and nothing stays open. -/
example : ∃ t', openChain demoFactory
    { made with file := fun d n => if d = "Parents" ∧ n = "parenttransoftxo.int" then none else made.file d n } empty =
      (.err, t') ∧ t'.files = [] :=
  ⟨_, rfl, by decide +kernel⟩

/-- Held in RAM, a chain just created does not open, its word files being empty; nothing stays open. -/
example : ∃ f t', newFactory bare ["time"] ["size"] true = .ok f ∧ openChainReadOnly f made empty = (.err, t') ∧
    t'.files = [] ∧ t'.next = 7 :=
  ⟨theFactory ⟨3, 12⟩ ⟨3, 12⟩ ⟨3, 12⟩ ["time"] ["size"] true, _, rfl, rfl, by decide +kernel, by decide +kernel⟩

/-- Creating leaves three files open. -/
example : (create demoFactory bare empty).paths.length = 3 := by decide +kernel

/-- A chain of hashes without its addresses. -/
example : ∃ t', openHashes ⟨some [], some [], none⟩ empty = (none, t') ∧ t'.paths.length = 2 := ⟨_, rfl, rfl⟩

/-- A chained hash store that opens, and one without its collisions. -/
example : (∃ o t', openChained false "Hashes" "x" ⟨true, true, true⟩ empty = (.ok o, t') ∧ t'.files.length = 3) ∧
    ∃ t', openChained true "Hashes" "x" ⟨true, true, false⟩ empty = (.err, t') ∧ t'.next = 1 :=
  ⟨⟨_, _, rfl, rfl⟩, _, rfl, rfl⟩

end Verif.OpenFiles
