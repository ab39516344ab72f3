import Verif.Model.FaultyRun
import Verif.Props.FaultyFile
import Verif.Props.ChainFormat

/-!
# C109: a run that returns nil has stored its chain
-/

namespace Verif.Faulty

open AppendOpt (OsFile AOF Op Out bufCap)
open Killed (File Ev opsOn diskAfter fresh Left Widths files Encodes ingestEvs unsynced Buf)
open ChainStore (Iface Blk Good create allTxs outputs hashesOf store)

/-! ## Word files -/

theorem wordFile_run (w : Nat) (ops : List WordFile.Op) (wf : WordFile.WF) (hw : wf.wordSize = w) :
    (WordFile.run wf ops).1.file = (AppendOpt.run wf.file (ops.map (fileOp w))).1 := by
  induction ops generalizing wf with
  | nil => rfl
  | cons op ops ih =>
    rw [Killed.run_cons]
    have h : (WordFile.step wf op).1.wordSize = w ∧ (WordFile.step wf op).1.file = (AppendOpt.step wf.file (fileOp w op)).1 := by
      subst hw
      cases op with
      | read off =>
        simp only [WordFile.step, WordFile.readWordAt, AppendOpt.step, fileOp]
        split <;> exact ⟨rfl, rfl⟩
      | write v off => exact ⟨rfl, rfl⟩
      | count => exact ⟨rfl, rfl⟩
      | sync => exact ⟨rfl, rfl⟩
    rw [ih _ h.1, h.2]
    rfl

theorem all_some {l : List (Option Out)} (h : none ∉ l) : ∃ outs : List Out, l = outs.map some := by
  induction l with
  | nil => exact ⟨[], rfl⟩
  | cons o l ih =>
    obtain ⟨outs, rfl⟩ := ih (fun hm => h (List.mem_cons_of_mem _ hm))
    cases o with
    | none => exact absurd (List.mem_cons_self) h
    | some o => exact ⟨o :: outs, rfl⟩

/-- On a word file with no error so far, all is as on a good disk. -/
theorem wordFile_ok {w : Nat} {fates : Fates} {ops : List WordFile.Op} (h : none ∉ (wordFile w fates ops).2) :
    (wordFile w fates ops).1.erase = (WordFile.run (fresh w) ops).1.file ∧ Fine (wordFile w fates ops).1 := by
  obtain ⟨outs, ho⟩ := all_some h
  obtain ⟨e1, e2⟩ := run_ok (fun _ e => by cases e) ho
  rw [erase_open] at e1
  rw [wordFile_run w ops (fresh w) rfl]
  exact ⟨(congrArg Prod.fst e1).symm, e2⟩

theorem wordFile_closed {w : Nat} {fates : Fates} {ops : List WordFile.Op} (h : none ∉ (wordFile w fates ops).2)
    (hc : (close (wordFile w fates ops).1).2 = true) :
    (close (wordFile w fates ops).1).1 = diskAfter w (ops ++ [.sync]) := by
  rw [close_ok (a := (wordFile w fates ops).1) (b := (close (wordFile w fates ops).1).1) (by rw [← hc]), (wordFile_ok h).1]
  unfold diskAfter
  rw [Killed.run_append]
  rfl

/-- **C109 (partial).** A run that returns nil, on whatever disk, has stored its chain, if also every file was closed without
an error: the folder can be opened as a chain, and the word files hold exactly the bytes of the chain. Missing: the run does
not look at what closing the files returns (`a_nil_run_may_have_stored_nothing`). -/
theorem nil_and_closed_means_stored_partial {bn tn : List (String × Nat)} (hw : Widths bn tn) {p q : Int} (hp : p ≤ 0)
    (hq : q ≤ 0) {i : Iface} {d : Bool} {bs : List Blk} (hg : Good i d bn tn bs) {fs fs' : ChainFactory.FS}
    {fates : File → Fates}
    (hn : ReturnsNil bn tn fates (ingestEvs i 0 (-1) bs
      (create p q d ⟨bs.map (·.hash), (allTxs bs).map (·.hash), (outputs bs).map (·.addr)⟩ bn tn)))
    (hc : ClosesWell bn tn fates (ingestEvs i 0 (-1) bs
      (create p q d ⟨bs.map (·.hash), (allTxs bs).map (·.hash), (outputs bs).map (·.addr)⟩ bn tn)))
    (hl : Closed bn tn fs fates (ingestEvs i 0 (-1) bs
      (create p q d ⟨bs.map (·.hash), (allTxs bs).map (·.hash), (outputs bs).map (·.addr)⟩ bn tn)) fs')
    (hpar : ChainFactory.Params fs) (hh : ∀ d ∈ ChainFactory.hashFolders, ChainFactory.HashReady fs d)
    {bn' tn' : List String} {fac : ChainFactory.Factory} (hf : ChainFactory.newFactory fs' bn' tn' false = .ok fac) :
    (∃ c, fac.open_ fs' = .ok c) ∧
    ∀ e ∈ files i bn tn bs, ∃ data, fs'.file e.1 e.2.1 = some data ∧ Encodes e.2.2.1 e.2.2.2 data := by
  have hleft : Left bn tn fs (fun f => opsOn f (ingestEvs i 0 (-1) bs
      (create p q d ⟨bs.map (·.hash), (allTxs bs).map (·.hash), (outputs bs).map (·.addr)⟩ bn tn)) ++ [.sync]) fs' :=
    ⟨hl.params, fun f dd n w he => by
      rw [hl.words f dd n w he, wordFile_closed (hn f dd n w he) (hc f dd n w he)], hl.others⟩
  refine ⟨?_, Killed.finished_chain_format hw hp hq hg (fun _ => rfl) hleft⟩
  obtain ⟨s, hs, _, _⟩ := ChainStore.store_ok hp hq hg
  rw [ChainStore.store_eq p q i d bn tn bs hg.nonempty] at hs
  exact (Killed.a_finished_run_leaves_its_chain hw hs (fun _ => rfl) hleft hpar hh hf).1

/-! ## A disk that works for a while -/

/-- The same file on another disk. -/
def withF (a : FF) (F : Fates) : FF := { a with disk := { a.disk with fates := F } }

/-- `k` calls go well, then `F`. -/
def well (k : Nat) (F : Fates) : Fates := List.replicate k none ++ F

theorem fine_none {a : FF} (h : a.buf = none) : Fine a := fun w e => by rw [h] at e; cases e

theorem well_add (j k : Nat) (F : Fates) : well (j + k) F = well j (well k F) := by
  unfold well
  rw [← List.append_assoc, ← List.replicate_append_replicate]

theorem well_flush (f : OsFile) (w : Writer) (hw : w.failed = false) :
    ∃ k f', ∀ F, w.flush ⟨f, well k F⟩ = (⟨f', F⟩, ⟨[], false⟩, true) := by
  unfold Writer.flush
  simp only [hw, Bool.false_eq_true, ↓reduceIte]
  by_cases hp : w.pend = []
  · refine ⟨0, f, fun F => ?_⟩
    rw [if_pos hp]
    cases w
    simp_all [well]
  · refine ⟨1, f.write w.pend, fun F => ?_⟩
    rw [if_neg hp]
    rfl

theorem well_direct (f : OsFile) (p : Bytes) :
    ∃ k f', ∀ F, direct ⟨f, well k F⟩ p = (⟨f', F⟩, ⟨[], false⟩, p.length, true) := ⟨1, f.write p, fun _ => rfl⟩

theorem well_write (f : OsFile) (w : Writer) (hw : w.failed = false) (p : Bytes) :
    ∃ k f' w', w'.failed = false ∧ ∀ F, w.write ⟨f, well k F⟩ p = (⟨f', F⟩, w', p.length, true) := by
  unfold Writer.write
  simp only [hw, Bool.false_eq_true, ↓reduceIte]
  by_cases hl : p.length ≤ bufCap - w.pend.length
  · exact ⟨0, f, ⟨w.pend ++ p, false⟩, rfl, fun F => by rw [if_pos hl]; simp [well]⟩
  by_cases hp : w.pend = []
  · obtain ⟨k, f', h⟩ := well_direct f p
    exact ⟨k, f', _, rfl, fun F => by rw [if_neg hl, if_pos hp, h]⟩
  obtain ⟨k, f', h⟩ := well_flush f { w with pend := w.pend ++ p.take (bufCap - w.pend.length) } hw
  by_cases hr : (p.drop (bufCap - w.pend.length)).length ≤ bufCap
  · refine ⟨k, f', ⟨p.drop (bufCap - w.pend.length), false⟩, rfl, fun F => ?_⟩
    have := h F
    simp only [hw] at this
    rw [if_neg hl, if_neg hp, this]
    dsimp only
    rw [if_pos hr]
  · obtain ⟨k2, f2, h2⟩ := well_direct f' (p.drop (bufCap - w.pend.length))
    refine ⟨k + k2, f2, ⟨[], false⟩, rfl, fun F => ?_⟩
    have := h (well k2 F)
    simp only [hw] at this
    rw [if_neg hl, if_neg hp, well_add, this]
    dsimp only
    rw [if_neg hr, h2]
    dsimp only
    rw [List.length_drop]
    congr 3
    omega

theorem well_flushAll (a : FF) (ha : Fine a) : ∃ k a', a'.buf = none ∧ ∀ F, flush (withF a (well k F)) = (withF a' F, true) := by
  obtain ⟨⟨f, F0⟩, buf, na, ts⟩ := a
  cases buf with
  | none => exact ⟨0, ⟨⟨f, F0⟩, none, na, ts⟩, rfl, fun F => by simp [flush, withF, well]⟩
  | some w =>
    obtain ⟨k, f', h⟩ := well_flush f w (ha w rfl)
    exact ⟨k, ⟨⟨f', F0⟩, none, na, ts⟩, rfl, fun F => by simp [flush, withF, h]⟩

theorem well_elsewhere (a : FF) (off : Nat) (p : Bytes) :
    ∃ k a', a'.buf = a.buf ∧ ∀ F, writeElsewhere (withF a (well k F)) off p = (withF a' F, true) :=
  ⟨1, { a with
      disk := ⟨{ a.disk.file with data := Verif.writeAt a.disk.file.data off p }, []⟩
      totalSize := if off + p.length > a.totalSize then off + p.length else a.totalSize }, rfl, fun _ => rfl⟩

theorem well_writeAt (a : FF) (ha : Fine a) (off : Nat) (p : Bytes) :
    ∃ k a', Fine a' ∧ ∀ F, writeAt (withF a (well k F)) off p = (withF a' F, true) := by
  cases hb : a.buf with
  | some w =>
    by_cases ho : off = a.nextAppend
    · obtain ⟨k, f', w', h1, h⟩ := well_write a.disk.file w (ha w hb) p
      refine ⟨k, ⟨⟨f', []⟩, some w', a.nextAppend + p.length, a.totalSize + p.length⟩, (fun v e => by cases e; exact h1),
        fun F => ?_⟩
      unfold writeAt withF
      dsimp only
      rw [hb]
      dsimp only
      rw [if_pos ho, h]
    · obtain ⟨k, a1, h1, h⟩ := well_flushAll a ha
      obtain ⟨k2, a2, h2, h3⟩ := well_elsewhere a1 off p
      refine ⟨k + k2, a2, fine_none (by rw [h2, h1]), fun F => ?_⟩
      unfold writeAt
      rw [show (withF a (well (k + k2) F)).buf = some w from hb]
      dsimp only
      rw [if_neg (show ¬off = (withF a (well (k + k2) F)).nextAppend from ho), well_add, h]
      exact h3 F
  | none =>
    by_cases ho : off = a.totalSize
    · obtain ⟨k, f', w', h1, h⟩ := well_write { a.disk.file with pos := a.disk.file.data.length } ⟨[], false⟩ rfl p
      refine ⟨k, ⟨⟨f', []⟩, some w', off + p.length, a.totalSize + p.length⟩, (fun v e => by cases e; exact h1), fun F => ?_⟩
      unfold writeAt withF
      dsimp only
      rw [hb]
      dsimp only
      rw [if_pos ho, h]
    · obtain ⟨k2, a2, h2, h3⟩ := well_elsewhere a off p
      refine ⟨k2, a2, fine_none (by rw [h2, hb]), fun F => ?_⟩
      unfold writeAt
      rw [show (withF a (well k2 F)).buf = none from hb]
      dsimp only
      rw [if_neg (show ¬off = (withF a (well k2 F)).totalSize from ho)]
      exact h3 F

theorem well_step (a : FF) (ha : Fine a) (op : Op) :
    ∃ k a' o, Fine a' ∧ ∀ F, step (withF a (well k F)) op = (withF a' F, some o) := by
  cases op with
  | readAt off n =>
    obtain ⟨k, a1, h1, h⟩ := well_flushAll a ha
    refine ⟨k, a1, .bytes ((a1.disk.file.data.drop off).take n), fine_none h1, fun F => ?_⟩
    simp only [step, readAt, h]
    rfl
  | writeAt off p =>
    obtain ⟨k, a1, h1, h⟩ := well_writeAt a ha off p
    exact ⟨k, a1, .unit, h1, fun F => by simp [step, h]⟩
  | size => exact ⟨0, a, .size a.totalSize, ha, fun F => rfl⟩
  | sync =>
    obtain ⟨k, a1, h1, h⟩ := well_flushAll a ha
    refine ⟨k + 1, a1, .unit, fine_none h1, fun F => ?_⟩
    simp only [step, sync, well_add, h]
    rfl

theorem well_run (ops : List Op) (a : FF) (ha : Fine a) :
    ∃ k a' outs, ∀ F, run (withF a (well k F)) ops = (withF a' F, (outs : List Out).map some) := by
  induction ops generalizing a with
  | nil => exact ⟨0, a, [], fun F => rfl⟩
  | cons op ops ih =>
    obtain ⟨k, a1, o, h1, h⟩ := well_step a ha op
    obtain ⟨k2, a2, outs, h2⟩ := ih a1 h1
    exact ⟨k + k2, a2, o :: outs, fun F => by simp only [run, well_add, h, h2, List.map_cons]⟩

theorem good_disk (w : Nat) (ops : List WordFile.Op) :
    ∃ k a', ∀ F, ∃ outs : List Out, wordFile w (well k F) ops = (withF a' F, outs.map some) := by
  obtain ⟨k, a', outs, h⟩ := well_run (ops.map (fileOp w)) (openFile [] []) (fun _ e => by cases e)
  exact ⟨k, a', fun F => ⟨outs, h F⟩⟩

/-! ## The last flush -/

/-- A word file that is appended to, with words not synced: a disk that does all its work but the last flush leaves the file
as if it had not been closed. -/
theorem last_flush_fails {w : Nat} (hw : 0 < w ∧ w ≤ 8) {ops : List WordFile.Op} {N : Nat}
    (ha : Killed.appEnd 0 ops = some N) (hm : 0 < unsynced 0 ops) :
    ∃ k, none ∉ (wordFile w (well k [some 0]) ops).2 ∧
      close (wordFile w (well k [some 0]) ops).1 = (diskAfter w ops, false) := by
  obtain ⟨k, a', h⟩ := good_disk w ops
  obtain ⟨outs, h⟩ := h [some 0]
  have hn : none ∉ (wordFile w (well k [some 0]) ops).2 := by rw [h]; simp
  refine ⟨k, hn, ?_⟩
  have he := wordFile_ok hn
  rw [h] at he ⊢
  dsimp only at he ⊢
  have h0 : Buf (fresh w) w 0 0 := ⟨rfl, by simp [fresh, WordFile.new, AppendOpt.openFile], by omega,
    fun _ => ⟨rfl, by simp [fresh, WordFile.new, AppendOpt.openFile]⟩, by omega⟩
  obtain ⟨pend, _, b1, _, _, _, _, b6, _⟩ := (h0.run hw ops ha).dirty hm
  have hd : diskAfter w ops = (withF a' [some 0]).disk.file.data := by
    unfold diskAfter
    rw [← he.1]
    rfl
  rw [← he.1] at b1
  unfold FF.erase at b1
  dsimp only at b1
  obtain ⟨v, hv, rfl⟩ := Option.map_eq_some_iff.mp b1
  have hf := he.2 v hv
  have hne : v.pend ≠ [] := by
    intro e
    rw [e] at b6
    simp at b6
  rw [hd]
  unfold close flush
  rw [hv]
  simp [Writer.flush, hf, hne, Disk.write, withF, OsFile.write, Verif.writeAt]

/-- **C109 (violation).** Any good chain of at most ten thousand blocks with an output: there is a disk on which the run
returns nil, and the file of the values lacks outputs after it. With, say, a thousand outputs the folder cannot be opened as a
chain, by any factory, nor can the chain be created again before the folder is cleared by hand. (The disk refuses the
last flush of that file, as a full disk does.) -/
theorem a_nil_run_may_have_stored_nothing {p q : Int} (hp : p ≤ 0) (hq : q ≤ 0) {i : Iface} {d : Bool}
    {bn tn : List (String × Nat)} {bs : List Blk} (hg : Good i d bn tn bs) (hl : bs.length ≤ 10000)
    (ho : 0 < (outputs bs).length) :
    ∃ fates, ReturnsNil bn tn fates (ingestEvs i 0 (-1) bs (create p q d (hashesOf bs) bn tn)) ∧
      ∀ fs fs', Closed bn tn fs fates (ingestEvs i 0 (-1) bs (create p q d (hashesOf bs) bn tn)) fs' →
        (∃ data, fs'.file "TransactionOutputs" "value.int" = some data ∧ data.length < (outputs bs).length * 7) ∧
        (586 ≤ (outputs bs).length → (outputs bs).length ≤ 4096 → ChainFactory.Params fs →
          ∀ bn' tn' fac, ChainFactory.newFactory fs' bn' tn' false = .ok fac →
            (¬ ∃ c, fac.open_ fs' = .ok c) ∧ (¬ ∃ c, fac.openReadOnly fs' = .ok c) ∧
            fac.createFromHashStores fs' = (fs', false)) := by
  obtain ⟨s, hs, hC, _⟩ := ChainStore.store_ok hp hq hg
  rw [ChainStore.store_eq p q i d bn tn bs hg.nonempty] at hs
  have hm := Killed.short_run_unsynced rfl hl hs
  rw [hC.sats, List.length_map, ← ChainStore.outputs_eq] at hm
  have happ := Killed.ingest_app hs
  have h0 : (create p q d (hashesOf bs) bn tn).txoSats.length = 0 := rfl
  unfold Killed.App at happ
  rw [h0, hC.sats, List.length_map, ← ChainStore.outputs_eq] at happ
  generalize hes : ingestEvs i 0 (-1) bs (create p q d (hashesOf bs) bn tn) = es at *
  obtain ⟨k, hk1, hk2⟩ := last_flush_fails (w := 7) (by omega) happ (by omega)
  obtain ⟨_, hlen⟩ := Killed.disk_length (w := 7) (by omega) happ
  refine ⟨fun f => if f = .txoSats then well k [some 0] else
    match File.place bn tn f with
    | some (_, _, w) => well (Classical.choose (good_disk w (opsOn f es))) []
    | none => [], ?_, fun fs fs' hcl => ?_⟩
  · intro f dd n w hf
    dsimp only
    by_cases he : f = .txoSats
    · subst he
      rw [if_pos rfl]
      cases hf
      exact hk1
    · rw [if_neg he, hf]
      dsimp only
      obtain ⟨a', h⟩ := Classical.choose_spec (good_disk w (opsOn f es))
      obtain ⟨outs, h⟩ := h []
      rw [h]
      simp
  · have hfile := hcl.words .txoSats _ _ _ rfl
    simp only [↓reduceIte, hk2] at hfile
    refine ⟨⟨_, hfile, ?_⟩, fun h1 h2 hpar bn' tn' fac hf => ?_⟩
    · rw [hlen, hm]
      omega
    · have hno : ¬ ChainFactory.Complete fs' := by
        intro hc
        obtain ⟨data, hdat, hmod⟩ := hc.2 ("TransactionOutputs", "value.int", 7) (by simp [ChainFactory.essential])
        dsimp only at hdat hmod
        rw [hfile] at hdat
        cases hdat
        rw [hlen, hm] at hmod
        omega
      have hpar' : ChainFactory.Params fs' := by
        intro dd hd
        rw [hcl.params]
        exact hpar dd hd
      refine ⟨fun hc => hno ((ChainFactory.open_shows_the_files hpar' hf).1.mp hc),
        fun hc => hno ((ChainFactory.open_read_only_shows_the_files hpar' hf).1.mp hc), ?_⟩
      obtain ⟨b, t, a, _, _, _, _, _, _, rfl⟩ := ChainFactory.newFactory_ok.mp hf
      have hx := hcl.words .blkFirstTrans _ _ _ rfl
      unfold ChainFactory.Factory.createFromHashStores
      rw [if_neg (by simp [ChainFactory.theFactory]), if_pos]
      show (fs'.file "Blocks" "firsttrans.int").isSome = true
      rw [hx]
      rfl

/-! ## Instances -/

/-- For any calls there is a disk on which the run returns nil and all files close well, so the hypotheses of
`nil_and_closed_means_stored_partial` are met. -/
theorem some_disk_works (bn tn : List (String × Nat)) (es : List Ev) :
    ∃ fates, ReturnsNil bn tn fates es ∧ ClosesWell bn tn fates es := by
  refine ⟨fun f => match File.place bn tn f with
    | some (_, _, w) => well (Classical.choose (good_disk w (opsOn f es))) []
    | none => [], fun f dd n w hf => ?_, fun f dd n w hf => ?_⟩
  · dsimp only
    rw [hf]
    dsimp only
    obtain ⟨a', h⟩ := Classical.choose_spec (good_disk w (opsOn f es))
    obtain ⟨outs, h⟩ := h []
    rw [h]
    simp
  · dsimp only
    rw [hf]
    dsimp only
    obtain ⟨a', h⟩ := Classical.choose_spec (good_disk w (opsOn f es))
    obtain ⟨outs, h⟩ := h []
    have hn : none ∉ (wordFile w (well (Classical.choose (good_disk w (opsOn f es))) []) (opsOn f es)).2 := by rw [h]; simp
    have hf := (wordFile_ok hn).2
    rw [h] at hf ⊢
    dsimp only at hf ⊢
    unfold close flush
    split
    rename_i a1 ok hx
    split at hx
    · exact (congrArg Prod.snd hx).symm
    · rename_i v hv
      have hv' := hf v hv
      unfold Writer.flush at hx
      simp only [hv', Bool.false_eq_true, ↓reduceIte] at hx
      by_cases hp : v.pend = []
      · simp only [hp, ↓reduceIte] at hx
        exact (congrArg Prod.snd hx).symm
      · simp only [hp, ↓reduceIte] at hx
        exact (congrArg Prod.snd hx).symm

/-- The folder with these files. -/
def closing (fs : ChainFactory.FS) (fates : File → Fates) (es : List Ev) : ChainFactory.FS :=
  { fs with file := fun d n =>
      match Killed.allFiles.find? (fun f => (File.place [] [] f).map (fun x => (x.1, x.2.1)) = some (d, n)) with
      | some f => some (close (wordFile (((File.place [] [] f).map (·.2.2)).getD 0) (fates f) (opsOn f es)).1).1
      | none => fs.file d n }

theorem closing_closed (fs : ChainFactory.FS) (fates : File → Fates) (es : List Ev) :
    Closed [] [] fs fates es (closing fs fates es) := by
  refine ⟨rfl, fun f d n w hf => ?_, fun d n hn => ?_⟩
  · cases f <;> simp only [File.place, List.getElem?_nil, Option.map_none, Option.some.injEq, Prod.mk.injEq] at hf <;>
      first
      | (obtain ⟨rfl, rfl, rfl⟩ := hf; simp [closing, Killed.allFiles, File.place])
      | cases hf
  · unfold closing
    dsimp only
    split
    · rename_i f hf
      have := List.find?_some hf
      simp only [decide_eq_true_eq, Option.map_eq_some_iff, Prod.mk.injEq] at this
      obtain ⟨⟨d', n', w'⟩, h1, h2, h3⟩ := this
      dsimp only at h2 h3
      subst h2 h3
      exact absurd h1 (hn f w')
    · rfl

/-- Six hundred outputs in one block, on a disk that fails at the end. -/
example : Good .cri true [] [] Killed.six ∧ Killed.six.length ≤ 10000 ∧ 0 < (outputs Killed.six).length ∧
    586 ≤ (outputs Killed.six).length ∧ (outputs Killed.six).length ≤ 4096 ∧ ChainFactory.Params Killed.indexed :=
  ⟨Killed.six_good, by decide, by decide +kernel, by decide +kernel, by decide +kernel, fun _ _ => ⟨⟨3, 12⟩, rfl, by decide⟩⟩

/-- A small file whose last flush writes one byte of four: the calls return nil, `Close` an error, the file is too short. -/
example : (wordFile 4 [some 1] [.write 1 0]).2 = [some .unit] ∧ close (wordFile 4 [some 1] [.write 1 0]).1 = ([1], false) := by
  decide

end Verif.Faulty
