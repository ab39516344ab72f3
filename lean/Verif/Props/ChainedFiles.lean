import Verif.Lemmas.ChainedFiles

/-!
# C85: the collision-chained hash store over sessions
-/

namespace Verif.ChainedFiles

open ChainedHashStore (Params Res msb keyOf hasMsb zeroBuf CH put)
open HashStores (Found firstIndex)
open AppendOpt (AOF)

/-! ### What is expected -/

/-- A store of hashes is the list of what was appended. -/
def specStep (hs : List Bytes) : Op → List Bytes × Out
  | .append h => (hs ++ [h], .index hs.length)
  | .indexOf h => (hs, .found (firstIndex hs h))
  | .get i => (hs, .hash hs[i]?)
  | .count => (hs, .count hs.length)
  | .sync => (hs, .unit)
  | .reopen _ => (hs, .unit)
  | .killed _ => (hs, .unit)

/-- Everything a client should see. -/
def specRun (hs : List Bytes) : List Op → List Out
  | [] => []
  | op :: ops => (specStep hs op).2 :: specRun (specStep hs op).1 ops

/-- The hashes that are appended. -/
def appended : List Op → List Bytes
  | [] => []
  | .append h :: ops => h :: appended ops
  | _ :: ops => appended ops

/-- The program is killed only while the lookup is not held in memory, and nothing has been appended to an append-optimized
hashes file since it was synchronized or opened. -/
def Safe (m : Mode) (dirty : Bool) : List Op → Prop
  | [] => True
  | .append _ :: ops => Safe m true ops
  | .sync :: ops => Safe m false ops
  | .reopen m' :: ops => Safe m' false ops
  | .killed m' :: ops => m.mem = none ∧ (m.opt = true → dirty = false) ∧ Safe m' false ops
  | .indexOf _ :: ops => Safe m dirty ops
  | .get _ :: ops => Safe m dirty ops
  | .count :: ops => Safe m dirty ops

/-! ### The files when the store is closed or killed -/

/-- The hashes file when the store is closed. -/
def Hsh.closed : Hsh → Bytes
  | .plain d => d
  | .opt a => AppendOpt.close a

/-- The hashes file when the program is killed. -/
def Hsh.disk : Hsh → Bytes
  | .plain d => d
  | .opt a => a.file.data

theorem close_eq (s : Store) : close s = ⟨s.hsh.closed, s.lkp.view, s.cls⟩ := by
  unfold close
  cases s.hsh <;> cases s.lkp <;> rfl

theorem hshOK_closed {h : Hsh} {l : List Bytes} (hi : HshOK h l) : h.closed.length % 32 = 0 ∧ recs 32 h.closed = l := by
  cases h with
  | plain d => exact hi
  | opt a =>
    obtain ⟨plain, hp, hm, hl⟩ := hi
    have : AppendOpt.close a = plain := (AppendOpt.inv_flush hp).2.1
    rw [Hsh.closed, this]
    exact ⟨hm, hl⟩

theorem disk_flush {a : AOF} {plain : Bytes} (h : AppendOpt.Inv a plain) :
    (Hsh.opt (AppendOpt.flush a)).disk = (Hsh.opt (AppendOpt.flush a)).closed := by
  have h1 := AppendOpt.inv_flush h
  have h2 := AppendOpt.inv_flush h1.1
  rw [Hsh.disk, Hsh.closed, AppendOpt.close, h1.2.1, h2.2.1]

theorem sim_open {p : Params} {d : Disk} {c : CH} (m : Mode) (h1 : d.hsh.length % 32 = 0) (h2 : recs 32 d.hsh = c.hashes)
    (h3 : BufOK p d.lkp c.lookups) (h4 : d.cls.length % p.nbytes = 0) (h5 : words p.nbytes d.cls = c.coll) :
    Sim p (openStore m d) c := by
  refine ⟨?_, ?_, ?_, h4, h5⟩
  · simp only [openStore]
    split
    · exact ⟨_, AppendOpt.inv_open _, h1, h2⟩
    · exact ⟨h1, h2⟩
  · simp only [openStore]
    rw [← h2, recs_length]
  · simp only [openStore]
    cases m.mem <;> exact h3

theorem sim_create {p : Params} (hn : 0 < p.nbytes) (m : Mode) : Sim p (openStore m (create p)) ChainedHashStore.create := by
  refine sim_open m rfl (by simp [create, ChainedHashStore.create, recs]) ⟨?_, ?_⟩ (Nat.zero_mod _) ?_
  · rw [create, zeros_length, Nat.mul_comm]
  · intro k hk
    rw [create, Nat.mul_comm, words_zeros hn, List.getElem?_replicate, if_pos hk]; rfl
  · simp [create, ChainedHashStore.create, words, recs]

/-- What holds between operations. -/
structure OK (p : Params) (s : Store) (m : Mode) (dirty : Bool) (hs : List Bytes) : Prop where
  sim : ∃ c chains nch, Sim p s c ∧ ChainedHashStore.Inv p c chains nch ∧ c.hashes = hs
  file : m.mem = none → ∃ d, s.lkp = .file d
  plain : m.opt = false → ∃ d, s.hsh = .plain d
  disk : dirty = false → s.hsh.disk = s.hsh.closed

theorem ok_open {p : Params} {d : Disk} {c : CH} {chains : Nat → List Nat} {nch : Nat} {m : Mode} {hs : List Bytes}
    (h : Sim p (openStore m d) c) (hi : ChainedHashStore.Inv p c chains nch) (hc : c.hashes = hs) :
    OK p (openStore m d) m false hs := by
  refine ⟨⟨c, chains, nch, h, hi, hc⟩, ?_, ?_, ?_⟩
  · intro e; simp only [openStore, e]; exact ⟨_, rfl⟩
  · intro e; simp only [openStore, e]; exact ⟨_, rfl⟩
  · intro _
    simp only [openStore]
    split
    · simp [Hsh.disk, Hsh.closed, AppendOpt.close, AppendOpt.flush, AppendOpt.openFile]
    · rfl

theorem ok_create {p : Params} (hp : p.Valid) (m : Mode) : OK p (openStore m (create p)) m false [] :=
  ok_open (sim_create hp.nbytes_pos m) (ChainedHashStore.inv_create p) rfl

theorem ok_reopen {p : Params} {s : Store} {m : Mode} {dirty : Bool} {hs : List Bytes} (h : OK p s m dirty hs) (m' : Mode) :
    OK p (openStore m' (close s)) m' false hs := by
  obtain ⟨c, chains, nch, hsim, hi, hc⟩ := h.sim
  refine ok_open (sim_open m' ?_ ?_ ?_ ?_ ?_) hi hc
  · rw [close_eq]; exact (hshOK_closed hsim.hsh).1
  · rw [close_eq]; exact (hshOK_closed hsim.hsh).2
  · rw [close_eq]; exact hsim.lkp
  · rw [close_eq]; exact hsim.cmod
  · rw [close_eq]; exact hsim.cls

theorem kill_eq_close {p : Params} {s : Store} {m : Mode} {dirty : Bool} {hs : List Bytes} (h : OK p s m dirty hs)
    (h1 : m.mem = none) (h2 : m.opt = true → dirty = false) : kill s = close s := by
  obtain ⟨d, hd⟩ := h.file h1
  have hh : s.hsh.disk = s.hsh.closed := by
    cases ho : m.opt with
    | true => exact h.disk (h2 ho)
    | false =>
      obtain ⟨d, hd⟩ := h.plain ho
      rw [hd]; rfl
  rw [close_eq, ← hh, kill, hd]
  cases s.hsh <;> rfl

theorem ok_read {p : Params} {s : Store} {m : Mode} {dirty : Bool} {hs : List Bytes} (h : OK p s m dirty hs) {hsh : Hsh}
    (hk : HshOK hsh hs) (hpl : ∀ d, s.hsh = .plain d → hsh = .plain d) (hd : s.hsh.disk = s.hsh.closed → hsh.disk = hsh.closed) :
    OK p { s with hsh := hsh } m dirty hs := by
  obtain ⟨c, chains, nch, hsim, hi, hc⟩ := h.sim
  refine ⟨⟨c, chains, nch, ⟨by rw [hc]; exact hk, hsim.cnt, hsim.lkp, hsim.cmod, hsim.cls⟩, hi, hc⟩, h.file, ?_, ?_⟩
  · intro e
    obtain ⟨d, hd⟩ := h.plain e
    exact ⟨d, hpl d hd⟩
  · intro e; exact hd (h.disk e)

theorem readHash_plain (d : Bytes) (i : Nat) : (readHash (.plain d) i).1 = .plain d := rfl

theorem readHash_disk {h : Hsh} {l : List Bytes} (hi : HshOK h l) (i : Nat) :
    (readHash h i).1 = h ∨ (readHash h i).1.disk = (readHash h i).1.closed := by
  cases h with
  | plain d => exact Or.inl rfl
  | opt a =>
    obtain ⟨plain, hp, _⟩ := hi
    exact Or.inr (disk_flush hp)

/-- What reading does to the hashes file. -/
def Kept (h h' : Hsh) : Prop := (∀ d, h = .plain d → h' = .plain d) ∧ (h.disk = h.closed → h'.disk = h'.closed)

theorem kept_refl (h : Hsh) : Kept h h := ⟨fun _ e => e, fun e => e⟩

theorem Kept.trans {h h' h'' : Hsh} (a : Kept h h') (b : Kept h' h'') : Kept h h'' :=
  ⟨fun d e => b.1 d (a.1 d e), fun e => b.2 (a.2 e)⟩

theorem kept_readHash {h : Hsh} {l : List Bytes} (hi : HshOK h l) (i : Nat) : Kept h (readHash h i).1 := by
  refine ⟨?_, ?_⟩
  · rintro d rfl; rfl
  · intro e
    rcases readHash_disk hi i with h1 | h1
    · rw [h1]; exact e
    · exact h1

theorem kept_scan {p : Params} {cls v : Bytes} {base n j : Nat} {hsh : Hsh} {l : List Bytes} (h : HshOK hsh l) :
    Kept hsh (scanSlots p cls v base hsh j n).1 := by
  induction n generalizing j hsh with
  | zero =>
    rw [scanSlots]
    split
    · exact kept_refl _
    · split <;> exact kept_refl _
  | succ n ih =>
    rw [scanSlots]
    split
    · exact kept_refl _
    · rename_i b _
      split
      · exact kept_refl _
      · have h1 := (hshOK_read h (leDec b - 1)).1
        have h2 := kept_readHash h (leDec b - 1)
        cases hr : readHash hsh (leDec b - 1) with
        | mk hsh' r =>
          rw [hr] at h1 h2
          cases r with
          | none => exact h2
          | some x =>
            simp only
            split
            · exact h2
            · exact h2.trans (ih h1)

theorem kept_search {p : Params} (hn : 0 < p.nbytes) {c : CH} {cls v : Bytes} (hcls : words p.nbytes cls = c.coll)
    {fuel link : Nat} {hsh : Hsh} (h : HshOK hsh c.hashes) : Kept hsh (searchChain p cls v fuel hsh link).1 := by
  induction fuel generalizing link hsh with
  | zero => exact kept_refl _
  | succ fuel ih =>
    rw [searchChain]
    split
    · exact kept_refl _
    · have h1 := (scanSlots_sim hn hcls v ((link - 1) * (p.cpc + 1)) p.cpc 0 h).1
      have h2 : Kept hsh (scanSlots p cls v ((link - 1) * (p.cpc + 1)) hsh 0 p.cpc).1 := kept_scan h
      cases hr : scanSlots p cls v ((link - 1) * (p.cpc + 1)) hsh 0 p.cpc with
      | mk hsh' r =>
        rw [hr] at h1 h2
        cases r with
        | done f => exact h2
        | link w => exact h2.trans (ih h1)

theorem kept_indexOf {p : Params} (hn : 0 < p.nbytes) {s : Store} {c : CH} (h : Sim p s c) (v : Bytes) :
    Kept s.hsh (indexOfHash p s v).1.hsh := by
  unfold indexOfHash
  split
  · rename_i lb _
    dsimp only
    split
    · split
      · exact kept_refl _
      · have h2 := kept_readHash h.hsh (leDec lb - 1)
        cases hr : readHash s.hsh (leDec lb - 1) with
        | mk hsh' r =>
          rw [hr] at h2
          cases r with
          | none => exact h2
          | some x =>
            simp only
            split <;> exact h2
    · have h2 : Kept s.hsh (searchChain p s.cls v (s.cls.length / p.nbytes + 1) s.hsh (leDec lb - msb p)).1 :=
        kept_search hn h.cls h.hsh
      cases hr : searchChain p s.cls v (s.cls.length / p.nbytes + 1) s.hsh (leDec lb - msb p) with
      | mk hsh' r =>
        rw [hr] at h2
        cases r <;> exact h2
  · exact kept_refl _
  · exact kept_refl _
  · exact kept_refl _

theorem ok_append {p : Params} (hp : p.Valid) {s : Store} {m : Mode} {dirty : Bool} {hs : List Bytes} (h : OK p s m dirty hs)
    {v : Bytes} (hv : v.length = 32) (hlen : hs.length + 1 < msb p) :
    ∃ s', appendHash p s v = .ok (s', hs.length) ∧ OK p s' m true (hs ++ [v]) ∧ s.lkp.sameKind s'.lkp := by
  obtain ⟨c, chains, nch, hsim, hi, hc⟩ := h.sim
  obtain ⟨c', chains', nch', h1, h2, h3⟩ := ChainedHashStore.append_ok hp hi (by rw [hc]; exact hlen) v
  obtain ⟨s', e1, e2, e3, e4⟩ := appendHash_sim hsim hv h1
  rw [hc] at e1 h2
  refine ⟨s', e1, ⟨⟨c', chains', nch', e2, h3, h2⟩, ?_, ?_, by intro e; cases e⟩, e4⟩
  · intro e
    obtain ⟨d, hd⟩ := h.file e
    exact e4.2 d hd
  · intro e
    obtain ⟨d, hd⟩ := h.plain e
    rw [e3, hd]
    exact ⟨_, rfl⟩

theorem run_ok {p : Params} (hp : p.Valid) (ops : List Op) (hw : ∀ h ∈ appended ops, h.length = 32) {s : Store} {m : Mode}
    {dirty : Bool} {hs : List Bytes} (h : OK p s m dirty hs) (hsafe : Safe m dirty ops)
    (hlen : hs.length + (appended ops).length < msb p) : (run p s ops).2 = specRun hs ops := by
  induction ops generalizing s m dirty hs with
  | nil => rfl
  | cons op ops ih =>
    obtain ⟨c, chains, nch, hsim, hi, hc⟩ := h.sim
    cases op with
    | append v =>
      simp only [appended, List.length_cons] at hlen
      obtain ⟨s', e1, e2, _⟩ := ok_append hp h (hw v (by simp [appended])) (by omega)
      have := ih (fun x hx => hw x (by simp [appended, hx])) e2 hsafe (by rw [List.length_append, List.length_singleton]; omega)
      simp only [run, step, e1, specRun, specStep, this]
    | indexOf v =>
      have hl : c.hashes.length < msb p := by rw [hc]; omega
      have e0 := ChainedHashStore.indexOf_ok hp hi hl v
      obtain ⟨e1, e2, e3⟩ := indexOf_sim hp.nbytes_pos hsim v e0
      have hk := kept_indexOf hp.nbytes_pos hsim v
      rw [hc] at e1 e2
      have hok := ok_read h e2 hk.1 hk.2
      rw [← e3] at hok
      have hst : step p s (.indexOf v) = ((indexOfHash p s v).1, .found (firstIndex hs v)) := by
        simp only [step]
        cases hr : indexOfHash p s v with
        | mk s' r =>
          rw [hr] at e1
          simp only at e1
          subst e1
          rfl
      have := ih (fun x hx => hw x (by simpa [appended] using hx)) hok hsafe (by simpa [appended] using hlen)
      simp only [run, hst, specRun, specStep, this]
    | get i =>
      obtain ⟨h1, h2⟩ := hshOK_read hsim.hsh i
      have hk := kept_readHash hsim.hsh i
      rw [hc] at h1 h2
      have := ih (fun x hx => hw x (by simpa [appended] using hx)) (ok_read h h1 hk.1 hk.2) hsafe (by simpa [appended] using hlen)
      simp only [run, step, h2, specRun, specStep, this]
    | count =>
      have := ih (fun x hx => hw x (by simpa [appended] using hx)) h hsafe (by simpa [appended] using hlen)
      simp only [run, step, specRun, specStep, this, hsim.cnt, hc]
    | sync =>
      have hok : OK p (sync s) m false hs := by
        unfold sync
        cases hh : s.hsh with
        | plain d => exact ⟨h.sim, h.file, h.plain, by intro _; rw [hh]; rfl⟩
        | opt a =>
          have h1 := hsim.hsh
          rw [hh, hc] at h1
          obtain ⟨plain, hpl, hm, hl⟩ := h1
          refine ⟨⟨c, chains, nch, ⟨?_, hsim.cnt, hsim.lkp, hsim.cmod, hsim.cls⟩, hi, hc⟩, h.file, ?_, fun _ => disk_flush hpl⟩
          · rw [hc]; exact ⟨plain, (AppendOpt.inv_flush hpl).1, hm, hl⟩
          · intro e
            obtain ⟨d, hd⟩ := h.plain e
            rw [hh] at hd; cases hd
      have := ih (fun x hx => hw x (by simpa [appended] using hx)) hok hsafe (by simpa [appended] using hlen)
      simp only [run, step, specRun, specStep, this]
    | reopen m' =>
      have := ih (fun x hx => hw x (by simpa [appended] using hx)) (ok_reopen h m') hsafe (by simpa [appended] using hlen)
      simp only [run, step, specRun, specStep, this]
    | killed m' =>
      obtain ⟨h1, h2, h3⟩ := hsafe
      have := ih (fun x hx => hw x (by simpa [appended] using hx)) (ok_reopen h m') h3 (by simpa [appended] using hlen)
      simp only [run, step, specRun, specStep, kill_eq_close h h1 h2, this]

/-- C85 (partial). A store that is made and used in any number of sessions, each with its own choice of how the lookup and
the hashes are kept, answers every call as the list of all hashes appended so far: every hash ever appended is found at its
first index and can be read back, nothing else is found, and appended hashes are numbered on. Between sessions the store is
closed, or the program killed while it is `Safe`. Missing: being killed otherwise (`killed_in_memory_forgets`,
`killed_unsynchronized_errs`) and the parameters and the last index excluded in C17. -/
theorem sessions_find_all_partial (p : Params) (hp : p.Valid) (m : Mode) (ops : List Op)
    (hw : ∀ h ∈ appended ops, h.length = 32) (hlen : (appended ops).length < msb p) (hsafe : Safe m false ops) :
    (run p (openStore m (create p)) ops).2 = specRun [] ops :=
  run_ok hp ops hw (ok_create hp m) hsafe (by simpa using hlen)

/-- Appending several. -/
theorem appends_ok {p : Params} (hp : p.Valid) (l : List Bytes) (hw : ∀ h ∈ l, h.length = 32) {s : Store} {m : Mode}
    {dirty : Bool} {hs : List Bytes} (h : OK p s m dirty hs) (hlen : hs.length + l.length < msb p) :
    ∃ s' d', OK p s' m d' (hs ++ l) ∧ s.lkp.sameKind s'.lkp ∧
      ∀ ops, (run p s (l.map .append ++ ops)).2 = (List.range' hs.length l.length).map .index ++ (run p s' ops).2 := by
  induction l generalizing s dirty hs with
  | nil => exact ⟨s, dirty, by simpa using h, Lkp.sameKind_refl _, fun ops => by simp⟩
  | cons v l ih =>
    simp only [List.length_cons] at hlen
    obtain ⟨s1, e1, e2, e3⟩ := ok_append hp h (hw v (by simp)) (by omega)
    obtain ⟨s', d', f1, f2, f3⟩ := ih (fun x hx => hw x (by simp [hx])) e2
      (by rw [List.length_append, List.length_singleton]; omega)
    refine ⟨s', d', by simpa using f1, e3.trans f2, fun ops => ?_⟩
    rw [List.map_cons, List.cons_append, run, step, e1]
    simp only
    rw [f3, List.length_append, List.length_singleton, List.length_cons, List.range'_succ]
    rfl

/-- C85 does not hold if the program is killed while the lookup is held in memory, even if everything had been synchronized:
of a new store with any hashes, all are still there and counted but none is found. -/
theorem killed_in_memory_forgets (p : Params) (hp : p.Valid) (slack : Bytes) (opt : Bool) (m : Mode) (hs : List Bytes)
    (hw : ∀ h ∈ hs, h.length = 32) (hlen : hs.length < msb p) (h : Bytes) (i : Nat) :
    (run p (openStore ⟨some slack, opt⟩ (create p)) (hs.map .append ++ [.sync, .killed m, .indexOf h, .get i, .count])).2 =
      (List.range hs.length).map .index ++ [.unit, .unit, .found .absent, .hash hs[i]?, .count hs.length] := by
  obtain ⟨s, d, h1, h2, h3⟩ := appends_ok hp hs hw (ok_create hp ⟨some slack, opt⟩) (by simpa using hlen)
  rw [h3, List.length_nil, List.range_eq_range']
  congr 1
  rw [List.nil_append] at h1
  obtain ⟨c, chains, nch, hsim, hi, hc⟩ := h1.sim
  obtain ⟨b, sl, hl⟩ := h2.1 _ _ _ rfl
  have hk : (kill (sync s)).hsh = s.hsh.closed ∧ (kill (sync s)).lkp = (create p).lkp := by
    unfold sync
    cases hh : s.hsh with
    | plain d => simp only [kill, hh, hl]; exact ⟨rfl, trivial⟩
    | opt a => simp only [kill, hl]; exact ⟨rfl, trivial⟩
  have hz : BufOK p (openStore m (kill (sync s))).lkp.view ChainedHashStore.create.lookups := by
    have := (sim_create hp.nbytes_pos m).lkp
    simp only [openStore] at this ⊢
    rw [hk.2]; exact this
  obtain ⟨lb, hlb, _, hld⟩ := lkp_read hp.nbytes_pos hz (keyOf_lt p h)
  have hld0 : leDec lb = 0 := hld
  have hio : indexOfHash p (openStore m (kill (sync s))) h = (openStore m (kill (sync s)), .found .absent) := by
    have h0 : hasMsb p 0 = false := ChainedHashStore.hasMsb_small hp.nbytes_pos (ChainedHashStore.msb_pos p)
    unfold indexOfHash
    rw [hlb]
    simp only [hld0, h0, if_true]
  have hh : HshOK (openStore m (kill (sync s))).hsh hs := by
    have := hshOK_closed hsim.hsh
    rw [hc] at this
    simp only [openStore]
    rw [hk.1]
    split
    · exact ⟨_, AppendOpt.inv_open _, this⟩
    · exact this
  have hcnt : (openStore m (kill (sync s))).count = hs.length := by
    simp only [openStore]
    rw [hk.1, ← recs_length, (hshOK_closed hsim.hsh).2, hc]
  simp only [run, step, hio, (hshOK_read hh i).2, hcnt]

/-- C85 does not hold if the program is killed before an append-optimized hashes file is synchronized: the hash is gone and
looking it up is an error. -/
theorem killed_unsynchronized_errs (p : Params) (hp : p.Valid) (m : Mode) (h : Bytes) (hw : h.length = 32) :
    (run p (openStore ⟨none, true⟩ (create p)) [.append h, .killed m, .count, .indexOf h]).2 =
      [.index 0, .unit, .count 0, .found .err] := by
  have hm : 1 < msb p := by
    unfold msb
    have := Nat.pow_pos (n := p.nbytes - 1) (show 0 < 256 by decide)
    omega
  have hn := hp.nbytes_pos
  have hk := keyOf_lt p h
  obtain ⟨c, chains, nch, hsim, hi, hc⟩ := (ok_create hp ⟨none, true⟩).sim
  have hb0 := (sim_create hn ⟨none, true⟩).lkp
  have hs0 : (openStore ⟨none, true⟩ (create p)).lkp = .file (create p).lkp := rfl
  obtain ⟨lb, hlb, _, hld⟩ := lkp_read hn hb0 hk
  have hld0 : leDec lb = 0 := hld
  obtain ⟨l', hw1, hw2, _, hw4⟩ := lkp_write hn hb0 hk (0 + 1)
  obtain ⟨d', hd'⟩ := hw4 _ hs0
  subst hd'
  have happ : appendHash p (openStore ⟨none, true⟩ (create p)) h =
      .ok (⟨.opt ⟨⟨[], 0⟩, some h, 32, 32⟩, 1, .file d', []⟩, 0) := by
    unfold appendHash indexIt
    have e1 : (openStore ⟨none, true⟩ (create p)).count = 0 := by simp [openStore, create]
    have e2 : writeHash (openStore ⟨none, true⟩ (create p)).hsh 0 h = .opt ⟨⟨[], 0⟩, some h, 32, 32⟩ := by
      simp [openStore, create, writeHash, AppendOpt.writeAt, AppendOpt.openFile, AppendOpt.bufWrite, AppendOpt.bufCap, hw]
    simp only [e1, e2, hlb, hld0, if_true, hw1]
    rw [if_neg (by omega), if_neg (by have := hp.nbytes_le; omega), if_neg (by have := hp.cpc_le; omega)]
    rfl
  have hbuf : BufOK p (openStore m (kill ⟨.opt ⟨⟨[], 0⟩, some h, 32, 32⟩, 1, .file d', []⟩)).lkp.view
      (fun j => if j = keyOf p h then put p (0 + 1) else ChainedHashStore.create.lookups j) := by
    simp only [openStore, kill]
    cases m.mem <;> exact hw2
  obtain ⟨lb2, hlb2, _, hld2⟩ := lkp_read hn hbuf hk
  have hld3 : leDec lb2 = 1 := by
    rw [hld2]
    simp only [if_true]
    rw [ChainedHashStore.put_small hn (by omega)]
  have hrd : (readHash (openStore m (kill ⟨.opt ⟨⟨[], 0⟩, some h, 32, 32⟩, 1, .file d', []⟩)).hsh 0).2 = none := by
    simp only [openStore, kill]
    split <;> rfl
  have hio : (indexOfHash p (openStore m (kill ⟨.opt ⟨⟨[], 0⟩, some h, 32, 32⟩, 1, .file d', []⟩)) h).2 = .found .err := by
    have h0 : hasMsb p 1 = false := ChainedHashStore.hasMsb_small hn hm
    unfold indexOfHash
    rw [hlb2]
    simp only [hld3, h0, if_true]
    cases hr : readHash (openStore m (kill ⟨.opt ⟨⟨[], 0⟩, some h, 32, 32⟩, 1, .file d', []⟩)).hsh 0 with
    | mk x y =>
      rw [hr] at hrd
      simp only at hrd
      subst hrd
      simp
  have hc0 : (openStore m (kill ⟨.opt ⟨⟨[], 0⟩, some h, 32, 32⟩, 1, .file d', []⟩)).count = 0 := by simp [openStore, kill]
  simp only [run, step, happ, hc0]
  cases hr : indexOfHash p (openStore m (kill ⟨.opt ⟨⟨[], 0⟩, some h, 32, 32⟩, 1, .file d', []⟩)) h with
  | mk x y =>
    rw [hr] at hio
    simp only at hio
    subst hio
    rfl

/-- A 32-byte hash from a number. -/
def mkHash (b : Nat) : Bytes := UInt8.ofNat b :: List.replicate 31 0

/-- Example: five hashes with the same partial hash and one other over four sessions, with each kind of file, killed once. -/
example :
    let p : Params := ⟨4, 4, 3⟩
    let ops : List Op := [.append (mkHash 1), .append (mkHash 17), .reopen ⟨some [], true⟩, .append (mkHash 33), .append (mkHash 2),
      .sync, .reopen ⟨none, true⟩, .append (mkHash 49), .sync, .killed ⟨none, false⟩, .append (mkHash 65), .killed ⟨some [7], true⟩,
      .indexOf (mkHash 65), .indexOf (mkHash 33), .indexOf (mkHash 81), .count]
    p.Valid ∧ (∀ h ∈ appended ops, h.length = 32) ∧ (appended ops).length < msb p ∧ Safe ⟨none, false⟩ false ops ∧
    (specRun [] ops).drop 12 = [.found (.at 5), .found (.at 2), .found .absent, .count 6] ∧
    (run p (openStore ⟨none, false⟩ (create p)) ops).2.drop 12 = [.found (.at 5), .found (.at 2), .found .absent, .count 6] := by
  refine ⟨⟨by decide, by decide, by decide, by decide, by decide⟩, by decide, by decide, ?_, by decide, by decide +kernel⟩
  simp [Safe]

end Verif.ChainedFiles
