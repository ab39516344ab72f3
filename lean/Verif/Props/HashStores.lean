import Verif.Model.HashStores
import Verif.Props.HashFile

/-!
# C16, C18, C19: simple hash stores

Specifications: the store is the list of appended hashes. "First occurrence" and "last occurrence" are
defined on lists, independently of the code.
-/

namespace Verif.HashStores

/-- The smallest index holding `v`. -/
def firstIndex (l : List Bytes) (v : Bytes) : Found :=
  match l.findIdx? (· == v) with
  | some i => .at i
  | none => .absent

/-- The largest index holding `v`. -/
def lastIndex (l : List Bytes) (v : Bytes) : Found :=
  match l.reverse.findIdx? (· == v) with
  | some i => .at (l.length - 1 - i)
  | none => .absent

/-- `firstIndex` is what it says. -/
theorem firstIndex_at {l : List Bytes} {v : Bytes} {i : Nat} :
    firstIndex l v = .at i ↔ l[i]? = some v ∧ ∀ j, j < i → l[j]? ≠ some v := by
  unfold firstIndex
  cases h : l.findIdx? (· == v) with
  | none =>
    simp only [reduceCtorEq, false_iff, not_and]
    rw [List.findIdx?_eq_none_iff] at h
    intro h1
    have := h v (List.mem_of_getElem? h1)
    simp at this
  | some k =>
    rw [List.findIdx?_eq_some_iff_getElem] at h
    obtain ⟨hk, hv, hlt⟩ := h
    have hkv : l[k]? = some v := by rw [List.getElem?_eq_getElem hk]; simpa using hv
    constructor
    · intro e
      simp only [Found.at.injEq] at e
      subst e
      refine ⟨hkv, ?_⟩
      intro j hj e
      have := hlt j hj
      rw [List.getElem?_eq_getElem (by omega)] at e
      simp at e this
      exact this e
    · rintro ⟨h1, h2⟩
      have hle : ¬ k < i := fun hlt' => h2 k hlt' hkv
      have hge : ¬ i < k := by
        intro hik
        have := hlt i hik
        rw [List.getElem?_eq_getElem (by omega)] at h1
        simp at h1 this
        exact this h1
      rw [Nat.le_antisymm (Nat.le_of_not_lt hle) (Nat.le_of_not_lt hge)]

/-- `.absent` means absent. -/
theorem firstIndex_absent {l : List Bytes} {v : Bytes} : firstIndex l v = .absent ↔ v ∉ l := by
  unfold firstIndex
  cases h : l.findIdx? (· == v) with
  | none =>
    simp only [true_iff]
    rw [List.findIdx?_eq_none_iff] at h
    intro hm
    simpa using h v hm
  | some k =>
    simp only [reduceCtorEq, false_iff, Classical.not_not]
    rw [List.findIdx?_eq_some_iff_getElem] at h
    obtain ⟨hk, hv, _⟩ := h
    simp at hv
    exact hv ▸ List.getElem_mem hk

theorem lastIndex_append (l : List Bytes) (x v : Bytes) :
    lastIndex (l ++ [x]) v = if v = x then .at l.length else lastIndex l v := by
  unfold lastIndex
  rw [List.reverse_append, List.reverse_singleton, List.singleton_append, List.findIdx?_cons]
  by_cases e : v = x
  · subst e; simp
  · rw [if_neg e]
    have : (x == v) = false := by simpa using Ne.symm e
    rw [this]
    simp only [Bool.false_eq_true, if_false]
    cases h : l.reverse.findIdx? (· == v) with
    | none => simp
    | some k =>
      simp only [Option.map_some, List.length_append, List.length_singleton, Found.at.injEq]
      omega

/-- `lastIndex` is what it says. -/
theorem lastIndex_at {l : List Bytes} {v : Bytes} {i : Nat} :
    lastIndex l v = .at i ↔ l[i]? = some v ∧ ∀ j, i < j → l[j]? ≠ some v := by
  generalize hr : l.reverse = r
  induction r generalizing l with
  | nil => simp at hr; subst hr; simp [lastIndex]
  | cons x r ih =>
    have hl : l = r.reverse ++ [x] := by
      have := congrArg List.reverse hr
      simpa using this
    subst hl
    rw [lastIndex_append]
    have ih' := ih (l := r.reverse) (by simp)
    by_cases e : v = x
    · subst e
      rw [if_pos rfl]
      constructor
      · intro e; simp only [Found.at.injEq] at e; subst e
        refine ⟨by simp, ?_⟩
        intro j hj h
        rw [List.getElem?_eq_none (by simp at hj ⊢; omega)] at h
        simp at h
      · rintro ⟨h1, h2⟩
        congr 1
        have hlt : i < (r.reverse ++ [v]).length := by
          rcases Nat.lt_or_ge i (r.reverse ++ [v]).length with h | h
          · exact h
          · rw [List.getElem?_eq_none h] at h1; simp at h1
        rcases Nat.lt_or_ge i r.reverse.length with h | h
        · exact absurd (by simp) (h2 r.reverse.length h)
        · simp at hlt h ⊢; omega
    · rw [if_neg e, ih']
      constructor
      · rintro ⟨h1, h2⟩
        have hi : i < r.reverse.length := by
          rcases Nat.lt_or_ge i r.reverse.length with h | h
          · exact h
          · rw [List.getElem?_eq_none h] at h1; simp at h1
        refine ⟨by rw [List.getElem?_append_left hi]; exact h1, ?_⟩
        intro j hj h
        rcases Nat.lt_or_ge j r.reverse.length with h' | h'
        · rw [List.getElem?_append_left h'] at h; exact h2 j hj h
        · rw [List.getElem?_append_right h'] at h
          cases hk : j - r.reverse.length with
          | zero => rw [hk] at h; simp at h; exact e h.symm
          | succ k => rw [hk] at h; simp at h
      · rintro ⟨h1, h2⟩
        rcases Nat.lt_or_ge i r.reverse.length with h' | h'
        · rw [List.getElem?_append_left h'] at h1
          refine ⟨h1, ?_⟩
          intro j hj h
          have hjl : j < r.reverse.length := by
            rcases Nat.lt_or_ge j r.reverse.length with h'' | h''
            · exact h''
            · rw [List.getElem?_eq_none h''] at h; simp at h
          exact h2 j hj (by rw [List.getElem?_append_left hjl]; exact h)
        · rw [List.getElem?_append_right h'] at h1
          cases hk : i - r.reverse.length with
          | zero => rw [hk] at h1; simp at h1; exact absurd h1.symm e
          | succ k => rw [hk] at h1; simp at h1

/-- `.absent` means absent. -/
theorem lastIndex_absent {l : List Bytes} {v : Bytes} : lastIndex l v = .absent ↔ v ∉ l := by
  unfold lastIndex
  cases h : l.reverse.findIdx? (· == v) with
  | none =>
    simp only [true_iff]
    rw [List.findIdx?_eq_none_iff] at h
    intro hm
    simpa using h v (by simpa using hm)
  | some k =>
    simp only [reduceCtorEq, false_iff, Classical.not_not]
    rw [List.findIdx?_eq_some_iff_getElem] at h
    obtain ⟨hk, hv, _⟩ := h
    simp only [beq_iff_eq] at hv
    have := List.getElem_mem hk
    rw [hv] at this
    simpa using this

theorem setExt_end {α : Type} (l : List α) (a pad : α) : setExt l l.length a pad = l ++ [a] := by
  simp [setExt]

theorem inv_append {h : HashFile.HF} {l : List Bytes} (hi : HashFile.Inv h l) {v : Bytes} (hv : v.length = 32) :
    HashFile.Inv (HashFile.writeHashAt h v h.hashCount) (l ++ [v]) := by
  have := HashFile.inv_write hi hv h.hashCount
  rwa [hi.count, setExt_end, ← hi.count] at this

theorem inv_sync {h : HashFile.HF} {l : List Bytes} (hi : HashFile.Inv h l) :
    HashFile.Inv { h with file := AppendOpt.sync h.file } l := by
  obtain ⟨plain, hp, hm, hl⟩ := hi.file
  exact ⟨⟨plain, (AppendOpt.inv_flush hp).1, hm, hl⟩, hi.count⟩

/-! ### C16: the basic hash store -/

/-- Every appended hash is 32 bytes long. -/
def Basic.Op.wellTyped : Basic.Op → Prop
  | .append v => v.length = 32
  | _ => True

/-- Specification of the store as the list of appended hashes; `find` is the lookup wanted. -/
def specStep (find : List Bytes → Bytes → Found) (l : List Bytes) : Basic.Op → List Bytes × Basic.Out
  | .append v => (l ++ [v], .index l.length)
  | .indexOf v => (l, .found (find l v))
  | .get i => (l, .hash l[i]?)
  | .count => (l, .count l.length)
  | .sync => (l, .unit)

/-- Specification of a session. -/
def specRun (find : List Bytes → Bytes → Found) (l : List Bytes) : List Basic.Op → List Bytes × List Basic.Out
  | [] => (l, [])
  | op :: ops =>
    let (l', o) := specStep find l op
    let (l'', os) := specRun find l' ops
    (l'', o :: os)

theorem Basic.indexLoop_ok {h : HashFile.HF} {l : List Bytes} (hi : HashFile.Inv h l) (v : Bytes)
    (index n : Nat) (hn : index + n = l.length) (hbefore : ∀ j, j < index → l[j]? ≠ some v) :
    HashFile.Inv (Basic.indexLoop h v index n).1 l ∧ (Basic.indexLoop h v index n).2 = firstIndex l v := by
  induction n generalizing h index with
  | zero =>
    refine ⟨hi, ?_⟩
    symm
    simp only [Basic.indexLoop]
    rw [firstIndex_absent]
    intro hm
    obtain ⟨j, hj⟩ := List.getElem?_of_mem hm
    have hjl : j < l.length := by
      rcases Nat.lt_or_ge j l.length with h' | h'
      · exact h'
      · rw [List.getElem?_eq_none h'] at hj; simp at hj
    exact hbefore j (by omega) hj
  | succ n ih =>
    have hr := HashFile.inv_read hi index
    rw [Basic.indexLoop]
    rcases hrd : HashFile.readHashAt h index with ⟨h', o⟩
    rw [hrd] at hr
    simp only at hr
    have hlt : index < l.length := by omega
    rw [List.getElem?_eq_getElem hlt] at hr
    obtain ⟨h1, h2⟩ := hr
    subst h2
    simp only
    split
    · rename_i e
      refine ⟨h1, ?_⟩
      symm
      rw [firstIndex_at]
      exact ⟨by rw [List.getElem?_eq_getElem hlt, e], hbefore⟩
    · rename_i e
      apply ih h1 (index + 1) (by omega)
      intro j hj hv
      rcases Nat.lt_or_ge j index with h' | h'
      · exact hbefore j h' hv
      · have : j = index := by omega
        subst this
        rw [List.getElem?_eq_getElem hlt] at hv
        exact e (Option.some.inj hv)

/-- **C16.** The basic hash store, opened over any whole number of hashes, behaves in every session as the
list of hashes: appends return consecutive indices, lookups return the smallest index or "absent",
`GetHashAtIndex(i)` is the `i`-th hash (an error beyond the end). -/
theorem basic_store_is_list (data : Bytes) (hd : data.length % 32 = 0) (ops : List Basic.Op)
    (hops : ∀ op ∈ ops, op.wellTyped) :
    (Basic.run (HashFile.openHashFile data) ops).2 = (specRun firstIndex (recs 32 data) ops).2 := by
  have key : ∀ (h : HashFile.HF) (l : List Bytes), HashFile.Inv h l →
      (Basic.run h ops).2 = (specRun firstIndex l ops).2 := by
    induction ops with
    | nil => intros; rfl
    | cons op ops ih =>
      intro h l hi
      have hstep : HashFile.Inv (Basic.step h op).1 (specStep firstIndex l op).1 ∧
          (Basic.step h op).2 = (specStep firstIndex l op).2 := by
        cases op with
        | append v =>
          have hv : v.length = 32 := hops (.append v) (by simp)
          exact ⟨inv_append hi hv, by simp [Basic.step, specStep, Basic.appendHash, HashFile.countHashes, hi.count]⟩
        | indexOf v =>
          have := Basic.indexLoop_ok hi v 0 h.hashCount (by rw [hi.count]; omega) (by intro j hj; omega)
          exact ⟨this.1, by simp only [Basic.step, specStep]; rw [← this.2]; rfl⟩
        | get i =>
          have := HashFile.inv_read hi i
          exact ⟨this.1, by simp only [Basic.step, specStep]; rw [← this.2]; rfl⟩
        | count => exact ⟨hi, by simp [Basic.step, specStep, HashFile.countHashes, hi.count]⟩
        | sync => exact ⟨inv_sync hi, rfl⟩
      have := ih (fun op hop => hops op (by simp [hop])) _ _ hstep.1
      simp only [Basic.run, specRun, hstep.2, this]
  exact key _ _ (HashFile.inv_open hd)

example : (Basic.run (HashFile.openHashFile []) [.append (zeros 32), .append (List.replicate 32 1),
    .append (zeros 32), .indexOf (zeros 32), .indexOf (List.replicate 32 7), .get 1, .get 3]).2 =
    [.index 0, .index 1, .index 2, .found (.at 0), .found .absent, .hash (some (List.replicate 32 1)),
     .hash none] := by decide +kernel

/-! ### C18: the memory-indexed store -/

/-- Coupling within one session that started on an empty file. -/
structure MemIndexed.Inv (s : MemIndexed.MI) (l : List Bytes) : Prop where
  store : HashFile.Inv s.theStore l
  count : s.count = l.length
  map : ∀ v, MemIndexed.indexOfHash s v = lastIndex l v

/-- **C18 (partial).** Within one session on a new, empty store, every operation behaves as on the list of
appended hashes, lookups returning the latest index. Missing: any session that starts on a file with
hashes in it, see `memindexed_reopen_forgets`. -/
theorem memindexed_session_partial (ops : List Basic.Op) (hops : ∀ op ∈ ops, op.wellTyped) :
    (MemIndexed.run (MemIndexed.new (HashFile.openHashFile [])) ops).2 = (specRun lastIndex [] ops).2 := by
  have key : ∀ (s : MemIndexed.MI) (l : List Bytes), MemIndexed.Inv s l →
      (MemIndexed.run s ops).2 = (specRun lastIndex l ops).2 := by
    induction ops with
    | nil => intros; rfl
    | cons op ops ih =>
      intro s l hi
      have hstep : MemIndexed.Inv (MemIndexed.step s op).1 (specStep lastIndex l op).1 ∧
          (MemIndexed.step s op).2 = (specStep lastIndex l op).2 := by
        cases op with
        | append v =>
          have hv : v.length = 32 := hops (.append v) (by simp)
          refine ⟨⟨inv_append hi.store hv, by simp [MemIndexed.step, MemIndexed.appendHash, specStep, hi.count], ?_⟩, ?_⟩
          · intro w
            simp only [MemIndexed.step, MemIndexed.appendHash, specStep]
            rw [lastIndex_append]
            have := hi.map w
            simp only [MemIndexed.indexOfHash, mapSet] at this ⊢
            by_cases e : w = v
            · simp [e, hi.count]
            · simp [e, this]
          · simp [MemIndexed.step, MemIndexed.appendHash, Basic.appendHash, specStep, HashFile.countHashes,
              hi.store.count]
        | indexOf v => exact ⟨hi, by simp [MemIndexed.step, specStep, hi.map v]⟩
        | get i =>
          have := HashFile.inv_read hi.store i
          exact ⟨⟨this.1, hi.count, hi.map⟩, by simp only [MemIndexed.step, specStep]; rw [← this.2]; rfl⟩
        | count => exact ⟨hi, by simp [MemIndexed.step, specStep, hi.count]⟩
        | sync => exact ⟨⟨inv_sync hi.store, hi.count, hi.map⟩, rfl⟩
      have := ih (fun op hop => hops op (by simp [hop])) _ _ hstep.1
      simp only [MemIndexed.run, specRun, hstep.2, this]
  apply key
  refine ⟨HashFile.inv_open (by simp), rfl, ?_⟩
  intro v
  simp [MemIndexed.indexOfHash, MemIndexed.new, lastIndex]

/-- **C18 is violated.** Opening a memory-indexed store over ANY non-empty hash file reports zero hashes and
does not find any of them; and the next hash appended gets index `n` from the append call while a lookup of
it says 0. -/
theorem memindexed_reopen_forgets (data : Bytes) (hd : data.length % 32 = 0) (hne : data ≠ []) (v : Bytes) :
    let s := MemIndexed.new (HashFile.openHashFile data)
    (MemIndexed.step s .count).2 = .count 0 ∧
    (∀ w ∈ recs 32 data, (MemIndexed.step s (.indexOf w)).2 = .found .absent) ∧ recs 32 data ≠ [] ∧
    (MemIndexed.appendHash s v).2 = (recs 32 data).length ∧
    MemIndexed.indexOfHash (MemIndexed.appendHash s v).1 v = .at 0 := by
  have hpos : 0 < data.length := by
    cases data with
    | nil => exact absurd rfl hne
    | cons => simp
  refine ⟨rfl, fun w _ => rfl, ?_, ?_, ?_⟩
  · intro e
    have := congrArg List.length e
    rw [recs_length] at this
    simp at this
    omega
  · simp [MemIndexed.appendHash, Basic.appendHash, HashFile.countHashes, MemIndexed.new, HashFile.openHashFile,
      recs_length]
  · simp [MemIndexed.indexOfHash, MemIndexed.appendHash, mapSet, MemIndexed.new]

example : (zeros 64).length % 32 = 0 ∧ zeros 64 ≠ [] ∧
    (MemIndexed.appendHash (MemIndexed.new (HashFile.openHashFile (zeros 64))) (List.replicate 32 1)).2 = 2 := by
  decide +kernel

/-! ### C19: tier zero -/

/-- Coupling of a tier-zero store with the list of hashes appended so far. -/
structure TierZero.Inv (tz : TierZero.TZ) (l : List Bytes) : Prop where
  file : HashFile.Inv tz.hashesFile l
  map : ∀ v, TierZero.indexOfHash tz v = lastIndex l v
  slice : tz.theSlice = l

/-- Every appended hash is 32 bytes long. -/
def TierZero.Op.wellTyped : TierZero.Op → Prop
  | .append v => v.length = 32
  | _ => True

/-- Specification: the list of appended hashes; closing and reopening changes nothing. -/
def tzSpecStep (l : List Bytes) : TierZero.Op → List Bytes × TierZero.Out
  | .append v => (l ++ [v], .index (some l.length))
  | .indexOf v => (l, .found (lastIndex l v))
  | .get i => (l, .hash l[i]?)
  | .count => (l, .count l.length)
  | .sync => (l, .unit)
  | .reopen => (l, .unit)

/-- Specification of a history. -/
def tzSpecRun (l : List Bytes) : List TierZero.Op → List Bytes × List TierZero.Out
  | [] => (l, [])
  | op :: ops =>
    let (l', o) := tzSpecStep l op
    let (l'', os) := tzSpecRun l' ops
    (l'', o :: os)

theorem TierZero.load_ok {hf : HashFile.HF} {l : List Bytes} (hi : HashFile.Inv hf l) (tz : TierZero.TZ) (i n : Nat)
    (hn : i + n = l.length) (hfile : HashFile.Inv tz.hashesFile l)
    (hmap : ∀ v, TierZero.indexOfHash tz v = lastIndex (l.take i) v)
    (hlen : tz.theSlice.length = l.length) (hsl : tz.theSlice.take i = l.take i) :
    ∃ tz', TierZero.loadLoop tz i n = some tz' ∧ TierZero.Inv tz' l := by
  induction n generalizing tz i with
  | zero =>
    refine ⟨tz, rfl, hfile, ?_, ?_⟩
    · have : l.take i = l := List.take_of_length_le (by omega)
      rw [this] at hmap; exact hmap
    · rw [List.take_of_length_le (by omega), List.take_of_length_le (by omega)] at hsl
      exact hsl
  | succ n ih =>
    have hr := HashFile.inv_read hfile i
    rw [TierZero.loadLoop]
    rcases hrd : HashFile.readHashAt tz.hashesFile i with ⟨h', o⟩
    rw [hrd] at hr
    have hlt : i < l.length := by omega
    rw [List.getElem?_eq_getElem hlt] at hr
    obtain ⟨h1, h2⟩ := hr
    simp only at h1 h2
    subst h2
    simp only
    have htake : l.take (i + 1) = l.take i ++ [l[i]] := by
      rw [List.take_succ, List.getElem?_eq_getElem hlt]; rfl
    apply ih
    · omega
    · exact h1
    · intro v
      rw [htake, lastIndex_append]
      have := hmap v
      simp only [TierZero.indexOfHash, mapSet] at this ⊢
      by_cases e : v = l[i]
      · simp [e, Nat.min_eq_left (Nat.le_of_lt hlt)]
      · simp [e, this]
    · simpa using hlen
    · rw [htake, ← hsl]
      apply List.ext_getElem?
      intro j
      rcases Nat.lt_or_ge j (i + 1) with hj | hj
      · rw [List.getElem?_take_of_lt hj]
        rcases Nat.lt_or_ge j i with hj' | hj'
        · rw [List.getElem?_set_ne (by omega), List.getElem?_append_left (by simp; omega),
            List.getElem?_take_of_lt hj']
        · have : j = i := by omega
          subst this
          have hm : min j tz.theSlice.length = j := by omega
          rw [List.getElem?_set_self (by omega), List.getElem?_append_right (by simp; omega)]
          simp [hm]
      · rw [List.getElem?_eq_none (by simp; omega), List.getElem?_eq_none (by simp; omega)]

theorem TierZero.new_ok (data : Bytes) (hd : data.length % 32 = 0) :
    ∃ tz, TierZero.new data = some tz ∧ TierZero.Inv tz (recs 32 data) := by
  apply TierZero.load_ok (HashFile.inv_open hd)
  · rw [recs_length]; omega
  · exact HashFile.inv_open hd
  · intro v; simp [TierZero.indexOfHash, lastIndex]
  · simp [recs_length]
  · simp

theorem TierZero.buffered {hf : HashFile.HF} {l : List Bytes} (hi : HashFile.Inv hf l) :
    TierZero.isBuffered hf.file (hf.hashCount * 32) = true := by
  obtain ⟨plain, hp, hm, hl⟩ := hi.file
  have : hf.hashCount * 32 = plain.length := by
    rw [hi.count, ← hl, recs_length]; omega
  unfold TierZero.isBuffered
  cases hb : hf.file.buf with
  | none => simp [this, hp.total]
  | some p => simp [this, hp.next (by simp [hb])]

/-- **C19.** Opened over any whole number of hashes, for every history of appends, lookups, reads, syncs and
close/reopen points, the tier-zero store never fails and answers as the list of hashes appended so far:
lookups return the most recent index, or "absent". -/
theorem tierzero_is_list (data : Bytes) (hd : data.length % 32 = 0) (ops : List TierZero.Op)
    (hops : ∀ op ∈ ops, op.wellTyped) :
    ∃ tz, TierZero.new data = some tz ∧
      (TierZero.run tz ops).map (·.2) = some (tzSpecRun (recs 32 data) ops).2 := by
  obtain ⟨tz0, h0, hi0⟩ := TierZero.new_ok data hd
  refine ⟨tz0, h0, ?_⟩
  clear h0
  generalize recs 32 data = l0 at hi0
  induction ops generalizing tz0 l0 with
  | nil => rfl
  | cons op ops ih =>
    have hstep : ∃ tz1, TierZero.step tz0 op = some (tz1, (tzSpecStep l0 op).2) ∧
        TierZero.Inv tz1 (tzSpecStep l0 op).1 := by
      cases op with
      | append v =>
        have hv : v.length = 32 := hops (.append v) (by simp)
        simp only [TierZero.step, TierZero.appendHash, TierZero.buffered hi0.file, if_true,
          HashFile.appendHash, tzSpecStep]
        refine ⟨_, by rw [hi0.file.count], ?_⟩
        refine ⟨by simpa [hi0.file.count] using inv_append hi0.file hv, ?_, by simp [hi0.slice]⟩
        intro w
        rw [lastIndex_append]
        have := hi0.map w
        simp only [TierZero.indexOfHash, mapSet] at this ⊢
        by_cases e : w = v
        · simp [e, hi0.slice]
        · simp [e, this]
      | indexOf v => exact ⟨tz0, by simp [TierZero.step, tzSpecStep, hi0.map v], hi0⟩
      | get i =>
        refine ⟨tz0, ?_, hi0⟩
        simp only [TierZero.step, tzSpecStep, TierZero.getHashAtIndex, hi0.slice]
        split
        · rfl
        · rw [List.getElem?_eq_none (by omega)]
      | count => exact ⟨tz0, by simp [TierZero.step, tzSpecStep, TierZero.countHashes, hi0.slice], hi0⟩
      | sync => exact ⟨_, rfl, inv_sync hi0.file, hi0.map, hi0.slice⟩
      | reopen =>
        obtain ⟨plain, hp, hm, hl⟩ := hi0.file.file
        have hc : AppendOpt.close tz0.hashesFile.file = plain := (AppendOpt.inv_flush hp).2.1
        obtain ⟨tz1, h1, hi1⟩ := TierZero.new_ok plain hm
        refine ⟨tz1, by simp [TierZero.step, hc, h1, tzSpecStep], ?_⟩
        rw [hl] at hi1
        exact hi1
    obtain ⟨tz1, h1, hi1⟩ := hstep
    have := ih (fun op hop => hops op (by simp [hop])) tz1 _ hi1
    simp only [TierZero.run, h1, tzSpecRun]
    cases hr : TierZero.run tz1 ops with
    | none => rw [hr] at this; simp at this
    | some p =>
      rw [hr] at this
      simp at this
      simp [this]

example : ((TierZero.new []).bind (fun tz => (TierZero.run tz [.append (zeros 32), .append (List.replicate 32 1),
    .append (zeros 32), .reopen, .indexOf (zeros 32), .indexOf (List.replicate 32 1), .append (List.replicate 32 2),
    .get 3, .get 4]).map (·.2))) =
    some [.index (some 0), .index (some 1), .index (some 2), .unit, .found (.at 2), .found (.at 1),
      .index (some 3), .hash (some (List.replicate 32 2)), .hash none] := by decide +kernel

/-- **C52 (violated).** If the hash file does not hold a whole number of hashes (a torn last append), tier
zero opens it without complaint, but every append is refused, while the refused hash is nevertheless
counted and found in memory, and lost on reopening. -/
theorem tierzero_torn_file_refuses (data : Bytes) (hd : data.length % 32 ≠ 0) (tz : TierZero.TZ)
    (hn : TierZero.new data = some tz) (v : Bytes) :
    (TierZero.appendHash tz v).2 = none ∧
    TierZero.countHashes (TierZero.appendHash tz v).1 = TierZero.countHashes tz + 1 ∧
    TierZero.indexOfHash (TierZero.appendHash tz v).1 v = .at (TierZero.countHashes tz) ∧
    AppendOpt.close (TierZero.appendHash tz v).1.hashesFile.file = data := by
  have hload : ∀ (n i : Nat) (t t' : TierZero.TZ), t.hashesFile = HashFile.openHashFile data →
      TierZero.loadLoop t i n = some t' → t'.hashesFile = HashFile.openHashFile data := by
    intro n
    induction n with
    | zero => intro i t t' ht h; simp [TierZero.loadLoop] at h; rw [← h]; exact ht
    | succ n ih =>
      intro i t t' ht h
      rw [TierZero.loadLoop] at h
      have hrd : (HashFile.readHashAt t.hashesFile i).1 = HashFile.openHashFile data := by
        rw [ht]; rfl
      rcases hx : HashFile.readHashAt t.hashesFile i with ⟨h', o⟩
      rw [hx] at h hrd
      cases o with
      | none => simp at h
      | some w => simp only at h; exact ih _ _ _ hrd h
  have hf : tz.hashesFile = HashFile.openHashFile data := hload _ _ _ _ rfl hn
  have hb : TierZero.isBuffered tz.hashesFile.file (tz.hashesFile.hashCount * 32) = false := by
    rw [hf]
    simp only [TierZero.isBuffered, HashFile.openHashFile, AppendOpt.openFile, beq_eq_false_iff_ne, ne_eq]
    omega
  have he : TierZero.appendHash tz v =
      ({ hashesFile := { tz.hashesFile with file := AppendOpt.flush tz.hashesFile.file },
         theMap := mapSet tz.theMap v tz.theSlice.length, theSlice := tz.theSlice ++ [v] }, none) := by
    unfold TierZero.appendHash; rw [hb]; rfl
  rw [he]
  refine ⟨rfl, by simp [TierZero.countHashes], by simp [TierZero.indexOfHash, mapSet, TierZero.countHashes], ?_⟩
  simp only [hf]
  rfl

example : (List.replicate 40 (1 : UInt8)).length % 32 ≠ 0 ∧
    (TierZero.new (List.replicate 40 1)).isSome = true := by decide +kernel

end Verif.HashStores
