import Mathlib.Data.List.Nodup
import Verif.Lemmas.AddressFiles
import Verif.Props.ChainStore

/-!
# C88: every address of a stored chain can be asked for its outputs
-/

namespace Verif.AddressFiles

open Verif.ChainStore
open Verif.MapStore (Path FS Cfg MS elems fileUsed FileOK LogOK Op specRun specStep)
open Verif.CachedMapStore (CMS)

/-! ## Specification -/

/-- The heights of the outputs that pay `x`, in increasing order, when the outputs of the chain pay `outs`. -/
def paidAt (outs : List Bytes) (x : Bytes) : List Nat := (List.range outs.length).filter fun h => outs[h]? = some x

/-- `y` is paid by two outputs. -/
def Repaid (outs : List Bytes) (y : Bytes) : Prop := ∃ h h' : Nat, h < h' ∧ outs[h]? = some y ∧ outs[h']? = some y

/-- Some address whose number (the height of the first output paying it) is in the same hundred thousand as that of `x`
is paid twice. -/
def Neighbour (outs : List Bytes) (x : Bytes) : Prop := ∃ y, Repaid outs y ∧ outs.idxOf y / 100000 = outs.idxOf x / 100000

/-- The number of outputs that pay an address paid before. -/
def repeats (outs : List Bytes) : Nat := ((List.range outs.length).filter fun h => ∃ h' ∈ List.range h, outs[h']? = outs[h]?).length

/-- The address objects for `x` that a chain gives: by number, by hash, or for a handle with a hash only. -/
def Object (ch : Chain) (outs : List Bytes) (x : Bytes) (a : Addr) : Prop :=
  a = byHeight (outs.idxOf x) ∨ byHash ch x = some a ∨ a = ofHash x

/-- A call that makes sense: an index below the number of outputs, and a number only of an object that says it has one. -/
def Sensible (outs : List Bytes) (x : Bytes) (a : Addr) : Call → Prop
  | .nthTxo n => 0 ≤ n ∧ n < (paidAt outs x).length
  | .height => a.heightSpecified = true
  | _ => True

/-- The right answer to a sensible call. -/
def answer (outs : List Bytes) (x : Bytes) : Call → Out
  | .txoCount => .num (paidAt outs x).length
  | .nthTxo n => .txo ((paidAt outs x).getD n.toNat 0 : Nat)
  | .hash => .hash x
  | .height => .num (outs.idxOf x : Nat)

/-- What the code answers about an address that it cannot list. -/
def failing (outs : List Bytes) (x : Bytes) : Call → Out
  | .txoCount => .error
  | .nthTxo _ => .error
  | .hash => .hash x
  | .height => .num (outs.idxOf x : Nat)

/-! ## The two specifications of the outputs of an address -/

theorem positions_paidAt (outs : List Bytes) (x : Bytes) : positions outs x = paidAt outs x := by
  induction outs using List.reverseRecOn with
  | nil => rfl
  | append_singleton l b ih =>
    rw [positions_snoc, ih]
    unfold paidAt
    rw [List.length_append, List.length_singleton, List.range_succ, List.filter_append]
    have h1 : (List.range l.length).filter (fun h => (l ++ [b])[h]? = some x) = (List.range l.length).filter (fun h => l[h]? = some x) := by
      apply List.filter_congr
      intro h hh
      rw [List.getElem?_append_left (List.mem_range.mp hh)]
    rw [h1]
    by_cases hb : b = x <;> simp [hb]

theorem indexOf_idxOf {outs : List Bytes} {x : Bytes} (hx : x ∈ outs) : indexOf outs x = (outs.idxOf x : Nat) := by
  have hlt := List.idxOf_lt_length_of_mem hx
  apply indexOf_first
  · rw [List.getElem?_eq_getElem hlt, List.getElem_idxOf hlt]
  · intro j hj e
    have hjl : j < outs.length := by omega
    rw [List.getElem?_eq_getElem hjl] at e
    have := List.not_of_lt_findIdx (p := (· == x)) (xs := outs) (i := j) hj
    simp at this
    exact this (Option.some.inj e)

theorem logFrom_repeats (adr : List Bytes) (rest : List Bytes) : ∀ (seen outs : List Bytes), outs = seen ++ rest →
    (logFrom adr seen rest).length =
      ((List.range' seen.length rest.length).filter fun h => ∃ h' ∈ List.range h, outs[h']? = outs[h]?).length := by
  induction rest with
  | nil => intro seen outs _; simp [logFrom]
  | cons a as ih =>
    intro seen outs ho
    have := ih (seen ++ [a]) outs (by rw [ho]; simp)
    rw [List.length_append, List.length_singleton] at this
    rw [logFrom, List.length_append, this, List.length_cons, List.range'_succ, List.filter_cons]
    have hiff : (∃ h' ∈ List.range seen.length, outs[h']? = outs[seen.length]?) ↔ a ∈ seen := by
      have e : outs[seen.length]? = some a := by rw [ho]; simp
      rw [e]
      constructor
      · rintro ⟨h', h1, h2⟩
        rw [List.mem_range] at h1
        rw [ho, List.getElem?_append_left h1] at h2
        exact List.mem_of_getElem? h2
      · intro hm
        obtain ⟨j, hj⟩ := List.mem_iff_getElem?.mp hm
        have hjl := lt_of_getElem? hj
        exact ⟨j, List.mem_range.mpr hjl, by rw [ho, List.getElem?_append_left hjl]; exact hj⟩
    by_cases hs : a ∈ seen
    · rw [if_pos hs, if_pos (by simpa using hiff.mpr hs)]
      simp; omega
    · rw [if_neg hs, if_neg (by rw [decide_eq_true_eq, hiff]; exact hs)]
      simp

theorem repeats_eq (outs : List Bytes) : (logFrom outs [] outs).length = repeats outs := by
  rw [logFrom_repeats outs outs [] outs rfl, repeats, List.range_eq_range']
  rfl

/-! ## What the chain holds -/

theorem idxOf_pre {outs : List Bytes} (rest : List Bytes) {x : Bytes} (hx : x ∈ outs) : (outs ++ rest).idxOf x = outs.idxOf x := by
  rw [List.idxOf_append, if_pos hx]

/-- The address files of a chain whose outputs so far pay `outs`. -/
structure ChainOK (c : Cfg) (outs : List Bytes) (log : List (Nat × Int)) (ch : Chain) : Prop where
  adr : ∃ rest, ch.adr = outs ++ rest
  first : ∃ more, AddrInv ch.adr ch.first more outs ∧ ∀ k, more k = (elems log k).map Int.toNat
  vals : ∀ e ∈ log, 0 ≤ e.2
  logOK : LogOK c log
  more : ReadOK c log ch.more
  len : outs.length < 2 ^ 63

theorem chainOK_index {c : Cfg} {outs : List Bytes} {log : List (Nat × Int)} {ch : Chain} (h : ChainOK c outs log ch)
    {x : Bytes} (hx : x ∈ outs) : indexOf ch.adr x = (outs.idxOf x : Nat) := by
  obtain ⟨rest, e⟩ := h.adr
  rw [e, indexOf_idxOf (List.mem_append_left _ hx), idxOf_pre rest hx]

theorem chainOK_more {c : Cfg} {outs : List Bytes} {log : List (Nat × Int)} {ch : Chain} (h : ChainOK c outs log ch)
    {x : Bytes} (hx : x ∈ outs) :
    ∃ p ps, paidAt outs x = p :: ps ∧ get ch.first (outs.idxOf x : Nat) = .ok (p : Int) ∧
      elems log (outs.idxOf x) = ps.map fun n : Nat => (n : Int) := by
  obtain ⟨more, hI, hm⟩ := h.first
  obtain ⟨p, ps, e1, e2, e3⟩ := hI.some x hx
  rw [chainOK_index h hx, Int.toNat_natCast] at e2 e3
  rw [positions_paidAt] at e1
  have hp : p < 2 ^ 63 := by
    have : p ∈ paidAt outs x := by rw [e1]; simp
    have := List.mem_range.mp (List.mem_filter.mp this).1
    have := h.len
    omega
  refine ⟨p, ps, e1, get_nat _ _ _ _ rfl e2 hp, ?_⟩
  have : ps = (elems log (outs.idxOf x)).map Int.toNat := by rw [← hm]; exact e3.symm
  rw [this, List.map_map]
  refine (List.map_id _).symm.trans (List.map_congr_left ?_)
  intro v hv
  have := h.vals _ (MapStore.elems_mem hv)
  simp only [id, Function.comp]
  exact (Int.toNat_of_nonneg this).symm

theorem paidAt_two {outs : List Bytes} {x : Bytes} {p : Nat} {ps : List Nat} (h : paidAt outs x = p :: ps) :
    ps ≠ [] ↔ Repaid outs x := by
  have hmem : ∀ j, j ∈ paidAt outs x ↔ outs[j]? = some x := fun j => by rw [← positions_paidAt]; exact mem_positions
  have hs : (paidAt outs x).Pairwise (· < ·) := by rw [← positions_paidAt]; exact positions_sorted outs x
  rw [h] at hmem hs
  constructor
  · intro hne
    cases ps with
    | nil => exact absurd rfl hne
    | cons q qs =>
      rw [List.pairwise_cons] at hs
      exact ⟨p, q, hs.1 q (by simp), (hmem p).mp (by simp), (hmem q).mp (by simp)⟩
  · rintro ⟨a, b, hab, ha, hb⟩ he
    subst he
    have h1 := (hmem a).mpr ha
    have h2 := (hmem b).mpr hb
    simp at h1 h2
    omega

theorem used_iff {c : Cfg} (hc : c.perFile = 100000) {outs : List Bytes} {log : List (Nat × Int)} {ch : Chain} (h : ChainOK c outs log ch)
    (x : Bytes) : fileUsed c.perFile log (outs.idxOf x) ↔ Neighbour outs x := by
  rw [hc]
  constructor
  · rintro ⟨e, he, hd⟩
    obtain ⟨more, hI, hm⟩ := h.first
    have hne : more e.1 ≠ [] := by
      rw [hm]
      intro h0
      have : e.2 ∈ elems log e.1 := by
        unfold elems
        exact List.mem_map.mpr ⟨e, List.mem_filter.mpr ⟨he, by simp⟩, rfl⟩
      rw [List.map_eq_nil_iff.mp h0] at this
      cases this
    have hy : ∃ y ∈ outs, indexOf ch.adr y = e.1 := by
      by_contra hcon
      exact hne (hI.gap e.1 (fun y hy ey => hcon ⟨y, hy, ey⟩)).1
    obtain ⟨y, hy, ey⟩ := hy
    have hk : outs.idxOf y = e.1 := by rw [chainOK_index h hy] at ey; omega
    obtain ⟨p, ps, e1, _, e3⟩ := chainOK_more h hy
    refine ⟨y, (paidAt_two e1).mp ?_, by rw [hk]; exact hd⟩
    intro h0
    rw [h0, hk] at e3
    apply hne
    rw [hm, e3]; rfl
  · rintro ⟨y, hr, hd⟩
    have hy : y ∈ outs := by
      obtain ⟨a, _, _, ha, _⟩ := hr
      exact List.mem_of_getElem? ha
    obtain ⟨p, ps, e1, _, e3⟩ := chainOK_more h hy
    have hps := (paidAt_two e1).mpr hr
    cases ps with
    | nil => exact absurd rfl hps
    | cons q qs =>
      have : (q : Int) ∈ elems log (outs.idxOf y) := by rw [e3]; simp
      exact ⟨_, MapStore.elems_mem this, hd⟩

/-- An address object for `x`. -/
structure AddrOK (outs : List Bytes) (x : Bytes) (a : Addr) : Prop where
  height : a.heightSpecified = true → a.height = (outs.idxOf x : Nat)
  hash : a.hashSpecified = true → a.hash = x
  one : a.heightSpecified = true ∨ a.hashSpecified = true
  pop : a.populated = true → a.hash = x ∧ a.txos = (paidAt outs x).map fun n : Nat => (n : Int)

theorem populate_ok {c : Cfg} (hf : 0 < c.digitsPerFolder) {outs : List Bytes} {log : List (Nat × Int)} {ch : Chain}
    (h : ChainOK c outs log ch) {x : Bytes} (hx : x ∈ outs) {a : Addr} (ha : AddrOK outs x a) :
    ∃ ch' a', populate c ch a = some (ch', a', !decide (fileUsed c.perFile log (outs.idxOf x))) ∧ ChainOK c outs log ch' ∧
      AddrOK outs x { a' with populated := false } ∧ a'.hash = x ∧ a'.heightSpecified = a.heightSpecified ∧
      (fileUsed c.perFile log (outs.idxOf x) → a'.populated = true ∧ a'.txos = (paidAt outs x).map fun n : Nat => (n : Int)) ∧
      (¬ fileUsed c.perFile log (outs.idxOf x) → a'.populated = a.populated) := by
  obtain ⟨p, ps, e1, e2, e3⟩ := chainOK_more h hx
  obtain ⟨m', g1, g2⟩ := getArray_ok hf h.logOK h.more (outs.idxOf x)
  have hlt := List.idxOf_lt_length_of_mem hx
  have hh : (if a.heightSpecified = true then a.height else indexOf ch.adr a.hash) = (outs.idxOf x : Nat) := by
    by_cases hs : a.heightSpecified = true
    · rw [if_pos hs, ha.height hs]
    · rw [if_neg hs, ha.hash (ha.one.resolve_left hs), chainOK_index h hx]
  have hw : withHash ch { a with txos := [] } (outs.idxOf x : Nat) = some { a with txos := [], hash := x, hashSpecified := true } := by
    unfold withHash
    by_cases hs : a.hashSpecified = true
    · rw [if_pos hs]
      have := ha.hash hs
      cases a; simp_all
    · rw [if_neg hs]
      have : hashAt ch.adr (outs.idxOf x : Nat) = some x := by
        unfold hashAt
        obtain ⟨rest, e⟩ := h.adr
        rw [if_neg (by omega), e, Int.toNat_natCast, List.getElem?_append_left hlt, List.getElem?_eq_getElem hlt, List.getElem_idxOf hlt]
      rw [this]; rfl
  have hpop : populate c ch a =
      if !decide (fileUsed c.perFile log (outs.idxOf x)) then
        some ({ ch with more := m' }, { a with txos := [(p : Int)], hash := x, hashSpecified := true }, true)
      else some ({ ch with more := m' }, { a with txos := ((p : Int) :: ps.map fun n : Nat => (n : Int)), hash := x, hashSpecified := true, populated := true }, false) := by
    unfold populate
    dsimp only
    rw [hh, hw]
    dsimp only
    rw [e2]
    dsimp only
    rw [Int.toNat_natCast, g1]
    dsimp only
    rw [e3]
  have hch : ChainOK c outs log { ch with more := m' } := ⟨h.adr, h.first, h.vals, h.logOK, g2, h.len⟩
  by_cases hu : fileUsed c.perFile log (outs.idxOf x)
  · refine ⟨{ ch with more := m' }, { a with txos := ((p : Int) :: ps.map fun n : Nat => (n : Int)), hash := x, hashSpecified := true, populated := true }, by rw [hpop, decide_eq_true hu]; rfl, hch, ⟨ha.height, fun _ => rfl, Or.inr rfl, by simp⟩, rfl, rfl, fun _ => ⟨rfl, ?_⟩, fun hn => absurd hu hn⟩
    rw [e1]; rfl
  · refine ⟨{ ch with more := m' }, { a with txos := [(p : Int)], hash := x, hashSpecified := true }, by rw [hpop, decide_eq_false hu]; rfl, hch, ⟨ha.height, fun _ => rfl, Or.inr rfl, by simp⟩, rfl, rfl, fun hy => absurd hy hu, fun _ => rfl⟩

theorem nth_ok {l : List Nat} {n : Int} (h0 : 0 ≤ n) (h1 : n < l.length) :
    nth (l.map fun n : Nat => (n : Int)) n = some ((l.getD n.toNat 0 : Nat) : Int) := by
  unfold nth
  have hl : n.toNat < l.length := by omega
  rw [if_neg (by omega), List.getElem?_map, List.getElem?_eq_getElem hl, List.getD_eq_getElem?_getD, List.getElem?_eq_getElem hl]
  rfl

theorem calls_listed {c : Cfg} (hf : 0 < c.digitsPerFolder) {outs : List Bytes} {log : List (Nat × Int)} {x : Bytes} (hx : x ∈ outs)
    (hu : fileUsed c.perFile log (outs.idxOf x)) (cs : List Call) :
    ∀ (ch : Chain) (a : Addr), ChainOK c outs log ch → AddrOK outs x a → (∀ k ∈ cs, Sensible outs x a k) →
      calls c ch a cs = some (cs.map (answer outs x)) := by
  induction cs with
  | nil => intro ch a _ _ _; rfl
  | cons k cs ih =>
    intro ch a h ha hs
    have hk := hs k (by simp)
    have hs' : ∀ k ∈ cs, Sensible outs x a k := fun y hy => hs y (by simp [hy])
    -- one call gives the right answer and leaves an object for `x`
    have key : ∃ ch' a', call c ch a k = some (ch', a', answer outs x k) ∧ ChainOK c outs log ch' ∧ AddrOK outs x a' ∧
        a'.heightSpecified = a.heightSpecified := by
      by_cases hp : a.populated = true
      · obtain ⟨q1, q2⟩ := ha.pop hp
        refine ⟨ch, a, ?_, h, ha, rfl⟩
        cases k with
        | txoCount => simp [call, hp, q2, answer]
        | nthTxo n => simp [call, hp, q2, nth_ok hk.1 hk.2, answer]
        | hash => simp [call, hp, q1, answer]
        | height => simp [call, ha.height hk, answer]
      · obtain ⟨ch', a', r1, r2, r3, r4, r5, r6, _⟩ := populate_ok hf h hx ha
        rw [decide_eq_true hu] at r1
        obtain ⟨r6, r7⟩ := r6 hu
        have hA : AddrOK outs x a' := ⟨r3.height, r3.hash, r3.one, fun _ => ⟨r4, r7⟩⟩
        cases k with
        | txoCount => exact ⟨ch', a', by simp [call, hp, r1, r7, answer], r2, hA, r5⟩
        | nthTxo n => exact ⟨ch', a', by simp [call, hp, r1, r7, nth_ok hk.1 hk.2, answer], r2, hA, r5⟩
        | hash => exact ⟨ch', a', by simp [call, hp, r1, r4, answer], r2, hA, r5⟩
        | height => exact ⟨ch, a, by simp [call, ha.height hk, answer], h, ha, rfl⟩
    obtain ⟨ch', a', r1, r2, r3, r4⟩ := key
    have := ih ch' a' r2 r3 (by
      intro y hy
      have := hs' y hy
      cases y <;> simp_all [Sensible])
    rw [calls, r1]
    dsimp only
    rw [this]; rfl

theorem calls_unlisted {c : Cfg} (hf : 0 < c.digitsPerFolder) {outs : List Bytes} {log : List (Nat × Int)} {x : Bytes} (hx : x ∈ outs)
    (hu : ¬ fileUsed c.perFile log (outs.idxOf x)) (cs : List Call) :
    ∀ (ch : Chain) (a : Addr), ChainOK c outs log ch → AddrOK outs x a → a.populated = false →
      (Call.height ∈ cs → a.heightSpecified = true) → calls c ch a cs = some (cs.map (failing outs x)) := by
  induction cs with
  | nil => intro ch a _ _ _ _; rfl
  | cons k cs ih =>
    intro ch a h ha hp hs
    have key : ∃ ch' a', call c ch a k = some (ch', a', failing outs x k) ∧ ChainOK c outs log ch' ∧ AddrOK outs x a' ∧
        a'.populated = false ∧ a'.heightSpecified = a.heightSpecified := by
      obtain ⟨ch', a', r1, r2, r3, r4, r5, _, r6⟩ := populate_ok hf h hx ha
      rw [decide_eq_false hu] at r1
      have r6 := (r6 hu).trans hp
      have hA : AddrOK outs x a' := ⟨r3.height, r3.hash, r3.one, fun h => by rw [r6] at h; cases h⟩
      cases k with
      | txoCount => exact ⟨ch', a', by simp [call, hp, r1, failing], r2, hA, r6, r5⟩
      | nthTxo n => exact ⟨ch', a', by simp [call, hp, r1, failing], r2, hA, r6, r5⟩
      | hash => exact ⟨ch', a', by simp [call, hp, r1, r4, failing], r2, hA, r6, r5⟩
      | height => exact ⟨ch, a, by simp [call, ha.height (hs (by simp)), failing], h, ha, hp, rfl⟩
    obtain ⟨ch', a', r1, r2, r3, r4, r5⟩ := key
    have := ih ch' a' r2 r3 r4 (fun hm => by rw [r5]; exact hs (by simp [hm]))
    rw [calls, r1]
    dsimp only
    rw [this]; rfl

theorem object_ok {c : Cfg} {outs : List Bytes} {log : List (Nat × Int)} {ch : Chain} (h : ChainOK c outs log ch) {x : Bytes} (hx : x ∈ outs)
    {a : Addr} (ho : Object ch outs x a) : AddrOK outs x a ∧ a.populated = false := by
  have h1 : AddrOK outs x (byHeight (outs.idxOf x : Nat)) := ⟨fun _ => rfl, by simp [byHeight], Or.inl rfl, by simp [byHeight]⟩
  rcases ho with rfl | ho | rfl
  · exact ⟨h1, rfl⟩
  · unfold byHash at ho
    dsimp only at ho
    rw [chainOK_index h hx, if_neg (by omega)] at ho
    cases ho
    exact ⟨h1, rfl⟩
  · exact ⟨⟨by simp [ofHash], fun _ => rfl, Or.inr rfl, by simp [ofHash]⟩, rfl⟩

theorem filled {p q : Int} (hp : p ≤ 0) (hq : q ≤ 0) {i : Iface} {d : Bool} {bn tn : List (String × Nat)} {bs : List Blk}
    (hg : Good i d bn tn bs) (root : Path) (otherDirs : Path → Bool) (fuel : Nat)
    (hr : repeats ((outputs bs).map (·.addr)) < 1600000000) :
    ∃ s f, store p q i d bn tn bs = .ok s ∧
      fill (cfg root) fuel ((outputs bs).map (·.addr)) 0 (start root otherDirs s.adrHashes) = .ok f ∧
      f.adr = s.adrHashes ∧ f.first = s.addrFirstTxo ∧
      ∃ log, f.adr = (outputs bs).map (·.addr) ∧ ChainOK (cfg root) ((outputs bs).map (·.addr)) log (reopen (cfg root) f) ∧
        ChainOK (cfg root) ((outputs bs).map (·.addr)) log (live f) := by
  obtain ⟨s, hs, hC, _⟩ := store_ok hp hq hg
  have hadr : s.adrHashes = (outputs bs).map (·.addr) := hC.adrH
  have hA := hC.addr
  rw [← outputs_eq] at hA
  have hcnt := hg.txoCount
  generalize ho : (outputs bs).map (·.addr) = outs at *
  have holen : outs.length < 256 ^ 5 := by rw [← ho, List.length_map]; exact hcnt
  let log := logFrom outs [] outs
  have hlog : log.length = repeats outs := repeats_eq outs
  have hll : log.length ≤ outs.length := logFrom_length outs outs []
  have hfit : ∀ e ∈ log, WordFile.fits (cfg root).elementByteSize e.2 := by
    intro e he
    have := logFrom_val outs outs [] e he
    rw [List.length_nil, Nat.zero_add] at this
    show WordFile.fits 5 e.2
    unfold WordFile.fits
    rw [if_neg (by omega)]
    omega
  have hLog : LogOK (cfg root) log := ⟨by simp [cfg], hfit, by omega⟩
  have hops : ∀ op ∈ opsOf log, op.fits (cfg root).elementByteSize := by
    intro op hop
    obtain ⟨e, he, rfl⟩ := List.mem_map.mp hop
    exact hfit e he
  have hol : (opsOf log).length = log.length := by simp [opsOf]
  obtain ⟨m, hm⟩ := CachedMapStore.cached_store_below_limit_partial (cfg root) (by simp [cfg]) (by simp [cfg]) otherDirs limit fuel
    (opsOf log) hops (by omega) (by
      have : limit = 1600000000 := by decide
      have := List.countP_le_length (p := CachedMapStore.isAppend) (l := opsOf log)
      omega)
  obtain ⟨_, hInv⟩ := CachedMapStore.run_inv (c := cfg root) (by simp [cfg]) fuel (opsOf log) _ [] (CachedMapStore.inv_create _ otherDirs limit)
    ⟨by simp [cfg], by simp, by simp⟩ hops (by simp; omega) m _ hm
  rw [specRun_ops, List.nil_append] at hInv
  obtain ⟨first', more', f1, f2, f3⟩ := fill_ok (c := cfg root) (fuel := fuel) (adr := outs) (by omega) outs [] [] (fun _ => []) []
    (CachedMapStore.create (cfg root) otherDirs limit) m _ rfl (addrInv_nil outs) (by simp [elems]) hm
  rw [List.nil_append] at f2 f3
  have hA' : AddrInv outs s.addrFirstTxo s.additional outs := by
    have e : (hashesOf bs).adr = outs := ho
    rw [e] at hA
    exact hA
  refine ⟨s, ⟨outs, first', m⟩, hs, ?_, hadr.symm, (addrInv_unique f2 hA').1, log, rfl, ?_, ?_⟩
  · rw [hadr]; exact f1
  · refine ⟨⟨[], (List.append_nil _).symm⟩, ⟨more', f2, f3⟩, fun e he => (logFrom_val outs outs [] e he).1, hLog, ⟨rfl, rfl, ?_⟩, by omega⟩
    intro k
    exact (CachedMapStore.inv_flush (c := cfg root) (by simp [cfg]) hInv).files k (by simp [CachedMapStore.flush])
  · exact ⟨⟨[], (List.append_nil _).symm⟩, ⟨more', f2, f3⟩, fun e he => (logFrom_val outs outs [] e he).1, hLog, hInv, by omega⟩

/-! ## C88 -/

/-- **C88 (partial).** A chain is stored, with fewer than 1.6 thousand million outputs that pay an address paid before.
Its address files are read through the chain itself or after closing and opening for reading. Then any sequence of
sensible calls on an address object for a paid address gives the right answers, if some address numbered in the same
hundred thousand is paid twice. Missing: the other addresses (`unpaired_address_is_an_error`), and the chains
with more repeats (C10). -/
theorem address_answers_partial {p q : Int} (hp : p ≤ 0) (hq : q ≤ 0) {i : Iface} {d : Bool} {bn tn : List (String × Nat)} {bs : List Blk}
    (hg : Good i d bn tn bs) (root : Path) (otherDirs : Path → Bool) (fuel : Nat)
    (hr : repeats ((outputs bs).map (·.addr)) < 1600000000) :
    ∃ s f, store p q i d bn tn bs = .ok s ∧
      fill (cfg root) fuel ((outputs bs).map (·.addr)) 0 (start root otherDirs s.adrHashes) = .ok f ∧
      f.adr = s.adrHashes ∧ f.first = s.addrFirstTxo ∧
      ∀ ch, ch = reopen (cfg root) f ∨ ch = live f → ∀ x ∈ (outputs bs).map (·.addr), Neighbour ((outputs bs).map (·.addr)) x →
        ∀ a, Object ch ((outputs bs).map (·.addr)) x a → ∀ cs, (∀ k ∈ cs, Sensible ((outputs bs).map (·.addr)) x a k) →
          calls (cfg root) ch a cs = some (cs.map (answer ((outputs bs).map (·.addr)) x)) := by
  obtain ⟨s, f, h1, h2, h3, h4, log, h0, h5, h6⟩ := filled hp hq hg root otherDirs fuel hr
  refine ⟨s, f, h1, h2, h3, h4, ?_⟩
  intro ch hch x hx hn a ho cs hcs
  have hok : ChainOK (cfg root) ((outputs bs).map (·.addr)) log ch := by rcases hch with rfl | rfl <;> assumption
  exact calls_listed (by simp [cfg]) hx ((used_iff rfl hok x).mpr hn) cs ch a hok (object_ok hok hx ho).1 hcs

/-- **C88, where the code violates it.** If no address numbered in the same hundred thousand is paid twice, the number
of outputs of a paid address and its outputs are always refused with an error, though its hash is given. -/
theorem unpaired_address_is_an_error {p q : Int} (hp : p ≤ 0) (hq : q ≤ 0) {i : Iface} {d : Bool} {bn tn : List (String × Nat)} {bs : List Blk}
    (hg : Good i d bn tn bs) (root : Path) (otherDirs : Path → Bool) (fuel : Nat)
    (hr : repeats ((outputs bs).map (·.addr)) < 1600000000) :
    ∃ s f, store p q i d bn tn bs = .ok s ∧
      fill (cfg root) fuel ((outputs bs).map (·.addr)) 0 (start root otherDirs s.adrHashes) = .ok f ∧
      ∀ ch, ch = reopen (cfg root) f ∨ ch = live f → ∀ x ∈ (outputs bs).map (·.addr), ¬ Neighbour ((outputs bs).map (·.addr)) x →
        ∀ a, Object ch ((outputs bs).map (·.addr)) x a → ∀ cs, (Call.height ∈ cs → a.heightSpecified = true) →
          calls (cfg root) ch a cs = some (cs.map (failing ((outputs bs).map (·.addr)) x)) := by
  obtain ⟨s, f, h1, h2, _, _, log, h0, h5, h6⟩ := filled hp hq hg root otherDirs fuel hr
  refine ⟨s, f, h1, h2, ?_⟩
  intro ch hch x hx hn a ho cs hcs
  have hok : ChainOK (cfg root) ((outputs bs).map (·.addr)) log ch := by rcases hch with rfl | rfl <;> assumption
  obtain ⟨o1, o2⟩ := object_ok hok hx ho
  exact calls_unlisted (by simp [cfg]) hx (fun hu => hn ((used_iff rfl hok x).mp hu)) cs ch a hok o1 o2 hcs

/-- So none of the addresses of a chain can be listed, as long as no address is paid twice. -/
theorem no_address_listed_before_the_first_repeat {p q : Int} (hp : p ≤ 0) (hq : q ≤ 0) {i : Iface} {d : Bool}
    {bn tn : List (String × Nat)} {bs : List Blk} (hg : Good i d bn tn bs) (root : Path) (otherDirs : Path → Bool) (fuel : Nat)
    (hnd : ((outputs bs).map (·.addr)).Nodup) :
    ∃ s f, store p q i d bn tn bs = .ok s ∧
      fill (cfg root) fuel ((outputs bs).map (·.addr)) 0 (start root otherDirs s.adrHashes) = .ok f ∧
      ∀ x ∈ (outputs bs).map (·.addr), ∃ a, byHash (reopen (cfg root) f) x = some a ∧
        calls (cfg root) (reopen (cfg root) f) a [.txoCount, .hash] = some [.error, .hash x] := by
  have hno : ∀ y, ¬ Repaid ((outputs bs).map (·.addr)) y := by
    rintro y ⟨h, h', hlt, e1, e2⟩
    exact (List.nodup_iff_getElem?_ne_getElem?.mp hnd) h h' hlt (lt_of_getElem? e2) (e1.trans e2.symm)
  have hr : repeats ((outputs bs).map (·.addr)) < 1600000000 := by
    have : repeats ((outputs bs).map (·.addr)) = 0 := by
      unfold repeats
      rw [List.length_eq_zero_iff, List.filter_eq_nil_iff]
      intro h hh
      rw [List.mem_range] at hh
      simp only [decide_eq_true_eq]
      rintro ⟨h', h1, h2⟩
      rw [List.mem_range] at h1
      rw [List.getElem?_eq_getElem hh] at h2
      exact hno _ ⟨h', h, h1, h2, List.getElem?_eq_getElem hh⟩
    omega
  obtain ⟨s, f, h1, h2, _, _, log, _, h5, _⟩ := filled hp hq hg root otherDirs fuel hr
  refine ⟨s, f, h1, h2, ?_⟩
  intro x hx
  have hb : byHash (reopen (cfg root) f) x = some (byHeight (((outputs bs).map (·.addr)).idxOf x : Nat)) := by
    unfold byHash
    dsimp only
    rw [chainOK_index h5 hx, if_neg (by omega)]
  refine ⟨_, hb, ?_⟩
  obtain ⟨o1, o2⟩ := object_ok h5 hx (Or.inr (Or.inl hb))
  exact calls_unlisted (by simp [cfg]) hx (fun hu => by
    obtain ⟨y, hy, _⟩ := (used_iff rfl h5 x).mp hu
    exact hno y hy) _ _ _ h5 o1 o2 (by simp)

/-- An index that is not below the number of outputs is no error: it panics. -/
theorem address_index_out_of_range_panics {p q : Int} (hp : p ≤ 0) (hq : q ≤ 0) {i : Iface} {d : Bool} {bn tn : List (String × Nat)}
    {bs : List Blk} (hg : Good i d bn tn bs) (root : Path) (otherDirs : Path → Bool) (fuel : Nat)
    (hr : repeats ((outputs bs).map (·.addr)) < 1600000000) :
    ∃ s f, store p q i d bn tn bs = .ok s ∧
      fill (cfg root) fuel ((outputs bs).map (·.addr)) 0 (start root otherDirs s.adrHashes) = .ok f ∧
      ∀ ch, ch = reopen (cfg root) f ∨ ch = live f → ∀ x ∈ (outputs bs).map (·.addr), Neighbour ((outputs bs).map (·.addr)) x →
        ∀ a, Object ch ((outputs bs).map (·.addr)) x a →
          ∀ n : Int, n < 0 ∨ ((paidAt ((outputs bs).map (·.addr)) x).length : Int) ≤ n → calls (cfg root) ch a [.nthTxo n] = none := by
  obtain ⟨s, f, h1, h2, _, _, log, h0, h5, h6⟩ := filled hp hq hg root otherDirs fuel hr
  refine ⟨s, f, h1, h2, ?_⟩
  intro ch hch x hx hn a ho n hbad
  have hok : ChainOK (cfg root) ((outputs bs).map (·.addr)) log ch := by rcases hch with rfl | rfl <;> assumption
  obtain ⟨o1, o2⟩ := object_ok hok hx ho
  have hu := (used_iff rfl hok x).mpr hn
  obtain ⟨ch', a', r1, _, _, _, _, r6, _⟩ := populate_ok (by simp [cfg]) hok hx o1
  rw [decide_eq_true hu] at r1
  have hnth : nth a'.txos n = none := by
    unfold nth
    rw [(r6 hu).2]
    by_cases h0 : n < 0
    · rw [if_pos h0]
    · rw [if_neg h0, List.getElem?_eq_none]
      rw [List.length_map]
      omega
  simp [calls, call, o2, r1, hnth]

/-- An address that no output pays is not found by its hash; a number that is no output height answers with errors only
(and with the zero hash). -/
theorem unknown_address {p q : Int} (hp : p ≤ 0) (hq : q ≤ 0) {i : Iface} {d : Bool} {bn tn : List (String × Nat)} {bs : List Blk}
    (hg : Good i d bn tn bs) (root : Path) (otherDirs : Path → Bool) (fuel : Nat)
    (hr : repeats ((outputs bs).map (·.addr)) < 1600000000) :
    ∃ s f, store p q i d bn tn bs = .ok s ∧
      fill (cfg root) fuel ((outputs bs).map (·.addr)) 0 (start root otherDirs s.adrHashes) = .ok f ∧
      ∀ ch, ch = reopen (cfg root) f ∨ ch = live f →
        (∀ x, x ∉ (outputs bs).map (·.addr) → byHash ch x = none) ∧
        ∀ h : Int, h < 0 ∨ ((outputs bs).length : Int) ≤ h → ∀ n : Int,
          calls (cfg root) ch (byHeight h) [.txoCount, .nthTxo n, .hash] = some [.error, .error, .hash (zeros 32)] := by
  obtain ⟨s, f, h1, h2, _, _, log, ha, h5, h6⟩ := filled hp hq hg root otherDirs fuel hr
  refine ⟨s, f, h1, h2, ?_⟩
  intro ch hch
  have hok : ChainOK (cfg root) ((outputs bs).map (·.addr)) log ch := by rcases hch with rfl | rfl <;> assumption
  have hadr : ch.adr = (outputs bs).map (·.addr) := by rcases hch with rfl | rfl <;> exact ha
  constructor
  · intro x hx
    have : indexOf ch.adr x = -1 := by
      rw [hadr]
      unfold indexOf
      rw [List.findIdx?_eq_none_iff.mpr]
      intro y hy
      simp only [decide_eq_false_iff_not]
      rintro rfl
      exact hx hy
    unfold byHash
    dsimp only
    rw [this, if_pos rfl]
  · intro h hh n
    have hw : hashAt ch.adr h = none := by
      unfold hashAt
      by_cases h0 : h < 0
      · rw [if_pos h0]
      · rw [if_neg h0, hadr, List.getElem?_eq_none]
        rw [List.length_map]
        omega
    have hpop : populate (cfg root) ch (byHeight h) = some (ch, byHeight h, true) := by
      simp [populate, byHeight, withHash, hw]
    have hb : (byHeight h).populated = false := rfl
    simp [calls, call, hb, hpop]
    rfl

/-! ### Examples -/

/-- Two hundred thousand outputs would be needed for two groups: here one group, with address 91 paid three times. -/
example : (outputs demo).map (·.addr) = [[91], [92], [91], [93], [91]] ∧ repeats ((outputs demo).map (·.addr)) = 2 ∧
    paidAt ((outputs demo).map (·.addr)) [91] = [0, 2, 4] ∧ Neighbour ((outputs demo).map (·.addr)) [93] :=
  ⟨by decide, by decide, by decide, [91], ⟨0, 2, by decide, by decide, by decide⟩, by decide⟩

example (root : Path) : ∃ s f, store 0 0 .cri true [("time", 4)] [("size", 4)] demo = .ok s ∧
    fill (cfg root) 0 ((outputs demo).map (·.addr)) 0 (start root (fun _ => false) s.adrHashes) = .ok f ∧
    calls (cfg root) (reopen (cfg root) f) (byHeight 0) [.hash, .txoCount, .nthTxo 1, .nthTxo 2] =
      some [.hash [91], .num 3, .txo 2, .txo 4] ∧
    calls (cfg root) (live f) (byHeight 3) [.txoCount, .nthTxo 0, .height] = some [.num 1, .txo 3, .num 3] := by
  obtain ⟨s, f, h1, h2, _, _, h⟩ := address_answers_partial (Int.le_refl 0) (Int.le_refl 0) (demo_good true) root (fun _ => false) 0 (by decide)
  refine ⟨s, f, h1, h2, ?_, ?_⟩
  · exact h _ (Or.inl rfl) [91] (by decide) ⟨[91], ⟨0, 2, by decide, by decide, by decide⟩, rfl⟩ _ (Or.inl rfl)
      [.hash, .txoCount, .nthTxo 1, .nthTxo 2] (by
        intro k hk
        simp at hk
        rcases hk with rfl | rfl | rfl | rfl <;> first | trivial | (unfold Sensible; decide))
  · exact h _ (Or.inr rfl) [93] (by decide) ⟨[91], ⟨0, 2, by decide, by decide, by decide⟩, by decide⟩ _ (Or.inl rfl)
      [.txoCount, .nthTxo 0, .height] (by
        intro k hk
        simp at hk
        rcases hk with rfl | rfl | rfl <;> first | trivial | (unfold Sensible; decide))

/-- The first block of the chain: no address is paid twice. -/
theorem demo_first_good : Good .cri true [("time", 4)] [("size", 4)] (demo.take 1) :=
  ⟨by decide, by decide, by decide, by decide, by decide, by decide, by decide, by decide, by decide, by decide,
    by decide +kernel, by decide +kernel, by decide +kernel, by decide +kernel, by decide +kernel⟩

/-- With only the first block stored, address 91 is paid by output 0 and is found, but cannot be listed. -/
example (root : Path) : ∃ s f, store 0 0 .cri true [("time", 4)] [("size", 4)] (demo.take 1) = .ok s ∧
    fill (cfg root) 0 ((outputs (demo.take 1)).map (·.addr)) 0 (start root (fun _ => false) s.adrHashes) = .ok f ∧
    ∃ a, byHash (reopen (cfg root) f) [91] = some a ∧ calls (cfg root) (reopen (cfg root) f) a [.txoCount, .hash] = some [.error, .hash [91]] := by
  obtain ⟨s, f, h1, h2, h⟩ := no_address_listed_before_the_first_repeat (Int.le_refl 0) (Int.le_refl 0) demo_first_good root (fun _ => false) 0 (by decide)
  exact ⟨s, f, h1, h2, h [91] (by decide)⟩

end Verif.AddressFiles
