import Verif.Model.AddressSession
import Verif.Props.AddressFiles
import Verif.Props.CachedMapStore

/-!
# C105: an address object keeps its first answer

What address objects say while the chain that they belong to is being written.
-/

namespace Verif.AddressFiles

open Verif.ChainStore
open Verif.MapStore (Path FS Cfg MS elems fileUsed FileOK LogOK Op)
open Verif.CachedMapStore (CMS heldAll)

/-! ## Specification -/

/-- What is known besides the files: the addresses paid so far, and for each object the outputs at its first answer. -/
structure View where
  seen : List Bytes
  snap : Nat → Option (List Bytes)

open Classical in
/-- The outputs that object `i`, of address `x`, answers from: those of its first answer, or if there was none, those of now, provided
that `x` is among them and some address numbered in the same hundred thousand is paid twice (C88). -/
noncomputable def basis (v : View) (x : Bytes) (i : Nat) : Option (List Bytes) :=
  match v.snap i with
  | some s => some s
  | none => if x ∈ v.seen ∧ Neighbour v.seen x then some v.seen else none

/-- The answers of an object of address `x` from these outputs; `none` = panic. -/
def reply (b : Option (List Bytes)) (x : Bytes) (number : Int) : Call → Option Out
  | .txoCount =>
    match b with
    | none => some .error
    | some s => some (.num (paidAt s x).length)
  | .nthTxo n =>
    match b with
    | none => some .error
    | some s => if n < 0 then none else ((paidAt s x)[n.toNat]?).map fun h : Nat => .txo h
  | .hash => some (.hash x)
  | .height => some (.num number)

/-- The clients' objects: `owner i` is the address of object `i`, made by its number or by its hash. The number of an object made by hash
reads 0. -/
structure Clients where
  owner : Nat → Bytes
  byNumber : Nat → Bool

def Clients.objs (cl : Clients) (outs : List Bytes) (i : Nat) : Addr :=
  if cl.byNumber i then byHeight (outs.idxOf (cl.owner i) : Nat) else ofHash (cl.owner i)

def numberOf (outs : List Bytes) (x : Bytes) (byNumber : Bool) : Int := if byNumber then ((outs.idxOf x : Nat) : Int) else 0

def Clients.number (cl : Clients) (outs : List Bytes) (i : Nat) : Int := numberOf outs (cl.owner i) (cl.byNumber i)

/-- What an object answers from after a call: all calls but `Height` are answers. -/
def after : Call → Option (List Bytes) → Option (List Bytes) → Option (List Bytes)
  | .height, old, _ => old
  | _, _, new => new

/-- One step as the clients see it. -/
noncomputable def viewStep (cl : Clients) (outs : List Bytes) (v : View) : Step → Option (View × List Out)
  | .pay x => some ({ v with seen := v.seen ++ [x] }, [])
  | .ask i k =>
    match reply (basis v (cl.owner i) i) (cl.owner i) (cl.number outs i) k with
    | none => none
    | some o => some ({ v with snap := fun j => if j = i then after k (v.snap i) (basis v (cl.owner i) i) else v.snap j }, [o])

noncomputable def viewRun (cl : Clients) (outs : List Bytes) : View → List Step → Option (List Out)
  | _, [] => some []
  | v, x :: xs =>
    match viewStep cl outs v x with
    | none => none
    | some (v', o) => (viewRun cl outs v' xs).map (o ++ ·)

/-- The addresses that the steps pay. -/
def pays (xs : List Step) : List Bytes := xs.flatMap fun
  | .pay x => [x]
  | .ask .. => []

/-! ## Lemmas -/

theorem logFrom_append (adr : List Bytes) (l m : List Bytes) : ∀ s, logFrom adr s (l ++ m) = logFrom adr s l ++ logFrom adr (s ++ l) m := by
  induction l with
  | nil => intro s; simp [logFrom]
  | cons a l ih => intro s; rw [List.cons_append, logFrom, ih, logFrom]; simp

structure SessOK (root : Path) (outs seen rest : List Bytes) (f : Files) (next : Int) : Prop where
  split : outs = seen ++ rest
  adr : f.adr = outs
  next : next = seen.length
  chain : ChainOK (cfg root) seen (logFrom outs [] seen) (live f)
  count : f.more.count = heldAll (cfg root) f.more.cache
  limit : f.more.limit = limit

theorem pay_ok {root : Path} {fuel : Nat} {outs seen rest : List Bytes} {x : Bytes} {f : Files} {next : Int}
    (hlen : outs.length < 256 ^ 5) (hr : repeats outs < 1600000000) (h : SessOK root outs seen (x :: rest) f next) :
    ∃ f', touch (cfg root) fuel f x next = .ok f' ∧ SessOK root outs (seen ++ [x]) rest f' (next + 1) := by
  obtain ⟨adr, first, m⟩ := f
  obtain ⟨hsp, hadr, hnx, hch, hcn, hlm⟩ := h
  dsimp only at hadr hcn hlm
  subst hadr
  subst hnx
  obtain ⟨more, hI, hm⟩ := hch.first
  have hI : AddrInv adr first more seen := hI
  have hInv : CachedMapStore.Inv (cfg root) m (logFrom adr [] seen) none := hch.more
  have hord : InOrder adr (seen ++ x :: rest) := by rw [← hsp]; exact inOrder_self adr
  have hall : ∀ y ∈ seen ++ x :: rest, y ∈ adr := by rw [← hsp]; exact fun y hy => hy
  have hl2 : adr.length = seen.length + (rest.length + 1) := by rw [hsp]; simp
  have hloglen : (logFrom adr [] seen).length ≤ repeats adr := by
    rw [← repeats_eq adr]
    have e : logFrom adr [] adr = logFrom adr [] seen ++ logFrom adr seen (x :: rest) := by
      conv => lhs; rw [show logFrom adr [] adr = logFrom adr [] (seen ++ x :: rest) by rw [← hsp]]
      rw [logFrom_append]; simp
    rw [e, List.length_append]
    omega
  have hlog : logFrom adr [] (seen ++ [x]) =
      logFrom adr [] seen ++ (if x ∈ seen then [((indexOf adr x).toNat, (seen.length : Int))] else []) := by
    rw [logFrom_append]
    simp [logFrom]
  have hvals : ∀ e ∈ logFrom adr [] (seen ++ [x]), 0 ≤ e.2 ∧ WordFile.fits 5 e.2 := by
    intro e he
    have := logFrom_val adr (seen ++ [x]) [] e he
    rw [List.length_nil, Nat.zero_add, List.length_append, List.length_singleton] at this
    refine ⟨this.1, ?_⟩
    unfold WordFile.fits
    rw [if_neg (by omega)]
    omega
  have hLog : LogOK (cfg root) (logFrom adr [] (seen ++ [x])) := by
    refine ⟨by simp [cfg], fun e he => (hvals e he).2, ?_⟩
    have := logFrom_length adr (seen ++ [x]) []
    rw [List.length_append, List.length_singleton] at this
    omega
  obtain ⟨first1, more1, ht, hI1⟩ := touchAddress_ok (s := syn adr first more) (outs := seen) (rest := rest) (a := x) hI hord hall
    (by omega) (by
      intro htp hs
      subst hs
      have : indexOf adr x = 0 := indexOf_first (by rw [hsp]; rfl) (fun j hj => absurd hj (Nat.not_lt_zero j))
      rw [show (syn adr first more).adrHashes = adr from rfl, this] at htp
      exact absurd htp (by decide))
  have hI1 : AddrInv adr first1 more1 (seen ++ [x]) := hI1
  have hsp' : adr = (seen ++ [x]) ++ rest := by rw [hsp]; simp
  by_cases hs : x ∈ seen
  · have hc : count first > indexOf adr x := hI.lt x hs
    obtain ⟨t1, t2, t3⟩ := touch_again (c := cfg root) (fuel := fuel) (m := m) hc ht
    obtain ⟨m', a1, a2, a3⟩ := CachedMapStore.append_below (c := cfg root) (by simp [cfg]) hInv hch.logOK hcn hlm (by
      have : limit = 1600000000 := by decide
      omega) (k := (indexOf adr x).toNat) (v := (seen.length : Int)) (fuel := fuel)
    have hi' := CachedMapStore.inv_append (c := cfg root) (by simp [cfg]) hInv hch.logOK a1
    rw [if_pos hs] at hlog
    refine ⟨⟨adr, first, m'⟩, t1 m' a1, hsp', rfl, by simp, ⟨⟨rest, hsp'⟩, ⟨more1, by rw [← t2]; exact hI1, ?_⟩, fun e he => (hvals e he).1,
      hLog, by rw [hlog]; exact hi', by simp; omega⟩, a2, a3⟩
    intro k
    rw [hlog, t3, MapStore.elems_append]
    dsimp only
    by_cases hk : k = (indexOf adr x).toNat
    · rw [if_pos hk, if_pos hk, List.map_append, ← hm k]; rfl
    · rw [if_neg hk, if_neg hk]; exact hm k
  · have hc := not_seen_new hI hord (hall x (by simp)) hs
    obtain ⟨t1, t2⟩ := touch_new (c := cfg root) (fuel := fuel) (m := m) hc ht
    rw [if_neg hs, List.append_nil] at hlog
    exact ⟨⟨adr, first1, m⟩, t1, hsp', rfl, by simp, ⟨⟨rest, hsp'⟩, ⟨more1, hI1, by rw [hlog, t2]; exact hm⟩, fun e he => (hvals e he).1,
      hLog, by rw [hlog]; exact hInv, by simp; omega⟩, hcn, hlm⟩

/-- An object of `x`, with the outputs it answers from, if it has answered. -/
structure ObjOK (outs : List Bytes) (x : Bytes) (byNumber : Bool) (snap : Option (List Bytes)) (a : Addr) : Prop where
  spec : a.heightSpecified = byNumber
  height : a.height = numberOf outs x byNumber
  mem : byNumber = true → x ∈ outs
  hash : a.hashSpecified = true → a.hash = x
  one : byNumber = true ∨ a.hashSpecified = true
  pop : a.populated = snap.isSome
  txos : ∀ s, snap = some s → a.hash = x ∧ a.txos = (paidAt s x).map fun n : Nat => (n : Int)

theorem unseen_get {root : Path} {outs seen rest : List Bytes} {f : Files} {next : Int} (h : SessOK root outs seen rest f next) {x : Bytes}
    (hx : x ∉ seen) : get f.first (indexOf outs x) = .error .err := by
  by_cases hm : x ∈ outs
  · obtain ⟨more, hI, _⟩ := h.chain.first
    have hI : AddrInv f.adr f.first more seen := hI
    rw [h.adr] at hI
    obtain ⟨n, e1, _, _⟩ := indexOf_lt (indexOf_mem hm)
    refine get_none _ _ n e1 ?_
    rcases hI.top with h0 | ⟨b, hb, h0⟩
    · rw [h0]; simp
    · obtain ⟨i, hi⟩ := List.mem_iff_getElem?.mp hb
      have hil := lt_of_getElem? hi
      have hsp := h.split
      have hxo : n < outs.length ∧ outs[n]? = some x := by
        obtain ⟨n', f1, f2, _⟩ := indexOf_lt (indexOf_mem hm)
        have : n' = n := by omega
        subst this
        exact ⟨lt_of_getElem? f2, f2⟩
      have hn : seen.length ≤ n := by
        by_contra hlt
        have hlt : n < seen.length := by omega
        have := hxo.2
        rw [hsp, List.getElem?_append_left hlt] at this
        exact hx (List.mem_of_getElem? this)
      have hb1 : indexOf outs b = (outs.idxOf b : Nat) := by
        apply indexOf_idxOf
        rw [hsp]; exact List.mem_append_left _ hb
      have hb2 : outs.idxOf b < seen.length := by
        rw [hsp, idxOf_pre rest hb]
        exact List.idxOf_lt_length_of_mem hb
      omega
  · have : indexOf outs x = -1 := by
      unfold indexOf
      rw [List.findIdx?_eq_none_iff.mpr]
      intro y hy
      simp only [decide_eq_false_iff_not]
      rintro rfl
      exact hm hy
    rw [this]
    rfl

/-- The first answer of an object. -/
theorem populate_live {root : Path} {outs seen rest : List Bytes} {f : Files} {next : Int} (h : SessOK root outs seen rest f next) {x : Bytes}
    {bn : Bool} {a : Addr} (ha : ObjOK outs x bn none a) :
    ∃ m' a', (x ∈ seen ∧ Neighbour seen x → populate (cfg root) (live f) a = some (live { f with more := m' }, a', false) ∧
        ObjOK outs x bn (some seen) a') ∧
      (¬ (x ∈ seen ∧ Neighbour seen x) → populate (cfg root) (live f) a = some (live { f with more := m' }, a', true) ∧
        ObjOK outs x bn none a') ∧ a'.hash = x ∧ SessOK root outs seen rest { f with more := m' } next := by
  have hpopn : a.populated = false := ha.pop
  have hidx : (if a.heightSpecified = true then a.height else indexOf outs a.hash) = indexOf outs x := by
    by_cases hb : bn = true
    · rw [ha.spec, if_pos hb, ha.height, numberOf, if_pos hb, indexOf_idxOf (ha.mem hb)]
    · rw [ha.spec, if_neg hb, ha.hash (ha.one.resolve_left hb)]
  have hw : withHash (live f) { a with txos := [] } (indexOf outs x) = some { a with txos := [], hash := x, hashSpecified := true } := by
    unfold withHash
    by_cases hs : a.hashSpecified = true
    · rw [if_pos hs]
      have := ha.hash hs
      cases a; simp_all
    · rw [if_neg hs]
      have hm := ha.mem (ha.one.resolve_right hs)
      have hlt := List.idxOf_lt_length_of_mem hm
      have : hashAt (live f).adr (indexOf outs x) = some x := by
        unfold hashAt
        rw [indexOf_idxOf hm, if_neg (by omega), show (live f).adr = outs from h.adr, Int.toNat_natCast, List.getElem?_eq_getElem hlt,
          List.getElem_idxOf hlt]
      rw [this]; rfl
  have hstep : populate (cfg root) (live f) a =
      match get f.first (indexOf outs x) with
      | .error _ => some (live f, { a with txos := [], hash := x, hashSpecified := true }, true)
      | .ok v =>
        match (live f).more.getArray (cfg root) (indexOf outs x).toNat with
        | none => none
        | some (m, l, e) =>
          if e then some ({ live f with more := m }, { a with txos := [v], hash := x, hashSpecified := true }, true)
          else some ({ live f with more := m }, { a with txos := v :: l, hash := x, hashSpecified := true, populated := true }, false) := by
    unfold populate
    dsimp only
    rw [show (live f).adr = outs from h.adr, hidx, hw]
    rfl
  have hobj : ∀ l, ObjOK outs x bn none { a with txos := l, hash := x, hashSpecified := true } := fun l =>
    ⟨ha.spec, ha.height, ha.mem, fun _ => rfl, .inr rfl, hpopn, by simp⟩
  by_cases hx : x ∈ seen
  · obtain ⟨p, ps, e1, e2, e3⟩ := chainOK_more h.chain hx
    have hix : indexOf outs x = (seen.idxOf x : Nat) := by
      have := chainOK_index h.chain hx
      rwa [show (live f).adr = outs from h.adr] at this
    have hget := CachedMapStore.inv_get (c := cfg root) (by simp [cfg]) (s := f.more) h.chain.more h.chain.logOK (seen.idxOf x)
    have hinv := CachedMapStore.inv_flush (c := cfg root) (by simp [cfg]) (s := f.more) h.chain.more
    have hsess : SessOK root outs seen rest { f with more := CachedMapStore.flush (cfg root) f.more } next :=
      ⟨h.split, h.adr, h.next, ⟨h.chain.adr, h.chain.first, h.chain.vals, h.chain.logOK, hinv, h.chain.len⟩,
        by simp [CachedMapStore.flush, heldAll], h.limit⟩
    rw [hix, show get f.first (seen.idxOf x : Nat) = .ok (p : Int) from e2] at hstep
    dsimp only at hstep
    rw [Int.toNat_natCast, show (live f).more = .live f.more from rfl, More.getArray, hget] at hstep
    simp only [Option.map_some] at hstep
    have hu := used_iff (c := cfg root) rfl h.chain x
    by_cases hn : Neighbour seen x
    · rw [decide_eq_true (hu.mpr hn)] at hstep
      refine ⟨_, { a with txos := (p : Int) :: elems (logFrom outs [] seen) (seen.idxOf x), hash := x, hashSpecified := true, populated := true },
        fun _ => ⟨by rw [hstep]; rfl, ha.spec, ha.height, ha.mem, fun _ => rfl, .inr rfl, rfl, ?_⟩, fun hc => absurd ⟨hx, hn⟩ hc, rfl, hsess⟩
      intro s hs
      obtain rfl := Option.some.inj hs
      refine ⟨rfl, ?_⟩
      dsimp only
      rw [e3, e1]
      rfl
    · rw [decide_eq_false (fun hc => hn (hu.mp hc))] at hstep
      exact ⟨_, { a with txos := [(p : Int)], hash := x, hashSpecified := true }, fun hc => absurd hc.2 hn,
        fun _ => ⟨by rw [hstep]; rfl, hobj _⟩, rfl, hsess⟩
  · rw [unseen_get h hx] at hstep
    exact ⟨f.more, { a with txos := [], hash := x, hashSpecified := true }, fun hc => absurd hc.1 hx, fun _ => ⟨hstep, hobj _⟩, rfl, h⟩

theorem nth_says {s : List Bytes} {x : Bytes} {a : Addr} (h : a.txos = (paidAt s x).map fun n : Nat => (n : Int)) (n : Int) :
    (nth a.txos n).map (fun h => Out.txo h) = if n < 0 then none else ((paidAt s x)[n.toNat]?).map fun h : Nat => Out.txo h := by
  unfold nth
  rw [h]
  by_cases hn : n < 0
  · rw [if_pos hn, if_pos hn]; rfl
  · rw [if_neg hn, if_neg hn, List.getElem?_map, Option.map_map]; rfl

/-- One call. -/
theorem ask_ok {root : Path} {outs seen rest : List Bytes} {f : Files} {next : Int} (h : SessOK root outs seen rest f next) {x : Bytes}
    {bn : Bool} {a : Addr} {v : View} {i : Nat} (hv : v.seen = seen) (ha : ObjOK outs x bn (v.snap i) a) (k : Call) :
    (reply (basis v x i) x (numberOf outs x bn) k = none → call (cfg root) (live f) a k = none) ∧
    ∀ o, reply (basis v x i) x (numberOf outs x bn) k = some o →
      ∃ m' a', call (cfg root) (live f) a k = some (live { f with more := m' }, a', o) ∧
        SessOK root outs seen rest { f with more := m' } next ∧
        ObjOK outs x bn (after k (v.snap i) (basis v x i)) a' := by
  have hheight : call (cfg root) (live f) a .height = some (live f, a, .num (numberOf outs x bn)) := by
    show some (live f, a, Out.num a.height) = _
    rw [ha.height]
  cases hs : v.snap i with
  | some s =>
    rw [hs] at ha
    have hb : basis v x i = some s := by unfold basis; rw [hs]
    have hp : a.populated = true := ha.pop
    obtain ⟨q1, q2⟩ := ha.txos s rfl
    rw [hb]
    cases k with
    | txoCount => exact ⟨by simp [reply], fun o ho => ⟨f.more, a, by simp [reply] at ho; simp [call, hp, q2, ho], h, ha⟩⟩
    | nthTxo n =>
      have := nth_says q2 n
      have hc : call (cfg root) (live f) a (.nthTxo n) = (nth a.txos n).map fun h => (live f, a, Out.txo h) := by simp [call, hp]
      unfold reply
      dsimp only
      rw [← this, hc]
      cases hn : nth a.txos n with
      | none => exact ⟨fun _ => rfl, fun o ho => by cases ho⟩
      | some w => exact ⟨fun ho => (by cases ho), fun o ho => ⟨f.more, a, by obtain rfl := Option.some.inj ho; rfl, h, ha⟩⟩
    | hash => exact ⟨by simp [reply], fun o ho => ⟨f.more, a, by simp [reply] at ho; simp [call, hp, q1, ho], h, ha⟩⟩
    | height => exact ⟨by simp [reply], fun o ho => ⟨f.more, a, by simp only [reply, Option.some.injEq] at ho; rw [hheight, ho], h, ha⟩⟩
  | none =>
    rw [hs] at ha
    have hp : a.populated = false := ha.pop
    obtain ⟨m', a', h1, h2, h3, h4⟩ := populate_live h ha
    by_cases hl : x ∈ seen ∧ Neighbour seen x
    · have hb : basis v x i = some seen := by unfold basis; rw [hs, hv, if_pos hl]
      obtain ⟨p1, p2⟩ := h1 hl
      obtain ⟨q1, q2⟩ := p2.txos seen rfl
      rw [hb]
      cases k with
      | txoCount => exact ⟨by simp [reply], fun o ho => ⟨m', a', by simp [reply] at ho; simp [call, hp, p1, q2, ho], h4, p2⟩⟩
      | nthTxo n =>
        have := nth_says q2 n
        have hc : call (cfg root) (live f) a (.nthTxo n) = (nth a'.txos n).map fun h => (live { f with more := m' }, a', Out.txo h) := by
          simp [call, hp, p1]
        unfold reply
        dsimp only
        rw [← this, hc]
        cases hn : nth a'.txos n with
        | none => exact ⟨fun _ => rfl, fun o ho => by cases ho⟩
        | some w => exact ⟨fun ho => (by cases ho), fun o ho => ⟨m', a', by obtain rfl := Option.some.inj ho; rfl, h4, p2⟩⟩
      | hash => exact ⟨by simp [reply], fun o ho => ⟨m', a', by simp [reply] at ho; simp [call, hp, p1, q1, ho], h4, p2⟩⟩
      | height => exact ⟨by simp [reply], fun o ho => ⟨f.more, a, by simp only [reply, Option.some.injEq] at ho; rw [hheight, ho], h, ha⟩⟩
    · have hb : basis v x i = none := by unfold basis; rw [hs, hv, if_neg hl]
      obtain ⟨p1, p2⟩ := h2 hl
      rw [hb]
      cases k with
      | txoCount => exact ⟨by simp [reply], fun o ho => ⟨m', a', by simp [reply] at ho; simp [call, hp, p1, ho], h4, p2⟩⟩
      | nthTxo n => exact ⟨by simp [reply], fun o ho => ⟨m', a', by simp [reply] at ho; simp [call, hp, p1, ho], h4, p2⟩⟩
      | hash => exact ⟨by simp [reply], fun o ho => ⟨m', a', by simp [reply] at ho; simp [call, hp, p1, h3, ho], h4, p2⟩⟩
      | height => exact ⟨by simp [reply], fun o ho => ⟨f.more, a, by simp only [reply, Option.some.injEq] at ho; rw [hheight, ho], h, ha⟩⟩

theorem session_ok {root : Path} {fuel : Nat} {outs : List Bytes} {cl : Clients} (hlen : outs.length < 256 ^ 5)
    (hr : repeats outs < 1600000000) (xs : List Step) : ∀ (seen rest : List Bytes) (s : Sess) (v : View), v.seen = seen →
      SessOK root outs seen (pays xs ++ rest) s.files s.next →
      (∀ i, ObjOK outs (cl.owner i) (cl.byNumber i) (v.snap i) (s.objs i)) →
      session (cfg root) fuel s xs = viewRun cl outs v xs := by
  induction xs with
  | nil => intros; rfl
  | cons y xs ih =>
    intro seen rest s v hv h ho
    cases y with
    | pay x =>
      have hp : pays (.pay x :: xs) = x :: pays xs := by simp [pays]
      rw [hp, List.cons_append] at h
      obtain ⟨f', t1, t2⟩ := pay_ok (fuel := fuel) hlen hr h
      rw [session, viewRun, step, t1, viewStep]
      dsimp only
      rw [ih (seen ++ [x]) rest { s with files := f', next := s.next + 1 } { v with seen := v.seen ++ [x] } (by rw [hv]) t2 ho]
    | ask i k =>
      have hp : pays (.ask i k :: xs) = pays xs := by simp [pays]
      rw [hp] at h
      obtain ⟨a1, a2⟩ := ask_ok (v := v) (i := i) h hv (ho i) k
      have hnum : cl.number outs i = numberOf outs (cl.owner i) (cl.byNumber i) := rfl
      rw [session, viewRun, step, viewStep, hnum]
      cases hsay : reply (basis v (cl.owner i) i) (cl.owner i) (numberOf outs (cl.owner i) (cl.byNumber i)) k with
      | none => rw [a1 hsay]
      | some o =>
        obtain ⟨m', a', c1, c2, c3⟩ := a2 o hsay
        rw [c1]
        show Option.map _ (session _ _ (s.set i a' { s.files with more := m' }) xs) = Option.map _ (viewRun _ _ _ xs)
        congr 1
        refine ih seen rest _ _ hv c2 ?_
        intro j
        unfold Sess.set
        dsimp only
        by_cases hj : j = i
        · subst hj; rw [if_pos rfl, if_pos rfl]; exact c3
        · rw [if_neg hj, if_neg hj]; exact ho j

theorem start_ok (root : Path) (od : Path → Bool) (outs : List Bytes) : SessOK root outs [] outs (start root od outs) 0 :=
  ⟨rfl, rfl, rfl, ⟨⟨outs, rfl⟩, ⟨fun _ => [], addrInv_nil outs, by simp [logFrom, elems]⟩, by simp [logFrom], ⟨by simp [cfg], by simp [logFrom],
    by simp [logFrom]⟩, CachedMapStore.inv_create _ od limit, by simp⟩, by simp [start, CachedMapStore.create, heldAll], rfl⟩

theorem clients_ok {cl : Clients} {outs : List Bytes} (hc : ∀ i, cl.byNumber i = true → cl.owner i ∈ outs) (i : Nat) :
    ObjOK outs (cl.owner i) (cl.byNumber i) none (cl.objs outs i) := by
  unfold Clients.objs
  cases hb : cl.byNumber i with
  | true => exact ⟨rfl, rfl, fun _ => hc i hb, by simp [byHeight], .inl rfl, rfl, by simp⟩
  | false => exact ⟨rfl, rfl, by simp, fun _ => rfl, .inr rfl, rfl, by simp⟩

theorem viewRun_pays (cl : Clients) (outs l : List Bytes) (xs : List Step) : ∀ v : View,
    viewRun cl outs v (l.map .pay ++ xs) = viewRun cl outs { v with seen := v.seen ++ l } xs := by
  induction l with
  | nil => intro v; simp
  | cons a l ih =>
    intro v
    rw [List.map_cons, List.cons_append, viewRun, viewStep]
    dsimp only
    rw [ih]
    simp

theorem pays_map (l : List Bytes) (xs : List Step) : pays (l.map .pay ++ xs) = l ++ pays xs := by
  induction l with
  | nil => rfl
  | cons a l ih =>
    have : pays (Step.pay a :: (l.map .pay ++ xs)) = a :: pays (l.map .pay ++ xs) := by simp [pays]
    rw [List.map_cons, List.cons_append, this, ih]; rfl

theorem neighbour_grows {s t : List Bytes} {x : Bytes} (hx : x ∈ s) (h : Neighbour s x) : Neighbour (s ++ t) x := by
  obtain ⟨y, ⟨i, j, hij, hi, hj⟩, hd⟩ := h
  have hil := lt_of_getElem? hi
  have hjl := lt_of_getElem? hj
  refine ⟨y, ⟨i, j, hij, by rw [List.getElem?_append_left hil]; exact hi, by rw [List.getElem?_append_left hjl]; exact hj⟩, ?_⟩
  rw [idxOf_pre t hx, idxOf_pre t (List.mem_of_getElem? hi)]
  exact hd

/-! ## C105 -/

/-- C105 (partial). While a chain is written, with fewer than 1.6 thousand million outputs that pay an address paid before, clients call
address objects between the outputs in any way. Then each object answers rightly for the outputs that were there at its first answer, and
goes on to answer so; before, it answers with errors (C88). Missing: that it answers for the outputs of now (`object_goes_stale`). -/
theorem objects_keep_first_answer_partial (root : Path) (od : Path → Bool) (fuel : Nat) (outs : List Bytes) (cl : Clients) (xs : List Step)
    (hlen : outs.length < 256 ^ 5) (hr : repeats outs < 1600000000) (hc : ∀ i, cl.byNumber i = true → cl.owner i ∈ outs)
    (hp : pays xs <+: outs) :
    session (cfg root) fuel ⟨start root od outs, 0, cl.objs outs⟩ xs = viewRun cl outs ⟨[], fun _ => none⟩ xs := by
  obtain ⟨rest, e⟩ := hp
  exact session_ok hlen hr xs [] rest _ _ rfl (by rw [e]; exact start_ok root od outs) (clients_ok hc)

/-- C105, where the code violates it. An object that has once told the number of its outputs tells the same number after more outputs pay its
address, while another object of the same address, asked then for the first time, tells the new one. -/
theorem object_goes_stale (root : Path) (od : Path → Bool) (fuel : Nat) (s t rest : List Bytes) (cl : Clients) (x : Bytes)
    (hlen : (s ++ t ++ rest).length < 256 ^ 5) (hr : repeats (s ++ t ++ rest) < 1600000000)
    (hc : ∀ i, cl.byNumber i = true → cl.owner i ∈ s ++ t ++ rest) (h0 : cl.owner 0 = x) (h1 : cl.owner 1 = x) (hx : x ∈ s)
    (hn : Neighbour s x) (ht : x ∈ t) :
    (paidAt s x).length < (paidAt (s ++ t) x).length ∧
    session (cfg root) fuel ⟨start root od (s ++ t ++ rest), 0, cl.objs (s ++ t ++ rest)⟩
      (s.map .pay ++ .ask 0 .txoCount :: (t.map .pay ++ [.ask 0 .txoCount, .ask 1 .txoCount])) =
      some [.num (paidAt s x).length, .num (paidAt s x).length, .num (paidAt (s ++ t) x).length] := by
  refine ⟨?_, ?_⟩
  · have hsplit : paidAt (s ++ t) x = paidAt s x ++ ((List.range' s.length t.length).filter fun h => (s ++ t)[h]? = some x) := by
      unfold paidAt
      rw [List.length_append, List.range_eq_range', ← List.range'_append_1, List.filter_append, Nat.zero_add, ← List.range_eq_range']
      congr 1
      apply List.filter_congr
      intro h hh
      rw [List.getElem?_append_left (List.mem_range.mp hh)]
    rw [hsplit, List.length_append]
    have : 0 < ((List.range' s.length t.length).filter fun h => (s ++ t)[h]? = some x).length := by
      obtain ⟨j, hj⟩ := List.getElem?_of_mem ht
      have hjl := lt_of_getElem? hj
      apply List.length_pos_of_mem (a := s.length + j)
      rw [List.mem_filter, List.mem_range'_1]
      refine ⟨by omega, ?_⟩
      rw [List.getElem?_append_right (by omega), Nat.add_sub_cancel_left, hj]
      simp
    omega
  · rw [objects_keep_first_answer_partial root od fuel _ cl _ hlen hr hc (by
      rw [pays_map, show pays (Step.ask 0 .txoCount :: (t.map .pay ++ [.ask 0 .txoCount, .ask 1 .txoCount])) = t by
        show pays (t.map .pay ++ [.ask 0 .txoCount, .ask 1 .txoCount]) = t
        rw [pays_map]
        simp [pays]]
      exact List.prefix_append _ _), viewRun_pays]
    have b0 : ∀ v : View, v.seen = s → v.snap 0 = none → basis v x 0 = some s := by
      intro v e1 e2
      unfold basis
      rw [e2, e1, if_pos ⟨hx, hn⟩]
    have hn' := neighbour_grows (t := t) hx hn
    rw [viewRun, viewStep, h0, b0 _ (by simp) rfl]
    simp only [reply, List.nil_append]
    rw [viewRun_pays, viewRun, viewStep]
    simp only [h0, basis, after, reply, if_true]
    rw [viewRun, viewStep]
    have : x ∈ s ++ t ∧ Neighbour (s ++ t) x := ⟨List.mem_append_left _ hx, hn'⟩
    simp [h1, basis, reply, this, viewRun]

/-! ## Non-vacuity -/

/-- Outputs paying 91, 92, 91, 91: object 0 of address 91 tells 2 after three outputs and after four, object 1 tells 3. -/
example : session (cfg []) 0 ⟨start [] (fun _ => false) [[91], [92], [91], [91]], 0,
      Clients.objs ⟨fun _ => [91], fun _ => true⟩ [[91], [92], [91], [91]]⟩
      [.pay [91], .pay [92], .pay [91], .ask 0 .txoCount, .pay [91], .ask 0 .txoCount, .ask 1 .txoCount] =
    some [.num 2, .num 2, .num 3] :=
  (object_goes_stale [] (fun _ => false) 0 [[91], [92], [91]] [[91]] [] ⟨fun _ => [91], fun _ => true⟩ [91] (by decide) (by decide)
    (fun _ _ => by show ([91] : Bytes) ∈ _; decide) rfl rfl (by decide) ⟨[91], ⟨0, 2, by decide, by decide, by decide⟩, rfl⟩ (by decide)).2

/-- Asked before any address is paid twice, an object answers with an error, and rightly later. -/
example : session (cfg []) 0 ⟨start [] (fun _ => false) [[91], [92], [91]], 0, Clients.objs ⟨fun _ => [92], fun _ => false⟩ [[91], [92], [91]]⟩
      [.pay [91], .pay [92], .ask 0 .txoCount, .pay [91], .ask 0 (.nthTxo 0)] = some [.error, .txo 1] := by
  rw [objects_keep_first_answer_partial _ _ _ _ _ _ (by decide) (by decide) (by simp) ⟨[], by simp [pays]⟩]
  have h1 : ¬ ([92] ∈ [([91] : Bytes), [92]] ∧ Neighbour [[91], [92]] [92]) := by
    rintro ⟨_, y, ⟨i, j, hij, hi, hj⟩, _⟩
    have hjl := lt_of_getElem? hj
    simp at hjl
    obtain rfl : i = 0 := by omega
    obtain rfl : j = 1 := by omega
    simp at hi hj
    rw [← hi] at hj
    simp at hj
  have h2 : [92] ∈ [([91] : Bytes), [92], [91]] ∧ Neighbour [[91], [92], [91]] [92] :=
    ⟨by decide, [91], ⟨0, 2, by decide, by decide, by decide⟩, by decide⟩
  have b1 : ∀ f : Nat → Option (List Bytes), f 0 = none → basis ⟨[[91], [92]], f⟩ [92] 0 = none := by
    intro f hf
    unfold basis
    dsimp only
    rw [hf]
    exact if_neg h1
  have b2 : ∀ f : Nat → Option (List Bytes), f 0 = none → basis ⟨[[91], [92], [91]], f⟩ [92] 0 = some [[91], [92], [91]] := by
    intro f hf
    unfold basis
    dsimp only
    rw [hf]
    exact if_pos h2
  simp only [viewRun, viewStep, List.nil_append, List.singleton_append, List.cons_append]
  rw [b1 _ rfl]
  simp only [reply, after, List.cons_append, List.nil_append]
  rw [b2 _ rfl]
  decide

end Verif.AddressFiles
