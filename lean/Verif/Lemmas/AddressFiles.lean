import Verif.Model.AddressFiles
import Verif.Props.CachedMapStore
import Verif.Lemmas.ChainStoreRead

/-!
# What the address files hold
-/

namespace Verif.AddressFiles

open Verif.ChainStore
open Verif.MapStore (Path FS Cfg MS elems fileUsed FileOK LogOK Op specRun specStep)
open Verif.CachedMapStore (CMS)
open Verif.IAA (IAA)

/-- The appends to the array store made for outputs paying `rest`, after outputs paying `seen`. -/
def logFrom (adr : List Bytes) : List Bytes → List Bytes → List (Nat × Int)
  | _, [] => []
  | seen, a :: as =>
    (if a ∈ seen then [((indexOf adr a).toNat, (seen.length : Int))] else []) ++ logFrom adr (seen ++ [a]) as

/-- Those appends as calls. -/
def opsOf (log : List (Nat × Int)) : List Op := log.map fun e => .append e.1 e.2

theorem specRun_ops (N : Nat) (l : List (Nat × Int)) : ∀ log, (specRun N log (opsOf l)).1 = log ++ l := by
  induction l with
  | nil => intro log; simp [opsOf, specRun]
  | cons e l ih =>
    intro log
    have := ih (log ++ [(e.1, e.2)])
    simp only [opsOf, List.map_cons, specRun, specStep] at this ⊢
    rw [this]; simp

theorem elems_append_list (l m : List (Nat × Int)) (k : Nat) : elems (l ++ m) k = elems l k ++ elems m k := by
  simp [elems]

/-- A state of the chain with given address files. -/
def syn (adr : List Bytes) (first : Words) (more : Nat → List Nat) : St :=
  { create 0 0 true ⟨[], [], adr⟩ [] [] with addrFirstTxo := first, additional := more }

theorem touch_new {c : Cfg} {fuel : Nat} {adr : List Bytes} {first first' : Words} {more more' : Nat → List Nat} {m : CMS}
    {a : Bytes} {h i : Int} (hn : ¬ (count first > indexOf adr a))
    (ht : touchAddress (syn adr first more) a h = .ok (i, first', more')) :
    touch c fuel ⟨adr, first, m⟩ a h = .ok ⟨adr, first', m⟩ ∧ more' = more := by
  generalize hs : syn adr first more = s at ht
  have e1 : s.adrHashes = adr := by rw [← hs]; rfl
  have e2 : s.addrFirstTxo = first := by rw [← hs]; rfl
  have e3 : s.additional = more := by rw [← hs]; rfl
  unfold touchAddress at ht
  unfold touch
  rw [e1, e2, e3] at ht
  dsimp only at ht ⊢
  by_cases h1 : indexOf adr a = -1
  · rw [if_pos h1] at ht; cases ht
  · rw [if_neg h1, if_pos hn] at ht
    rw [if_neg h1, if_pos hn]
    cases hp : put 5 first (indexOf adr a) h with
    | error e => rw [hp] at ht; cases ht
    | ok f =>
      rw [hp, bind_ok] at ht
      dsimp only
      by_cases h2 : indexOf adr a = testPoint
      · rw [if_pos h2] at ht
        rw [if_pos h2]
        cases hg : get f (indexOf adr a) with
        | error e => rw [hg] at ht; cases ht
        | ok v =>
          rw [hg, bind_ok] at ht
          dsimp only
          by_cases h3 : v ≠ h
          · rw [if_pos h3] at ht; cases ht
          · rw [if_neg h3] at ht
            rw [if_neg h3]
            by_cases h4 : v = 0
            · rw [if_pos h4] at ht; cases ht
            · rw [if_neg h4] at ht
              rw [if_neg h4]
              cases ht
              exact ⟨rfl, rfl⟩
      · rw [if_neg h2] at ht
        rw [if_neg h2]
        cases ht
        exact ⟨rfl, rfl⟩

theorem touch_again {c : Cfg} {fuel : Nat} {adr : List Bytes} {first first' : Words} {more more' : Nat → List Nat} {m : CMS}
    {a : Bytes} {h i : Int} (hn : count first > indexOf adr a)
    (ht : touchAddress (syn adr first more) a h = .ok (i, first', more')) :
    (∀ m', CachedMapStore.append c fuel m (indexOf adr a).toNat h = some m' →
      touch c fuel ⟨adr, first, m⟩ a h = .ok ⟨adr, first, m'⟩) ∧
    first' = first ∧ more' = fun k => if k = (indexOf adr a).toNat then more k ++ [h.toNat] else more k := by
  generalize hs : syn adr first more = s at ht
  have e1 : s.adrHashes = adr := by rw [← hs]; rfl
  have e2 : s.addrFirstTxo = first := by rw [← hs]; rfl
  have e3 : s.additional = more := by rw [← hs]; rfl
  unfold touchAddress at ht
  unfold touch
  rw [e1, e2, e3] at ht
  dsimp only at ht ⊢
  by_cases h1 : indexOf adr a = -1
  · rw [if_pos h1] at ht; cases ht
  · rw [if_neg h1, if_neg (show ¬ ¬ (count first > indexOf adr a) from fun x => x hn)] at ht
    rw [if_neg h1, if_neg (show ¬ ¬ (count first > indexOf adr a) from fun x => x hn)]
    cases ht
    refine ⟨?_, rfl, rfl⟩
    intro m' hm
    rw [hm]

theorem not_seen_new {adr : List Bytes} {first : Words} {more : Nat → List Nat} {seen rest : List Bytes} {a : Bytes}
    (hI : AddrInv adr first more seen) (hord : InOrder adr (seen ++ a :: rest)) (hm : a ∈ adr) (hns : a ∉ seen) :
    ¬ (count first > indexOf adr a) := by
  obtain ⟨n, e1, _, _⟩ := indexOf_lt (indexOf_mem hm)
  unfold count
  rcases hI.top with h | ⟨b, hb, h⟩
  · rw [h]; simp; omega
  · obtain ⟨i, hi⟩ := List.mem_iff_getElem?.mp hb
    have hil := lt_of_getElem? hi
    have := hord i seen.length b a hil (by rw [List.getElem?_append_left hil]; exact hi)
      (by simp) (by simpa using hns)
    omega

theorem fill_ok {c : Cfg} {fuel : Nat} {adr : List Bytes} (hlen : adr.length ≤ 256 ^ 5) (rest : List Bytes) :
    ∀ (seen : List Bytes) (first : Words) (more : Nat → List Nat) (L : List (Nat × Int)) (m m' : CMS) (os : List MapStore.Out),
      adr = seen ++ rest → AddrInv adr first more seen → (∀ k, more k = (elems L k).map Int.toNat) →
      CachedMapStore.run c fuel m (opsOf (logFrom adr seen rest)) = some (m', os) →
      ∃ first' more', fill c fuel rest seen.length ⟨adr, first, m⟩ = .ok ⟨adr, first', m'⟩ ∧
        AddrInv adr first' more' (seen ++ rest) ∧ ∀ k, more' k = (elems (L ++ logFrom adr seen rest) k).map Int.toNat := by
  induction rest with
  | nil =>
    intro seen first more L m m' os hadr hI hm hr
    simp only [logFrom, opsOf, List.map_nil, CachedMapStore.run, Option.some.injEq, Prod.mk.injEq] at hr
    refine ⟨first, more, ?_, by simpa using hI, by simpa [logFrom] using hm⟩
    rw [fill, hr.1]
  | cons a as ih =>
    intro seen first more L m m' os hadr hI hm hr
    have hord : InOrder adr (seen ++ a :: as) := by rw [← hadr]; exact inOrder_self adr
    have hall : ∀ x ∈ seen ++ a :: as, x ∈ adr := by rw [← hadr]; exact fun x hx => hx
    have hadr' : adr = (seen ++ [a]) ++ as := by rw [hadr]; simp
    have hsl : seen.length < 256 ^ 5 := by
      have : adr.length = seen.length + (as.length + 1) := by rw [hadr]; simp
      omega
    obtain ⟨first1, more1, ht, hI1⟩ := touchAddress_ok (s := syn adr first more) (outs := seen) (rest := as) (a := a) hI hord hall
      hsl (by
        intro htp hs
        subst hs
        have : indexOf adr a = 0 := indexOf_first (by rw [hadr]; rfl) (fun j hj => absurd hj (Nat.not_lt_zero j))
        rw [show (syn adr first more).adrHashes = adr from rfl, this] at htp
        exact absurd htp (by decide))
    have hI1' : AddrInv adr first1 more1 (seen ++ [a]) := hI1
    by_cases hs : a ∈ seen
    · have hc : count first > indexOf adr a := hI.lt a hs
      obtain ⟨t1, t2, t3⟩ := touch_again (c := c) (fuel := fuel) (m := m) hc ht
      simp only [logFrom, if_pos hs, opsOf, List.singleton_append, List.map_cons, CachedMapStore.run, CachedMapStore.step] at hr
      cases ha : CachedMapStore.append c fuel m (indexOf adr a).toNat (seen.length : Int) with
      | none => rw [ha] at hr; simp at hr
      | some m1 =>
        rw [ha] at hr
        dsimp only at hr
        cases hr2 : CachedMapStore.run c fuel m1 (List.map (fun e => Op.append e.1 e.2) (logFrom adr (seen ++ [a]) as)) with
        | none => rw [hr2] at hr; simp at hr
        | some r =>
          obtain ⟨m2, os2⟩ := r
          rw [hr2] at hr
          simp only [Option.some.injEq, Prod.mk.injEq] at hr
          obtain ⟨f', mo', q1, q2, q3⟩ := ih (seen ++ [a]) first1 more1 (L ++ [((indexOf adr a).toNat, (seen.length : Int))]) m1 m' os2 hadr' hI1'
            (by
              intro k
              rw [t3, MapStore.elems_append]
              dsimp only
              by_cases hk : k = (indexOf adr a).toNat
              · rw [if_pos hk, if_pos hk, List.map_append, ← hm k]; rfl
              · rw [if_neg hk, if_neg hk]; exact hm k)
            (by rw [← hr.1]; exact hr2)
          refine ⟨f', mo', ?_, by simpa using q2, ?_⟩
          · rw [fill, t1 m1 ha]
            dsimp only
            rw [t2] at q1
            simpa using q1
          · intro k
            rw [q3 k, logFrom, if_pos hs]
            simp
    · have hc := not_seen_new hI hord (hall a (by simp)) hs
      obtain ⟨t1, t2⟩ := touch_new (c := c) (fuel := fuel) (m := m) hc ht
      simp only [logFrom, if_neg hs, List.nil_append] at hr
      obtain ⟨f', mo', q1, q2, q3⟩ := ih (seen ++ [a]) first1 more1 L m m' os hadr' hI1' (by rw [t2]; exact hm) hr
      refine ⟨f', mo', ?_, by simpa using q2, ?_⟩
      · rw [fill, t1]
        dsimp only
        simpa using q1
      · intro k
        rw [q3 k, logFrom, if_neg hs]
        simp

theorem addrInv_nil (adr : List Bytes) : AddrInv adr [] (fun _ => []) [] :=
  ⟨by simp, Or.inl rfl, fun _ _ _ => rfl, by simp, fun _ _ => ⟨rfl, by simp⟩⟩

/-- The files are determined by what they hold. -/
theorem addrInv_unique {adr outs : List Bytes} {f f' : Words} {g g' : Nat → List Nat}
    (h : AddrInv adr f g outs) (h' : AddrInv adr f' g' outs) : f = f' ∧ g = g' := by
  have hle : ∀ {f f' : Words} {g g' : Nat → List Nat}, AddrInv adr f g outs → AddrInv adr f' g' outs → f.length ≤ f'.length := by
    intro f f' g g' h h'
    rcases h.top with e | ⟨a, ha, e⟩
    · rw [e]; simp
    · have := h'.lt a ha; omega
  have hlen : f.length = f'.length := Nat.le_antisymm (hle h h') (hle h' h)
  have hk : ∀ k : Nat, (k < f.length → f[k]? = f'[k]?) ∧ g k = g' k := by
    intro k
    by_cases hc : ∃ a ∈ outs, indexOf adr a = k
    · obtain ⟨a, ha, e⟩ := hc
      obtain ⟨p, ps, q1, q2, q3⟩ := h.some a ha
      obtain ⟨p', ps', r1, r2, r3⟩ := h'.some a ha
      rw [q1] at r1
      cases r1
      rw [show (indexOf adr a).toNat = k by omega] at q2 q3 r2 r3
      exact ⟨fun _ => q2.trans r2.symm, q3.trans r3.symm⟩
    · have hc' : ∀ a ∈ outs, indexOf adr a ≠ k := fun a ha e => hc ⟨a, ha, e⟩
      obtain ⟨q1, q2⟩ := h.gap k hc'
      obtain ⟨r1, r2⟩ := h'.gap k hc'
      exact ⟨fun hl => (q2 hl).trans (r2 (by omega)).symm, q1.trans r1.symm⟩
  constructor
  · apply List.ext_getElem? 
    intro k
    by_cases hl : k < f.length
    · exact (hk k).1 hl
    · rw [List.getElem?_eq_none (by omega), List.getElem?_eq_none (by omega)]
  · funext k; exact (hk k).2

/-! ## Reading the array store -/

/-- The array store, as it is read, holds the log. -/
def ReadOK (c : Cfg) (log : List (Nat × Int)) : More → Prop
  | .closed m => m.latestPath = [] ∧ m.olderPath = [] ∧ ∀ k, FileOK c m.fs log k
  | .live m => CachedMapStore.Inv c m log none

theorem getArray_ok {c : Cfg} (hf : 0 < c.digitsPerFolder) {log : List (Nat × Int)} (hl : LogOK c log) {m : More}
    (h : ReadOK c log m) (k : Nat) :
    ∃ m', m.getArray c k = some (m', elems log k, !decide (fileUsed c.perFile log k)) ∧ ReadOK c log m' := by
  cases m with
  | live m =>
    refine ⟨.live (CachedMapStore.flush c m), ?_, CachedMapStore.inv_flush hf h⟩
    unfold More.getArray
    dsimp only
    rw [CachedMapStore.inv_get hf h hl k]
    rfl
  | closed m =>
    obtain ⟨h1, h2, h3⟩ := h
    refine ⟨.closed m, ?_, h1, h2, h3⟩
    have hfl : MapStore.flush m = .ok m := by
      unfold MapStore.flush MapStore.flushOlder
      simp [h1, h2]
    obtain ⟨x, e, hx, hH, he⟩ := (h3 k).load hl (b := IAA.new c.perFile c.elementByteSize) ⟨rfl, rfl⟩
    unfold More.getArray MapStore.getArray
    dsimp only
    rw [hfl]
    dsimp only
    rw [hx]
    by_cases hu : fileUsed c.perFile log k
    · have : e = false := by rw [he]; simp [hu]
      subst this
      simp [hH.data k rfl, hu]
    · have : e = true := by rw [he]; simp [hu]
      subst this
      simp [hu, MapStore.elems_unused hu rfl]

theorem logFrom_val (adr : List Bytes) (rest : List Bytes) : ∀ (seen : List Bytes) (e : Nat × Int), e ∈ logFrom adr seen rest →
    0 ≤ e.2 ∧ e.2 < (seen.length + rest.length : Nat) := by
  induction rest with
  | nil => intro seen e he; simp [logFrom] at he
  | cons a as ih =>
    intro seen e he
    rw [logFrom] at he
    rcases List.mem_append.mp he with he | he
    · by_cases hs : a ∈ seen
      · rw [if_pos hs, List.mem_singleton] at he
        subst he
        simp only [List.length_cons]
        constructor <;> omega
      · rw [if_neg hs] at he; cases he
    · have := ih _ e he
      simp only [List.length_append, List.length_cons, List.length_nil] at this ⊢
      omega

theorem logFrom_length (adr : List Bytes) (rest : List Bytes) : ∀ seen, (logFrom adr seen rest).length ≤ rest.length := by
  induction rest with
  | nil => intro seen; simp [logFrom]
  | cons a as ih =>
    intro seen
    have := ih (seen ++ [a])
    rw [logFrom, List.length_append]
    split <;> simp <;> omega

end Verif.AddressFiles
