import Verif.Model.CakeHandles

/-!
# Lemmas on the table of things held
-/

namespace Verif.CakeHandles

open Verif.ShallowTree Verif.Chunk Verif.SingleTree Verif.DonutForest Verif.TierTop
open Verif.Cake (TierConfig Settings Below Disk Cake Files emptyBelow openedBelow setFolder takeOut)

/-- Of a table: it holds `base`, whose numbers are below `b`, in the old order, and besides exactly `es`. -/
structure Inv (b : Nat) (base es : List (Nat × Thing)) (t : Table) : Prop where
  lo : b ≤ t.next
  baseLt : ∀ x ∈ base, x.1 < b
  old : t.held.filter (fun x => decide (x.1 < b)) = base
  perm : t.held.Perm (base ++ es)
  nodup : (es.map Prod.fst).Nodup
  range : ∀ x ∈ es, b ≤ x.1 ∧ x.1 < t.next

theorem Inv.of_perm {b : Nat} {base es es' : List (Nat × Thing)} {t : Table} (h : Inv b base es t) (hp : es.Perm es') :
    Inv b base es' t where
  lo := h.lo
  baseLt := h.baseLt
  old := h.old
  perm := h.perm.trans (hp.append_left base)
  nodup := (hp.map Prod.fst).nodup_iff.1 h.nodup
  range x hx := h.range x (hp.mem_iff.2 hx)

theorem Inv.start (t : Table) (h : ∀ x ∈ t.held, x.1 < t.next) : Inv t.next t.held [] t where
  lo := Nat.le_refl _
  baseLt := h
  old := List.filter_eq_self.2 fun x hx => by simpa using h x hx
  perm := by simp
  nodup := List.nodup_nil
  range x hx := by cases hx

theorem Inv.add {b : Nat} {base es : List (Nat × Thing)} {t : Table} (h : Inv b base es t) (x : Thing) :
    Inv b base ((t.next, x) :: es) (t.add x) where
  lo := Nat.le_succ_of_le h.lo
  baseLt := h.baseLt
  old := by
    have := h.lo
    simp only [Table.add, List.filter_append, h.old]
    rw [List.filter_cons_of_neg (by simp; omega)]
    simp
  perm := by
    simp only [Table.add]
    refine (h.perm.append_right _).trans ?_
    rw [List.append_assoc]
    exact List.Perm.append_left base (List.perm_append_singleton _ _)
  nodup := by
    rw [List.map_cons, List.nodup_cons]
    refine ⟨?_, h.nodup⟩
    intro hm
    obtain ⟨y, hy, e⟩ := List.mem_map.1 hm
    have := (h.range y hy).2
    omega
  range y hy := by
    rcases List.mem_cons.1 hy with e | hy
    · subst e; exact ⟨h.lo, Nat.lt_succ_self _⟩
    · have := h.range y hy
      exact ⟨this.1, Nat.lt_succ_of_lt this.2⟩

theorem Inv.remove {b : Nat} {base es : List (Nat × Thing)} {t : Table} {i : Nat} {x : Thing}
    (h : Inv b base ((i, x) :: es) t) : Inv b base es (t.remove i) where
  lo := h.lo
  baseLt := h.baseLt
  old := by
    have hi := (h.range (i, x) List.mem_cons_self).1
    simp only [Table.remove]
    rw [List.filter_filter]
    rw [← h.old]
    apply List.filter_congr
    intro y _
    by_cases hy : y.1 < b
    · have : y.1 ≠ i := by simp only at hi; omega
      simp [hy, this]
    · simp [hy]
  perm := by
    have hi := (h.range (i, x) List.mem_cons_self).1
    simp only at hi
    have hn := h.nodup
    rw [List.map_cons, List.nodup_cons] at hn
    simp only [Table.remove]
    refine (h.perm.filter _).trans ?_
    rw [List.filter_append, List.filter_cons_of_neg (by simp)]
    rw [List.filter_eq_self.2 (fun y hy => by
      have := h.baseLt y hy
      simp; omega)]
    rw [List.filter_eq_self.2 (fun y hy => by
      have : y.1 ≠ i := fun e => hn.1 (List.mem_map.2 ⟨y, hy, e⟩)
      simpa using this)]
  nodup := by
    have hn := h.nodup
    rw [List.map_cons, List.nodup_cons] at hn
    exact hn.2
  range y hy := h.range y (List.mem_cons_of_mem _ hy)

theorem Inv.during {b : Nat} {base es : List (Nat × Thing)} {t : Table} (h : Inv b base es t) (x : Thing) :
    Inv b base es (t.during x) := (h.add x).remove

theorem Inv.empty {b : Nat} {base : List (Nat × Thing)} {t : Table} (h : Inv b base [] t) : t.held = base := by
  rw [← h.old]
  symm
  apply List.filter_eq_self.2
  intro x hx
  have := h.perm.mem_iff.1 hx
  simp only [List.append_nil] at this
  simpa using h.baseLt x this

theorem perm_of_count {α : Type} [DecidableEq α] {l l' : List α} (h : ∀ a, l.count a = l'.count a) : l.Perm l' :=
  List.perm_iff_count.2 h

theorem perm_swap {α : Type} (a b : α) (l : List α) : (a :: b :: l).Perm (b :: a :: l) := List.Perm.swap b a l

/-! ## What a tier holds -/

/-- The maps of levels, from level `n` on. -/
def mapEntries (tier : Nat) : Nat → List (Option Nat) → List (Nat × Thing)
  | _, [] => []
  | n, none :: ms => mapEntries tier (n + 1) ms
  | n, some i :: ms => (i, .levelMap tier n) :: mapEntries tier (n + 1) ms

/-- A field that may be nil. -/
def field (i : Option Nat) (x : Thing) : List (Nat × Thing) :=
  match i with
  | none => []
  | some i => [(i, x)]

/-- The things that a tier holds, with their numbers. -/
def Holding.entries (h : Holding) : List (Nat × Thing) :=
  mapEntries h.tier 0 h.maps ++ (field h.jump (.jumpMap h.tier) ++ field h.file (.tierFile h.tier "Hashes.hsh"))

/-- The things that a chain of tiers holds. -/
def chainEntries (hs : List Holding) : List (Nat × Thing) := hs.flatMap Holding.entries

/-- The things that a cake holds. -/
def Held.entries (h : Held) : List (Nat × Thing) := (h.top, .topFile "Hashes.hsh") :: chainEntries h.chain

theorem nothing_entries (tier : Nat) : (nothing tier).entries = [] := rfl

theorem inv_unmapAll {b tier : Nat} {base : List (Nat × Thing)} : ∀ (ids : List (Option Nat)) (n : Nat) {es : List (Nat × Thing)} {t : Table},
    Inv b base (mapEntries tier n ids ++ es) t → Inv b base es (unmapAll ids t)
  | [], _, _, _, h => h
  | none :: ids, n, es, t, h => by
    have := inv_unmapAll ids (n + 1) (es := es) (t := t) h
    exact this
  | some i :: ids, n, es, t, h => by
    have := inv_unmapAll ids (n + 1) (es := es) (t := t.remove i) (Inv.remove h)
    exact this

theorem inv_closeMaps {b tier : Nat} {base : List (Nat × Thing)} : ∀ (ids : List (Option Nat)) (n : Nat) {es : List (Nat × Thing)}
    {t t' : Table}, Inv b base (mapEntries tier n ids ++ es) t → closeMaps ids t = (true, t') → Inv b base es t'
  | [], _, _, _, _, h, he => by
    simp only [closeMaps, Prod.mk.injEq, true_and] at he
    subst he; exact h
  | none :: ids, n, es, t, t', h, he => by simp [closeMaps] at he
  | some i :: ids, n, es, t, t', h, he => by
    exact inv_closeMaps ids (n + 1) (es := es) (t := t.remove i) (Inv.remove h) he

theorem closeMaps_ok : ∀ (ids : List (Option Nat)) (t : Table), (∀ i ∈ ids, i ≠ none) → ∃ t', closeMaps ids t = (true, t')
  | [], t, _ => ⟨t, rfl⟩
  | none :: _, _, h => absurd rfl (h none List.mem_cons_self)
  | some _ :: ids, _, h => closeMaps_ok ids _ fun j hj => h j (List.mem_cons_of_mem _ hj)

theorem closeMaps_true : ∀ (ids : List (Option Nat)) {t t' : Table}, closeMaps ids t = (true, t') → ∀ i ∈ ids, i ≠ none
  | [], _, _, _ => by simp
  | none :: ids, t, t', h => by simp [closeMaps] at h
  | some i :: ids, t, t', h => by
    intro j hj
    rcases List.mem_cons.1 hj with e | hj
    · subst e; simp
    · exact closeMaps_true ids (t := t.remove i) h j hj

theorem inv_closeField {b : Nat} {base es : List (Nat × Thing)} {t : Table} {i : Option Nat} {x : Thing}
    (h : Inv b base (field i x ++ es) t) : Inv b base es (closeField i t) := by
  cases i with
  | none => exact h
  | some i => exact Inv.remove h

theorem inv_closeThis {b : Nat} {base es : List (Nat × Thing)} {h h' : Holding} {t t' : Table}
    (hi : Inv b base (h.entries ++ es) t) (he : closeThis h t = (some h', t')) :
    h' = nothing h.tier ∧ Inv b base es t' := by
  unfold closeThis at he
  rcases hc : closeMaps h.maps t with ⟨r, u⟩
  rw [hc] at he
  cases r with
  | false => simp at he
  | true =>
    simp only [Prod.mk.injEq, Option.some.injEq] at he
    refine ⟨he.1.symm, ?_⟩
    rw [← he.2]
    have h1 : Inv b base (field h.jump (.jumpMap h.tier) ++ (field h.file (.tierFile h.tier "Hashes.hsh") ++ es)) u := by
      refine inv_closeMaps h.maps 0 (tier := h.tier) ?_ hc
      simpa [Holding.entries, List.append_assoc] using hi
    exact inv_closeField (inv_closeField h1)

theorem inv_closeNext {b : Nat} {base es : List (Nat × Thing)} {hs hs' : List Holding} {t t' : Table}
    (hi : Inv b base (chainEntries hs ++ es) t) (he : closeNext hs t = (some hs', t')) :
    hs'.drop 1 = hs.drop 1 ∧ chainEntries hs' = chainEntries (hs.drop 1) ∧ Inv b base (chainEntries hs' ++ es) t' := by
  cases hs with
  | nil =>
    simp only [closeNext, Prod.mk.injEq, Option.some.injEq] at he
    rw [← he.1, ← he.2]
    exact ⟨rfl, rfl, hi⟩
  | cons h hs =>
    simp only [closeNext] at he
    rcases hc : closeThis h t with ⟨r, u⟩
    rw [hc] at he
    cases r with
    | none => simp at he
    | some h' =>
      simp only [Prod.mk.injEq, Option.some.injEq] at he
      have h1 : Inv b base (h.entries ++ (chainEntries hs ++ es)) t := by
        simpa [chainEntries, List.append_assoc] using hi
      obtain ⟨e, h2⟩ := inv_closeThis h1 hc
      rw [← he.1, ← he.2, e]
      refine ⟨rfl, ?_, ?_⟩
      · simp [chainEntries, nothing_entries]
      · simpa [chainEntries, nothing_entries] using h2

theorem inv_closeChain {b : Nat} {base : List (Nat × Thing)} : ∀ (hs : List Holding) {es : List (Nat × Thing)} {t t' : Table},
    Inv b base (chainEntries hs ++ es) t → closeChain hs t = (true, t') → Inv b base es t'
  | [], es, t, t', hi, he => by
    simp only [closeChain, Prod.mk.injEq, true_and] at he
    subst he; exact hi
  | h :: hs, es, t, t', hi, he => by
    unfold closeChain at he
    rcases hc : closeChain hs t with ⟨r, u⟩
    rw [hc] at he
    cases r with
    | false => simp at he
    | true =>
      have h1 : Inv b base (chainEntries hs ++ (h.entries ++ es)) t := by
        refine hi.of_perm ?_
        simp only [chainEntries, List.flatMap_cons, List.append_assoc]
        rw [← List.append_assoc, ← List.append_assoc]
        exact List.Perm.append_right _ List.perm_append_comm
      have h2 := inv_closeChain hs h1 hc
      simp only at he
      rcases hd : closeThis h u with ⟨r, v⟩
      rw [hd] at he
      cases r with
      | none => simp at he
      | some h' =>
        simp only [Prod.mk.injEq, true_and] at he
        rw [← he]
        exact (inv_closeThis h2 hd).2

/-- Whether a tier has no nil maps. -/
def Holding.whole (h : Holding) : Prop := ∀ i ∈ h.maps, i ≠ none

theorem closeThis_ok {h : Holding} (hw : h.whole) (t : Table) : ∃ t', closeThis h t = (some (nothing h.tier), t') := by
  obtain ⟨u, hu⟩ := closeMaps_ok h.maps t hw
  exact ⟨_, by unfold closeThis; rw [hu]⟩

theorem closeThis_some {h h' : Holding} {t t' : Table} (he : closeThis h t = (some h', t')) : h.whole := by
  unfold closeThis at he
  rcases hc : closeMaps h.maps t with ⟨r, u⟩
  rw [hc] at he
  cases r with
  | false => simp at he
  | true => exact closeMaps_true _ hc

theorem closeChain_ok : ∀ (hs : List Holding) (t : Table), (∀ h ∈ hs, h.whole) → ∃ t', closeChain hs t = (true, t')
  | [], t, _ => ⟨t, rfl⟩
  | h :: hs, t, hw => by
    obtain ⟨u, hu⟩ := closeChain_ok hs t fun x hx => hw x (List.mem_cons_of_mem _ hx)
    obtain ⟨v, hv⟩ := closeThis_ok (hw h List.mem_cons_self) u
    exact ⟨v, by unfold closeChain; rw [hu]; simp only; rw [hv]⟩

theorem closeChain_true : ∀ (hs : List Holding) {t t' : Table}, closeChain hs t = (true, t') → ∀ h ∈ hs, h.whole
  | [], _, _, _ => by simp
  | h :: hs, t, t', he => by
    unfold closeChain at he
    rcases hc : closeChain hs t with ⟨r, u⟩
    rw [hc] at he
    cases r with
    | false => simp at he
    | true =>
      simp only at he
      rcases hd : closeThis h u with ⟨r, v⟩
      rw [hd] at he
      cases r with
      | none => simp at he
      | some h' =>
        intro x hx
        rcases List.mem_cons.1 hx with e | hx
        · subst e; exact closeThis_some hd
        · exact closeChain_true hs hc x hx

/-! ## Opening -/

/-- The levels whose files are mapped, of those from `n` on. -/
def mappedFrom (d : DonutForest.Folder) (k n : Nat) (found : Bool) : List Nat :=
  ((List.range' n k).dropWhile fun l => decide (found = false ∧ hexLevel d l = none)).takeWhile fun l =>
    decide ((hexLevel d l).getD [] ≠ [])

theorem mappedFrom_none {d : DonutForest.Folder} {k n : Nat} (h : hexLevel d n = none) :
    mappedFrom d (k + 1) n false = mappedFrom d k (n + 1) false := by
  unfold mappedFrom
  rw [List.range'_succ, List.dropWhile_cons_of_pos (by simp [h])]

theorem mappedFrom_true {d : DonutForest.Folder} (k n : Nat) :
    mappedFrom d k n true = (List.range' n k).takeWhile fun l => decide ((hexLevel d l).getD [] ≠ []) := by
  unfold mappedFrom
  congr 1
  cases k with
  | zero => rfl
  | succ k => rw [List.range'_succ, List.dropWhile_cons_of_neg (by simp)]

theorem mappedFrom_gap {d : DonutForest.Folder} {k n : Nat} (h : hexLevel d n = none) : mappedFrom d (k + 1) n true = [] := by
  rw [mappedFrom_true, List.range'_succ, List.takeWhile_cons_of_neg (by simp [h])]

theorem mappedFrom_empty {d : DonutForest.Folder} {k n : Nat} {f : Bool} (h : hexLevel d n = some []) :
    mappedFrom d (k + 1) n f = [] := by
  unfold mappedFrom
  rw [List.range'_succ, List.dropWhile_cons_of_neg (by simp [h]), List.takeWhile_cons_of_neg (by simp [h])]

theorem mappedFrom_some {d : DonutForest.Folder} {k n : Nat} {f : Bool} {x : UInt8} {xs : Bytes} (h : hexLevel d n = some (x :: xs)) :
    mappedFrom d (k + 1) n f = n :: mappedFrom d k (n + 1) true := by
  rw [mappedFrom_true]
  unfold mappedFrom
  rw [List.range'_succ, List.dropWhile_cons_of_neg (by simp [h]), List.takeWhile_cons_of_pos (by simp [h])]

theorem inv_file_map {b : Nat} {base es : List (Nat × Thing)} {t : Table} (h : Inv b base es t) (x y : Thing) :
    Inv b base ((t.next + 1, y) :: es) (((t.add x).add y).remove t.next) :=
  Inv.remove (((h.add x).add y).of_perm (perm_swap _ _ _))

theorem inv_mapLevels {b tier : Nat} {base : List (Nat × Thing)} {d : DonutForest.Folder} : ∀ (k n : Nat) (found : Bool)
    {es : List (Nat × Thing)} {t t' : Table} {r : Option (List (Bytes × Option Nat))},
    Inv b base es t → mapLevels tier d k n found t = (r, t') →
    r.map (·.map Prod.fst) = DonutForest.mapLevels d k n found ∧
    match r with
    | some ms => Inv b base (mapEntries tier n (ms.map Prod.snd) ++ es) t' ∧
        (mapEntries tier n (ms.map Prod.snd)).map Prod.snd = (mappedFrom d k n found).map (Thing.levelMap tier)
    | none => ∃ L : List (Nat × Thing), Inv b base (L ++ es) t' ∧ L.map Prod.snd = (mappedFrom d k n found).map (Thing.levelMap tier)
  | 0, n, found, es, t, t', r, hi, he => by
    simp only [mapLevels, Prod.mk.injEq] at he
    rw [← he.1, ← he.2]
    exact ⟨rfl, hi, rfl⟩
  | k + 1, n, found, es, t, t', r, hi, he => by
    unfold mapLevels at he
    unfold DonutForest.mapLevels
    rcases hx : hexLevel d n with _ | x
    · rw [hx] at he
      simp only at he ⊢
      cases found with
      | true =>
        simp only [↓reduceIte, Prod.mk.injEq] at he ⊢
        rw [← he.1, ← he.2]
        refine ⟨rfl, hi, ?_⟩
        rw [mappedFrom_gap hx]; rfl
      | false =>
        simp only [Bool.false_eq_true, ↓reduceIte] at he ⊢
        rcases hr : mapLevels tier d k (n + 1) false t with ⟨r1, t1⟩
        have ih := inv_mapLevels k (n + 1) false hi hr
        rw [hr] at he
        rw [mappedFrom_none hx, ← ih.1]
        cases r1 with
        | none =>
          simp only [Prod.mk.injEq] at he
          rw [← he.1, ← he.2]
          exact ⟨rfl, ih.2⟩
        | some ms =>
          simp only [Prod.mk.injEq] at he
          rw [← he.1, ← he.2]
          exact ⟨rfl, ih.2⟩
    · cases x with
      | nil =>
        rw [hx] at he
        simp only [Prod.mk.injEq] at he ⊢
        rw [← he.1, ← he.2]
        refine ⟨rfl, [], hi.during _, ?_⟩
        rw [mappedFrom_empty hx]; rfl
      | cons y ys =>
        rw [hx] at he
        simp only at he ⊢
        have h1 := inv_file_map hi (.levelFile tier n) (.levelMap tier n)
        generalize ((t.add (.levelFile tier n)).add (.levelMap tier n)).remove t.next = u at he h1
        rcases hr : mapLevels tier d k (n + 1) true u with ⟨r1, t1⟩
        have ih := inv_mapLevels k (n + 1) true h1 hr
        rw [hr] at he
        rw [mappedFrom_some hx, ← ih.1]
        cases r1 with
        | none =>
          simp only [Prod.mk.injEq] at he
          rw [← he.1, ← he.2]
          refine ⟨rfl, ?_⟩
          obtain ⟨L, hL, e⟩ := ih.2
          refine ⟨(t.next + 1, .levelMap tier n) :: L, hL.of_perm List.perm_middle, ?_⟩
          simp [e]
        | some ms =>
          simp only [Prod.mk.injEq] at he
          rw [← he.1, ← he.2]
          refine ⟨rfl, ?_, ?_⟩
          · refine ih.2.1.of_perm ?_
            simp only [List.map_cons, mapEntries, List.cons_append]
            exact List.perm_middle
          · simp only [List.map_cons, mapEntries, ih.2.2]

/-- What is left of opening a tier, as kinds of things: nothing, except that the maps of the levels before an empty level
file stay. -/
def leftOfTier (tier : Nat) (d : DonutForest.Folder) : List Thing :=
  if DonutForest.mapLevels d 65 0 false = none then (mappedFrom d 65 0 false).map (Thing.levelMap tier) else []

/-- The things of an open tier. -/
def thingsOfTier (tier : Nat) (d : DonutForest.Folder) : List Thing :=
  (mappedFrom d 65 0 false).map (Thing.levelMap tier) ++ [.jumpMap tier, .tierFile tier "Hashes.hsh"]

/-- What is so after opening a tier: its things are held besides `es`, or what is left of them. -/
def TierPost (b : Nat) (base es : List (Nat × Thing)) (tier quota : Nat) (d : DonutForest.Folder) (r : Outcome (Tier × Holding))
    (t' : Table) : Prop :=
  match r with
  | .ok (x, h) => DonutForest.openTier quota d = .ok x ∧ h.tier = tier ∧ Inv b base (h.entries ++ es) t' ∧
      h.entries.map Prod.snd = thingsOfTier tier d
  | .error => DonutForest.openTier quota d = .error ∧
      ∃ L : List (Nat × Thing), Inv b base (L ++ es) t' ∧ L.map Prod.snd = leftOfTier tier d
  | .panic => DonutForest.openTier quota d = .panic

theorem inv_openTier {b tier quota : Nat} {base es : List (Nat × Thing)} {d : DonutForest.Folder} {t t' : Table}
    {r : Outcome (Tier × Holding)} (hi : Inv b base es t) (he : openTier tier quota d t = (r, t')) :
    TierPost b base es tier quota d r t' := by
  unfold openTier at he
  rcases hm : mapLevels tier d 65 0 false t with ⟨r1, t1⟩
  rw [hm] at he
  obtain ⟨hp, hq⟩ := inv_mapLevels 65 0 false hi hm
  have hspec : DonutForest.openTier quota d = DonutForest.openTier quota d := rfl
  conv at hspec => rhs; unfold DonutForest.openTier; rw [← hp]
  cases r1 with
  | none =>
    simp only [Prod.mk.injEq] at he
    rw [← he.1, ← he.2]
    refine ⟨hspec, ?_⟩
    obtain ⟨L, hL, e⟩ := hq
    refine ⟨L, hL, ?_⟩
    unfold leftOfTier
    rw [← hp, e]
    exact (if_pos rfl).symm
  | some ms =>
    have hleft : leftOfTier tier d = [] := by
      unfold leftOfTier
      rw [← hp, if_neg (by simp)]
    obtain ⟨h1, e1⟩ := hq
    simp only [Option.map_some] at he hspec
    rcases hj : d.jumps with _ | j
    · rw [hj] at he hspec
      simp only [Prod.mk.injEq] at he; simp only at hspec
      rw [← he.1, ← he.2]
      exact ⟨hspec, [], inv_unmapAll _ 0 h1, by rw [hleft]; rfl⟩
    · cases j with
      | nil =>
        rw [hj] at he hspec
        simp only [Prod.mk.injEq] at he; simp only at hspec
        rw [← he.1, ← he.2]
        exact ⟨hspec, [], inv_unmapAll _ 0 (h1.during _), by rw [hleft]; rfl⟩
      | cons j js =>
        rw [hj] at he hspec
        simp only at he hspec
        have h2 := inv_file_map h1 (.tierFile tier "DonutForestsJumpTables.bin") (.jumpMap tier)
        generalize ((t1.add (.tierFile tier "DonutForestsJumpTables.bin")).add (.jumpMap tier)).remove t1.next = t2 at he h2
        have fin : ∀ {u : Table}, Inv b base ((t1.next + 1, .jumpMap tier) :: (mapEntries tier 0 (ms.map Prod.snd) ++ es)) u →
            Inv b base es ((unmapAll (ms.map Prod.snd) u).remove (t1.next + 1)) := by
          intro u hu
          exact Inv.remove (inv_unmapAll _ 0 (hu.of_perm List.perm_middle.symm))
        rcases hinfo : d.info with _ | bytes
        · rw [hinfo] at he hspec
          simp only [Prod.mk.injEq] at he; simp only at hspec
          rw [← he.1, ← he.2]
          exact ⟨hspec, [], fin h2, by rw [hleft]; rfl⟩
        · rw [hinfo] at he hspec
          simp only at he hspec
          have h3 := h2.during (.tierFile tier "DonutForestsInfo.bin")
          generalize t2.during (.tierFile tier "DonutForestsInfo.bin") = t3 at he h3
          rcases hr : readInfo quota (ms.map Prod.fst) bytes with fs | _ | _
          · rw [hr] at he hspec
            simp only at he hspec
            rcases hh : d.hashes with _ | hs
            · rw [hh] at he hspec
              simp only [Prod.mk.injEq] at he; simp only at hspec
              rw [← he.1, ← he.2]
              exact ⟨hspec, [], fin h3, by rw [hleft]; rfl⟩
            · rw [hh] at he hspec
              simp only [Prod.mk.injEq] at he; simp only at hspec
              rw [← he.1, ← he.2]
              refine ⟨hspec, rfl, ?_, ?_⟩
              · refine (h3.add (.tierFile tier "Hashes.hsh")).of_perm ?_
                simp only [Holding.entries, field]
                refine perm_of_count fun a => ?_
                simp only [List.count_cons, List.count_append, List.count_nil]
                omega
              · simp only [Holding.entries, field, List.map_append, e1, thingsOfTier]
                rfl
          · rw [hr] at he hspec
            simp only [Prod.mk.injEq] at he; simp only at hspec
            rw [← he.1, ← he.2]
            exact ⟨hspec, [], fin h3, by rw [hleft]; rfl⟩
          · rw [hr] at he hspec
            simp only [Prod.mk.injEq] at he; simp only at hspec
            rw [← he.1]
            exact hspec

/-- The things held by tiers that have been opened: of every tier there is on disk, from `index` on. -/
def thingsOfTiers (disk : Disk) : Nat → Nat → List Thing
  | _, 0 => []
  | index, n + 1 =>
    (if (disk index).hashes = none then [] else thingsOfTier index (disk index)) ++ thingsOfTiers disk (index + 1) n

/-- The first tier, from `index` on, that is there and does not open; `n` tiers are looked at. -/
def firstBad (disk : Disk) : Nat → List TierConfig → Option Nat
  | _, [] => none
  | index, cfg :: cfgs =>
    if (disk index).hashes ≠ none ∧ DonutForest.openTier cfg.quota (disk index) = .error then some index
    else firstBad disk (index + 1) cfgs

theorem inv_openBelows {b : Nat} {base : List (Nat × Thing)} {disk : Disk} : ∀ (cfgs : List TierConfig) (index : Nat)
    {es : List (Nat × Thing)} {t t' : Table} {r : Outcome (List Below × List Holding)},
    Inv b base es t → openBelows disk index cfgs t = (r, t') →
    (match r with
    | .ok (bs, hs) => Verif.Cake.openBelows disk index cfgs = .ok bs ∧ Inv b base (chainEntries hs ++ es) t' ∧
        (chainEntries hs).map Prod.snd = thingsOfTiers disk index cfgs.length ∧ hs.map Holding.tier = List.range' index cfgs.length
    | .error => Verif.Cake.openBelows disk index cfgs = .error ∧ ∃ n, firstBad disk index cfgs = some n ∧ index ≤ n ∧
        ∃ L : List (Nat × Thing), Inv b base (L ++ es) t' ∧
          L.map Prod.snd = thingsOfTiers disk index (n - index) ++ leftOfTier n (disk n)
    | .panic => Verif.Cake.openBelows disk index cfgs = .panic : Prop)
  | [], index, es, t, t', r, hi, he => by
    simp only [openBelows, Prod.mk.injEq] at he
    obtain ⟨rfl, rfl⟩ := he
    exact ⟨rfl, hi, rfl, rfl⟩
  | cfg :: cfgs, index, es, t, t', r, hi, he => by
    unfold openBelows at he
    rcases hh : (disk index).hashes with _ | hs0
    · rw [hh] at he
      simp only at he
      rcases ho : openBelows disk (index + 1) cfgs t with ⟨r1, t1⟩
      have ih := inv_openBelows cfgs (index + 1) hi ho
      rw [ho] at he
      have hb : firstBad disk index (cfg :: cfgs) = firstBad disk (index + 1) cfgs := by
        simp [firstBad, hh]
      rcases r1 with ⟨bs, hs⟩ | _ | _
      · simp only [Prod.mk.injEq] at he
        obtain ⟨rfl, rfl⟩ := he
        obtain ⟨i1, i2, i3, i4⟩ := ih
        refine ⟨by simp only [Verif.Cake.openBelows, hh, i1], ?_, ?_, ?_⟩
        · simpa [chainEntries, nothing_entries] using i2
        · simpa [chainEntries, nothing_entries, thingsOfTiers, hh] using i3
        · simp [List.range'_succ, i4, nothing]
      · simp only [Prod.mk.injEq] at he
        obtain ⟨rfl, rfl⟩ := he
        obtain ⟨i1, n, i2, i3, L, i4, i5⟩ := ih
        refine ⟨by simp only [Verif.Cake.openBelows, hh, i1], n, by rw [hb]; exact i2, by omega, L, i4, ?_⟩
        rw [i5]
        have : n - index = n - (index + 1) + 1 := by omega
        rw [this]
        simp [thingsOfTiers, hh]
      · simp only [Prod.mk.injEq] at he
        obtain ⟨rfl, rfl⟩ := he
        simp only at ih
        simp only [Verif.Cake.openBelows, hh, ih]
    · rw [hh] at he
      simp only at he
      rcases hp : openTier index cfg.quota (disk index) t with ⟨r0, t0⟩
      have hq := inv_openTier hi hp
      rw [hp] at he
      rcases r0 with ⟨x, h⟩ | _ | _
      · simp only at he
        obtain ⟨q1, q2, q3, q4⟩ := hq
        rcases ho : openBelows disk (index + 1) cfgs t0 with ⟨r1, t1⟩
        have ih := inv_openBelows cfgs (index + 1) q3 ho
        rw [ho] at he
        have hb : firstBad disk index (cfg :: cfgs) = firstBad disk (index + 1) cfgs := by
          simp [firstBad, q1]
        rcases r1 with ⟨bs, hs⟩ | _ | _
        · simp only [Prod.mk.injEq] at he
          obtain ⟨rfl, rfl⟩ := he
          obtain ⟨i1, i2, i3, i4⟩ := ih
          refine ⟨by simp only [Verif.Cake.openBelows, hh, q1, i1], ?_, ?_, ?_⟩
          · refine i2.of_perm ?_
            simp only [chainEntries, List.flatMap_cons]
            rw [← List.append_assoc]
            exact List.Perm.append_right _ List.perm_append_comm
          · have i3' : ((hs.flatMap Holding.entries).map Prod.snd) = thingsOfTiers disk (index + 1) cfgs.length := i3
            simp only [chainEntries, List.flatMap_cons, List.map_append, q4, i3', List.length_cons, thingsOfTiers, hh]
            simp
          · simp [List.range'_succ, i4, q2]
        · simp only [Prod.mk.injEq] at he
          obtain ⟨rfl, rfl⟩ := he
          obtain ⟨i1, n, i2, i3, L, i4, i5⟩ := ih
          refine ⟨by simp only [Verif.Cake.openBelows, hh, q1, i1], n, by rw [hb]; exact i2, by omega, h.entries ++ L, ?_, ?_⟩
          · refine i4.of_perm ?_
            rw [← List.append_assoc]
            exact List.Perm.append_right _ List.perm_append_comm
          · have : n - index = n - (index + 1) + 1 := by omega
            rw [this, List.map_append, i5, q4]
            simp [thingsOfTiers, hh]
        · simp only [Prod.mk.injEq] at he
          obtain ⟨rfl, rfl⟩ := he
          simp only at ih
          simp only [Verif.Cake.openBelows, hh, q1, ih]
      · simp only [Prod.mk.injEq] at he
        obtain ⟨rfl, rfl⟩ := he
        obtain ⟨q1, L, q2, q3⟩ := hq
        refine ⟨by simp only [Verif.Cake.openBelows, hh, q1], index, ?_, Nat.le_refl _, L, q2, ?_⟩
        · simp [firstBad, hh, q1]
        · simp [thingsOfTiers, q3]
      · simp only [Prod.mk.injEq] at he
        obtain ⟨rfl, rfl⟩ := he
        have q1 : DonutForest.openTier cfg.quota (disk index) = .panic := hq
        simp only [Verif.Cake.openBelows, hh, q1]

/-! ## Appending -/

theorem inv_levelFiles {b tier : Nat} {base : List (Nat × Thing)} : ∀ (n : Nat) {es : List (Nat × Thing)} {t : Table},
    Inv b base es t → Inv b base es (levelFiles tier n t)
  | 0, _, _, h => h
  | n + 1, es, t, h => Inv.remove (inv_levelFiles n (h.add (.levelFile tier n)))

theorem inv_three {b : Nat} {base es : List (Nat × Thing)} {t : Table} (h : Inv b base es t) (x y z : Thing) :
    Inv b base ((t.next, x) :: (t.next + 1, y) :: (t.next + 2, z) :: es) (((t.add x).add y).add z) := by
  refine (((h.add x).add y).add z).of_perm (perm_of_count fun a => ?_)
  simp only [Table.add, List.count_cons, Nat.add_assoc, Nat.reduceAdd]
  omega

/-- What becomes of the chain: tiers that hold nothing, then the tier written to last, then what was there, with its first
tier closed. -/
def Shape (index : Nat) (d : Disk) (old hs : List Holding) : Prop :=
  ∃ (n : Nat) (new : Holding) (rest : List Holding), hs = (List.range' index n).map nothing ++ new :: rest ∧
    new.tier = index + n ∧ (d (index + n)).hashes ≠ none ∧
    new.entries.map Prod.snd = thingsOfTier (index + n) (d (index + n)) ∧
    rest.drop 1 = old.drop 1 ∧ chainEntries rest = chainEntries (old.drop 1)

theorem hashes_of_open {quota : Nat} {d : DonutForest.Folder} {x : Tier} (h : DonutForest.openTier quota d = .ok x) : d.hashes ≠ none := by
  intro hn
  unfold DonutForest.openTier at h
  rw [hn] at h
  repeat' split at h
  all_goals first | contradiction | cases h
  all_goals contradiction

theorem Shape.cons {index : Nat} {d : Disk} {old old' hs : List Holding} (h : Shape (index + 1) d old' hs)
    (h1 : old'.drop 1 = old.drop 1) : Shape index d old (nothing index :: hs) := by
  obtain ⟨n, new, rest, e1, e2, e6, e3, e4, e5⟩ := h
  have e : index + 1 + n = index + (n + 1) := by omega
  refine ⟨n + 1, new, rest, ?_, by omega, by rw [← e]; exact e6, ?_, by rw [e4, h1], by rw [e5, h1]⟩
  · rw [e1, List.range'_succ]; rfl
  · rw [e3, show index + 1 + n = index + (n + 1) by omega]

theorem setFolder_other {disk : Disk} {i j : Nat} {f : DonutForest.Folder} (h : i ≠ j) : setFolder disk j f i = disk i := by
  simp [setFolder, h]

theorem inv_writeBelow {b : Nat} {base : List (Nat × Thing)} {ent : List Entry → Nat → Nat} : ∀ (cfgs : List TierConfig) {disk d : Disk}
    {src : Below} {hsrc : Holding} {below bs : List Below} {hbelow hs : List Holding} {es : List (Nat × Thing)} {t t' : Table},
    Inv b base (hsrc.entries ++ (chainEntries hbelow ++ es)) t →
    writeBelow ent cfgs disk src hsrc below hbelow t = (.ok (d, bs, hs), t') →
    Verif.Cake.writeBelow ent cfgs disk src below = .ok (d, bs) ∧ Inv b base (chainEntries hs ++ es) t' ∧
    ∃ tail, hs = nothing src.index :: tail ∧ Shape (src.index + 1) d hbelow tail
  | [], _, _, _, _, _, _, _, _, _, _, _, _, he => by simp [writeBelow] at he
  | cfg :: cfgs, disk, d, src, hsrc, below, bs, hbelow, hs, es, t, t', hi, he => by
    unfold writeBelow at he
    unfold Verif.Cake.writeBelow
    have h1 := inv_three hi (.tierFile (src.index + 1) "Hashes.hsh") (.tierFile (src.index + 1) "DonutForestsJumpTables.bin")
      (.tierFile (src.index + 1) "DonutForestsInfo.bin")
    dsimp only at he
    generalize ((t.add (.tierFile (src.index + 1) "Hashes.hsh")).add (.tierFile (src.index + 1) "DonutForestsJumpTables.bin")).add
      (.tierFile (src.index + 1) "DonutForestsInfo.bin") = t1 at he h1
    generalize src.forests = sf at he ⊢
    generalize src.jumps = sj at he ⊢
    generalize src.hashes = sh at he ⊢
    rcases sf with _ | ⟨f, fs⟩
    · simp at he
    rcases sj with _ | j
    · simp at he
    rcases sh with _ | hs0
    · simp at he
    simp only at he ⊢
    rcases htk : takeOut src.cfg ⟨f :: fs, j, hs0⟩ (256 ^ src.cfg.pre) 0 with _ | source
    · rw [htk] at he; simp at he
    rw [htk] at he
    simp only at he ⊢
    rcases hbk : bake ent cfg.c cfg.pre f.1 source with _ | forest
    · rw [hbk] at he; simp at he
    rw [hbk] at he
    simp only at he ⊢
    rcases hfl : (disk src.index).hashes with _ | file
    · rw [hfl] at he; simp at he
    rw [hfl] at he
    simp only at he ⊢
    have h2 := Inv.remove ((inv_levelFiles (tier := src.index + 1) forest.levels.length h1).during (.tierFile src.index "Hashes.hsh"))
    generalize (((levelFiles (src.index + 1) forest.levels.length t1).during (.tierFile src.index "Hashes.hsh")).remove t.next) = t2
      at he h2
    rcases hc : closeThis hsrc t2 with ⟨rc, t3⟩
    rw [hc] at he
    rcases rc with _ | hsrc'
    · simp at he
    simp only at he
    have h3 : Inv b base (hsrc.entries ++ ((t.next + 1, .tierFile (src.index + 1) "DonutForestsJumpTables.bin") ::
        (t.next + 2, .tierFile (src.index + 1) "DonutForestsInfo.bin") :: (chainEntries hbelow ++ es))) t2 := by
      refine h2.of_perm (perm_of_count fun a => ?_)
      simp only [List.count_cons, List.count_append]
      omega
    obtain ⟨-, h4⟩ := inv_closeThis h3 hc
    rcases hn : closeNext hbelow t3 with ⟨rn, t4⟩
    rw [hn] at he
    rcases rn with _ | hb'
    · simp at he
    simp only at he
    have h5 : Inv b base (chainEntries hbelow ++ ((t.next + 1, .tierFile (src.index + 1) "DonutForestsJumpTables.bin") ::
        (t.next + 2, .tierFile (src.index + 1) "DonutForestsInfo.bin") :: es)) t3 := by
      refine h4.of_perm (perm_of_count fun a => ?_)
      simp only [List.count_cons, List.count_append]
      omega
    obtain ⟨n1, n2, h6⟩ := inv_closeNext h5 hn
    generalize hd2 : setFolder (setFolder disk (src.index + 1) (addForest (disk (src.index + 1)) forest file)) src.index noFolder = disk2
      at he ⊢
    rcases ho : openTier (src.index + 1) cfg.quota (disk2 (src.index + 1)) t4 with ⟨ro, t5⟩
    have hp := inv_openTier h6 ho
    rw [ho] at he
    rcases ro with ⟨x, hnew⟩ | _ | _
    · simp only at he
      obtain ⟨p1, p2, p3, p4⟩ := hp
      rw [p1]
      simp only
      have h7 : Inv b base (hnew.entries ++ (chainEntries hb' ++ es)) ((t5.remove (t.next + 1)).remove (t.next + 2)) := by
        refine Inv.remove (x := .tierFile (src.index + 1) "DonutForestsInfo.bin")
          (Inv.remove (x := .tierFile (src.index + 1) "DonutForestsJumpTables.bin") ?_)
        refine p3.of_perm (perm_of_count fun a => ?_)
        simp only [List.count_cons, List.count_append]
        omega
      by_cases hq : (openedBelow (src.index + 1) cfg x).forests.length = cfg.quota
      · rw [if_pos hq] at he ⊢
        rcases hw : writeBelow ent cfgs disk2 (openedBelow (src.index + 1) cfg x) hnew (Verif.Cake.closeNext below) hb'
          ((t5.remove (t.next + 1)).remove (t.next + 2)) with ⟨rw', t6⟩
        rw [hw] at he
        rcases rw' with ⟨d', bs', hs'⟩ | _ | _
        · simp only [Prod.mk.injEq, Outcome.ok.injEq] at he
          obtain ⟨⟨e1, e2, e3⟩, e4⟩ := he
          obtain ⟨i1, i2, tail, i3, i4⟩ := inv_writeBelow cfgs h7 hw
          rw [i1]
          subst e1 e2 e3 e4
          refine ⟨rfl, by simpa [chainEntries, nothing_entries] using i2, hs', rfl, ?_⟩
          rw [i3]
          exact i4.cons n1
        · simp at he
        · simp at he
      · rw [if_neg hq] at he ⊢
        simp only [Prod.mk.injEq, Outcome.ok.injEq] at he
        obtain ⟨⟨e1, e2, e3⟩, e4⟩ := he
        subst e1 e2 e3 e4
        refine ⟨rfl, ?_, _, rfl, 0, hnew, hb', rfl, p2, hashes_of_open p1, p4, n1, n2⟩
        simpa [chainEntries, nothing_entries] using h7
    · simp at he
    · simp at he

theorem inv_reopenTop {b top : Nat} {base es : List (Nat × Thing)} {t : Table} {x : Thing} (h : Inv b base ((top, x) :: es) t) :
    Inv b base ((t.next + 2, .topFile "Hashes.hsh") :: es) (reopenTop top t) := by
  unfold reopenTop
  have h1 := Inv.remove h
  have hn : (t.remove top).next = t.next := rfl
  generalize t.remove top = t1 at h1 hn
  dsimp only
  have h2 := Inv.remove (Inv.remove ((((h1.add (.topFile "Hashes.hsh")).add (.topFile "FirstPresentationIndex.bin"))).of_perm
    (perm_swap _ _ _)))
  have h3 := (h2.add (.topFile "Hashes.hsh")).during (.topFile "FirstPresentationIndex.bin")
  have hm : (((((t1.add (.topFile "Hashes.hsh")).add (.topFile "FirstPresentationIndex.bin")).remove t1.next).remove
    (t1.add (.topFile "Hashes.hsh")).next)).next = t.next + 2 := by rw [← hn]; rfl
  rw [hm] at h3
  exact h3

theorem inv_writeTop {b : Nat} {base : List (Nat × Thing)} {ent : List Entry → Nat → Nat} {s : Settings} {m : Memory} {k k' : Cake}
    {h h' : Held} {t t' : Table} (hi : Inv b base h.entries t) (he : writeTop ent s m k h t = (.ok (k', h'), t')) :
    Verif.Cake.writeTop ent s m k = .ok k' ∧ Inv b base h'.entries t' ∧ Shape 0 k'.disk h.chain h'.chain := by
  unfold writeTop at he
  unfold Verif.Cake.writeTop
  generalize s.tiers = tiers at he ⊢
  rcases tiers with _ | ⟨cfg, cfgs⟩
  · simp at he
  simp only at he ⊢
  have h1 := inv_three hi (.tierFile 0 "Hashes.hsh") (.tierFile 0 "DonutForestsJumpTables.bin")
    (.tierFile 0 "DonutForestsInfo.bin")
  generalize ((t.add (.tierFile 0 "Hashes.hsh")).add (.tierFile 0 "DonutForestsJumpTables.bin")).add
    (.tierFile 0 "DonutForestsInfo.bin") = t1 at he h1
  rcases hbk : bake ent cfg.c cfg.pre k.top.first
        [(k.top.cells.map (Cell.read m)).mapIdx fun i h => ⟨h, globalOfTop i k.top.first⟩] with _ | forest
  · rw [hbk] at he; simp at he
  rw [hbk] at he
  simp only at he ⊢
  have h2 := Inv.remove ((inv_levelFiles (tier := 0) forest.levels.length h1).during (.topFile "Hashes.hsh"))
  generalize (((levelFiles 0 forest.levels.length t1).during (.topFile "Hashes.hsh")).remove t.next) = t2 at he h2
  rcases hmk : makeEmpty k.top with _ | top
  · rw [hmk] at he; simp at he
  rw [hmk] at he
  simp only at he ⊢
  have h3 : Inv b base ((h.top, .topFile "Hashes.hsh") :: (chainEntries h.chain ++
      [(t.next + 1, .tierFile 0 "DonutForestsJumpTables.bin"), (t.next + 2, .tierFile 0 "DonutForestsInfo.bin")])) t2 := by
    refine h2.of_perm (perm_of_count fun a => ?_)
    simp only [Held.entries, List.count_cons, List.count_append, List.count_nil]
    omega
  have h4 := inv_reopenTop h3
  generalize reopenTop h.top t2 = t3 at he h4
  rcases hn : closeNext h.chain t3 with ⟨rn, t4⟩
  rw [hn] at he
  rcases rn with _ | hb'
  · simp at he
  simp only at he
  have h5 : Inv b base (chainEntries h.chain ++ [(t2.next + 2, .topFile "Hashes.hsh"),
      (t.next + 1, .tierFile 0 "DonutForestsJumpTables.bin"), (t.next + 2, .tierFile 0 "DonutForestsInfo.bin")]) t3 := by
    refine h4.of_perm (perm_of_count fun a => ?_)
    simp only [List.count_cons, List.count_append, List.count_nil]
    omega
  obtain ⟨n1, n2, h6⟩ := inv_closeNext h5 hn
  generalize hd2 : setFolder k.disk 0 (addForest (k.disk 0) forest k.top.file) = disk2 at he ⊢
  rcases ho : openTier 0 cfg.quota (disk2 0) t4 with ⟨ro, t5⟩
  have hp := inv_openTier h6 ho
  rw [ho] at he
  rcases ro with ⟨x, hnew⟩ | _ | _
  · simp only at he
    obtain ⟨p1, p2, p3, p4⟩ := hp
    rw [p1]
    simp only
    have h7 : Inv b base (hnew.entries ++ (chainEntries hb' ++ [(t2.next + 2, .topFile "Hashes.hsh")]))
        ((t5.remove (t.next + 1)).remove (t.next + 2)) := by
      refine Inv.remove (x := .tierFile 0 "DonutForestsInfo.bin") (Inv.remove (x := .tierFile 0 "DonutForestsJumpTables.bin") ?_)
      refine p3.of_perm (perm_of_count fun a => ?_)
      simp only [List.count_cons, List.count_append, List.count_nil]
      omega
    by_cases hq : (openedBelow 0 cfg x).forests.length = cfg.quota
    · rw [if_pos hq] at he ⊢
      rcases hw : writeBelow ent cfgs disk2 (openedBelow 0 cfg x) hnew (Verif.Cake.closeNext k.chain) hb'
        ((t5.remove (t.next + 1)).remove (t.next + 2)) with ⟨rw', t6⟩
      rw [hw] at he
      rcases rw' with ⟨d', bs', hs'⟩ | _ | _
      · simp only [Prod.mk.injEq, Outcome.ok.injEq] at he
        obtain ⟨⟨e1, e2⟩, e4⟩ := he
        obtain ⟨i1, i2, tail, i3, i4⟩ := inv_writeBelow cfgs h7 hw
        rw [i1]
        subst e1 e2 e4
        refine ⟨rfl, i2.of_perm ?_, ?_⟩
        · exact List.perm_append_singleton _ _
        · simp only
          rw [i3]
          exact i4.cons n1
      · simp at he
      · simp at he
    · rw [if_neg hq] at he ⊢
      simp only [Prod.mk.injEq, Outcome.ok.injEq] at he
      obtain ⟨⟨e1, e2⟩, e4⟩ := he
      subst e1 e2 e4
      refine ⟨rfl, h7.of_perm ?_, 0, hnew, hb', rfl, p2, hashes_of_open p1, p4, n1, n2⟩
      refine perm_of_count fun a => ?_
      simp only [Held.entries, chainEntries, List.flatMap_cons, List.count_cons, List.count_append, List.count_nil]
      omega
  · simp at he
  · simp at he

theorem inv_append {b : Nat} {base : List (Nat × Thing)} {ent : List Entry → Nat → Nat} {s : Settings} {m : Memory} {k k' : Cake}
    {h h' : Held} {a : Cell} {g : Int} {t t' : Table} (hi : Inv b base h.entries t)
    (he : append ent s m k h a t = (.ok (k', h', g), t')) :
    Verif.Cake.append ent s m k a = .ok (k', g) ∧ Inv b base h'.entries t' ∧
    ((k.top.cells.length + 1 ≠ s.cap ∧ h' = h ∧ t' = t) ∨
      (k.top.cells.length + 1 = s.cap ∧ Shape 0 k'.disk h.chain h'.chain)) := by
  unfold append at he
  unfold Verif.Cake.append
  dsimp only at he ⊢
  by_cases h1 : k.top.cells.length ≥ s.cap
  · rw [if_pos h1] at he; simp at he
  rw [if_neg h1] at he ⊢
  by_cases h2 : (a.read m).length ≠ 32
  · rw [if_pos h2] at he; simp at he
  rw [if_neg h2] at he ⊢
  by_cases h3 : k.top.cells.length + 1 = s.cap
  · rw [if_pos h3] at he ⊢
    generalize hk : ({ k with top := _ } : Cake) = k1 at he ⊢
    rcases hw : writeTop ent s m k1 h t with ⟨r, t1⟩
    rw [hw] at he
    rcases r with ⟨k2, h2'⟩ | _ | _
    · simp only [Prod.mk.injEq, Outcome.ok.injEq] at he
      obtain ⟨⟨e1, e2, e3⟩, e4⟩ := he
      subst e1 e2 e3 e4
      obtain ⟨i1, i2, i3⟩ := inv_writeTop hi hw
      rw [i1]
      exact ⟨rfl, i2, .inr ⟨h3, i3⟩⟩
    · simp at he
    · simp at he
  · rw [if_neg h3] at he ⊢
    simp only [Prod.mk.injEq, Outcome.ok.injEq] at he
    obtain ⟨⟨e1, e2, e3⟩, e4⟩ := he
    subst e1 e2 e3 e4
    exact ⟨rfl, hi, .inl ⟨h3, rfl, rfl⟩⟩

/-! ## Nil maps -/

theorem whole_mapLevels {tier : Nat} {d : DonutForest.Folder} : ∀ (k n : Nat) (found : Bool) {t t' : Table}
    {ms : List (Bytes × Option Nat)}, mapLevels tier d k n found t = (some ms, t') →
    (found = true ∨ hexLevel d n ≠ none) → ∀ i ∈ ms.map Prod.snd, i ≠ none
  | 0, n, found, t, t', ms, he, _ => by
    simp only [mapLevels, Prod.mk.injEq, Option.some.injEq] at he
    rw [← he.1]; simp
  | k + 1, n, found, t, t', ms, he, hf => by
    unfold mapLevels at he
    rcases hx : hexLevel d n with _ | _ | ⟨b, bs⟩
    · rw [hx] at he
      have hft : found = true := hf.resolve_right fun h => h hx
      simp only [hft, if_true, Prod.mk.injEq, Option.some.injEq] at he
      rw [← he.1]; simp
    · rw [hx] at he; simp at he
    · rw [hx] at he
      simp only at he
      rcases hm : mapLevels tier d k (n + 1) true (((t.add (.levelFile tier n)).add (.levelMap tier n)).remove t.next) with ⟨r, u⟩
      rw [hm] at he
      cases r with
      | none => simp at he
      | some ms' =>
        simp only [Prod.mk.injEq, Option.some.injEq] at he
        rw [← he.1]
        intro i hi
        rw [List.map_cons] at hi
        rcases List.mem_cons.1 hi with e | hi
        · subst e; simp
        · exact whole_mapLevels k (n + 1) true hm (.inl rfl) i hi

theorem gap_mapLevels {tier : Nat} {d : DonutForest.Folder} {k n : Nat} {t t' : Table}
    {ms : List (Bytes × Option Nat)} (he : mapLevels tier d (k + 1) n false t = (some ms, t')) (hn : hexLevel d n = none) :
    none ∈ ms.map Prod.snd := by
  unfold mapLevels at he
  rw [hn] at he
  simp only [Bool.false_eq_true, if_false] at he
  rcases hm : mapLevels tier d k (n + 1) false t with ⟨r, u⟩
  rw [hm] at he
  cases r with
  | none => simp at he
  | some ms' =>
    simp only [Prod.mk.injEq, Option.some.injEq] at he
    rw [← he.1]; simp

theorem openTier_whole {tier quota : Nat} {d : DonutForest.Folder} {t t' : Table} {x : Tier} {h : Holding}
    (he : openTier tier quota d t = (.ok (x, h), t')) : h.whole ↔ hexLevel d 0 ≠ none := by
  unfold openTier at he
  rcases hm : mapLevels tier d 65 0 false t with ⟨r, u⟩
  rw [hm] at he
  cases r with
  | none => simp at he
  | some ms =>
    have hmaps : h.maps = ms.map Prod.snd := by
      dsimp only at he
      repeat' split at he
      all_goals simp only [Prod.mk.injEq, Outcome.ok.injEq, reduceCtorEq, false_and] at he
      rw [← he.1.2]
    unfold Holding.whole
    rw [hmaps]
    constructor
    · intro hw hn
      exact hw none (gap_mapLevels hm hn) rfl
    · intro hn
      exact whole_mapLevels 65 0 false hm (.inr hn)

theorem openBelows_whole {disk : Disk} : ∀ (cfgs : List TierConfig) (index : Nat) {t t' : Table} {bs : List Below}
    {hs : List Holding}, openBelows disk index cfgs t = (.ok (bs, hs), t') →
    ((∀ h ∈ hs, h.whole) ↔ ∀ i, index ≤ i → i < index + cfgs.length → (disk i).hashes ≠ none → hexLevel (disk i) 0 ≠ none)
  | [], index, t, t', bs, hs, he => by
    simp only [openBelows, Prod.mk.injEq, Outcome.ok.injEq] at he
    rw [← he.1.2]
    constructor
    · intro _ i h1 h2; simp at h2; omega
    · intro _ h hm; cases hm
  | cfg :: cfgs, index, t, t', bs, hs, he => by
    have key : ∀ (h0 : Holding) (hs' : List Holding), (h0.whole ↔ ((disk index).hashes ≠ none → hexLevel (disk index) 0 ≠ none)) →
        ((∀ h ∈ hs', h.whole) ↔ ∀ i, index + 1 ≤ i → i < index + 1 + cfgs.length → (disk i).hashes ≠ none → hexLevel (disk i) 0 ≠ none) →
        ((∀ h ∈ h0 :: hs', h.whole) ↔ ∀ i, index ≤ i → i < index + (cfg :: cfgs).length → (disk i).hashes ≠ none → hexLevel (disk i) 0 ≠ none) := by
      intro h0 hs' k1 k2
      constructor
      · intro hw i h1 h2
        rw [List.length_cons] at h2
        rcases Nat.eq_or_lt_of_le h1 with e | h1
        · subst e; exact k1.1 (hw h0 List.mem_cons_self)
        · exact k2.1 (fun h hh => hw h (List.mem_cons_of_mem _ hh)) i h1 (by omega)
      · intro ha h hm
        rw [List.length_cons] at ha
        rcases List.mem_cons.1 hm with e | hm
        · subst e; exact k1.2 (ha index (Nat.le_refl _) (by omega))
        · exact k2.2 (fun i h1 h2 => ha i (by omega) (by omega)) h hm
    unfold openBelows at he
    rcases hh : (disk index).hashes with _ | hs0
    · rw [hh] at he
      simp only at he
      rcases ho : openBelows disk (index + 1) cfgs t with ⟨r, u⟩
      rw [ho] at he
      rcases r with ⟨bs', hs'⟩ | _ | _
      · simp only [Prod.mk.injEq, Outcome.ok.injEq] at he
        rw [← he.1.2]
        refine key _ _ ?_ (openBelows_whole cfgs (index + 1) ho)
        rw [hh]
        constructor
        · intro _ h; exact absurd rfl h
        · intro _ i hi; cases hi
      · simp at he
      · simp at he
    · rw [hh] at he
      simp only at he
      rcases ho : openTier index cfg.quota (disk index) t with ⟨r, u⟩
      rw [ho] at he
      rcases r with ⟨x, h0⟩ | _ | _
      · simp only at he
        rcases ho' : openBelows disk (index + 1) cfgs u with ⟨r, v⟩
        rw [ho'] at he
        rcases r with ⟨bs', hs'⟩ | _ | _
        · simp only [Prod.mk.injEq, Outcome.ok.injEq] at he
          rw [← he.1.2]
          refine key _ _ ?_ (openBelows_whole cfgs (index + 1) ho')
          rw [openTier_whole ho, hh]
          constructor
          · intro h _; exact h
          · intro h; exact h (by simp)
        · simp at he
        · simp at he
      · simp at he
      · simp at he

/-! ## A `Close` that returns an error -/

theorem left_closeMaps {b tier : Nat} {base : List (Nat × Thing)} : ∀ (ids : List (Option Nat)) (n : Nat) {es : List (Nat × Thing)}
    {t t' : Table} {r : Bool}, Inv b base (mapEntries tier n ids ++ es) t → closeMaps ids t = (r, t') →
    ∃ L, Inv b base (L ++ es) t'
  | [], _, _, t, t', r, h, he => by
    simp only [closeMaps, Prod.mk.injEq] at he
    rw [← he.2]; exact ⟨[], h⟩
  | none :: ids, n, es, t, t', r, h, he => by
    simp only [closeMaps, Prod.mk.injEq] at he
    rw [← he.2]; exact ⟨_, h⟩
  | some i :: ids, n, es, t, t', r, h, he => left_closeMaps ids (n + 1) (es := es) (t := t.remove i) (Inv.remove h) he

theorem left_closeThis {b : Nat} {base es : List (Nat × Thing)} {h : Holding} {r : Option Holding} {t t' : Table}
    (hi : Inv b base (h.entries ++ es) t) (he : closeThis h t = (r, t')) : ∃ L, Inv b base (L ++ es) t' := by
  cases r with
  | some h' => exact ⟨[], (inv_closeThis hi he).2⟩
  | none =>
    unfold closeThis at he
    rcases hc : closeMaps h.maps t with ⟨r, u⟩
    rw [hc] at he
    cases r with
    | true => simp at he
    | false =>
      simp only [Prod.mk.injEq, true_and] at he
      have h1 : Inv b base (mapEntries h.tier 0 h.maps ++ (field h.jump (.jumpMap h.tier) ++
          (field h.file (.tierFile h.tier "Hashes.hsh") ++ es))) t := by
        simpa [Holding.entries, List.append_assoc] using hi
      obtain ⟨L, hL⟩ := left_closeMaps h.maps 0 h1 hc
      rw [← he]
      refine ⟨L ++ (field h.jump (.jumpMap h.tier) ++ field h.file (.tierFile h.tier "Hashes.hsh")), ?_⟩
      simpa [List.append_assoc] using hL

theorem left_closeChain {b : Nat} {base : List (Nat × Thing)} : ∀ (hs : List Holding) {es : List (Nat × Thing)} {t t' : Table} {r : Bool},
    Inv b base (chainEntries hs ++ es) t → closeChain hs t = (r, t') → ∃ L, Inv b base (L ++ es) t'
  | [], es, t, t', r, hi, he => by
    simp only [closeChain, Prod.mk.injEq] at he
    rw [← he.2]; exact ⟨[], hi⟩
  | h :: hs, es, t, t', r, hi, he => by
    unfold closeChain at he
    rcases hc : closeChain hs t with ⟨r1, u⟩
    rw [hc] at he
    have h1 : Inv b base (chainEntries hs ++ (h.entries ++ es)) t := by
      refine hi.of_perm (perm_of_count fun a => ?_)
      simp only [chainEntries, List.flatMap_cons, List.count_append]
      omega
    cases r1 with
    | false =>
      simp only [Prod.mk.injEq] at he
      rw [← he.2]
      obtain ⟨L, hL⟩ := left_closeChain hs h1 hc
      exact ⟨L ++ h.entries, by rwa [List.append_assoc]⟩
    | true =>
      have h2 := inv_closeChain hs h1 hc
      simp only at he
      rcases hd : closeThis h u with ⟨r2, v⟩
      rw [hd] at he
      obtain ⟨L, hL⟩ := left_closeThis h2 hd
      cases r2 with
      | none =>
        simp only [Prod.mk.injEq] at he
        rw [← he.2]; exact ⟨L, hL⟩
      | some h' =>
        simp only [Prod.mk.injEq] at he
        rw [← he.2]; exact ⟨L, hL⟩

/-! ## When everything goes well -/

theorem writeBelow_disk {ent : List Entry → Nat → Nat} : ∀ (cfgs : List TierConfig) {disk d : Disk} {src : Below} {below bs : List Below},
    Verif.Cake.writeBelow ent cfgs disk src below = .ok (d, bs) →
    d src.index = noFolder ∧ ∀ i, i < src.index → d i = disk i
  | [], _, _, _, _, _, he => by simp [Verif.Cake.writeBelow] at he
  | cfg :: cfgs, disk, d, src, below, bs, he => by
    unfold Verif.Cake.writeBelow at he
    split at he
    · split at he
      · cases he
      · split at he
        · cases he
        · rename_i forest hb
          split at he
          · cases he
          · rename_i file hf
            dsimp only at he
            generalize hd2 : setFolder (setFolder disk (src.index + 1) (addForest (disk (src.index + 1)) forest file)) src.index noFolder
              = disk2 at he
            have q1 : disk2 src.index = noFolder := by rw [← hd2]; simp [setFolder]
            have q2 : ∀ i, i < src.index → disk2 i = disk i := by
              intro i hi
              rw [← hd2]
              unfold setFolder
              rw [if_neg (by omega), if_neg (by omega)]
            split at he
            · cases he
            · cases he
            · rename_i x ho
              split at he
              · split at he
                · rename_i d' bs' hw
                  injection he with he
                  injection he with e1 e2
                  obtain ⟨i1, i2⟩ := writeBelow_disk cfgs hw
                  subst e1
                  dsimp only [openedBelow] at i2
                  exact ⟨by rw [i2 _ (by omega), q1], fun i hi => by rw [i2 _ (by omega), q2 i hi]⟩
                · cases he
                · cases he
              · injection he with he
                injection he with e1 e2
                subst e1
                exact ⟨q1, q2⟩
    · cases he

theorem openTier_follows {b tier quota : Nat} {base es : List (Nat × Thing)} {d : DonutForest.Folder} {t : Table} {x : Tier}
    (hi : Inv b base es t) (ho : DonutForest.openTier quota d = .ok x) : ∃ h t', openTier tier quota d t = (.ok (x, h), t') := by
  rcases he : openTier tier quota d t with ⟨r, t'⟩
  have hp := inv_openTier hi he
  rcases r with ⟨y, h⟩ | _ | _
  · have := hp.1
    rw [ho] at this
    injection this with this
    subst this
    exact ⟨h, t', rfl⟩
  · have := hp.1; rw [ho] at this; cases this
  · have : DonutForest.openTier quota d = .panic := hp
    rw [ho] at this; cases this

theorem openBelows_follows {b : Nat} {base es : List (Nat × Thing)} {disk : Disk} {cfgs : List TierConfig} {index : Nat} {t : Table}
    {bs : List Below} (hi : Inv b base es t) (ho : Verif.Cake.openBelows disk index cfgs = .ok bs) :
    ∃ hs t', openBelows disk index cfgs t = (.ok (bs, hs), t') := by
  rcases he : openBelows disk index cfgs t with ⟨r, t'⟩
  have hp := inv_openBelows cfgs index hi he
  rcases r with ⟨y, h⟩ | _ | _
  · have := hp.1
    rw [ho] at this
    injection this with this
    subst this
    exact ⟨h, t', rfl⟩
  · have := hp.1; rw [ho] at this; cases this
  · have : Verif.Cake.openBelows disk index cfgs = .panic := hp
    rw [ho] at this; cases this

theorem closeNext_ok {hs : List Holding} (hw : ∀ h ∈ hs, h.whole) (t : Table) :
    ∃ hs' t', closeNext hs t = (some hs', t') ∧ ∀ h ∈ hs', h.whole := by
  cases hs with
  | nil => exact ⟨[], t, rfl, hw⟩
  | cons h hs =>
    obtain ⟨t', ht⟩ := closeThis_ok (hw h List.mem_cons_self) t
    refine ⟨nothing h.tier :: hs, t', by simp only [closeNext, ht], ?_⟩
    intro x hx
    rcases List.mem_cons.1 hx with e | hx
    · subst e; intro i hi; cases hi
    · exact hw x (List.mem_cons_of_mem _ hx)

/-- An append that succeeds, of a cake whose tiers can be closed, when the first tier below does not become full. -/
theorem append_follows {b : Nat} {base : List (Nat × Thing)} {ent : List Entry → Nat → Nat} {s : Settings} {m : Memory} {k k' : Cake}
    {h : Held} {a : Cell} {g : Int} {t : Table} (hi : Inv b base h.entries t) (hw : ∀ x ∈ h.chain, x.whole)
    (he : Verif.Cake.append ent s m k a = .ok (k', g))
    (hl : k.top.cells.length + 1 = s.cap → hexLevel (k'.disk 0) 0 ≠ none) :
    ∃ h' t', append ent s m k h a t = (.ok (k', h', g), t') ∧ ∀ x ∈ h'.chain, x.whole := by
  unfold Verif.Cake.append at he
  unfold append
  dsimp only at he ⊢
  by_cases h1 : k.top.cells.length ≥ s.cap
  · rw [if_pos h1] at he; cases he
  rw [if_neg h1] at he ⊢
  by_cases h2 : (a.read m).length ≠ 32
  · rw [if_pos h2] at he; cases he
  rw [if_neg h2] at he ⊢
  by_cases h3 : k.top.cells.length + 1 = s.cap
  · rw [if_pos h3] at he ⊢
    generalize hk : ({ k with top := _ } : Cake) = k1 at he ⊢
    have hl' := hl h3
    suffices hwt : ∀ k2, Verif.Cake.writeTop ent s m k1 = .ok k2 → hexLevel (k2.disk 0) 0 ≠ none →
        ∃ h' t', writeTop ent s m k1 h t = (.ok (k2, h'), t') ∧ ∀ x ∈ h'.chain, x.whole by
      split at he
      · rename_i k2 hw2
        injection he with he
        injection he with e1 e2
        subst e1 e2
        obtain ⟨h', t', q1, q2⟩ := hwt k2 hw2 hl'
        rw [q1]
        exact ⟨h', t', rfl, q2⟩
      · cases he
      · cases he
    clear he hl hl' h1 h2 h3 hk
    intro k2 he hl'
    unfold Verif.Cake.writeTop at he
    unfold writeTop
    generalize s.tiers = tiers at he ⊢
    rcases tiers with _ | ⟨cfg, cfgs⟩
    · cases he
    simp only at he ⊢
    have h1 := inv_three hi (.tierFile 0 "Hashes.hsh") (.tierFile 0 "DonutForestsJumpTables.bin")
      (.tierFile 0 "DonutForestsInfo.bin")
    generalize ((t.add (.tierFile 0 "Hashes.hsh")).add (.tierFile 0 "DonutForestsJumpTables.bin")).add
      (.tierFile 0 "DonutForestsInfo.bin") = t1 at h1 ⊢
    rcases hbk : bake ent cfg.c cfg.pre k1.top.first
          [(k1.top.cells.map (Cell.read m)).mapIdx fun i h => ⟨h, globalOfTop i k1.top.first⟩] with _ | forest
    · rw [hbk] at he; cases he
    rw [hbk] at he
    simp only at he ⊢
    have h2 := Inv.remove ((inv_levelFiles (tier := 0) forest.levels.length h1).during (.topFile "Hashes.hsh"))
    generalize (((levelFiles 0 forest.levels.length t1).during (.topFile "Hashes.hsh")).remove t.next) = t2 at h2 ⊢
    rcases hmk : makeEmpty k1.top with _ | top
    · rw [hmk] at he; cases he
    rw [hmk] at he
    simp only at he ⊢
    have h3 : Inv b base ((h.top, .topFile "Hashes.hsh") :: (chainEntries h.chain ++
        [(t.next + 1, .tierFile 0 "DonutForestsJumpTables.bin"), (t.next + 2, .tierFile 0 "DonutForestsInfo.bin")])) t2 := by
      refine h2.of_perm (perm_of_count fun a => ?_)
      simp only [Held.entries, List.count_cons, List.count_append, List.count_nil]
      omega
    have h4 := inv_reopenTop h3
    generalize reopenTop h.top t2 = t3 at h4 ⊢
    obtain ⟨hb', t4, hn, hw'⟩ := closeNext_ok hw t3
    rw [hn]
    simp only
    have h5 : Inv b base (chainEntries h.chain ++ [(t2.next + 2, .topFile "Hashes.hsh"),
        (t.next + 1, .tierFile 0 "DonutForestsJumpTables.bin"), (t.next + 2, .tierFile 0 "DonutForestsInfo.bin")]) t3 := by
      refine h4.of_perm (perm_of_count fun a => ?_)
      simp only [List.count_cons, List.count_append, List.count_nil]
      omega
    obtain ⟨-, -, h6⟩ := inv_closeNext h5 hn
    generalize hd2 : setFolder k1.disk 0 (addForest (k1.disk 0) forest k1.top.file) = disk2 at he ⊢
    rcases ho : DonutForest.openTier cfg.quota (disk2 0) with x | _ | _
    · rw [ho] at he
      simp only at he
      obtain ⟨hnew, t5, ho'⟩ := openTier_follows (tier := 0) h6 ho
      rw [ho']
      simp only
      by_cases hq : (openedBelow 0 cfg x).forests.length = cfg.quota
      · rw [if_pos hq] at he
        exfalso
        split at he
        · rename_i d bs hwb
          injection he with he
          apply hl'
          have := (writeBelow_disk cfgs hwb).1
          rw [← he]
          dsimp only [openedBelow] at this ⊢
          rw [this]
          rfl
        · cases he
        · cases he
      · rw [if_neg hq] at he ⊢
        injection he with he
        subst he
        refine ⟨_, _, rfl, ?_⟩
        intro y hy
        rcases List.mem_cons.1 hy with e | hy
        · subst e; exact (openTier_whole ho').2 hl'
        · exact hw' y hy
    · rw [ho] at he; cases he
    · rw [ho] at he; cases he
  · rw [if_neg h3] at he ⊢
    injection he with he
    injection he with e1 e2
    subst e1 e2
    exact ⟨h, t, rfl, hw⟩

end Verif.CakeHandles
