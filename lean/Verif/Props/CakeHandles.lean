import Verif.Props.Cake
import Verif.Lemmas.CakeHandles

/-!
# What a cake leaves open
-/

namespace Verif.CakeHandles

open Verif.ShallowTree Verif.Chunk Verif.SingleTree Verif.DonutForest
open Verif.TierTop hiding Op appended demoOps
open Verif.Cake (TierConfig Settings Below Disk Cake Files emptyBelow openedBelow setFolder takeOut closedFiles SettingsOK History
  appended Reached demoSettings demoSettings_ok demoH demoOps demoOps_ok demoOps_reopen_ok demo_spread spread_of_distinct)

/-! ## Specification -/

/-- A table as the operating system keeps it: the numbers given out so far are below the next one. -/
def Sound (t : Table) : Prop := ∀ x ∈ t.held, x.1 < t.next

/-- The kinds of things held. -/
def kinds (t : Table) : List Thing := t.held.map Prod.snd

/-- What is done with an open cake: hashes are appended, and it is closed and opened again.  An error ends it. -/
def session (ent : List Entry → Nat → Nat) (s : Settings) : Cake → Held → List Cake.Op → Table → Outcome (Cake × Held × List Int) × Table
  | k, h, [], t => (.ok (k, h, []), t)
  | k, h, .reopen :: ops, t =>
    match closeCake h t with
    | (false, t') => (.error, t')
    | (true, t') =>
      match openCake s (closedFiles k) t' with
      | (.ok (k', h'), t'') => session ent s k' h' ops t''
      | (.error, t'') => (.error, t'')
      | (.panic, t'') => (.panic, t'')
  | k, h, .append x :: ops, t =>
    match append ent s (fun _ => []) k h (.own x) t with
    | (.ok (k', h', g), t') =>
      match session ent s k' h' ops t' with
      | (.ok (k'', h'', gs), t'') => (.ok (k'', h'', g :: gs), t'')
      | (.error, t'') => (.error, t'')
      | (.panic, t'') => (.panic, t'')
    | (.error, t') => (.error, t')
    | (.panic, t') => (.panic, t')

/-- A new cake, as it is on disk. -/
def newFiles : Files := ⟨some [], some 0, fun _ => noFolder⟩

/-- A cake has been opened and used, and all of it succeeded. -/
def Used (ent : List Entry → Nat → Nat) (s : Settings) (f : Files) (ops : List Cake.Op) (t : Table) (k : Cake) (h : Held) (t' : Table) : Prop :=
  ∃ k0 h0 t0 gs, openCake s f t = (.ok (k0, h0), t0) ∧ session ent s k0 h0 ops t0 = (.ok (k, h, gs), t')

/-! ## Opening -/

theorem inv_openCake {b : Nat} {base es : List (Nat × Thing)} {s : Settings} {f : Files} {t t' : Table} {k : Cake} {h : Held}
    (hi : Inv b base es t) (he : openCake s f t = (.ok (k, h), t')) :
    f.openCake s = .ok k ∧ Inv b base (h.entries ++ es) t' ∧
    h.entries.map Prod.snd = .topFile "Hashes.hsh" :: thingsOfTiers f.tiers 0 s.tiers.length ∧
    h.chain.map Holding.tier = List.range' 0 s.tiers.length ∧ h.top = t.next ∧
    ((∀ x ∈ h.chain, x.whole) ↔ ∀ i, i < s.tiers.length → (f.tiers i).hashes ≠ none → hexLevel (f.tiers i) 0 ≠ none) := by
  unfold openCake at he
  unfold Files.openCake Verif.Cake.openCake
  rcases hh : f.hashes with _ | file
  · rw [hh] at he; simp at he
  rcases hf : f.first with _ | first
  · rw [hh, hf] at he; simp at he
  rw [hh, hf] at he
  simp only at he ⊢
  rcases ho : openTop file first with _ | top
  · rw [ho] at he; simp at he
  rw [ho] at he
  simp only at he ⊢
  have h1 := (hi.add (.topFile "Hashes.hsh")).during (.topFile "FirstPresentationIndex.bin")
  rcases hb : openBelows f.tiers 0 s.tiers ((t.add (.topFile "Hashes.hsh")).during (.topFile "FirstPresentationIndex.bin"))
    with ⟨r, t1⟩
  have h2 := inv_openBelows s.tiers 0 h1 hb
  rw [hb] at he
  rcases r with ⟨bs, hs⟩ | _ | _
  · simp only [Prod.mk.injEq, Outcome.ok.injEq] at he
    obtain ⟨⟨e1, e2⟩, e3⟩ := he
    subst e1 e2 e3
    obtain ⟨i1, i2, i3, i4⟩ := h2
    rw [i1]
    refine ⟨rfl, i2.of_perm (perm_of_count fun a => ?_), ?_, i4, rfl, ?_⟩
    · simp only [Held.entries, List.count_cons, List.count_append]
      omega
    · simp only [Held.entries, List.map_cons, i3]
    · simpa using openBelows_whole s.tiers 0 hb
  · simp at he
  · simp at he

/-- What is so when opening a cake failed. -/
theorem inv_openCake_error {b : Nat} {base es : List (Nat × Thing)} {s : Settings} {f : Files} {t t' : Table}
    (hi : Inv b base es t) (he : openCake s f t = (.error, t')) :
    (f.hashes = none ∧ t' = t) ∨
    (f.hashes ≠ none ∧ f.first = none ∧ Inv b base ((t.next, .topFile "Hashes.hsh") :: es) t') ∨
    (f.hashes ≠ none ∧ f.first ≠ none ∧ ∃ n L, firstBad f.tiers 0 s.tiers = some n ∧
      Inv b base (L ++ (t.next, .topFile "Hashes.hsh") :: es) t' ∧
      L.map Prod.snd = thingsOfTiers f.tiers 0 n ++ leftOfTier n (f.tiers n)) := by
  unfold openCake at he
  rcases hh : f.hashes with _ | file
  · rw [hh] at he
    simp only [Prod.mk.injEq, true_and] at he
    exact .inl ⟨rfl, he.symm⟩
  rcases hf : f.first with _ | first
  · rw [hh, hf] at he
    simp only [Prod.mk.injEq, true_and] at he
    refine .inr (.inl ⟨by simp, rfl, ?_⟩)
    rw [← he]
    exact hi.add _
  rw [hh, hf] at he
  simp only at he
  rcases ho : openTop file first with _ | top
  · rw [ho] at he; simp at he
  rw [ho] at he
  simp only at he
  have h1 := (hi.add (.topFile "Hashes.hsh")).during (.topFile "FirstPresentationIndex.bin")
  rcases hb : openBelows f.tiers 0 s.tiers ((t.add (.topFile "Hashes.hsh")).during (.topFile "FirstPresentationIndex.bin"))
    with ⟨r, t1⟩
  have h2 := inv_openBelows s.tiers 0 h1 hb
  rw [hb] at he
  rcases r with ⟨bs, hs⟩ | _ | _
  · simp at he
  · simp only [Prod.mk.injEq, true_and] at he
    subst he
    obtain ⟨-, n, i1, -, L, i2, i3⟩ := h2
    exact .inr (.inr ⟨by simp, by simp, n, L, i1, i2, by simpa using i3⟩)
  · simp at he

/-- **C115.** A cake that has been opened holds, besides what was held before, the file of its top tier and, for each tier
there is on disk, the maps of its levels, the map of its jump table and the file of its hashes: no less and no more. -/
theorem what_an_open_cake_holds {s : Settings} {f : Files} {t t' : Table} {k : Cake} {h : Held} (ht : Sound t)
    (he : openCake s f t = (.ok (k, h), t')) :
    f.openCake s = .ok k ∧ (kinds t').Perm (kinds t ++ .topFile "Hashes.hsh" :: thingsOfTiers f.tiers 0 s.tiers.length) := by
  obtain ⟨i1, i2, i3, -⟩ := inv_openCake (Inv.start t ht) he
  refine ⟨i1, ?_⟩
  have := i2.perm.map Prod.snd
  rwa [List.append_nil, List.map_append, i3] at this

/-! ## Using and closing -/

/-- What a session keeps: the table holds what it held before, and what the cake holds. -/
theorem inv_session {b : Nat} {base : List (Nat × Thing)} {ent : List Entry → Nat → Nat} {s : Settings} : ∀ (ops : List Cake.Op)
    {k k' : Cake} {h h' : Held} {gs : List Int} {t t' : Table}, Inv b base h.entries t →
    session ent s k h ops t = (.ok (k', h', gs), t') →
    Verif.Cake.run ent s k ops = .ok (k', gs) ∧ Inv b base h'.entries t'
  | [], k, k', h, h', gs, t, t', hi, he => by
    simp only [session, Prod.mk.injEq, Outcome.ok.injEq] at he
    obtain ⟨⟨e1, e2, e3⟩, e4⟩ := he
    subst e1 e2 e3 e4
    exact ⟨rfl, hi⟩
  | .reopen :: ops, k, k', h, h', gs, t, t', hi, he => by
    simp only [session] at he
    rcases hc : closeCake h t with ⟨r, t1⟩
    rw [hc] at he
    cases r with
    | false => simp at he
    | true =>
      simp only at he
      unfold closeCake at hc
      rcases hd : closeChain h.chain t with ⟨r, t2⟩
      rw [hd] at hc
      cases r with
      | false => simp at hc
      | true =>
        simp only [Prod.mk.injEq, true_and] at hc
        subst hc
        have h1 : Inv b base (chainEntries h.chain ++ [(h.top, .topFile "Hashes.hsh")]) t :=
          hi.of_perm (List.perm_append_singleton _ _).symm
        have h2 := Inv.remove (inv_closeChain h.chain h1 hd)
        rcases ho : openCake s (closedFiles k) (t2.remove h.top) with ⟨r, t3⟩
        rw [ho] at he
        rcases r with ⟨k1, h1'⟩ | _ | _
        · simp only at he
          obtain ⟨i1, i2, -⟩ := inv_openCake h2 ho
          rw [List.append_nil] at i2
          obtain ⟨j1, j2⟩ := inv_session ops i2 he
          refine ⟨?_, j2⟩
          unfold Verif.Cake.run Verif.Cake.reopen
          have : Verif.Cake.openCake s k.top.file k.top.first k.disk = .ok k1 := i1
          rw [this]
          exact j1
        · simp at he
        · simp at he
  | .append x :: ops, k, k', h, h', gs, t, t', hi, he => by
    simp only [session] at he
    rcases ha : append ent s (fun _ => []) k h (.own x) t with ⟨r, t1⟩
    rw [ha] at he
    rcases r with ⟨k1, h1, g⟩ | _ | _
    · simp only at he
      obtain ⟨i1, i2, -⟩ := inv_append hi ha
      rcases hs : session ent s k1 h1 ops t1 with ⟨r, t2⟩
      rw [hs] at he
      rcases r with ⟨k2, h2, gs2⟩ | _ | _
      · simp only [Prod.mk.injEq, Outcome.ok.injEq] at he
        obtain ⟨⟨e1, e2, e3⟩, e4⟩ := he
        subst e1 e2 e3 e4
        obtain ⟨j1, j2⟩ := inv_session ops i2 hs
        refine ⟨?_, j2⟩
        simp only [Verif.Cake.run, i1, j1]
      · simp at he
      · simp at he
    · simp at he
    · simp at he

theorem inv_used {ent : List Entry → Nat → Nat} {s : Settings} {f : Files} {ops : List Cake.Op} {t t' : Table} {k : Cake} {h : Held}
    (ht : Sound t) (hu : Used ent s f ops t k h t') : Inv t.next t.held h.entries t' := by
  obtain ⟨k0, h0, t0, gs, e1, e2⟩ := hu
  obtain ⟨-, i2, -⟩ := inv_openCake (Inv.start t ht) e1
  rw [List.append_nil] at i2
  exact (inv_session ops i2 e2).2

theorem inv_closeCake {b : Nat} {base : List (Nat × Thing)} {h : Held} {t t' : Table} (hi : Inv b base h.entries t)
    (he : closeCake h t = (true, t')) : Inv b base [] t' := by
  unfold closeCake at he
  rcases hd : closeChain h.chain t with ⟨r, t2⟩
  rw [hd] at he
  cases r with
  | false => simp at he
  | true =>
    simp only [Prod.mk.injEq, true_and] at he
    subst he
    exact Inv.remove (inv_closeChain h.chain (hi.of_perm (List.perm_append_singleton _ _).symm) hd)

/-- **C115: partial.** However a cake has been used, if nothing returned an error and closing it does not either, then no
file and no map is left: the process holds exactly what it held before. Missing: errors (`failed_open_leaves_open`,
`failed_close_leaves_open`). -/
theorem a_closed_cake_holds_nothing_partial {ent : List Entry → Nat → Nat} {s : Settings} {f : Files} {ops : List Cake.Op} {t t' t'' : Table}
    {k : Cake} {h : Held} (ht : Sound t) (hu : Used ent s f ops t k h t') (hc : closeCake h t' = (true, t'')) : t''.held = t.held :=
  (inv_closeCake (inv_used ht hu) hc).empty

/-- **C115.** Closing a cake that has just been opened returns no error exactly if every tier there is has a file for
level 0. -/
theorem close_succeeds_iff {s : Settings} {f : Files} {t t' : Table} {k : Cake} {h : Held} (ht : Sound t)
    (he : openCake s f t = (.ok (k, h), t')) :
    (closeCake h t').1 = true ↔ ∀ i, i < s.tiers.length → (f.tiers i).hashes ≠ none → (f.tiers i).level 0 ≠ none := by
  obtain ⟨-, -, -, -, -, hw⟩ := inv_openCake (Inv.start t ht) he
  have hx : ∀ i, hexLevel (f.tiers i) 0 = (f.tiers i).level 0 := fun _ => rfl
  simp only [hx] at hw
  rw [← hw]
  unfold closeCake
  rcases hd : closeChain h.chain t' with ⟨r, t2⟩
  constructor
  · intro hr
    cases r with
    | false => cases hr
    | true => exact closeChain_true _ hd
  · intro hr
    obtain ⟨t3, h3⟩ := closeChain_ok h.chain t' hr
    rw [hd] at h3
    injection h3 with h3 _
    subst h3
    rfl

/-- **C115: refuted.** If closing a cake returns an error, its top file stays open. -/
theorem failed_close_leaves_open {ent : List Entry → Nat → Nat} {s : Settings} {f : Files} {ops : List Cake.Op} {t t' t'' : Table}
    {k : Cake} {h : Held} (ht : Sound t) (hu : Used ent s f ops t k h t') (hc : closeCake h t' = (false, t'')) :
    (h.top, .topFile "Hashes.hsh") ∈ t''.held ∧ t.next ≤ h.top ∧ ∀ x ∈ t.held, x ∈ t''.held := by
  have hi := inv_used ht hu
  unfold closeCake at hc
  rcases hd : closeChain h.chain t' with ⟨r, t2⟩
  rw [hd] at hc
  cases r with
  | true => simp at hc
  | false =>
    simp only [Prod.mk.injEq, true_and] at hc
    subst hc
    obtain ⟨L, hL⟩ := left_closeChain h.chain (hi.of_perm (List.perm_append_singleton _ _).symm) hd
    refine ⟨hL.perm.mem_iff.2 (by simp), (hi.range (h.top, .topFile "Hashes.hsh") (by simp [Held.entries])).1, ?_⟩
    intro x hx
    exact hL.perm.mem_iff.2 (by simp [hx])

/-! ## Failing to open -/

/-- **C115: refuted.** If a cake is there and opening it fails, its top file stays open, and nobody has it to close it. -/
theorem failed_open_leaves_open {s : Settings} {f : Files} {t t' : Table} (ht : Sound t) (hf : f.exist = true)
    (he : openCake s f t = (.error, t')) :
    (t.next, .topFile "Hashes.hsh") ∈ t'.held ∧ (∀ x ∈ t.held, x ∈ t'.held) ∧ Sound t' ∧ t.held.length < t'.held.length := by
  have hn : f.hashes ≠ none := by
    intro h; unfold Files.exist at hf; rw [h] at hf; cases hf
  have key : ∀ L, Inv t.next t.held (L ++ [(t.next, .topFile "Hashes.hsh")]) t' →
      (t.next, .topFile "Hashes.hsh") ∈ t'.held ∧ (∀ x ∈ t.held, x ∈ t'.held) ∧ Sound t' ∧ t.held.length < t'.held.length := by
    intro L hL
    refine ⟨hL.perm.mem_iff.2 (by simp), fun x hx => hL.perm.mem_iff.2 (by simp [hx]), ?_, ?_⟩
    · intro x hx
      rcases List.mem_append.1 (hL.perm.mem_iff.1 hx) with h | h
      · have := ht x h; have := hL.lo; omega
      · exact (hL.range x h).2
    · have := hL.perm.length_eq
      simp only [List.length_append, List.length_singleton] at this
      omega
  rcases inv_openCake_error (Inv.start t ht) he with ⟨h1, -⟩ | ⟨-, -, h1⟩ | ⟨-, -, n, L, -, h1, -⟩
  · exact absurd h1 hn
  · exact key [] h1
  · exact key L h1

/-- **C115.** What a failed opening leaves: nothing if there is no cake; its top file if the number of the first hash is
missing; otherwise the top file and everything of the tiers before the first one which does not open, and of that one the
maps of the levels before an empty level file. -/
theorem what_a_failed_open_leaves {s : Settings} {f : Files} {t t' : Table} (ht : Sound t) (he : openCake s f t = (.error, t')) :
    (f.hashes = none ∧ t'.held = t.held) ∨
    (f.hashes ≠ none ∧ f.first = none ∧ (kinds t').Perm (kinds t ++ [.topFile "Hashes.hsh"])) ∨
    ∃ n, firstBad f.tiers 0 s.tiers = some n ∧
      (kinds t').Perm (kinds t ++ (thingsOfTiers f.tiers 0 n ++ leftOfTier n (f.tiers n) ++ [.topFile "Hashes.hsh"])) := by
  rcases inv_openCake_error (Inv.start t ht) he with ⟨h1, h2⟩ | ⟨h1, h2, h3⟩ | ⟨-, -, n, L, h1, h2, h3⟩
  · exact .inl ⟨h1, by rw [h2]⟩
  · exact .inr (.inl ⟨h1, h2, by simpa [kinds] using h3.perm.map Prod.snd⟩)
  · refine .inr (.inr ⟨n, h1, ?_⟩)
    have := h2.perm.map Prod.snd
    simp only [List.map_append, h3, List.map_cons, List.map_nil] at this
    exact this

/-- Opening is tried `n` times. -/
def tries (s : Settings) (f : Files) : Nat → Table → Table
  | 0, t => t
  | n + 1, t => tries s f n (openCake s f t).2

/-- **C115: refuted.** Whether a cake opens does not depend on what is held; so a program that tries again and again to
open one that does not loses a file each time. -/
theorem each_failed_open_loses_a_file {s : Settings} {f : Files} (hf : f.exist = true) (hbad : f.openCake s = .error) :
    ∀ (n : Nat) {t : Table}, Sound t → t.held.length + n ≤ (tries s f n t).held.length
  | 0, t, _ => Nat.le_refl _
  | n + 1, t, ht => by
    rcases he : openCake s f t with ⟨r, t'⟩
    have hr : r = .error := by
      rcases r with ⟨k, h⟩ | _ | _
      · have := (inv_openCake (Inv.start t ht) he).1
        rw [hbad] at this; cases this
      · rfl
      · exfalso
        unfold openCake at he
        unfold Files.openCake Verif.Cake.openCake at hbad
        rcases hh : f.hashes with _ | file
        · rw [hh] at he; simp at he
        rcases h1 : f.first with _ | first
        · rw [hh, h1] at he; simp at he
        rw [hh, h1] at he hbad
        simp only at he hbad
        rcases ho : openTop file first with _ | top
        · rw [ho] at hbad; simp at hbad
        rw [ho] at he hbad
        simp only at he hbad
        rcases hb : openBelows f.tiers 0 s.tiers
          ((t.add (.topFile "Hashes.hsh")).during (.topFile "FirstPresentationIndex.bin")) with ⟨r, t1⟩
        have h2 := inv_openBelows s.tiers 0
          (((Inv.start t ht).add (.topFile "Hashes.hsh")).during (.topFile "FirstPresentationIndex.bin")) hb
        rw [hb] at he
        rcases r with ⟨bs, hs⟩ | _ | _
        · simp at he
        · simp at he
        · have : Verif.Cake.openBelows f.tiers 0 s.tiers = .panic := h2
          rw [this] at hbad
          cases hbad
    subst hr
    obtain ⟨-, -, h3, h4⟩ := failed_open_leaves_open ht hf he
    have := each_failed_open_loses_a_file hf hbad n h3
    simp only [tries, he]
    omega

/-! ## Cakes as they are used -/

theorem level0_of_inv {ent : List Entry → Nat → Nat} (he : EntropyOK ent) {s : Settings} {t0 : TierConfig} (hs : SettingsOK s t0) {k : Cake}
    {bs : List (List Bytes)} {cur : List Bytes} {dead : Bool} (hi : Cake.Inv ent s t0 k bs cur dead) (hbs : bs ≠ []) :
    hexLevel (k.disk 0) 0 ≠ none := by
  have hb := Cake.Inv.batchesOK (ent := ent) hs hbs hi.batches hi.sizes (Nat.le_of_lt hi.count)
  obtain ⟨fs, hg, e1⟩ := bakeAll_ok he hs.sane bs 0 noFolder hb.batch hb.start hb.total
  rw [hi.folder] at e1
  injection e1 with e1
  have hlen := hg.length
  obtain ⟨h1, -⟩ := addAll_empty t0.c (fs := fs.zip bs) (by
      intro h
      have := congrArg List.length h
      rw [List.length_zip, hlen] at this
      exact hbs (List.length_eq_zero_iff.1 (by simpa using this)))
    (fun x hx => (hg.neat _ (List.of_mem_zip (a := x.1) (b := x.2) hx).1).1)
  rw [← e1] at h1
  have : hexLevel (k.disk 0) 0 = (k.disk 0).level 0 := rfl
  rw [this, h1]
  match bs, fs, hbs, hlen, hg with
  | b :: bs, f :: fs, _, _, hg =>
    have hne := (hg.neat f (by simp)).1.nonempty
    have hpos : 0 < f.levels.length := by
      cases hl : f.levels with
      | nil => exact absurd hl hne
      | cons a l => simp
    unfold levelFile chunks
    rw [if_pos (by simp [asChunk, hpos])]
    simp
  | [], _, h, _, _ => exact absurd rfl h
  | _ :: _, [], _, h, _ => simp at h

/-- A history that succeeds does so whatever is held, and leaves every tier so that it can be closed. -/
theorem session_follows {ent : List Entry → Nat → Nat} (he : EntropyOK ent) {s : Settings} {t0 : TierConfig} (hs : SettingsOK s t0)
    {b : Nat} {base : List (Nat × Thing)} : ∀ (ops : List Cake.Op) (k : Cake) (pre : List Bytes) (o : Nat) {h : Held} {t : Table}
    {r : Cake × List Int}, Reached ent s t0 k pre o → (∀ h ∈ appended ops, h.length = 32) → (pre ++ appended ops).Nodup →
    (pre ++ appended ops).length < t0.quota * s.cap → Cake.run ent s k ops = .ok r →
    Inv b base h.entries t → (∀ x ∈ h.chain, x.whole) →
    ∃ h' t', session ent s k h ops t = (.ok (r.1, h', r.2), t') ∧ ∀ x ∈ h'.chain, x.whole
  | [], k, pre, o, h, t, r, _, _, _, _, hrun, hi, hw => by
    injection hrun with hrun
    subst hrun
    exact ⟨h, t, rfl, hw⟩
  | .reopen :: ops, k, pre, o, h, t, r, hr, hlen, hn, hc, hrun, hi, hw => by
    simp only [Cake.run] at hrun
    rcases h1 : Cake.reopen s k with k1 | _ | _
    · rw [h1] at hrun
      simp only at hrun
      have hr1 := ((Cake.run_reached he hs [.reopen] k pre o hr (by simp [appended]) (by
          rw [show appended [Cake.Op.reopen] = [] from rfl, List.append_nil]
          exact List.Sublist.nodup (List.sublist_append_left _ _) hn) (by
          simp only [appended, List.append_nil, List.length_append] at hc ⊢
          omega)).1 (k1, []) (by simp [Cake.run, h1])).1
      simp only [show appended [Cake.Op.reopen] = [] from rfl, List.append_nil] at hr1
      obtain ⟨t1, h2⟩ := closeChain_ok h.chain t hw
      have hcl : closeCake h t = (true, t1.remove h.top) := by unfold closeCake; rw [h2]
      have hi1 := inv_closeCake hi hcl
      -- the files
      obtain ⟨⟨bs, cur, hinv, -⟩, -⟩ := hr
      have hdisk : ∀ i, i < s.tiers.length → ((closedFiles k).tiers i).hashes ≠ none → hexLevel ((closedFiles k).tiers i) 0 ≠ none := by
        intro i _ hh
        rcases Nat.eq_zero_or_pos i with e | hp
        · subst e
          refine level0_of_inv he hs hinv ?_
          intro hbs
          have := hinv.folder
          rw [hbs, bakeAll] at this
          injection this with this
          apply hh
          show (k.disk 0).hashes = none
          rw [← this]; rfl
        · exfalso
          apply hh
          show (k.disk i).hashes = none
          rw [hinv.others i hp]; rfl
      rcases ho : openCake s (closedFiles k) (t1.remove h.top) with ⟨r1, t2⟩
      have hopen : ∃ h', r1 = .ok (k1, h') := by
        have h4 : Cake.openCake s k.top.file k.top.first k.disk = .ok k1 := h1
        unfold Cake.openCake at h4
        unfold openCake at ho
        simp only [closedFiles] at ho
        rcases hot : openTop k.top.file k.top.first with _ | top
        · rw [hot] at h4; cases h4
        rw [hot] at h4 ho
        simp only at h4 ho
        rcases hob : Cake.openBelows k.disk 0 s.tiers with bl | _ | _
        · rw [hob] at h4
          injection h4 with h4
          obtain ⟨hs', t5, h6⟩ := openBelows_follows ((hi1.add (.topFile "Hashes.hsh")).during (.topFile "FirstPresentationIndex.bin")) hob
          rw [h6] at ho
          simp only [Prod.mk.injEq] at ho
          exact ⟨_, by rw [← ho.1, ← h4]⟩
        · rw [hob] at h4; cases h4
        · rw [hob] at h4; cases h4
      obtain ⟨h', rfl⟩ := hopen
      obtain ⟨-, j2, -, -, -, j3⟩ := inv_openCake hi1 ho
      rw [List.append_nil] at j2
      obtain ⟨h'', t'', g1, g2⟩ := session_follows he hs ops k1 pre _ hr1 hlen hn hc hrun j2 (j3.2 hdisk)
      exact ⟨h'', t'', by simp only [session, hcl, ho, g1], g2⟩
    · rw [h1] at hrun; cases hrun
    · rw [h1] at hrun; cases hrun
  | .append x :: ops, k, pre, o, h, t, r, hr, hlen, hn, hc, hrun, hi, hw => by
    simp only [Cake.run] at hrun
    have happ : pre ++ appended (.append x :: ops) = (pre ++ [x]) ++ appended ops := by simp [appended]
    rw [happ] at hn hc
    rcases h1 : Cake.append ent s (fun _ => []) k (.own x) with ⟨k1, g⟩ | _ | _
    · rw [h1] at hrun
      simp only at hrun
      rcases h2 : Cake.run ent s k1 ops with r2 | _ | _
      · rw [h2] at hrun
        simp only [Outcome.ok.injEq] at hrun
        subst hrun
        have hr1 := ((Cake.run_reached he hs [.append x] k pre o hr (by
            intro y hy
            exact hlen y (by simp only [appended, List.mem_singleton, List.mem_cons] at hy ⊢; exact .inl (by simpa using hy))) (by
            rw [show appended [Cake.Op.append x] = [x] from rfl]
            exact List.Sublist.nodup (List.sublist_append_left _ _) hn) (by
            rw [show appended [Cake.Op.append x] = [x] from rfl]
            rw [List.length_append] at hc
            omega)).1 (k1, [g]) (by simp [Cake.run, h1])).1
        simp only [show appended [Cake.Op.append x] = [x] from rfl] at hr1
        have hl : k.top.cells.length + 1 = s.cap → hexLevel (k1.disk 0) 0 ≠ none := by
          intro hcap
          obtain ⟨⟨bs, cur, hinv, hpre⟩, -⟩ := hr
          obtain ⟨⟨bs', cur', hinv', hpre'⟩, -⟩ := hr1
          refine level0_of_inv he hs hinv' ?_
          intro hbs
          have e1 : k.top.cells.length = cur.length := by rw [hinv.cells, List.length_map]
          have e2 := congrArg List.length hpre'
          rw [hbs, hpre] at e2
          simp only [List.flatten_nil, List.length_append, List.length_nil, List.length_singleton] at e2
          have := hinv'.size
          omega
        obtain ⟨h', t1, f1, f2⟩ := append_follows hi hw h1 hl
        obtain ⟨-, i2, -⟩ := inv_append hi f1
        obtain ⟨h'', t'', g1, g2⟩ := session_follows he hs ops k1 (pre ++ [x]) _ hr1
          (fun y hy => hlen y (by simp [appended, hy])) hn hc h2 i2 f2
        exact ⟨h'', t'', by simp only [session, f1, g1], g2⟩
      · rw [h2] at hrun; cases hrun
      · rw [h2] at hrun; cases hrun
    · rw [h1] at hrun; cases hrun
    · rw [h1] at hrun; cases hrun

/-- **C115: partial.** A new cake that takes different hashes, being closed and opened in between as it may be, can be used
and closed without an error, and afterwards nothing is held that was not held before. Missing: two hashes of one batch that
agree in nine or more bytes, and filling the first tier, as in `Verif.Cake.appends_in_order_partial`. -/
theorem used_and_closed_partial {ent : List Entry → Nat → Nat} (he : EntropyOK ent) {s : Settings} {t0 : TierConfig}
    (hs : SettingsOK s t0) {ops : List Cake.Op} (hh : History s t0 ops)
    (hsp : ∀ i, Spread 32 (((appended ops).drop (i * s.cap)).take s.cap)) {t : Table} (ht : Sound t) :
    ∃ k h t' t'', Used ent s newFiles ops t k h t' ∧ closeCake h t' = (true, t'') ∧ t''.held = t.held := by
  have hq : 0 < t0.quota := by
    rcases Nat.eq_zero_or_pos t0.quota with h | h
    · have := hh.count; rw [h] at this; omega
    · exact h
  obtain ⟨k0, e1, hi⟩ := Cake.new_inv ent hs hq
  obtain ⟨k, hk⟩ := Cake.appends_in_order_partial he hs hh hsp e1
  rcases ho : openCake s newFiles t with ⟨r, t1⟩
  have hopen : ∃ h', r = .ok (k0, h') := by
    have h4 : Cake.openCake s [] 0 (fun _ => noFolder) = .ok k0 := e1
    unfold Cake.openCake at h4
    unfold openCake at ho
    simp only [newFiles] at ho
    rcases hot : openTop [] 0 with _ | top
    · rw [hot] at h4; cases h4
    rw [hot] at h4 ho
    simp only at h4 ho
    rcases hob : Cake.openBelows (fun _ => noFolder) 0 s.tiers with bl | _ | _
    · rw [hob] at h4
      injection h4 with h4
      obtain ⟨hs', t5, h6⟩ := openBelows_follows
        (((Inv.start t ht).add (.topFile "Hashes.hsh")).during (.topFile "FirstPresentationIndex.bin")) hob
      rw [h6] at ho
      simp only [Prod.mk.injEq] at ho
      exact ⟨_, by rw [← ho.1, ← h4]⟩
    · rw [hob] at h4; cases h4
    · rw [hob] at h4; cases h4
  obtain ⟨h0, rfl⟩ := hopen
  obtain ⟨-, j2, -, -, -, j3⟩ := inv_openCake (Inv.start t ht) ho
  rw [List.append_nil] at j2
  obtain ⟨h, t', g1, g2⟩ := session_follows he hs ops k0 [] 0 ⟨⟨[], [], by simpa using hi, rfl⟩, by simp⟩ hh.len
    (by simpa using hh.nodup) (by simpa using hh.count) hk j2 (j3.2 (fun i _ hn => absurd rfl hn))
  obtain ⟨t2, h2⟩ := closeChain_ok h.chain t' g2
  have hu : Used ent s newFiles ops t k h t' := ⟨k0, h0, t1, _, ho, g1⟩
  have hcl : closeCake h t' = (true, t2.remove h.top) := by unfold closeCake; rw [h2]
  exact ⟨k, h, t', _, hu, hcl, a_closed_cake_holds_nothing_partial ht hu hcl⟩

/-! ## Filling the first tier -/

/-- The hash file of a tier below. -/
def isTierHashes : Thing → Bool
  | .tierFile _ name => name == "Hashes.hsh"
  | _ => false

/-- How often, as the hashes are appended, the first tier below becomes full and is moved to the next: after an append
that bakes it is not there. -/
def emptied (ent : List Entry → Nat → Nat) (s : Settings) : Cake → List Bytes → Nat
  | _, [] => 0
  | k, x :: xs =>
    match Cake.append ent s (fun _ => []) k (.own x) with
    | .ok (k', _) => (if k.top.cells.length + 1 = s.cap ∧ (k'.disk 0).hashes = none then 1 else 0) + emptied ent s k' xs
    | _ => 0

/-- The hash files of the tiers after the first of the chain. -/
def deep (h : Held) : Nat := ((chainEntries (h.chain.drop 1)).map Prod.snd).countP isTierHashes

theorem tier_counts (n : Nat) (d : DonutForest.Folder) : (thingsOfTier n d).countP isTierHashes = 1 := by
  unfold thingsOfTier
  rw [List.countP_append]
  have : List.countP isTierHashes ((mappedFrom d 65 0 false).map (Thing.levelMap n)) = 0 := by
    rw [List.countP_eq_zero]
    intro a ha
    obtain ⟨l, -, rfl⟩ := List.mem_map.1 ha
    simp [isTierHashes]
  rw [this]
  rfl

theorem chainEntries_nothing : ∀ (l : List Nat), chainEntries (l.map nothing) = []
  | [] => rfl
  | i :: l => by
    have := chainEntries_nothing l
    unfold chainEntries at this ⊢
    rw [List.map_cons, List.flatMap_cons, this, nothing_entries]
    rfl

theorem deep_grows {ent : List Entry → Nat → Nat} {s : Settings} {b : Nat} {base : List (Nat × Thing)} : ∀ (xs : List Bytes) {k k' : Cake}
    {h h' : Held} {gs : List Int} {t t' : Table}, Inv b base h.entries t →
    session ent s k h (xs.map .append) t = (.ok (k', h', gs), t') → deep h + emptied ent s k xs ≤ deep h'
  | [], k, k', h, h', gs, t, t', hi, he => by
    simp only [List.map_nil, session, Prod.mk.injEq, Outcome.ok.injEq] at he
    rw [he.1.2.1]
    exact Nat.le_refl _
  | x :: xs, k, k', h, h', gs, t, t', hi, he => by
    simp only [List.map_cons, session] at he
    rcases ha : append ent s (fun _ => []) k h (.own x) t with ⟨r, t1⟩
    rw [ha] at he
    rcases r with ⟨k1, h1, g⟩ | _ | _
    · simp only at he
      obtain ⟨i1, i2, i3⟩ := inv_append hi ha
      rcases hs : session ent s k1 h1 (xs.map .append) t1 with ⟨r, t2⟩
      rw [hs] at he
      rcases r with ⟨k2, h2, gs2⟩ | _ | _
      · simp only [Prod.mk.injEq, Outcome.ok.injEq] at he
        have hh := he.1.2.1
        subst hh
        have ih := deep_grows xs i2 hs
        simp only [emptied, i1]
        have hstep : deep h + (if k.top.cells.length + 1 = s.cap ∧ (k1.disk 0).hashes = none then 1 else 0) ≤ deep h1 := by
          rcases i3 with ⟨q1, q2, -⟩ | ⟨q1, n, new, rest, e1, e2, e3, e4, e5, e6⟩
          · rw [if_neg (fun hq => q1 hq.1), q2]; exact Nat.le_refl _
          · rw [Nat.zero_add] at e2 e3 e4
            unfold deep
            rw [e1, ← e6]
            cases n with
            | zero =>
              rw [if_neg (fun hq => e3 hq.2)]
              simp
            | succ n =>
              have hd : (List.map nothing (List.range' 0 (n + 1)) ++ new :: rest).drop 1 =
                  (List.range' 1 n).map nothing ++ new :: rest := by
                rw [List.range'_succ]; rfl
              rw [hd]
              have : chainEntries ((List.range' 1 n).map nothing ++ new :: rest) = new.entries ++ chainEntries rest := by
                have h0 := chainEntries_nothing (List.range' 1 n)
                unfold chainEntries at h0 ⊢
                rw [List.flatMap_append, h0, List.flatMap_cons, List.nil_append]
              rw [this, List.map_append, List.countP_append, e4, tier_counts]
              split <;> omega
        omega
      · simp at he
      · simp at he
    · simp at he
    · simp at he

/-- **C115: refuted.** While a cake is open, each time its first tier becomes full one more hash file of a tier below is
left open: however many hashes are appended, without an error, at least as many of these files are open in the end, besides
those open before. Closing the cake is what closes them (`a_closed_cake_holds_nothing_partial`). -/
theorem each_full_tier_leaves_a_file_open {ent : List Entry → Nat → Nat} {s : Settings} {f : Files} {xs : List Bytes} {t t0 t' : Table}
    {k0 k : Cake} {h0 h : Held} {gs : List Int} (ht : Sound t) (ho : openCake s f t = (.ok (k0, h0), t0))
    (hs : session ent s k0 h0 (xs.map .append) t0 = (.ok (k, h, gs), t')) :
    (kinds t).countP isTierHashes + emptied ent s k0 xs ≤ (kinds t').countP isTierHashes := by
  obtain ⟨-, i2, -⟩ := inv_openCake (Inv.start t ht) ho
  rw [List.append_nil] at i2
  have hd := deep_grows xs i2 hs
  have hi := (inv_session _ i2 hs).2
  have hp := (hi.perm.map Prod.snd).countP_eq isTierHashes
  unfold kinds
  rw [hp, List.map_append, List.countP_append]
  have hle : deep h ≤ (h.entries.map Prod.snd).countP isTierHashes := by
    unfold deep Held.entries
    rcases h.chain with _ | ⟨a, l⟩
    · simp [chainEntries]
    · simp only [List.drop_one, List.tail_cons, chainEntries, List.flatMap_cons, List.map_cons, List.map_append, List.countP_cons,
        List.countP_append]
      omega
  omega

/-! ## Examples -/

/-- A program that has one other file open. -/
def demoTable : Table := ⟨5, [(3, .topFile "log.txt")]⟩

theorem demoTable_sound : Sound demoTable := by unfold Sound; decide

-- five hashes, the cake closed and opened again: nothing is left
example : ∃ k h t' t'', Used demoEnt demoSettings newFiles (demoOps ++ [.reopen]) demoTable k h t' ∧ closeCake h t' = (true, t'') ∧
    t''.held = demoTable.held :=
  used_and_closed_partial demoEnt_ok demoSettings_ok demoOps_reopen_ok (fun i => spread_of_distinct demo_spread i) demoTable_sound

/-- Settings with which every hash fills both the top tier and the first one below. -/
def tinySettings : Settings := ⟨1, [⟨demoTier, 0, 1⟩, ⟨demoTier, 0, 255⟩]⟩

/-- What is held after three hashes have been appended with these, and after closing. -/
def demoRun : Option (Nat × Nat × Bool × List (Nat × Thing)) :=
  match openCake tinySettings newFiles demoTable with
  | (.ok (k, h), t) =>
    match session demoEnt tinySettings k h ([demoH 1, demoH 2, demoH 3].map .append) t with
    | (.ok (_, h', _), t') => some (emptied demoEnt tinySettings k [demoH 1, demoH 2, demoH 3],
        (kinds t').count (.tierFile 1 "Hashes.hsh"), (closeCake h' t').1, (closeCake h' t').2.held)
    | _ => none
  | _ => none

-- three times the hash file of the second tier is open; closing the cake closes all three
example : demoRun = some (3, 3, true, [(3, .topFile "log.txt")]) := by decide +kernel

/-- A cake whose first tier has files, the level file being empty and the second missing. -/
def brokenFiles : Files := ⟨some [demoH 1], some 7, fun i => if i = 1 then
    ⟨fun n => if n = 0 then some [1, 2] else if n = 1 then some [] else none, some [1], some [], some []⟩ else noFolder⟩

def isError {α : Type} : Outcome α → Bool
  | .error => true
  | _ => false

theorem eq_error {α : Type} {r : Outcome α} (h : isError r = true) : r = .error := by
  cases r <;> first | rfl | cases h

-- opening it fails; the top file and a map stay
example : (openCake demoSettings brokenFiles demoTable).1 = .error ∧ brokenFiles.exist = true ∧
    (openCake demoSettings brokenFiles demoTable).2.held =
      [(3, .topFile "log.txt"), (5, .topFile "Hashes.hsh"), (8, .levelMap 1 0)] := by
  refine ⟨eq_error (by decide +kernel), rfl, by decide +kernel⟩

example : 1 + 100 ≤ (tries demoSettings brokenFiles 100 demoTable).held.length :=
  each_failed_open_loses_a_file rfl (eq_error (by decide +kernel)) 100 demoTable_sound

/-- A cake whose second tier has no file for level 0. -/
def gapFiles : Files := ⟨some [demoH 1], some 7, fun i => if i = 1 then
    ⟨fun n => if n = 1 then some [1, 2] else none, some [1], some (List.replicate 9 0), some []⟩ else noFolder⟩

def demoGap : Option (Bool × List Thing) :=
  match openCake demoSettings gapFiles demoTable with
  | (.ok (_, h), t) => some ((closeCake h t).1, kinds (closeCake h t).2)
  | _ => none

-- it opens, but closing it returns an error and leaves files and maps
example : demoGap = some (false, [.topFile "log.txt", .topFile "Hashes.hsh", .levelMap 1 1, .jumpMap 1, .tierFile 1 "Hashes.hsh"]) := by
  decide +kernel

end Verif.CakeHandles
