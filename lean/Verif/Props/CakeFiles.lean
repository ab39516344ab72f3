import Verif.Model.CakeFiles
import Verif.Props.Cake

/-!
# Properties of creating a cake and of a cake killed while it bakes

The specification is that of `Verif.Props.Cake`: a history of appends and openings. A cake that was killed should be as one
that was closed some time before; a cake that was created should be as a new one.
-/

namespace Verif.Cake

open Verif.ShallowTree Verif.Chunk Verif.SingleTree Verif.DonutForest Verif.TierTop

/-! ## Lemmas -/

/-- Batches of one size are told apart by what they hold. -/
theorem batches_inj {cap : Nat} : ∀ {bs bs' : List (List Bytes)} {cur cur' : List Bytes}, (∀ b ∈ bs, b.length = cap) →
    (∀ b ∈ bs', b.length = cap) → bs.length = bs'.length → bs.flatten ++ cur = bs'.flatten ++ cur' → bs = bs' ∧ cur = cur'
  | [], [], _, _, _, _, _, h => ⟨rfl, by simpa using h⟩
  | [], _ :: _, _, _, _, _, h, _ => by simp at h
  | _ :: _, [], _, _, _, _, h, _ => by simp at h
  | b :: bs, b' :: bs', cur, cur', h1, h2, hl, h => by
    simp only [List.flatten_cons, List.append_assoc] at h
    have hbb := List.append_inj h (by rw [h1 b (by simp), h2 b' (by simp)])
    have := batches_inj (fun x hx => h1 x (by simp [hx])) (fun x hx => h2 x (by simp [hx])) (by simpa using hl) hbb.2
    exact ⟨by rw [hbb.1, this.1], this.2⟩

/-- The folders of a cake depend on the batches alone. -/
theorem disk_eq {ent : List Entry → Nat → Nat} {s : Settings} {t0 : TierConfig} {k k' : Cake} {bs : List (List Bytes)}
    {cur cur' : List Bytes} {dead dead' : Bool} (hi : Inv ent s t0 k bs cur dead) (hi' : Inv ent s t0 k' bs cur' dead') :
    k.disk = k'.disk := by
  funext i
  rcases Nat.eq_zero_or_pos i with h | h
  · subst h
    have h1 := hi.folder
    rw [hi'.folder] at h1
    exact (Option.some.inj h1).symm
  · rw [hi.others i h, hi'.others i h]

/-- A cake can be opened with any hashes of its top tier and any first index. -/
theorem openCake_any {ent : List Entry → Nat → Nat} {s : Settings} {t0 : TierConfig} (hs : SettingsOK s t0) {k : Cake}
    {bs : List (List Bytes)} {cur : List Bytes} {dead : Bool} (hi : Inv ent s t0 k bs cur dead) {file : List Bytes}
    (hf : file.length ≤ 65535) (first : Int) :
    ∃ top bl, openTop file first = some top ∧ openBelows k.disk 0 s.tiers = .ok bl ∧
      Verif.Cake.openCake s file first k.disk = .ok ⟨top, k.disk, bl⟩ := by
  obtain ⟨k', h1, -⟩ := open_inv hs hi
  obtain ⟨top, t1, -⟩ := openTop_holds (file := file) (first := first) hf
  unfold reopen Verif.Cake.openCake at h1
  cases hb : openBelows k.disk 0 s.tiers with
  | ok bl => exact ⟨top, bl, t1, rfl, by unfold Verif.Cake.openCake; rw [t1, hb]⟩
  | error => rw [hb] at h1; split at h1 <;> cases h1
  | panic => rw [hb] at h1; split at h1 <;> cases h1

/-- Two cakes that have only their lower tiers in common agree about a hash that is in neither's top tier. -/
theorem indexOf_below {k k' : Cake} (hc : k.chain = k'.chain) {q : Bytes} (h1 : k.top.map q = none) (h2 : k'.top.map q = none) :
    indexOfHash k q = indexOfHash k' q := by
  unfold indexOfHash TierTop.tryIndexOfHash
  rw [h1, h2, hc]

/-- Emptying the top tier. -/
theorem inv_emptied {ent : List Entry → Nat → Nat} {s : Settings} {t0 : TierConfig} (hs : SettingsOK s t0) {k : Cake}
    {bs : List (List Bytes)} {cur : List Bytes} {dead : Bool} (hi : Inv ent s t0 k bs cur dead) {top : Top}
    (ht : openTop [] k.top.first = some top) : Inv ent s t0 { k with top := top } bs [] dead := by
  obtain ⟨top', t1, t2, t3, t4, t5⟩ := openTop_holds (file := []) (first := k.top.first) (by simp)
  rw [ht] at t1
  obtain rfl := Option.some.inj t1
  exact ⟨by simpa using hs.capPos, hi.sizes, by simp, hi.batches, hi.count, by dsimp only; rw [t2, hi.first], t3, by rw [t4],
    fun x i => by dsimp only; rw [t5 x i], hi.folder, hi.others, hi.chain⟩

/-- As `appended_hash_is_found_partial`, of a state. -/
theorem found_inv {ent : List Entry → Nat → Nat} (he : EntropyOK ent) {s : Settings} {t0 : TierConfig} (hs : SettingsOK s t0) {k : Cake}
    {bs : List (List Bytes)} {cur : List Bytes} {dead : Bool} (hi : Inv ent s t0 k bs cur dead) (hnd : (bs.flatten ++ cur).Nodup) {n : Nat}
    {q : Bytes} (hq32 : q.length = 32) (hq : (bs.flatten ++ cur)[n]? = some q) :
    ∃ i : Nat, indexOfHash k q = some (i : Int) ∧ i ≤ n ∧
      (i = n ∨ ∃ h b, (bs.flatten ++ cur)[i]? = some h ∧ h ∈ b ∧ Plausible t0.c b h q) := by
  have hncur : cur.Nodup := List.Sublist.nodup (List.sublist_append_right _ _) hnd
  have huniq : ∀ i : Nat, (bs.flatten ++ cur)[i]? = some q → i = n := by
    intro i h
    obtain ⟨a1, a2⟩ := List.getElem?_eq_some_iff.1 h
    obtain ⟨b1, b2⟩ := List.getElem?_eq_some_iff.1 hq
    exact (List.getElem_inj hnd).1 (a2.trans b2.symm)
  rcases lookup he hs hi hncur hq32 with ⟨i, g1, g2⟩ | ⟨g1, g2, -⟩ | ⟨g1, pre, b, post, i, h, g2, g3, g4, g5, g6⟩
  · have hget : (bs.flatten ++ cur)[bs.flatten.length + i]? = some q := by
      rw [List.getElem?_append_right (by omega), Nat.add_sub_cancel_left]
      exact g1
    have := huniq _ hget
    exact ⟨n, by rw [g2, ← this]; rfl, Nat.le_refl _, .inl rfl⟩
  · have := List.mem_append.1 (List.mem_of_getElem? hq)
    rcases this with h | h
    · exact absurd h g2
    · exact absurd h g1
  · have hilt := (List.getElem?_eq_some_iff.1 g3).1
    have hget : (bs.flatten ++ cur)[pre.flatten.length + i]? = some h := by
      rw [g2, List.flatten_append, List.flatten_cons, List.append_assoc, List.append_assoc,
        List.getElem?_append_right (by omega), Nat.add_sub_cancel_left, List.getElem?_append_left hilt]
      exact g3
    refine ⟨pre.flatten.length + i, by rw [g6]; rfl, ?_, .inr ⟨h, b, hget, List.mem_of_getElem? g3, g4⟩⟩
    rcases Nat.lt_or_ge n pre.flatten.length with hlt | hge
    · exfalso
      rw [g2, List.flatten_append, List.append_assoc, List.getElem?_append_left hlt] at hq
      obtain ⟨b', hb', hmem⟩ := List.mem_flatten.1 (List.mem_of_getElem? hq)
      exact g5 b' hb' hmem
    · rcases Nat.lt_or_ge n (pre.flatten.length + b.length) with hlt | hge'
      · have hqb : q ∈ b := by
          rw [g2, List.flatten_append, List.flatten_cons, List.append_assoc, List.append_assoc,
            List.getElem?_append_right hge, List.getElem?_append_left (by omega)] at hq
          exact List.mem_of_getElem? hq
        have := g4.eq_of_mem hqb
        subst this
        exact Nat.le_of_eq (huniq _ hget)
      · omega

theorem appended_append (a b : List Op) : appended (a ++ b) = appended a ++ appended b := by
  induction a with
  | nil => rfl
  | cons op a ih => cases op <;> simp [appended, ih]

/-- The first part of a history that succeeded has succeeded. -/
theorem run_prefix {ent : List Entry → Nat → Nat} {s : Settings} : ∀ (a b : List Op) {k : Cake} {r : Cake × List Int},
    run ent s k (a ++ b) = .ok r → ∃ r1 r2, run ent s k a = .ok r1 ∧ run ent s r1.1 b = .ok r2 ∧ r = (r2.1, r1.2 ++ r2.2)
  | [], b, k, r, h => ⟨(k, []), r, rfl, h, rfl⟩
  | .reopen :: a, b, k, r, h => by
    simp only [List.cons_append, run] at h ⊢
    cases hk : reopen s k with
    | ok k1 => rw [hk] at h; exact run_prefix a b h
    | error => rw [hk] at h; cases h
    | panic => rw [hk] at h; cases h
  | .append x :: a, b, k, r, h => by
    simp only [List.cons_append, run] at h ⊢
    cases hk : append ent s (fun _ => []) k (.own x) with
    | error => rw [hk] at h; cases h
    | panic => rw [hk] at h; cases h
    | ok q =>
      rw [hk] at h
      dsimp only at h ⊢
      cases hb : run ent s q.1 (a ++ b) with
      | error => rw [hb] at h; cases h
      | panic => rw [hb] at h; cases h
      | ok u =>
        rw [hb] at h
        injection h with h
        obtain ⟨r1, r2, h1, h2, h3⟩ := run_prefix a b hb
        refine ⟨(r1.1, q.2 :: r1.2), r2, by rw [h1], h2, ?_⟩
        rw [← h, h3]
        rfl

theorem History.prefix {s : Settings} {t0 : TierConfig} {a b : List Op} (h : History s t0 (a ++ b)) : History s t0 a := by
  have h1 := h.len
  have h2 := h.nodup
  have h3 := h.count
  rw [appended_append] at h1 h2 h3
  exact ⟨fun x hx => h1 x (List.mem_append_left _ hx), List.Sublist.nodup (List.sublist_append_left _ _) h2, by
    rw [List.length_append] at h3; omega⟩

/-! ## Killed between bakes -/

/-- **C95: partial.** Killed at any time but during a bake, the cake opens as if it had been closed in time: with the hashes of
the first part of its history, that which reached the disk. Missing: during a bake (the theorems below), and cakes of which
the first tier has been filled. -/
theorem killed_between_bakes_partial {ent : List Entry → Nat → Nat} (he : EntropyOK ent) {s : Settings} {t0 : TierConfig}
    (hs : SettingsOK s t0) {kept lost : List Op} (hh : History s t0 (kept ++ lost))
    (hb : (appended kept).length / s.cap = (appended (kept ++ lost)).length / s.cap) {k0 k : Cake} {given : List Int}
    (h0 : newCake s = .ok k0) (hr : run ent s k0 (kept ++ lost) = .ok (k, given)) :
    ∃ k', (killedFiles k ((appended kept).length % s.cap)).openCake s = .ok k' ∧
      run ent s k0 (kept ++ [.reopen]) = .ok (k', (List.range (appended kept).length).map Int.ofNat) := by
  obtain ⟨r1, r2, e1, e2, e3⟩ := run_prefix kept lost hr
  obtain ⟨bs, cur, hi, a1, -, a3⟩ := history_inv he hs hh h0 hr
  obtain ⟨bs1, cur1, hi1, b1, b2, b3⟩ := history_inv he hs hh.prefix h0 (given := r1.2) (k := r1.1) e1
  have hsplit : bs1.flatten ++ (cur1 ++ appended lost) = bs.flatten ++ cur := by
    rw [← List.append_assoc, ← b1, ← a1, appended_append]
  obtain ⟨c1, c2⟩ := batches_inj hi1.sizes hi.sizes (by rw [a3, b3, hb]) hsplit
  subst c1
  have hmod : (appended kept).length % s.cap = cur1.length := by
    rw [b1, List.length_append, flatten_len hi1.sizes, Nat.mul_comm, Nat.mul_add_mod, Nat.mod_eq_of_lt hi1.size]
  obtain ⟨k', g1, g2⟩ := open_inv hs hi1
  refine ⟨k', ?_, ?_⟩
  · unfold Files.openCake killedFiles
    dsimp only
    unfold reopen at g1
    rw [← g1, hi.file, hi.first, hi1.first, hi1.file, disk_eq hi hi1, ← c2, hmod, List.take_left']
    rfl
  · have hrun : ∀ (ops : List Op) (k : Cake) {r : Cake × List Int} {k' : Cake}, run ent s k ops = .ok r → reopen s r.1 = .ok k' →
        run ent s k (ops ++ [.reopen]) = .ok (k', r.2) := by
      intro ops
      induction ops with
      | nil =>
        intro k r k' h1 h2
        injection h1 with h1
        subst h1
        simp only [List.nil_append, run]
        rw [h2]
      | cons op ops ih =>
        intro k r k' h1 h2
        cases op with
        | reopen =>
          simp only [List.cons_append, run] at h1 ⊢
          cases hk : reopen s k with
          | ok q => rw [hk] at h1; exact ih q h1 h2
          | error => rw [hk] at h1; cases h1
          | panic => rw [hk] at h1; cases h1
        | append x =>
          simp only [List.cons_append, run] at h1 ⊢
          cases hk : append ent s (fun _ => []) k (.own x) with
          | error => rw [hk] at h1; cases h1
          | panic => rw [hk] at h1; cases h1
          | ok q =>
            rw [hk] at h1
            dsimp only at h1 ⊢
            cases hq : run ent s q.1 ops with
            | error => rw [hq] at h1; cases h1
            | panic => rw [hq] at h1; cases h1
            | ok u =>
              rw [hq] at h1
              injection h1 with h1
              subst h1
              rw [ih q.1 hq h2]
    have := hrun kept k0 e1 g1
    rw [this, b2]

/-! ## Killed while baking -/

/-- The state of a cake before and after an append that bakes. -/
theorem baking {ent : List Entry → Nat → Nat} (he : EntropyOK ent) {s : Settings} {t0 : TierConfig}
    (hs : SettingsOK s t0) {ops : List Op} {h : Bytes} (hh : History s t0 (ops ++ [.append h]))
    (hfull : (appended ops).length % s.cap + 1 = s.cap) {k0 k k' : Cake} {given given' : List Int}
    (h0 : newCake s = .ok k0) (hr : run ent s k0 ops = .ok (k, given))
    (hr' : run ent s k0 (ops ++ [.append h]) = .ok (k', given')) :
    ∃ bs cur f, Inv ent s t0 k bs cur (decide (BakedAgain s.cap ops)) ∧
      Inv ent s t0 k' (bs ++ [cur ++ [h]]) [] (decide (BakedAgain s.cap (ops ++ [.append h]))) ∧
      appended ops = bs.flatten ++ cur ∧ cur.length + 1 = s.cap ∧ forestOf ent s k h = some f ∧
      bake ent t0.c 0 bs.flatten.length [entriesOf bs.flatten.length (cur ++ [h])] = some f ∧
      setFolder k.disk 0 (addForest (k.disk 0) f (k.top.file ++ [h])) = k'.disk := by
  obtain ⟨bs, cur, hi, a1, -, a3⟩ := history_inv he hs hh.prefix h0 hr
  obtain ⟨bs', cur', hi', b1, -, b3⟩ := history_inv he hs hh h0 hr'
  have happ : appended (ops ++ [.append h]) = appended ops ++ [h] := by rw [appended_append]; rfl
  rw [happ] at b1 b3
  have hlen : (appended ops).length = bs.length * s.cap + cur.length := by rw [a1, List.length_append, flatten_len hi.sizes]
  have hcur : cur.length + 1 = s.cap := by
    rw [hlen, Nat.mul_comm, Nat.mul_add_mod, Nat.mod_eq_of_lt hi.size] at hfull
    exact hfull
  have hbs' : bs'.length = bs.length + 1 := by
    rw [b3, List.length_append, List.length_singleton, hlen, Nat.add_assoc, hcur, ← Nat.succ_mul,
      Nat.mul_div_cancel _ hs.capPos]
  have hsz : ∀ b ∈ bs ++ [cur ++ [h]], b.length = s.cap := by
    intro b hb
    rcases List.mem_append.1 hb with hb | hb
    · exact hi.sizes b hb
    · rw [List.mem_singleton] at hb; subst hb; simpa using hcur
  obtain ⟨c1, c2⟩ := batches_inj (cur := []) (cur' := cur') hsz hi'.sizes (by simpa using hbs'.symm) (by
    rw [← b1, a1]; simp)
  subst c1 c2
  obtain ⟨f, e1, e2, -⟩ := bake_more he hs hi.folder hi'.batches hsz hi.count
  refine ⟨bs, cur, f, hi, hi', a1, hcur, ?_, e1, ?_⟩
  · obtain ⟨rest, hrest⟩ := hs.tiers
    unfold forestOf
    rw [hrest]
    dsimp only
    rw [hs.pre, hi.first, hi.cells, ← e1, List.map_append, List.map_map]
    have h1 : (cur.map (Cell.read (fun _ => []) ∘ .own)) = cur := by
      conv_rhs => rw [← List.map_id cur]
      rfl
    rw [h1]
    rfl
  · funext i
    unfold setFolder
    split
    · next hi0 =>
      subst hi0
      have := hi'.folder
      rw [e2] at this
      rw [hi.file]
      exact Option.some.inj this
    · next hi0 => rw [hi.others i (by omega), hi'.others i (by omega)]

/-- At most this is known of a cake created where lower tiers are: it has their hashes and begins anew with index 0. -/
theorem recreated_inv {ent : List Entry → Nat → Nat} (he : EntropyOK ent) {s : Settings} {t0 : TierConfig}
    (hs : SettingsOK s t0) (hcap : 1 < s.cap) {k : Cake} {bs : List (List Bytes)} {cur : List Bytes} {dead : Bool}
    (hi : Inv ent s t0 k bs cur dead) (hlen : ∀ x ∈ bs.flatten, x.length = 32) (hnd : bs.flatten.Nodup) (fs : Files) (hf : fs.tiers = k.disk) :
    ∃ kc, fs.create.openCake s = .ok kc ∧
      (∀ n q, bs.flatten[n]? = some q → ∃ i : Nat, indexOfHash kc q = some (i : Int) ∧ i ≤ n ∧
        (i = n ∨ ∃ h b, bs.flatten[i]? = some h ∧ h ∈ b ∧ Plausible t0.c b h q)) ∧
      ∀ m x, x.length = 32 → ∃ k1, append ent s m kc (.own x) = .ok (k1, 0) := by
  obtain ⟨top0, bl, t1, t2, t3⟩ := openCake_any hs hi (file := []) (by simp) 0
  obtain ⟨top0', t4, t5, -, t7, t8⟩ := openTop_holds (file := []) (first := 0) (by simp)
  rw [t1] at t4
  obtain rfl := Option.some.inj t4
  refine ⟨⟨top0, k.disk, bl⟩, ?_, ?_, ?_⟩
  · unfold Files.openCake Files.create Files.createTop
    dsimp only
    rw [hf, t3]
  · intro n q hq
    obtain ⟨topf, u1, -⟩ := openTop_holds (file := []) (first := k.top.first) (by simp)
    obtain ⟨k2, v1, v2⟩ := open_inv hs (inv_emptied hs hi u1)
    have hq' : (bs.flatten ++ [])[n]? = some q := by rw [List.append_nil]; exact hq
    obtain ⟨i, w1, w2, w3⟩ := found_inv he hs v2 (by simpa using hnd) (hlen q (List.mem_of_getElem? hq)) hq'
    rw [List.append_nil] at w3
    refine ⟨i, ?_, w2, w3⟩
    rw [← w1]
    have hnone : ∀ {t : Top}, (∀ h i, t.map h = some i ↔ ([] : List Bytes)[i]? = some h ∧ ∀ j, i < j → ([] : List Bytes)[j]? ≠ some h) →
        t.map q = none := by
      intro t ht
      cases hx : t.map q with
      | none => rfl
      | some j => have := ((ht q j).1 hx).1; simp at this
    refine indexOf_below ?_ (hnone t8) (hnone v2.map)
    unfold reopen Verif.Cake.openCake at v1
    dsimp only at v1
    rw [t2] at v1
    split at v1
    · cases v1
    · injection v1 with v1
      rw [← v1]
  · intro m x hx
    unfold append
    dsimp only [Cell.read]
    rw [t7, List.map_nil, List.length_nil, if_neg (by omega), if_neg (by omega), if_neg (by omega)]
    exact ⟨_, by unfold globalOfTop; rw [t5]; rfl⟩

/-- **C95: violated.** Killed when the forest has been described but the top tier not emptied, the cake opens, but its top tier is
full: no hash can ever be appended to it again. The hashes of the batch are still found under their indices. -/
theorem killed_before_emptying {ent : List Entry → Nat → Nat} (he : EntropyOK ent) {s : Settings} {t0 : TierConfig}
    (hs : SettingsOK s t0) {ops : List Op} {h : Bytes} (hh : History s t0 (ops ++ [.append h]))
    (hfull : (appended ops).length % s.cap + 1 = s.cap) {k0 k k' : Cake} {given given' : List Int}
    (h0 : newCake s = .ok k0) (hr : run ent s k0 ops = .ok (k, given))
    (hr' : run ent s k0 (ops ++ [.append h]) = .ok (k', given')) :
    ∃ fs kk, killedBaking ent s k h .described = some fs ∧ fs.openCake s = .ok kk ∧
      (∀ m c, append ent s m kk c = .panic) ∧ (closedFiles kk).openCake s = .ok kk ∧
      ∀ n q, (appended ops ++ [h])[n]? = some q → (appended ops).length < n + s.cap → indexOfHash kk q = some (n : Int) := by
  obtain ⟨bs, cur, f, hi, hi', a1, hcur, hf, -, hd⟩ := baking he hs hh hfull h0 hr hr'
  have hfl : (cur ++ [h]).length = s.cap := by simpa using hcur
  obtain ⟨top, bl, t1, t2, t3⟩ := openCake_any hs hi' (file := cur ++ [h]) (by rw [hfl]; exact hs.capTop) k.top.first
  obtain ⟨top', t4, t5, t6, t7, t8⟩ := openTop_holds (file := cur ++ [h]) (first := k.top.first) (by rw [hfl]; exact hs.capTop)
  rw [t1] at t4
  obtain rfl := Option.some.inj t4
  refine ⟨_, ⟨top, k'.disk, bl⟩, by unfold killedBaking; rw [hf]; rfl, ?_, ?_, ?_, ?_⟩
  · unfold Files.openCake filesAt
    dsimp only
    rw [hd, hi.file, t3]
  · intro m c
    unfold append
    dsimp only
    rw [t7, List.length_map, hfl, if_pos (Nat.le_refl _)]
  · unfold Files.openCake closedFiles
    dsimp only
    rw [t5, t6, t3]
  · intro n q hq hn
    have hnd := hh.nodup
    have h32 := hh.len
    have happ : appended (ops ++ [.append h]) = appended ops ++ [h] := by rw [appended_append]; rfl
    rw [happ] at hnd h32
    have hq32 := h32 q (List.mem_of_getElem? hq)
    rw [a1, List.append_assoc] at hq hnd
    rw [a1, List.length_append] at hn
    have hge : bs.flatten.length ≤ n := by omega
    rw [List.getElem?_append_right hge] at hq
    have hndc : (cur ++ [h]).Nodup := List.Sublist.nodup (List.sublist_append_right _ _) hnd
    have hmap : top.map q = some (n - bs.flatten.length) := by
      rw [t8]
      refine ⟨hq, fun j hj hx => ?_⟩
      obtain ⟨u1, u2⟩ := List.getElem?_eq_some_iff.1 hq
      obtain ⟨v1, v2⟩ := List.getElem?_eq_some_iff.1 hx
      have := (List.getElem_inj hndc).1 (u2.trans v2.symm)
      omega
    unfold indexOfHash TierTop.tryIndexOfHash globalOfTop
    dsimp only
    rw [if_neg (by omega), hmap, t5, hi.first]
    dsimp only
    congr 1
    omega

/-- **C95: violated.** Killed while the top tier is being made anew, the cake is said not to exist, or to exist and cannot be opened.
Creating it where it is said not to exist gives one that has the hashes of all batches under their indices, and whose next
hash gets the index 0, which is taken. -/
theorem killed_while_emptying {ent : List Entry → Nat → Nat} (he : EntropyOK ent) {s : Settings} {t0 : TierConfig}
    (hs : SettingsOK s t0) (hcap : 1 < s.cap) {ops : List Op} {h : Bytes} (hh : History s t0 (ops ++ [.append h]))
    (hfull : (appended ops).length % s.cap + 1 = s.cap) {k0 k k' : Cake} {given given' : List Int}
    (h0 : newCake s = .ok k0) (hr : run ent s k0 ops = .ok (k, given))
    (hr' : run ent s k0 (ops ++ [.append h]) = .ok (k', given')) :
    (∃ fs, killedBaking ent s k h .blank = some fs ∧ fs.exist = true ∧ fs.openCake s = .error) ∧
    ∀ p, p = .unlinked ∨ p = .bare → ∃ fs kc, killedBaking ent s k h p = some fs ∧ fs.exist = false ∧ fs.openCake s = .error ∧
      fs.create.openCake s = .ok kc ∧
      (∀ n q, (appended ops ++ [h])[n]? = some q → ∃ i : Nat, indexOfHash kc q = some (i : Int) ∧ i ≤ n ∧
        (i = n ∨ ∃ x b, (appended ops ++ [h])[i]? = some x ∧ x ∈ b ∧ Plausible t0.c b x q)) ∧
      ∀ m x, x.length = 32 → ∃ k1, append ent s m kc (.own x) = .ok (k1, 0) := by
  obtain ⟨bs, cur, f, hi, hi', a1, hcur, hf, -, hd⟩ := baking he hs hh hfull h0 hr hr'
  have happ : appended (ops ++ [.append h]) = (bs ++ [cur ++ [h]]).flatten := by
    rw [appended_append, a1]; simp [appended]
  have hall : appended ops ++ [h] = (bs ++ [cur ++ [h]]).flatten := by rw [a1]; simp
  have hnd := hh.nodup
  have h32 := hh.len
  rw [happ] at hnd h32
  constructor
  · exact ⟨_, by unfold killedBaking; rw [hf]; rfl, rfl, rfl⟩
  · intro p hp
    have htiers : ∀ q, q = .unlinked ∨ q = .bare → (filesAt k h f q).tiers = k'.disk := by
      rintro q (rfl | rfl) <;> exact hd
    obtain ⟨kc, c1, c2, c3⟩ := recreated_inv he hs hcap hi' h32 hnd (filesAt k h f p) (htiers p hp)
    rw [hall]
    refine ⟨_, kc, by unfold killedBaking; rw [hf]; rfl, ?_, ?_, c1, c2, c3⟩
    · rcases hp with rfl | rfl <;> rfl
    · rcases hp with rfl | rfl <;> rfl

theorem mapLevels_ne_nil (d : DonutForest.Folder) (n m : Nat) : mapLevels d (n + 1) m false ≠ some [] := by
  rw [mapLevels]
  split
  · simp
  · simp
  · simp

/-- A tier whose files have been made but which has no description yet cannot be opened. -/
theorem undescribed_not_ok (quota : Nat) (d : DonutForest.Folder) (hinfo : d.info = some []) (t : Tier) : openTier quota d ≠ .ok t := by
  unfold openTier
  split
  · simp
  · next maps hm =>
    have hne : 0 < maps.length := by
      rcases maps with _ | ⟨a, l⟩
      · exact absurd hm (mapLevels_ne_nil d 64 0)
      · simp
    split
    · simp
    · simp
    · rw [hinfo]
      simp [readInfo, hne]

/-- **C95: violated.** Killed during the first bake before the forest has been described, the cake exists but does not open. -/
theorem killed_in_first_bake {ent : List Entry → Nat → Nat} (he : EntropyOK ent) {s : Settings} {t0 : TierConfig}
    (hs : SettingsOK s t0) {ops : List Op} {h : Bytes} (hh : History s t0 (ops ++ [.append h]))
    (hfull : (appended ops).length + 1 = s.cap) {k0 k k' : Cake} {given given' : List Int}
    (h0 : newCake s = .ok k0) (hr : run ent s k0 ops = .ok (k, given))
    (hr' : run ent s k0 (ops ++ [.append h]) = .ok (k', given')) (p : Moment)
    (hp : p = .copied ∨ ∃ m, p = .opened m ∨ p = .levels m ∨ p = .jumps m) :
    ∃ fs, killedBaking ent s k h p = some fs ∧ fs.exist = true ∧ ∀ kk, fs.openCake s ≠ .ok kk := by
  have hmod : (appended ops).length % s.cap + 1 = s.cap := by rw [Nat.mod_eq_of_lt (by omega)]; exact hfull
  obtain ⟨bs, cur, f, hi, hi', a1, hcur, hf, -, hd⟩ := baking he hs hh hmod h0 hr hr'
  have hbs : bs = [] := by
    have h1 : (appended ops).length = bs.length * s.cap + cur.length := by rw [a1, List.length_append, flatten_len hi.sizes]
    have h2 : bs.length * s.cap = 0 := by omega
    rcases Nat.mul_eq_zero.1 h2 with h3 | h3
    · exact List.length_eq_zero_iff.1 h3
    · have := hs.capPos; omega
  subst hbs
  have hdisk : k.disk 0 = noFolder := by
    have := hi.folder
    rw [bakeAll] at this
    exact (Option.some.inj this).symm
  obtain ⟨rest, hrest⟩ := hs.tiers
  have key : ∀ (file : List Bytes) (first : Int) (disk : Disk) (x : List Bytes), (disk 0).info = some [] → (disk 0).hashes = some x →
      ∀ kk, Verif.Cake.openCake s file first disk ≠ .ok kk := by
    intro file first disk x h1 h2 kk
    unfold Verif.Cake.openCake
    split
    · simp
    · rw [hrest, openBelows, h2]
      dsimp only
      cases ht : openTier t0.quota (disk 0) with
      | ok t => exact absurd ht (undescribed_not_ok _ _ h1 t)
      | error => simp
      | panic => simp
  refine ⟨_, by unfold killedBaking; rw [hf]; rfl, ?_, ?_⟩
  · rcases hp with rfl | ⟨m, rfl | rfl | rfl⟩ <;> rfl
  · rcases hp with rfl | ⟨m, rfl | rfl | rfl⟩
    · intro kk
      refine key (k.top.file ++ [h]) k.top.first _ (k.top.file ++ [h]) ?_ ?_ kk
      · simp [filesAt, setFolder, hdisk, noFolder]
      · simp [filesAt, setFolder, hdisk, noFolder, addForest]
    all_goals
      intro kk
      refine key ((k.top.file ++ [h]).take m) k.top.first _ [] ?_ ?_ kk
      · simp [filesAt, setFolder, hdisk, noFolder, openedFolder]
      · simp [filesAt, setFolder, hdisk, noFolder, openedFolder]

/-- **C95.** From the moment the forest has been described on, the cake can be saved: creating its top tier with the first index
increased by the size of a batch makes the files those of the cake after the append. -/
theorem killed_bake_can_be_saved {ent : List Entry → Nat → Nat} (he : EntropyOK ent) {s : Settings} {t0 : TierConfig}
    (hs : SettingsOK s t0) {ops : List Op} {h : Bytes} (hh : History s t0 (ops ++ [.append h]))
    (hfull : (appended ops).length % s.cap + 1 = s.cap) {k0 k k' : Cake} {given given' : List Int}
    (h0 : newCake s = .ok k0) (hr : run ent s k0 ops = .ok (k, given))
    (hr' : run ent s k0 (ops ++ [.append h]) = .ok (k', given')) (p : Moment)
    (hp : p = .described ∨ p = .unlinked ∨ p = .bare ∨ p = .blank ∨ p = .done) :
    ∃ fs, killedBaking ent s k h p = some fs ∧ fs.createTop ((appended ops).length + 1) = closedFiles k' ∧
      (p = .done → fs = closedFiles k') := by
  obtain ⟨bs, cur, f, hi, hi', a1, hcur, hf, -, hd⟩ := baking he hs hh hfull h0 hr hr'
  have hfirst : k'.top.first = ((appended ops).length + 1 : Int) := by
    rw [hi'.first, a1]
    simp
    omega
  have hf' : k.top.first + (k.top.file.length + 1) = ((appended ops).length + 1 : Int) := by
    rw [hi.first, hi.file, a1, List.length_append]
    omega
  refine ⟨_, by unfold killedBaking; rw [hf]; rfl, ?_, ?_⟩
  · unfold Files.createTop closedFiles
    rw [hi'.file, hfirst]
    rcases hp with rfl | rfl | rfl | rfl | rfl <;> (simp only [filesAt]; rw [hd])
  · rintro rfl
    unfold closedFiles
    simp only [filesAt]
    rw [hi'.file, hfirst, hf', hd]

/-! ## Creating a cake where there is one -/

/-- **C96: violated.** Creating a cake where there is one that has baked does not give an empty one: every hash of a batch is still
found, under its old index (or that of one it looks like), and the next hash appended gets the index 0, which is taken. -/
theorem recreated_cake_remembers {ent : List Entry → Nat → Nat} (he : EntropyOK ent) {s : Settings} {t0 : TierConfig}
    (hs : SettingsOK s t0) (hcap : 1 < s.cap) {ops : List Op} (hh : History s t0 ops) {k0 k : Cake} {given : List Int}
    (h0 : newCake s = .ok k0) (hr : run ent s k0 ops = .ok (k, given)) :
    ∃ kc, (closedFiles k).create.openCake s = .ok kc ∧
      (∀ n q, (appended ops)[n]? = some q → n < (appended ops).length / s.cap * s.cap →
        ∃ i : Nat, indexOfHash kc q = some (i : Int) ∧ i ≤ n ∧
          (i = n ∨ ∃ x b, (appended ops)[i]? = some x ∧ x ∈ b ∧ Plausible t0.c b x q)) ∧
      ∀ m x, x.length = 32 → ∃ k1, append ent s m kc (.own x) = .ok (k1, 0) := by
  obtain ⟨bs, cur, hi, a1, -, a3⟩ := history_inv he hs hh h0 hr
  have hnd := hh.nodup
  have h32 := hh.len
  rw [a1] at hnd h32
  obtain ⟨kc, c1, c2, c3⟩ := recreated_inv he hs hcap hi (fun x hx => h32 x (List.mem_append_left _ hx))
    (List.Sublist.nodup (List.sublist_append_left _ _) hnd) (closedFiles k) rfl
  refine ⟨kc, c1, ?_, c3⟩
  intro n q hq hn
  rw [← a3, ← flatten_len hi.sizes] at hn
  rw [a1, List.getElem?_append_left hn] at hq
  obtain ⟨i, d1, d2, d3⟩ := c2 n q hq
  refine ⟨i, d1, d2, ?_⟩
  rcases d3 with d3 | ⟨x, b, d4, d5, d6⟩
  · exact .inl d3
  · refine .inr ⟨x, b, ?_, d5, d6⟩
    rw [a1, List.getElem?_append_left (by omega)]
    exact d4

/-- **C96: partial.** Creating a cake where there is none, or one that has never baked, gives a new cake. Missing: where one has
baked (`recreated_cake_remembers`). -/
theorem created_cake_is_new_partial {ent : List Entry → Nat → Nat} (he : EntropyOK ent) {s : Settings} {t0 : TierConfig}
    (hs : SettingsOK s t0) :
    (∀ fs : Files, (∀ i, fs.tiers i = noFolder) → fs.create.exist = true ∧ fs.create.openCake s = newCake s) ∧
    ∀ (ops : List Op), History s t0 ops → (appended ops).length < s.cap → ∀ (k0 k : Cake) (given : List Int),
      newCake s = .ok k0 → run ent s k0 ops = .ok (k, given) → (closedFiles k).create.openCake s = .ok k0 := by
  have h1 : ∀ fs : Files, (∀ i, fs.tiers i = noFolder) → fs.create.exist = true ∧ fs.create.openCake s = newCake s := by
    intro fs hf
    have : fs.tiers = fun _ => noFolder := funext hf
    refine ⟨rfl, ?_⟩
    unfold Files.openCake Files.create Files.createTop newCake
    dsimp only
    rw [this]
  refine ⟨h1, ?_⟩
  intro ops hh hlt k0 k given h0 hr
  obtain ⟨bs, cur, hi, a1, -, a3⟩ := history_inv he hs hh h0 hr
  rw [Nat.div_eq_of_lt hlt] at a3
  have hbs := List.length_eq_zero_iff.1 a3
  subst hbs
  rw [(h1 (closedFiles k) ?_).2, h0]
  intro i
  rcases Nat.eq_zero_or_pos i with h | h
  · subst h
    have := hi.folder
    rw [bakeAll] at this
    exact (Option.some.inj this).symm
  · exact hi.others i h

/-! ## Examples -/

/-- The third append bakes for the second time if batches have two hashes. -/
example : ∃ k0 k k' : Cake, newCake demoSettings = .ok k0 ∧ run demoEnt demoSettings k0 (demoOps.take 3) = .ok (k, [0, 1, 2]) ∧
    run demoEnt demoSettings k0 (demoOps.take 3 ++ [.append (demoH 4)]) = .ok (k', [0, 1, 2, 3]) ∧
    (∃ fs, killedBaking demoEnt demoSettings k (demoH 4) .unlinked = some fs ∧ fs.exist = false) ∧
    (∃ fs kk, killedBaking demoEnt demoSettings k (demoH 4) .described = some fs ∧ fs.openCake demoSettings = .ok kk ∧
      append demoEnt demoSettings (fun _ => []) kk (.own (demoH 5)) = .panic ∧ indexOfHash kk (demoH 4) = some 3) ∧
    (∃ kk, (closedFiles k').create.openCake demoSettings = .ok kk ∧ indexOfHash kk (demoH 1) = some 0 ∧
      ∃ k1, append demoEnt demoSettings (fun _ => []) kk (.own (demoH 5)) = .ok (k1, 0)) ∧
    ∃ kk, (killedFiles k 0).openCake demoSettings = .ok kk ∧
      run demoEnt demoSettings k0 (demoOps.take 2 ++ [.reopen]) = .ok (kk, [0, 1]) := by
  have hh : History demoSettings ⟨demoTier, 0, 5⟩ (demoOps.take 3) := ⟨by decide, by decide, by decide⟩
  have hh' : History demoSettings ⟨demoTier, 0, 5⟩ (demoOps.take 3 ++ [.append (demoH 4)]) := ⟨by decide, by decide, by decide⟩
  have hsp : Spread 32 (appended (demoOps.take 3)) := by unfold Spread; decide +kernel
  have hsp' : Spread 32 (appended (demoOps.take 3 ++ [.append (demoH 4)])) := by unfold Spread; decide +kernel
  obtain ⟨k0, h0, -⟩ := new_inv demoEnt demoSettings_ok (by decide)
  obtain ⟨k, hk⟩ := appends_in_order_partial demoEnt_ok demoSettings_ok hh (fun i => spread_of_distinct hsp i) h0
  obtain ⟨k', hk'⟩ := appends_in_order_partial demoEnt_ok demoSettings_ok hh' (fun i => spread_of_distinct hsp' i) h0
  obtain ⟨fs, kk, a1, a2, a3, -, a5⟩ := killed_before_emptying demoEnt_ok demoSettings_ok hh' (by decide) h0 hk hk'
  obtain ⟨-, b2⟩ := killed_while_emptying demoEnt_ok demoSettings_ok (by decide) hh' (by decide) h0 hk hk'
  obtain ⟨fs2, kc, b3, b4, -⟩ := b2 .unlinked (.inl rfl)
  obtain ⟨kr, c1, c2, c3⟩ := recreated_cake_remembers demoEnt_ok demoSettings_ok (by decide) hh' h0 hk'
  obtain ⟨kl, d1, d2⟩ := killed_between_bakes_partial demoEnt_ok demoSettings_ok (kept := demoOps.take 2) (lost := [.append (demoH 3)])
    (by exact hh) (by decide) h0 hk
  refine ⟨k0, k, k', h0, hk, hk', ⟨fs2, b3, b4⟩, ⟨fs, kk, a1, a2, a3 _ _, a5 3 _ rfl (by decide)⟩, ⟨kr, c1, ?_, c3 _ _ (by decide)⟩,
    kl, d1, d2⟩
  obtain ⟨i, e1, e2, -⟩ := c2 0 (demoH 1) rfl (by decide)
  obtain rfl : i = 0 := by omega
  exact e1

/-- The second append bakes for the first time. -/
example : ∃ k0 k : Cake, newCake demoSettings = .ok k0 ∧ run demoEnt demoSettings k0 (demoOps.take 1) = .ok (k, [0]) ∧
    (∃ fs, killedBaking demoEnt demoSettings k (demoH 2) (.levels 1) = some fs ∧ fs.exist = true ∧ ∀ kk, fs.openCake demoSettings ≠ .ok kk) ∧
    (closedFiles k).create.openCake demoSettings = .ok k0 := by
  have hh : History demoSettings ⟨demoTier, 0, 5⟩ (demoOps.take 1) := ⟨by decide, by decide, by decide⟩
  have hh' : History demoSettings ⟨demoTier, 0, 5⟩ (demoOps.take 1 ++ [.append (demoH 2)]) := ⟨by decide, by decide, by decide⟩
  have hsp : Spread 32 (appended (demoOps.take 1)) := by unfold Spread; decide +kernel
  have hsp' : Spread 32 (appended (demoOps.take 1 ++ [.append (demoH 2)])) := by unfold Spread; decide +kernel
  obtain ⟨k0, h0, -⟩ := new_inv demoEnt demoSettings_ok (by decide)
  obtain ⟨k, hk⟩ := appends_in_order_partial demoEnt_ok demoSettings_ok hh (fun i => spread_of_distinct hsp i) h0
  obtain ⟨k', hk'⟩ := appends_in_order_partial demoEnt_ok demoSettings_ok hh' (fun i => spread_of_distinct hsp' i) h0
  exact ⟨k0, k, h0, hk, killed_in_first_bake demoEnt_ok demoSettings_ok hh' (by decide) h0 hk hk' (.levels 1)
    (.inr ⟨1, .inr (.inl rfl)⟩), (created_cake_is_new_partial demoEnt_ok demoSettings_ok).2 _ hh (by decide) _ _ _ h0 hk⟩

end Verif.Cake
