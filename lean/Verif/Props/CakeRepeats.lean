import Verif.Props.Cake

/-!
# Hashes appended to a cake more than once

The README of the cake (weddingcakefront/README.md) says that repeated hashes are tolerated, that the hash at each index
is given back, and that a lookup by hash gives the first index the hash was appended under.
-/

namespace Verif.CakeRepeats

open Verif.ShallowTree Verif.Chunk Verif.SingleTree Verif.DonutForest Verif.Cake
open Verif.TierTop (Memory Cell)

/-! ## Specification -/

/-- The first place of a hash among those appended. -/
def FirstAt (l : List Bytes) (q : Bytes) (n : Nat) : Prop := l[n]? = some q ∧ ∀ j : Nat, j < n → l[j]? ≠ some q

/-- Its last place. -/
def LastAt (l : List Bytes) (q : Bytes) (n : Nat) : Prop := l[n]? = some q ∧ ∀ j : Nat, n < j → l[j]? ≠ some q

/-- The hashes appended since the last full batch of `cap`. -/
def recent (cap : Nat) (l : List Bytes) : List Bytes := l.drop (l.length / cap * cap)

/-- A history on a new cake of hashes, repeated or not, with less than what fills the first tier. -/
structure Past (s : Settings) (t0 : TierConfig) (ops : List Op) : Prop where
  len : ∀ h ∈ appended ops, h.length = 32
  count : (appended ops).length < t0.quota * s.cap

/-! ## Batches -/

theorem take_batch {cap : Nat} {bs : List (List Bytes)} {cur : List Bytes} (hsz : ∀ b ∈ bs, b.length = cap) {i : Nat} {b : List Bytes}
    (hb : bs[i]? = some b) : ((bs.flatten ++ cur).drop (i * cap)).take cap = b := by
  obtain ⟨hlt, hget⟩ := List.getElem?_eq_some_iff.1 hb
  have hL : bs = bs.take i ++ b :: bs.drop (i + 1) := by
    rw [← hget, List.getElem_cons_drop, List.take_append_drop]
  have h1 : (bs.take i).flatten.length = i * cap := by
    rw [flatten_len (fun x hx => hsz x (List.mem_of_mem_take hx)), List.length_take, Nat.min_eq_left (by omega)]
  have h2 := hsz b (List.mem_of_getElem? hb)
  rw [hL, List.flatten_append, List.flatten_cons, List.append_assoc, List.append_assoc, ← h1, List.drop_left,
    ← h2, List.take_left]

theorem bakeable_of_inv {ent : List Entry → Nat → Nat} {s : Settings} {t0 : TierConfig} {k : Cake} {bs : List (List Bytes)}
    {cur : List Bytes} {dead : Bool} (hi : Inv ent s t0 k bs cur dead) : Bakeable s.cap (bs.flatten ++ cur) := by
  intro i h
  have hsz := hi.size
  rw [List.length_append, flatten_len hi.sizes] at h
  have hlt : i < bs.length := by
    rcases Nat.lt_or_ge i bs.length with h' | h'
    · exact h'
    · have := Nat.mul_le_mul_right s.cap h'
      rw [Nat.succ_mul] at h
      omega
  rw [take_batch hi.sizes (List.getElem?_eq_getElem hlt)]
  exact (hi.batches _ (List.getElem_mem hlt)).nodup

theorem recent_eq {cap : Nat} {bs : List (List Bytes)} {cur : List Bytes} (hsz : ∀ b ∈ bs, b.length = cap) (hc : cur.length < cap) :
    recent cap (bs.flatten ++ cur) = cur := by
  unfold recent
  have h := flatten_len hsz
  rw [List.length_append, h, div_batches hc, ← h, List.drop_left]

theorem baked_len {cap : Nat} {bs : List (List Bytes)} {cur : List Bytes} (hsz : ∀ b ∈ bs, b.length = cap) (hc : cur.length < cap) :
    (bs.flatten ++ cur).length / cap * cap = bs.flatten.length := by
  rw [List.length_append, flatten_len hsz, div_batches hc]

theorem quota_pos {s : Settings} {t0 : TierConfig} {ops : List Op} (hp : Past s t0 ops) : 0 < t0.quota := by
  rcases Nat.eq_zero_or_pos t0.quota with h | h
  · have := hp.count; rw [h] at this; omega
  · exact h

/-! ## Appending -/

/-- **C122: partial.** Hashes may be repeated as long as no batch has one twice: every append is numbered in order.
Missing: a repeat within a batch (`a_repeat_in_a_batch_crashes`), two different hashes of a batch that agree in nine or more
bytes, and filling the first tier. -/
theorem repeats_across_batches_are_taken_partial {ent : List Entry → Nat → Nat} (he : EntropyOK ent) {s : Settings} {t0 : TierConfig}
    (hs : SettingsOK s t0) {ops : List Op} (hp : Past s t0 ops) (hb : Bakeable s.cap (appended ops))
    (hsp : ∀ i, Spread 32 (((appended ops).drop (i * s.cap)).take s.cap)) {k0 : Cake} (h0 : newCake s = .ok k0) :
    ∃ k, run ent s k0 ops = .ok (k, (List.range (appended ops).length).map Int.ofNat) := by
  obtain ⟨k1, e1, hi⟩ := new_inv ent hs (quota_pos hp)
  rw [h0] at e1
  injection e1 with e1
  subst e1
  obtain ⟨r, hr⟩ := (run_past he hs ops k0 [] 0 ⟨⟨[], [], by simpa using hi, rfl⟩, by simp⟩ hp.len
    (by simpa using hp.count)).2.2 (by simpa using hsp) (by simpa using hb)
  obtain ⟨k, given⟩ := r
  obtain ⟨bs, cur, -, -, h3, -⟩ := past_inv he hs hp.len hp.count h0 hr
  exact ⟨k, by rw [hr, h3]⟩

/-- **C122 fails.** If a hash is twice in a full batch, the program has crashed. -/
theorem a_repeat_in_a_batch_crashes {ent : List Entry → Nat → Nat} (he : EntropyOK ent) {s : Settings} {t0 : TierConfig}
    (hs : SettingsOK s t0) {ops : List Op} (hp : Past s t0 ops) (hb : ¬ Bakeable s.cap (appended ops)) {k0 : Cake}
    (h0 : newCake s = .ok k0) : run ent s k0 ops = .panic := by
  obtain ⟨k1, e1, hi⟩ := new_inv ent hs (quota_pos hp)
  rw [h0] at e1
  injection e1 with e1
  subst e1
  have h2 := (run_past he hs ops k0 [] 0 ⟨⟨[], [], by simpa using hi, rfl⟩, by simp⟩ hp.len (by simpa using hp.count)).2.1
  cases hr : run ent s k0 ops with
  | panic => rfl
  | error => exact absurd hr h2
  | ok r =>
    exfalso
    obtain ⟨k, given⟩ := r
    obtain ⟨bs, cur, hi, e1, -, -⟩ := past_inv he hs hp.len hp.count h0 hr
    rw [e1] at hb
    exact hb (bakeable_of_inv hi)

theorem appended_append : ∀ (a b : List Op), appended (a ++ b) = appended a ++ appended b := by
  intro a b
  induction a with
  | nil => rfl
  | cons x a ih => cases x <;> simp [appended, ih]

/-- **C122 fails.** A hash appended twice since the last full batch dooms the cake: whatever is done after, opening it
again included, the program crashes before another batch is full. -/
theorem a_repeat_dooms_the_cake {ent : List Entry → Nat → Nat} (he : EntropyOK ent) {s : Settings} {t0 : TierConfig}
    (hs : SettingsOK s t0) {ops more : List Op} (hp : Past s t0 (ops ++ more)) (hr : ¬ (recent s.cap (appended ops)).Nodup)
    (hfull : ((appended ops).length / s.cap + 1) * s.cap ≤ (appended (ops ++ more)).length) {k0 : Cake}
    (h0 : newCake s = .ok k0) : run ent s k0 (ops ++ more) = .panic := by
  refine a_repeat_in_a_batch_crashes he hs hp (fun hb => hr ?_) h0
  have h := hb _ hfull
  rw [appended_append] at h
  refine List.Sublist.nodup ?_ h
  unfold recent
  have hle : (appended ops).length / s.cap * s.cap ≤ (appended ops).length := Nat.div_mul_le_self _ _
  have hlt : (appended ops).length < ((appended ops).length / s.cap + 1) * s.cap := by
    have := Nat.lt_div_mul_add (a := (appended ops).length) hs.capPos
    rw [Nat.succ_mul]
    exact this
  rw [List.drop_append_of_le_length hle, List.take_append, List.take_of_length_le (by
    rw [List.length_drop]
    rw [Nat.succ_mul] at hlt
    omega)]
  exact List.sublist_append_left _ _

/-! ## Filling the first tier -/

theorem toLocal_hashes {c : Config} {first : Int} : ∀ (l loc : List Entry), toLocal c first l = some loc → loc.map (·.hash) = l.map (·.hash)
  | [], loc, h => by injection h with h; subst h; rfl
  | e :: es, loc, h => by
    rw [toLocal] at h
    split at h
    · cases h
    · cases hr : toLocal c first es with
      | none => rw [hr] at h; cases h
      | some x =>
        rw [hr] at h
        injection h with h
        subst h
        rw [List.map_cons, List.map_cons, toLocal_hashes es x hr]

theorem treeOf_distinct {ent : List Entry → Nat → Nat} {c : Config} {pre : Nat} {first : Int} {bucket : List Entry} {t : Tree}
    (h : treeOf ent c pre first bucket = some t) : (bucket.map (·.hash)).Nodup := by
  unfold treeOf at h
  split at h
  · cases h
  next loc hloc =>
  rw [← toLocal_hashes _ _ hloc]
  split at h
  · cases h
  unfold generateSingle at h
  split at h
  · cases h
  split at h
  · cases h
  split at h
  · cases h
  split at h
  · cases h
  split at h
  · simp
  · simp
  · exact gen_nodup _ _ _ _ h

theorem allTrees_distinct {ent : List Entry → Nat → Nat} {c : Config} {pre : Nat} {first : Int} : ∀ (bs : List (List Entry)) {ts : List Tree},
    allTrees ent c pre first bs = some ts → ∀ b ∈ bs, (b.map (·.hash)).Nodup
  | [], _, _, b, hb => by cases hb
  | x :: bs, ts, h, b, hb => by
    rw [allTrees] at h
    split at h
    · cases h
    next t ht =>
    cases hr : allTrees ent c pre first bs with
    | none => rw [hr] at h; cases h
    | some ts' =>
      rcases List.mem_cons.1 hb with rfl | hb
      · exact treeOf_distinct ht
      · exact allTrees_distinct bs hr b hb

/-- Equal hashes go into the same bucket. -/
theorem distinct_of_buckets {f : Bytes → UInt8} : ∀ (l : List Entry),
    (∀ v, ((l.filter fun e => decide (f e.hash = v)).map (·.hash)).Nodup) → (l.map (·.hash)).Nodup
  | [], _ => by simp
  | e :: l, h => by
    rw [List.map_cons, List.nodup_cons]
    constructor
    · intro hm
      obtain ⟨e', he', heq⟩ := List.mem_map.1 hm
      have := h (f e.hash)
      rw [List.filter_cons_of_pos (by simp), List.map_cons, List.nodup_cons] at this
      exact this.1 (List.mem_map.2 ⟨e', List.mem_filter.2 ⟨he', by rw [heq]; simp⟩, heq⟩)
    · refine distinct_of_buckets (f := f) l fun v => List.Sublist.nodup ?_ (h v)
      exact ((List.sublist_cons_self e l).filter _).map _

/-- A bake that does not panic has had no hash twice in one of its sources. -/
theorem bake_distinct {ent : List Entry → Nat → Nat} {c : Config} {pre : Nat} {first : Int} {source : List (List Entry)} {f : Forest}
    (h : bake ent c pre first source = some f) : ∀ l ∈ source, (l.map (·.hash)).Nodup := by
  intro l hl
  unfold bake at h
  split at h
  · cases h
  next ts hts =>
  have hall := allTrees_distinct _ hts
  have hsub : ∀ b ∈ split pre l, (b.map (·.hash)).Nodup := fun b hb => hall b (List.mem_flatMap.2 ⟨l, hl, hb⟩)
  unfold split at hsub
  split at hsub
  · exact hsub l (by simp)
  · refine distinct_of_buckets (f := fun h => byteAt h (pre - 1)) l fun v => hsub _ ?_
    exact List.mem_map.2 ⟨v, mem_allBytes v, rfl⟩

/-- The append that fills the first tier, if a hash is in it twice. -/
theorem append_fills {ent : List Entry → Nat → Nat} (he : EntropyOK ent) {s : Settings} {t0 : TierConfig} (hs : SettingsOK s t0) {k : Cake}
    {bs : List (List Bytes)} {cur : List Bytes} {dead : Bool} (hi : Inv ent s t0 k bs cur dead) {m : Memory} {h : Bytes} (h32 : h.length = 32)
    (hc : cur.length + 1 = s.cap) (hq : bs.length + 1 = t0.quota) (hrep : ¬ (bs.flatten ++ (cur ++ [h])).Nodup) :
    append ent s m k (.own h) = .panic := by
  by_cases hn : (cur ++ [h]).Nodup
  swap
  · exact append_repeat he hs hi h32 hn hc
  have hlen : k.top.cells.length = cur.length := by rw [hi.cells, List.length_map]
  have hclen : (cur ++ [h]).length = s.cap := by simpa using hc
  have hb : ∀ x ∈ bs ++ [cur ++ [h]], Batch t0.c x := by
    intro x hx
    rcases List.mem_append.1 hx with hx | hx
    · exact hi.batches x hx
    · rw [List.mem_singleton] at hx
      subst hx
      refine ⟨by simp, fun y hy => ?_, hn, by rw [hclen]; exact hs.capIds, by rw [hclen]; exact hs.capNodes⟩
      rw [hs.length]
      rcases List.mem_append.1 hy with hy | hy
      · exact hi.len y hy
      · rw [List.mem_singleton] at hy; rw [hy]; exact h32
  have hsz : ∀ x ∈ bs ++ [cur ++ [h]], x.length = s.cap := by
    intro x hx
    rcases List.mem_append.1 hx with hx | hx
    · exact hi.sizes x hx
    · rw [List.mem_singleton] at hx
      subst hx
      exact hclen
  obtain ⟨f, e1, e2, fs, hg, ho⟩ := bake_more he hs hi.folder hb hsz hi.count
  obtain ⟨top, t1, -⟩ := TierTop.openTop_holds (file := []) (first := ((bs.flatten.length : Int) + (cur ++ [h]).length)) (by simp)
  have hw := writeTop_eq hs (m := m) (k := { k with top := { k.top with
      map := TierTop.setMap k.top.map h cur.length, cells := k.top.cells ++ [.own h], file := k.top.file ++ [h] } }) (b := cur ++ [h])
      (n := bs.flatten.length) (f := f) (by exact hi.first) (by dsimp only; rw [hi.cells, List.map_append]; rfl)
      (by dsimp only; rw [hi.file]) e1
  rw [TierTop.create, t1] at hw
  dsimp only at hw
  have happ : append ent s m k (.own h) = match writeTop ent s m { k with top := { k.top with
      map := TierTop.setMap k.top.map h cur.length, cells := k.top.cells ++ [.own h], file := k.top.file ++ [h] } } with
        | .ok k' => .ok (k', TierTop.globalOfTop cur.length k.top.first)
        | .error => .error
        | .panic => .panic := by
    unfold append
    dsimp only [Cell.read]
    rw [hlen, if_neg (by omega), if_neg (by omega), if_pos (by omega)]
    rfl
  by_cases hall : ∀ f ∈ fs, f.levels.length ≤ 10
  · rw [if_pos hall] at ho
    generalize ht : (⟨fs.map fun f => (f.first, f.levels), fs.flatMap (·.jumps), (bs ++ [cur ++ [h]]).flatten⟩ : Tier) = tier at ho
    obtain ⟨d, d1, d2⟩ := tier_gives_back_all_hashes he hs.sane (Inv.batchesOK (ent := ent) hs (by simp) hb hsz (by simp; omega))
    rw [e2] at d1
    obtain rfl := Option.some.inj d1
    obtain ⟨es, g1, g2⟩ := d2 _ _ ho
    have hlenf : tier.forests.length = t0.quota := by
      rw [← ht]
      dsimp only
      rw [List.length_map, hg.length]
      simpa using hq
    rw [ho] at hw
    dsimp only at hw
    rw [if_pos hlenf] at hw
    have hpanic : ∀ disk below, writeBelow ent s.tiers.tail disk (openedBelow 0 t0 tier) below = .panic := by
      intro disk below
      cases htl : s.tiers.tail with
      | nil => rfl
      | cons cfg cfgs =>
        rw [writeBelow]
        dsimp only [openedBelow]
        cases hf : tier.forests with
        | nil => rfl
        | cons a as =>
          dsimp only
          have htier : (⟨a :: as, tier.jumps, tier.hashes⟩ : Tier) = tier := by rw [← hf]
          have htake : takeOut t0 ⟨a :: as, tier.jumps, tier.hashes⟩ (256 ^ t0.pre) 0 = some [es] := by
            rw [htier, hs.pre, Nat.pow_zero, takeOut, hs.pre, g1]
            rfl
          rw [htake]
          dsimp only
          cases hbk : bake ent cfg.c cfg.pre a.1 [es] with
          | none => rfl
          | some f' =>
            exfalso
            have h1 := bake_distinct hbk es (by simp)
            rw [(g2.map (·.hash)).nodup_iff, entriesOf_hash] at h1
            apply hrep
            simpa using h1
    rw [hpanic] at hw
    rw [happ, hw]
  · rw [if_neg hall] at ho
    rw [ho] at hw
    rw [happ, hw]

/-- The first appends of a history. -/
theorem split_at : ∀ (ops : List Op) (n : Nat), n < (appended ops).length →
    ∃ a h rest, ops = a ++ .append h :: rest ∧ (appended a).length = n
  | [], n, h => by simp [appended] at h
  | .reopen :: ops, n, h => by
    obtain ⟨a, x, rest, h1, h2⟩ := split_at ops n (by simpa [appended] using h)
    exact ⟨.reopen :: a, x, rest, by rw [h1]; rfl, by simpa [appended] using h2⟩
  | .append x :: ops, 0, h => ⟨[], x, ops, rfl, rfl⟩
  | .append x :: ops, n + 1, h => by
    obtain ⟨a, y, rest, h1, h2⟩ := split_at ops n (by simpa [appended] using h)
    exact ⟨.append x :: a, y, rest, by rw [h1]; rfl, by simp [appended, h2]⟩

/-- A crash comes of the first part of a history, or of the rest. -/
theorem run_panic (ent : List Entry → Nat → Nat) (s : Settings) : ∀ (a rest : List Op) (k : Cake),
    (run ent s k a = .panic ∨ ∃ r, run ent s k a = .ok r ∧ run ent s r.1 rest = .panic) → run ent s k (a ++ rest) = .panic := by
  intro a rest
  induction a with
  | nil =>
    intro k h
    rcases h with h | ⟨r, h1, h2⟩
    · simp [run] at h
    · injection h1 with h1
      subst h1
      exact h2
  | cons op a ih =>
    intro k h
    cases op with
    | reopen =>
      simp only [List.cons_append, run] at h ⊢
      cases hx : reopen s k with
      | ok q => rw [hx] at h; exact ih q h
      | error =>
        rw [hx] at h
        rcases h with h | ⟨r, h1, -⟩
        · cases h
        · cases h1
      | panic => rfl
    | append x =>
      simp only [List.cons_append, run] at h ⊢
      cases hx : append ent s (fun _ => []) k (.own x) with
      | ok q =>
        rw [hx] at h
        dsimp only at h ⊢
        have : run ent s q.1 (a ++ rest) = .panic := by
          apply ih
          cases hy : run ent s q.1 a with
          | panic => exact .inl rfl
          | error =>
            rw [hy] at h
            rcases h with h | ⟨r, h1, -⟩
            · cases h
            · cases h1
          | ok u =>
            rw [hy] at h
            rcases h with h | ⟨r, h1, h2⟩
            · cases h
            · injection h1 with h1
              subst h1
              exact .inr ⟨u, rfl, h2⟩
        rw [this]
      | error =>
        rw [hx] at h
        rcases h with h | ⟨r, h1, -⟩
        · cases h
        · cases h1
      | panic => rfl

/-- **C122 fails.** A hash twice in the batches that fill the first tier crashes the program when the tier is full, in
whichever batches it is and whatever else is done. -/
theorem a_repeat_in_the_first_tier_crashes {ent : List Entry → Nat → Nat} (he : EntropyOK ent) {s : Settings} {t0 : TierConfig}
    (hs : SettingsOK s t0) (hquota : 0 < t0.quota) {ops : List Op} (hlen : ∀ h ∈ appended ops, h.length = 32)
    (hfull : t0.quota * s.cap ≤ (appended ops).length) (hrep : ¬ ((appended ops).take (t0.quota * s.cap)).Nodup) {k0 : Cake}
    (h0 : newCake s = .ok k0) : run ent s k0 ops = .panic := by
  have hcap := hs.capPos
  have hpos : 0 < t0.quota * s.cap := Nat.mul_pos hquota hcap
  obtain ⟨a, h, rest, rfl, ha⟩ := split_at ops (t0.quota * s.cap - 1) (by omega)
  have happ : appended (a ++ .append h :: rest) = (appended a ++ [h]) ++ appended rest := by
    rw [appended_append]
    simp [appended]
  rw [happ] at hlen hrep
  rw [List.take_left' (by simp; omega)] at hrep
  have hp : Past s t0 a := ⟨fun x hx => hlen x (by simp [hx]), by omega⟩
  apply run_panic
  obtain ⟨k1, e1, hi⟩ := new_inv ent hs hquota
  rw [h0] at e1
  injection e1 with e1
  subst e1
  have h2 := (run_past he hs a k0 [] 0 ⟨⟨[], [], by simpa using hi, rfl⟩, by simp⟩ hp.len (by simpa using hp.count)).2.1
  cases hr : run ent s k0 a with
  | panic => exact .inl rfl
  | error => exact absurd hr h2
  | ok r =>
    refine .inr ⟨r, rfl, ?_⟩
    obtain ⟨k, given⟩ := r
    obtain ⟨bs, cur, hi, g1, -, -⟩ := past_inv he hs hp.len hp.count h0 hr
    have hfl := flatten_len hi.sizes
    have hsz := hi.size
    have hcnt := hi.count
    have htot : bs.length * s.cap + cur.length = t0.quota * s.cap - 1 := by
      rw [← ha, g1, List.length_append, hfl]
    have hq : bs.length + 1 = t0.quota := by
      rcases Nat.lt_or_ge (bs.length + 1) t0.quota with hl | hl
      · exfalso
        have h3 := Nat.mul_le_mul_right s.cap (show bs.length + 1 + 1 ≤ t0.quota from hl)
        rw [Nat.succ_mul, Nat.succ_mul] at h3
        omega
      · omega
    have hc : cur.length + 1 = s.cap := by
      rw [← hq, Nat.succ_mul] at htot
      omega
    have := append_fills he hs hi (m := fun _ => []) (hlen h (by simp)) hc hq (by
      rw [g1, List.append_assoc] at hrep
      exact hrep)
    simp only [run, this]

/-! ## Lookup by hash -/

/-- **C122 fails.** A hash appended since the last full batch is given its latest index, not its first. -/
theorem a_recent_repeat_is_given_its_last_index {ent : List Entry → Nat → Nat} (he : EntropyOK ent) {s : Settings} {t0 : TierConfig}
    (hs : SettingsOK s t0) {ops : List Op} (hp : Past s t0 ops) {k0 k : Cake} {given : List Int} (h0 : newCake s = .ok k0)
    (hr : run ent s k0 ops = .ok (k, given)) {q : Bytes} (hq : q ∈ recent s.cap (appended ops)) {m : Nat}
    (hm : LastAt (appended ops) q m) : indexOfHash k q = some (m : Int) := by
  obtain ⟨bs, cur, hi, e1, -, -⟩ := past_inv he hs hp.len hp.count h0 hr
  have hq32 : q.length = 32 := hp.len q (List.mem_of_mem_drop hq)
  rw [e1, recent_eq hi.sizes hi.size] at hq
  rw [e1] at hm
  rcases lookup_last he hs hi hq32 with ⟨i, g1, g2, g3⟩ | ⟨g1, -⟩ | ⟨g1, -⟩
  · have hget : (bs.flatten ++ cur)[bs.flatten.length + i]? = some q := by
      rw [List.getElem?_append_right (by omega), Nat.add_sub_cancel_left]
      exact g1
    have hmi : m = bs.flatten.length + i := by
      rcases Nat.lt_trichotomy m (bs.flatten.length + i) with h | h | h
      · exact absurd hget (hm.2 _ h)
      · exact h
      · exfalso
        have h1 := hm.1
        rw [List.getElem?_append_right (by omega)] at h1
        exact g2 _ (by omega) h1
    rw [g3, hmi]
    rfl
  · exact absurd hq g1
  · exact absurd hq g1

/-- **C122: partial.** A hash of which every append lies in full batches is given its first index, or that of a hash `h`
appended earlier, or in the same batch, that it looks like; and with all 32 bytes reassured its first index. Missing: a hash
appended again since the last full batch (`a_recent_repeat_is_given_its_last_index`). -/
theorem a_baked_repeat_is_given_its_first_index_partial {ent : List Entry → Nat → Nat} (he : EntropyOK ent) {s : Settings} {t0 : TierConfig}
    (hs : SettingsOK s t0) {ops : List Op} (hp : Past s t0 ops) {k0 k : Cake} {given : List Int} (h0 : newCake s = .ok k0)
    (hr : run ent s k0 ops = .ok (k, given)) {q : Bytes} (hq : q ∉ recent s.cap (appended ops)) {n : Nat}
    (hn : FirstAt (appended ops) q n) :
    ∃ i : Nat, indexOfHash k q = some (i : Int) ∧ i ≤ n ∧
      (i = n ∨ t0.c.r ≠ 32 ∧ ∃ h b, (appended ops)[i]? = some h ∧ h ∈ b ∧ Plausible t0.c b h q) := by
  obtain ⟨bs, cur, hi, e1, -, -⟩ := past_inv he hs hp.len hp.count h0 hr
  have hq32 : q.length = 32 := hp.len q (List.mem_of_getElem? hn.1)
  rw [e1, recent_eq hi.sizes hi.size] at hq
  rw [e1] at hn ⊢
  rcases lookup_last he hs hi hq32 with ⟨i, g1, -⟩ | ⟨-, g2, -⟩ | ⟨-, pre, b, post, i, h, g2, g3, g4, g5, g6⟩
  · exact absurd (List.mem_of_getElem? g1) hq
  · exfalso
    rcases List.mem_append.1 (List.mem_of_getElem? hn.1) with h | h
    · exact g2 h
    · exact hq h
  · have hilt := (List.getElem?_eq_some_iff.1 g3).1
    have hbm : b ∈ bs := by rw [g2]; simp
    have hget : (bs.flatten ++ cur)[pre.flatten.length + i]? = some h := by
      rw [g2, List.flatten_append, List.flatten_cons, List.append_assoc, List.append_assoc,
        List.getElem?_append_right (by omega), Nat.add_sub_cancel_left, List.getElem?_append_left hilt]
      exact g3
    have hge : pre.flatten.length ≤ n := by
      rcases Nat.lt_or_ge n pre.flatten.length with hlt | hge
      · exfalso
        have h1 := hn.1
        rw [g2, List.flatten_append, List.append_assoc, List.getElem?_append_left hlt] at h1
        obtain ⟨b', hb', hmem⟩ := List.mem_flatten.1 (List.mem_of_getElem? h1)
        exact g5 b' hb' hmem
      · exact hge
    -- if it is the hash itself, the place is the first
    have hself : q = h → pre.flatten.length + i = n := by
      rintro rfl
      have hle : n ≤ pre.flatten.length + i := by
        rcases Nat.lt_or_ge (pre.flatten.length + i) n with h' | h'
        · exact absurd hget (hn.2 _ h')
        · exact h'
      have h1 := hn.1
      rw [g2, List.flatten_append, List.flatten_cons, List.append_assoc, List.append_assoc,
        List.getElem?_append_right hge, List.getElem?_append_left (by omega)] at h1
      obtain ⟨a1, a2⟩ := List.getElem?_eq_some_iff.1 h1
      obtain ⟨b1, b2⟩ := List.getElem?_eq_some_iff.1 g3
      have := (List.getElem_inj (hi.batches b hbm).nodup).1 (a2.trans b2.symm)
      omega
    refine ⟨pre.flatten.length + i, by rw [g6]; rfl, ?_, ?_⟩
    · rcases Nat.lt_or_ge n (pre.flatten.length + b.length) with hlt | hge'
      · have hqb : q ∈ b := by
          have h1 := hn.1
          rw [g2, List.flatten_append, List.flatten_cons, List.append_assoc, List.append_assoc,
            List.getElem?_append_right hge, List.getElem?_append_left (by omega)] at h1
          exact List.mem_of_getElem? h1
        exact Nat.le_of_eq (hself (g4.eq_of_mem hqb))
      · omega
    · by_cases hall : t0.c.r = 32
      · exact .inl (hself (g4.eq (by rw [hs.length, hall]; omega) ((hi.batches b hbm).len h (List.mem_of_getElem? g3))
          (by rw [hs.length]; exact hq32)))
      · exact .inr ⟨hall, h, b, hget, List.mem_of_getElem? g3, g4⟩

/-! ## Lookup by index -/

/-- **C122: partial.** The hash at an index in a full batch, or in the first batch, is the one appended under it, repeated
or not. Missing: the hashes since the last full batch, if that is not the first (`Cake.recent_hash_unreadable`). -/
theorem repeated_hashes_at_their_indices_partial {ent : List Entry → Nat → Nat} (he : EntropyOK ent) {s : Settings} {t0 : TierConfig}
    (hs : SettingsOK s t0) {ops : List Op} (hp : Past s t0 ops) {k0 k : Cake} {given : List Int} (h0 : newCake s = .ok k0)
    (hr : run ent s k0 ops = .ok (k, given)) (m : Memory) {n : Nat} {q : Bytes} (hq : (appended ops)[n]? = some q)
    (hn : n < (appended ops).length / s.cap * s.cap ∨ (appended ops).length < s.cap) : getHashAtIndex m k n = some (some q) := by
  obtain ⟨bs, cur, hi, e1, -, e3⟩ := past_inv he hs hp.len hp.count h0 hr
  have hlt := (List.getElem?_eq_some_iff.1 hq).1
  rw [hash_at he hs hi]
  by_cases h : n < bs.flatten.length
  · rw [if_pos (by omega)]
    rw [e1, List.getElem?_append_left h] at hq
    simpa using hq
  · have hbs : bs = [] := by
      rcases hn with hn | hn
      · rw [e1, baked_len hi.sizes hi.size] at hn
        exact absurd hn h
      · rw [Nat.div_eq_of_lt hn] at e3
        exact List.length_eq_zero_iff.1 e3
    subst hbs
    rw [e1] at hlt hq
    simp only [List.flatten_nil, List.nil_append, List.length_nil] at hlt hq ⊢
    rw [if_neg (by omega), if_pos (by omega), if_pos trivial]
    simpa using hq

/-! ## Examples -/

/-- Every byte reassured, batches of two. -/
def allTier : TierConfig := ⟨⟨32, 32, 10, 2, 2, true⟩, 0, 5⟩
def allSettings : Settings := ⟨2, [allTier]⟩

theorem allSettings_ok : SettingsOK allSettings allTier :=
  ⟨⟨_, rfl⟩, ⟨⟨by decide, by decide, by decide, by decide, by decide⟩, rfl, by decide, by decide, by decide⟩, rfl, rfl, by decide,
    by decide, by decide, by decide, by decide⟩

/-- The first hash is appended again in the second batch. -/
def repOps : List Op := [.append (demoH 1), .append (demoH 2), .append (demoH 1)]

theorem small_batches {l : List Bytes} (h : l.length < 6) (h1 : ((l.drop 0).take 2).Nodup) (h2 : ((l.drop 2).take 2).Nodup) :
    Bakeable 2 l := by
  intro i hi
  have : i = 0 ∨ i = 1 := by omega
  rcases this with rfl | rfl
  · exact h1
  · exact h2

/-- A hash repeated in another batch: index 0 at first, 2 when it is appended again, and 0 again when the second batch is
full. Both of its indices give it back. -/
example : ∃ k0 k1 k2 k3 : Cake, newCake allSettings = .ok k0 ∧
    run demoEnt allSettings k0 (repOps.take 2) = .ok (k1, [0, 1]) ∧ indexOfHash k1 (demoH 1) = some 0 ∧
    run demoEnt allSettings k0 repOps = .ok (k2, [0, 1, 2]) ∧ indexOfHash k2 (demoH 1) = some 2 ∧
    run demoEnt allSettings k0 (repOps ++ [.append (demoH 3)]) = .ok (k3, [0, 1, 2, 3]) ∧ indexOfHash k3 (demoH 1) = some 0 ∧
    getHashAtIndex (fun _ => []) k3 0 = some (some (demoH 1)) ∧ getHashAtIndex (fun _ => []) k3 2 = some (some (demoH 1)) := by
  have p1 : Past allSettings allTier (repOps.take 2) := ⟨by decide, by decide⟩
  have p2 : Past allSettings allTier repOps := ⟨by decide, by decide⟩
  have p3 : Past allSettings allTier (repOps ++ [.append (demoH 3)]) := ⟨by decide, by decide⟩
  have hsp : Spread 32 (appended (repOps ++ [.append (demoH 3)])) := by unfold Spread; decide +kernel
  have hsp2 : Spread 32 (appended repOps) := by unfold Spread; decide +kernel
  have hsp1 : Spread 32 (appended (repOps.take 2)) := by unfold Spread; decide +kernel
  have b1 : Bakeable 2 (appended (repOps.take 2)) := small_batches (by decide) (by decide) (by decide)
  have b2 : Bakeable 2 (appended repOps) := small_batches (by decide) (by decide) (by decide)
  have b3 : Bakeable 2 (appended (repOps ++ [.append (demoH 3)])) := small_batches (by decide) (by decide) (by decide)
  obtain ⟨k0, h0, -⟩ := new_inv demoEnt allSettings_ok (by decide)
  obtain ⟨k1, r1⟩ := repeats_across_batches_are_taken_partial demoEnt_ok allSettings_ok p1 b1 (fun i => spread_of_distinct hsp1 i) h0
  obtain ⟨k2, r2⟩ := repeats_across_batches_are_taken_partial demoEnt_ok allSettings_ok p2 b2 (fun i => spread_of_distinct hsp2 i) h0
  obtain ⟨k3, r3⟩ := repeats_across_batches_are_taken_partial demoEnt_ok allSettings_ok p3 b3 (fun i => spread_of_distinct hsp i) h0
  have first : ∀ l : List Bytes, FirstAt (demoH 1 :: l) (demoH 1) 0 := fun l => ⟨rfl, fun j hj => by omega⟩
  refine ⟨k0, k1, k2, k3, h0, r1, ?_, r2, ?_, r3, ?_, ?_, ?_⟩
  · obtain ⟨i, g1, g2, -⟩ := a_baked_repeat_is_given_its_first_index_partial demoEnt_ok allSettings_ok p1 h0 r1 (q := demoH 1)
      (by decide) (first _)
    obtain rfl : i = 0 := by omega
    exact g1
  · exact a_recent_repeat_is_given_its_last_index demoEnt_ok allSettings_ok p2 h0 r2 (q := demoH 1) (by decide) (m := 2)
      ⟨rfl, fun j hj => by rw [List.getElem?_eq_none (by exact hj)]; simp⟩
  · obtain ⟨i, g1, g2, -⟩ := a_baked_repeat_is_given_its_first_index_partial demoEnt_ok allSettings_ok p3 h0 r3 (q := demoH 1)
      (by decide) (first _)
    obtain rfl : i = 0 := by omega
    exact g1
  · exact repeated_hashes_at_their_indices_partial demoEnt_ok allSettings_ok p3 h0 r3 _ (n := 0) rfl (.inl (by decide))
  · exact repeated_hashes_at_their_indices_partial demoEnt_ok allSettings_ok p3 h0 r3 _ (n := 2) rfl (.inl (by decide))

/-- A hash repeated in the same batch of three: found under its latest index, and the next append crashes, also if the cake
is opened again before. -/
example : ∃ k0, newCake ⟨3, [allTier]⟩ = .ok k0 ∧
    (∃ k, run demoEnt ⟨3, [allTier]⟩ k0 [.append (demoH 1), .append (demoH 1)] = .ok (k, [0, 1]) ∧
      indexOfHash k (demoH 1) = some 1) ∧
    run demoEnt ⟨3, [allTier]⟩ k0 [.append (demoH 1), .append (demoH 1), .reopen, .append (demoH 2)] = .panic := by
  have hs : SettingsOK ⟨3, [allTier]⟩ allTier :=
    ⟨⟨_, rfl⟩, allSettings_ok.sane, rfl, rfl, by decide, by decide, by decide, by decide, by decide⟩
  obtain ⟨k0, h0, -⟩ := new_inv demoEnt hs (by decide)
  have p1 : Past ⟨3, [allTier]⟩ allTier [.append (demoH 1), .append (demoH 1)] := ⟨by decide, by decide⟩
  have p2 : Past ⟨3, [allTier]⟩ allTier ([.append (demoH 1), .append (demoH 1)] ++ [.reopen, .append (demoH 2)]) :=
    ⟨by decide, by decide⟩
  have hsp : Spread 32 (appended [.append (demoH 1), .append (demoH 1)]) := by unfold Spread; decide +kernel
  obtain ⟨k, r⟩ := repeats_across_batches_are_taken_partial demoEnt_ok hs p1 (fun i hi => by
    exfalso
    have h2 : (appended [.append (demoH 1), .append (demoH 1)]).length = 2 := rfl
    rw [h2] at hi
    dsimp only at hi
    omega) (fun i => spread_of_distinct hsp i) h0
  refine ⟨k0, h0, ⟨k, r, ?_⟩, a_repeat_dooms_the_cake demoEnt_ok hs p2 (by decide) (by decide) h0⟩
  exact a_recent_repeat_is_given_its_last_index demoEnt_ok hs p1 h0 r (q := demoH 1) (by decide) (m := 1)
    ⟨rfl, fun j hj => by rw [List.getElem?_eq_none (by exact hj)]; simp⟩

/-- Two batches of one hash fill the first tier, and it is the same hash: the second append crashes. -/
example : ∃ k0, newCake ⟨1, [⟨demoTier, 0, 2⟩, ⟨demoTier, 0, 5⟩]⟩ = .ok k0 ∧
    run demoEnt ⟨1, [⟨demoTier, 0, 2⟩, ⟨demoTier, 0, 5⟩]⟩ k0 [.append (demoH 1), .reopen, .append (demoH 1), .append (demoH 2)] = .panic := by
  have hs : SettingsOK ⟨1, [⟨demoTier, 0, 2⟩, ⟨demoTier, 0, 5⟩]⟩ ⟨demoTier, 0, 2⟩ :=
    ⟨⟨_, rfl⟩, demoTier_sane, rfl, rfl, by decide, by decide, by decide, by decide, by decide⟩
  obtain ⟨k0, h0, -⟩ := new_inv demoEnt hs (by decide)
  exact ⟨k0, h0, a_repeat_in_the_first_tier_crashes demoEnt_ok hs (by decide) (by decide) (by decide) (by decide) h0⟩

end Verif.CakeRepeats
