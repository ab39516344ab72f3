import Verif.Model.Cake
import Verif.Props.TierTop
import Verif.Props.DonutForest

/-!
# What holds of a cake as long as its first tier has not been baked into the next
-/

namespace Verif.Cake

open Verif.ShallowTree Verif.Chunk Verif.SingleTree Verif.DonutForest Verif.TierTop

/-- A tier with nothing in it. -/
def Blank (b : Below) : Prop := b.forests = []

/-- A tier that has been closed although it has forests. -/
def Dead (b : Below) : Prop := b.forests ≠ [] ∧ b.jumps = none ∧ b.hashes = none

/-- Whether some object left in the chain is dead. -/
def Rest : Bool → List Below → Prop
  | false, bs => ∀ b ∈ bs, Blank b
  | true, bs => ∃ pre b post, bs = pre ++ b :: post ∧ (∀ b ∈ pre, Blank b) ∧ Dead b

/-- The settings considered: the first tier is as in the program. -/
structure SettingsOK (s : Settings) (t0 : TierConfig) : Prop where
  tiers : ∃ rest, s.tiers = t0 :: rest
  sane : Sane t0.c
  length : t0.c.hl = 32
  pre : t0.pre = 0
  quota : t0.quota ≤ 255
  capPos : 0 < s.cap
  capTop : s.cap ≤ 65535
  capIds : s.cap < 256 ^ t0.c.hw
  capNodes : s.cap < 256 ^ t0.c.w

/-- The state of a cake to which the batches `bs` and then the hashes `cur` have been appended. -/
structure Inv (ent : List Entry → Nat → Nat) (s : Settings) (t0 : TierConfig) (k : Cake) (bs : List (List Bytes)) (cur : List Bytes) (dead : Bool) : Prop where
  size : cur.length < s.cap
  sizes : ∀ b ∈ bs, b.length = s.cap
  len : ∀ h ∈ cur, h.length = 32
  batches : ∀ b ∈ bs, Batch t0.c b
  count : bs.length < t0.quota
  first : k.top.first = bs.flatten.length
  file : k.top.file = cur
  cells : k.top.cells = cur.map .own
  map : ∀ h i, k.top.map h = some i ↔ cur[i]? = some h ∧ ∀ j, i < j → cur[j]? ≠ some h
  folder : bakeAll ent t0.c 0 0 bs noFolder = some (k.disk 0)
  others : ∀ i, 0 < i → k.disk i = noFolder
  chain : ∃ b rest, k.chain = b :: rest ∧ Rest dead rest ∧ (bs = [] → Blank b) ∧
    (bs ≠ [] → ∃ tier, openTier t0.quota (k.disk 0) = .ok tier ∧ b = openedBelow 0 t0 tier)

theorem flatten_len {bs : List (List Bytes)} {cap : Nat} (h : ∀ b ∈ bs, b.length = cap) : bs.flatten.length = bs.length * cap := by
  induction bs with
  | nil => simp
  | cons b bs ih =>
    rw [List.flatten_cons, List.length_append, ih (fun x hx => h x (by simp [hx])), h b (by simp), List.length_cons, Nat.succ_mul]
    omega

theorem bakeAll_snoc (ent : List Entry → Nat → Nat) (c : Config) (pre : Nat) : ∀ (bs : List (List Bytes)) (first : Int) (d d' : DonutForest.Folder)
    (b : List Bytes), bakeAll ent c pre first bs d = some d' →
    bakeAll ent c pre first (bs ++ [b]) d =
      (bake ent c pre (first + bs.flatten.length) [entriesOf (first + bs.flatten.length) b]).map fun f => addForest d' f b := by
  intro bs
  induction bs with
  | nil =>
    intro first d d' b h
    rw [bakeAll] at h
    obtain rfl := Option.some.inj h
    rw [List.nil_append, bakeAll]
    simp only [List.flatten_nil, List.length_nil, Int.natCast_zero, Int.add_zero]
    cases bake ent c pre first [entriesOf first b] with
    | none => rfl
    | some f => simp [bakeAll]
  | cons x bs ih =>
    intro first d d' b h
    rw [bakeAll] at h
    rw [List.cons_append, bakeAll]
    cases hx : bake ent c pre first [entriesOf first x] with
    | none => rw [hx] at h; cases h
    | some f =>
      rw [hx] at h
      dsimp only at h ⊢
      rw [ih _ _ _ b h, List.flatten_cons, List.length_append]
      have : first + (x.length : Int) + (bs.flatten.length : Int) = first + ((x.length + bs.flatten.length : Nat) : Int) := by omega
      rw [this]

theorem Inv.batchesOK {ent : List Entry → Nat → Nat} {s : Settings} {t0 : TierConfig} (hs : SettingsOK s t0) {bs : List (List Bytes)}
    (hne : bs ≠ []) (hb : ∀ b ∈ bs, Batch t0.c b) (hl : ∀ b ∈ bs, b.length = s.cap) (hq : bs.length ≤ t0.quota) :
    Batches t0.c 0 bs := by
  refine ⟨hne, hb, by decide, ?_, by have := hs.quota; omega⟩
  rw [flatten_len hl]
  have h1 : bs.length * s.cap ≤ 255 * 65535 := Nat.mul_le_mul (by have := hs.quota; omega) hs.capTop
  omega

/-- What baking one more batch does to the first tier's folder. -/
theorem bake_more {ent : List Entry → Nat → Nat} (he : EntropyOK ent) {s : Settings} {t0 : TierConfig} (hs : SettingsOK s t0)
    {bs : List (List Bytes)} {b : List Bytes} {d : DonutForest.Folder} (hd : bakeAll ent t0.c 0 0 bs noFolder = some d)
    (hb : ∀ x ∈ bs ++ [b], Batch t0.c x) (hl : ∀ x ∈ bs ++ [b], x.length = s.cap) (hq : bs.length < t0.quota) :
    ∃ f, bake ent t0.c 0 bs.flatten.length [entriesOf bs.flatten.length b] = some f ∧
      bakeAll ent t0.c 0 0 (bs ++ [b]) noFolder = some (addForest d f b) ∧
      ∃ fs, GrownAll t0.c 0 (bs ++ [b]) fs ∧ openTier t0.quota (addForest d f b) =
        if ∀ f ∈ fs, f.levels.length ≤ 10 then
          .ok ⟨fs.map fun f => (f.first, f.levels), fs.flatMap (·.jumps), (bs ++ [b]).flatten⟩ else .panic := by
  have hB : Batches t0.c 0 (bs ++ [b]) := Inv.batchesOK (ent := ent) hs (by simp) hb hl (by simp; omega)
  obtain ⟨d', fs, e1, hg, ho⟩ := bake_and_open he hs.sane hB
  have e2 := bakeAll_snoc ent t0.c 0 bs 0 noFolder d b hd
  rw [e1, Int.zero_add] at e2
  cases hf : bake ent t0.c 0 bs.flatten.length [entriesOf bs.flatten.length b] with
  | none => rw [hf] at e2; cases e2
  | some f =>
    rw [hf, Option.map_some] at e2
    obtain rfl := Option.some.inj e2
    refine ⟨f, rfl, e1, fs, hg, ?_⟩
    rw [ho]
    have : (bs ++ [b]).length ≤ t0.quota := by simp; omega
    simp only [this, and_true]

/-! ## Steps -/

theorem append_small {ent : List Entry → Nat → Nat} {s : Settings} {t0 : TierConfig} {k : Cake} {bs : List (List Bytes)} {cur : List Bytes}
    {dead : Bool} (hi : Inv ent s t0 k bs cur dead) {m : Memory} {h : Bytes} (h32 : h.length = 32) (hc : cur.length + 1 < s.cap) :
    ∃ k', append ent s m k (.own h) = .ok (k', bs.flatten.length + cur.length) ∧ Inv ent s t0 k' bs (cur ++ [h]) dead := by
  have hlen : k.top.cells.length = cur.length := by rw [hi.cells, List.length_map]
  refine ⟨{ k with top := { k.top with
    map := setMap k.top.map h cur.length, cells := k.top.cells ++ [.own h], file := k.top.file ++ [h] } }, ?_, ?_⟩
  · unfold append
    dsimp only [Cell.read]
    rw [hlen, if_neg (by omega), if_neg (by omega), if_neg (by omega)]
    unfold globalOfTop
    rw [hi.first]
  · refine ⟨by rw [List.length_append, List.length_singleton]; omega, hi.sizes, ?_, hi.batches, hi.count, hi.first, ?_, ?_, ?_,
      hi.folder, hi.others, hi.chain⟩
    · intro x hx
      rcases List.mem_append.1 hx with hx | hx
      · exact hi.len x hx
      · rw [List.mem_singleton] at hx; rw [hx]; exact h32
    · dsimp only; rw [hi.file]
    · dsimp only; rw [hi.cells, List.map_append]; rfl
    · dsimp only; exact setMap_holds hi.map

theorem writeTop_eq {ent : List Entry → Nat → Nat} {s : Settings} {t0 : TierConfig} (hs : SettingsOK s t0) {m : Memory} {k : Cake} {b : List Bytes}
    {n : Nat} {f : Forest} (hf : k.top.first = n) (hcell : k.top.cells = b.map .own) (hfile : k.top.file = b)
    (hb : bake ent t0.c 0 n [entriesOf n b] = some f) :
    writeTop ent s m k =
      match create (n + b.length : Int) with
      | none => .panic
      | some top =>
        match openTier t0.quota (addForest (k.disk 0) f b) with
        | .error => .error
        | .panic => .panic
        | .ok t =>
          if t.forests.length = t0.quota then
            match writeBelow ent s.tiers.tail (setFolder k.disk 0 (addForest (k.disk 0) f b)) (openedBelow 0 t0 t) (closeNext k.chain) with
            | .ok (d, bs) => .ok ⟨top, d, bs⟩
            | .error => .error
            | .panic => .panic
          else .ok ⟨top, setFolder k.disk 0 (addForest (k.disk 0) f b), openedBelow 0 t0 t :: closeNext k.chain⟩ := by
  obtain ⟨rest, hr⟩ := hs.tiers
  unfold writeTop
  rw [hr]
  dsimp only
  rw [hs.pre, hf, hcell, hfile, List.map_map]
  have h1 : (b.map (Cell.read m ∘ .own)) = b := by
    conv_rhs => rw [← List.map_id b]
    rfl
  rw [h1]
  have h2 : (b.mapIdx fun i h => (⟨h, globalOfTop i n⟩ : Entry)) = entriesOf n b := rfl
  rw [h2, hb]
  dsimp only
  unfold makeEmpty
  rw [hf, hfile]
  simp only [setFolder, if_pos, List.tail_cons]
  rfl

theorem closeNext_rest {b : Below} {rest : List Below} {dead : Bool} (hr : Rest dead rest) :
    (Blank b → Rest dead (closeNext (b :: rest))) ∧ (b.forests ≠ [] → Rest true (closeNext (b :: rest))) := by
  constructor
  · intro hb
    cases dead with
    | false =>
      intro x hx
      rcases List.mem_cons.1 hx with rfl | hx
      · exact hb
      · exact hr x hx
    | true =>
      obtain ⟨pre, x, post, h1, h2, h3⟩ := hr
      refine ⟨closeBelow b :: pre, x, post, by rw [closeNext, h1]; rfl, ?_, h3⟩
      intro y hy
      rcases List.mem_cons.1 hy with rfl | hy
      · exact hb
      · exact h2 y hy
  · intro hb
    exact ⟨[], closeBelow b, rest, rfl, by simp, hb, rfl, rfl⟩

/-- An opened first tier has forests. -/
theorem open_forests_ne {ent : List Entry → Nat → Nat} (he : EntropyOK ent) {s : Settings} {t0 : TierConfig} (hs : SettingsOK s t0) {k : Cake}
    {bs : List (List Bytes)} {cur : List Bytes} {dead : Bool} (hi : Inv ent s t0 k bs cur dead) (hbs : bs ≠ []) {tier : Tier}
    (u1 : openTier t0.quota (k.disk 0) = .ok tier) : (openedBelow 0 t0 tier).forests ≠ [] := by
  obtain ⟨d', fs', v1, v2, v3⟩ := bake_and_open he hs.sane
    (Inv.batchesOK (ent := ent) hs hbs hi.batches hi.sizes (Nat.le_of_lt hi.count))
  rw [hi.folder] at v1
  obtain rfl := Option.some.inj v1
  rw [v3] at u1
  split at u1
  · injection u1 with u1
    rw [← u1]
    dsimp only [openedBelow]
    intro h0
    have h1 := congrArg List.length h0
    rw [List.length_map, v2.length] at h1
    exact hbs (List.length_eq_zero_iff.1 h1)
  · cases u1

/-- Baking the batch that has become full. -/
theorem append_full {ent : List Entry → Nat → Nat} (he : EntropyOK ent) {s : Settings} {t0 : TierConfig} (hs : SettingsOK s t0) {k : Cake}
    {bs : List (List Bytes)} {cur : List Bytes} {dead : Bool} (hi : Inv ent s t0 k bs cur dead) {m : Memory} {h : Bytes} (h32 : h.length = 32)
    (hn : (cur ++ [h]).Nodup) (hc : cur.length + 1 = s.cap) (hq : bs.length + 1 < t0.quota) :
    ∃ fs, GrownAll t0.c 0 (bs ++ [cur ++ [h]]) fs ∧
      bakeAll ent t0.c 0 0 (bs ++ [cur ++ [h]]) noFolder ≠ none ∧
      ((∀ f ∈ fs, f.levels.length ≤ 10) → ∃ k', append ent s m k (.own h) = .ok (k', bs.flatten.length + cur.length) ∧
        Inv ent s t0 k' (bs ++ [cur ++ [h]]) [] (dead || !bs.isEmpty)) ∧
      ((¬ ∀ f ∈ fs, f.levels.length ≤ 10) → append ent s m k (.own h) = .panic) := by
  have hlen : k.top.cells.length = cur.length := by rw [hi.cells, List.length_map]
  have hl32 : ∀ x ∈ cur ++ [h], x.length = 32 := by
    intro x hx
    rcases List.mem_append.1 hx with hx | hx
    · exact hi.len x hx
    · rw [List.mem_singleton] at hx; rw [hx]; exact h32
  have hclen : (cur ++ [h]).length = s.cap := by simpa using hc
  have hb : ∀ x ∈ bs ++ [cur ++ [h]], Batch t0.c x := by
    intro x hx
    rcases List.mem_append.1 hx with hx | hx
    · exact hi.batches x hx
    · rw [List.mem_singleton] at hx
      subst hx
      exact ⟨by simp, fun y hy => by rw [hs.length]; exact hl32 y hy, hn, by rw [hclen]; exact hs.capIds,
        by rw [hclen]; exact hs.capNodes⟩
  have hsz : ∀ x ∈ bs ++ [cur ++ [h]], x.length = s.cap := by
    intro x hx
    rcases List.mem_append.1 hx with hx | hx
    · exact hi.sizes x hx
    · rw [List.mem_singleton] at hx
      subst hx
      exact hclen
  obtain ⟨f, e1, e2, fs, hg, ho⟩ := bake_more he hs hi.folder hb hsz hi.count
  obtain ⟨top, t1, t2, t3, t4, t5⟩ := openTop_holds (file := []) (first := ((bs.flatten.length : Int) + (cur ++ [h]).length)) (by simp)
  have hw := writeTop_eq hs (m := m) (k := { k with top := { k.top with
      map := setMap k.top.map h cur.length, cells := k.top.cells ++ [.own h], file := k.top.file ++ [h] } }) (b := cur ++ [h])
      (n := bs.flatten.length) (f := f) (by exact hi.first) (by dsimp only; rw [hi.cells, List.map_append]; rfl)
      (by dsimp only; rw [hi.file]) e1
  rw [create, t1] at hw
  dsimp only at hw
  rw [ho] at hw
  have happ : append ent s m k (.own h) = match writeTop ent s m { k with top := { k.top with
      map := setMap k.top.map h cur.length, cells := k.top.cells ++ [.own h], file := k.top.file ++ [h] } } with
        | .ok k' => .ok (k', (bs.flatten.length : Int) + cur.length)
        | .error => .error
        | .panic => .panic := by
    unfold append
    dsimp only [Cell.read]
    rw [hlen, if_neg (by omega), if_neg (by omega), if_pos (by omega)]
    unfold globalOfTop
    rw [hi.first]
    rfl
  refine ⟨fs, hg, by rw [e2]; simp, ?_, ?_⟩
  · intro hall
    rw [if_pos hall] at hw ho
    dsimp only at hw
    rw [List.length_map, hg.length, if_neg (by simp; omega)] at hw
    rw [happ, hw]
    refine ⟨_, rfl, by simpa using hs.capPos, hsz, by simp, hb, by simpa using hq, ?_, t3, by rw [t4], ?_, ?_, ?_, ?_⟩
    · dsimp only
      rw [t2]
      simp
    · dsimp only
      intro x i
      rw [t5]
    · dsimp only [setFolder]
      rw [if_pos rfl, e2]
    · intro i hpos
      dsimp only [setFolder]
      rw [if_neg (by omega)]
      exact hi.others i hpos
    · obtain ⟨b, rest, g1, g2, g3, g4⟩ := hi.chain
      refine ⟨_, _, rfl, ?_, by simp, fun _ => ⟨_, ?_, rfl⟩⟩
      · rw [g1]
        by_cases hbs : bs = []
        · subst hbs
          have := (closeNext_rest g2 (b := b)).1 (g3 rfl)
          simpa using this
        · obtain ⟨tier, u1, u2⟩ := g4 hbs
          have hne : b.forests ≠ [] := by
            rw [u2]
            exact open_forests_ne he hs hi hbs u1
          have hd : (dead || !bs.isEmpty) = true := by
            have : bs.isEmpty = false := by simpa using hbs
            rw [this]; simp
          rw [hd]
          exact (closeNext_rest g2 (b := b)).2 hne
      · dsimp only [setFolder]
        rw [if_pos rfl, ho]
  · intro hall
    rw [if_neg hall] at hw
    rw [happ, hw]

/-- The append that fills a batch in which a hash is repeated. -/
theorem append_repeat {ent : List Entry → Nat → Nat} (he : EntropyOK ent) {s : Settings} {t0 : TierConfig} (hs : SettingsOK s t0) {k : Cake}
    {bs : List (List Bytes)} {cur : List Bytes} {dead : Bool} (hi : Inv ent s t0 k bs cur dead) {m : Memory} {h : Bytes} (h32 : h.length = 32)
    (hn : ¬ (cur ++ [h]).Nodup) (hc : cur.length + 1 = s.cap) : append ent s m k (.own h) = .panic := by
  have hlen : k.top.cells.length = cur.length := by rw [hi.cells, List.length_map]
  have hl : (k.top.cells ++ [Cell.own h]).map (Cell.read m) = cur ++ [h] := by
    rw [hi.cells, List.map_append, List.map_map]
    have : (Cell.read m ∘ Cell.own) = id := by funext x; rfl
    rw [this, List.map_id]
    rfl
  have hclen : (cur ++ [h]).length = s.cap := by simpa using hc
  have hcount : (bs.flatten.length : Int) < 2 ^ 63 := by
    have h1 := flatten_len hi.sizes
    have h2 := hi.count
    have h3 := hs.quota
    have h4 := hs.capTop
    have h5 : bs.length * s.cap ≤ 255 * 65535 := Nat.mul_le_mul (by omega) h4
    omega
  unfold append
  dsimp only [Cell.read]
  rw [hlen, if_neg (by omega), if_neg (by omega), if_pos hc]
  obtain ⟨rest, ht⟩ := hs.tiers
  unfold writeTop
  rw [ht]
  dsimp only
  rw [hl, hi.first, hs.pre]
  have he2 : ((cur ++ [h]).mapIdx fun i h => (⟨h, globalOfTop i bs.flatten.length⟩ : Entry)) =
      entriesOf bs.flatten.length (cur ++ [h]) := rfl
  rw [he2, (bake_panics_iff_duplicates he hs.sane (first := (bs.flatten.length : Int)) (by omega) hcount (by simp) (by
    intro x hx
    rw [hs.length]
    rcases List.mem_append.1 hx with hx | hx
    · exact hi.len x hx
    · rw [List.mem_singleton] at hx; rw [hx]; exact h32) (by rw [hclen]; exact hs.capIds)
    (by rw [hclen]; exact hs.capNodes)).2 hn]

theorem openBelows_empty {disk : Disk} : ∀ (cfgs : List TierConfig) (n : Nat), (∀ i, n ≤ i → disk i = noFolder) →
    ∃ bs, openBelows disk n cfgs = .ok bs ∧ ∀ b ∈ bs, Blank b := by
  intro cfgs
  induction cfgs with
  | nil => intro n _; exact ⟨[], rfl, by simp⟩
  | cons c cfgs ih =>
    intro n h
    obtain ⟨bs, h1, h2⟩ := ih (n + 1) (fun i hi => h i (by omega))
    refine ⟨emptyBelow n c :: bs, ?_, ?_⟩
    · rw [openBelows, h n (Nat.le_refl n), h1]
      rfl
    · intro b hb
      rcases List.mem_cons.1 hb with rfl | hb
      · rfl
      · exact h2 b hb

theorem bakeAll_hashes (ent : List Entry → Nat → Nat) (c : Config) (pre : Nat) : ∀ (bs : List (List Bytes)) (first : Int) (d d' : DonutForest.Folder),
    bakeAll ent c pre first bs d = some d' → (bs ≠ [] ∨ d.hashes ≠ none) → d'.hashes ≠ none := by
  intro bs
  induction bs with
  | nil =>
    intro first d d' h hd
    rw [bakeAll] at h
    obtain rfl := Option.some.inj h
    rcases hd with hd | hd
    · exact absurd rfl hd
    · exact hd
  | cons b bs ih =>
    intro first d d' h _
    rw [bakeAll] at h
    cases hx : bake ent c pre first [entriesOf first b] with
    | none => rw [hx] at h; cases h
    | some f =>
      rw [hx] at h
      exact ih _ _ _ h (.inr (by simp [addForest]))

/-- Opening the cake, from whatever state. -/
theorem open_inv {ent : List Entry → Nat → Nat} {s : Settings} {t0 : TierConfig} (hs : SettingsOK s t0) {k : Cake}
    {bs : List (List Bytes)} {cur : List Bytes} {dead : Bool} (hi : Inv ent s t0 k bs cur dead) :
    ∃ k', reopen s k = .ok k' ∧ Inv ent s t0 k' bs cur false := by
  obtain ⟨rest, hr⟩ := hs.tiers
  obtain ⟨top, t1, t2, t3, t4, t5⟩ := openTop_holds (file := cur) (first := k.top.first) (by have := hi.size; have := hs.capTop; omega)
  obtain ⟨bl, b1, b2⟩ := openBelows_empty rest 1 (fun i hi' => hi.others i (by omega)) (disk := k.disk)
  unfold reopen openCake
  rw [hi.file, t1, hr]
  dsimp only
  rw [openBelows]
  by_cases hbs : bs = []
  · have h0 : k.disk 0 = noFolder := by
      have := hi.folder
      rw [hbs, bakeAll] at this
      exact (Option.some.inj this).symm
    have hh : (k.disk 0).hashes = none := by rw [h0]; rfl
    rw [hh]
    dsimp only
    rw [show (0 : Nat) + 1 = 1 from rfl, b1]
    dsimp only
    refine ⟨_, rfl, hi.size, hi.sizes, hi.len, hi.batches, hi.count, by dsimp only; rw [t2, hi.first], t3, t4,
      fun x i => by dsimp only; rw [t5 x i], hi.folder, hi.others, _, _, rfl, b2, fun _ => rfl, fun h => absurd hbs h⟩
  · obtain ⟨b, rest', g1, g2, g3, g4⟩ := hi.chain
    obtain ⟨tier, u1, u2⟩ := g4 hbs
    have hh := bakeAll_hashes ent t0.c 0 bs 0 noFolder (k.disk 0) hi.folder (.inl hbs)
    obtain ⟨hsh, hh⟩ := Option.ne_none_iff_exists'.1 hh
    rw [hh]
    dsimp only
    rw [u1]
    dsimp only
    rw [show (0 : Nat) + 1 = 1 from rfl, b1]
    dsimp only
    exact ⟨_, rfl, hi.size, hi.sizes, hi.len, hi.batches, hi.count, by dsimp only; rw [t2, hi.first], t3, t4,
      fun x i => by dsimp only; rw [t5 x i], hi.folder, hi.others, _, _, rfl, b2, fun h => absurd h hbs, fun _ => ⟨tier, u1, rfl⟩⟩

/-- A new cake. -/
theorem new_inv (ent : List Entry → Nat → Nat) {s : Settings} {t0 : TierConfig} (hs : SettingsOK s t0) (hq : 0 < t0.quota) :
    ∃ k, newCake s = .ok k ∧ Inv ent s t0 k [] [] false := by
  obtain ⟨rest, hr⟩ := hs.tiers
  obtain ⟨top, t1, t2, t3, t4, t5⟩ := openTop_holds (file := []) (first := 0) (by simp)
  obtain ⟨bl, b1, b2⟩ := openBelows_empty (t0 :: rest) 0 (fun i hi' => rfl) (disk := fun _ => noFolder)
  refine ⟨⟨top, fun _ => noFolder, bl⟩, ?_, ?_⟩
  · unfold newCake openCake
    rw [t1, hr, b1]
  · have hbl : ∃ b r, bl = b :: r := by
      rw [openBelows] at b1
      dsimp only [noFolder] at b1
      split at b1
      · injection b1 with b1; exact ⟨_, _, b1.symm⟩
      · cases b1
      · cases b1
    obtain ⟨b, r, rfl⟩ := hbl
    exact ⟨by simpa using hs.capPos, by simp, by simp, by simp, by simpa using hq, by simpa using t2, t3, by rw [t4],
      fun x i => by dsimp only; rw [t5 x i], rfl, fun _ _ => rfl, b, r, rfl, fun x hx => b2 x (by simp [hx]), fun _ => b2 b (by simp),
      fun h => absurd rfl h⟩

/-! ## Lookups -/

theorem search_rest {h : Bytes} (h8 : 8 ≤ h.length) {dead : Bool} {rest : List Below} (hr : Rest dead rest) :
    searchBelow h rest = if dead = true then none else some none := by
  have blank : ∀ l : List Below, (∀ b ∈ l, Blank b) → ∀ post, searchBelow h (l ++ post) = searchBelow h post := by
    intro l
    induction l with
    | nil => intro _ post; rfl
    | cons b l ih =>
      intro hb post
      rw [List.cons_append, searchBelow]
      have h1 : belowIndexOf b h = some none := by
        unfold belowIndexOf
        rw [if_neg (by omega), show b.forests = [] from hb b (by simp)]
      rw [h1]
      exact ih (fun x hx => hb x (by simp [hx])) post
  cases dead with
  | false =>
    have := blank rest hr []
    rw [List.append_nil] at this
    rw [this]
    rfl
  | true =>
    obtain ⟨pre, b, post, rfl, h1, h2, h3, h4⟩ := hr
    rw [blank pre h1, searchBelow]
    have h5 : belowIndexOf b h = none := by
      unfold belowIndexOf
      rw [if_neg (by omega), h3]
      match hf : b.forests with
      | [] => exact absurd hf h2
      | _ :: _ => rfl
    rw [h5]
    rfl

theorem hash_rest {g : Int} {dead : Bool} {rest : List Below} (hr : Rest dead rest) :
    hashBelow g rest = if dead = true then none else some none := by
  have blank : ∀ l : List Below, (∀ b ∈ l, Blank b) → ∀ post, hashBelow g (l ++ post) = hashBelow g post := by
    intro l
    induction l with
    | nil => intro _ post; rfl
    | cons b l ih =>
      intro hb post
      rw [List.cons_append, hashBelow]
      have h1 : belowHashAt b g = some none := by
        unfold belowHashAt
        rw [show b.forests = [] from hb b (by simp)]
      rw [h1]
      exact ih (fun x hx => hb x (by simp [hx])) post
  cases dead with
  | false =>
    have := blank rest hr []
    rw [List.append_nil] at this
    rw [this]
    rfl
  | true =>
    obtain ⟨pre, b, post, rfl, h1, h2, h3, h4⟩ := hr
    rw [blank pre h1, hashBelow]
    have h5 : belowHashAt b g = none := by
      unfold belowHashAt
      rw [h4]
      match hf : b.forests with
      | [] => exact absurd hf h2
      | _ :: _ => rfl
    rw [h5]
    rfl

theorem top_map_none {ent : List Entry → Nat → Nat} {s : Settings} {t0 : TierConfig} {k : Cake} {bs : List (List Bytes)} {cur : List Bytes}
    {dead : Bool} (hi : Inv ent s t0 k bs cur dead) {q : Bytes} (hq : q ∉ cur) : k.top.map q = none := by
  cases hm : k.top.map q with
  | none => rfl
  | some i => exact absurd (List.mem_of_getElem? ((hi.map q i).1 hm).1) hq

theorem top_map_some {ent : List Entry → Nat → Nat} {s : Settings} {t0 : TierConfig} {k : Cake} {bs : List (List Bytes)} {cur : List Bytes}
    {dead : Bool} (hi : Inv ent s t0 k bs cur dead) {i : Nat} {q : Bytes} (hn : cur.Nodup) (hq : cur[i]? = some q) :
    k.top.map q = some i := by
  rw [hi.map]
  refine ⟨hq, fun j hj hc => ?_⟩
  obtain ⟨a1, a2⟩ := List.getElem?_eq_some_iff.1 hq
  obtain ⟨b1, b2⟩ := List.getElem?_eq_some_iff.1 hc
  have := (List.getElem_inj hn).1 (a2.trans b2.symm)
  omega

/-- A hash in a list has a last place in it. -/
theorem last_place {q : Bytes} : ∀ (l : List Bytes), q ∈ l → ∃ i : Nat, l[i]? = some q ∧ ∀ j, i < j → l[j]? ≠ some q := by
  intro l
  induction l with
  | nil => intro h; cases h
  | cons a l ih =>
    intro h
    by_cases hl : q ∈ l
    · obtain ⟨i, h1, h2⟩ := ih hl
      refine ⟨i + 1, by simpa using h1, fun j hj => ?_⟩
      obtain ⟨j', rfl⟩ : ∃ j', j = j' + 1 := ⟨j - 1, by omega⟩
      simpa using h2 j' (by omega)
    · have ha : q = a := by rcases List.mem_cons.1 h with h | h; exact h; exact absurd h hl
      refine ⟨0, by rw [ha]; rfl, fun j hj hc => ?_⟩
      obtain ⟨j', rfl⟩ : ∃ j', j = j' + 1 := ⟨j - 1, by omega⟩
      exact hl (List.mem_of_getElem? (by simpa using hc))

/-- The answer to any lookup by hash. -/
theorem lookup_last {ent : List Entry → Nat → Nat} (he : EntropyOK ent) {s : Settings} {t0 : TierConfig} (hs : SettingsOK s t0) {k : Cake}
    {bs : List (List Bytes)} {cur : List Bytes} {dead : Bool} (hi : Inv ent s t0 k bs cur dead) {q : Bytes}
    (hq : q.length = 32) :
    (∃ i, cur[i]? = some q ∧ (∀ j, i < j → cur[j]? ≠ some q) ∧ indexOfHash k q = some (bs.flatten.length + i)) ∨
    (q ∉ cur ∧ q ∉ bs.flatten ∧ indexOfHash k q = if dead = true then none else some (-1)) ∨
    (q ∉ cur ∧ ∃ (pre : List (List Bytes)) (b : List Bytes) (post : List (List Bytes)) (i : Nat) (h : Bytes), bs = pre ++ b :: post ∧
      b[i]? = some h ∧ Plausible t0.c b h q ∧ (∀ b' ∈ pre, q ∉ b') ∧ indexOfHash k q = some (pre.flatten.length + i)) := by
  by_cases hmem : q ∈ cur
  · left
    cases hm : k.top.map q with
    | none =>
      exfalso
      obtain ⟨i, h1, h2⟩ := last_place cur hmem
      rw [(hi.map q i).2 ⟨h1, h2⟩] at hm
      cases hm
    | some i =>
      obtain ⟨h1, h2⟩ := (hi.map q i).1 hm
      refine ⟨i, h1, h2, ?_⟩
      unfold indexOfHash TierTop.tryIndexOfHash globalOfTop
      rw [if_neg (by omega), hm, hi.first]
      rfl
  · right
    have htop : TierTop.tryIndexOfHash k.top q = some none := by
      unfold TierTop.tryIndexOfHash
      rw [if_neg (by omega), top_map_none hi hmem]
    obtain ⟨b, rest, g1, g2, g3, g4⟩ := hi.chain
    unfold indexOfHash
    rw [htop, g1]
    dsimp only
    rw [searchBelow, search_rest (by omega) g2]
    by_cases hbs : bs = []
    · left
      refine ⟨hmem, by rw [hbs]; simp, ?_⟩
      have h1 : belowIndexOf b q = some none := by
        unfold belowIndexOf
        rw [if_neg (by omega), show b.forests = [] from g3 hbs]
      rw [h1]
      cases dead <;> rfl
    · obtain ⟨tier, u1, u2⟩ := g4 hbs
      have hB := Inv.batchesOK (ent := ent) hs hbs hi.batches hi.sizes (Nat.le_of_lt hi.count)
      have hb : belowIndexOf b q = DonutForest.tryIndexOfHash t0.c 0 tier q := by
        rw [u2]
        unfold belowIndexOf openedBelow
        rw [if_neg (by omega)]
        dsimp only
        unfold DonutForest.tryIndexOfHash
        rw [if_neg (by omega)]
        match hf : tier.forests with
        | [] => rw [if_neg (by omega)]; rfl
        | _ :: _ =>
          dsimp only
          rw [if_neg (by omega), hs.pre]
      obtain ⟨d, e1, h⟩ := tier_lookup_partial he hs.sane hB
      rw [hi.folder] at e1
      obtain rfl := Option.some.inj e1
      rw [hb]
      rcases h t0.quota tier u1 q (by rw [hs.length]; exact hq) with ⟨v1, v2⟩ | ⟨pre, x, post, i, y, v1, v2, v3, v4, v5⟩
      · left
        refine ⟨hmem, v2, ?_⟩
        rw [v1]
        cases dead <;> rfl
      · right
        refine ⟨hmem, pre, x, post, i, y, v1, v2, v3, v4, ?_⟩
        rw [v5, Int.zero_add]
        rfl

/-- The same if no hash has been appended twice since the last bake. -/
theorem lookup {ent : List Entry → Nat → Nat} (he : EntropyOK ent) {s : Settings} {t0 : TierConfig} (hs : SettingsOK s t0) {k : Cake}
    {bs : List (List Bytes)} {cur : List Bytes} {dead : Bool} (hi : Inv ent s t0 k bs cur dead) (_ : cur.Nodup) {q : Bytes}
    (hq : q.length = 32) :
    (∃ i, cur[i]? = some q ∧ indexOfHash k q = some (bs.flatten.length + i)) ∨
    (q ∉ cur ∧ q ∉ bs.flatten ∧ indexOfHash k q = if dead = true then none else some (-1)) ∨
    (q ∉ cur ∧ ∃ (pre : List (List Bytes)) (b : List Bytes) (post : List (List Bytes)) (i : Nat) (h : Bytes), bs = pre ++ b :: post ∧
      b[i]? = some h ∧ Plausible t0.c b h q ∧ (∀ b' ∈ pre, q ∉ b') ∧ indexOfHash k q = some (pre.flatten.length + i)) := by
  rcases lookup_last he hs hi hq with ⟨i, h1, -, h2⟩ | h
  · exact .inl ⟨i, h1, h2⟩
  · exact .inr h

/-- The answer to any lookup by index. -/
theorem hash_at {ent : List Entry → Nat → Nat} (he : EntropyOK ent) {s : Settings} {t0 : TierConfig} (hs : SettingsOK s t0) {k : Cake}
    {bs : List (List Bytes)} {cur : List Bytes} {dead : Bool} (hi : Inv ent s t0 k bs cur dead) (m : Memory) (g : Int) :
    getHashAtIndex m k g =
      if 0 ≤ g ∧ g < bs.flatten.length then some (bs.flatten[g.toNat]?)
      else if 0 ≤ g ∧ g < bs.flatten.length + cur.length then if bs = [] then some (cur[g.toNat]?) else none
      else if dead = true then none else some none := by
  obtain ⟨b, rest, g1, g2, g3, g4⟩ := hi.chain
  have hlen : k.top.cells.length = cur.length := by rw [hi.cells, List.length_map]
  have hcells : ∀ i : Nat, k.top.cells[i]? = (cur[i]?).map .own := by intro i; rw [hi.cells, List.getElem?_map]
  -- below
  have hbelow : hashBelow g k.chain = if 0 ≤ g ∧ g < bs.flatten.length then some (bs.flatten[g.toNat]?)
      else if dead = true then none else some none := by
    rw [g1, hashBelow, hash_rest g2]
    by_cases hbs : bs = []
    · have h1 : belowHashAt b g = some none := by
        unfold belowHashAt
        rw [show b.forests = [] from g3 hbs]
      rw [h1, hbs, if_neg (show ¬ (0 ≤ g ∧ g < (([] : List (List Bytes)).flatten.length : Int)) by simp)]
    · obtain ⟨tier, u1, u2⟩ := g4 hbs
      have hB := Inv.batchesOK (ent := ent) hs hbs hi.batches hi.sizes (Nat.le_of_lt hi.count)
      have hb : belowHashAt b g = some (DonutForest.tryGetHashAtIndex tier g) := by
        rw [u2]
        unfold belowHashAt openedBelow
        dsimp only
        unfold DonutForest.tryGetHashAtIndex
        match hf : tier.forests with
        | [] => rfl
        | _ :: _ => rfl
      obtain ⟨d, e1, h⟩ := tier_hash_at_index he hs.sane hB
      rw [hi.folder] at e1
      obtain rfl := Option.some.inj e1
      obtain ⟨w1, w2⟩ := h t0.quota tier u1
      rw [hb]
      by_cases hneg : g < 0
      · rw [w2 g hneg, if_neg (show ¬ (0 ≤ g ∧ g < (bs.flatten.length : Int)) by omega)]
      · have h3 := w1 g.toNat
        rw [show (0 : Int) + (g.toNat : Int) = g by omega] at h3
        rw [h3]
        by_cases hlt : g < bs.flatten.length
        · rw [if_pos (show 0 ≤ g ∧ g < (bs.flatten.length : Int) by omega)]
          have : g.toNat < bs.flatten.length := by omega
          rw [List.getElem?_eq_getElem this]
        · rw [if_neg (show ¬ (0 ≤ g ∧ g < (bs.flatten.length : Int)) by omega), List.getElem?_eq_none (by omega)]
  unfold getHashAtIndex TierTop.tryGetHashAtIndex withinRange topOfGlobal
  rw [hi.first, hlen]
  by_cases hin : (bs.flatten.length : Int) ≤ g ∧ g < bs.flatten.length + cur.length
  · have hw : (decide (g ≥ (bs.flatten.length : Int)) && decide (g < (bs.flatten.length : Int) + cur.length)) = true := by
      rw [Bool.and_eq_true, decide_eq_true_eq, decide_eq_true_eq]; exact hin
    rw [hw, if_neg (by decide)]
    dsimp only
    rw [if_neg (show ¬ (g - -(bs.flatten.length : Int) < 0) by omega), hcells]
    rw [if_neg (show ¬ (0 ≤ g ∧ g < (bs.flatten.length : Int)) by omega),
      if_pos (show 0 ≤ g ∧ g < (bs.flatten.length : Int) + cur.length by omega)]
    by_cases hbs : bs = []
    · rw [if_pos hbs]
      subst hbs
      simp only [List.flatten_nil, List.length_nil] at hin ⊢
      have h1 : (g - -((0 : Nat) : Int)).toNat = g.toNat := by omega
      rw [h1]
      have h2 : g.toNat < cur.length := by omega
      rw [List.getElem?_eq_getElem h2]
      rfl
    · rw [if_neg hbs]
      have h0 : 0 < bs.length := List.length_pos_iff.2 hbs
      have h1 : s.cap ≤ bs.flatten.length := by
        rw [flatten_len hi.sizes]
        exact Nat.le_mul_of_pos_left _ h0
      have h2 := hi.size
      have h3 : cur[(g - -(bs.flatten.length : Int)).toNat]? = none := List.getElem?_eq_none (by omega)
      rw [h3]
      rfl
  · have hw : (decide (g ≥ (bs.flatten.length : Int)) && decide (g < (bs.flatten.length : Int) + cur.length)) = false := by
      rw [Bool.and_eq_false_iff]
      simp only [decide_eq_false_iff_not]
      omega
    rw [hw, if_pos rfl]
    dsimp only
    rw [hbelow]
    split
    · rfl
    · rw [if_neg (show ¬ (0 ≤ g ∧ g < (bs.flatten.length : Int) + cur.length) by omega)]

end Verif.Cake
