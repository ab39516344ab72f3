import Verif.Lemmas.ChunkLevels

/-!
# Preparing a chunk does not panic
-/

namespace Verif.Chunk

open Verif.ShallowTree

/-! ## The number of levels -/

theorem levelCount_fold : ∀ (ns : List Named) (m : Nat), m ≤ ns.foldl (fun m n => max m (n.1.length + 1)) m ∧
    (∀ n ∈ ns, n.1.length < ns.foldl (fun m n => max m (n.1.length + 1)) m) ∧
    ∀ N, m ≤ N → (∀ n ∈ ns, n.1.length < N) → ns.foldl (fun m n => max m (n.1.length + 1)) m ≤ N := by
  intro ns
  induction ns with
  | nil => intro m; simp
  | cons x ns ih =>
    intro m
    obtain ⟨h1, h2, h3⟩ := ih (max m (x.1.length + 1))
    rw [List.foldl_cons]
    refine ⟨by omega, ?_, ?_⟩
    · intro n hn
      rcases List.mem_cons.1 hn with rfl | hn
      · omega
      · exact h2 n hn
    · intro N hm hN
      have := hN x (by simp)
      exact h3 N (by omega) fun n hn => hN n (by simp [hn])

theorem nodesAt_levelCount (t : Tree) {level : Nat} (h : levelCount (visitAll t) ≤ level) : nodesAt t level = [] := by
  unfold nodesAt
  rw [List.filter_eq_nil_iff]
  intro n hn
  have := (levelCount_fold (visitAll t) 0).2.1 n hn
  unfold levelCount at h
  simp only [decide_eq_true_eq]
  omega

theorem path_length {r hl : Nat} {l : List Entry} {f : Flags} {t : Tree} (hB : Built r hl l f t) : ∀ p, ∀ n ∈ preorder p t,
    n.1.length ≤ p.length + unusedCount f hl := by
  induction hB with
  | empty => intro p n hn; simp [preorder] at hn
  | leaf =>
    intro p n hn
    simp only [preorder, List.mem_singleton] at hn
    subst hn
    exact Nat.le_add_right _ _
  | slots runs h1 h2 h3 hp hb ih =>
    intro p n hn
    simp only [preorder, List.mem_cons, List.mem_flatMap] at hn
    rcases hn with rfl | ⟨b, _, hn⟩
    · exact Nat.le_add_right _ _
    · have h4 := ih b _ n hn
      have h5 := unusedCount_flip h1 h2
      simp only [List.length_append, List.length_singleton] at h4
      omega

theorem levelCount_le {r hl : Nat} {l : List Entry} {t : Tree} (hB : Built r hl l (allUnused hl) t) :
    levelCount (visitAll t) ≤ hl + 1 := by
  refine (levelCount_fold (visitAll t) 0).2.2 _ (by omega) ?_
  intro n hn
  rw [visitAll_eq] at hn
  have h1 := path_length hB [] n hn
  have h2 : unusedCount (allUnused hl) hl ≤ hl := by
    unfold unusedCount
    exact Nat.le_trans List.countP_le_length (by simp)
  simp only [List.length_nil] at h1
  omega

/-! ## The number of nodes -/

theorem sum_runs (k : Entry → UInt8) : ∀ l : List Entry, (allBytes.map fun b => l.countP fun e => decide (k e = b)).sum = l.length := by
  intro l
  induction l with
  | nil =>
    have : ∀ bs : List UInt8, (bs.map fun _ => 0).sum = 0 := by
      intro bs; induction bs with
      | nil => rfl
      | cons b bs ih => rw [List.map_cons, List.sum_cons, ih]
    simpa using this allBytes
  | cons x l ih =>
    have hsplit : ∀ bs : List UInt8, (bs.map fun b => (x :: l).countP fun e => decide (k e = b)).sum =
        (bs.map fun b => l.countP fun e => decide (k e = b)).sum + bs.countP fun b => decide (k x = b) := by
      intro bs
      induction bs with
      | nil => rfl
      | cons b bs ih2 =>
        rw [List.map_cons, List.map_cons, List.sum_cons, List.sum_cons, ih2, List.countP_cons, List.countP_cons]
        omega
    rw [hsplit, ih, List.length_cons]
    have hone : (allBytes.countP fun b => decide (k x = b)) = 1 := by
      have h1 : allBytes.count (k x) = 1 := by
        have h2 : 0 < allBytes.count (k x) := List.count_pos_iff.2 (mem_allBytes (k x))
        have h3 := List.nodup_iff_count.1 allBytes_nodup (k x)
        omega
      rw [List.count_eq_countP] at h1
      rw [← h1]
      apply List.countP_congr
      intro b _
      simp only [decide_eq_true_eq, beq_iff_eq]
      exact eq_comm
    rw [hone]

theorem countP_flatMap_sum {α β : Type} (q : β → Bool) (g : α → List β) : ∀ l : List α,
    (l.flatMap g).countP q = (l.map fun a => (g a).countP q).sum := by
  intro l
  induction l with
  | nil => rfl
  | cons x l ih => rw [List.flatMap_cons, List.countP_append, List.map_cons, List.sum_cons, ih]

theorem sum_add {α : Type} (f g : α → Nat) : ∀ l : List α, (l.map f).sum + (l.map g).sum = (l.map fun a => f a + g a).sum := by
  intro l
  induction l with
  | nil => rfl
  | cons x l ih => simp only [List.map_cons, List.sum_cons]; omega

theorem sum_two {α : Type} (f : α → Nat) : ∀ l : List α, 2 * (l.map f).sum = (l.map fun a => 2 * f a).sum := by
  intro l
  induction l with
  | nil => rfl
  | cons x l ih => simp only [List.map_cons, List.sum_cons]; omega

theorem level_size {r hl : Nat} {l : List Entry} {f : Flags} {t : Tree} (hB : Built r hl l f t) : ∀ (p : List UInt8) (L : Nat),
    ((preorder p t).countP fun n => decide (n.1.length = L ∧ activeSlots n.2 = 0)) +
      2 * ((preorder p t).countP fun n => decide (n.1.length = L ∧ activeSlots n.2 ≠ 0)) ≤ l.length := by
  induction hB with
  | empty => intro p L; simp [preorder]
  | leaf =>
    intro p L
    simp only [preorder, List.countP_cons, List.countP_nil, activeSlots, List.length_singleton]
    by_cases h : p.length = L <;> simp [h]
  | @slots l f bi next runs h1 h2 h3 hp hb ih =>
    intro p L
    have hact := built_active (.slots runs h1 h2 h3 hp hb)
    rw [preorder, List.countP_cons, List.countP_cons, countP_flatMap_sum, countP_flatMap_sum]
    by_cases hL : p.length = L
    · have hzero : ∀ (q : Named → Bool), (∀ n, n.1.length ≠ L → q n = false) →
          ∀ b, (preorder (p ++ [b]) (next b)).countP q = 0 := by
        intro q hq b
        rw [List.countP_eq_zero]
        intro n hn
        obtain ⟨s, hs⟩ := preorder_prefix n hn
        rw [hq n (by rw [hs]; simp; omega)]
        simp
      have hz : ∀ (q : Named → Bool) (bs : List UInt8), (∀ n, n.1.length ≠ L → q n = false) →
          (bs.map fun b => (preorder (p ++ [b]) (next b)).countP q).sum = 0 := by
        intro q bs hq
        induction bs with
        | nil => rfl
        | cons b bs ih2 => rw [List.map_cons, List.sum_cons, ih2, hzero q hq]
      rw [hz _ _ (by intro n hn; simp [hn]), hz _ _ (by intro n hn; simp [hn])]
      have hlen : 2 ≤ l.length := by
        obtain ⟨x, hx, y, hy, hxy⟩ := h3
        exact two_le_length hx hy (fun h => hxy (by rw [h]))
      simp only [hL, true_and]
      rw [if_neg (by simp; omega), if_pos (by simp; omega)]
      omega
    · have e1 : ∀ x : Nat, decide (p.length = L ∧ x = 0) = false := by intro x; simp [hL]
      have e2 : ∀ x : Nat, decide (p.length = L ∧ x ≠ 0) = false := by intro x; simp [hL]
      simp only [hL, false_and, decide_false, Bool.false_eq_true, if_false, Nat.add_zero]
      rw [sum_two, sum_add]
      have hruns : (allBytes.reverse.map fun b => (runs b).length).sum = l.length := by
        have hrev : (allBytes.reverse.map fun b => (runs b).length).sum = (allBytes.map fun b => (runs b).length).sum :=
          ((List.reverse_perm allBytes).map _).sum_nat
        have hm : (allBytes.map fun b => (runs b).length) =
            allBytes.map fun b => l.countP fun e => decide (byteAt e.hash bi = b) := by
          apply List.map_congr_left
          intro b _
          rw [(hp b).length_eq, List.countP_eq_length_filter]
        rw [hrev, hm]
        exact sum_runs (fun e => byteAt e.hash bi) l
      rw [← hruns]
      apply sum_map_le
      intro b _
      exact ih b (p ++ [b]) L

/-- The level's nodes fit, given few enough entries. -/
theorem fits_of_count {c : Config} (hc : ConfigOK c) {l : List Entry} {f : Flags} {t : Tree} (hB : Built c.r c.hl l f t)
    (hn : l.length < 256 ^ c.w) (hb : l.length * (17 + 128 * c.w) ≤ c.max) (level : Nat) : LevelFits c (nodesAt t level) := by
  have hsize := level_size hB [] level
  have e : ∀ q : Named → Bool, (nodesAt t level).countP q = (preorder [] t).countP fun n => decide (n.1.length = level) && q n := by
    intro q
    unfold nodesAt
    rw [List.countP_filter, visitAll_eq]
    apply List.countP_congr
    intro n _
    rw [Bool.and_comm]
  have e0 : ((nodesAt t level).countP fun n => decide (activeSlots n.2 = 0)) =
      (preorder [] t).countP fun n => decide (n.1.length = level ∧ activeSlots n.2 = 0) := by
    rw [e]
    apply List.countP_congr
    intro n _
    simp
  have e1 : ((nodesAt t level).countP fun n => decide (activeSlots n.2 ≠ 0)) =
      (preorder [] t).countP fun n => decide (n.1.length = level ∧ activeSlots n.2 ≠ 0) := by
    rw [e]
    apply List.countP_congr
    intro n _
    simp
  have hlen : (nodesAt t level).length = ((nodesAt t level).countP fun n => decide (activeSlots n.2 = 0)) +
      (nodesAt t level).countP fun n => decide (activeSlots n.2 ≠ 0) := by
    rw [List.length_eq_countP_add_countP (fun n => decide (activeSlots n.2 = 0))]
    simp
  rw [← e0, ← e1] at hsize
  have c1 := hc.wlo
  have c2 := hc.r
  have c3 := hc.hwhi
  have h1 : l.length * 17 ≤ l.length * (17 + 128 * c.w) := Nat.mul_le_mul_left _ (by omega)
  have key : ∀ a b : Nat, a + 2 * b ≤ l.length → b * (34 + 256 * c.w) + a * (c.r + c.hw) ≤ c.max := by
    intro a b hab
    have h2 : a * (c.r + c.hw) ≤ a * (17 + 128 * c.w) := Nat.mul_le_mul_left _ (by omega)
    have h3 : (2 * b + a) * (17 + 128 * c.w) ≤ l.length * (17 + 128 * c.w) := Nat.mul_le_mul_right _ (by omega)
    have h4 : b * (34 + 256 * c.w) = 2 * b * (17 + 128 * c.w) := by
      rw [Nat.mul_comm 2 b, Nat.mul_assoc]
      congr 1
      omega
    rw [Nat.add_mul, ← h4] at h3
    omega
  refine ⟨by omega, ?_, key _ _ hsize⟩
  have := c.wrap_ge
  unfold Config.max at hb ⊢
  omega

/-! ## The formats -/

theorem chooseLevels_ok {c : Config} : ∀ shapes : List Shape,
    (∀ s ∈ shapes, ∃ gs, chooseLevel c s = some gs ∧ GroupsOK c s gs) →
    ∃ formats, chooseLevels c shapes = some formats ∧ formats.length = shapes.length ∧
      ∀ (i : Nat) (gs : List Group) (s : Shape), formats[i]? = some gs → shapes[i]? = some s → GroupsOK c s gs := by
  intro shapes
  induction shapes with
  | nil => intro _; exact ⟨[], rfl, rfl, by simp⟩
  | cons s ss ih =>
    intro h
    obtain ⟨gs, e1, h1⟩ := h s (by simp)
    obtain ⟨fs, e2, e3, h2⟩ := ih fun s hs => h s (by simp [hs])
    refine ⟨gs :: fs, ?_, by simp [e3], ?_⟩
    · unfold chooseLevels
      rw [e1]
      dsimp only
      rw [e2]
      rfl
    · intro i gs' s' hi hs'
      cases i with
      | zero =>
        simp only [List.getElem?_cons_zero, Option.some.injEq] at hi hs'
        subst hi hs'
        exact h1
      | succ i =>
        simp only [List.getElem?_cons_succ] at hi hs'
        exact h2 i gs' s' hi hs'

theorem design_ok {c : Config} (hc : ConfigOK c) (h5 : 5 ≤ c.specs) {t : Tree} (hs : ∀ n ∈ preorder [] t, Sound c n.2)
    (hfits : ∀ level, LevelFits c (nodesAt t level)) (hl : levelCount (visitAll t) ≤ 64) :
    ∃ formats, design c t = some formats ∧ formats.length = levelCount (visitAll t) ∧
      ∀ i gs, formats[i]? = some gs → GroupsOK c (shapeOf (nodesAt t i)) gs := by
  have hshape : ∀ level, (fun s => ((visitAll t).countP fun n => decide (n.1.length = level ∧ activeSlots n.2 = s)) % c.wrap) =
      shapeOf (nodesAt t level) := by
    intro level
    funext s
    unfold shapeOf
    have e : ((nodesAt t level).countP fun n => decide (activeSlots n.2 = s)) =
        (visitAll t).countP fun n => decide (n.1.length = level ∧ activeSlots n.2 = s) := by
      unfold nodesAt
      rw [List.countP_filter]
      apply List.countP_congr
      intro n _
      simp [and_comm]
    rw [e]
    apply Nat.mod_eq_of_lt
    rw [← e]
    have h1 := (hfits level).nodes
    have h2 := pow256_le hc.whi
    have h3 : (nodesAt t level).countP (fun n => decide (activeSlots n.2 = s)) ≤ _ := List.countP_le_length
    have h4 := c.wrap_ge
    omega
  have hcs : countShapes c t = some ((List.range (levelCount (visitAll t))).map fun level => shapeOf (nodesAt t level)) := by
    unfold countShapes
    dsimp only
    rw [if_neg (by split <;> omega)]
    congr 1
    apply List.map_congr_left
    intro level _
    exact hshape level
  obtain ⟨fs, e1, e2, h1⟩ := chooseLevels_ok ((List.range (levelCount (visitAll t))).map fun level => shapeOf (nodesAt t level)) (by
    intro s hss
    obtain ⟨level, -, rfl⟩ := List.mem_map.1 hss
    refine chooseLevel_ok (room_of_fits hc (hfits level)) (by have := hc.hwlo; omega) h5 ?_
    unfold shapeOf
    rw [List.countP_eq_zero]
    intro n hn
    have hsn := hs n (mem_nodesAt.1 hn).1
    simp only [decide_eq_true_eq]
    intro h1
    obtain ⟨p, s⟩ := n
    cases s with
    | empty => simp [activeSlots] at h1
    | leaf _ _ => simp [activeSlots] at h1
    | slots bi next =>
      have h2 := hsn.2
      change activeSlots (.slots bi next) = 1 at h1
      omega)
  refine ⟨fs, ?_, by simpa using e2, ?_⟩
  · unfold design chooseFormats
    rw [hcs]
    dsimp only
    rw [if_neg (by omega), e1]
  · intro i gs hi
    refine h1 i gs _ hi ?_
    have : i < fs.length := (List.getElem?_eq_some_iff.1 hi).1
    rw [e2] at this
    simp only [List.length_map, List.length_range] at this
    simp [this]

/-! ## Preparing -/

/-- The entries with the ids the chunk has for them. -/
def localEntries (first : Int) (l : List Entry) : List Entry := l.map fun e => ⟨e.hash, e.pi - first + 1⟩

theorem toLocal_ok {c : Config} {first : Int} : ∀ l : List Entry,
    (∀ e ∈ l, e.pi ≠ -1 ∧ first ≤ e.pi ∧ e.pi - first + 1 ≤ c.max) → toLocal c first l = some (localEntries first l) := by
  intro l
  induction l with
  | nil => intro _; rfl
  | cons e l ih =>
    intro h
    obtain ⟨h1, h2, h3⟩ := h e (by simp)
    unfold toLocal idOfGlobal
    rw [if_neg h1, if_neg (by omega), if_neg (by omega)]
    dsimp only
    rw [ih fun e he => h e (by simp [he])]
    rfl

theorem verify_ok {c : Config} {t : Tree} (hc : ConfigOK c) (hs : ∀ n ∈ preorder [] t, Sound c n.2) : verify c t = true := by
  unfold verify
  rw [List.all_eq_true]
  intro n hn
  rw [visitAll_eq] at hn
  have h1 := hs n hn
  obtain ⟨p, s⟩ := n
  cases s with
  | empty => rfl
  | slots _ _ => rfl
  | leaf re pi =>
    obtain ⟨⟨f, x, rfl⟩, h2, h3⟩ := h1
    simp only [decide_eq_true_eq]
    refine ⟨by simp [reassurance]; omega, by omega, ?_⟩
    have h4 := pow256_le hc.hwhi
    have h5 : ((256 ^ c.hw : Nat) : Int) = 256 ^ c.hw := by rw [Int.natCast_pow]; rfl
    have h6 := c.wrap_ge
    unfold Config.max
    omega

/-- The whole: the tree is laid out without panic, and searching the bytes gives what searching the tree gives. -/
theorem serialize_ok {c : Config} (hc : ConfigOK c) (h5 : 5 ≤ c.specs) (hspecs : c.specs ≤ 255) (h64 : c.hl ≤ 64) {t : Tree}
    {l : List Entry} (hB : Built c.r c.hl l (allUnused c.hl) t) (hpi : ∀ e ∈ l, 0 < e.pi ∧ e.pi < 256 ^ c.hw)
    (hfits : ∀ level, LevelFits c (nodesAt t level)) (hl : levelCount (visitAll t) ≤ 64) (h1 : 1 ≤ c.hl) :
    ∃ formats lvs m, design c t = some formats ∧ serializeLevels c t 0 formats = some (lvs, m) ∧
      ∀ (first : Int) (h : Bytes), h.length = c.hl → lookupId ⟨c, first, lvs⟩ h = (lookup c.hl t h).map toId := by
  have hs := built_sound h64 hB hpi []
  obtain ⟨fs, e1, e2, hg⟩ := design_ok hc h5 hs hfits hl
  obtain ⟨lvs, m, e3, e4, hL⟩ := levels_ok hc hspecs hs hfits fs 0 (nodesAt_levelCount t (by omega)) (by
    intro i gs hi
    rw [Nat.zero_add]
    exact hg i gs hi)
  refine ⟨fs, lvs, m, e1, e3, ?_⟩
  intro first h hh
  unfold lookupId lookup
  rw [if_neg (by dsimp only; omega), if_neg (by omega)]
  dsimp only
  by_cases he : t.isEmpty = true
  · have ht : t = .empty := by
      cases t with
      | empty => rfl
      | leaf _ _ => simp [Tree.isEmpty] at he
      | slots _ _ => simp [Tree.isEmpty] at he
    subst ht
    have : lvs = [] := by
      rw [← List.length_eq_zero_iff, e4, e2]
      rfl
    subst this
    rfl
  · have hroot : ([], t) ∈ nodesAt t 0 := by
      rw [mem_nodesAt]
      refine ⟨?_, rfl⟩
      cases t with
      | empty => simp [Tree.isEmpty] at he
      | leaf _ _ => simp [preorder]
      | slots _ _ => simp [preorder]
    have hone : (nodesAt t 0).length ≤ 1 := by
      have hn := nodesAt_nodup t 0
      have hall : ∀ x ∈ (nodesAt t 0).map (·.1), x = [] := by
        intro x hx
        obtain ⟨n, hn, rfl⟩ := List.mem_map.1 hx
        exact List.eq_nil_of_length_eq_zero (mem_nodesAt.1 hn).2
      rw [← List.length_map (f := (·.1))]
      match hq : (nodesAt t 0).map (·.1) with
      | [] => rw [hq]; exact Nat.zero_le _
      | [_] => rw [hq]; exact Nat.le_refl _
      | a :: b :: rest =>
        rw [hq] at hall hn
        have ha := hall a (by simp)
        have hb := hall b (by simp)
        subst ha hb
        simp at hn
    match lvs, hL with
    | [], hL =>
      unfold LevelsOK at hL
      rw [hL] at hroot
      simp at hroot
    | lv :: rest, hL =>
      have hid : m [] = some 1 := by
        have hL' := hL
        unfold LevelsOK at hL'
        obtain ⟨below, -, hall⟩ := hL'
        obtain ⟨id, i1, i2, i3, -⟩ := hall _ hroot
        rw [i1]
        congr 1
        omega
      exact find_ok hc hh h64 hfits (lv :: rest) 0 m [] t l (allUnused c.hl) 1 hL hroot hB
        (by intro i hi; simpa [allUnused] using hi) hpi hid

end Verif.Chunk
