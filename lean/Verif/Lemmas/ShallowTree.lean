import Verif.Model.ShallowTree
import Verif.Lemmas.StableSort
import Mathlib.Data.List.Induction

/-!
# Lemmas about making and searching the tree
-/

namespace Verif.ShallowTree

theorem mem_allBytes (b : UInt8) : b ∈ allBytes := by
  unfold allBytes
  rw [List.mem_map]
  exact ⟨b.toNat, List.mem_range.mpr (by have := b.toNat_lt; omega), by simp⟩

theorem allBytes_sorted : allBytes.Pairwise (fun a b => a < b) := by decide +kernel

theorem allBytes_length : allBytes.length = 256 := by simp [allBytes]

theorem allBytes_nodup : allBytes.Nodup := by
  unfold List.Nodup
  refine allBytes_sorted.imp ?_
  intro a b h
  rintro rfl
  exact absurd h (by simp)

/-! ## Runs -/

theorem takeWhile_filter {bi : Nat} {b : UInt8} {l : List Entry} (hs : l.Pairwise fun x y => byteAt x.hash bi ≤ byteAt y.hash bi)
    (hl : ∀ e ∈ l, b ≤ byteAt e.hash bi) :
    (l.takeWhile fun e => byteAt e.hash bi = b) = l.filter (fun e => byteAt e.hash bi = b) ∧
    (∀ e ∈ l.dropWhile fun e => byteAt e.hash bi = b, b < byteAt e.hash bi) ∧
    (∀ c, c ≠ b → (l.dropWhile fun e => byteAt e.hash bi = b).filter (fun e => byteAt e.hash bi = c) = l.filter fun e => byteAt e.hash bi = c) := by
  induction l with
  | nil => simp
  | cons x xs ih =>
    rw [List.pairwise_cons] at hs
    obtain ⟨h1, h2, h3⟩ := ih hs.2 (fun e he => hl e (by simp [he]))
    by_cases hx : byteAt x.hash bi = b
    · rw [List.takeWhile_cons_of_pos (by simpa using hx), List.dropWhile_cons_of_pos (by simpa using hx),
        List.filter_cons_of_pos (by simpa using hx), h1]
      refine ⟨rfl, h2, ?_⟩
      intro c hc
      rw [h3 c hc, List.filter_cons_of_neg]
      simp only [decide_eq_true_eq]
      rw [hx]; exact fun h => hc h.symm
    · have hlt : b < byteAt x.hash bi := by
        have := hl x (by simp)
        rw [UInt8.le_iff_toNat_le] at this
        rw [UInt8.lt_iff_toNat_lt]
        rcases Nat.lt_or_eq_of_le this with h | h
        · exact h
        · exact absurd (UInt8.toNat_inj.mp h).symm hx
      have hgt : ∀ e ∈ x :: xs, b < byteAt e.hash bi := by
        intro e he
        rcases List.mem_cons.mp he with rfl | he
        · exact hlt
        · have := hs.1 e he
          rw [UInt8.le_iff_toNat_le] at this
          rw [UInt8.lt_iff_toNat_lt] at hlt ⊢
          omega
      rw [List.takeWhile_cons_of_neg (by simpa using hx), List.dropWhile_cons_of_neg (by simpa using hx)]
      refine ⟨?_, hgt, fun c hc => rfl⟩
      symm
      rw [List.filter_eq_nil_iff]
      intro e he
      have := hgt e he
      simp only [decide_eq_true_eq]
      rintro h
      rw [h] at this
      exact absurd this (by simp)

theorem runOf_cut {bi : Nat} : ∀ (bs : List UInt8) (l : List Entry), bs.Pairwise (fun a b => a < b) →
    l.Pairwise (fun x y => byteAt x.hash bi ≤ byteAt y.hash bi) → (∀ e ∈ l, byteAt e.hash bi ∈ bs) → ∀ b ∈ bs,
    runOf (cut bi bs l) b = l.filter fun e => byteAt e.hash bi = b := by
  intro bs
  induction bs with
  | nil => intro l _ _ _ b hb; simp at hb
  | cons c cs ih =>
    intro l hs hl hm b hb
    rw [List.pairwise_cons] at hs
    have hge : ∀ e ∈ l, c ≤ byteAt e.hash bi := by
      intro e he
      rcases List.mem_cons.mp (hm e he) with h | h
      · rw [h]; exact UInt8.le_refl _
      · have := hs.1 _ h
        rw [UInt8.lt_iff_toNat_lt] at this
        rw [UInt8.le_iff_toNat_le]; omega
    obtain ⟨h1, h2, h3⟩ := takeWhile_filter hl hge
    unfold runOf cut
    by_cases hcb : c = b
    · subst hcb
      simp [h1]
    · rw [List.find?_cons_of_neg (by simpa using hcb)]
      have hb' : b ∈ cs := by
        rcases List.mem_cons.mp hb with h | h
        · exact absurd h.symm hcb
        · exact h
      have := ih (l.dropWhile fun e => byteAt e.hash bi = c) hs.2 (hl.sublist (List.dropWhile_sublist _)) (by
        intro e he
        have hm' := hm e (List.dropWhile_sublist _ |>.subset he)
        rcases List.mem_cons.mp hm' with h | h
        · have := h2 e he
          rw [h] at this
          exact absurd this (by simp)
        · exact h) b hb'
      unfold runOf at this
      rw [this, h3 b (fun h => hcb h.symm)]

theorem runOf_sorted (bi : Nat) (l : List Entry) (b : UInt8) :
    (runOf (cut bi allBytes (stableSort (fun x y => decide (byteAt x.hash bi ≤ byteAt y.hash bi)) l)) b).Perm
      (l.filter fun e => byteAt e.hash bi = b) := by
  have hs := stableSort_sorted (le := fun x y : Entry => decide (byteAt x.hash bi ≤ byteAt y.hash bi))
    (by
      intro x y z h1 h2
      simp only [decide_eq_true_eq, UInt8.le_iff_toNat_le] at *
      omega)
    (by
      intro x y
      simp only [decide_eq_false_iff_not, decide_eq_true_eq, UInt8.le_iff_toNat_le]
      omega) l
  rw [runOf_cut allBytes _ allBytes_sorted (hs.imp (by simp)) (fun e _ => mem_allBytes _) b (mem_allBytes b)]
  exact (stableSort_perm _ l).filter _

/-! ## The choice of the byte -/

/-- What is assumed of the entropy: it is zero exactly if all the hashes have the same byte there. -/
def EntropyOK (ent : List Entry → Nat → Nat) : Prop :=
  ∀ l i, ent l i = 0 ↔ ∀ x ∈ l, ∀ y ∈ l, byteAt x.hash i = byteAt y.hash i

theorem best_fold (ent : List Entry → Nat → Nat) (l : List Entry) (f : Flags) : ∀ (is : List Nat) (m : Nat × Nat),
    let r := is.foldl (fun m i => if f i = true then (if ent l i > m.1 then (ent l i, i) else m) else m) m
    (m.1 ≤ r.1 ∧ ∀ i ∈ is, f i = true → ent l i ≤ r.1) ∧ (r = m ∨ (r.2 ∈ is ∧ f r.2 = true ∧ ent l r.2 = r.1)) := by
  intro is
  induction is with
  | nil => intro m; simp
  | cons i is ih =>
    intro m
    rw [List.foldl_cons]
    obtain ⟨⟨h1, h2⟩, h3⟩ := ih (if f i = true then (if ent l i > m.1 then (ent l i, i) else m) else m)
    dsimp only at h1 h2 h3 ⊢
    generalize (List.foldl _ _ is) = r at h1 h2 h3 ⊢
    by_cases hf : f i = true
    · rw [if_pos hf] at h1 h3
      by_cases hg : ent l i > m.1
      · rw [if_pos hg] at h1 h3
        refine ⟨⟨by simp only at h1; omega, ?_⟩, ?_⟩
        · intro j hj hfj
          rcases List.mem_cons.mp hj with rfl | hj
          · exact h1
          · exact h2 j hj hfj
        · right
          rcases h3 with h3 | h3
          · rw [h3]; exact ⟨by simp, hf, rfl⟩
          · exact ⟨by simp [h3.1], h3.2⟩
      · rw [if_neg hg] at h1 h3
        refine ⟨⟨h1, ?_⟩, ?_⟩
        · intro j hj hfj
          rcases List.mem_cons.mp hj with rfl | hj
          · omega
          · exact h2 j hj hfj
        · rcases h3 with h3 | h3
          · exact .inl h3
          · exact .inr ⟨by simp [h3.1], h3.2⟩
    · rw [if_neg hf] at h1 h3
      refine ⟨⟨h1, ?_⟩, ?_⟩
      · intro j hj hfj
        rcases List.mem_cons.mp hj with rfl | hj
        · exact absurd hfj hf
        · exact h2 j hj hfj
      · rcases h3 with h3 | h3
        · exact .inl h3
        · exact .inr ⟨by simp [h3.1], h3.2⟩

theorem best_zero {ent : List Entry → Nat → Nat} (he : EntropyOK ent) {l : List Entry} {f : Flags} {hl : Nat} :
    (best ent l f hl).1 = 0 ↔ ∀ i < hl, f i = true → ∀ x ∈ l, ∀ y ∈ l, byteAt x.hash i = byteAt y.hash i := by
  have h := best_fold ent l f (List.range hl) (0, 0)
  dsimp only at h
  constructor
  · intro h0 i hi hf
    have := h.1.2 i (List.mem_range.mpr hi) hf
    unfold best at h0
    rw [h0] at this
    exact (he l i).mp (by omega)
  · intro hall
    rcases h.2 with h3 | ⟨h3, h4, h5⟩
    · unfold best; rw [h3]
    · have := (he l _).mpr (hall _ (List.mem_range.mp h3) h4)
      unfold best
      rw [← h5, this]

theorem best_pos {ent : List Entry → Nat → Nat} (he : EntropyOK ent) {l : List Entry} {f : Flags} {hl : Nat}
    (h0 : (best ent l f hl).1 ≠ 0) :
    (best ent l f hl).2 < hl ∧ f (best ent l f hl).2 = true ∧
      ∃ x ∈ l, ∃ y ∈ l, byteAt x.hash (best ent l f hl).2 ≠ byteAt y.hash (best ent l f hl).2 := by
  have h := best_fold ent l f (List.range hl) (0, 0)
  dsimp only at h
  rcases h.2 with h3 | ⟨h3, h4, h5⟩
  · exact absurd (by unfold best; rw [h3]) h0
  · refine ⟨List.mem_range.mp h3, h4, ?_⟩
    have hne : ¬ ∀ x ∈ l, ∀ y ∈ l, byteAt x.hash (best ent l f hl).2 = byteAt y.hash (best ent l f hl).2 := by
      intro hall
      have := (he l _).mpr hall
      unfold best at this h0
      rw [h5] at this
      exact h0 this
    push Not at hne
    exact hne

/-! ## What is built -/

/-- The tree is a decision tree over the entries, `f` being the bytes not looked at yet. -/
inductive Built (r hl : Nat) : List Entry → Flags → Tree → Prop where
  | empty {f} : Built r hl [] f .empty
  | leaf {e f} : Built r hl [e] f (.leaf (reassurance f r e.hash) e.pi)
  | slots {l f bi next} (runs : UInt8 → List Entry) : bi < hl → f bi = true →
      (∃ x ∈ l, ∃ y ∈ l, byteAt x.hash bi ≠ byteAt y.hash bi) →
      (∀ b, (runs b).Perm (l.filter fun e => byteAt e.hash bi = b)) →
      (∀ b, Built r hl (runs b) (flip f bi) (next b)) → Built r hl l f (.slots bi next)

/-- The number of bytes of the hash not looked at yet. -/
def unusedCount (f : Flags) (hl : Nat) : Nat := (List.range hl).countP f

theorem countP_flip (f : Flags) (i : Nat) (hf : f i = true) : ∀ (l : List Nat), l.Nodup → i ∈ l →
    l.countP (flip f i) + 1 = l.countP f := by
  intro l
  induction l with
  | nil => intro _ h; simp at h
  | cons x xs ih =>
    intro hn hi
    rw [List.nodup_cons] at hn
    rw [List.countP_cons, List.countP_cons]
    by_cases hx : x = i
    · subst hx
      have : List.countP (flip f x) xs = List.countP f xs := by
        apply List.countP_congr
        intro y hy
        have hxy : y ≠ x := fun h => hn.1 (h ▸ hy)
        simp [flip, hxy]
      rw [this]
      simp [flip, hf]
    · have hi' : i ∈ xs := by
        rcases List.mem_cons.mp hi with h | h
        · exact absurd h.symm hx
        · exact h
      have hfx : flip f i x = f x := by simp [flip, hx]
      rw [hfx]
      have := ih hn.2 hi'
      omega

theorem unusedCount_flip {f : Flags} {hl i : Nat} (hi : i < hl) (hf : f i = true) :
    unusedCount (flip f i) hl + 1 = unusedCount f hl :=
  countP_flip f i hf _ List.nodup_range (List.mem_range.mpr hi)

/-- The entries are different hashes of the right length, alike where `f` says they have been looked at. -/
structure Alike (hl : Nat) (l : List Entry) (f : Flags) : Prop where
  len : ∀ e ∈ l, e.hash.length = hl
  nodup : (l.map (·.hash)).Nodup
  same : ∀ i < hl, f i = false → ∀ x ∈ l, ∀ y ∈ l, byteAt x.hash i = byteAt y.hash i

theorem ext_byteAt {hl : Nat} {x y : Bytes} (hx : x.length = hl) (hy : y.length = hl)
    (h : ∀ i < hl, byteAt x i = byteAt y i) : x = y := by
  apply List.ext_getElem (by omega)
  intro i h1 h2
  have := h i (by omega)
  unfold byteAt at this
  simpa [List.getD, List.getElem?_eq_getElem h1, List.getElem?_eq_getElem h2] using this

theorem Alike.sub {hl : Nat} {l l' : List Entry} {f : Flags} {bi : Nat} {b : UInt8} (h : Alike hl l f) (hf : f bi = true)
    (hp : l'.Perm (l.filter fun e => byteAt e.hash bi = b)) : Alike hl l' (flip f bi) := by
  have hmem : ∀ e ∈ l', e ∈ l ∧ byteAt e.hash bi = b := by
    intro e he
    have := hp.subset he
    simpa [List.mem_filter] using this
  refine ⟨fun e he => h.len e (hmem e he).1, ?_, ?_⟩
  · refine (hp.map _).nodup_iff.mpr ?_
    exact h.nodup.sublist (List.Sublist.map _ List.filter_sublist)
  · intro i hi hfi x hx y hy
    by_cases hib : i = bi
    · subst hib; rw [(hmem x hx).2, (hmem y hy).2]
    · exact h.same i hi (by simpa [flip, hib] using hfi) x (hmem x hx).1 y (hmem y hy).1

theorem collect_some {g : UInt8 → Option Tree} {t : UInt8 → Tree} (h : ∀ b, g b = some (t b)) : collect g = some t := by
  unfold collect
  rw [if_pos (by simp [h])]
  congr 1
  funext b
  rw [h b]; rfl

theorem collect_isSome {g : UInt8 → Option Tree} {t : UInt8 → Tree} (h : collect g = some t) : ∀ b, g b = some (t b) := by
  unfold collect at h
  by_cases hc : allBytes.all (fun b => (g b).isSome) = true
  · rw [if_pos hc] at h
    intro b
    have := List.all_eq_true.mp hc b (mem_allBytes b)
    rw [← Option.some.inj h]
    dsimp only
    rw [Option.isSome_iff_exists] at this
    obtain ⟨a, ha⟩ := this
    rw [ha]; rfl
  · rw [if_neg hc] at h; simp at h

theorem gen_built {ent : List Entry → Nat → Nat} (he : EntropyOK ent) {r hl : Nat} : ∀ (n : Nat) (l : List Entry) (f : Flags),
    Alike hl l f → 2 ≤ l.length → unusedCount f hl ≤ n → ∃ t, gen ent r hl (n + 1) l f = some t ∧ Built r hl l f t := by
  intro n
  induction n with
  | zero =>
    intro l f hA h2 hn
    exfalso
    have hcount : ∀ i < hl, f i = false := by
      intro i hi
      by_contra hf
      have : 0 < unusedCount f hl := List.countP_pos_iff.mpr ⟨i, List.mem_range.mpr hi, by simpa using hf⟩
      omega
    match l, h2 with
    | x :: y :: l, _ =>
      have hxy : x.hash = y.hash := ext_byteAt (hA.len x (by simp)) (hA.len y (by simp))
        (fun i hi => hA.same i hi (hcount i hi) x (by simp) y (by simp))
      have := hA.nodup
      simp [hxy] at this
  | succ n ih =>
    intro l f hA h2 hn
    have hbest : (best ent l f hl).1 ≠ 0 := by
      intro h0
      rw [best_zero he] at h0
      match l, h2 with
      | x :: y :: l, _ =>
        have hxy : x.hash = y.hash := by
          refine ext_byteAt (hA.len x (by simp)) (hA.len y (by simp)) (fun i hi => ?_)
          cases hf : f i with
          | true => exact h0 i hi hf x (by simp) y (by simp)
          | false => exact hA.same i hi hf x (by simp) y (by simp)
        have := hA.nodup
        simp [hxy] at this
    obtain ⟨b1, b2, b3⟩ := best_pos he hbest
    generalize hm : best ent l f hl = m at hbest b1 b2 b3
    have huc := unusedCount_flip b1 b2
    have hruns := runOf_sorted m.2 l
    generalize hr : (fun b => runOf (cut m.2 allBytes (stableSort (fun x y => decide (byteAt x.hash m.2 ≤ byteAt y.hash m.2)) l)) b) = runs
    have hruns' : ∀ b, (runs b).Perm (l.filter fun e => byteAt e.hash m.2 = b) := by
      intro b; rw [← hr]; exact hruns b
    have hex : ∀ b, ∃ t, child (fun run => gen ent r hl (n + 1) run (flip f m.2)) (flip f m.2) r (runs b) = some t ∧
        Built r hl (runs b) (flip f m.2) t := by
      intro b
      have hA' := hA.sub b2 (hruns' b)
      match hrb : runs b with
      | [] => exact ⟨_, rfl, .empty⟩
      | [e] => exact ⟨_, rfl, .leaf⟩
      | x :: y :: rest =>
        rw [hrb] at hA'
        exact ih (x :: y :: rest) (flip f m.2) hA' (by simp) (by omega)
    obtain ⟨next, hnext⟩ : ∃ next : UInt8 → Tree, ∀ b,
        child (fun run => gen ent r hl (n + 1) run (flip f m.2)) (flip f m.2) r (runs b) = some (next b) ∧
        Built r hl (runs b) (flip f m.2) (next b) := ⟨fun b => (hex b).choose, fun b => (hex b).choose_spec⟩
    refine ⟨.slots m.2 next, ?_, .slots runs b1 b2 b3 hruns' (fun b => (hnext b).2)⟩
    have hcol := collect_some (g := fun b => child (fun run => gen ent r hl (n + 1) run (flip f m.2)) (flip f m.2) r (runs b))
      (fun b => (hnext b).1)
    subst hr
    rw [gen, if_neg (by omega)]
    simp only [hm]
    rw [if_neg hbest, hcol]
    rfl

end Verif.ShallowTree
