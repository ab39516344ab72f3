import Verif.Model.HashTree
import Verif.Lemmas.ShallowTree

/-!
# Lemmas about the pool of nodes
-/

namespace Verif.HashTree

open Verif.ShallowTree (Entry Flags byteAt best cut allBytes allUnused EntropyOK best_zero best_pos takeWhile_filter
  mem_allBytes allBytes_sorted allBytes_nodup unusedCount unusedCount_flip ext_byteAt)

/-! ## Specification -/

/-- How many times a hash was presented. -/
def times (l : List Entry) (h : Bytes) : Nat := l.countP fun e => e.hash = h

/-- The two hashes differ in exactly one byte. -/
def OneByteOff (x y : Bytes) : Prop := ∃ i < 32, byteAt x i ≠ byteAt y i ∧ ∀ j < 32, j ≠ i → byteAt x j = byteAt y j

/-! ## The runs of a sorted list -/

theorem cut_eq_map {bi : Nat} : ∀ (bs : List UInt8) (l : List Entry), bs.Pairwise (fun a b => a < b) →
    l.Pairwise (fun x y => byteAt x.hash bi ≤ byteAt y.hash bi) → (∀ e ∈ l, byteAt e.hash bi ∈ bs) →
    cut bi bs l = bs.map fun b => (b, l.filter fun e => byteAt e.hash bi = b) := by
  intro bs
  induction bs with
  | nil => intro l _ _ _; rfl
  | cons c cs ih =>
    intro l hs hl hm
    rw [List.pairwise_cons] at hs
    have hge : ∀ e ∈ l, c ≤ byteAt e.hash bi := by
      intro e he
      rcases List.mem_cons.mp (hm e he) with h | h
      · rw [h]; exact UInt8.le_refl _
      · have := hs.1 _ h
        rw [UInt8.lt_iff_toNat_lt] at this
        rw [UInt8.le_iff_toNat_le]; omega
    obtain ⟨h1, h2, h3⟩ := takeWhile_filter hl hge
    rw [cut, List.map_cons, h1]
    congr 1
    rw [ih _ hs.2 (hl.sublist (List.dropWhile_sublist _)) (by
      intro e he
      have hm' := hm e (List.dropWhile_sublist _ |>.subset he)
      rcases List.mem_cons.mp hm' with h | h
      · have := h2 e he
        rw [h] at this
        exact absurd this (by simp)
      · exact h)]
    apply List.map_congr_left
    intro b hb
    have hcb : b ≠ c := by
      intro h
      have := hs.1 b hb
      rw [h] at this
      exact absurd this (by simp)
    rw [h3 b hcb]

/-- The runs of the entries sorted by one byte. -/
def runs (bi : Nat) (l : List Entry) (b : UInt8) : List Entry :=
  (stableSort (fun x y => decide (byteAt x.hash bi ≤ byteAt y.hash bi)) l).filter fun e => byteAt e.hash bi = b

theorem runs_perm (bi : Nat) (l : List Entry) (b : UInt8) :
    (runs bi l b).Perm (l.filter fun e => byteAt e.hash bi = b) := (stableSort_perm _ l).filter _

theorem cut_sorted (bi : Nat) (l : List Entry) :
    cut bi allBytes (stableSort (fun x y => decide (byteAt x.hash bi ≤ byteAt y.hash bi)) l) =
      allBytes.map fun b => (b, runs bi l b) := by
  have hs := stableSort_sorted (le := fun x y : Entry => decide (byteAt x.hash bi ≤ byteAt y.hash bi))
    (by
      intro x y z h1 h2
      simp only [decide_eq_true_eq, UInt8.le_iff_toNat_le] at *
      omega)
    (by
      intro x y
      simp only [decide_eq_false_iff_not, decide_eq_true_eq, UInt8.le_iff_toNat_le]
      omega) l
  exact cut_eq_map allBytes _ allBytes_sorted (hs.imp (by simp)) (fun e _ => mem_allBytes _)

theorem mem_runs {bi : Nat} {l : List Entry} {b : UInt8} {e : Entry} :
    e ∈ runs bi l b ↔ e ∈ l ∧ byteAt e.hash bi = b := by
  rw [(runs_perm bi l b).mem_iff, List.mem_filter]
  simp

/-- The sum of the lengths of the filters by each of the values is the length. -/
theorem sum_filter_length {α β : Type} [DecidableEq β] (g : α → β) (bs : List β) (hn : bs.Nodup) :
    ∀ (l : List α), (∀ e ∈ l, g e ∈ bs) → (bs.map fun b => (l.filter fun e => decide (g e = b)).length).sum = l.length := by
  intro l
  induction l with
  | nil => intro _; induction bs <;> simp_all
  | cons x xs ih =>
    intro h
    have ih := ih fun e he => h e (by simp [he])
    have hx := h x (by simp)
    have key : ∀ cs : List β, cs.Nodup →
        (cs.map fun b => ((x :: xs).filter fun e => decide (g e = b)).length).sum =
        (cs.map fun b => (xs.filter fun e => decide (g e = b)).length).sum + (if g x ∈ cs then 1 else 0) := by
      intro cs
      induction cs with
      | nil => intro _; simp
      | cons c cs ihc =>
        intro hcn
        rw [List.nodup_cons] at hcn
        rw [List.map_cons, List.sum_cons, List.map_cons, List.sum_cons, ihc hcn.2]
        by_cases hc : g x = c
        · rw [List.filter_cons_of_pos (by simpa using hc), List.length_cons, if_neg (by rw [hc]; exact hcn.1),
            if_pos (by simp [hc])]
          omega
        · rw [List.filter_cons_of_neg (by simpa using hc)]
          by_cases hm : g x ∈ cs
          · rw [if_pos hm, if_pos (by simp [hm])]; omega
          · rw [if_neg hm, if_neg (by simp [hc, hm])]; omega
    rw [key bs hn, if_pos hx, ih, List.length_cons]

theorem sum_runs (bi : Nat) (l : List Entry) : (allBytes.map fun b => (runs bi l b).length).sum = l.length := by
  rw [← sum_filter_length (fun e : Entry => byteAt e.hash bi) allBytes allBytes_nodup l (fun _ _ => mem_allBytes _)]
  congr 1
  apply List.map_congr_left
  intro b _
  exact (runs_perm bi l b).length_eq

/-! ## What a node of the pool stands for -/

/-- A slot: nothing, one entry, or a link to the node made for the run. -/
structure Slot (first : Int) (count : Nat) (v : Nat) (run : List Entry) (kid : Nat) : Prop where
  nil : run = [] → v = 0
  one : ∀ e, run = [e] → v = u16 (e.pi - first + 1)
  more : 2 ≤ run.length → v = 65536 - kid ∧ 1 ≤ kid ∧ kid < 65536 ∧ count < v

/-- The node `idx` at `level` of the pool is a decision tree over the entries, `f` being the bytes not looked at yet. -/
inductive Rep (P : List Node) (first : Int) (count : Nat) : Nat → Nat → List Entry → Flags → Prop where
  | lone {idx e f} : P[idx]? = some ⟨0, 0, put noLookups (byteAt e.hash 0) (u16 (e.pi - first + 1))⟩ →
      Rep P first count idx 0 [e] f
  | dup {idx level e es f} : P[idx]? = some ⟨level, 32, put noLookups 0 (u16 (lowest e.pi es - first + 1))⟩ →
      es ≠ [] → (∀ x ∈ e :: es, ∀ y ∈ e :: es, x.hash = y.hash) → Rep P first count idx level (e :: es) f
  | branch {idx level l f bi lk} (kids : UInt8 → Nat) : bi < 32 → f bi = true →
      (∃ x ∈ l, ∃ y ∈ l, byteAt x.hash bi ≠ byteAt y.hash bi) →
      P[idx]? = some ⟨level, bi, lk⟩ →
      (∀ b, Slot first count (lk b) (runs bi l b) (kids b)) →
      (∀ b, 2 ≤ (runs bi l b).length → Rep P first count (kids b) (level + 1) (runs bi l b) (ShallowTree.flip f bi)) →
      Rep P first count idx level l f

/-- The entries are hashes of 32 bytes, alike where `f` says they have been looked at. -/
structure Alike (l : List Entry) (f : Flags) : Prop where
  len : ∀ e ∈ l, e.hash.length = 32
  same : ∀ i < 32, f i = false → ∀ x ∈ l, ∀ y ∈ l, byteAt x.hash i = byteAt y.hash i

theorem Alike.sub {l : List Entry} {f : Flags} (h : Alike l f) (bi : Nat) (b : UInt8) :
    Alike (runs bi l b) (ShallowTree.flip f bi) := by
  refine ⟨fun e he => h.len e (mem_runs.mp he).1, ?_⟩
  intro i hi hfi x hx y hy
  rw [mem_runs] at hx hy
  by_cases hib : i = bi
  · subst hib; rw [hx.2, hy.2]
  · exact h.same i hi (by simpa [ShallowTree.flip, hib] using hfi) x hx.1 y hy.1

theorem Alike.equal {l : List Entry} {f : Flags} (h : Alike l f)
    (h0 : ∀ i < 32, f i = true → ∀ x ∈ l, ∀ y ∈ l, byteAt x.hash i = byteAt y.hash i) :
    ∀ x ∈ l, ∀ y ∈ l, x.hash = y.hash := by
  intro x hx y hy
  refine ext_byteAt (h.len x hx) (h.len y hy) fun i hi => ?_
  cases hf : f i with
  | true => exact h0 i hi hf x hx y hy
  | false => exact h.same i hi hf x hx y hy

theorem u16_of_lt {n : Nat} (h : n < 65536) : u16 (n : Int) = n := by
  unfold u16; omega

theorem times_runs_le (bi : Nat) (l : List Entry) (b : UInt8) (h : Bytes) : times (runs bi l b) h ≤ times l h := by
  unfold times
  rw [(runs_perm bi l b).countP_eq]
  exact List.filter_sublist.countP_le

theorem all_used {f : Flags} (h : unusedCount f 32 = 0) : ∀ i < 32, f i = false := by
  intro i hi
  unfold unusedCount at h
  rw [List.countP_eq_zero] at h
  simpa using h i (List.mem_range.mpr hi)

/-- The node `i` belongs to the tree over the entries `l`. -/
def Desc (P : List Node) (first : Int) (count : Nat) (i level : Nat) (l : List Entry) (f : Flags) : Prop :=
  ∃ level' l' f', Rep P first count i level' l' f' ∧ Alike l' f' ∧ 2 ≤ l'.length ∧ (∀ e ∈ l', e ∈ l) ∧
    (∀ h, times l' h ≤ times l h) ∧ level' + unusedCount f' 32 = level + unusedCount f 32 ∧
    (unusedCount f' 32 = 0 → unusedCount f 32 = 0 ∨ ∃ x ∈ l, ∃ y ∈ l', OneByteOff x.hash y.hash)

theorem Desc.up {P : List Node} {first : Int} {count i level : Nat} {l : List Entry} {f : Flags} {bi : Nat} {b : UInt8}
    (h : Desc P first count i (level + 1) (runs bi l b) (ShallowTree.flip f bi)) (hA : Alike l f) (b1 : bi < 32)
    (b2 : f bi = true) (b3 : ∃ x ∈ l, ∃ y ∈ l, byteAt x.hash bi ≠ byteAt y.hash bi) : Desc P first count i level l f := by
  obtain ⟨level', l', f', h1, h2, h3, h4, h5, h6, h7⟩ := h
  have huc := unusedCount_flip b1 b2
  refine ⟨level', l', f', h1, h2, h3, fun e he => (mem_runs.mp (h4 e he)).1,
    fun q => Nat.le_trans (h5 q) (times_runs_le bi l b q), by omega, fun h0 => ?_⟩
  rcases h7 h0 with hz | ⟨x, hx, y, hy, ho⟩
  · right
    have hused := all_used hz
    match l', h3, h4 with
    | y :: _, _, h4 =>
      have hy := mem_runs.mp (h4 y (by simp))
      obtain ⟨u, hu, v, hv, huv⟩ := b3
      have hz : ∃ z ∈ l, byteAt z.hash bi ≠ byteAt y.hash bi := by
        by_cases hb : byteAt u.hash bi = byteAt y.hash bi
        · exact ⟨v, hv, fun h => huv (hb.trans h.symm)⟩
        · exact ⟨u, hu, hb⟩
      obtain ⟨z, hz, hzb⟩ := hz
      refine ⟨z, hz, y, by simp, bi, b1, hzb, fun j hj hne => ?_⟩
      exact hA.same j hj (by have := hused j hj; simpa [ShallowTree.flip, hne] using this) z hz y hy.1
  · exact .inr ⟨x, (mem_runs.mp hx).1, y, hy, ho⟩

/-- What making a node does; `w` bounds the number of nodes made. -/
structure Made (first : Int) (count w : Nat) (l : List Entry) (f : Flags) (level : Nat) (nodes : List Node) (idx : Nat)
    (nodes' : List Node) : Prop where
  eq : idx = nodes.length
  ext : ∃ seg, nodes' = nodes ++ seg
  grow : nodes.length < nodes'.length
  few : nodes'.length + 1 ≤ nodes.length + w
  room : nodes'.length = nodes.length + 1 ∨ nodes'.length + count ≤ 65536
  rep : ∀ P : List Node, (∀ i, nodes.length ≤ i → i < nodes'.length → P[i]? = nodes'[i]?) → Rep P first count idx level l f
  all : ∀ P : List Node, (∀ i, nodes.length ≤ i → i < nodes'.length → P[i]? = nodes'[i]?) →
    ∀ i, nodes.length ≤ i → i < nodes'.length → Desc P first count i level l f

theorem lt_of_ext {nodes nodes' seg : List Node} (h : nodes' = nodes ++ seg) {i : Nat} (hi : i < nodes.length) :
    nodes'[i]? = nodes[i]? := by
  rw [h, List.getElem?_append_left hi]

/-- A weight of runs: none for no entry, one for one entry, more for more. -/
structure Weight (w : List Entry → Nat) : Prop where
  nil : w [] = 0
  one : ∀ e, w [e] = 1
  more : ∀ r : List Entry, 2 ≤ r.length → 2 ≤ w r

theorem weight_length : Weight List.length := ⟨rfl, fun _ => rfl, fun _ h => h⟩

/-- The nodes that the runs add before the last one of them is reached. -/
def spent (w : List Entry → Nat) (rs : List (UInt8 × List Entry)) : Nat := (rs.map fun r => w r.2 - 1).sum

theorem spent_cons (w : List Entry → Nat) (r : UInt8 × List Entry) (rs : List (UInt8 × List Entry)) :
    spent w (r :: rs) = (w r.2 - 1) + spent w rs := by
  unfold spent; rw [List.map_cons, List.sum_cons]

theorem slots_made {first : Int} {count M : Nat} (hM : M ≤ 65537) {f : Flags} {level : Nat} {w : List Entry → Nat}
    (hw : Weight w) {rec : List Entry → List Node → Option (Nat × List Node)} : ∀ (rs : List (UInt8 × List Entry))
    (_hrec : ∀ r ∈ rs, 2 ≤ r.2.length → ∀ nodes : List Node, nodes.length + w r.2 ≤ M →
      (M + count ≤ 65537 → rec r.2 nodes ≠ none) ∧
      ∀ idx nodes', rec r.2 nodes = some (idx, nodes') → Made first count (w r.2) r.2 f level nodes idx nodes')
    (_hk : (rs.map (·.1)).Nodup) (lk : UInt8 → Nat) (nodes : List Node) (_h1 : 1 ≤ nodes.length)
    (_hR : ∀ pre r post, rs = pre ++ r :: post → 2 ≤ r.2.length → nodes.length + spent w pre + w r.2 ≤ M),
    (M + count ≤ 65537 → slots first count rec rs lk nodes ≠ none) ∧
    ∀ lk' nodes', slots first count rec rs lk nodes = some (lk', nodes') →
      (∃ seg, nodes' = nodes ++ seg) ∧
      nodes'.length ≤ nodes.length + spent w rs ∧
      (nodes'.length = nodes.length ∨ nodes'.length + count ≤ 65536) ∧
      (∀ b, b ∉ rs.map (·.1) → lk' b = lk b) ∧
      ∃ kids : UInt8 → Nat, (∀ r ∈ rs, Slot first count (lk' r.1) r.2 (kids r.1) ∧
        (2 ≤ r.2.length → ∀ P : List Node, (∀ i, nodes.length ≤ i → i < nodes'.length → P[i]? = nodes'[i]?) →
          Rep P first count (kids r.1) level r.2 f)) ∧
      ∀ P : List Node, (∀ i, nodes.length ≤ i → i < nodes'.length → P[i]? = nodes'[i]?) →
        ∀ i, nodes.length ≤ i → i < nodes'.length → ∃ r ∈ rs, Desc P first count i level r.2 f := by
  intro rs
  induction rs with
  | nil =>
    intro _ _ lk nodes _ _
    refine ⟨by simp [slots], ?_⟩
    intro lk' nodes' h
    simp only [slots, Option.some.injEq, Prod.mk.injEq] at h
    obtain ⟨rfl, rfl⟩ := h
    exact ⟨⟨[], by simp⟩, by simp [spent], .inl rfl, by simp, fun _ => 0, by simp, fun P _ i h1 h2 => by omega⟩
  | cons r rs ih =>
    intro hrec hk lk nodes h1 hR
    obtain ⟨b, run⟩ := r
    rw [List.map_cons, List.nodup_cons] at hk
    have hrec' : ∀ r ∈ rs, 2 ≤ r.2.length → ∀ nodes : List Node, nodes.length + w r.2 ≤ M →
      (M + count ≤ 65537 → rec r.2 nodes ≠ none) ∧
      ∀ idx nodes', rec r.2 nodes = some (idx, nodes') → Made first count (w r.2) r.2 f level nodes idx nodes' :=
      fun r hr => hrec r (by simp [hr])
    have hR' : ∀ pre r post, rs = pre ++ r :: post → 2 ≤ r.2.length →
        nodes.length + (w run - 1) + spent w pre + w r.2 ≤ M := by
      intro pre r post h h2
      have := hR ((b, run) :: pre) r post (by rw [h]; rfl) h2
      rw [spent_cons] at this
      dsimp only at this
      omega
    rw [spent_cons]
    dsimp only
    match run, hrec, hR, hR' with
    | [], _, hR, hR' =>
      have hw0 := hw.nil
      have := ih hrec' hk.2 (put lk b 0) nodes h1 (fun pre r post h h2 => by have := hR' pre r post h h2; omega)
      rw [slots]
      refine ⟨this.1, ?_⟩
      intro lk' nodes' h
      obtain ⟨he, hf, hro, hb, kids, hs, hall⟩ := this.2 lk' nodes' h
      refine ⟨he, by omega, hro, ?_, kids, ?_, fun P hP i h1 h2 => by
        obtain ⟨r, hr, hd⟩ := hall P hP i h1 h2
        exact ⟨r, by simp [hr], hd⟩⟩
      · intro c hc
        rw [List.map_cons, List.mem_cons, not_or] at hc
        rw [hb c hc.2, put, if_neg hc.1]
      · intro r hr
        rcases List.mem_cons.mp hr with rfl | hr
        · refine ⟨⟨fun _ => ?_, by simp, by simp⟩, by simp⟩
          rw [hb b hk.1]
          simp [put]
        · exact hs r hr
    | [e], _, hR, hR' =>
      have hw1 := hw.one e
      have := ih hrec' hk.2 (put lk b (u16 (e.pi - first + 1))) nodes h1
        (fun pre r post h h2 => by have := hR' pre r post h h2; omega)
      rw [slots]
      refine ⟨this.1, ?_⟩
      intro lk' nodes' h
      obtain ⟨he, hf, hro, hb, kids, hs, hall⟩ := this.2 lk' nodes' h
      refine ⟨he, by omega, hro, ?_, kids, ?_, fun P hP i h1 h2 => by
        obtain ⟨r, hr, hd⟩ := hall P hP i h1 h2
        exact ⟨r, by simp [hr], hd⟩⟩
      · intro c hc
        rw [List.map_cons, List.mem_cons, not_or] at hc
        rw [hb c hc.2, put, if_neg hc.1]
      · intro r hr
        rcases List.mem_cons.mp hr with rfl | hr
        · refine ⟨⟨by simp, fun x hx => ?_, by simp⟩, by simp⟩
          simp only [List.cons.injEq, and_true] at hx
          rw [hb b hk.1, ← hx]
          simp [put]
        · exact hs r hr
    | e :: e' :: es, hrec, hR, hR' =>
      have hlen2 : 2 ≤ (e :: e' :: es).length := by simp
      have hRb : nodes.length + w (e :: e' :: es) ≤ M := by
        have := hR [] (b, e :: e' :: es) rs rfl hlen2
        simpa [spent] using this
      have hrun := hrec (b, e :: e' :: es) (by simp) (by simp) nodes hRb
      dsimp only at hrun
      rw [slots]
      have hw2 := hw.more _ hlen2
      generalize hres : rec (e :: e' :: es) nodes = res at hrun
      match res, hrun with
      | none, hrun => exact ⟨fun hc => absurd rfl (hrun.1 hc), by simp⟩
      | some (child, nodes1), hrun =>
        have hmade := hrun.2 child nodes1 rfl
        have hfew := hmade.few
        have hgrow := hmade.grow
        have hci := hmade.eq
        have hroom := hmade.room
        have hcb : child < 65536 := by omega
        have henc : u16 (65536 - (child : Int)) = 65536 - child := by
          have : (65536 : Int) - child = ((65536 - child : Nat) : Int) := by omega
          rw [this]
          apply u16_of_lt; omega
        dsimp only
        rw [henc]
        by_cases hov : 65536 - child ≤ count
        · rw [if_pos hov]
          refine ⟨fun hc => ?_, by simp⟩
          omega
        rw [if_neg hov]
        have := ih hrec' hk.2 (put lk b (65536 - child)) nodes1 (by omega)
          (fun pre r post h h2 => by have := hR' pre r post h h2; omega)
        refine ⟨this.1, ?_⟩
        intro lk' nodes' h
        obtain ⟨⟨seg', hseg'⟩, hf, hro, hb, kids, hs, hall⟩ := this.2 lk' nodes' h
        obtain ⟨seg, hseg⟩ := hmade.ext
        have hl' : nodes1.length ≤ nodes'.length := by rw [hseg', List.length_append]; omega
        refine ⟨⟨seg ++ seg', by rw [hseg', hseg, List.append_assoc]⟩, by omega, .inr ?_, ?_, put kids b child, ?_, ?_⟩
        · rcases hro with hro | hro <;> rcases hroom with hroom | hroom <;> omega
        · intro c hc
          rw [List.map_cons, List.mem_cons, not_or] at hc
          rw [hb c hc.2, put, if_neg hc.1]
        · intro r hr
          rcases List.mem_cons.mp hr with rfl | hr
          · have hp : put kids b child b = child := by simp [put]
            dsimp only
            rw [hp]
            refine ⟨⟨by simp, by simp, fun _ => ?_⟩, fun _ P hP => ?_⟩
            · rw [hb b hk.1]
              refine ⟨by simp [put], by omega, hcb, ?_⟩
              simp [put]
              omega
            · refine hmade.rep P fun i h1 h2 => ?_
              rw [hP i h1 (by omega), lt_of_ext hseg' h2]
          · obtain ⟨hs1, hs2⟩ := hs r hr
            have hne : r.1 ≠ b := by
              intro h
              exact hk.1 (h ▸ List.mem_map.mpr ⟨r, hr, rfl⟩)
            have hp : put kids b child r.1 = kids r.1 := by simp [put, hne]
            rw [hp]
            refine ⟨hs1, fun h2 P hP => hs2 h2 P fun i h1 h3 => ?_⟩
            exact hP i (by omega) h3
        · intro P hP i h1 h2
          by_cases hi : i < nodes1.length
          · refine ⟨(b, e :: e' :: es), by simp, hmade.all P (fun i h1 h2 => ?_) i h1 hi⟩
            rw [hP i h1 (by omega), lt_of_ext hseg' h2]
          · obtain ⟨r, hr, hd⟩ := hall P (fun i h1 h3 => hP i (by omega) h3) i (by omega) h2
            exact ⟨r, by simp [hr], hd⟩

theorem countP_two {l : List UInt8} {p : UInt8 → Bool} {x y : UInt8} (hx : x ∈ l) (hy : y ∈ l) (hne : x ≠ y) (px : p x = true)
    (py : p y = true) : 2 ≤ l.countP p := by
  induction l with
  | nil => simp at hx
  | cons a l ih =>
    rw [List.countP_cons]
    rcases List.mem_cons.mp hx with rfl | hx1
    · have hy' : y ∈ l := by
        rcases List.mem_cons.mp hy with h | h
        · exact absurd h.symm hne
        · exact h
      have : 0 < l.countP p := List.countP_pos_iff.mpr ⟨y, hy', py⟩
      rw [if_pos px]; omega
    · rcases List.mem_cons.mp hy with rfl | hy
      · have : 0 < l.countP p := List.countP_pos_iff.mpr ⟨x, hx1, px⟩
        rw [if_pos py]; omega
      · have := ih hx1 hy
        omega

theorem set_agree {nodes : List Node} {idx i : Nat} {n : Node} (h : idx ≠ i) : (nodes.set idx n)[i]? = nodes[i]? := by
  rw [List.getElem?_set, if_neg h]

/-- The runs that are not empty. -/
def kept (rs : List (UInt8 × List Entry)) : Nat := rs.countP fun r => decide (r.2 ≠ [])

theorem spent_add {w : List Entry → Nat} (hw : Weight w) : ∀ rs : List (UInt8 × List Entry),
    spent w rs + kept rs = (rs.map fun r => w r.2).sum := by
  intro rs
  induction rs with
  | nil => rfl
  | cons r rs ih =>
    obtain ⟨b, run⟩ := r
    rw [spent_cons, List.map_cons, List.sum_cons, ← ih]
    unfold kept
    match run with
    | [] => rw [List.countP_cons_of_neg (by simp)]; have := hw.nil; dsimp only; omega
    | [e] => rw [List.countP_cons_of_pos (by simp)]; have := hw.one e; dsimp only; omega
    | e :: e' :: es =>
      rw [List.countP_cons_of_pos (by simp)]
      have := hw.more (e :: e' :: es) (by simp)
      dsimp only; omega

theorem fits {w : List Entry → Nat} (hw : Weight w) {rs : List (UInt8 × List Entry)} {n M : Nat}
    (h : n + (rs.map fun r => w r.2).sum + 2 ≤ M + kept rs) : ∀ pre r post, rs = pre ++ r :: post → 2 ≤ r.2.length →
    n + 1 + spent w pre + w r.2 ≤ M := by
  intro pre r post he h2
  have h1 := spent_add hw pre
  have h3 := spent_add hw post
  have hk : kept rs = kept pre + (1 + kept post) := by
    unfold kept
    rw [he, List.countP_append, List.countP_cons_of_pos (by
      simp only [ne_eq, decide_not, Bool.not_eq_eq_eq_not, Bool.not_true, decide_eq_false_iff_not]
      intro h; rw [h] at h2; simp at h2)]
    omega
  rw [he, List.map_append, List.map_cons, List.sum_append, List.sum_cons, ← he] at h
  omega

/-- The runs of the entries by one byte. -/
def allRuns (bi : Nat) (l : List Entry) : List (UInt8 × List Entry) := allBytes.map fun b => (b, runs bi l b)

theorem allRuns_keys (bi : Nat) (l : List Entry) : ((allRuns bi l).map (·.1)).Nodup := by
  unfold allRuns
  rw [List.map_map]; exact (List.map_id allBytes).symm ▸ allBytes_nodup

theorem mem_allRuns {bi : Nat} {l : List Entry} {r : UInt8 × List Entry} : r ∈ allRuns bi l ↔ r.2 = runs bi l r.1 := by
  unfold allRuns
  rw [List.mem_map]
  constructor
  · rintro ⟨b, _, rfl⟩; rfl
  · intro h; exact ⟨r.1, mem_allBytes _, by rw [← h]⟩

theorem allRuns_sum (bi : Nat) (l : List Entry) : ((allRuns bi l).map fun r => r.2.length).sum = l.length := by
  unfold allRuns
  rw [List.map_map]; exact sum_runs bi l

theorem allRuns_kept {bi : Nat} {l : List Entry} (h : ∃ x ∈ l, ∃ y ∈ l, byteAt x.hash bi ≠ byteAt y.hash bi) :
    2 ≤ kept (allRuns bi l) := by
  obtain ⟨x, hx, y, hy, hxy⟩ := h
  unfold kept allRuns
  rw [List.countP_map]
  refine countP_two (mem_allBytes (byteAt x.hash bi)) (mem_allBytes (byteAt y.hash bi)) hxy ?_ ?_
  · simpa using List.ne_nil_of_mem (mem_runs.mpr ⟨hx, rfl⟩)
  · simpa using List.ne_nil_of_mem (mem_runs.mpr ⟨hy, rfl⟩)

/-- The body of the recursion at a node that branches. -/
theorem branch_made {first : Int} {count M : Nat} (hM : M ≤ 65537) {f : Flags} {level bi : Nat} {w : List Entry → Nat}
    (hw : Weight w) {rec : List Entry → List Node → Option (Nat × List Node)} {l : List Entry} (b1 : bi < 32)
    (b2 : f bi = true) (b3 : ∃ x ∈ l, ∃ y ∈ l, byteAt x.hash bi ≠ byteAt y.hash bi) (hA : Alike l f) (h2 : 2 ≤ l.length)
    (hrec : ∀ b, 2 ≤ (runs bi l b).length → ∀ nodes : List Node, nodes.length + w (runs bi l b) ≤ M →
      (M + count ≤ 65537 → rec (runs bi l b) nodes ≠ none) ∧
      ∀ idx nodes', rec (runs bi l b) nodes = some (idx, nodes') →
        Made first count (w (runs bi l b)) (runs bi l b) (ShallowTree.flip f bi) (level + 1) nodes idx nodes')
    (nodes : List Node) (v : Nat) (hv : ((allRuns bi l).map fun r => w r.2).sum + 2 ≤ v + kept (allRuns bi l))
    (hn : nodes.length + v ≤ M) :
    (M + count ≤ 65537 →
      (slots first count rec (cut bi allBytes (stableSort (fun a b => decide (byteAt a.hash bi ≤ byteAt b.hash bi)) l))
        noLookups (nodes ++ [⟨level, 0, noLookups⟩])).map (fun r => (nodes.length, r.2.set nodes.length ⟨level, bi, r.1⟩)) ≠
        none) ∧
    ∀ idx nodes',
      (slots first count rec (cut bi allBytes (stableSort (fun a b => decide (byteAt a.hash bi ≤ byteAt b.hash bi)) l))
        noLookups (nodes ++ [⟨level, 0, noLookups⟩])).map (fun r => (nodes.length, r.2.set nodes.length ⟨level, bi, r.1⟩)) =
        some (idx, nodes') → Made first count v l f level nodes idx nodes' := by
  rw [cut_sorted]
  have key := slots_made (first := first) (count := count) hM (f := ShallowTree.flip f bi) (level := level + 1) hw
    (rec := rec) (allRuns bi l) (by
      intro r hr hr2 nodes1 hn1
      rw [mem_allRuns] at hr
      rw [hr] at hr2 hn1 ⊢
      exact hrec r.1 hr2 nodes1 hn1)
    (allRuns_keys bi l) noLookups (nodes ++ [⟨level, 0, noLookups⟩]) (by simp)
    (by
      rw [List.length_append]
      simp only [List.length_cons, List.length_nil, Nat.zero_add]
      exact fits hw (by omega))
  have hspent := spent_add hw (allRuns bi l)
  change (_ → (slots first count rec (allRuns bi l) noLookups _).map _ ≠ none) ∧ ∀ idx nodes',
    (slots first count rec (allRuns bi l) noLookups _).map _ = some (idx, nodes') → _
  generalize hres : slots first count rec (allRuns bi l) noLookups (nodes ++ [⟨level, 0, noLookups⟩]) = res at key
  match res, key with
  | none, key => exact ⟨fun hc => absurd rfl (key.1 hc), by simp⟩
  | some (lk, nodes1), key =>
    rw [Option.map_some]
    refine ⟨by simp, ?_⟩
    intro idx nodes' h
    simp only [Option.some.injEq, Prod.mk.injEq] at h
    obtain ⟨rfl, rfl⟩ := h
    obtain ⟨⟨seg, hseg⟩, hf, hro, _, kids, hs, hall⟩ := key.2 lk nodes1 rfl
    have hl1 : nodes1.length = nodes.length + 1 + seg.length := by rw [hseg]; simp [Nat.add_assoc]; omega
    have hset : nodes1.set nodes.length ⟨level, bi, lk⟩ = nodes ++ (⟨level, bi, lk⟩ :: seg) := by
      rw [hseg, List.append_assoc, List.set_append_right _ _ (by omega)]
      simp
    rw [List.length_append] at hf hro
    simp only [List.length_cons, List.length_nil] at hf hro
    have hrep : ∀ P : List Node, (∀ i, nodes.length ≤ i → i < nodes1.length →
        P[i]? = (nodes1.set nodes.length ⟨level, bi, lk⟩)[i]?) → Rep P first count nodes.length level l f := by
      intro P hP
      refine .branch kids b1 b2 b3 (bi := bi) (lk := lk) ?_ ?_ ?_
      · rw [hP nodes.length (by omega) (by omega), hset]
        simp
      · intro b
        exact (hs (b, runs bi l b) (mem_allRuns.mpr rfl)).1
      · intro b hb
        refine (hs (b, runs bi l b) (mem_allRuns.mpr rfl)).2 hb P ?_
        intro i h1 h2
        simp only [List.length_append, List.length_cons, List.length_nil] at h1
        rw [hP i (by omega) h2, set_agree (by omega)]
    refine ⟨rfl, ⟨_, hset⟩, by rw [List.length_set]; omega, by rw [List.length_set]; omega, ?_, ?_, ?_⟩
    · rw [List.length_set]
      rcases hro with h | h
      · left; omega
      · exact .inr h
    · intro P hP
      rw [List.length_set] at hP
      exact hrep P hP
    · intro P hP i h1 h3
      rw [List.length_set] at hP h3
      by_cases hi : i = nodes.length
      · subst hi
        exact ⟨level, l, f, hrep P hP, hA, h2, fun _ h => h, fun _ => Nat.le_refl _, rfl, fun h => .inl h⟩
      · obtain ⟨r, hr, hd⟩ := hall P (by
          intro i h1 h2
          simp only [List.length_append, List.length_cons, List.length_nil] at h1
          rw [hP i (by omega) h2, set_agree (by omega)]) i
          (by simp only [List.length_append, List.length_cons, List.length_nil]; omega) h3
        rw [mem_allRuns] at hr
        rw [hr] at hd
        exact hd.up hA b1 b2 b3

theorem gen_made {ent : List Entry → Nat → Nat} (he : EntropyOK ent) {first : Int} {count M : Nat} (hM : M ≤ 65537) :
    ∀ (n : Nat) (l : List Entry) (f : Flags) (level : Nat) (nodes : List Node), Alike l f → 2 ≤ l.length →
      unusedCount f 32 < n → nodes.length + l.length ≤ M →
      (M + count ≤ 65537 → gen ent first count n l f level nodes ≠ none) ∧
      ∀ idx nodes', gen ent first count n l f level nodes = some (idx, nodes') →
        Made first count l.length l f level nodes idx nodes' := by
  intro n
  induction n with
  | zero => intro l f level nodes _ _ h; exact absurd h (Nat.not_lt_zero _)
  | succ n ih =>
    intro l f level nodes hA h2 hn hlen
    rw [gen]
    dsimp only
    by_cases h0 : (best ent l f 32).1 = 0
    · rw [if_pos h0]
      rw [best_zero he] at h0
      match l, h2 with
      | e :: e' :: es, _ =>
        rw [ended, if_neg (by simp), Option.map_some]
        refine ⟨by simp, ?_⟩
        intro idx nodes' h
        simp only [Option.some.injEq, Prod.mk.injEq] at h
        obtain ⟨rfl, rfl⟩ := h
        refine ⟨rfl, ⟨[⟨level, 32, put noLookups 0 (u16 (lowest e.pi (e' :: es) - first + 1))⟩], by
          rw [List.set_append_right _ _ (by omega)]; simp⟩, by simp, by simp; omega, .inl (by simp), ?_, ?_⟩
        · intro P hP
          refine .dup ?_ (by simp) (hA.equal h0)
          rw [hP nodes.length (by omega) (by simp)]
          simp
        · intro P hP i h1 h2
          have hi : i = nodes.length := by simp at h2; omega
          subst hi
          refine ⟨level, _, f, .dup ?_ (by simp) (hA.equal h0), hA, by simp, fun _ h => h, fun _ => Nat.le_refl _, rfl,
            fun h => .inl h⟩
          rw [hP nodes.length (by omega) (by simp)]
          simp
    · rw [if_neg h0]
      obtain ⟨b1, b2, b3⟩ := best_pos he h0
      generalize hm : best ent l f 32 = m at h0 b1 b2 b3
      have huc := unusedCount_flip b1 b2
      have hk := allRuns_kept b3
      refine branch_made hM weight_length b1 b2 b3 hA h2 (fun b hb nodes1 hn1 => ?_) nodes l.length ?_ hlen
      · exact ih (runs m.2 l b) (ShallowTree.flip f m.2) (level + 1) nodes1 (hA.sub m.2 b) hb (by omega) hn1
      · rw [allRuns_sum]; omega

theorem lowest_spec : ∀ (es : List Entry) (m : Int), (lowest m es = m ∨ ∃ e ∈ es, lowest m es = e.pi) ∧ lowest m es ≤ m ∧
    ∀ e ∈ es, lowest m es ≤ e.pi := by
  intro es
  induction es with
  | nil => intro m; simp [lowest]
  | cons x xs ih =>
    intro m
    rw [lowest]
    obtain ⟨h1, h2, h3⟩ := ih (if x.pi < m then x.pi else m)
    generalize lowest (if x.pi < m then x.pi else m) xs = v at h1 h2 h3 ⊢
    refine ⟨?_, ?_, ?_⟩
    · rcases h1 with h | ⟨e, he, h⟩
      · split at h
        · exact .inr ⟨x, by simp, h⟩
        · exact .inl h
      · exact .inr ⟨e, by simp [he], h⟩
    · split at h2 <;> omega
    · intro e he
      rcases List.mem_cons.mp he with rfl | he
      · split at h2 <;> omega
      · exact h3 e he

end Verif.HashTree
