import Verif.Lemmas.DonutForest

/-!
# Visiting every leaf of a tree
-/

namespace Verif.DonutForest

open Verif.ShallowTree Verif.Chunk Verif.SingleTree

/-- The ids of the nodes below a node, in order. -/
def childIds (m : IdMap) (p : List UInt8) (next : UInt8 → Tree) : List Nat := (actives next).map (slotId m p next)

theorem slotId_ne_zero {c : Config} {m : IdMap} {p : List UInt8} {next : UInt8 → Tree} (h : Known c m p next) (b : UInt8) :
    slotId m p next b ≠ 0 ↔ (next b).isEmpty = false := by
  unfold slotId
  by_cases he : (next b).isEmpty = true
  · simp [he]
  · rw [if_neg he]
    obtain ⟨id, e, hpos, -⟩ := h b (by simpa using he)
    rw [e, Option.getD_some]
    constructor
    · intro _; simpa using he
    · intro _; omega

/-! ## Full nodes -/

theorem fullAll_ok {c : Config} {bytes : Bytes} {g : Nat → Nat} : ∀ ss : List Nat,
    (∀ s ∈ ss, (readAt bytes (1 + 1 + s * c.w) c.w).map leDec = some (g s)) →
    fullAll c bytes ss = some ((ss.map g).filter fun x => decide (x ≠ 0)) := by
  intro ss
  induction ss with
  | nil => intro _; rfl
  | cons s ss ih =>
    intro h
    obtain ⟨bs, e1, e2⟩ := Option.map_eq_some_iff.1 (h s (by simp))
    rw [fullAll, e1]
    dsimp only
    rw [ih fun x hx => h x (by simp [hx]), Option.map_some, e2, List.map_cons]
    by_cases hz : g s = 0 <;> simp [hz]

theorem filter_children {c : Config} {m : IdMap} {p : List UInt8} {next : UInt8 → Tree} (h : Known c m p next) :
    ((allBytes.map (slotId m p next)).filter fun x => decide (x ≠ 0)) = childIds m p next := by
  unfold childIds actives
  rw [List.filter_map]
  congr 1
  apply List.filter_congr
  intro b _
  have := slotId_ne_zero h b
  rw [Bool.eq_iff_iff]
  simp only [Function.comp, decide_eq_true_eq, Bool.not_eq_true']
  exact this

theorem full_all {c : Config} {m : IdMap} {p : List UInt8} {next : UInt8 → Tree} (h : Known c m p next) (bi : Nat) {bs : Bytes}
    (hb : fullBytes c m p bi next = some bs) : fullAll c bs (List.range 256) = some (childIds m p next) := by
  obtain ⟨bs', e1, -, -, -, e5⟩ := full_read h bi
  rw [hb] at e1
  obtain rfl := Option.some.inj e1
  rw [fullAll_ok (g := fun s => slotId m p next (UInt8.ofNat s)) (List.range 256) (by
    intro s hs
    rw [List.mem_range] at hs
    have := e5 (UInt8.ofNat s)
    rw [UInt8.toNat_ofNat', Nat.mod_eq_of_lt (by omega)] at this
    exact this), ← filter_children h]
  unfold allBytes
  rw [List.map_map]
  rfl

/-! ## Medium nodes -/

theorem mediumGo_ok {c : Config} {bytes : Bytes} {g : Nat → Nat} : ∀ is : List Nat,
    (∀ i ∈ is, (readAt bytes (2 + 32 + i * c.w) c.w).map leDec = some (g i)) →
    mediumAll.go c bytes is = some ((is.map g).filter fun x => decide (x ≠ 0)) := by
  intro is
  induction is with
  | nil => intro _; rfl
  | cons s ss ih =>
    intro h
    obtain ⟨bs, e1, e2⟩ := Option.map_eq_some_iff.1 (h s (by simp))
    rw [mediumAll.go, e1]
    dsimp only
    rw [ih fun x hx => h x (by simp [hx]), Option.map_some, e2, List.map_cons]
    by_cases hz : g s = 0 <;> simp [hz]

theorem medium_all {c : Config} {m : IdMap} {p : List UInt8} {next : UInt8 → Tree} {spec : Spec} (h : Known c m p next)
    (bi : Nat) {bs : Bytes} (hb : mediumBytes c spec m p bi next = some bs) : mediumAll c bs = some (childIds m p next) := by
  have hids := activeIds_ok h (actives next) fun b hb => mem_actives.1 hb
  obtain ⟨hfl, hflag⟩ := flags_ok next
  unfold mediumBytes at hb
  dsimp only at hb
  rw [hids] at hb
  dsimp only at hb
  split at hb
  · cases hb
  · injection hb with hb
    rw [List.length_map] at hb
    generalize hz : zeros (c.w * (spec.cap - (actives next).length)) = z at hb
    have hcount : (actives next).length = (List.range 256).countP (flag ((actives next).foldl setBit (zeros 32))) := by
      unfold actives
      rw [← List.countP_eq_length_filter]
      unfold allBytes
      rw [List.countP_map]
      apply List.countP_congr
      intro s hs
      have := hflag s (List.mem_range.1 hs)
      unfold actives allBytes at this
      rw [this]
      rfl
    generalize (actives next).foldl setBit (zeros 32) = fl at *
    have hread : ∀ (X : Bytes) (k : Nat), k < 4 → readAt (c.padMedium :: UInt8.ofNat bi :: fl ++ X) (2 + 8 * k) 8 =
        some ((fl.drop (8 * k)).take 8) := by
      intro X k hk
      unfold readAt
      rw [if_pos (by simp [hfl]; omega)]
      congr 1
      rw [show 2 + 8 * k = 8 * k + 1 + 1 by omega, List.cons_append, List.cons_append, List.drop_succ_cons, List.drop_succ_cons,
        List.drop_append_of_le_length (by omega), List.take_append_of_le_length (by rw [List.length_drop]; omega)]
    rw [List.append_assoc] at hb
    have r0 := hread (((actives next).map (slotId m p next)).flatMap (leEnc c.w) ++ z) 0 (by decide)
    have r1 := hread (((actives next).map (slotId m p next)).flatMap (leEnc c.w) ++ z) 1 (by decide)
    have r2 := hread (((actives next).map (slotId m p next)).flatMap (leEnc c.w) ++ z) 2 (by decide)
    have r3 := hread (((actives next).map (slotId m p next)).flatMap (leEnc c.w) ++ z) 3 (by decide)
    simp only [Nat.mul_zero, Nat.add_zero, Nat.mul_one, Nat.reduceMul, Nat.reduceAdd] at r0 r1 r2 r3
    rw [hb] at r0 r1 r2 r3
    have f0 := onesCount_flags (fl := fl) (k := 0)
    have f1 := onesCount_flags (fl := fl) (k := 1)
    have f2 := onesCount_flags (fl := fl) (k := 2)
    have f3 := onesCount_flags (fl := fl) (k := 3)
    simp only [Nat.mul_zero, Nat.mul_one, Nat.zero_add, Nat.reduceMul] at f0 f1 f2 f3
    have q1 := range_add_countP (flag fl) 64 64
    have q2 := range_add_countP (flag fl) 128 64
    have q3 := range_add_countP (flag fl) 192 64
    simp only [Nat.reduceAdd] at q1 q2 q3
    replace f0 : onesCount (leDec ((fl.drop 0).take 8)) = (List.range 64).countP (flag fl) := f0
    unfold mediumAll
    rw [r0, r1, r2, r3]
    dsimp only
    have htot : onesCount (leDec ((fl.drop 0).take 8)) + onesCount (leDec ((fl.drop 8).take 8)) +
        onesCount (leDec ((fl.drop 16).take 8)) + onesCount (leDec ((fl.drop 24).take 8)) = (actives next).length := by
      omega
    rw [htot, mediumGo_ok (g := fun i => ((actives next).map (slotId m p next)).getD i 0) _ (by
      intro i hi
      rw [List.mem_range] at hi
      have hrec := readAt_records (fun b => leEnc c.w (slotId m p next b)) c.w (actives next) i _ (List.getElem?_eq_getElem hi)
        (fun x _ => leEnc_length _ _) (c.padMedium :: UInt8.ofNat bi :: fl) z
      rw [show (c.padMedium :: UInt8.ofNat bi :: fl).length = 2 + 32 by simp [hfl]] at hrec
      rw [List.flatMap_map, ← List.append_assoc] at hb
      rw [← hb, hrec, Option.map_some, leDec_leEnc_of_lt (slotId_lt h _)]
      simp [List.getD, List.getElem?_eq_getElem hi])]
    have hm : (List.range (actives next).length).map (fun i => ((actives next).map (slotId m p next)).getD i 0) = childIds m p next := by
      apply List.ext_getElem?
      intro i
      rw [List.getElem?_map]
      unfold childIds
      by_cases hi : i < (actives next).length
      · rw [List.getElem?_range hi, Option.map_some]
        simp [List.getD, List.getElem?_eq_getElem hi]
      · rw [List.getElem?_eq_none (by simpa using hi), List.getElem?_eq_none (by simpa using hi)]
        rfl
    rw [hm]
    congr 1
    rw [List.filter_eq_self]
    intro x hx
    obtain ⟨b, hbb, rfl⟩ := List.mem_map.1 hx
    have := (slotId_ne_zero h b).2 (mem_actives.1 hbb)
    simpa using this

/-! ## Tiny nodes -/

theorem tinyAll_zeros {c : Config} : ∀ (z : Nat) (pre : Bytes) (off : Nat), pre.length = off →
    tinyAll c (pre ++ zeros (z * (c.w + 1))) z off = some [] := by
  intro z
  induction z with
  | zero => intro pre off _; rfl
  | succ z ih =>
    intro pre off hoff
    have hz : zeros ((z + 1) * (c.w + 1)) = 0 :: (zeros c.w ++ zeros (z * (c.w + 1))) := by
      unfold zeros
      rw [List.replicate_append_replicate, ← List.replicate_succ]
      congr 1
      rw [Nat.add_mul]
      omega
    have e : pre ++ zeros ((z + 1) * (c.w + 1)) = (pre ++ [0]) ++ zeros c.w ++ zeros (z * (c.w + 1)) := by simp [hz]
    have e2 : pre ++ zeros ((z + 1) * (c.w + 1)) = (pre ++ 0 :: zeros c.w) ++ zeros (z * (c.w + 1)) := by simp [hz]
    unfold tinyAll
    rw [e, readAt_mid (by simp [hoff]) (by simp)]
    dsimp only
    rw [← e, e2, ih _ _ (by simp [hoff]; omega), Option.map_some, leDec_zeros]
    simp

theorem tinyAll_ok {c : Config} (z : Nat) : ∀ (l : List (UInt8 × Nat)) (pre : Bytes) (off : Nat), pre.length = off →
    (∀ x ∈ l, 0 < x.2 ∧ x.2 < 256 ^ c.w) →
    tinyAll c (pre ++ l.flatMap (pair c) ++ zeros (z * (c.w + 1))) (l.length + z) off = some (l.map (·.2)) := by
  intro l
  induction l with
  | nil =>
    intro pre off hoff _
    simp only [List.flatMap_nil, List.append_nil, List.length_nil, Nat.zero_add]
    exact tinyAll_zeros z pre off hoff
  | cons x l ih =>
    intro pre off hoff hlt
    have e : pre ++ (x :: l).flatMap (pair c) ++ zeros (z * (c.w + 1)) =
        (pre ++ [x.1]) ++ leEnc c.w x.2 ++ (l.flatMap (pair c) ++ zeros (z * (c.w + 1))) := by simp [pair]
    have e2 : pre ++ (x :: l).flatMap (pair c) ++ zeros (z * (c.w + 1)) =
        (pre ++ pair c x) ++ l.flatMap (pair c) ++ zeros (z * (c.w + 1)) := by simp
    obtain ⟨h1, h2⟩ := hlt x (by simp)
    rw [List.length_cons, show l.length + 1 + z = l.length + z + 1 by omega]
    unfold tinyAll
    rw [e, readAt_mid (by simp [hoff]) (by simp)]
    dsimp only
    rw [← e, e2, ih _ _ (by rw [List.length_append, pair_length, hoff]; omega) fun y hy => hlt y (by simp [hy]), Option.map_some,
      leDec_leEnc_of_lt h2, if_pos (by omega)]
    rfl

theorem tiny_all {c : Config} {m : IdMap} {p : List UInt8} {next : UInt8 → Tree} {spec : Spec} (h : Known c m p next) (bi : Nat)
    (hcap : (actives next).length ≤ spec.cap) {bs : Bytes} (hb : tinyBytes c spec m p bi next = some bs) :
    tinyAll c bs spec.cap 1 = some (childIds m p next) := by
  have hids := activeIds_ok h (actives next) fun b hb => mem_actives.1 hb
  have hfl : ((actives next).map fun a => (a, slotId m p next a)).flatMap (pair c) =
      ((actives next).zip ((actives next).map (slotId m p next))).flatMap fun x => x.1 :: leEnc c.w x.2 := by
    rw [zip_map_self]; rfl
  have hlen : (((actives next).map fun a => (a, slotId m p next a)).flatMap (pair c)).length =
      (actives next).length * (c.w + 1) := by
    rw [flatMap_length_const _ _ (pair_length c), List.length_map]
  have hmul : (actives next).length * (c.w + 1) ≤ spec.cap * (c.w + 1) := Nat.mul_le_mul_right _ hcap
  have hcomm : (1 + c.w) * spec.cap = spec.cap * (c.w + 1) := by rw [Nat.mul_comm, Nat.add_comm]
  unfold tinyBytes at hb
  dsimp only at hb
  split at hb
  · cases hb
  next hroom =>
  rw [hids] at hb
  dsimp only at hb
  split at hb
  · cases hb
  next hw =>
  injection hb with hb
  have hbs : bs = [UInt8.ofNat bi] ++ ((actives next).map fun a => (a, slotId m p next a)).flatMap (pair c) ++
      zeros ((spec.cap - (actives next).length) * (c.w + 1)) := by
    rw [← hb, ← hfl, List.length_cons, hlen]
    have hle : (UInt8.ofNat bi :: ((actives next).map fun a => (a, slotId m p next a)).flatMap (pair c)).length ≤
        1 + (1 + c.w) * spec.cap := by
      rw [List.length_cons, hlen]; omega
    rw [List.take_append, List.take_of_length_le hle, List.length_cons, hlen]
    have : (zeros (1 + (1 + 8) * 5 - ((actives next).length * (c.w + 1) + 1))).take
        (1 + (1 + c.w) * spec.cap - ((actives next).length * (c.w + 1) + 1)) =
        zeros ((spec.cap - (actives next).length) * (c.w + 1)) := by
      unfold zeros
      rw [List.take_replicate]
      congr 1
      rw [Nat.sub_mul]
      omega
    rw [this]
    rfl
  have := tinyAll_ok (c := c) (spec.cap - (actives next).length)
    ((actives next).map fun a => (a, slotId m p next a)) [UInt8.ofNat bi] 1 rfl (by
      intro x hx
      obtain ⟨a, ha, rfl⟩ := List.mem_map.1 hx
      have h1 := (slotId_ne_zero h a).2 (mem_actives.1 ha)
      exact ⟨by dsimp only; omega, slotId_lt h a⟩)
  rw [List.length_map, show (actives next).length + (spec.cap - (actives next).length) = spec.cap by omega] at this
  rw [hbs, this]
  unfold childIds
  rw [List.map_map]
  rfl

/-! ## Any branching node -/

theorem branch_all {c : Config} (hc : ConfigOK c) {m : IdMap} {p : List UInt8} {next : UInt8 → Tree} (h : Known c m p next)
    {bi S : Nat} (hS : S ≤ 256) (hle : activeSlots (.slots bi next) ≤ S)
    (h0 : activeSlots (.slots bi next) ≠ 0) {bs : Bytes} {bi' md tn : Nat}
    (hb : nodeBytes c (specOf S) m (p, .slots bi next) = some bs)
    (hi : byteIndex c (specWord c (specOf S)) bs = some (bi', md, tn)) :
    allNext c (specWord c (specOf S)) bs md tn = some (childIds m p next) := by
  have hw := specWord_eq hc hS
  have hbl := byteSize_le hc hS
  obtain ⟨b0, b1, b2, b3⟩ := fmtOf_bounds (s := S)
  have c1 := hc.wlo
  have c2 := hc.whi
  have c3 := hc.r
  have c4 := hc.hwhi
  have c5 := hc.hwlo
  have hfull : (1 + 1 + 256 * c.w) % 2 ^ 32 = 1 + 1 + 256 * c.w := Nat.mod_eq_of_lt (by omega)
  rw [← actives_length bi] at hle h0
  unfold nodeBytes at hb
  dsimp only at hb
  rw [show (specOf S).format = fmtOf S from rfl] at hb
  cases hfs : fmtOf S with
  | leaf =>
    have := b0 hfs
    omega
  | full =>
    have hsz : byteSize c (specOf S) = 1 + 1 + 256 * c.w := by
      unfold byteSize
      rw [show (specOf S).format = fmtOf S from rfl, hfs]
    rw [hfs, hsz] at hw
    simp only [tag, Nat.zero_add] at hw
    rw [hfs] at hb
    dsimp only at hb
    unfold allNext
    rw [if_pos (by rw [hw, hfull])]
    exact full_all h bi hb
  | medium =>
    have hbb := b2 hfs
    have hcapS : (specOf S).cap = S := by unfold specOf; dsimp only; rw [if_neg (by omega)]
    have hsz : byteSize c (specOf S) = 1 + 1 + 32 + S * c.w := by
      unfold byteSize
      rw [show (specOf S).format = fmtOf S from rfl, hfs, hcapS]
    have hmul : S * c.w ≤ 256 * 4 := Nat.mul_le_mul hS c2
    rw [hfs, hsz] at hw
    simp only [tag] at hw
    rw [hfs] at hb
    dsimp only at hb
    have hne : ¬ specWord c (specOf S) = (1 + 1 + 256 * c.w) % 2 ^ 32 := by rw [hw, hfull]; omega
    have hmd : specWord c (specOf S) / 2 ^ 16 % 256 = S := by rw [hw]; omega
    unfold byteIndex at hi
    rw [if_neg hne, hmd, if_pos (by omega)] at hi
    have hm : md > 0 := by
      split at hi
      · split at hi
        · cases hi
        · simp only [Option.some.injEq, Prod.mk.injEq] at hi
          omega
      · cases hi
    unfold allNext
    rw [if_neg hne, if_pos hm]
    exact medium_all h bi hb
  | tiny =>
    have hbb := b1 hfs
    have hcapS : (specOf S).cap = S := by unfold specOf; dsimp only; rw [if_neg (by omega)]
    have hsz : byteSize c (specOf S) = 1 + S * (1 + c.w) := by
      unfold byteSize
      rw [show (specOf S).format = fmtOf S from rfl, hfs, hcapS]
    have hmul : S * (1 + c.w) ≤ 5 * 5 := Nat.mul_le_mul hbb.2 (by omega)
    rw [hfs, hsz] at hw
    simp only [tag] at hw
    rw [hfs] at hb
    dsimp only at hb
    have hne : ¬ specWord c (specOf S) = (1 + 1 + 256 * c.w) % 2 ^ 32 := by rw [hw, hfull]; omega
    have hmd : ¬ specWord c (specOf S) / 2 ^ 16 % 256 > 0 := by rw [hw]; omega
    have htiny : specWord c (specOf S) / 2 ^ 24 % 256 = S := by rw [hw]; omega
    unfold byteIndex at hi
    rw [if_neg hne, if_neg hmd, htiny, if_pos (by omega)] at hi
    have hm : md = 0 ∧ tn = S := by
      split at hi
      · simp only [Option.some.injEq, Prod.mk.injEq] at hi
        omega
      · cases hi
    unfold allNext
    rw [if_neg hne, if_neg (by omega), if_pos (by omega), hm.2]
    have := tiny_all h bi (by rw [hcapS]; exact hle) hb
    rw [hcapS] at this
    exact this

/-! ## The leaves below a node -/

theorem concatAll_ok {g : UInt8 → Nat} {f : Nat → Option (List Nat)} {k : UInt8 → List Nat} : ∀ bs : List UInt8,
    (∀ b ∈ bs, ∃ l, f (g b) = some l ∧ l.Perm (k b)) →
    ∃ l, concatAll f (bs.map g) = some l ∧ l.Perm (bs.flatMap k) := by
  intro bs
  induction bs with
  | nil => intro _; exact ⟨[], rfl, .refl _⟩
  | cons b bs ih =>
    intro h
    obtain ⟨l, e1, p1⟩ := h b (by simp)
    obtain ⟨l', e2, p2⟩ := ih fun x hx => h x (by simp [hx])
    refine ⟨l ++ l', ?_, ?_⟩
    · rw [List.map_cons, concatAll, e1]
      dsimp only
      rw [e2]
      rfl
    · rw [List.flatMap_cons]
      exact p1.append p2

theorem perm_classes {α : Type} (key : α → UInt8) (l : List α) :
    (allBytes.flatMap fun b => l.filter fun x => key x = b).Perm l := by
  have hgen : ∀ bs : List UInt8, bs.Nodup →
      (bs.flatMap fun b => l.filter fun x => key x = b).Perm (l.filter fun x => decide (key x ∈ bs)) := by
    intro bs
    induction bs with
    | nil => intro _; simp
    | cons b bs ih =>
      intro hn
      rw [List.nodup_cons] at hn
      rw [List.flatMap_cons]
      refine ((ih hn.2).append_left _).trans ?_
      clear ih
      induction l with
      | nil => exact .refl _
      | cons x l ihl =>
        simp only [List.mem_cons] at ihl
        by_cases hx : key x = b
        · have hnb : key x ∉ bs := by rw [hx]; exact hn.1
          simp only [List.filter_cons, hx, hn.1, List.mem_cons, true_or, decide_true, if_true, decide_false, Bool.false_eq_true,
            if_false, List.cons_append]
          exact ihl.cons x
        · by_cases hm : key x ∈ bs
          · simp only [List.filter_cons, hx, hm, List.mem_cons, or_true, decide_true, if_true, decide_false, Bool.false_eq_true,
              if_false]
            exact (List.perm_middle).trans (ihl.cons x)
          · simp only [List.filter_cons, hx, hm, List.mem_cons, or_false, decide_false, Bool.false_eq_true, if_false]
            exact ihl
  have hnd : allBytes.Nodup := by decide +kernel
  refine (hgen allBytes hnd).trans ?_
  have : (l.filter fun x => decide (key x ∈ allBytes)) = l := by
    rw [List.filter_eq_self]
    intro x _
    simp [mem_allBytes]
  rw [this]

theorem perm_flatMap {α β : Type} {f g : α → List β} : ∀ l : List α, (∀ a ∈ l, (f a).Perm (g a)) → (l.flatMap f).Perm (l.flatMap g) := by
  intro l
  induction l with
  | nil => intro _; exact .refl _
  | cons a l ih =>
    intro h
    rw [List.flatMap_cons, List.flatMap_cons]
    exact (h a (by simp)).append (ih fun x hx => h x (by simp [hx]))

theorem flatMap_actives {next : UInt8 → Tree} {β : Type} {k : UInt8 → List β} (h : ∀ b, (next b).isEmpty = true → k b = []) :
    (actives next).flatMap k = allBytes.flatMap k := by
  unfold actives
  have : ∀ bs : List UInt8, (bs.filter fun b => !(next b).isEmpty).flatMap k = bs.flatMap k := by
    intro bs
    induction bs with
    | nil => rfl
    | cons b bs ih =>
      by_cases hb : (next b).isEmpty = true
      · rw [List.filter_cons_of_neg (by simp [hb]), ih, List.flatMap_cons, h b hb, List.nil_append]
      · rw [List.filter_cons_of_pos (by simpa using hb), List.flatMap_cons, List.flatMap_cons, ih]
  exact this _

theorem leaves_ok {c : Config} (hc : ConfigOK c) {t : Tree} (h64 : c.hl ≤ 64)
    (hfits : ∀ level, LevelFits c (nodesAt t level)) :
    ∀ (lvs : List Level) (level : Nat) (m : IdMap) (p : List UInt8) (s : Tree) (l : List Entry) (f : Flags) (id : Nat),
    LevelsOK c t level lvs m → (p, s) ∈ nodesAt t level → Built c.r c.hl l f s →
    (∀ e ∈ l, 0 < e.pi ∧ e.pi < 256 ^ c.hw) → m p = some id →
    ∃ ids, leaves c lvs id = some ids ∧ ids.Perm (l.map fun e => e.pi.toNat) := by
  intro lvs
  induction lvs with
  | nil =>
    intro level m p s l f id hL hp
    unfold LevelsOK at hL
    rw [hL] at hp
    simp at hp
  | cons lv lvs ih =>
    intro level m p s l f id hL hp hB hpi hm
    have hL' := hL
    unfold LevelsOK at hL'
    obtain ⟨below, hbelow, hall⟩ := hL'
    obtain ⟨id', e1, hpos, -, S, bs, hS, hle, hfm, e2, e3⟩ := hall _ hp
    rw [hm] at e1
    injection e1 with e1
    subst e1
    unfold leaves
    rw [e3]
    dsimp only
    cases hB with
    | empty =>
      have := preorder_ne_empty _ (mem_nodesAt.1 hp).1
      simp [Tree.isEmpty] at this
    | @leaf e f =>
      obtain ⟨h1, h2⟩ := hpi e (by simp)
      have hS0 : S = 0 := fmtOf_bounds.1 (hfm.symm : fmtOf S = .leaf)
      subst hS0
      obtain ⟨bs', r1, -, r3, r4⟩ := leaf_read hc (f := f) (x := e.hash) (h := zeros 64) (m := below) (p := p) h1 h2 (by
        intro i hi
        simp [setBits] at hi
        simp [hi.1])
      rw [e2] at r1
      injection r1 with r1
      subst r1
      rw [if_pos r3]
      -- what is written for the leaf
      unfold nodeBytes at e2
      dsimp only at e2
      rw [show (specOf 0).format = .leaf from rfl] at e2
      dsimp only at e2
      unfold leafBytes at e2
      have hwp := c.wrap_ge
      have hmax : c.max = c.wrap - 1 := rfl
      have h32 := pow256_le hc.hwhi
      have hnat : ((256 ^ c.hw : Nat) : Int) = 256 ^ c.hw := by rw [Int.natCast_pow]; rfl
      rw [if_neg (by omega), if_neg (by omega)] at e2
      injection e2 with e2
      have hr64 := hc.r
      have hrl : (reassurance f c.r e.hash).length ≤ c.r := by simp [reassurance]; omega
      have e4 : (c.r + 256 - (reassurance f c.r e.hash).length % 256) % 256 = c.r - (reassurance f c.r e.hash).length := by omega
      have e5 : toU64 e.pi % c.wrap = e.pi.toNat := by
        rw [toU64_of_nonneg (by omega) (by omega)]
        exact Nat.mod_eq_of_lt (by omega)
      rw [e4, e5] at e2
      have hl : (reassurance f c.r e.hash ++ zeros (c.r - (reassurance f c.r e.hash).length)).length = c.r := by
        rw [List.length_append, zeros_length]; omega
      have q1 := readAt_mid (a := []) (b := reassurance f c.r e.hash ++ zeros (c.r - (reassurance f c.r e.hash).length))
        (d := leEnc c.hw e.pi.toNat) (off := 0) (n := c.r) rfl hl
      have q2 := readAt_mid (a := reassurance f c.r e.hash ++ zeros (c.r - (reassurance f c.r e.hash).length))
        (b := leEnc c.hw e.pi.toNat) (d := []) (off := c.r) (n := c.hw) hl (by simp)
      rw [List.append_nil, e2] at q2
      rw [List.nil_append, e2] at q1
      rw [q1, q2]
      dsimp only
      rw [leDec_leEnc_of_lt (by omega)]
      exact ⟨_, rfl, .refl _⟩
    | @slots l f bi next runs h1 h2 h3 hperm hb =>
      have hk : Known c below p next := fun b hbe => LevelsOK.ids hbelow (hfits (level + 1)).nodes _ (child_at hp hbe)
      have h0 : activeSlots (.slots bi next) ≠ 0 := by
        have := built_active (.slots runs h1 h2 h3 hperm hb)
        omega
      obtain ⟨bs', r1, -, r3, md, tn, r4, r5⟩ := branch_read hc hk (bi := bi) (by omega) hS hle h0
      rw [e2] at r1
      injection r1 with r1
      subst r1
      rw [if_neg r3, r4]
      dsimp only
      rw [branch_all hc hk hS hle h0 e2 r4]
      dsimp only
      unfold childIds
      obtain ⟨ids, g1, g2⟩ := concatAll_ok (g := slotId below p next) (f := leaves c lvs)
        (k := fun b => (runs b).map fun e => e.pi.toNat) (actives next) (by
          intro b hba
          have he := mem_actives.1 hba
          obtain ⟨cid, m1, m2, -⟩ := hk b he
          have hs : slotId below p next b = cid := by simp [slotId, he, m1]
          rw [hs]
          refine ih (level + 1) below (p ++ [b]) (next b) (runs b) (flip f bi) cid hbelow (child_at hp he) (hb b) ?_ m1
          intro e hee
          exact hpi e (List.mem_filter.1 ((hperm b).mem_iff.1 hee)).1)
      refine ⟨ids, g1, g2.trans ?_⟩
      rw [flatMap_actives (next := next) (k := fun b => (runs b).map fun e => e.pi.toNat) (by
        intro b he
        have := (built_isEmpty (hb b)).1 he
        simp [this])]
      have hp1 : (allBytes.flatMap fun b => (runs b).map fun e => e.pi.toNat).Perm
          (allBytes.flatMap fun b => (l.filter fun e => byteAt e.hash bi = b).map fun e => e.pi.toNat) :=
        perm_flatMap _ fun b _ => (hperm b).map _
      refine hp1.trans ?_
      have hp2 := (perm_classes (fun e : Entry => byteAt e.hash bi) l).map fun e => e.pi.toNat
      rw [List.map_flatMap] at hp2
      exact hp2

end Verif.DonutForest
