import Verif.Lemmas.CakeRoom
import Verif.Props.CakeCascade

/-!
# How many hashes a cake has room for, and in which tier they are
-/

namespace Verif.Cake

open Verif.ShallowTree Verif.Chunk Verif.SingleTree Verif.DonutForest Verif.TierTop

/-! ## Specification -/

/-- The product of numbers. -/
def product : List Nat → Nat
  | [] => 1
  | n :: ns => n * product ns

/-- The number of hashes of the top tier, when full, times the numbers of batches of the tiers below. -/
def room (s : Settings) : Nat := s.cap * product (s.tiers.map (·.quota))

/-- The number of hashes of a batch of a tier: those of the top tier when full times the numbers of batches of the tiers
before. -/
def batchSize (s : Settings) (i : Nat) : Nat := s.cap * product ((s.tiers.take i).map (·.quota))

/-- The number of hashes in the folder of a tier. -/
def stored (d : DonutForest.Folder) : Nat := (d.hashes.getD []).length

/-! ## Theorems -/

theorem product_pos : ∀ {l : List TierConfig}, (∀ c ∈ l, 0 < c.quota) → 0 < product (l.map (·.quota))
  | [], _ => Nat.one_pos
  | c :: l, h => Nat.mul_pos (h c List.mem_cons_self) (product_pos fun c hc => h c (List.mem_cons_of_mem _ hc))

theorem run_counted {ent : List Entry → Nat → Nat} {s : Settings} (hq : ∀ c ∈ s.tiers, 0 < c.quota) : ∀ (ops : List Op) (k : Cake) (n : Nat)
    {r : Cake × List Int}, Counted s k n → run ent s k ops = .ok r → Counted s r.1 (n + (appended ops).length) := by
  intro ops
  induction ops with
  | nil =>
    intro k n r hk hr
    injection hr with hr
    subst hr
    exact hk
  | cons op ops ih =>
    intro k n r hk hr
    cases op with
    | reopen =>
      simp only [run] at hr
      split at hr
      · next k' ho => exact ih k' n (counted_reopen hk ho) hr
      · cases hr
      · cases hr
    | append h =>
      simp only [run] at hr
      split at hr
      · next k' g ha =>
        split at hr
        · next k'' gs hrun =>
          injection hr with hr
          subst hr
          have := ih k' (n + 1) (counted_append hq hk ha) hrun
          rw [appended, List.length_cons]
          rw [Nat.add_assoc, Nat.add_comm 1] at this
          exact this
        · cases hr
        · cases hr
      · cases hr
      · cases hr

/-- The digits, their weights and their sum. -/
theorem digits_sum {disk : Disk} : ∀ {cfgs : List TierConfig} {i w n : Nat}, 0 < w → (∀ c ∈ cfgs, 0 < c.quota) → Digits disk i cfgs w n →
    n + w ≤ w * product (cfgs.map (·.quota)) ∧ w ∣ n ∧ ∀ j cfg, cfgs[j]? = some cfg →
      stored (disk (i + j)) = n / (w * product ((cfgs.take j).map (·.quota))) % cfg.quota * (w * product ((cfgs.take j).map (·.quota)))
  | [], _, w, n, _, _, h => by
    have h : n = 0 := h
    subst h
    refine ⟨by simp [product], ⟨0, rfl⟩, fun j cfg hj => by simp at hj⟩
  | c :: cfgs, i, w, n, hw, hq, ⟨m, deep, h1, h2, h3, h4⟩ => by
    have hqc := hq c List.mem_cons_self
    obtain ⟨g1, g2, g3⟩ := digits_sum (Nat.mul_pos hw hqc) (fun c hc => hq c (List.mem_cons_of_mem _ hc)) h4
    have hmul : m * w + w ≤ w * c.quota := by
      rw [← Nat.succ_mul, Nat.mul_comm]
      exact Nat.mul_le_mul_left _ h2
    have hdivn : ∀ x, n / (w * c.quota * x) = deep / (w * c.quota * x) := by
      intro x
      obtain ⟨y, hy⟩ := g2
      rw [← Nat.div_div_eq_div_mul _ (w * c.quota) x, ← Nat.div_div_eq_div_mul _ (w * c.quota) x]
      congr 1
      rw [h1, hy, Nat.add_mul_div_left _ _ (Nat.mul_pos hw hqc), Nat.mul_div_cancel_left _ (Nat.mul_pos hw hqc), Nat.div_eq_of_lt (by omega),
        Nat.zero_add]
    refine ⟨?_, ?_, ?_⟩
    · simp only [List.map_cons, product]
      rw [← Nat.mul_assoc]
      omega
    · rw [h1]
      exact Nat.dvd_add ⟨m, Nat.mul_comm _ _⟩ (Nat.dvd_trans ⟨c.quota, rfl⟩ g2)
    · intro j cfg hj
      match j with
      | 0 =>
        rw [List.getElem?_cons_zero] at hj
        injection hj with hj
        subst hj
        have hst : stored (disk i) = m * w := by
          rcases h3 with ⟨e1, e2⟩ | ⟨-, ⟨own, e1, e2⟩, -⟩
          · rw [e1, e2]; simp [stored, noFolder]
          · unfold stored; rw [e1]; exact e2
        simp only [List.take_zero, List.map_nil, product, Nat.mul_one, Nat.add_zero]
        rw [hst]
        obtain ⟨y, hy⟩ := g2
        rw [h1, hy, Nat.mul_assoc, Nat.mul_comm m w, ← Nat.mul_add, Nat.mul_div_cancel_left _ hw, Nat.add_mul_mod_self_left, Nat.mod_eq_of_lt h2,
          Nat.mul_comm]
      | j + 1 =>
        rw [List.getElem?_cons_succ] at hj
        have := g3 j cfg hj
        rw [show i + (j + 1) = i + 1 + j by omega, this]
        simp only [List.take_succ_cons, List.map_cons, product]
        rw [← Nat.mul_assoc w c.quota, hdivn]

/-- **C117 (never more).** Whatever is appended, however often the cake is reopened: if no operation failed, there have been
fewer appends than the cake has room for. -/
theorem cake_has_room_for {ent : List Entry → Nat → Nat} {s : Settings} (hcap : 0 < s.cap) (hq : ∀ c ∈ s.tiers, 0 < c.quota) {ops : List Op}
    {k0 k : Cake} {given : List Int} (h0 : newCake s = .ok k0) (hr : run ent s k0 ops = .ok (k, given)) : (appended ops).length < room s := by
  obtain ⟨⟨below, e1, e2⟩, h1, -⟩ := run_counted hq ops k0 0 (counted_new hcap hq h0) hr
  have := (digits_sum hcap hq e2).1
  dsimp only at e1 h1
  unfold room
  omega

/-- **C117 (the last).** A cake that has one hash less than it has room for takes no other, by way of whatever array. -/
theorem full_cake_takes_no_more {ent : List Entry → Nat → Nat} {s : Settings} (hcap : 0 < s.cap) (hq : ∀ c ∈ s.tiers, 0 < c.quota) {ops : List Op}
    {k0 k : Cake} {given : List Int} (h0 : newCake s = .ok k0) (hr : run ent s k0 ops = .ok (k, given))
    (hfull : (appended ops).length + 1 = room s) (m : Memory) (a : Cell) : ∀ r, append ent s m k a ≠ .ok r := by
  rintro ⟨k', g⟩ ha
  have hc := run_counted hq ops k0 0 (counted_new hcap hq h0) hr
  obtain ⟨⟨below, e1, e2⟩, h1, -⟩ := counted_append hq hc ha
  have := (digits_sum hcap hq e2).1
  unfold room at hfull
  omega

/-- **C117 (which tier).** The hashes are in the tiers as the digits of their number: of `n` hashes appended the top tier holds
the remainder, and the tier `i` below holds the digit of `n` for batches of its size. -/
theorem tiers_are_digits {ent : List Entry → Nat → Nat} {s : Settings} (hcap : 0 < s.cap) (hq : ∀ c ∈ s.tiers, 0 < c.quota) {ops : List Op}
    {k0 k : Cake} {given : List Int} (h0 : newCake s = .ok k0) (hr : run ent s k0 ops = .ok (k, given)) :
    k.top.file.length = (appended ops).length % s.cap ∧ ∀ i cfg, s.tiers[i]? = some cfg →
      stored (k.disk i) = (appended ops).length / batchSize s i % cfg.quota * batchSize s i := by
  obtain ⟨⟨below, e1, e2⟩, h1, -⟩ := run_counted hq ops k0 0 (counted_new hcap hq h0) hr
  obtain ⟨-, ⟨y, hy⟩, g3⟩ := digits_sum hcap hq e2
  dsimp only at e1 h1 g3
  rw [Nat.zero_add] at e1
  refine ⟨?_, ?_⟩
  · rw [e1, hy, Nat.mul_add_mod, Nat.mod_eq_of_lt h1]
  · intro i cfg hi
    have := g3 i cfg hi
    rw [Nat.zero_add] at this
    rw [this]
    unfold batchSize
    congr 2
    rw [← Nat.div_div_eq_div_mul, ← Nat.div_div_eq_div_mul]
    congr 1
    rw [e1, hy, Nat.mul_add_div hcap, Nat.div_eq_of_lt h1, Nat.add_zero, Nat.mul_div_cancel_left _ hcap]

/-- The quotas of the project's own settings (cakeconfig.go:26-51): the first tier is emptied after five batches. -/
example (c : Config) : room ⟨65535, [⟨c, 0, 5⟩, ⟨c, 1, 255⟩, ⟨c, 2, 255⟩, ⟨c, 3, 255⟩]⟩ = 5433302053125 := by
  simp [room, product]

example : ∃ k0 k : Cake, ∃ given, newCake demoCascade = .ok k0 ∧ run demoEnt demoCascade k0 (demoCascadeOps ++ [.reopen]) = .ok (k, given) ∧
    room demoCascade = 10 ∧ k.top.file.length = 0 ∧ stored (k.disk 0) = 1 ∧ stored (k.disk 1) = 2 := by
  have hsome : (seen demoCascade (demoCascadeOps ++ [.reopen]) [-1, 0, 1, 2, 3]).isSome = true := by rw [demo_seen]; rfl
  unfold seen at hsome
  split at hsome
  · next k0 h0 =>
    split at hsome
    · next k given hr =>
      obtain ⟨h1, h2⟩ := tiers_are_digits (by decide) (by decide) h0 hr
      exact ⟨k0, k, given, h0, hr, rfl, h1, h2 0 _ rfl, h2 1 _ rfl⟩
    · cases hsome
  · cases hsome

end Verif.Cake
