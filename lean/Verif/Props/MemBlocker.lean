import Verif.Model.MemBlocker

/-!
# C14: the memory blocker
-/

namespace Verif.MemBlocker

/-- What every reachable state satisfies: the lock owner is the only thread in a critical section, and the
queue holds exactly the sleeping threads. -/
structure Inv (m : Nat) (s : St) : Prop where
  max : s.maxBytes = m
  owner : ∀ t, s.lock = some t ↔ (s.pc t = .check ∨ s.pc t = .freeing)
  queue : ∀ t, t ∈ s.queue ↔ s.pc t = .sleeping
  nodup : s.queue.Nodup
  adm : ∀ x ∈ s.admitted, x.2 < m

theorem inv_init (m h : Nat) : Inv m (init m h) :=
  ⟨rfl, by simp [init], by simp [init], by simp [init], by simp [init]⟩

theorem setPC_self (f : Nat → PC) (t : Nat) (p : PC) : setPC f t p t = p := by simp [setPC]
theorem setPC_ne (f : Nat → PC) {t u : Nat} (p : PC) (h : u ≠ t) : setPC f t p u = f u := by simp [setPC, h]

theorem inv_step {m : Nat} {s s' : St} (h : Inv m s) (a : Act) (hs : step s a = some s') : Inv m s' := by
  have ho := h.owner
  have hq := h.queue
  cases a with
  | heap n => simp [step] at hs; subst hs; exact ⟨h.max, h.owner, h.queue, h.nodup, h.adm⟩
  | wait t =>
    simp only [step] at hs
    split at hs
    · rename_i hi
      simp at hs; subst hs
      refine ⟨h.max, ?_, ?_, h.nodup, h.adm⟩ <;> intro u <;> by_cases e : u = t
      · subst e; simp [setPC_self]; rw [ho u]; simp [hi]
      · simp [setPC_ne _ _ e]; exact ho u
      · subst e; simp [setPC_self]; rw [hq u]; simp [hi]
      · simp [setPC_ne _ _ e]; exact hq u
    · simp at hs
  | free t =>
    simp only [step] at hs
    split at hs
    · rename_i hi
      simp at hs; subst hs
      refine ⟨h.max, ?_, ?_, h.nodup, h.adm⟩ <;> intro u <;> by_cases e : u = t
      · subst e; simp [setPC_self]; rw [ho u]; simp [hi]
      · simp [setPC_ne _ _ e]; exact ho u
      · subst e; simp [setPC_self]; rw [hq u]; simp [hi]
      · simp [setPC_ne _ _ e]; exact hq u
    · simp at hs
  | go t =>
    simp only [step] at hs
    have acquire : ∀ p, (p = .check ∨ p = .freeing) → s.lock = none → s.pc t ≠ .sleeping →
        Inv m { s with lock := some t, pc := setPC s.pc t p } := by
      intro p hp hl hns
      refine ⟨h.max, ?_, ?_, h.nodup, h.adm⟩ <;> intro u <;> by_cases e : u = t
      · subst e; simp [setPC_self, hp]
      · have := ho u
        rw [hl] at this
        simp at this
        simp [setPC_ne _ _ e, Ne.symm e, this]
      · subst e
        simp only [setPC_self]
        rw [hq u]
        constructor
        · intro hh; exact absurd hh hns
        · intro hh; subst hh; simp at hp
      · simp [setPC_ne _ _ e]; exact hq u
    have only : (s.pc t = .check ∨ s.pc t = .freeing) → ∀ u, u ≠ t → s.pc u ≠ .check ∧ s.pc u ≠ .freeing := by
      intro hc u hu
      have h1 := (ho t).mpr hc
      constructor
      · intro hh
        have := (ho u).mpr (.inl hh)
        rw [h1] at this; simp at this; exact hu this.symm
      · intro hh
        have := (ho u).mpr (.inr hh)
        rw [h1] at this; simp at this; exact hu this.symm
    cases hp : s.pc t with
    | idle => rw [hp] at hs; simp at hs
    | sleeping => rw [hp] at hs; simp at hs
    | waitLock =>
      rw [hp] at hs; simp only at hs
      split at hs
      · rename_i hl; simp at hs; subst hs; exact acquire _ (.inl rfl) hl (by simp [hp])
      · simp at hs
    | relock =>
      rw [hp] at hs; simp only at hs
      split at hs
      · rename_i hl; simp at hs; subst hs; exact acquire _ (.inl rfl) hl (by simp [hp])
      · simp at hs
    | freeLock =>
      rw [hp] at hs; simp only at hs
      split at hs
      · rename_i hl; simp at hs; subst hs; exact acquire _ (.inr rfl) hl (by simp [hp])
      · simp at hs
    | check =>
      rw [hp] at hs; simp only at hs
      have hnq : t ∉ s.queue := by rw [hq]; simp [hp]
      split at hs
      · simp at hs; subst hs
        refine ⟨h.max, ?_, ?_, ?_, h.adm⟩
        · intro u; by_cases e : u = t
          · subst e; simp [setPC_self]
          · simp [setPC_ne _ _ e, only (.inl hp) u e]
        · intro u; by_cases e : u = t
          · subst e; simp [setPC_self]
          · simp [setPC_ne _ _ e, e, hq u]
        · rw [List.nodup_append]
          exact ⟨h.nodup, by simp, by intro x hx y hy; simp at hy; subst hy; intro e; exact hnq (e ▸ hx)⟩
      · rename_i hlt
        simp at hs; subst hs
        refine ⟨h.max, ?_, ?_, h.nodup, ?_⟩
        · intro u; by_cases e : u = t
          · subst e; simp [setPC_self]
          · simp [setPC_ne _ _ e, only (.inl hp) u e]
        · intro u; by_cases e : u = t
          · subst e; simp [setPC_self, hnq]
          · simp [setPC_ne _ _ e, hq u]
        · intro x hx
          rcases List.mem_append.mp hx with hx | hx
          · exact h.adm x hx
          · simp at hx; subst hx; have := h.max; simp; omega
    | freeing =>
      rw [hp] at hs; simp at hs; subst hs
      have hnq : t ∉ s.queue := by rw [hq]; simp [hp]
      refine ⟨h.max, ?_, ?_, h.nodup, h.adm⟩
      · intro u; by_cases e : u = t
        · subst e; simp [setPC_self]
        · simp [setPC_ne _ _ e, only (.inr hp) u e]
      · intro u; by_cases e : u = t
        · subst e; simp [setPC_self, hnq]
        · simp [setPC_ne _ _ e, hq u]
    | signalling =>
      rw [hp] at hs
      simp only at hs
      cases hqq : s.queue with
      | nil =>
        rw [hqq] at hs; simp at hs; subst hs
        refine ⟨h.max, ?_, ?_, by simp, h.adm⟩
        · intro u; by_cases e : u = t
          · subst e; simp [setPC_self]; rw [ho]; simp [hp]
          · simp [setPC_ne _ _ e, ho u]
        · intro u; by_cases e : u = t
          · subst e; simp [setPC_self]
          · simp [setPC_ne _ _ e, ← hq u, hqq]
      | cons w q =>
        rw [hqq] at hs; simp at hs; subst hs
        have hw : s.pc w = .sleeping := (hq w).mp (by simp [hqq])
        have hwt : w ≠ t := by intro e; subst e; rw [hw] at hp; simp at hp
        have hnd := h.nodup
        rw [hqq] at hnd
        simp only [List.nodup_cons] at hnd
        refine ⟨h.max, ?_, ?_, hnd.2, h.adm⟩
        · intro u
          by_cases e' : u = w
          · subst e'
            simp [setPC_self]; rw [ho]; simp [hw]
          · by_cases e : u = t
            · subst e; simp [setPC_ne _ _ e', setPC_self]; rw [ho]; simp [hp]
            · simp [setPC_ne _ _ e, setPC_ne _ _ e', ho u]
        · intro u
          by_cases e' : u = w
          · subst e'
            simp [setPC_self, hnd.1]
          · by_cases e : u = t
            · subst e; simp [setPC_ne _ _ e', setPC_self]
              intro hm
              have : s.pc u = .sleeping := (hq u).mp (by simp [hqq, hm])
              rw [hp] at this; simp at this
            · simp [setPC_ne _ _ e, setPC_ne _ _ e']
              rw [← hq u, hqq]; simp [e']

theorem inv_run {m : Nat} (acts : List Act) {s s' : St} (h : Inv m s) (hr : run s acts = some s') : Inv m s' := by
  induction acts generalizing s with
  | nil => simp [run] at hr; exact hr ▸ h
  | cons a as ih =>
    simp only [run] at hr
    cases hs : step s a with
    | none => rw [hs] at hr; simp at hr
    | some s1 => rw [hs] at hr; exact ih (inv_step h a hs) hr

/-- **C14 (admission).** For every number of threads and every schedule, a call of `WaitForSpareMemory`
returns only at a moment when the heap is below the limit. -/
theorem admitted_only_below_limit (m h0 : Nat) (acts : List Act) (s : St)
    (hr : run (init m h0) acts = some s) (a : Act) (s' : St) (hs : step s a = some s')
    (hadm : s'.admitted ≠ s.admitted) :
    s.heap < m ∧ ∃ t, s'.admitted = s.admitted ++ [(t, s.heap)] ∧ s.lock = some t := by
  have h := inv_run acts (inv_init m h0) hr
  cases a with
  | heap n => simp [step] at hs; subst hs; simp at hadm
  | wait t => simp only [step] at hs; split at hs <;> simp at hs; subst hs; simp at hadm
  | free t => simp only [step] at hs; split at hs <;> simp at hs; subst hs; simp at hadm
  | go t =>
    simp only [step] at hs
    cases hp : s.pc t <;> rw [hp] at hs <;> simp only at hs
    case check =>
      split at hs
      · simp at hs; subst hs; simp at hadm
      · rename_i hlt
        simp at hs; subst hs
        have := h.max
        exact ⟨by omega, t, rfl, (h.owner t).mpr (.inl hp)⟩
    case signalling =>
      cases hq : s.queue <;> rw [hq] at hs <;> simp at hs <;> subst hs <;> simp at hadm
    all_goals first
      | (split at hs <;> simp at hs <;> subst hs <;> simp at hadm)
      | (simp at hs; subst hs; simp at hadm)
      | (simp at hs)

/-- **C14 (exclusion).** While some thread is between `StartFreeingMem` and `MemoryWasFreed`, no waiter
returns and no other thread can enter such a section. -/
theorem freeing_excludes (m h0 : Nat) (acts : List Act) (s : St) (hr : run (init m h0) acts = some s)
    (t : Nat) (ht : s.pc t = .freeing) (a : Act) (s' : St) (hs : step s a = some s') :
    s'.admitted = s.admitted ∧ ∀ u, u ≠ t → s.pc u ≠ .freeing ∧ s'.pc u ≠ .freeing := by
  have h := inv_run acts (inv_init m h0) hr
  have hl := (h.owner t).mpr (.inr ht)
  have h' := inv_step h a hs
  constructor
  · cases Classical.em (s'.admitted = s.admitted) with
    | inl e => exact e
    | inr e =>
      obtain ⟨_, u, _, hu⟩ := admitted_only_below_limit m h0 acts s hr a s' hs e
      rw [hl] at hu; simp at hu; subst hu
      -- the admitted thread would be in `check`
      exfalso
      cases a with
      | heap n => simp [step] at hs; subst hs; simp at e
      | wait v => simp only [step] at hs; split at hs <;> simp at hs; subst hs; simp at e
      | free v => simp only [step] at hs; split at hs <;> simp at hs; subst hs; simp at e
      | go v =>
        simp only [step] at hs
        cases hp : s.pc v <;> rw [hp] at hs <;> simp only at hs
        case check =>
          have := (h.owner v).mpr (.inl hp)
          rw [hl] at this; simp at this; subst this
          rw [ht] at hp; simp at hp
        case signalling =>
          cases hq : s.queue <;> rw [hq] at hs <;> simp at hs <;> subst hs <;> simp at e
        all_goals first
          | (split at hs <;> simp at hs <;> subst hs <;> simp at e)
          | (simp at hs; subst hs; simp at e)
          | (simp at hs)
  · intro u hu
    have h1 : s.pc u ≠ .freeing := by
      intro hh
      have := (h.owner u).mpr (.inr hh)
      rw [hl] at this; simp at this; exact hu this.symm
    refine ⟨h1, ?_⟩
    intro hh
    -- `u` can only have entered by taking the lock, which `t` holds
    cases a with
    | heap n => simp [step] at hs; subst hs; exact h1 hh
    | wait v =>
      simp only [step] at hs; split at hs <;> simp at hs; subst hs
      simp only [setPC] at hh; split at hh
      · simp at hh
      · exact h1 hh
    | free v =>
      simp only [step] at hs; split at hs <;> simp at hs; subst hs
      simp only [setPC] at hh; split at hh
      · simp at hh
      · exact h1 hh
    | go v =>
      simp only [step] at hs
      cases hp : s.pc v <;> rw [hp] at hs <;> simp only at hs
      case check =>
        have := (h.owner v).mpr (.inl hp)
        rw [hl] at this; simp at this; subst this
        rw [ht] at hp; simp at hp
      case signalling =>
        cases hq : s.queue <;> rw [hq] at hs <;> simp at hs <;> subst hs <;> simp only [setPC] at hh
        · split at hh
          · simp at hh
          · exact h1 hh
        · split at hh
          · simp at hh
          · split at hh
            · simp at hh
            · exact h1 hh
      case freeing =>
        simp at hs; subst hs
        simp only [setPC] at hh; split at hh
        · simp at hh
        · exact h1 hh
      all_goals first
        | (rw [hl] at hs; simp at hs)
        | (simp at hs)

/-- Heap reductions happen only inside a `StartFreeingMem`/`MemoryWasFreed` section. -/
def Disciplined (s : St) : List Act → Prop
  | [] => True
  | a :: as =>
    (∀ n, a = .heap n → n < s.heap → ∃ t, s.pc t = .freeing) ∧
      ∀ s', step s a = some s' → Disciplined s' as

/-- A schedule with two waiters and one announcement. -/
def twoWaiters : List Act :=
  [.wait 1, .go 1, .go 1, .wait 2, .go 2, .go 2, .free 3, .go 3, .heap 0, .go 3, .go 3, .go 1, .go 1]

/-- **C14 is violated for two or more waiters** (memblocker.go:46 uses `Signal`, which wakes a single
thread): after memory is freed and announced, waiter 2 sleeps on although the whole heap is free; thread 1
has been admitted and nobody is left to wake 2. -/
theorem sleeper_left_behind :
    ∃ s, run (init 10 10) twoWaiters = some s ∧ s.heap = 0 ∧
      s.pc 2 = .sleeping ∧ s.admitted = [(1, 0)] ∧ (∀ t, t ≠ 2 → s.pc t = .idle) ∧
      (∀ t, step s (.go t) = none) ∧ Disciplined (init 10 10) twoWaiters := by
  refine ⟨_, rfl, rfl, rfl, rfl, ?_, ?_, ?_⟩
  · intro t ht
    by_cases h1 : t = 1
    · subst h1; rfl
    · by_cases h3 : t = 3
      · subst h3; rfl
      · simp [setPC, init, h1, ht, h3]
  · intro t
    by_cases h1 : t = 1
    · subst h1; rfl
    · by_cases h2 : t = 2
      · subst h2; rfl
      · by_cases h3 : t = 3
        · subst h3; rfl
        · simp [step, setPC, init, h1, h2, h3]
  · simp [Disciplined, twoWaiters, step, init, setPC]
    exact ⟨3, by simp⟩

/-- Exactly one announcement wakes exactly the longest waiting thread. -/
theorem signal_wakes_first (m h0 : Nat) (acts : List Act) (s : St) (hr : run (init m h0) acts = some s)
    (u w : Nat) (q : List Nat) (hu : s.pc u = .signalling) (hq : s.queue = w :: q) (s' : St)
    (hs : step s (.go u) = some s') :
    s'.pc w = .relock ∧ s'.queue = q ∧ ∀ t ∈ q, s'.pc t = .sleeping := by
  have h := inv_run acts (inv_init m h0) hr
  have h' := inv_step h _ hs
  simp only [step, hu, hq] at hs
  simp at hs; subst hs
  refine ⟨by simp [setPC], rfl, fun t ht => (h'.queue t).mp ht⟩

/-- Only thread `w` ever waits. -/
def SingleWaiter (w : Nat) (acts : List Act) : Prop := ∀ t, Act.wait t ∈ acts → t = w

/-- Waiting positions. -/
def PC.isWaiter : PC → Bool
  | .waitLock | .check | .sleeping | .relock => true
  | _ => false

/-- Invariant for a single waiter under the freeing discipline. -/
structure One (w m : Nat) (s : St) : Prop where
  inv : Inv m s
  single : ∀ t, (s.pc t).isWaiter = true → t = w
  noLost : s.pc w = .sleeping → s.heap < m → ∃ t, s.pc t = .freeing ∨ s.pc t = .signalling

theorem one_step {w m : Nat} {s s' : St} (h : One w m s) (a : Act) (hs : step s a = some s')
    (hw : ∀ t, a = .wait t → t = w)
    (hd : ∀ n, a = .heap n → n < s.heap → ∃ t, s.pc t = .freeing) : One w m s' := by
  refine ⟨inv_step h.inv a hs, ?_, ?_⟩
  · intro t ht
    cases a with
    | heap n => simp [step] at hs; subst hs; exact h.single t ht
    | wait v =>
      simp only [step] at hs; split at hs <;> simp at hs; subst hs
      by_cases e : t = v
      · rw [e]; exact hw v rfl
      · simp [setPC_ne _ _ e] at ht; exact h.single t ht
    | free v =>
      simp only [step] at hs; split at hs <;> simp at hs; subst hs
      by_cases e : t = v
      · subst e; simp [setPC_self, PC.isWaiter] at ht
      · simp [setPC_ne _ _ e] at ht; exact h.single t ht
    | go v =>
      simp only [step] at hs
      cases hp : s.pc v <;> rw [hp] at hs <;> simp only at hs
      case signalling =>
        cases hq : s.queue with
        | nil =>
          rw [hq] at hs; simp at hs; subst hs
          by_cases e : t = v
          · subst e; simp [setPC_self, PC.isWaiter] at ht
          · simp [setPC_ne _ _ e] at ht; exact h.single t ht
        | cons x q =>
          rw [hq] at hs; simp at hs; subst hs
          by_cases e' : t = x
          · have : s.pc x = .sleeping := (h.inv.queue x).mp (by simp [hq])
            rw [e']; exact h.single x (by simp [this, PC.isWaiter])
          · by_cases e : t = v
            · subst e; simp [setPC_ne _ _ e', setPC_self, PC.isWaiter] at ht
            · simp [setPC_ne _ _ e, setPC_ne _ _ e'] at ht; exact h.single t ht
      case check =>
        have hv : v = w := h.single v (by simp [hp, PC.isWaiter])
        split at hs <;> simp at hs <;> subst hs <;> by_cases e : t = v
        · rw [e, hv]
        · simp [setPC_ne _ _ e] at ht; exact h.single t ht
        · rw [e, hv]
        · simp [setPC_ne _ _ e] at ht; exact h.single t ht
      case idle => simp at hs
      case sleeping => simp at hs
      case freeing =>
        simp at hs; subst hs
        by_cases e : t = v
        · subst e; simp [setPC_self, PC.isWaiter] at ht
        · simp [setPC_ne _ _ e] at ht; exact h.single t ht
      case freeLock =>
        split at hs <;> simp at hs; subst hs
        by_cases e : t = v
        · subst e; simp [setPC_self, PC.isWaiter] at ht
        · simp [setPC_ne _ _ e] at ht; exact h.single t ht
      all_goals
        have hv : v = w := h.single v (by simp [hp, PC.isWaiter])
        split at hs <;> simp at hs
        subst hs
        by_cases e : t = v
        · rw [e, hv]
        · simp [setPC_ne _ _ e] at ht; exact h.single t ht
  · intro hsl hlt
    cases a with
    | heap n =>
      simp [step] at hs; subst hs
      simp only at hsl hlt
      rcases Nat.lt_or_ge n s.heap with hn | hn
      · obtain ⟨t, ht⟩ := hd n rfl hn
        exact ⟨t, .inl ht⟩
      · exact h.noLost hsl (by omega)
    | wait v =>
      simp only [step] at hs; split at hs <;> simp at hs; rename_i hi; subst hs
      have e : w ≠ v := by intro e; subst e; simp [setPC_self] at hsl
      simp [setPC_ne _ _ e] at hsl
      obtain ⟨t, ht⟩ := h.noLost hsl hlt
      have et : t ≠ v := by intro e'; subst e'; rw [hi] at ht; simp at ht
      exact ⟨t, by simpa [setPC_ne _ _ et] using ht⟩
    | free v =>
      simp only [step] at hs; split at hs <;> simp at hs; rename_i hi; subst hs
      have e : w ≠ v := by intro e; subst e; simp [setPC_self] at hsl
      simp [setPC_ne _ _ e] at hsl
      obtain ⟨t, ht⟩ := h.noLost hsl hlt
      have et : t ≠ v := by intro e'; subst e'; rw [hi] at ht; simp at ht
      exact ⟨t, by simpa [setPC_ne _ _ et] using ht⟩
    | go v =>
      simp only [step] at hs
      cases hp : s.pc v <;> rw [hp] at hs <;> simp only at hs
      case idle => simp at hs
      case sleeping => simp at hs
      case check =>
        split at hs
        · rename_i hge
          simp at hs; subst hs
          have := h.inv.max
          simp only at hlt; omega
        · simp at hs; subst hs
          have hv : v = w := h.single v (by simp [hp, PC.isWaiter])
          subst hv; simp [setPC_self] at hsl
      case signalling =>
        -- the only waiter is asleep, so it is first in the queue and is woken
        cases hq : s.queue with
        | nil =>
          rw [hq] at hs; simp at hs; subst hs
          by_cases e : w = v
          · subst e; simp [setPC_self] at hsl
          · simp [setPC_ne _ _ e] at hsl
            have := (h.inv.queue w).mpr hsl
            rw [hq] at this; simp at this
        | cons x q =>
          rw [hq] at hs; simp at hs; subst hs
          have hx : s.pc x = .sleeping := (h.inv.queue x).mp (by simp [hq])
          have : x = w := h.single x (by simp [hx, PC.isWaiter])
          subst this
          simp [setPC_self] at hsl
      case freeing =>
        simp at hs; subst hs
        exact ⟨v, .inr (by simp [setPC_self])⟩
      case freeLock =>
        split at hs <;> simp at hs; subst hs
        exact ⟨v, .inl (by simp [setPC_self])⟩
      all_goals
        have hv : v = w := h.single v (by simp [hp, PC.isWaiter])
        split at hs <;> simp at hs
        subst hs
        subst hv; simp [setPC_self] at hsl

theorem one_run {w m : Nat} (acts : List Act) {s s' : St} (h : One w m s) (hr : run s acts = some s')
    (hw : SingleWaiter w acts) (hd : Disciplined s acts) : One w m s' := by
  induction acts generalizing s with
  | nil => simp [run] at hr; exact hr ▸ h
  | cons a as ih =>
    simp only [run] at hr
    cases hs : step s a with
    | none => rw [hs] at hr; simp at hr
    | some s1 =>
      rw [hs] at hr
      exact ih (one_step h a hs (fun t e => hw t (by simp [e])) hd.1) hr
        (fun t ht => hw t (by simp [ht])) (hd.2 s1 hs)

/-- **C14 (no lost wake-up, single waiter).** If only one thread ever waits and memory is freed only between
`StartFreeingMem` and `MemoryWasFreed`, then for every schedule: whenever that thread is asleep although the
heap is below the limit, some thread is still inside its announcement (and will wake it). Missing from the
full claim: more than one waiter, see `sleeper_left_behind`. -/
theorem no_lost_wakeup_partial (m h0 w : Nat) (acts : List Act) (s : St) (hr : run (init m h0) acts = some s)
    (hw : SingleWaiter w acts) (hd : Disciplined (init m h0) acts)
    (hsl : s.pc w = .sleeping) (hheap : s.heap < m) :
    ∃ t, s.pc t = .freeing ∨ s.pc t = .signalling := by
  have h0' : One w m (init m h0) := ⟨inv_init m h0, by simp [init, PC.isWaiter], by simp [init]⟩
  exact (one_run acts h0' hr hw hd).noLost hsl hheap

/-- **C14 (liveness, single waiter).** Under the same conditions, when no thread inside the blocker can take
another step and the heap is below the limit, the waiter is not asleep. -/
theorem not_stuck_asleep_partial (m h0 w : Nat) (acts : List Act) (s : St)
    (hr : run (init m h0) acts = some s) (hw : SingleWaiter w acts) (hd : Disciplined (init m h0) acts)
    (hstuck : ∀ t, step s (.go t) = none) (hheap : s.heap < m) : s.pc w ≠ .sleeping := by
  intro hsl
  obtain ⟨t, ht⟩ := no_lost_wakeup_partial m h0 w acts s hr hw hd hsl hheap
  have := hstuck t
  simp only [step] at this
  rcases ht with ht | ht
  · rw [ht] at this; simp at this
  · rw [ht] at this
    cases hq : s.queue <;> rw [hq] at this <;> simp at this

/-- Example: a single waiter sleeps, memory is freed and announced, the waiter returns. -/
example : SingleWaiter 1 [.wait 1, .go 1, .go 1, .free 3, .go 3, .heap 0, .go 3, .go 3, .go 1, .go 1] ∧
    Disciplined (init 10 10) [.wait 1, .go 1, .go 1, .free 3, .go 3, .heap 0, .go 3, .go 3, .go 1, .go 1] ∧
    (run (init 10 10) [.wait 1, .go 1, .go 1, .free 3, .go 3, .heap 0, .go 3, .go 3, .go 1, .go 1]).map
      (·.admitted) = some [(1, 0)] := by
  refine ⟨by intro t; simp, ?_, rfl⟩
  simp [Disciplined, step, init, setPC]
  exact ⟨3, by simp⟩

end Verif.MemBlocker
