import Verif.Model.TopDisk
import Verif.Props.FaultyFile

/-!
# A failed append to a cake
-/

namespace Verif.TopDisk

open Verif.Faulty Verif.TierTop

/-- The number of appends that returned an error. -/
def failures : List Out → Nat
  | [] => 0
  | .index none :: os => failures os + 1
  | _ :: os => failures os

/-- The hashes of the appends. -/
def appended : List Op → List Bytes
  | [] => []
  | .append h :: ops => h :: appended ops
  | .sync :: ops => appended ops

/-- The indexes returned by the appends. -/
def indices : List Out → List Int
  | [] => []
  | .index (some g) :: os => g :: indices os
  | _ :: os => indices os

/-- No call has returned an error. -/
def NoError (outs : List Out) : Prop := ∀ o ∈ outs, o ≠ .index none ∧ o ≠ .synced false

/-! ## What is kept -/

/-- The size is that of the hashes written and a rest, and what is in the buffer is whole hashes. -/
structure Kept (t : FTop) (lag r : Nat) : Prop where
  slice : t.slice.length = t.count + lag
  size : t.file.totalSize = t.count * 32 + r
  counted : Counted t.file
  next : ∀ w, t.file.buf = some w → t.file.nextAppend = t.file.totalSize
  whole : ∀ w, t.file.buf = some w → w.failed = false → w.pend.length % 32 = 0 ∧ w.pend.length ≤ AppendOpt.bufCap

theorem kept_open {data : Bytes} {first : Int} {fates : Fates} {t : FTop} (h : openTop data first fates = some t) :
    Kept t 0 (data.length % 32) := by
  unfold openTop at h
  split at h
  · cases h
  injection h with h
  subst h
  refine ⟨?_, ?_, ⟨Nat.le_refl _, fun w e => (by cases e)⟩, fun w e => (by cases e), fun w e => (by cases e)⟩
  · simp [hashesOf]
  · simp only [openFile]; omega

/-- `bufio.Writer.Write` of a hash: on an error none of it has been taken. -/
theorem write_hash {d : Disk} {w : Writer} {h : Bytes} (hh : h.length = 32) (hw : w.failed = false → w.pend.length % 32 = 0 ∧ w.pend.length ≤ AppendOpt.bufCap)
    {d' : Disk} {w' : Writer} {n : Nat} {ok : Bool} (hr : w.write d h = (d', w', n, ok)) :
    (ok = true → n = 32 ∧ (w'.failed = false → w'.pend.length % 32 = 0 ∧ w'.pend.length ≤ AppendOpt.bufCap)) ∧ (ok = false → n = 0) := by
  unfold Writer.write at hr
  have hb : AppendOpt.bufCap = 4096 := rfl
  split at hr
  · simp only [Prod.mk.injEq] at hr
    obtain ⟨-, -, rfl, rfl⟩ := hr
    exact ⟨fun e => (by cases e), fun _ => rfl⟩
  next hf =>
  obtain ⟨h1, h2⟩ := hw (by simpa using hf)
  split at hr
  · next hfit =>
    simp only [Prod.mk.injEq] at hr
    obtain ⟨-, rfl, rfl, rfl⟩ := hr
    refine ⟨fun _ => ⟨hh, fun _ => ?_⟩, fun e => (by cases e)⟩
    dsimp only
    rw [List.length_append]
    omega
  next hfit =>
  split at hr
  · next hp => rw [hp, List.length_nil] at hfit; omega
  dsimp only at hr
  have hn : AppendOpt.bufCap - w.pend.length = 0 := by omega
  rw [hn] at hr
  split at hr
  · simp only [Prod.mk.injEq] at hr
    obtain ⟨-, -, rfl, rfl⟩ := hr
    exact ⟨fun e => (by cases e), fun _ => rfl⟩
  · rw [List.drop_zero, if_pos (by omega)] at hr
    simp only [Prod.mk.injEq] at hr
    obtain ⟨-, rfl, rfl, rfl⟩ := hr
    refine ⟨fun _ => ⟨hh, fun _ => ?_⟩, fun e => (by cases e)⟩
    dsimp only
    omega

theorem flush_kept {a : FF} (hc : Counted a) (hn : ∀ w, a.buf = some w → a.nextAppend = a.totalSize)
    (hw : ∀ w, a.buf = some w → w.failed = false → w.pend.length % 32 = 0 ∧ w.pend.length ≤ AppendOpt.bufCap) :
    Counted (flush a).1 ∧ (flush a).1.totalSize = a.totalSize ∧ (∀ w, (flush a).1.buf = some w → (flush a).1.nextAppend = (flush a).1.totalSize) ∧
    ∀ w, (flush a).1.buf = some w → w.failed = false → w.pend.length % 32 = 0 ∧ w.pend.length ≤ AppendOpt.bufCap := by
  obtain ⟨h1, h2⟩ := flush_counted hc
  refine ⟨h1, h2, ?_⟩
  unfold flush
  split
  · exact ⟨hn, hw⟩
  · next w hb =>
    generalize hf : w.flush a.disk = q
    obtain ⟨d1, w1, ok⟩ := q
    cases ok with
    | true => exact ⟨fun w e => (by cases e), fun w e => (by cases e)⟩
    | false =>
      refine ⟨fun w' e => hn w hb, fun w' e hw' => ?_⟩
      injection e with e
      subst e
      unfold Writer.flush at hf
      split at hf
      · next hfl =>
        simp only [Prod.mk.injEq] at hf
        obtain ⟨-, rfl, -⟩ := hf
        rw [hfl] at hw'; cases hw'
      split at hf
      · simp at hf
      · split at hf
        · simp at hf
        · simp only [Prod.mk.injEq] at hf
          obtain ⟨-, rfl, -⟩ := hf
          cases hw'

/-- The tier with a hash in its map and slice. -/
def FTop.put (t : FTop) (h : Bytes) (count : Nat) (f : FF) : FTop := ⟨t.first, t.slice ++ [h], setMap t.map h t.slice.length, count, f⟩

theorem append_cases {cap : Nat} {t t' : FTop} {h : Bytes} {g : Option Int} (ha : append cap t h = some (t', g)) :
    t.slice.length < cap ∧ h.length = 32 ∧ ∃ f ok, appendAt t.file (t.count * 32) h = (f, ok) ∧
    ((ok = false ∧ g = none ∧ t' = t.put h t.count f) ∨
     (ok = true ∧ t.slice.length + 1 ≠ cap ∧ g = some (t.first + t.slice.length) ∧ t' = t.put h (t.count + 1) f) ∨
     (ok = true ∧ t.slice.length + 1 = cap ∧ g = none ∧ bake (t.put h (t.count + 1) f) = (t', false)) ∨
     (ok = true ∧ t.slice.length + 1 = cap ∧ g = some (t.first + t.slice.length) ∧ bake (t.put h (t.count + 1) f) = (t', true))) := by
  unfold append at ha
  dsimp only at ha
  split at ha
  · cases ha
  next hcap =>
  split at ha
  · cases ha
  next hlen =>
  refine ⟨by omega, by omega, ?_⟩
  generalize appendAt t.file (t.count * 32) h = q at ha
  obtain ⟨f, ok⟩ := q
  refine ⟨f, ok, rfl, ?_⟩
  cases ok with
  | false =>
    simp only [Option.some.injEq, Prod.mk.injEq] at ha
    exact .inl ⟨rfl, ha.2.symm, ha.1.symm⟩
  | true =>
    dsimp only at ha
    split at ha
    · next hne =>
      simp only [Option.some.injEq, Prod.mk.injEq] at ha
      exact .inr (.inl ⟨rfl, hne, ha.2.symm, ha.1.symm⟩)
    · next hne =>
      have he : t.slice.length + 1 = cap := by omega
      split at ha
      · next t3 hb =>
        simp only [Option.some.injEq, Prod.mk.injEq] at ha
        exact .inr (.inr (.inl ⟨rfl, he, ha.2.symm, by rw [← ha.1]; exact hb⟩))
      · next t3 hb =>
        simp only [Option.some.injEq, Prod.mk.injEq] at ha
        exact .inr (.inr (.inr ⟨rfl, he, ha.2.symm, by rw [← ha.1]; exact hb⟩))

theorem bake_fails {t t' : FTop} (hb : bake t = (t', false)) : t'.first = t.first ∧ t'.slice = t.slice ∧ t'.map = t.map := by
  unfold bake at hb
  split at hb
  · injection hb with hb; rw [← hb]; exact ⟨rfl, rfl, rfl⟩
  · split at hb
    · injection hb with hb; rw [← hb]; exact ⟨rfl, rfl, rfl⟩
    · simp at hb

theorem bake_done {t t' : FTop} (hb : bake t = (t', true)) : t'.first = t.first + t.count ∧ ∃ fates, openTop [] t'.first fates = some t' := by
  unfold bake at hb
  split at hb
  · simp at hb
  · split at hb
    · simp at hb
    · injection hb with hb
      rw [← hb]
      exact ⟨rfl, _, rfl⟩

theorem kept_append {cap lag r : Nat} {t t' : FTop} {h : Bytes} {g : Option Int} (hk : Kept t lag r) (ha : append cap t h = some (t', g)) :
    (g = none ∧ Kept t' (lag + 1) r ∧ t'.count = t.count ∧ t'.first = t.first ∧ t'.slice = t.slice ++ [h]) ∨
    (r = 0 ∧ t.slice.length + 1 ≠ cap ∧ g = some (t.first + t.slice.length) ∧ Kept t' lag r ∧ t'.count = t.count + 1 ∧ t'.first = t.first ∧
      t'.slice = t.slice ++ [h]) ∨
    (r = 0 ∧ t.slice.length + 1 = cap ∧ g = none ∧ t'.first = t.first ∧ t'.slice = t.slice ++ [h]) ∨
    (r = 0 ∧ t.slice.length + 1 = cap ∧ g = some (t.first + t.slice.length) ∧ t'.first = t.first + (t.count + 1 : Nat) ∧
      ∃ fates, openTop [] t'.first fates = some t') := by
  obtain ⟨k1, k2, k3, k4, k5⟩ := hk
  obtain ⟨-, hh, f, ok, hq, ha⟩ := append_cases ha
  -- a write that is refused or is an append
  have key : (((appendAt t.file (t.count * 32) h).2 = false → Kept (FTop.mk t.first (t.slice ++ [h]) (setMap t.map h t.slice.length) t.count
        (appendAt t.file (t.count * 32) h).1) (lag + 1) r) ∧
      ((appendAt t.file (t.count * 32) h).2 = true → r = 0 ∧ Kept (FTop.mk t.first (t.slice ++ [h]) (setMap t.map h t.slice.length)
        (t.count + 1) (appendAt t.file (t.count * 32) h).1) lag r)) := by
    unfold appendAt
    split
    · next w hb =>
      split
      · next hoff =>
        have hr0 : r = 0 := by rw [k4 w hb, k2] at hoff; omega
        have hcnt := writeAt_counted k3 (t.count * 32) h
        revert hcnt
        unfold Faulty.writeAt
        rw [hb]
        dsimp only
        rw [if_pos hoff]
        generalize hw : w.write t.file.disk h = q
        obtain ⟨d1, w1, n, ok⟩ := q
        obtain ⟨p1, p2⟩ := write_hash hh (k5 w hb) hw
        cases ok with
        | false =>
          intro hcnt
          have hn := p2 rfl
          subst hn
          refine ⟨fun _ => ⟨by simp [k1]; omega, k2, hcnt, fun w e => (by cases e), fun w e => (by cases e)⟩, fun e => (by cases e)⟩
        | true =>
          intro hcnt
          obtain ⟨hn, hw1⟩ := p1 rfl
          subst hn
          refine ⟨fun e => (by cases e), fun _ => ⟨hr0, by simp [k1]; omega, ?_, hcnt, ?_, ?_⟩⟩
          · show t.file.totalSize + 32 = (t.count + 1) * 32 + r
            omega
          · intro w' e
            show t.file.nextAppend + 32 = t.file.totalSize + 32
            rw [k4 w hb]
          · intro w' e
            injection e with e
            subst e
            exact hw1
      · obtain ⟨f1, f2, f3, f4⟩ := flush_kept k3 k4 k5
        exact ⟨fun _ => ⟨by simp [k1]; omega, by dsimp only; rw [f2, k2], f1, f3, f4⟩, fun e => (by cases e)⟩
    · next hb =>
      split
      · next hoff =>
        have hr0 : r = 0 := by rw [k2] at hoff; omega
        have hcnt := writeAt_counted k3 (t.count * 32) h
        revert hcnt
        unfold Faulty.writeAt
        rw [hb]
        dsimp only
        rw [if_pos hoff]
        generalize hw : Writer.write _ ⟨[], false⟩ h = q
        obtain ⟨d1, w1, n, ok⟩ := q
        obtain ⟨p1, p2⟩ := write_hash hh (fun _ => ⟨rfl, by decide⟩) hw
        cases ok with
        | false =>
          intro hcnt
          have hn := p2 rfl
          subst hn
          refine ⟨fun _ => ⟨by simp [k1]; omega, k2, hcnt, fun w e => (by cases e), fun w e => (by cases e)⟩, fun e => (by cases e)⟩
        | true =>
          intro hcnt
          obtain ⟨hn, hw1⟩ := p1 rfl
          subst hn
          refine ⟨fun e => (by cases e), fun _ => ⟨hr0, by simp [k1]; omega, ?_, hcnt, ?_, ?_⟩⟩
          · show t.file.totalSize + 32 = (t.count + 1) * 32 + r
            omega
          · intro w' e
            show t.count * 32 + 32 = t.file.totalSize + 32
            omega
          · intro w' e
            injection e with e
            subst e
            exact hw1
      · exact ⟨fun _ => ⟨by simp [k1]; omega, k2, k3, k4, k5⟩, fun e => (by cases e)⟩
  rw [hq] at key
  rcases ha with ⟨rfl, rfl, rfl⟩ | ⟨rfl, hne, rfl, rfl⟩ | ⟨rfl, he, rfl, hb⟩ | ⟨rfl, he, rfl, hb⟩
  · exact .inl ⟨rfl, key.1 rfl, rfl, rfl, rfl⟩
  · exact .inr (.inl ⟨(key.2 rfl).1, hne, rfl, (key.2 rfl).2, rfl, rfl, rfl⟩)
  · exact .inr (.inr (.inl ⟨(key.2 rfl).1, he, rfl, (bake_fails hb).1, (bake_fails hb).2.1⟩))
  · exact .inr (.inr (.inr ⟨(key.2 rfl).1, he, rfl, bake_done hb⟩))

theorem kept_sync {lag r : Nat} {t : FTop} (hk : Kept t lag r) : Kept { t with file := (Faulty.sync t.file).1 } lag r := by
  obtain ⟨k1, k2, k3, k4, k5⟩ := hk
  obtain ⟨f1, f2, f3, f4⟩ := flush_kept k3 k4 k5
  have hc := step_counted k3 .sync
  have hc' : Counted (Faulty.sync t.file).1 := hc
  have : (Faulty.sync t.file).1.totalSize = (flush t.file).1.totalSize ∧ (Faulty.sync t.file).1.nextAppend = (flush t.file).1.nextAppend ∧
      (Faulty.sync t.file).1.buf = (flush t.file).1.buf := by
    unfold Faulty.sync
    generalize flush t.file = q
    obtain ⟨a, ok⟩ := q
    cases ok <;> exact ⟨rfl, rfl, rfl⟩
  obtain ⟨s1, s2, s3⟩ := this
  refine ⟨k1, by dsimp only; rw [s1, f2, k2], hc', ?_, ?_⟩
  · dsimp only; rw [s1, s2, s3]; exact f3
  · dsimp only; rw [s3]; exact f4

theorem run_kept {cap r : Nat} : ∀ (ops : List Op) {t t' : FTop} {lag : Nat} {outs : List Out}, Kept t lag r → run cap t ops = some (t', outs) →
    (r = 0 → t.slice.length + (appended ops).length < cap) →
    Kept t' (lag + failures outs) r ∧ t'.first = t.first ∧ t'.slice.length = t.slice.length + (appended ops).length ∧
    (r ≠ 0 → ∀ g, Out.index (some g) ∉ outs)
  | [], t, t', lag, outs, hk, hr, _ => by
    injection hr with hr
    injection hr with h1 h2
    subst h1 h2
    exact ⟨hk, rfl, rfl, fun _ g hg => by cases hg⟩
  | op :: ops, t, t', lag, outs, hk, hr, hroom => by
    simp only [run] at hr
    cases hs : step cap t op with
    | none => rw [hs] at hr; cases hr
    | some q =>
      obtain ⟨t1, o⟩ := q
      rw [hs] at hr
      dsimp only at hr
      cases hr2 : run cap t1 ops with
      | none => rw [hr2] at hr; cases hr
      | some q2 =>
        obtain ⟨t2, os⟩ := q2
        rw [hr2] at hr
        simp only [Option.map_some, Option.some.injEq, Prod.mk.injEq] at hr
        obtain ⟨rfl, rfl⟩ := hr
        cases op with
        | sync =>
          simp only [step, Option.some.injEq, Prod.mk.injEq] at hs
          obtain ⟨rfl, rfl⟩ := hs
          obtain ⟨h1, h2, h3, h4⟩ := run_kept ops (kept_sync hk) hr2 hroom
          refine ⟨h1, h2, h3, fun hr0 g hg => ?_⟩
          rcases List.mem_cons.1 hg with hg | hg
          · cases hg
          · exact h4 hr0 g hg
        | append h =>
          simp only [step] at hs
          cases ha : append cap t h with
          | none => rw [ha] at hs; cases hs
          | some q3 =>
            obtain ⟨t3, g3⟩ := q3
            rw [ha] at hs
            simp only [Option.map_some, Option.some.injEq, Prod.mk.injEq] at hs
            obtain ⟨rfl, rfl⟩ := hs
            simp only [appended, List.length_cons] at hroom ⊢
            rcases kept_append hk ha with ⟨rfl, k', -, hf, hsl⟩ | ⟨hr0, -, rfl, k', -, hf, hsl⟩ | ⟨hr0, he, -⟩ | ⟨hr0, he, -⟩
            · have hl : t3.slice.length = t.slice.length + 1 := by rw [hsl, List.length_append]; rfl
              obtain ⟨h1, h2, h3, h4⟩ := run_kept ops k' hr2 (fun e => by have := hroom e; omega)
              refine ⟨?_, by rw [h2, hf], by omega, fun hr0 g hg => ?_⟩
              · rw [failures, Nat.add_comm (failures os), ← Nat.add_assoc]; exact h1
              · rcases List.mem_cons.1 hg with hg | hg
                · cases hg
                · exact h4 hr0 g hg
            · have hl : t3.slice.length = t.slice.length + 1 := by rw [hsl, List.length_append]; rfl
              obtain ⟨h1, h2, h3, h4⟩ := run_kept ops k' hr2 (fun e => by have := hroom e; omega)
              exact ⟨h1, by rw [h2, hf], by omega, fun hr1 => absurd hr0 hr1⟩
            · have := hroom hr0; omega
            · have := hroom hr0; omega

theorem close_short {t : FTop} {lag r : Nat} (hk : Kept t lag r) (hr : r < 32) : (close t).1.length / 32 ≤ t.count := by
  obtain ⟨h1, h2⟩ := flush_counted hk.counted
  have : (close t).1 = (flush t.file).1.disk.file.data := rfl
  have h3 := h1.1
  rw [h2, hk.size] at h3
  rw [this]
  omega

/-! ## As long as nothing fails -/

/-- The file, seen through its buffer, is the slice. -/
structure Same (t : FTop) : Prop where
  count : t.count = t.slice.length
  long : ∀ h ∈ t.slice, h.length = 32
  map : t.map = fill t.slice 0 fun _ => none
  file : AppendOpt.Inv t.file.erase t.slice.flatten
  fine : Fine t.file

theorem flatten_length : ∀ (l : List Bytes), (∀ h ∈ l, h.length = 32) → l.flatten.length = l.length * 32
  | [], _ => rfl
  | x :: l, h => by
    rw [List.flatten_cons, List.length_append, flatten_length l (fun y hy => h y (List.mem_cons_of_mem _ hy)), h x (List.mem_cons_self ..), List.length_cons]
    omega

theorem hashesOf_cons (x rest : Bytes) (hx : x.length = 32) : hashesOf (x ++ rest) = x :: hashesOf rest := by
  unfold hashesOf
  rw [List.length_append, hx, show (32 + rest.length) / 32 = rest.length / 32 + 1 by omega, List.range_succ_eq_map, List.map_cons, List.map_map]
  congr 1
  · rw [Nat.zero_mul, List.drop_zero, List.take_left' hx]
  · apply List.map_congr_left
    intro i _
    simp only [Function.comp]
    rw [show (i + 1) * 32 = 32 + i * 32 by omega, ← List.drop_drop, List.drop_left' hx]

theorem hashesOf_flatten : ∀ (l : List Bytes), (∀ h ∈ l, h.length = 32) → hashesOf l.flatten = l
  | [], _ => rfl
  | x :: l, h => by
    rw [List.flatten_cons, hashesOf_cons _ _ (h x (List.mem_cons_self ..)), hashesOf_flatten l fun y hy => h y (List.mem_cons_of_mem _ hy)]

theorem whole_is_flatten : ∀ (n : Nat) (data : Bytes), data.length = n * 32 → (hashesOf data).flatten = data ∧ ∀ h ∈ hashesOf data, h.length = 32
  | 0, data, h => by
    rw [Nat.zero_mul, List.length_eq_zero_iff] at h
    subst h
    exact ⟨rfl, fun _ hm => by cases hm⟩
  | n + 1, data, h => by
    have h1 : (data.take 32).length = 32 := by rw [List.length_take]; omega
    have hd : data = data.take 32 ++ data.drop 32 := (List.take_append_drop 32 data).symm
    have hc := hashesOf_cons (data.take 32) (data.drop 32) h1
    rw [← hd] at hc
    obtain ⟨i1, i2⟩ := whole_is_flatten n (data.drop 32) (by rw [List.length_drop]; omega)
    rw [hc]
    refine ⟨by rw [List.flatten_cons, i1, ← hd], fun x hx => ?_⟩
    rcases List.mem_cons.1 hx with rfl | hx
    · exact h1
    · exact i2 x hx

theorem fill_snoc : ∀ (l : List Bytes) (i : Nat) (map : Bytes → Option Nat) (h : Bytes), fill (l ++ [h]) i map = setMap (fill l i map) h (i + l.length)
  | [], _, _, _ => rfl
  | x :: l, i, map, h => by
    rw [List.cons_append, fill, fill, fill_snoc l, List.length_cons, show i + 1 + l.length = i + (l.length + 1) by omega]

theorem same_open {data : Bytes} {first : Int} {fates : Fates} {t : FTop} (h : openTop data first fates = some t) (hw : data.length % 32 = 0) :
    Same t ∧ t.slice = hashesOf data ∧ t.first = first := by
  unfold openTop at h
  split at h
  · cases h
  injection h with h
  subst h
  obtain ⟨h1, h2⟩ := whole_is_flatten (data.length / 32) data (by omega)
  refine ⟨⟨by simp [hashesOf], h2, rfl, ?_, fun _ e => (by cases e)⟩, rfl, rfl⟩
  dsimp only
  rw [h1, erase_open]
  exact AppendOpt.inv_open data

theorem same_append {cap : Nat} {t t' : FTop} {h : Bytes} {g : Int} (hs : Same t) (hroom : t.slice.length + 1 < cap) (ha : append cap t h = some (t', some g)) :
    Same t' ∧ t'.slice = t.slice ++ [h] ∧ t'.first = t.first ∧ g = t.first + t.slice.length := by
  obtain ⟨s1, s2, s3, s4, s5⟩ := hs
  obtain ⟨-, hh, f, ok, hq, ha⟩ := append_cases ha
  have hw : (appendAt t.file (t.count * 32) h).2 = true → appendAt t.file (t.count * 32) h = Faulty.writeAt t.file (t.count * 32) h := by
    unfold appendAt
    split
    · split
      · exact fun _ => rfl
      · exact fun e => by cases e
    · split
      · exact fun _ => rfl
      · exact fun e => by cases e
  rw [hq] at hw
  rcases ha with ⟨-, hc, -⟩ | ⟨rfl, -, hg, rfl⟩ | ⟨-, he, -⟩ | ⟨-, he, -⟩
  · cases hc
  rotate_left
  · omega
  · omega
  injection hg with hg
  subst hg
  obtain ⟨e1, e2⟩ := writeAt_ok s5 (hw rfl).symm
  refine ⟨⟨by simp [s1, FTop.put], ?_, ?_, ?_, e2⟩, rfl, rfl, rfl⟩
  · intro x hx
    rcases List.mem_append.1 hx with hx | hx
    · exact s2 x hx
    · rw [List.mem_singleton.1 hx]; exact hh
  · simp only [FTop.put]
    rw [fill_snoc, ← s3, Nat.zero_add]
  · have hi := AppendOpt.inv_writeAt (off := t.count * 32) (p := h) s4 (.inl (fun e => by rw [e] at hh; cases hh))
    rw [s1, ← flatten_length _ s2, AppendOpt.writeAt_end] at hi
    simp only [FTop.put]
    rw [e1, List.flatten_append, List.flatten_singleton, s1, ← flatten_length _ s2]
    exact hi

theorem run_same {cap : Nat} : ∀ (ops : List Op) {t t' : FTop} {outs : List Out}, Same t → run cap t ops = some (t', outs) → NoError outs →
    t.slice.length + (appended ops).length < cap →
    Same t' ∧ t'.slice = t.slice ++ appended ops ∧ t'.first = t.first ∧
    indices outs = (List.range (appended ops).length).map fun k : Nat => t.first + t.slice.length + (k : Int)
  | [], t, t', outs, hs, hr, hn, _ => by
    injection hr with hr
    injection hr with h1 h2
    subst h1 h2
    exact ⟨hs, (List.append_nil _).symm, rfl, rfl⟩
  | op :: ops, t, t', outs, hs, hr, hn, hroom => by
    simp only [run] at hr
    cases hst : step cap t op with
    | none => rw [hst] at hr; cases hr
    | some q =>
      obtain ⟨t1, o⟩ := q
      rw [hst] at hr
      dsimp only at hr
      cases hr2 : run cap t1 ops with
      | none => rw [hr2] at hr; cases hr
      | some q2 =>
        obtain ⟨t2, os⟩ := q2
        rw [hr2] at hr
        simp only [Option.map_some, Option.some.injEq, Prod.mk.injEq] at hr
        obtain ⟨rfl, rfl⟩ := hr
        have hn0 := hn o (List.mem_cons_self ..)
        have hn1 : NoError os := fun x hx => hn x (List.mem_cons_of_mem _ hx)
        cases op with
        | sync =>
          simp only [step, Option.some.injEq, Prod.mk.injEq] at hst
          obtain ⟨rfl, rfl⟩ := hst
          have hok : (Faulty.sync t.file).2 = true := by
            cases hb : (Faulty.sync t.file).2 with
            | true => rfl
            | false => exact absurd (by rw [hb]) hn0.2
          have hpair : Faulty.sync t.file = ((Faulty.sync t.file).1, true) := by rw [← hok]
          obtain ⟨e1, e2⟩ := sync_ok hpair
          have hs' : Same { t with file := (Faulty.sync t.file).1 } := by
            refine ⟨hs.count, hs.long, hs.map, ?_, fun w e => ?_⟩
            · dsimp only
              rw [e1]
              exact (AppendOpt.inv_flush hs.file).1
            · dsimp only at e
              rw [e2] at e; cases e
          obtain ⟨i1, i2, i3, i4⟩ := run_same ops hs' hr2 hn1 hroom
          exact ⟨i1, i2, i3, i4⟩
        | append h =>
          simp only [step] at hst
          cases ha : append cap t h with
          | none => rw [ha] at hst; cases hst
          | some q3 =>
            obtain ⟨t3, g3⟩ := q3
            rw [ha] at hst
            simp only [Option.map_some, Option.some.injEq, Prod.mk.injEq] at hst
            obtain ⟨rfl, rfl⟩ := hst
            cases g3 with
            | none => exact absurd rfl hn0.1
            | some g =>
              simp only [appended, List.length_cons] at hroom
              obtain ⟨a1, a2, a3, a4⟩ := same_append hs (by omega) ha
              obtain ⟨i1, i2, i3, i4⟩ := run_same ops a1 hr2 hn1 (by rw [a2, List.length_append, List.length_singleton]; omega)
              refine ⟨i1, by rw [i2, a2]; simp [appended], by rw [i3, a3], ?_⟩
              rw [indices, i4, appended, List.length_cons, List.range_succ_eq_map, List.map_cons, List.map_map, a2, a3, a4]
              congr 1
              · simp
              · apply List.map_congr_left
                intro k _
                simp only [Function.comp, List.length_append, List.length_singleton]
                omega

/-! ## The theorems -/

/-- **C118 (partial).** As long as no append or `Sync` has returned an error and `Close` returns nil, the hashes appended get the next
indexes, are in the file behind those that were there, and when the cake is opened again everything is found as before the close.
Missing: the same once an append has failed (`failed_append_is_found`, `after_a_failed_append`, `an_index_given_twice`) and over a bake. -/
theorem no_failure_no_trace_partial {cap : Nat} {data : Bytes} {first : Int} {fates fates' : Fates} {t0 t t2 : FTop} (h0 : openTop data first fates = some t0)
    (hwhole : data.length % 32 = 0) {ops : List Op} {outs : List Out} (hr : run cap t0 ops = some (t, outs)) (hn : NoError outs) (hroom : data.length / 32 + (appended ops).length < cap)
    (hc : (close t).2 = true)
    (ho : openTop (close t).1 first fates' = some t2) :
    indices outs = (List.range (appended ops).length).map (fun k : Nat => first + (data.length / 32 : Nat) + (k : Int)) ∧
    (close t).1 = data ++ (appended ops).flatten ∧
    (∀ h, tryIndexOfHash t2.top h = tryIndexOfHash t.top h) ∧ ∀ m g, tryGetHashAtIndex m t2.top g = tryGetHashAtIndex m t.top g := by
  obtain ⟨s1, s2, s3⟩ := same_open h0 hwhole
  obtain ⟨r1, r2, r3, r4⟩ := run_same ops s1 hr hn (by rw [s2]; simpa [hashesOf] using hroom)
  have hb : (close t).1 = AppendOpt.close t.file.erase := close_ok (by rw [← hc]; rfl)
  have hb2 : (close t).1 = t.slice.flatten := by
    rw [hb]
    exact (AppendOpt.inv_flush r1.file).2.1
  have hwf := whole_is_flatten (data.length / 32) data (by omega)
  refine ⟨by rw [r4, s3, s2]; simp [hashesOf], by rw [hb2, r2, s2, List.flatten_append, hwf.1], ?_⟩
  unfold openTop at ho
  split at ho
  · cases ho
  injection ho with ho
  rw [hb2, hashesOf_flatten _ r1.long] at ho
  have htop : t2.top = t.top := by
    rw [← ho]
    unfold FTop.top
    dsimp only
    rw [r3, s3, r1.map]
  exact ⟨fun h => by rw [htop], fun m g => by rw [htop]⟩

/-- **C118: violated.** A hash whose append returned an error is found from then on in the session, under an index that the next
append does not get. If it was the one that would have filled the top tier, every later append panics. -/
theorem failed_append_is_found {cap : Nat} {t t' : FTop} {h : Bytes} (ha : append cap t h = some (t', none)) :
    tryIndexOfHash t'.top h = some (some (t.first + t.slice.length)) ∧
    (∀ {t'' : FTop} {h2 : Bytes} {g : Int}, append cap t' h2 = some (t'', some g) → g = t.first + t.slice.length + 1) ∧
    (t.slice.length + 1 = cap → ∀ h2, append cap t' h2 = none) := by
  obtain ⟨hcap, hh, f, ok, hq, hc⟩ := append_cases ha
  have key : t'.first = t.first ∧ t'.slice = t.slice ++ [h] ∧ t'.map = setMap t.map h t.slice.length := by
    rcases hc with ⟨-, -, rfl⟩ | ⟨-, -, hg, -⟩ | ⟨-, -, -, hb⟩ | ⟨-, -, hg, -⟩
    · exact ⟨rfl, rfl, rfl⟩
    · cases hg
    · exact bake_fails hb
    · cases hg
  obtain ⟨k1, k2, k3⟩ := key
  have hl : t'.slice.length = t.slice.length + 1 := by rw [k2, List.length_append]; rfl
  refine ⟨?_, ?_, ?_⟩
  · unfold tryIndexOfHash FTop.top
    rw [if_neg (by omega)]
    simp only [k3, k1, setMap, if_true]
    rfl
  · intro t'' h2 g ha2
    obtain ⟨-, -, f2, ok2, -, hc2⟩ := append_cases ha2
    have : some g = some (t'.first + t'.slice.length) := by
      rcases hc2 with ⟨-, hg, -⟩ | ⟨-, -, hg, -⟩ | ⟨-, -, hg, -⟩ | ⟨-, -, hg, -⟩
      · cases hg
      · exact hg
      · cases hg
      · exact hg
    injection this with this
    rw [this, hl, k1]
    omega
  · intro he h2
    unfold append
    dsimp only
    rw [if_pos (by omega)]

theorem failures_pos : ∀ {outs : List Out}, Out.index none ∈ outs → 0 < failures outs
  | [], h => by cases h
  | o :: os, h => by
    rcases List.mem_cons.1 h with rfl | hm
    · exact Nat.succ_pos _
    · have := failures_pos hm
      cases o with
      | synced ok => exact this
      | index g =>
        cases g with
        | none => exact Nat.succ_pos _
        | some g => exact this

theorem fill_bound : ∀ (l : List Bytes) (i : Nat) (map : Bytes → Option Nat) (h : Bytes) (n : Nat),
    (∀ n, map h = some n → n < i) → fill l i map h = some n → n < i + l.length
  | [], i, map, h, n, hm, hf => by rw [List.length_nil]; exact hm n hf
  | x :: l, i, map, h, n, hm, hf => by
    have := fill_bound l (i + 1) (setMap map x i) h n (by
      intro n hn
      unfold setMap at hn
      split at hn
      · injection hn with hn; omega
      · have := hm n hn; omega) hf
    rw [List.length_cons]
    omega

/-- **C118: violated.** Once an append has failed, an append that succeeds is given an index under which its hash is not found
when the cake has been closed and opened again: nothing is found there. This whatever the disk has done and whether or not
`Close` returned nil. -/
theorem after_a_failed_append {cap : Nat} {data : Bytes} {first : Int} {fates fates' : Fates} {t0 t t' t2 : FTop} (h0 : openTop data first fates = some t0)
    {ops : List Op} {outs : List Out} (hr : run cap t0 ops = some (t, outs)) (hfail : Out.index none ∈ outs)
    (hroom : data.length / 32 + (appended ops).length + 1 < cap) {h : Bytes} {g : Int}
    (ha : append cap t h = some (t', some g)) (ho : openTop (close t').1 first fates' = some t2) (m : Memory) :
    tryGetHashAtIndex m t2.top g = some none ∧ tryIndexOfHash t2.top h ≠ some (some g) := by
  have hmod : data.length % 32 < 32 := Nat.mod_lt _ (by decide)
  have hs0 : t0.slice.length = data.length / 32 := by
    unfold openTop at h0
    split at h0
    · cases h0
    · injection h0 with h0; rw [← h0]; simp [hashesOf]
  obtain ⟨hk, hfirst, hsl, -⟩ := run_kept ops (kept_open h0) hr (fun _ => by rw [hs0]; omega)
  have hpos := failures_pos hfail
  have hf0 : t0.first = first := by
    unfold openTop at h0
    split at h0
    · cases h0
    · injection h0 with h0; rw [← h0]
  rcases kept_append hk ha with ⟨hc, -⟩ | ⟨hr0, -, hg, hk', hcount, -⟩ | ⟨-, he, -⟩ | ⟨-, he, -⟩
  · cases hc
  rotate_left
  · omega
  · omega
  injection hg with hg
  have hshort := close_short hk' hmod
  have hs := hk.slice
  unfold openTop at ho
  split at ho
  · cases ho
  injection ho with ho
  have hlen : t2.slice.length = (close t').1.length / 32 := by rw [← ho]; simp [hashesOf]
  have hfirst2 : t2.first = first := by rw [← ho]
  have hbig : t2.first + t2.slice.length ≤ g := by
    rw [hg, hlen, hfirst2, hfirst, hf0]
    omega
  refine ⟨?_, ?_⟩
  · unfold tryGetHashAtIndex FTop.top withinRange
    rw [if_pos]
    simp only [List.length_map, Bool.and_eq_false_iff, decide_eq_false_iff_not]
    right
    omega
  · unfold tryIndexOfHash FTop.top
    dsimp only
    split
    · simp
    · split
      · simp
      · next i hi =>
        have hb : i < t2.slice.length := by
          have hm : t2.map = fill (hashesOf (close t').1) 0 fun _ => none := by rw [← ho]
          rw [hm] at hi
          have := fill_bound _ 0 _ h i (fun n hn => (by cases hn)) hi
          rw [hlen]
          simpa [hashesOf] using this
        intro hc
        simp only [globalOfTop, Option.some.injEq] at hc
        omega

/-- **C118: violated.** If the file does not end with a whole hash every append fails. -/
theorem torn_file_takes_nothing {cap : Nat} {data : Bytes} {first : Int} {fates : Fates} {t0 t : FTop} (h0 : openTop data first fates = some t0)
    (htorn : data.length % 32 ≠ 0) {ops : List Op} {outs : List Out} (hr : run cap t0 ops = some (t, outs)) : ∀ g, Out.index (some g) ∉ outs :=
  (run_kept ops (kept_open h0) hr (fun e => absurd e htorn)).2.2.2 htorn

/-- **C118: violated.** If some appends have failed when the top tier is full and goes into the tier below, the index of the append that
filled it is given again, to another hash: the next appends, as many as had failed, all succeed and the last of them gets it. -/
theorem an_index_given_twice {cap : Nat} {data : Bytes} {first : Int} {fates : Fates} {t0 t t' t2 : FTop} (h0 : openTop data first fates = some t0)
    {ops : List Op} {outs : List Out} (hr : run cap t0 ops = some (t, outs)) (hfail : Out.index none ∈ outs)
    (hfull : data.length / 32 + (appended ops).length + 1 = cap) {h : Bytes} {g : Int} (ha : append cap t h = some (t', some g))
    {ops2 : List Op} {outs2 : List Out} (hr2 : run cap t' ops2 = some (t2, outs2)) (hn2 : NoError outs2)
    (hlen : failures outs ≤ (appended ops2).length) (hroom : (appended ops2).length < cap) :
    (indices outs2)[failures outs - 1]? = some g := by
  have hs0 : t0.slice.length = data.length / 32 := by
    unfold openTop at h0
    split at h0
    · cases h0
    · injection h0 with h0; rw [← h0]; simp [hashesOf]
  obtain ⟨hk, hfirst, hsl, -⟩ := run_kept ops (kept_open h0) hr (fun _ => by rw [hs0]; omega)
  have hpos := failures_pos hfail
  have hsk := hk.slice
  rcases kept_append hk ha with ⟨hc, -⟩ | ⟨-, hne, -⟩ | ⟨-, -, hc, -⟩ | ⟨-, -, hg, hf', fates', ho⟩
  · cases hc
  · omega
  · cases hc
  obtain ⟨s1, s2, -⟩ := same_open ho rfl
  have hnil : t'.slice = [] := by rw [s2]; rfl
  obtain ⟨-, -, -, hi⟩ := run_same ops2 s1 hr2 hn2 (by rw [hnil]; simpa using hroom)
  rw [hi, List.getElem?_map, List.getElem?_range (by omega), Option.map_some]
  injection hg with hg
  rw [hg, hnil, hf', hfirst]
  simp only [List.length_nil]
  congr 1
  omega

/-! ## Examples -/

def aHash (n : Nat) : Bytes := List.replicate 32 (UInt8.ofNat n)

/-- An append, a `Sync` that the disk refuses, an append that fails for it. -/
def refused : List Op := [.append (aHash 1), .sync, .append (aHash 2)]

/-- Opens a top tier with one hash and room for `cap`, on a disk whose first write takes nothing; `refused`; appends; closes and opens again. What
the calls returned, and what is found of the failed append before and after. -/
def demo (cap : Nat) : Option (List Out × Option Int × Option (Option Int) × Option (Option Int) × Nat) :=
  (openTop (aHash 200) 7 [some 0]).bind fun t0 => (run cap t0 refused).bind fun r =>
    (append cap r.1 (aHash 3)).bind fun r' => (openTop (close r'.1).1 7 []).map fun t2 =>
      (r.2, r'.2, tryIndexOfHash r.1.top (aHash 2), tryIndexOfHash t2.top (aHash 2), t2.slice.length)

/-- The hypotheses of `failed_append_is_found` and `after_a_failed_append`. -/
example : demo 65535 = some ([.index (some 8), .synced false, .index none], some 10, some (some 9), some none, 2) := by decide +kernel

/-- The hypotheses of `an_index_given_twice`, with room for four: index 10 is given to two hashes. -/
example : ((openTop (aHash 200) 7 [some 0]).bind fun t0 => (run 4 t0 refused).bind fun r => (append 4 r.1 (aHash 3)).bind fun r' =>
    (run 4 r'.1 [.append (aHash 4)]).map fun r2 => (r.2, r'.2, r2.2)) =
    some ([.index (some 8), .synced false, .index none], some 10, [.index (some 10)]) := by decide +kernel

/-- An append that fails when it would have filled the tier: the next one panics. -/
example : ((openTop (aHash 200) 7 [some 0]).bind fun t0 => (run 3 t0 refused).map fun r => (r.2, (append 3 r.1 (aHash 3)).isNone)) =
    some ([.index (some 8), .synced false, .index none], true) := by decide +kernel

/-- The hypotheses of `no_failure_no_trace_partial`, with a `Sync` in the middle. -/
example : ∃ t0 t t2 outs, openTop (aHash 200) 7 [none, none, none] = some t0 ∧
    run 65536 t0 [.append (aHash 1), .sync, .append (aHash 2)] = some (t, outs) ∧ outs = [.index (some 8), .synced true, .index (some 9)] ∧
    (close t).2 = true ∧ openTop (close t).1 7 [] = some t2 ∧ tryIndexOfHash t2.top (aHash 2) = some (some 9) := by
  refine ⟨_, _, _, _, rfl, rfl, ?_, ?_, rfl, ?_⟩ <;> decide +kernel

/-- A torn file: a hash and a byte. -/
example : ∃ t0 t, openTop (aHash 200 ++ [1]) 7 [] = some t0 ∧ run 65536 t0 [.append (aHash 1), .sync, .append (aHash 2)] =
    some (t, [.index none, .synced true, .index none]) ∧ tryIndexOfHash t.top (aHash 2) = some (some 9) := by
  refine ⟨_, _, rfl, rfl, ?_⟩; decide +kernel

end Verif.TopDisk
