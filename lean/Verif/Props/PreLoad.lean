import Verif.Lemmas.PreLoad

/-!
# C83: sorting hashes into files with two goroutines

Specification: the file of an address lists, for every hash whose first eight bytes (the first being the lowest) divided by
the divider give the address, in order, the number of the hash in eight bytes (lowest first) and its 32 bytes.
-/

namespace Verif.PreLoad

/-- The hashes that belong to an address, with their numbers. -/
def belong (divider : Nat) (hashes : List Bytes) (a : Nat) : List (Bytes × Nat) :=
  hashes.zipIdx.filter fun p => leDec (p.1.take 8) / divider = a

/-- What the file is to be. -/
def records (ps : List (Bytes × Nat)) : Bytes := ps.flatMap fun p => leEnc 8 p.2 ++ p.1

theorem records_expected (c : Cfg) (a : Nat) :
    fileBytes (expected c c.hashes.length a) = records (belong c.divider c.hashes a) := by
  unfold fileBytes expected records belong address
  rw [List.take_length, List.flatMap_map]

theorem sublist_expected {c : Cfg} {n a : Nat} {l : List Entry} (h : l.Sublist (expected c n a)) :
    ∃ ps, ps.Sublist (belong c.divider c.hashes a) ∧ fileBytes l = records ps := by
  have h1 : (expected c n a).Sublist ((belong c.divider c.hashes a).map fun p => (⟨p.2, p.1⟩ : Entry)) := by
    unfold expected belong address
    apply List.Sublist.map
    apply List.Sublist.filter
    conv => rhs; rw [← List.take_append_drop n c.hashes, List.zipIdx_append]
    exact List.sublist_append_left _ _
  obtain ⟨ps, h2, h3⟩ := List.sublist_map_iff.mp (h.trans h1)
  refine ⟨ps, h2, ?_⟩
  rw [h3]
  unfold fileBytes records
  rw [List.flatMap_map]

/-- C83. If the producer never looks for a file that is just being written, and the consumer only stops after a round that
began when all hashes had been sent, then when the job returns every file is what it is to be. -/
theorem every_hash_filed_partial {c : Cfg} (hc : CfgOK c) {s : State} (h : Reach Careful c s) (hr : s.prod = .returned) (a : Nat) :
    s.files a = records (belong c.divider c.hashes a) := by
  have hk := returned_ended h hr
  have hl := (lateOK_reach hc h).stop (Or.inr hk) a
  have hh := hold_reach hc h (by rw [hk]; simp)
  have hi := inv_reach hc h
  have hs : handed s = c.hashes.length := by
    have := hi.hand
    simp only [Hand, hr] at this
    simp [handed, hr, this]
  rw [(hh.file a (by rw [hk]; simp [flight]) hl.1 hl.2).1, hs, records_expected]

/-- C83. Whatever the schedule, at every moment every file holds only records that belong there, each at most once and in
order; the producer does not panic, and the consumer only if a file cannot be written. -/
theorem only_right_records {c : Cfg} (hc : CfgOK c) {P : State → Act → Prop} {s : State} (h : Reach P c s) :
    (∀ a, ∃ ps, ps.Sublist (belong c.divider c.hashes a) ∧ s.files a = records ps) ∧ s.prod ≠ .panicked ∧
    (s.cons = .panicked → ∃ a, c.writable a = false) := by
  have hi := inv_reach hc h
  refine ⟨fun a => ?_, hi.np, fun hp => ?_⟩
  · obtain ⟨l, h1, h2⟩ := hi.subFile a
    obtain ⟨ps, h3, h4⟩ := sublist_expected h2
    exact ⟨ps, h3, h1.trans h4⟩
  · clear hi
    induction h with
    | start => cases hp
    | @step s t x hr _ hs ih =>
      by_cases hsp : s.cons = .panicked
      · exact ih hsp
      · cases x with
        | prod =>
          exfalso
          simp only [step] at hs
          unfold stepProd at hs
          split at hs
          all_goals first
            | contradiction
            | (cases hs; exact hsp hp)
            | (split at hs <;> first
                | contradiction
                | (cases hs; exact hsp hp)
                | (cases hs; cases hp)
                | (split at hs <;> first | contradiction | (cases hs; cases hp)))
        | cons y => exact stepCons_panicked (inv_reach hc hr) hs hp
        | short =>
          exfalso
          unfold step at hs
          simp only at hs
          split at hs
          · split at hs
            · cases hs; cases hp
            · cases hs
          · cases hs

/-- C83. Whatever the schedule, unless the job has returned or the consumer has panicked, some goroutine can go on; and once
all hashes have been sent the job comes to an end after a bounded number of steps. -/
theorem never_stuck {c : Cfg} (hc : CfgOK c) {P : State → Act → Prop} {s : State} (h : Reach P c s) :
    (s.prod ≠ .returned → s.cons ≠ .panicked → ∃ x t, x ≠ .short ∧ step c s x = some t) ∧
    (s.allSent = true → ∃ m, ∀ xs t, run c s xs = some t → xs.length ≤ m) :=
  ⟨enabled (inv_reach hc h) (wake_reach hc h), fun ha => ⟨left s, fun _ _ hr => run_left hc (inv_reach hc h) ha hr⟩⟩

/-- C83 does not hold in full: if memory is never short, nothing is written to any file. -/
theorem nothing_written_if_memory_suffices {c : Cfg} (hc : CfgOK c) {s : State} (h : Reach (fun _ x => x ≠ .short) c s) (a : Nat) :
    s.files a = [] := (idle_reach hc h).files a

/-! ## Concrete runs -/

/-- A hash that begins with eight bytes that end in `x`. -/
def sample (x y : UInt8) : Bytes := List.replicate 7 y ++ [x] ++ List.replicate 24 y

/-- Two addresses: hashes whose eighth byte is below 128, and the others. -/
def sampleCfg (hs : List Bytes) : Cfg := ⟨2 ^ 63, hs, 10, fun _ => true⟩

def prods (n : Nat) : List Act := List.replicate n .prod
def conss (n a : Nat) : List Act := List.replicate n (.cons a)

/-- Whether the job has returned, and two files. -/
def outcome (s : State) : Bool × Bytes × Bytes := ((match s.prod with | .returned => true | _ => false), s.files 0, s.files 1)

theorem cfgOK_sample {hs : List Bytes} (h : ∀ x ∈ hs, x.length = 32) (hl : hs.length ≤ 2 ^ 64) : CfgOK (sampleCfg hs) :=
  ⟨show 2 ≤ 2 ^ 63 by decide, h, hl, show 0 < 10 by decide⟩

theorem reach_any {c : Cfg} {xs : List Act} {t : State} (h : run c (start c) xs = some t) : Reach (fun _ _ => True) c t := by
  suffices H : ∀ (xs : List Act) (s : State), Reach (fun _ _ => True) c s → run c s xs = some t → Reach (fun _ _ => True) c t from
    H xs _ .start h
  intro xs
  induction xs with
  | nil => intro s hr h; cases h; exact hr
  | cons x xs ih =>
    intro s hr h
    unfold run at h
    split at h
    · cases h
    · rename_i u hu; exact ih u (hr.step trivial hu) h

/-- C83 does not hold in full: two hashes of one address, the second handed over while the list of the first is being
written. The second list overwrites the first. -/
theorem first_hash_lost : ∃ s, Reach (fun _ _ => True) (sampleCfg [sample 0 1, sample 0 2]) s ∧ s.prod = .returned ∧
    s.files 0 = records [(sample 0 2, 1)] ∧
    records (belong (2 ^ 63) [sample 0 1, sample 0 2] 0) = records [(sample 0 1, 0), (sample 0 2, 1)] := by
  have h : (run (sampleCfg [sample 0 1, sample 0 2]) (start (sampleCfg [sample 0 1, sample 0 2]))
      (prods 5 ++ [.short] ++ conss 4 0 ++ prods 5 ++ conss 11 0 ++ prods 2 ++ conss 4 0 ++ [.prod])).map outcome =
      some (true, records [(sample 0 2, 1)], []) := by decide +kernel
  obtain ⟨s, h1, h2⟩ := Option.map_eq_some_iff.mp h
  refine ⟨s, reach_any h1, ?_, ?_, by decide +kernel⟩
  · have := congrArg (fun x => x.1) h2
    simp only [outcome] at this
    split at this
    · assumption
    · cases this
  · exact congrArg (fun x => x.2.1) h2

/-- C83 does not hold in full: the consumer finds nothing to do, the last hash is handed over, and the consumer stops. -/
theorem last_hash_left_behind : ∃ s, Reach (fun _ _ => True) (sampleCfg [sample 0 1]) s ∧ s.prod = .returned ∧
    s.files 0 = [] ∧ records (belong (2 ^ 63) [sample 0 1] 0) = records [(sample 0 1, 0)] := by
  have h : (run (sampleCfg [sample 0 1]) (start (sampleCfg [sample 0 1]))
      ([.short] ++ conss 3 0 ++ prods 7 ++ conss 1 0 ++ [.prod])).map outcome =
      some (true, [], []) := by decide +kernel
  obtain ⟨s, h1, h2⟩ := Option.map_eq_some_iff.mp h
  refine ⟨s, reach_any h1, ?_, ?_, by decide +kernel⟩
  · have := congrArg (fun x => x.1) h2
    simp only [outcome] at this
    split at this
    · assumption
    · cases this
  · exact congrArg (fun x => x.2.1) h2

/-- `Careful`, computed. -/
def carefulB (s : State) (x : Act) : Bool :=
  match x with
  | .prod =>
    match s.prod with
    | .bit a _ => (match flight s.cons with | some (b, _) => decide (b ≠ a) | none => true)
    | _ => true
  | .cons _ =>
    match s.cons with
    | .test n late => !(s.allSent && n == 0) || late
    | _ => true
  | .short => true

theorem careful_of {s : State} {x : Act} (h : carefulB s x = true) : Careful s x := by
  constructor
  · rintro rfl a e hp l hf
    simp [carefulB, hp, hf] at h
  · rintro y n late rfl hk ha rfl
    simpa [carefulB, hk, ha] using h

/-- A run of careful steps. -/
def runCareful (c : Cfg) (s : State) : List Act → Option State
  | [] => some s
  | x :: xs => if carefulB s x = true then (match step c s x with | none => none | some t => runCareful c t xs) else none

theorem reach_careful {c : Cfg} {xs : List Act} {t : State} (h : runCareful c (start c) xs = some t) : Reach Careful c t := by
  suffices H : ∀ (xs : List Act) (s : State), Reach Careful c s → runCareful c s xs = some t → Reach Careful c t from
    H xs _ .start h
  intro xs
  induction xs with
  | nil => intro s hr h; cases h; exact hr
  | cons x xs ih =>
    intro s hr h
    unfold runCareful at h
    split at h
    · rename_i hx
      split at h
      · cases h
      · rename_i u hu; exact ih u (hr.step (careful_of hx) hu) h
    · cases h

/-- Three hashes, two of one address; a file is written, read back into the cache and written again. -/
example : ∃ s, CfgOK (sampleCfg [sample 0 1, sample 200 2, sample 0 3]) ∧
    Reach Careful (sampleCfg [sample 0 1, sample 200 2, sample 0 3]) s ∧ s.prod = .returned ∧
    s.files 0 = records [(sample 0 1, 0), (sample 0 3, 2)] ∧ s.files 1 = records [(sample 200 2, 1)] := by
  have h : (runCareful (sampleCfg [sample 0 1, sample 200 2, sample 0 3]) (start (sampleCfg [sample 0 1, sample 200 2, sample 0 3]))
      (prods 5 ++ [.short] ++ conss 7 0 ++ prods 5 ++ prods 6 ++ prods 2 ++ conss 6 0 ++ conss 6 1 ++ conss 2 0 ++ conss 4 0 ++
        [.prod])).map outcome =
      some (true, records [(sample 0 1, 0), (sample 0 3, 2)], records [(sample 200 2, 1)]) := by decide +kernel
  obtain ⟨s, h1, h2⟩ := Option.map_eq_some_iff.mp h
  refine ⟨s, cfgOK_sample (by decide) (by decide), reach_careful h1, ?_, congrArg (fun x => x.2.1) h2, congrArg (fun x => x.2.2) h2⟩
  have := congrArg (fun x => x.1) h2
  simp only [outcome] at this
  split at this
  · assumption
  · cases this

/-- A whole run without a shortage of memory. -/
example : (run (sampleCfg [sample 0 1, sample 200 2]) (start (sampleCfg [sample 0 1, sample 200 2]))
    (prods 12 ++ conss 1 0 ++ [.prod])).map outcome = some (true, [], []) := by decide +kernel

end Verif.PreLoad
