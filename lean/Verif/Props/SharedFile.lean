import Verif.Model.SharedFile

/-!
# C107: several goroutines on one file object

What goroutines get that use one word file or hash file at the same time.
-/

namespace Verif.SharedFile

/-! ## Specification -/

/-- A file: its bytes and its length. -/
abbrev Data := (Nat → UInt8) × Nat

/-- What a call should do and give. -/
def serve (w : Nat) (d : Data) : Call → Data × Answer
  | .read off => (d, if off * w + w ≤ d.2 then .record off ((List.range w).map fun k => d.1 (off * w + k)) else .failed off)
  | .write off b => ((fun p => if off * w ≤ p ∧ p < off * w + w then b (p - off * w) else d.1 p, max d.2 (off * w + w)), .written off)

/-- The calls served one after another: the file after them, and who got what. -/
def serveAll (w : Nat) : Data → List (Nat × Call) → Data × List (Nat × Answer)
  | d, [] => (d, [])
  | d, x :: xs => ((serveAll w (serve w d x.2).1 xs).1, (x.1, (serve w d x.2).2) :: (serveAll w (serve w d x.2).1 xs).2)

/-- What goroutine `i` got. -/
def ofGor (i : Nat) (l : List (Nat × Answer)) : List Answer := (l.filter fun x => x.1 = i).map (·.2)

/-- The calls of goroutine `i`. -/
def callsOf (i : Nat) (l : List (Nat × Call)) : List Call := (l.filter fun x => x.1 = i).map (·.2)

/-- A call reads. -/
def Call.isRead : Call → Bool
  | .read _ => true
  | .write _ _ => false

/-! ## One at a time -/

theorem serveAll_snoc (w : Nat) (d : Data) (l : List (Nat × Call)) (x : Nat × Call) :
    serveAll w d (l ++ [x]) = ((serve w (serveAll w d l).1 x.2).1, (serveAll w d l).2 ++ [(x.1, (serve w (serveAll w d l).1 x.2).2)]) := by
  induction l generalizing d with
  | nil => rfl
  | cons y l ih => simp [serveAll, ih]

/-- Goroutine `i` is inside a call, `d` being the file before it. -/
def Inside (w : Nat) (s : Shared) (d : Data) : Phase → Option Call → Prop
  | .idle, c => c = none ∧ (s.byte, s.length) = d
  | .fill off todo, c => c = some (.read off) ∧ (s.byte, s.length) = d ∧
      ∀ k < w, k ∉ todo → off * w + k < s.length → s.scratch k = s.byte (off * w + k)
  | .take off todo got, c => c = some (.read off) ∧ (s.byte, s.length) = d ∧ off * w + w ≤ s.length ∧
      ∀ k < w, s.scratch k = s.byte (off * w + k) ∧ (k ∉ todo → got k = s.byte (off * w + k))
  | .put off b todo, c => c = some (.write off b) ∧ (s.byte, s.length) = d ∧ ∀ k < w, k ∉ todo → s.scratch k = b k
  | .store off b todo, c => c = some (.write off b) ∧ s.length = d.2 ∧ (∀ k < w, s.scratch k = b k) ∧ todo.Nodup ∧ (∀ k ∈ todo, k < w) ∧
      ∀ p, s.byte p = if off * w ≤ p ∧ p < off * w + w ∧ p - off * w ∉ todo then b (p - off * w) else d.1 p

/-- What holds while calls are locked: there is an order of the calls so far that explains everything. -/
structure Explained (w : Nat) (d : Data) (calls : Nat → List Call) (s : Sys) (order : List (Nat × Call)) : Prop where
  answers : ∀ i, (s.gor i).answers = ofGor i (serveAll w d order).2
  inside : ∃ i c, (∀ j, j ≠ i → (s.gor j).phase = .idle) ∧ Inside w s.shared (serveAll w d order).1 (s.gor i).phase c ∧
    ∀ j, calls j = callsOf j order ++ (if j = i then c.toList else []) ++ (s.gor j).calls

theorem setAt_self {α : Type} (f : Nat → α) (i : Nat) (a : α) : setAt f i a i = a := by simp [setAt]
theorem setAt_other {α : Type} (f : Nat → α) {i j : Nat} (a : α) (h : j ≠ i) : setAt f i a j = f j := by simp [setAt, h]

theorem mem_erase_nodup {l : List Nat} {k j : Nat} (h : j ≠ k) : j ∈ l.erase k ↔ j ∈ l := List.mem_erase_of_ne h

theorem ofGor_snoc (i : Nat) (l : List (Nat × Answer)) (m : Nat) (a : Answer) :
    ofGor i (l ++ [(m, a)]) = ofGor i l ++ if i = m then [a] else [] := by
  unfold ofGor
  by_cases h : i = m
  · simp [h, List.filter_append]
  · simp [h, List.filter_append, List.filter_cons, Ne.symm h]

theorem callsOf_snoc (i : Nat) (l : List (Nat × Call)) (m : Nat) (a : Call) :
    callsOf i (l ++ [(m, a)]) = callsOf i l ++ if i = m then [a] else [] := by
  unfold callsOf
  by_cases h : i = m
  · simp [h, List.filter_append]
  · simp [h, List.filter_append, List.filter_cons, Ne.symm h]

/-- A move inside a call. -/
theorem explained_inner {w : Nat} {d : Data} {calls : Nat → List Call} {s : Sys} {order : List (Nat × Call)} {m : Nat}
    (hans : ∀ i, (s.gor i).answers = ofGor i (serveAll w d order).2) (alone : ∀ j, j ≠ m → (s.gor j).phase = .idle)
    {s' : Shared} {g' : Gor} {c c' : Option Call}
    (hcalls : ∀ j, calls j = callsOf j order ++ (if j = m then c.toList else []) ++ (s.gor j).calls)
    (ha : g'.answers = (s.gor m).answers) (hc : c.toList ++ (s.gor m).calls = c'.toList ++ g'.calls)
    (hin : Inside w s' (serveAll w d order).1 g'.phase c') :
    Explained w d calls ⟨s', setAt s.gor m g'⟩ order := by
  refine ⟨fun i => ?_, m, c', fun j hj => ?_, ?_, fun j => ?_⟩
  · by_cases h : i = m
    · subst h; simp only [setAt_self]; rw [ha]; exact hans i
    · simp only [setAt_other _ _ h]; exact hans i
  · simp only [setAt_other _ _ hj]; exact alone j hj
  · simp only [setAt_self]; exact hin
  · by_cases h : j = m
    · subst h
      simp only [setAt_self, ↓reduceIte]
      rw [hcalls j, if_pos rfl, List.append_assoc, hc, List.append_assoc]
    · simp only [setAt_other _ _ h]
      rw [hcalls j, if_neg h, if_neg h]

/-- The last move of a call. -/
theorem explained_outer {w : Nat} {d : Data} {calls : Nat → List Call} {s : Sys} {order : List (Nat × Call)} {m : Nat}
    (hans : ∀ i, (s.gor i).answers = ofGor i (serveAll w d order).2) (alone : ∀ j, j ≠ m → (s.gor j).phase = .idle)
    {s' : Shared} {g' : Gor} {c : Call}
    (hcalls : ∀ j, calls j = callsOf j order ++ (if j = m then [c] else []) ++ (s.gor j).calls)
    (ha : g'.answers = (s.gor m).answers ++ [(serve w (serveAll w d order).1 c).2]) (hc : g'.calls = (s.gor m).calls)
    (hp : g'.phase = .idle) (hd : (s'.byte, s'.length) = (serve w (serveAll w d order).1 c).1) :
    Explained w d calls ⟨s', setAt s.gor m g'⟩ (order ++ [(m, c)]) := by
  refine ⟨fun i => ?_, m, none, fun j hj => ?_, ?_, fun j => ?_⟩
  · rw [serveAll_snoc, ofGor_snoc]
    by_cases h : i = m
    · subst h; simp only [setAt_self, ↓reduceIte]; rw [ha, hans i]
    · simp only [setAt_other _ _ h, if_neg h, List.append_nil]; exact hans i
  · simp only [setAt_other _ _ hj]; exact alone j hj
  · simp only [setAt_self]
    rw [hp, serveAll_snoc]
    exact ⟨rfl, hd⟩
  · rw [callsOf_snoc, hcalls j]
    by_cases h : j = m
    · subst h; simp only [setAt_self, ↓reduceIte, hc]; simp
    · simp only [setAt_other _ _ h, if_neg h]; simp

theorem explained_step {w : Nat} {d : Data} {calls : Nat → List Call} {s t : Sys} {order : List (Nat × Call)} {m : Nat}
    (h : Explained w d calls s order) (alone : ∀ j, j ≠ m → (s.gor j).phase = .idle) (hst : Step w m s t) :
    ∃ order', Explained w d calls t order' := by
  obtain ⟨hans, i, c, h1, h2, h3⟩ := h
  -- the goroutine that moves may be taken as the one that may be inside
  have hin : ∃ c, Inside w s.shared (serveAll w d order).1 (s.gor m).phase c ∧
      ∀ j, calls j = callsOf j order ++ (if j = m then c.toList else []) ++ (s.gor j).calls := by
    by_cases hm : m = i
    · subst hm; exact ⟨c, h2, h3⟩
    · have e1 : (s.gor i).phase = .idle := alone i (Ne.symm hm)
      have e2 : (s.gor m).phase = .idle := h1 m hm
      rw [e1] at h2
      obtain ⟨hc, hd⟩ := h2
      subst hc
      refine ⟨none, ?_, fun j => ?_⟩
      · rw [e2]; exact ⟨rfl, hd⟩
      · rw [h3 j]; simp
  obtain ⟨c, h2, h3⟩ := hin
  cases hst with | mk s' g' hmv =>
  generalize hg : s.gor m = g at hmv h2
  generalize hsh : s.shared = sh at hmv h2
  cases hmv with
  | startRead cs off as =>
    obtain ⟨hc, hd⟩ := h2
    subst hc
    refine ⟨order, explained_inner hans alone h3 (by rw [hg]) (c' := some (.read off)) (by rw [hg]; rfl) ⟨rfl, hd, ?_⟩⟩
    intro k hk hn hlt
    exact absurd (List.mem_filter.mpr ⟨List.mem_range.mpr hk, by simpa using hlt⟩) hn
  | copyIn cs off todo as k hk =>
    obtain ⟨hc, hd, hs⟩ := h2
    subst hc
    refine ⟨order, explained_inner hans alone h3 (by rw [hg]) (by rw [hg]) ⟨rfl, hd, ?_⟩⟩
    intro j hj hn hlt
    by_cases hjk : j = k
    · subst hjk; exact setAt_self _ _ _
    · dsimp only
      rw [setAt_other _ _ hjk]
      exact hs j hj (fun hm => hn ((List.mem_erase_of_ne hjk).mpr hm)) hlt
  | endOfFile cs off as hlt =>
    obtain ⟨hc, hd, hs⟩ := h2
    subst hc
    refine ⟨_, explained_outer hans alone (c := .read off) h3 ?_ (by rw [hg]) rfl hd⟩
    rw [hg, ← hd]
    simp only [serve]
    rw [if_neg (by omega)]
  | filled cs off as hle =>
    obtain ⟨hc, hd, hs⟩ := h2
    subst hc
    refine ⟨order, explained_inner hans alone h3 (by rw [hg]) (by rw [hg]) ⟨rfl, hd, hle, ?_⟩⟩
    intro k hk
    exact ⟨hs k hk (by simp) (by omega), fun hn => absurd (List.mem_range.mpr hk) hn⟩
  | takeOut cs off todo got as k hk =>
    obtain ⟨hc, hd, hle, hs⟩ := h2
    subst hc
    refine ⟨order, explained_inner hans alone h3 (by rw [hg]) (by rw [hg]) ⟨rfl, hd, hle, ?_⟩⟩
    intro j hj
    refine ⟨(hs j hj).1, fun hn => ?_⟩
    by_cases hjk : j = k
    · subst hjk; rw [setAt_self]; exact (hs j hj).1
    · rw [setAt_other _ _ hjk]
      exact (hs j hj).2 fun hm => hn ((List.mem_erase_of_ne hjk).mpr hm)
  | returned cs off got as =>
    obtain ⟨hc, hd, hle, hs⟩ := h2
    subst hc
    refine ⟨_, explained_outer hans alone (c := .read off) h3 ?_ (by rw [hg]) rfl hd⟩
    rw [hg, ← hd]
    simp only [serve]
    rw [if_pos hle]
    congr 3
    apply List.map_congr_left
    intro k hk
    exact (hs k (List.mem_range.mp hk)).2 (by simp)
  | startWrite cs off b as =>
    obtain ⟨hc, hd⟩ := h2
    subst hc
    refine ⟨order, explained_inner hans alone h3 (by rw [hg]) (c' := some (.write off b)) (by rw [hg]; rfl) ⟨rfl, hd, ?_⟩⟩
    intro k hk hn
    exact absurd (List.mem_range.mpr hk) hn
  | putIn cs off b todo as k hk =>
    obtain ⟨hc, hd, hs⟩ := h2
    subst hc
    refine ⟨order, explained_inner hans alone h3 (by rw [hg]) (by rw [hg]) ⟨rfl, hd, ?_⟩⟩
    intro j hj hn
    by_cases hjk : j = k
    · subst hjk; exact setAt_self _ _ _
    · dsimp only
      rw [setAt_other _ _ hjk]
      exact hs j hj fun hm => hn ((List.mem_erase_of_ne hjk).mpr hm)
  | putDone cs off b as =>
    obtain ⟨hc, hd, hs⟩ := h2
    subst hc
    refine ⟨order, explained_inner hans alone h3 (by rw [hg]) (by rw [hg])
      ⟨rfl, by rw [← hd], fun k hk => hs k hk (by simp), List.nodup_range, fun k hk => List.mem_range.mp hk, ?_⟩⟩
    intro p
    rw [if_neg, ← hd]
    rintro ⟨h4, h5, h6⟩
    exact h6 (List.mem_range.mpr (by omega))
  | storeByte cs off b todo as k hk =>
    obtain ⟨hc, hd, hs, hnd, hlt, hb⟩ := h2
    subst hc
    refine ⟨order, explained_inner hans alone h3 (by rw [hg]) (by rw [hg])
      ⟨rfl, hd, hs, hnd.erase _, fun j hj => hlt j (List.mem_of_mem_erase hj), ?_⟩⟩
    intro p
    have hkw := hlt k hk
    by_cases hp : p = off * w + k
    · subst hp
      dsimp only
      have hno : off * w + k - off * w ∉ todo.erase k := by
        rw [Nat.add_sub_cancel_left]
        exact fun hm => (hnd.mem_erase_iff.mp hm).1 rfl
      rw [setAt_self, hs k hkw, if_pos ⟨by omega, by omega, hno⟩, Nat.add_sub_cancel_left]
    · dsimp only
      rw [setAt_other _ _ hp, hb p]
      by_cases hr : off * w ≤ p ∧ p < off * w + w
      · have hne : p - off * w ≠ k := by omega
        simp only [hr.1, hr.2, List.mem_erase_of_ne hne]
      · rw [if_neg (fun h => hr ⟨h.1, h.2.1⟩), if_neg (fun h => hr ⟨h.1, h.2.1⟩)]
  | stored cs off b as =>
    obtain ⟨hc, hd, hs, hnd, hlt, hb⟩ := h2
    subst hc
    refine ⟨_, explained_outer hans alone (c := .write off b) h3 (by rw [hg]; rfl) (by rw [hg]) rfl ?_⟩
    simp only [serve, Prod.mk.injEq]
    refine ⟨funext fun p => ?_, by rw [hd]⟩
    rw [hb p]
    simp

/-- **C107, part.** Goroutines that use a file one at a time (each call under a lock) get what they would get by calling one
after another, in the order of their calls, and the file is what that leaves. -/
theorem locked_calls_right_partial {w : Nat} {f : Shared} {calls : Nat → List Call} {s : Sys}
    (h : Locked w (start f calls) s) :
    ∃ order, (∀ i, (s.gor i).answers = ofGor i (serveAll w (f.byte, f.length) order).2) ∧
      (∀ i, callsOf i order <+: calls i) ∧
      ((∀ i, (s.gor i).phase = .idle) → (s.shared.byte, s.shared.length) = (serveAll w (f.byte, f.length) order).1 ∧
        ∀ i, calls i = callsOf i order ++ (s.gor i).calls) := by
  have hE : ∃ order, Explained w (f.byte, f.length) calls s order := by
    induction h with
    | refl =>
      exact ⟨[], fun i => rfl, 0, none, fun j _ => rfl, ⟨rfl, rfl⟩, fun j => by simp [start, callsOf]⟩
    | tail t u i _ h2 alone ih =>
      obtain ⟨order, ho⟩ := ih
      exact explained_step ho alone h2
  obtain ⟨order, hans, i, c, h1, h2, h3⟩ := hE
  refine ⟨order, hans, fun j => ?_, fun hidle => ?_⟩
  · rw [h3 j, List.append_assoc]; exact List.prefix_append _ _
  · rw [hidle i] at h2
    obtain ⟨hc, hd⟩ := h2
    subst hc
    exact ⟨hd, fun j => by rw [h3 j]; simp⟩

/-! ## Readers only -/

/-- The offsets read by some goroutine. -/
def Asked (calls : Nat → List Call) (off : Nat) : Prop := ∃ i, Call.read off ∈ calls i

/-- A byte that may stand at position `k` of a record that was asked for. -/
def Fair (w : Nat) (f : Shared) (calls : Nat → List Call) (k : Nat) (b : UInt8) : Prop :=
  ∃ off, Asked calls off ∧ b = f.byte (off * w + k)

/-- What holds of a goroutine when all only read. -/
def ReaderOK (w : Nat) (f : Shared) (calls : Nat → List Call) (sc : Nat → UInt8) (g : Gor) : Prop :=
  (∀ c ∈ g.calls, ∃ off, c = .read off ∧ Asked calls off) ∧
  (∀ a ∈ g.answers, ∃ off, Asked calls off ∧ (a = .failed off ∧ f.length < off * w + w ∨
    off * w + w ≤ f.length ∧ ∃ b : Nat → UInt8, a = .record off ((List.range w).map b) ∧ ∀ k < w, Fair w f calls k (b k))) ∧
  match g.phase with
  | .idle => True
  | .fill off todo => Asked calls off ∧ ∀ k < w, k ∉ todo → off * w + k < f.length → Fair w f calls k (sc k)
  | .take off todo got => Asked calls off ∧ off * w + w ≤ f.length ∧
      ∀ k < w, Fair w f calls k (sc k) ∧ (k ∉ todo → Fair w f calls k (got k))
  | .put _ _ _ => False
  | .store _ _ _ => False

structure Readers (w : Nat) (f : Shared) (calls : Nat → List Call) (s : Sys) : Prop where
  file : s.shared.byte = f.byte ∧ s.shared.length = f.length
  gor : ∀ i, ReaderOK w f calls s.shared.scratch (s.gor i)

theorem readerOK_scratch {w : Nat} {f : Shared} {calls : Nat → List Call} {sc : Nat → UInt8} {g : Gor} {k : Nat} {b : UInt8}
    (hb : Fair w f calls k b) (h : ReaderOK w f calls sc g) : ReaderOK w f calls (setAt sc k b) g := by
  refine ⟨h.1, h.2.1, ?_⟩
  have h3 := h.2.2
  have hset : ∀ j, Fair w f calls j (sc j) → Fair w f calls j (setAt sc k b j) := by
    intro j hj
    by_cases e : j = k
    · subst e; rw [setAt_self]; exact hb
    · rw [setAt_other _ _ e]; exact hj
  split at h3
  · trivial
  · exact ⟨h3.1, fun j hj hn hl => hset j (h3.2 j hj hn hl)⟩
  · exact ⟨h3.1, h3.2.1, fun j hj => ⟨hset j (h3.2.2 j hj).1, (h3.2.2 j hj).2⟩⟩
  · exact h3.elim
  · exact h3.elim

theorem readers_step {w : Nat} {f : Shared} {calls : Nat → List Call} {s t : Sys} {m : Nat} (h : Readers w f calls s)
    (hst : Step w m s t) : Readers w f calls t := by
  have key : ∀ (s' : Shared) (g' : Gor), Move w s.shared (s.gor m) s' g' →
      (s'.byte = f.byte ∧ s'.length = f.length) ∧ ReaderOK w f calls s'.scratch g' ∧
      (s'.scratch = s.shared.scratch ∨ ∃ k b, Fair w f calls k b ∧ s'.scratch = setAt s.shared.scratch k b) := by
    intro s' g' hmv
    have hf := h.file
    have hr := h.gor m
    generalize s.gor m = g at hmv hr
    generalize s.shared = sh at hmv hf hr
    obtain ⟨hr1, hr2, hr3⟩ := hr
    cases hmv with
    | startRead cs off as =>
      obtain ⟨o, ho, hask⟩ := hr1 _ (List.mem_cons_self ..)
      cases ho
      refine ⟨hf, ⟨fun c hc => hr1 c (List.mem_cons_of_mem _ hc), hr2, hask, ?_⟩, Or.inl rfl⟩
      intro k hk hn hlt
      refine absurd (List.mem_filter.mpr ⟨List.mem_range.mpr hk, ?_⟩) hn
      rw [hf.2]; simpa using hlt
    | copyIn cs off todo as k hk =>
      have hfair : Fair w f calls k (sh.byte (off * w + k)) := ⟨off, hr3.1, by rw [hf.1]⟩
      refine ⟨hf, ⟨hr1, hr2, hr3.1, ?_⟩, Or.inr ⟨k, _, hfair, rfl⟩⟩
      intro j hj hn hlt
      by_cases e : j = k
      · subst e; dsimp only; rw [setAt_self]; exact hfair
      · dsimp only
        rw [setAt_other _ _ e]
        exact hr3.2 j hj (fun hm => hn ((List.mem_erase_of_ne e).mpr hm)) hlt
    | endOfFile cs off as hlt =>
      refine ⟨hf, ⟨hr1, ?_, trivial⟩, Or.inl rfl⟩
      intro a ha
      rcases List.mem_append.mp ha with ha | ha
      · exact hr2 a ha
      · rw [List.mem_singleton] at ha
        exact ⟨off, hr3.1, Or.inl ⟨ha, by rw [← hf.2]; exact hlt⟩⟩
    | filled cs off as hle =>
      rw [hf.2] at hle
      refine ⟨hf, ⟨hr1, hr2, hr3.1, hle, ?_⟩, Or.inl rfl⟩
      intro k hk
      exact ⟨hr3.2 k hk (by simp) (by omega), fun hn => absurd (List.mem_range.mpr hk) hn⟩
    | takeOut cs off todo got as k hk =>
      refine ⟨hf, ⟨hr1, hr2, hr3.1, hr3.2.1, ?_⟩, Or.inl rfl⟩
      intro j hj
      refine ⟨(hr3.2.2 j hj).1, fun hn => ?_⟩
      by_cases e : j = k
      · subst e; rw [setAt_self]; exact (hr3.2.2 j hj).1
      · rw [setAt_other _ _ e]
        exact (hr3.2.2 j hj).2 fun hm => hn ((List.mem_erase_of_ne e).mpr hm)
    | returned cs off got as =>
      refine ⟨hf, ⟨hr1, ?_, trivial⟩, Or.inl rfl⟩
      intro a ha
      rcases List.mem_append.mp ha with ha | ha
      · exact hr2 a ha
      · rw [List.mem_singleton] at ha
        exact ⟨off, hr3.1, Or.inr ⟨hr3.2.1, got, ha, fun k hk => (hr3.2.2 k hk).2 (by simp)⟩⟩
    | startWrite cs off b as =>
      obtain ⟨o, ho, _⟩ := hr1 _ (List.mem_cons_self ..)
      cases ho
    | putIn => exact hr3.elim
    | putDone => exact hr3.elim
    | storeByte => exact hr3.elim
    | stored => exact hr3.elim
  cases hst with | mk s' g' hmv =>
  obtain ⟨h1, h2, h3⟩ := key s' g' hmv
  refine ⟨h1, fun i => ?_⟩
  dsimp only
  by_cases e : i = m
  · subst e; rw [setAt_self]; exact h2
  · rw [setAt_other _ _ e]
    rcases h3 with h3 | ⟨k, b, hb, h3⟩
    · rw [h3]; exact h.gor i
    · rw [h3]; exact readerOK_scratch hb (h.gor i)

/-- **C107, part.** When all goroutines only read, without a lock, the file is not changed, errors come exactly for records past
the end, and byte `k` of an answer is byte `k` of some record that some goroutine reads. -/
theorem unlocked_reads_mix_partial {w : Nat} {f : Shared} {calls : Nat → List Call} (hr : ∀ i, ∀ c ∈ calls i, c.isRead = true)
    {s : Sys} (h : Steps w (start f calls) s) :
    s.shared.byte = f.byte ∧ s.shared.length = f.length ∧
    ∀ i, ∀ a ∈ (s.gor i).answers, ∃ off, Asked calls off ∧ (a = .failed off ∧ f.length < off * w + w ∨
      off * w + w ≤ f.length ∧ ∃ b : Nat → UInt8, a = .record off ((List.range w).map b) ∧
        ∀ k < w, ∃ o, Asked calls o ∧ b k = f.byte (o * w + k)) := by
  have hR : Readers w f calls s := by
    induction h with
    | refl =>
      refine ⟨⟨rfl, rfl⟩, fun i => ⟨fun c hc => ?_, by simp [start], trivial⟩⟩
      have := hr i c hc
      cases c with
      | read off => exact ⟨off, rfl, i, hc⟩
      | write off b => cases this
    | tail t u i _ h2 ih => exact readers_step ih h2
  exact ⟨hR.file.1, hR.file.2, fun i => (hR.gor i).2.1⟩

/-- If only one record is ever asked for, unlocked reads are right. -/
theorem same_record_right {w : Nat} {f : Shared} {calls : Nat → List Call} {off : Nat} (hr : ∀ i, ∀ c ∈ calls i, c = .read off)
    {s : Sys} (h : Steps w (start f calls) s) (i : Nat) : ∀ a ∈ (s.gor i).answers, a = (serve w (f.byte, f.length) (.read off)).2 := by
  intro a ha
  obtain ⟨o, ⟨j, ho⟩, h3⟩ := (unlocked_reads_mix_partial (fun i c hc => by rw [hr i c hc]; rfl) h).2.2 i a ha
  have := hr j _ ho
  cases this
  rcases h3 with ⟨rfl, hlt⟩ | ⟨hle, b, rfl, hb⟩
  · simp only [serve]; rw [if_neg (by omega)]
  · simp only [serve]; rw [if_pos hle]
    congr 1
    apply List.map_congr_left
    intro k hk
    obtain ⟨o, ⟨j, ho⟩, e⟩ := hb k (List.mem_range.mp hk)
    have := hr j _ ho
    cases this
    exact e

/-! ## What can happen -/

theorem Steps.trans {w : Nat} {s t u : Sys} (h1 : Steps w s t) (h2 : Steps w t u) : Steps w s u := by
  induction h2 with
  | refl => exact h1
  | tail t u i _ h2 ih => exact .tail _ _ _ i ih h2

theorem Steps.one {w : Nat} {s : Sys} (i : Nat) {s' : Shared} {g' : Gor} (h : Move w s.shared (s.gor i) s' g') :
    Steps w s ⟨s', setAt s.gor i g'⟩ := .tail _ _ _ i (.refl _) (.mk _ _ _ h)

theorem erase_range' (j n : Nat) : (List.range' j (n + 1)).erase j = List.range' (j + 1) n := by
  rw [List.range'_succ, List.erase_cons_head]

/-- Goroutine `i` copies one byte in. -/
theorem move_in {w : Nat} {s : Sys} {i : Nat} {cs : List Call} {off j n : Nat} {as : List Answer}
    (hg : s.gor i = ⟨cs, .fill off (List.range' j (n + 1)), as⟩) :
    Steps w s ⟨{ s.shared with scratch := setAt s.shared.scratch j (s.shared.byte (off * w + j)) },
      setAt s.gor i ⟨cs, .fill off (List.range' (j + 1) n), as⟩⟩ := by
  have := Move.copyIn (w := w) s.shared cs off (List.range' j (n + 1)) as j (by simp [List.range'_succ])
  rw [erase_range', ← hg] at this
  exact .one i this

/-- Goroutine `i` puts one byte in. -/
theorem move_put {w : Nat} {s : Sys} {i : Nat} {cs : List Call} {off j n : Nat} {v : Nat → UInt8} {as : List Answer}
    (hg : s.gor i = ⟨cs, .put off v (List.range' j (n + 1)), as⟩) :
    Steps w s ⟨{ s.shared with scratch := setAt s.shared.scratch j (v j) },
      setAt s.gor i ⟨cs, .put off v (List.range' (j + 1) n), as⟩⟩ := by
  have := Move.putIn (w := w) s.shared cs off v (List.range' j (n + 1)) as j (by simp [List.range'_succ])
  rw [erase_range', ← hg] at this
  exact .one i this

/-- Two goroutines fill the scratch buffer with `x` and `y`, byte by byte, in the order that leaves the wanted mix. The phases
of the first are `p0`, those of the second are `p1`. -/
theorem mix_fill {w : Nat} (mask : Nat → Bool) {p0 p1 : List Nat → Phase} {c0 c1 : List Call} {a0 a1 : List Answer}
    {byte : Nat → UInt8} {x y : Nat → UInt8}
    (m0 : ∀ (s : Sys) j n, s.shared.byte = byte → s.gor 0 = ⟨c0, p0 (List.range' j (n + 1)), a0⟩ →
      Steps w s ⟨{ s.shared with scratch := setAt s.shared.scratch j (x j) }, setAt s.gor 0 ⟨c0, p0 (List.range' (j + 1) n), a0⟩⟩)
    (m1 : ∀ (s : Sys) j n, s.shared.byte = byte → s.gor 1 = ⟨c1, p1 (List.range' j (n + 1)), a1⟩ →
      Steps w s ⟨{ s.shared with scratch := setAt s.shared.scratch j (y j) }, setAt s.gor 1 ⟨c1, p1 (List.range' (j + 1) n), a1⟩⟩)
    (n j : Nat) (s : Sys) (hb : s.shared.byte = byte) (h0 : s.gor 0 = ⟨c0, p0 (List.range' j n), a0⟩)
    (h1 : s.gor 1 = ⟨c1, p1 (List.range' j n), a1⟩) :
    ∃ t, Steps w s t ∧ t.gor 0 = ⟨c0, p0 [], a0⟩ ∧ t.gor 1 = ⟨c1, p1 [], a1⟩ ∧ (∀ i, 2 ≤ i → t.gor i = s.gor i) ∧
      t.shared.byte = byte ∧ t.shared.length = s.shared.length ∧
      ∀ k, t.shared.scratch k = if j ≤ k ∧ k < j + n then (if mask k then y k else x k) else s.shared.scratch k := by
  induction n generalizing j s with
  | zero =>
    refine ⟨s, .refl _, h0, h1, fun _ _ => rfl, hb, rfl, fun k => ?_⟩
    rw [if_neg (by omega)]
  | succ n ih =>
    -- both move; the order by the mask
    have hboth : ∃ t, Steps w s t ∧ t.gor 0 = ⟨c0, p0 (List.range' (j + 1) n), a0⟩ ∧ t.gor 1 = ⟨c1, p1 (List.range' (j + 1) n), a1⟩ ∧
        (∀ i, 2 ≤ i → t.gor i = s.gor i) ∧ t.shared.byte = byte ∧ t.shared.length = s.shared.length ∧
        ∀ k, t.shared.scratch k = if k = j then (if mask k then y k else x k) else s.shared.scratch k := by
      cases hm : mask j with
      | true =>
        refine ⟨_, (m0 s j n hb h0).trans (m1 _ j n hb ?_), ?_, ?_, ?_, hb, rfl, ?_⟩
        · exact h1
        · rfl
        · rfl
        · intro i hi
          dsimp only
          rw [setAt_other _ _ (by omega), setAt_other _ _ (by omega)]
        · intro k
          dsimp only
          by_cases e : k = j
          · subst e; rw [setAt_self, if_pos rfl, hm, if_pos rfl]
          · rw [setAt_other _ _ e, setAt_other _ _ e, if_neg e]
      | false =>
        refine ⟨_, (m1 s j n hb h1).trans (m0 _ j n hb ?_), ?_, ?_, ?_, hb, rfl, ?_⟩
        · exact h0
        · rfl
        · rfl
        · intro i hi
          dsimp only
          rw [setAt_other _ _ (by omega), setAt_other _ _ (by omega)]
        · intro k
          dsimp only
          by_cases e : k = j
          · subst e; rw [setAt_self, if_pos rfl, hm, if_neg (by simp)]
          · rw [setAt_other _ _ e, setAt_other _ _ e, if_neg e]
    obtain ⟨t, ht, g0, g1, g2, gb, gl, gs⟩ := hboth
    obtain ⟨u, hu, u0, u1, u2, ub, ul, us⟩ := ih (j + 1) t gb g0 g1
    refine ⟨u, ht.trans hu, u0, u1, fun i hi => by rw [u2 i hi, g2 i hi], ub, by rw [ul, gl], fun k => ?_⟩
    rw [us k, gs k]
    by_cases e : k = j
    · subst e
      rw [if_neg (show ¬ (k + 1 ≤ k ∧ k < k + 1 + n) by omega), if_pos (show k = k from rfl),
        if_pos (show k ≤ k ∧ k < k + (n + 1) by omega)]
    · by_cases e2 : j + 1 ≤ k ∧ k < j + 1 + n
      · rw [if_pos e2, if_pos (show j ≤ k ∧ k < j + (n + 1) by omega)]
      · rw [if_neg e2, if_neg e, if_neg (show ¬ (j ≤ k ∧ k < j + (n + 1)) by omega)]

/-- Goroutine `i` takes the record out without interruption. -/
theorem take_all {w : Nat} {i : Nat} {cs : List Call} {off : Nat} {as : List Answer} (n j : Nat) (s : Sys) (got : Nat → UInt8)
    (h : s.gor i = ⟨cs, .take off (List.range' j n) got, as⟩) (hgot : ∀ k < j, got k = s.shared.scratch k) (hw : j + n = w) :
    ∃ t, Steps w s t ∧ t.gor i = ⟨cs, .idle, as ++ [.record off ((List.range w).map s.shared.scratch)]⟩ ∧
      (∀ m, m ≠ i → t.gor m = s.gor m) ∧ t.shared = s.shared := by
  induction n generalizing j s got with
  | zero =>
    have hmv := Move.returned (w := w) s.shared cs off got as
    have h' : s.gor i = ⟨cs, .take off [] got, as⟩ := h
    rw [← h'] at hmv
    refine ⟨_, .one i hmv, ?_, fun m hm => setAt_other _ _ hm, rfl⟩
    dsimp only
    rw [setAt_self]
    congr 4
    apply List.map_congr_left
    intro k hk
    exact hgot k (by have := List.mem_range.mp hk; omega)
  | succ n ih =>
    have hmv := Move.takeOut (w := w) s.shared cs off (List.range' j (n + 1)) got as j (by simp [List.range'_succ])
    rw [erase_range', ← h] at hmv
    obtain ⟨t, ht, g0, g1, g2⟩ := ih (j + 1) ⟨s.shared, setAt s.gor i ⟨cs, .take off (List.range' (j + 1) n) (setAt got j (s.shared.scratch j)), as⟩⟩
      (setAt got j (s.shared.scratch j)) (setAt_self _ _ _) (fun k hk => by
        by_cases e : k = j
        · subst e; exact setAt_self _ _ _
        · rw [setAt_other _ _ e]; exact hgot k (by omega)) (by omega)
    exact ⟨t, (Steps.one i hmv).trans ht, g0, fun m hm => by rw [g1 m hm]; exact setAt_other _ _ hm, g2⟩

/-- Goroutine `i` stores the scratch buffer without interruption. -/
theorem store_all {w : Nat} {i : Nat} {cs : List Call} {off : Nat} {v : Nat → UInt8} {as : List Answer} (n j : Nat) (s : Sys)
    (h : s.gor i = ⟨cs, .store off v (List.range' j n), as⟩) (hw : j + n = w) :
    ∃ t, Steps w s t ∧ t.gor i = ⟨cs, .idle, as ++ [.written off]⟩ ∧
      (∀ m, m ≠ i → t.gor m = s.gor m) ∧ t.shared.scratch = s.shared.scratch ∧ t.shared.length = max s.shared.length (off * w + w) ∧
      ∀ p, t.shared.byte p = if off * w + j ≤ p ∧ p < off * w + w then s.shared.scratch (p - off * w) else s.shared.byte p := by
  induction n generalizing j s with
  | zero =>
    have hmv := Move.stored (w := w) s.shared cs off v as
    have h' : s.gor i = ⟨cs, .store off v [], as⟩ := h
    rw [← h'] at hmv
    refine ⟨_, .one i hmv, setAt_self _ _ _, fun m hm => setAt_other _ _ hm, rfl, rfl, fun p => ?_⟩
    rw [if_neg (by omega)]
  | succ n ih =>
    have hmv := Move.storeByte (w := w) s.shared cs off v (List.range' j (n + 1)) as j (by simp [List.range'_succ])
    rw [erase_range', ← h] at hmv
    obtain ⟨t, ht, g0, g1, g2, g3, g4⟩ := ih (j + 1) ⟨_, setAt s.gor i ⟨cs, .store off v (List.range' (j + 1) n), as⟩⟩
      (setAt_self _ _ _) (by omega)
    refine ⟨t, (Steps.one i hmv).trans ht, g0, fun m hm => by rw [g1 m hm]; exact setAt_other _ _ hm, g2, g3, fun p => ?_⟩
    rw [g4 p]
    dsimp only
    by_cases e : p = off * w + j
    · subst e
      rw [if_neg (by omega), setAt_self, if_pos ⟨by omega, by omega⟩, Nat.add_sub_cancel_left]
    · rw [setAt_other _ _ e]
      by_cases e2 : off * w + (j + 1) ≤ p ∧ p < off * w + w
      · rw [if_pos e2, if_pos ⟨by omega, by omega⟩]
      · rw [if_neg e2, if_neg (by omega)]

theorem start_todo {w off len : Nat} (h : off * w + w ≤ len) : ((List.range w).filter fun k => off * w + k < len) = List.range' 0 w := by
  rw [← List.range_eq_range', List.filter_eq_self]
  intro k hk
  have := List.mem_range.mp hk
  simp
  omega

/-- **C107 fails.** One goroutine reads record `a` and another reads record `b`, once each. For any choice of bytes, the first can
get the chosen bytes from `b` and the others from `a`: all of `b`, or a record that is nowhere in the file. -/
theorem any_mix_can_come_back {w : Nat} {f : Shared} {a b : Nat} (ha : a * w + w ≤ f.length) (hb : b * w + w ≤ f.length)
    (mask : Nat → Bool) :
    ∃ s, Steps w (start f fun i => if i = 0 then [.read a] else if i = 1 then [.read b] else []) s ∧
      (s.gor 0).answers = [.record a ((List.range w).map fun k => if mask k then f.byte (b * w + k) else f.byte (a * w + k))] := by
  obtain ⟨s2, s1, r1, r2, r3, r4⟩ : ∃ t, Steps w (start f fun i => if i = 0 then [.read a] else if i = 1 then [.read b] else []) t ∧
      t.shared = f ∧ t.gor 0 = ⟨[], .fill a (List.range' 0 w), []⟩ ∧ t.gor 1 = ⟨[], .fill b (List.range' 0 w), []⟩ ∧
      ∀ i, 2 ≤ i → t.gor i = ⟨[], .idle, []⟩ := by
    have m0 := Move.startRead (w := w) f [] a []
    rw [start_todo ha] at m0
    have m1 := Move.startRead (w := w) f [] b []
    rw [start_todo hb] at m1
    refine ⟨_, (Steps.one 0 (s := start f fun i => if i = 0 then [.read a] else if i = 1 then [.read b] else []) m0).trans
      (.one 1 m1), rfl, rfl, rfl, fun i hi => ?_⟩
    dsimp only
    rw [setAt_other _ _ (by omega), setAt_other _ _ (by omega)]
    simp only [start]
    rw [if_neg (by omega), if_neg (by omega)]
  obtain ⟨t, ht, t0, _, _, tb, tl, ts⟩ := mix_fill (w := w) mask (byte := f.byte) (c0 := []) (c1 := []) (a0 := []) (a1 := [])
    (p0 := fun l => .fill a l) (p1 := fun l => .fill b l) (x := fun k => f.byte (a * w + k)) (y := fun k => f.byte (b * w + k))
    (fun s j n hs hg => by have := move_in (w := w) hg; rw [hs] at this; exact this)
    (fun s j n hs hg => by have := move_in (w := w) hg; rw [hs] at this; exact this)
    w 0 s2 (by rw [r1]) r2 r3
  rw [r1] at tl
  have hmv := Move.filled (w := w) t.shared [] a [] (by rw [tl]; exact ha)
  rw [← t0] at hmv
  obtain ⟨u, hu, u0, _, _⟩ := take_all (w := w) (i := 0) (cs := []) (off := a) (as := []) w 0
    ⟨t.shared, setAt t.gor 0 ⟨[], .take a (List.range w) (fun _ => 0), []⟩⟩ (fun _ => 0)
    (by dsimp only; rw [setAt_self, List.range_eq_range']) (by omega) (by omega)
  refine ⟨u, ((s1.trans ht).trans (.one 0 hmv)).trans hu, ?_⟩
  rw [u0]
  simp only [List.nil_append, List.cons.injEq, and_true, Answer.record.injEq, true_and]
  apply List.map_congr_left
  intro k hk
  rw [ts k, if_pos ⟨by omega, by have := List.mem_range.mp hk; omega⟩]

/-- **C107 fails.** One goroutine writes a record at `a` while another reads record `b`. For any choice of bytes, the file can end
up with the chosen bytes of `b` in the record written, both calls having returned without an error. -/
theorem a_reader_can_spoil_a_write {w : Nat} {f : Shared} {a b : Nat} (hb : b * w + w ≤ f.length) (v : Nat → UInt8)
    (mask : Nat → Bool) :
    ∃ s, Steps w (start f fun i => if i = 0 then [.write a v] else if i = 1 then [.read b] else []) s ∧
      (∀ i, (s.gor i).phase = .idle ∧ (s.gor i).calls = []) ∧ (s.gor 0).answers = [.written a] ∧
      (∃ r, (s.gor 1).answers = [.record b r]) ∧
      ∀ k < w, s.shared.byte (a * w + k) = if mask k then f.byte (b * w + k) else v k := by
  obtain ⟨s2, s1, r1, r2, r3, r4⟩ : ∃ t, Steps w (start f fun i => if i = 0 then [.write a v] else if i = 1 then [.read b] else []) t ∧
      t.shared = f ∧ t.gor 0 = ⟨[], .put a v (List.range' 0 w), []⟩ ∧ t.gor 1 = ⟨[], .fill b (List.range' 0 w), []⟩ ∧
      ∀ i, 2 ≤ i → t.gor i = ⟨[], .idle, []⟩ := by
    have m0 := Move.startWrite (w := w) f [] a v []
    rw [List.range_eq_range'] at m0
    have m1 := Move.startRead (w := w) f [] b []
    rw [start_todo hb] at m1
    refine ⟨_, (Steps.one 0 (s := start f fun i => if i = 0 then [.write a v] else if i = 1 then [.read b] else []) m0).trans
      (.one 1 m1), rfl, rfl, rfl, fun i hi => ?_⟩
    dsimp only
    rw [setAt_other _ _ (by omega), setAt_other _ _ (by omega)]
    simp only [start]
    rw [if_neg (by omega), if_neg (by omega)]
  obtain ⟨t, ht, t0, t1, t2, tb, tl, ts⟩ := mix_fill (w := w) mask (byte := f.byte) (c0 := []) (c1 := []) (a0 := []) (a1 := [])
    (p0 := fun l => .put a v l) (p1 := fun l => .fill b l) (x := v) (y := fun k => f.byte (b * w + k))
    (fun s j n hs hg => move_put (w := w) hg)
    (fun s j n hs hg => by have := move_in (w := w) hg; rw [hs] at this; exact this)
    w 0 s2 (by rw [r1]) r2 r3
  rw [r1] at tl
  have hmv := Move.putDone (w := w) t.shared [] a v []
  rw [← t0] at hmv
  obtain ⟨u, hu, u0, u1, us, ul, ub⟩ := store_all (w := w) (i := 0) (cs := []) (off := a) (v := v) (as := []) w 0
    ⟨t.shared, setAt t.gor 0 ⟨[], .store a v (List.range w), []⟩⟩ (by dsimp only; rw [setAt_self, List.range_eq_range']) (by omega)
  have h1 : u.gor 1 = ⟨[], .fill b [], []⟩ := by rw [u1 1 (by omega)]; dsimp only; rw [setAt_other _ _ (by omega), t1]
  have hmv2 := Move.filled (w := w) u.shared [] b [] (by rw [ul]; dsimp only; rw [tl]; exact Nat.le_trans hb (Nat.le_max_left _ _))
  rw [← h1] at hmv2
  obtain ⟨x, hx, x1, x2, xs⟩ := take_all (w := w) (i := 1) (cs := []) (off := b) (as := []) w 0
    ⟨u.shared, setAt u.gor 1 ⟨[], .take b (List.range w) (fun _ => 0), []⟩⟩ (fun _ => 0)
    (by dsimp only; rw [setAt_self, List.range_eq_range']) (by omega) (by omega)
  have x0 : x.gor 0 = ⟨[], .idle, [] ++ [.written a]⟩ := by
    rw [x2 0 (by omega)]; dsimp only; rw [setAt_other _ _ (by omega), u0]
  refine ⟨x, ((((s1.trans ht).trans (.one 0 hmv)).trans hu).trans (.one 1 hmv2)).trans hx, fun i => ?_, by rw [x0]; rfl,
    ⟨_, by rw [x1]; rfl⟩, fun k hk => ?_⟩
  · match i with
    | 0 => rw [x0]; exact ⟨rfl, rfl⟩
    | 1 => rw [x1]; exact ⟨rfl, rfl⟩
    | i + 2 =>
      rw [x2 _ (by omega)]; dsimp only
      rw [setAt_other _ _ (by omega), u1 _ (by omega)]; dsimp only
      rw [setAt_other _ _ (by omega), t2 _ (by omega), r4 _ (by omega)]
      exact ⟨rfl, rfl⟩
  · rw [xs]
    dsimp only
    rw [ub, if_pos ⟨by omega, by omega⟩, Nat.add_sub_cancel_left]
    dsimp only
    rw [ts k, if_pos ⟨by omega, by omega⟩]

/-! ## Examples -/

/-- A file of two words of two bytes, 0x0101 and 0x0202. -/
def two : Shared := ⟨fun p => if p < 2 then 1 else if p < 4 then 2 else 0, 4, fun _ => 0⟩

-- one goroutine asks for the first word and can get 0x0201, which is not in the file
example : ∃ s, Steps 2 (start two fun i => if i = 0 then [.read 0] else if i = 1 then [.read 1] else []) s ∧
    (s.gor 0).answers = [.record 0 [1, 2]] :=
  any_mix_can_come_back (w := 2) (f := two) (a := 0) (b := 1) (by decide) (by decide) (fun k => k == 1)
example : (serve 2 (two.byte, two.length) (.read 0)).2 = .record 0 [1, 1] := by decide
example : Locked 2 (start two fun i => if i = 0 then [.read 7] else [])
    ⟨two, setAt (setAt (start two fun i => if i = 0 then [.read 7] else []).gor 0 ⟨[], .fill 7 [], []⟩) 0 ⟨[], .idle, [.failed 7]⟩⟩ :=
  .tail _ _ _ 0 (.tail _ _ _ 0 (.refl _) (.mk _ _ _ (.startRead two [] 7 [])) (fun j hj => rfl))
    (.mk _ _ _ (.endOfFile two [] 7 [] (by decide))) (fun j hj => by simp [setAt, hj, start])
example : ∀ i, ∀ c ∈ (fun i => if i = 0 then [Call.read 0] else if i = 1 then [Call.read 1] else []) i, c.isRead = true := by
  intro i c hc
  match i with
  | 0 => simp at hc; rw [hc]; rfl
  | 1 => simp at hc; rw [hc]; rfl
  | i + 2 => simp at hc

end Verif.SharedFile
