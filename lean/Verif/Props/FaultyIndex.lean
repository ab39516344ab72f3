import Verif.Model.FaultyIndex
import Verif.Props.Uniform
import Verif.Props.SelfTest3
import Verif.Props.Reindex3

/-! # C125: a pass over the file of hashes reads all of it or says so

`none ∉ reads` says that no read fails (though reads may be short). `badAt n` are the reads of a file with a place that cannot be
read after `n` chunks. -/

namespace Verif.FaultyIndex

open Bins HashStores WordFile

/-- The reads of a file of which the chunk number `n` cannot be read. -/
def badAt (n : Nat) : Reads := List.replicate n (some 4095) ++ [none]

/-! ## Chunks -/

theorem take_self (n : Nat) (file : Bytes) : file.take n = file.take (file.take n).length := by
  rw [List.length_take]
  rcases Nat.le_total n file.length with h | h
  · rw [Nat.min_eq_left h]
  · rw [Nat.min_eq_right h, List.take_length, List.take_of_length_le h]

theorem read_take (size : Nat) (reads : Reads) (file : Bytes) :
    (read size reads file).1 = file.take (read size reads file).1.length := by
  unfold read
  split
  · exact take_self _ _
  · rfl
  · exact take_self _ _

theorem chunk_take (reads : Reads) (file : Bytes) : chunkOf reads file = file.take (chunkOf reads file).length :=
  read_take _ _ _

theorem chunk_length (reads : Reads) (file : Bytes) : (chunkOf reads file).length ≤ file.length := by
  rw [chunk_take, List.length_take]
  omega

theorem chunk_none {reads : Reads} {file : Bytes} (h : chunkOf reads file = []) (hr : none ∉ reads) : file = [] := by
  unfold chunkOf read at h
  split at h
  · simpa using h
  · simp at hr
  · rcases List.take_eq_nil_iff.mp h with h | h
    · omega
    · exact h

theorem tail_none {reads : Reads} (hr : none ∉ reads) : none ∉ reads.tail := fun h => hr (List.mem_of_mem_tail h)

theorem split_take (reads : Reads) (file : Bytes) (m : Nat) :
    file.take ((chunkOf reads file).length + m) = chunkOf reads file ++ (file.drop (chunkOf reads file).length).take m := by
  rw [List.take_add, ← chunk_take]

theorem dealChunk_append (d : Nat) (p : Uniform.Pass) (i : Nat) {a b : Bytes} (hm : a.length % 32 = 0) :
    Uniform.dealChunk d (Uniform.dealChunk d p i a) (i + a.length / 32) b = Uniform.dealChunk d p i (a ++ b) := by
  rw [Uniform.dealChunk_list, Uniform.dealChunk_list, Uniform.dealChunk_list, ← List.foldl_append]
  congr 1
  have hl : (a ++ b).length / 32 = a.length / 32 + b.length / 32 := by
    rw [List.length_append]
    omega
  rw [hl, List.range_add, List.map_append, List.map_map]
  congr 1
  · apply List.map_congr_left
    intro k hk
    have hk := List.mem_range.mp hk
    congr 1
    unfold slice
    rw [List.drop_append_of_le_length (by omega), List.take_append_of_le_length (by rw [List.length_drop]; omega)]
  · apply List.map_congr_left
    intro k _
    simp only [Function.comp]
    congr 1
    · omega
    · unfold slice
      rw [List.drop_append, List.drop_eq_nil_of_le (as := a) (by omega), List.nil_append]
      congr 2
      omega

/-! ## Indexing -/

theorem readIn_prefix {d : Nat} {p p' : Uniform.Pass} {i : Nat} {reads : Reads} {file : Bytes} (h : readIn d p i reads file = some p') :
    ∃ m, m ≤ file.length ∧ m % 32 = 0 ∧ Uniform.readIn d p i (file.take m) = some p' ∧ (none ∉ reads → m = file.length) := by
  fun_induction readIn d p i reads file with
  | case1 p i reads file hc =>
    injection h with h
    subst h
    refine ⟨0, by omega, by omega, ?_, ?_⟩
    · rw [List.take_zero, Uniform.readIn_eq d p i (by simp)]
      rfl
    · intro hr
      rw [chunk_none hc hr]
      rfl
  | case2 => cases h
  | case3 p i reads file hc hm ih =>
    obtain ⟨m, h1, h2, h3, h4⟩ := ih h
    have hl := chunk_length reads file
    rw [List.length_drop] at h1 h4
    refine ⟨(chunkOf reads file).length + m, by omega, by omega, ?_, ?_⟩
    · rw [Uniform.readIn_eq _ _ _ (by rw [List.length_take, List.length_drop]; omega), dealChunk_append _ _ _ (by omega),
        ← split_take] at h3
      rw [Uniform.readIn_eq _ _ _ (by rw [List.length_take]; omega), h3]
    · intro hr
      have := h4 (tail_none hr)
      omega

theorem passes_all {reads : Nat → Reads} (hr : ∀ k, none ∉ reads k) {per big : Nat} : ∀ (n : Nat) (s s' : Uniform.Store) (pass : Nat),
    passes reads per big s pass n = some s' → Uniform.passes per big s pass n = some s' := by
  intro n
  induction n with
  | zero => intro s s' pass h; exact h
  | succ n ih =>
    intro s s' pass h
    unfold passes at h
    unfold Uniform.passes
    dsimp only at h ⊢
    generalize hc : (if pass * per + per > big then big - pass * per else per) = count at h ⊢
    unfold onePass at h
    unfold Uniform.onePass
    cases hp : readIn s.divider (Uniform.newPass (pass * per) count) 0 (reads pass) s.hashes with
    | none => rw [hp] at h; cases h
    | some p =>
      rw [hp] at h
      obtain ⟨m, _, _, h3, h4⟩ := readIn_prefix hp
      rw [h4 (hr pass), List.take_length] at h3
      rw [h3]
      exact ih _ _ _ h

/-- C125: if no read fails, then indexing that returns nil has indexed the whole file, however short the reads were: it left what
indexing with full reads leaves. -/
theorem nil_means_indexed_partial {reads : Nat → Reads} (hr : ∀ pass, none ∉ reads pass) {big grant : Nat} {s s' : Uniform.Store}
    (h : indexTheHashes reads big grant s = .ok s') : Uniform.indexTheHashes big grant s = .ok s' := by
  unfold indexTheHashes at h
  unfold Uniform.indexTheHashes
  dsimp only at h ⊢
  by_cases hp : grant / 832 = 0
  · rw [if_pos hp] at h
    cases h
  rw [if_neg hp] at h ⊢
  split at h
  · cases h
  · next t ht =>
    injection h with h
    subst h
    rw [passes_all hr _ _ _ _ ht]

theorem chunk_whole {reads : Reads} {file : Bytes} (hr : ∀ r ∈ reads, ∃ k, r = some (32 * k + 31)) (hm : file.length % 32 = 0) :
    (chunkOf reads file).length % 32 = 0 := by
  unfold chunkOf read
  split
  · rw [List.length_take]; omega
  · rfl
  · obtain ⟨k, hk⟩ := hr _ (List.mem_cons_self ..)
    injection hk with hk
    rw [List.length_take]
    omega

theorem readIn_whole (d : Nat) (p : Uniform.Pass) (i : Nat) {reads : Reads} {file : Bytes} (hr : ∀ r ∈ reads, ∃ k, r = some (32 * k + 31))
    (hm : file.length % 32 = 0) : readIn d p i reads file = Uniform.readIn d p i file := by
  rw [Uniform.readIn_eq _ _ _ hm]
  fun_induction readIn d p i reads file with
  | case1 p i reads file hc =>
    rw [chunk_none hc (fun h => by obtain ⟨k, hk⟩ := hr _ h; cases hk)]
    rfl
  | case2 p i reads file hc h =>
    exact absurd (chunk_whole hr hm) h
  | case3 p i reads file hc h ih =>
    have hl := chunk_length reads file
    rw [ih (fun r h => hr r (List.mem_of_mem_tail h)) (by rw [List.length_drop]; omega), dealChunk_append _ _ _ (by omega)]
    congr 2
    have h2 := chunk_take reads file
    generalize (chunkOf reads file).length = c at h2 ⊢
    rw [h2]
    exact List.take_append_drop _ _

theorem passes_whole {reads : Nat → Reads} (hr : ∀ pass, ∀ r ∈ reads pass, ∃ k, r = some (32 * k + 31)) {per big : Nat} :
    ∀ (n : Nat) (s : Uniform.Store) (pass : Nat), s.hashes.length % 32 = 0 →
    passes reads per big s pass n = Uniform.passes per big s pass n := by
  intro n
  induction n with
  | zero => intro s pass _; rfl
  | succ n ih =>
    intro s pass hm
    unfold passes Uniform.passes
    dsimp only
    generalize hc : (if pass * per + per > big then big - pass * per else per) = count
    unfold onePass Uniform.onePass
    rw [readIn_whole _ _ _ (hr pass) hm]
    cases Uniform.readIn s.divider (Uniform.newPass (pass * per) count) 0 s.hashes with
    | none => rfl
    | some p => exact ih _ _ hm

/-- C125: reads that give whole hashes, in particular full reads, index a file of whole hashes as before. -/
theorem whole_reads_index {reads : Nat → Reads} (hr : ∀ pass, ∀ r ∈ reads pass, ∃ k, r = some (32 * k + 31)) {big grant : Nat}
    {s : Uniform.Store} (hm : s.hashes.length % 32 = 0) :
    indexTheHashes reads big grant s = Uniform.indexTheHashes big grant s := by
  unfold indexTheHashes Uniform.indexTheHashes
  dsimp only
  rw [passes_whole hr (s := { s with binStarts := some (zeros (832 * big)) }) _ _ hm]
  rfl

theorem badAt_zero (file : Bytes) : chunkOf (badAt 0) file = [] := rfl

theorem badAt_succ (n : Nat) (file : Bytes) : chunkOf (badAt (n + 1)) file = file.take 4096 := rfl

theorem badAt_tail (n : Nat) : (badAt (n + 1)).tail = badAt n := rfl

theorem readIn_bad (d : Nat) : ∀ (n : Nat) (p : Uniform.Pass) (i : Nat) (file : Bytes), 4096 * n ≤ file.length →
    readIn d p i (badAt n) file = Uniform.readIn d p i (file.take (4096 * n)) := by
  intro n
  induction n with
  | zero =>
    intro p i file _
    unfold readIn
    rw [dif_pos (badAt_zero file), Nat.mul_zero, List.take_zero, Uniform.readIn_eq _ _ _ (by simp)]
    rfl
  | succ n ih =>
    intro p i file h
    have hl : (chunkOf (badAt (n + 1)) file).length = 4096 := by
      rw [badAt_succ, List.length_take]
      omega
    unfold readIn
    rw [dif_neg (fun e => by rw [e] at hl; cases hl), if_neg (by omega), badAt_tail,
      ih _ _ _ (by rw [List.length_drop]; omega),
      Uniform.readIn_eq _ _ _ (by rw [List.length_take, List.length_drop]; omega), dealChunk_append _ _ _ (by omega),
      ← split_take, hl, Uniform.readIn_eq _ _ _ (by rw [List.length_take]; omega),
      show 4096 + 4096 * n = 4096 * (n + 1) by omega]

theorem passes_bad {per big n : Nat} : ∀ (k : Nat) (s : Uniform.Store) (pass : Nat), 4096 * n ≤ s.hashes.length →
    passes (fun _ => badAt n) per big s pass k =
      (Uniform.passes per big { s with hashes := s.hashes.take (4096 * n) } pass k).map fun t => { t with hashes := s.hashes } := by
  intro k
  induction k with
  | zero => intro s pass _; rfl
  | succ k ih =>
    intro s pass h
    unfold passes Uniform.passes
    dsimp only
    generalize hc : (if pass * per + per > big then big - pass * per else per) = count
    unfold onePass Uniform.onePass
    dsimp only
    rw [readIn_bad _ _ _ _ _ h]
    cases hp : Uniform.readIn s.divider (Uniform.newPass (pass * per) count) 0 (s.hashes.take (4096 * n)) with
    | none => rfl
    | some p => exact ih _ _ h

theorem kept_more {t : Uniform.Store} {big : Nat} {more : Bytes} (hs : Uniform.Stored t big big) (hlen : t.hashes.length < 2 ^ 63) :
    Uniform.Kept { t with hashes := t.hashes ++ more } big (Uniform.binOf t) := by
  obtain ⟨h1, h2, h3, h4, h5⟩ := Uniform.kept_stored hs hlen
  refine ⟨h1, h2, ?_, h4, h5⟩
  intro k hk e he
  have := h3 k hk e he
  unfold Uniform.getHashAtIndex readAt at this ⊢
  dsimp only
  split at this
  · next hle =>
    rw [if_pos (by rw [List.length_append]; omega), ← this]
    congr 1
    rw [List.drop_append_of_le_length (by omega), List.take_append_of_le_length (by rw [List.length_drop]; omega)]
  · cases this

/-- C125, against the code: a place in the file of hashes that cannot be read, after any number of chunks, is taken for the end of
the file. Indexing returns nil, and a hash that is only after it is looked up as 'not there', though it is in the file. -/
theorem a_bad_place_hides_the_rest {big grant n : Nat} {s : Uniform.Store} (hd : 0 < s.digits) (hg : 832 ≤ grant)
    (hbig : 832 * big < 2 ^ 63) (hlen : s.hashes.length < 2 ^ 63) (hn : 4096 * n ≤ s.hashes.length) :
    ∃ s', indexTheHashes (fun _ => badAt n) big grant s = .ok s' ∧ s'.hashes = s.hashes ∧
      ∀ h, Uniform.address s.divider h < big →
        Uniform.indexOfHash s' h = .ok ((recs 32 (s.hashes.take (4096 * n))).idxOf? h) := by
  have hl : (s.hashes.take (4096 * n)).length = 4096 * n := by
    rw [List.length_take]
    omega
  obtain ⟨t, e1, e2, e3, e4, e5, h1⟩ := Uniform.index_stored (big := big) (grant := grant)
    (s := { s with hashes := s.hashes.take (4096 * n) }) hd (by rw [hl]; omega) hg
  dsimp only at e2 e3 e4 e5
  refine ⟨{ t with hashes := s.hashes }, ?_, rfl, ?_⟩
  · unfold Uniform.indexTheHashes at e1
    unfold indexTheHashes
    dsimp only at e1 ⊢
    rw [if_neg (by omega)] at e1 ⊢
    rw [passes_bad (s := { s with binStarts := some (zeros (832 * big)) }) _ _ hn]
    dsimp only
    split at e1
    · cases e1
    · next t' ht =>
      injection e1 with e1
      subst e1
      rw [ht]
      rfl
  · intro h ha
    have hk := kept_more (more := s.hashes.drop (4096 * n)) h1 (by rw [e4, hl]; omega)
    rw [show ({ t with hashes := t.hashes ++ s.hashes.drop (4096 * n) } : Uniform.Store) = { t with hashes := s.hashes } by
      rw [e4, List.take_append_drop]] at hk
    have hlk := Uniform.lookup_kept hk hbig (h := h) (by dsimp only; rw [e2]; exact ha)
    dsimp only at hlk
    rw [hlk, Uniform.binOf_first, e4]

/-! ## The self-test -/

theorem cut_whole {a : Bytes} (h : a.length % 32 = 0) : (SelfTest3.cut a).flatten = a ∧ (∀ x ∈ SelfTest3.cut a, x.length = 32) ∧
    (SelfTest3.cut a).length = a.length / 32 := by
  obtain ⟨L, h1, h2⟩ := SelfTest3.whole h
  have h3 : SelfTest3.cut a = L := by rw [h1]; exact SelfTest3.cut_flatten h2
  refine ⟨by rw [h3, ← h1], by rw [h3]; exact h2, ?_⟩
  unfold SelfTest3.cut
  simp

theorem loop_cut {fl : Rat → Rat} {p : Params} {s : HashStore3.Store} {i : Nat} {data : Bytes} (h : data.length % 32 = 0) :
    SelfTest3.testLoop fl p s i data =
      (SelfTest3.testHashes fl p s i (SelfTest3.cut data)).map fun x => ⟨x.2.1, x.2.2.getD .passed⟩ := by
  have := SelfTest3.loop_eq (fl := fl) (p := p) _ (SelfTest3.cut data) i s rfl (cut_whole h).2.1
  rwa [(cut_whole h).1] at this

theorem cut_append {a b : Bytes} (ha : a.length % 32 = 0) (hb : b.length % 32 = 0) :
    SelfTest3.cut (a ++ b) = SelfTest3.cut a ++ SelfTest3.cut b := by
  have h := SelfTest3.cut_flatten (L := SelfTest3.cut a ++ SelfTest3.cut b) (by
    intro x hx
    rcases List.mem_append.mp hx with hx | hx
    · exact (cut_whole ha).2.1 x hx
    · exact (cut_whole hb).2.1 x hx)
  rwa [List.flatten_append, (cut_whole ha).1, (cut_whole hb).1] at h

/-- Testing a chunk and then the rest is testing all. -/
theorem loop_chunk {fl : Rat → Rat} {p : Params} {s : HashStore3.Store} {i : Nat} {a b : Bytes} (ha : a.length % 32 = 0)
    (hb : b.length % 32 = 0) :
    SelfTest3.testLoop fl p s i (a ++ b) =
      match SelfTest3.testHashes fl p s i (SelfTest3.cut a) with
      | none => none
      | some (_, r, some v) => some ⟨r, v⟩
      | some (s1, r, none) => (SelfTest3.testLoop fl p s1 (i + a.length / 32) b).map fun x => ⟨r ++ x.remarks, x.verdict⟩ := by
  rw [loop_cut (by rw [List.length_append]; omega), cut_append ha hb, SelfTest3.testHashes_append]
  rcases SelfTest3.testHashes fl p s i (SelfTest3.cut a) with _ | ⟨s1, r, _ | v⟩
  · rfl
  · dsimp only [Option.bind_some]
    rw [loop_cut hb, (cut_whole ha).2.2, Option.map_map, Option.map_map]
    rfl
  · rfl

theorem testLoop_prefix {fl : Rat → Rat} {p : Params} {s : HashStore3.Store} {i : Nat} {reads : Reads} {rest : Bytes}
    {r : List SelfTest3.Remark} (h : testLoop fl p s i reads rest = some ⟨r, .passed⟩) :
    ∃ m, m ≤ rest.length ∧ m % 32 = 0 ∧ SelfTest3.testLoop fl p s i (rest.take m) = some ⟨r, .passed⟩ ∧
      (none ∉ reads → m = rest.length) := by
  fun_induction testLoop fl p s i reads rest generalizing r with
  | case1 s i reads rest hc =>
    refine ⟨0, by omega, by omega, ?_, ?_⟩
    · rw [← h]
      unfold SelfTest3.testLoop
      simp
    · intro hr
      rw [chunk_none hc hr]
      rfl
  | case2 => cases h
  | case3 => cases h
  | case4 s i reads rest hc hm _ r' v hv =>
    injection h with h
    injection h with _ h
    subst h
    exact absurd hv (SelfTest3.never_passed _ _ _ _ _)
  | case5 s i reads rest hc hm s1 r' hv ih =>
    obtain ⟨x, hx, hxr⟩ := Option.map_eq_some_iff.mp h
    injection hxr with h1 h2
    obtain ⟨m, g1, g2, g3, g4⟩ := ih (r := x.remarks) (by rw [hx, ← h2])
    have hl := chunk_length reads rest
    rw [List.length_drop] at g1 g4
    refine ⟨(chunkOf reads rest).length + m, by omega, by omega, ?_, ?_⟩
    · rw [split_take, loop_chunk (by omega) (by rw [List.length_take, List.length_drop]; omega), hv]
      dsimp only
      rw [g3, Option.map_some, h1]
    · intro hr
      have := g4 (tail_none hr)
      omega

/-- C125: if no read fails, a self-test that passes has tested the whole file, however short the reads were: with the same lines
printed, the self-test with full reads passes too. -/
theorem passed_means_tested_partial {fl : Rat → Rat} {p : Params} {nums : Bytes} {f : Files} {reads : Reads} {hashes : Bytes}
    {r : List SelfTest3.Remark} (hr : none ∉ reads) (h : testTheHashes fl p nums f reads hashes = some ⟨r, .passed⟩) :
    SelfTest3.testTheHashes fl p nums f hashes = some ⟨r, .passed⟩ := by
  unfold testTheHashes at h
  unfold SelfTest3.testTheHashes
  split at h
  · cases h
  · next s hs =>
    obtain ⟨m, _, _, h3, h4⟩ := testLoop_prefix h
    rw [h4 hr, List.take_length] at h3
    rw [hs]
    exact h3

theorem testLoop_whole {fl : Rat → Rat} {p : Params} (s : HashStore3.Store) (i : Nat) {reads : Reads} {rest : Bytes}
    (hr : ∀ r ∈ reads, ∃ k, r = some (32 * k + 31)) (hm : rest.length % 32 = 0) :
    testLoop fl p s i reads rest = SelfTest3.testLoop fl p s i rest := by
  induction hn : rest.length using Nat.strongRecOn generalizing s i reads rest with
  | ind n ih =>
    by_cases hc : chunkOf reads rest = []
    · have : rest = [] := chunk_none hc (fun h => by obtain ⟨k, hk⟩ := hr _ h; cases hk)
      unfold testLoop SelfTest3.testLoop
      rw [dif_pos hc, dif_pos this]
    · have hw : (chunkOf reads rest).length % 32 = 0 := chunk_whole hr hm
      have hl := chunk_length reads rest
      have h2 := split_take reads rest (rest.length - (chunkOf reads rest).length)
      rw [show (chunkOf reads rest).length + (rest.length - (chunkOf reads rest).length) = rest.length by omega, List.take_length,
        List.take_of_length_le (by rw [List.length_drop])] at h2
      rw [show SelfTest3.testLoop fl p s i rest = SelfTest3.testLoop fl p s i
          (chunkOf reads rest ++ rest.drop (chunkOf reads rest).length) by rw [← h2],
        loop_chunk hw (by rw [List.length_drop]; omega)]
      unfold testLoop
      rw [dif_neg hc, if_neg (by omega)]
      rcases SelfTest3.testHashes fl p s i (SelfTest3.cut (chunkOf reads rest)) with _ | ⟨s1, r, _ | v⟩
      · rfl
      · dsimp only
        rw [ih _ (by rw [← hn]; exact shrinks hc) _ _ (fun r h => hr r (List.mem_of_mem_tail h))
          (by rw [List.length_drop]; omega) rfl]
      · rfl

/-- C125: reads that give whole hashes, in particular full reads, test a file of whole hashes as before. -/
theorem whole_reads_test {fl : Rat → Rat} {p : Params} {nums : Bytes} {f : Files} {reads : Reads} {hashes : Bytes}
    (hr : ∀ r ∈ reads, ∃ k, r = some (32 * k + 31)) (hm : hashes.length % 32 = 0) :
    testTheHashes fl p nums f reads hashes = SelfTest3.testTheHashes fl p nums f hashes := by
  unfold testTheHashes SelfTest3.testTheHashes
  cases HashStore3.openStore p nums f false with
  | none => rfl
  | some s => exact testLoop_whole _ _ hr hm

theorem testLoop_bad {fl : Rat → Rat} {p : Params} : ∀ (n : Nat) (s : HashStore3.Store) (i : Nat) (rest : Bytes),
    4096 * n ≤ rest.length → testLoop fl p s i (badAt n) rest = SelfTest3.testLoop fl p s i (rest.take (4096 * n)) := by
  intro n
  induction n with
  | zero =>
    intro s i rest _
    unfold testLoop SelfTest3.testLoop
    rw [dif_pos (badAt_zero rest), dif_pos (by simp)]
  | succ n ih =>
    intro s i rest h
    have hl : (chunkOf (badAt (n + 1)) rest).length = 4096 := by
      rw [badAt_succ, List.length_take]
      omega
    have hs := split_take (badAt (n + 1)) rest (4096 * n)
    rw [hl, show 4096 + 4096 * n = 4096 * (n + 1) by omega] at hs
    rw [hs, loop_chunk (by omega) (by rw [List.length_take, List.length_drop]; omega)]
    unfold testLoop
    rw [dif_neg (fun e => by rw [e] at hl; cases hl), if_neg (by omega), badAt_tail, hl]
    rcases SelfTest3.testHashes fl p s i (SelfTest3.cut (chunkOf (badAt (n + 1)) rest)) with _ | ⟨s1, r, _ | v⟩
    · rfl
    · dsimp only
      rw [ih _ _ _ (by rw [List.length_drop]; omega)]
    · rfl

/-- C125, against the code: the self-test too takes a place that cannot be read for the end of the file. What it says is what it
would say of the hashes before that place. -/
theorem a_self_test_skips_the_rest {fl : Rat → Rat} {p : Params} {nums : Bytes} {f : Files} {n : Nat} {hashes : Bytes}
    (hn : 4096 * n ≤ hashes.length) :
    testTheHashes fl p nums f (badAt n) hashes = SelfTest3.testTheHashes fl p nums f (hashes.take (4096 * n)) := by
  unfold testTheHashes SelfTest3.testTheHashes
  cases HashStore3.openStore p nums f false with
  | none => rfl
  | some s => exact testLoop_bad _ _ _ _ hn

/-- C125, against the code: if the file of hashes cannot be read at all, the self-test of any store that opens passes, without a
line printed, whatever is in its bins. -/
theorem an_unreadable_file_passes {fl : Rat → Rat} {p : Params} {nums : Bytes} {f : Files} {s : HashStore3.Store}
    (ho : HashStore3.openStore p nums f false = some s) (hashes : Bytes) :
    testTheHashes fl p nums f [none] hashes = some ⟨[], .passed⟩ := by
  unfold testTheHashes
  rw [ho]
  dsimp only
  unfold testLoop
  rw [dif_pos (show chunkOf [none] hashes = [] from rfl)]

/-! ## Reading hash by hash -/

theorem readHashes_all (buf : Bytes) (reads : Reads) (file : Bytes) {L : List Bytes} (h : readHashes buf reads file = some L) :
    buf ++ file = L.flatten ∧ ∀ x ∈ L, x.length = 32 := by
  fun_induction readHashes buf reads file generalizing L with
  | case1 buf reads file hb ih =>
    obtain ⟨M, hM, rfl⟩ := Option.map_eq_some_iff.mp h
    obtain ⟨h1, h2⟩ := ih hM
    refine ⟨?_, ?_⟩
    · rw [List.flatten_cons, ← h1, ← List.append_assoc, List.take_append_drop]
    · intro x hx
      rcases List.mem_cons.mp hx with rfl | hx
      · rw [List.length_take]; omega
      · exact h2 x hx
  | case2 => cases h
  | case3 reads file hr he _ =>
    injection h with h
    subst h
    refine ⟨?_, by simp⟩
    unfold read at he hr
    split at he
    · simpa using he
    · cases hr rfl
    · rcases List.take_eq_nil_iff.mp he with he | he
      · omega
      · simp [he]
  | case4 => cases h
  | case5 buf reads file hb hr he ih =>
    obtain ⟨h1, h2⟩ := ih h
    refine ⟨?_, h2⟩
    rw [← h1, List.append_assoc]
    congr 1
    have := read_take 8388608 reads file
    conv_lhs => rw [← List.take_append_drop (read 8388608 reads file).1.length file, ← this]

/-- C125: the loop of the bulk indexer that reads hash by hash has, whatever becomes of its reads, read the whole file if it comes to
an end without an error: the hashes are those of the file, as with reads that never fail. -/
theorem hash_by_hash_reads_all {reads : Reads} {file : Bytes} {L : List Bytes} (h : readHashes [] reads file = some L) :
    L.flatten = file ∧ (∀ x ∈ L, x.length = 32) ∧ Reindex3.readFullLoop file = some L := by
  obtain ⟨h1, h2⟩ := readHashes_all [] reads file h
  rw [List.nil_append] at h1
  exact ⟨h1.symm, h2, by rw [h1]; exact Reindex3.readFullLoop_whole L h2⟩

theorem readHashes_ends (buf : Bytes) (reads : Reads) (file : Bytes) (hr : none ∉ reads) (hm : (buf.length + file.length) % 32 = 0) :
    (readHashes buf reads file).isSome := by
  fun_induction readHashes buf reads file with
  | case1 buf reads file hb ih =>
    rw [Option.isSome_map]
    exact ih hr (by rw [List.length_drop]; omega)
  | case2 buf reads file hb he =>
    unfold read at he
    split at he
    · cases he
    · simp at hr
    · cases he
  | case3 => rfl
  | case4 buf reads file hb hn he hne =>
    have h0 : file = [] := by
      unfold read at he
      split at he
      · simpa using he
      · simp at hr
      · rcases List.take_eq_nil_iff.mp he with h | h
        · omega
        · exact h
    rw [h0, List.length_nil] at hm
    exact absurd (List.length_eq_zero_iff.mp (by omega)) hne
  | case5 buf reads file hb hn he ih =>
    have h1 := congrArg List.length (read_take 8388608 reads file)
    rw [List.length_take] at h1
    exact ih (tail_none hr) (by rw [List.length_append, List.length_drop]; omega)

/-- C125: if no read fails and the file is whole hashes, that loop reads it, however short the reads are. -/
theorem hash_by_hash_reads {reads : Reads} {file : Bytes} (hr : none ∉ reads) (hm : file.length % 32 = 0) :
    ∃ L, readHashes [] reads file = some L ∧ Reindex3.readFullLoop file = some L := by
  obtain ⟨L, hL⟩ := Option.isSome_iff_exists.mp (readHashes_ends [] reads file hr (by rw [List.length_nil]; omega))
  exact ⟨L, hL, (hash_by_hash_reads_all hL).2.2⟩

/-! ## Instances -/

/-- Short reads that do not fail. -/
example : ∃ s', indexTheHashes (fun _ => [some 63, some 31]) 4 832 Uniform.sample = .ok s' ∧
    Uniform.indexTheHashes 4 832 Uniform.sample = .ok s' ∧ Uniform.indexOfHash s' (List.replicate 32 200) = .ok (some 1) := by
  obtain ⟨s', h, _⟩ := (Uniform.indexing_succeeds (big := 4) (grant := 832) (s := Uniform.sample) (by decide) (by decide)).1 (by decide)
  have h' : indexTheHashes (fun _ => [some 63, some 31]) 4 832 Uniform.sample = .ok s' := by
    rw [whole_reads_index _ (by decide), h]
    intro _ r hr
    rcases List.mem_cons.mp hr with rfl | hr
    · exact ⟨1, rfl⟩
    · exact ⟨0, by simpa using hr⟩
  refine ⟨s', h', nil_means_indexed_partial (fun _ => by decide) h', ?_⟩
  rw [Uniform.lookup_first_partial (by decide) (by decide) (by decide) (by decide) h (by decide +kernel)]
  exact congrArg Uniform.Outcome.ok (by decide +kernel)

/-- 129 hashes; the last is in the second chunk. -/
def sampleLong : Uniform.Store where
  divider := 2 ^ 62
  digits := 2
  hashes := List.replicate 4096 7 ++ List.replicate 32 200
  binStarts := none
  overflow := fun _ => none
  dirs := fun _ => false

/-- The second chunk cannot be read: indexing returns nil, and the last hash is not found. -/
example : ∃ s', indexTheHashes (fun _ => badAt 1) 4 832 sampleLong = .ok s' ∧
    Uniform.indexOfHash s' (List.replicate 32 7) = .ok (some 0) ∧
    Uniform.indexOfHash s' (List.replicate 32 200) = .ok none ∧ Uniform.getHashAtIndex s' 128 = some (List.replicate 32 200) := by
  have hl : sampleLong.hashes.length = 4128 := by
    show (List.replicate 4096 (7 : UInt8) ++ List.replicate 32 200).length = 4128
    rw [List.length_append, List.length_replicate, List.length_replicate]
  have ht : sampleLong.hashes.take (4096 * 1) = List.replicate 4096 7 :=
    List.take_left' (by rw [List.length_replicate])
  obtain ⟨s', h1, h2, h3⟩ := a_bad_place_hides_the_rest (big := 4) (grant := 832) (n := 1) (s := sampleLong) (by decide) (by decide)
    (by decide) (by omega) (by omega)
  refine ⟨s', h1, ?_, ?_, ?_⟩
  · rw [h3 _ (by decide +kernel), ht]
    exact congrArg Uniform.Outcome.ok (by decide +kernel)
  · rw [h3 _ (by decide +kernel), ht]
    exact congrArg Uniform.Outcome.ok (by decide +kernel)
  · unfold Uniform.getHashAtIndex
    rw [h2]
    decide +kernel

/-- Short reads in a self-test. -/
example : ∃ d, Bulk3.IndexTheHashes demoParams 100 (1000 * 1000) 3 Bulk3.demoSort Bulk3.demoFile d ∧
    testTheHashes fl53 demoParams (WordFile.close d.nums) d.files [some 31] Bulk3.demoFile.flatten =
      some ⟨[.wrongHash 2, .wrongIndex 2 0], .passed⟩ ∧
    SelfTest3.testTheHashes fl53 demoParams (WordFile.close d.nums) d.files Bulk3.demoFile.flatten =
      some ⟨[.wrongHash 2, .wrongIndex 2 0], .passed⟩ := by
  obtain ⟨d, hd⟩ := Bulk3.bulk_completes HashStore3.demo_paramsOK (estimate := 100) (bytesPerPass := 1000 * 1000) (threads := 3)
    (by decide) (sort := Bulk3.demoSort) Bulk3.demoFile_indexable.storable (by decide +kernel)
  have h : testTheHashes fl53 demoParams (WordFile.close d.nums) d.files [some 31] Bulk3.demoFile.flatten =
      some ⟨[.wrongHash 2, .wrongIndex 2 0], .passed⟩ := by
    rw [whole_reads_test (by intro r hr; exact ⟨0, by simpa using hr⟩) (by decide +kernel),
      (SelfTest3.bulk_selftest_partial floatOK_fl53 HashStore3.demo_paramsOK (by decide) Bulk3.demoSort_ok Bulk3.demoFile_indexable hd).1]
    decide +kernel
  exact ⟨d, hd, h, passed_means_tested_partial (by decide) h⟩

/-- The clashing hashes of `bulk_loses_hash`, one of which is lost: the self-test does not pass, but it does if the file cannot be
read. -/
example : ∃ d, Bulk3.IndexTheHashes demoParams 100 (1000 * 1000) 3 Bulk3.demoSort Bulk3.clashHashes d ∧
    (∀ r, SelfTest3.testTheHashes fl53 demoParams (WordFile.close d.nums) d.files Bulk3.clashHashes.flatten ≠ some ⟨r, .passed⟩) ∧
    testTheHashes fl53 demoParams (WordFile.close d.nums) d.files (badAt 0) Bulk3.clashHashes.flatten = some ⟨[], .passed⟩ := by
  obtain ⟨d, hd⟩ := Bulk3.bulk_completes HashStore3.demo_paramsOK (estimate := 100) (bytesPerPass := 1000 * 1000) (threads := 3)
    (by decide) (sort := Bulk3.demoSort) Bulk3.clash_storable (by decide +kernel)
  obtain ⟨s, h1, h2⟩ := Bulk3.bulk_loses_hash floatOK_fl53 (by decide) Bulk3.demoSort_ok hd
  exact ⟨d, hd, SelfTest3.selftest_detects_absent _ _ _ _ _ Bulk3.clash_storable.len32 s h1 (by decide +kernel) h2,
    an_unreadable_file_passes h1 _⟩

/-- A hash read a few bytes at a time; and a read that fails after it. -/
example : readHashes [] [some 9, some 29] (List.replicate 32 1) = some [List.replicate 32 1] ∧
    readHashes [] [some 31, none] (List.replicate 32 1 ++ List.replicate 32 2) = none := by
  constructor
  · rw [readHashes, if_neg (by decide), if_neg (by decide), if_neg (by decide +kernel), readHashes, if_neg (by decide +kernel),
      if_neg (by decide), if_neg (by decide +kernel), readHashes, if_pos (by decide +kernel), readHashes, if_neg (by decide +kernel),
      if_neg (by decide), if_pos (by decide +kernel), if_pos (by decide +kernel)]
    decide +kernel
  · rw [readHashes, if_neg (by decide), if_neg (by decide), if_neg (by decide +kernel), readHashes, if_pos (by decide +kernel),
      readHashes, if_neg (by decide +kernel), if_pos (by decide)]
    rfl

end Verif.FaultyIndex
