import Verif.Model.ChunkFiles
import Verif.Lemmas.Records

namespace Verif.Chunk

/-- What the chunks have on a level, one after the other. -/
def column (cs : List Chunk) (n : Nat) : Bytes :=
  cs.flatMap fun ch => match ch.levels[n]? with
    | some lv => lv.index ++ lv.nodes
    | none => []

/-- The file of a level. -/
def levelFile (cs : List Chunk) (n : Nat) : Option Bytes :=
  if cs.any (fun ch => decide (n < ch.levels.length)) then some (column cs n) else none

theorem column_append (cs ds : List Chunk) (n : Nat) : column (cs ++ ds) n = column cs n ++ column ds n := by
  simp [column]

theorem levelFile_getD (cs : List Chunk) (n : Nat) : (levelFile cs n).getD [] = column cs n := by
  unfold levelFile
  split
  · rfl
  · next h =>
    symm
    unfold column
    rw [Option.getD_none, List.flatMap_eq_nil_iff]
    intro ch hch
    have h' : ¬ n < ch.levels.length := by
      intro hn
      exact h (List.any_eq_true.2 ⟨ch, hch, by simpa using hn⟩)
    rw [List.getElem?_eq_none (by omega)]

theorem appendLevels_eq (lvs : List Level) : ∀ (n : Nat) (f : Nat → Option Bytes) (k : Nat),
    appendLevels n lvs f k = match (if n ≤ k then lvs[k - n]? else none) with
      | none => f k
      | some lv => some ((f k).getD [] ++ (lv.index ++ lv.nodes)) := by
  induction lvs with
  | nil => intro n f k; simp [appendLevels]
  | cons lv lvs ih =>
    intro n f k
    rw [appendLevels, ih]
    by_cases hk : k = n
    · subst hk
      rw [if_neg (by omega), if_pos (Nat.le_refl _), Nat.sub_self]
      simp [addTo, List.append_assoc]
    · have hf : addTo (addTo f n lv.index) n lv.nodes k = f k := by simp [addTo, hk]
      rw [hf]
      by_cases h : n ≤ k
      · have h1 : n + 1 ≤ k := by omega
        have h2 : k - n = (k - (n + 1)) + 1 := by omega
        rw [if_pos h1, if_pos h, h2, List.getElem?_cons_succ]
      · rw [if_neg h, if_neg (by omega)]

theorem levelFile_append (cs : List Chunk) (ch : Chunk) :
    appendLevels 0 ch.levels (levelFile cs) = levelFile (cs ++ [ch]) := by
  funext k
  rw [appendLevels_eq]
  simp only [Nat.zero_le, if_true, Nat.sub_zero]
  by_cases h : k < ch.levels.length
  · rw [List.getElem?_eq_getElem h]
    dsimp only
    rw [levelFile_getD]
    unfold levelFile
    rw [if_pos (by simp [h]), column_append]
    simp [column, List.getElem?_eq_getElem h]
  · rw [List.getElem?_eq_none (by omega)]
    dsimp only
    unfold levelFile
    have : (cs ++ [ch]).any (fun ch => decide (k < ch.levels.length)) = cs.any (fun ch => decide (k < ch.levels.length)) := by
      simp [h]
    rw [this, column_append]
    have : column [ch] k = [] := by simp [column, List.getElem?_eq_none (Nat.le_of_not_lt h)]
    rw [this, List.append_nil]

theorem mapFrom_ok {f : Nat → Option Bytes} (hne : ∀ n, f n ≠ some []) (hstop : ∀ n, f n = none → f (n + 1) = none) :
    ∀ (k n : Nat), f (n + k) = none → ∃ maps, mapFrom f k n = some maps ∧ ∀ i, maps[i]? = f (n + i) := by
  have hall : ∀ n, f n = none → ∀ i, f (n + i) = none := by
    intro n hn i
    induction i with
    | zero => exact hn
    | succ i ih => exact hstop _ ih
  intro k
  induction k with
  | zero =>
    intro n h
    exact ⟨[], rfl, fun i => by rw [hall n h i]; rfl⟩
  | succ k ih =>
    intro n h
    rw [mapFrom]
    match hf : f n with
    | none => exact ⟨[], rfl, fun i => by rw [hall n hf i]; rfl⟩
    | some [] => exact absurd hf (hne n)
    | some (b :: bs) =>
      obtain ⟨maps, h1, h2⟩ := ih (n + 1) (by rw [show n + 1 + k = n + (k + 1) by omega]; exact h)
      refine ⟨(b :: bs) :: maps, by simp [h1], ?_⟩
      intro i
      match i with
      | 0 => exact hf.symm
      | i + 1 => rw [List.getElem?_cons_succ, h2, show n + 1 + i = n + (i + 1) by omega]

theorem sliceU64_ok {a d b : Bytes} (h : (a ++ d ++ b).length < 2 ^ 64) :
    sliceU64 (a ++ d ++ b) a.length d.length = some d := by
  simp only [List.length_append] at h
  unfold sliceU64
  rw [Nat.mod_eq_of_lt (by omega), if_pos (by simp only [List.length_append]; omega)]
  unfold slice
  rw [List.append_assoc, List.drop_left, show a.length + d.length - a.length = d.length by omega, List.take_left]

/-- Bytes that a chunk's levels from `n` on have on level `i`. -/
def sizeAt (lvs : List Level) (n i : Nat) : Nat :=
  if n ≤ i then match lvs[i - n]? with
    | some lv => lv.index.length + lv.nodes.length
    | none => 0
  else 0

theorem readLevels_ok {maps : List Bytes} (lvs : List Level) : ∀ (n : Nat) (rest : Bytes) (acc : Nat → Nat),
    (∀ (i : Nat) (lv : Level), lvs[i]? = some lv → ∃ a b : Bytes, maps[n + i]? = some (a ++ (lv.index ++ lv.nodes) ++ b) ∧
      acc (n + i) = a.length ∧ (a ++ (lv.index ++ lv.nodes) ++ b).length < 2 ^ 64) →
    readLevels maps lvs.length n (lvs.flatMap lengthBytes ++ rest) acc = .ok (lvs, rest, fun i => acc i + sizeAt lvs n i) := by
  induction lvs with
  | nil =>
    intro n rest acc _
    simp [readLevels, sizeAt]
  | cons lv lvs ih =>
    intro n rest acc h
    obtain ⟨a, b, h1, h2, h3⟩ := h 0 lv rfl
    have hlen : (lengthBytes lv).length = 16 := by simp [lengthBytes]
    rw [Nat.add_zero] at h1 h2
    simp only [List.length_append] at h3
    have hcat : (lv :: lvs).flatMap lengthBytes ++ rest = lengthBytes lv ++ (lvs.flatMap lengthBytes ++ rest) := by simp
    have t8 : ((lv :: lvs).flatMap lengthBytes ++ rest).take 8 = leEnc 8 lv.index.length := by
      rw [hcat]
      unfold lengthBytes
      rw [List.append_assoc, List.take_append_of_le_length (by simp), List.take_of_length_le (by simp)]
    have d8 : (((lv :: lvs).flatMap lengthBytes ++ rest).drop 8).take 8 = leEnc 8 lv.nodes.length := by
      rw [hcat]
      unfold lengthBytes
      rw [List.append_assoc, List.drop_append_of_le_length (by simp), List.drop_of_length_le (by simp), List.nil_append,
        List.take_append_of_le_length (by simp), List.take_of_length_le (by simp)]
    have d16 : ((lv :: lvs).flatMap lengthBytes ++ rest).drop 16 = lvs.flatMap lengthBytes ++ rest := by
      rw [hcat, List.drop_append_of_le_length (by omega), List.drop_of_length_le (by omega), List.nil_append]
    have e8 : leDec (leEnc 8 lv.index.length) = lv.index.length := leDec_leEnc_of_lt (by omega)
    have e8' : leDec (leEnc 8 lv.nodes.length) = lv.nodes.length := leDec_leEnc_of_lt (by omega)
    rw [show (lv :: lvs).length = lvs.length + 1 from rfl, readLevels]
    dsimp only
    rw [if_neg (by rw [hcat]; simp [hlen]), h1]
    dsimp only
    rw [t8, d8, d16, e8, e8', h2]
    have hb : (a.length + lv.index.length) % 2 ^ 64 = (a ++ lv.index).length := by
      rw [List.length_append, Nat.mod_eq_of_lt (by omega)]
    have s1 : sliceU64 (a ++ (lv.index ++ lv.nodes) ++ b) a.length lv.index.length = some lv.index := by
      have := sliceU64_ok (a := a) (d := lv.index) (b := lv.nodes ++ b) (by simp only [List.length_append]; omega)
      rw [← this]
      simp only [List.append_assoc]
    have s2 : sliceU64 (a ++ (lv.index ++ lv.nodes) ++ b) (a ++ lv.index).length lv.nodes.length = some lv.nodes := by
      have := sliceU64_ok (a := a ++ lv.index) (d := lv.nodes) (b := b) (by simp only [List.length_append]; omega)
      rw [← this]
      simp only [List.append_assoc]
    rw [hb, s1, s2]
    dsimp only
    rw [ih (n + 1) rest _ (by
      intro i lv' hi
      obtain ⟨a', b', g1, g2, g3⟩ := h (i + 1) lv' (by rw [List.getElem?_cons_succ]; exact hi)
      refine ⟨a', b', ?_, ?_, g3⟩
      · rw [show n + 1 + i = n + (i + 1) by omega]; exact g1
      · rw [if_neg (by omega), show n + 1 + i = n + (i + 1) by omega]; exact g2)]
    dsimp only
    suffices hf : (fun i => (if i = n then ((a ++ lv.index).length + lv.nodes.length) % 2 ^ 64 else acc i) + sizeAt lvs (n + 1) i) =
        fun i => acc i + sizeAt (lv :: lvs) n i by rw [hf]
    funext i
    rw [List.length_append, Nat.mod_eq_of_lt (by omega)]
    by_cases hi : i = n
    · subst hi
      rw [if_pos rfl]
      unfold sizeAt
      rw [if_neg (by omega), if_pos (Nat.le_refl _), Nat.sub_self, List.getElem?_cons_zero]
      dsimp only
      omega
    · rw [if_neg hi]
      unfold sizeAt
      by_cases hle : n ≤ i
      · rw [if_pos hle, if_pos (by omega), show i - n = (i - (n + 1)) + 1 by omega, List.getElem?_cons_succ]
      · rw [if_neg hle, if_neg (by omega)]

/-- One round of reading: the list of chunks after it. -/
def overwrite (c : Config) (chunks : List Chunk) (ch : Chunk) : List Chunk := (chunks ++ [blank c]).set 0 ch

theorem column_cons_length (ch : Chunk) (n : Nat) : (column [ch] n).length = sizeAt ch.levels 0 n := by
  unfold column sizeAt
  simp only [List.flatMap_cons, List.flatMap_nil, List.append_nil, Nat.zero_le, if_true, Nat.sub_zero]
  split <;> simp

theorem readChunks_ok {c : Config} {maps : List Bytes} {cs : List Chunk} (hmaps : ∀ i, maps[i]? = levelFile cs i)
    (hsize : ∀ n, (column cs n).length < 2 ^ 64) (hc : ∀ ch ∈ cs, ch.config = c)
    (hfirst : ∀ ch ∈ cs, -2 ^ 63 ≤ ch.first ∧ ch.first < 2 ^ 63) (hlev : ∀ ch ∈ cs, ch.levels.length ≤ 255) :
    ∀ (todo done : List Chunk) (fuel : Nat) (acc : Nat → Nat) (chunks : List Chunk), done ++ todo = cs →
      (∀ n, acc n = (column done n).length) → todo.length ≤ fuel →
      readChunks c maps fuel (todo.flatMap infoBytes) acc chunks = .ok (todo.foldl (overwrite c) chunks) := by
  intro todo
  induction todo with
  | nil => intro done fuel acc chunks _ _ _; simp [readChunks]
  | cons ch todo ih =>
    intro done fuel acc chunks hcs hacc hfuel
    match fuel with
    | 0 => simp at hfuel
    | fuel + 1 =>
      have hmem : ch ∈ cs := by rw [← hcs]; simp
      have hl := hlev ch hmem
      have hcat : (ch :: todo).flatMap infoBytes = leEnc 8 (toU64 ch.first) ++
          (UInt8.ofNat ch.levels.length :: (ch.levels.flatMap lengthBytes ++ todo.flatMap infoBytes)) := by
        simp [infoBytes]
      have hlen8 : (leEnc 8 (toU64 ch.first)).length = 8 := by simp
      have hd : ((ch :: todo).flatMap infoBytes).drop 8 =
          UInt8.ofNat ch.levels.length :: (ch.levels.flatMap lengthBytes ++ todo.flatMap infoBytes) := by
        rw [hcat, List.drop_append_of_le_length (by omega), List.drop_of_length_le (by omega), List.nil_append]
      have ht : ((ch :: todo).flatMap infoBytes).take 8 = leEnc 8 (toU64 ch.first) := by
        rw [hcat, List.take_append_of_le_length (by omega), List.take_of_length_le (by omega)]
      have hbig : ¬ ((ch :: todo).flatMap infoBytes).length < 8 := by rw [hcat]; simp
      have hnat : (UInt8.ofNat ch.levels.length).toNat = ch.levels.length := by
        rw [UInt8.toNat_ofNat']; omega
      have hfirst' : ofU64 (leDec (leEnc 8 (toU64 ch.first))) = ch.first := by
        rw [leDec_leEnc_of_lt (by have := toU64_lt ch.first; omega)]
        exact ofU64_toU64 (hfirst ch hmem).1 (hfirst ch hmem).2
      have hpieces : ∀ (i : Nat) (lv : Level), ch.levels[i]? = some lv → ∃ a b : Bytes,
          maps[0 + i]? = some (a ++ (lv.index ++ lv.nodes) ++ b) ∧ acc (0 + i) = a.length ∧
          (a ++ (lv.index ++ lv.nodes) ++ b).length < 2 ^ 64 := by
        intro i lv hi
        have hcol : column cs i = column done i ++ (lv.index ++ lv.nodes) ++ column todo i := by
          have h1 : column [ch] i = lv.index ++ lv.nodes := by
            unfold column
            rw [List.flatMap_cons, List.flatMap_nil, List.append_nil, hi]
          rw [← hcs, show done ++ ch :: todo = done ++ ([ch] ++ todo) from rfl, column_append, column_append, h1]
          simp only [List.append_assoc]
        refine ⟨column done i, column todo i, ?_, ?_, ?_⟩
        · rw [Nat.zero_add, hmaps i]
          unfold levelFile
          rw [if_pos, hcol]
          exact List.any_eq_true.2 ⟨ch, hmem, by simpa using (List.getElem?_eq_some_iff.1 hi).1⟩
        · rw [Nat.zero_add]; exact hacc i
        · rw [← hcol]; exact hsize i
      have hmapslen : ¬ maps.length < ch.levels.length := by
        intro hlt
        obtain ⟨a, b, h1, -⟩ := hpieces maps.length _ (List.getElem?_eq_getElem hlt)
        rw [Nat.zero_add] at h1
        simp at h1
      match hrest : (ch :: todo).flatMap infoBytes with
      | [] => rw [hrest] at hbig; simp at hbig
      | b :: bs =>
        rw [readChunks]
        rw [← hrest, if_neg hbig, hd]
        dsimp only
        rw [hnat, if_neg hmapslen, readLevels_ok ch.levels 0 _ acc hpieces]
        dsimp only
        have hceq : (⟨c, ch.first, ch.levels⟩ : Chunk) = ch := by rw [← hc ch hmem]
        rw [ht, hfirst', hceq, ih (done ++ [ch]) fuel _ _ (by simpa using hcs) (by
          intro n
          rw [column_append, List.length_append, column_cons_length, hacc n]) (by simpa using hfuel)]
        rfl

theorem fold_overwrite (c : Config) : ∀ (todo : List Chunk) (x : Chunk) (k : Nat),
    todo.foldl (overwrite c) (x :: List.replicate k (blank c)) =
      (x :: todo).getLast (by simp) :: List.replicate (k + todo.length) (blank c) := by
  intro todo
  induction todo with
  | nil => intro x k; simp
  | cons ch todo ih =>
    intro x k
    rw [List.foldl_cons]
    have : overwrite c (x :: List.replicate k (blank c)) ch = ch :: List.replicate (k + 1) (blank c) := by
      simp [overwrite, List.replicate_succ']
    rw [this, ih, List.length_cons, Nat.add_right_comm, Nat.add_assoc, List.getLast_cons (l := ch :: todo) (by simp)]

theorem levelFile_none {cs : List Chunk} {n : Nat} (h : levelFile cs n = none) : ∀ ch ∈ cs, ch.levels.length ≤ n := by
  intro ch hch
  unfold levelFile at h
  split at h
  · cases h
  · next hn =>
    by_cases hlt : n < ch.levels.length
    · exact absurd (List.any_eq_true.2 ⟨ch, hch, by simpa using hlt⟩) hn
    · omega

theorem levelFile_none_of {cs : List Chunk} {n : Nat} (h : ∀ ch ∈ cs, ch.levels.length ≤ n) : levelFile cs n = none := by
  unfold levelFile
  rw [if_neg]
  intro ha
  obtain ⟨ch, h1, h2⟩ := List.any_eq_true.1 ha
  have := h ch h1
  have : n < ch.levels.length := by simpa using h2
  omega

end Verif.Chunk
