import Verif.Model.NumberedFolders

/-!
# C11: numbered folders and files
-/

namespace Verif.NumberedFolders

theorem digit_lt (n : Nat) (h : n < 10) :
    digitVal (Char.ofNat (48 + n)) = n ∧ Char.ofNat (48 + n) ≠ 'x' ∧ Char.ofNat (48 + n) ≠ '/' ∧
      Char.ofNat (48 + n) ≠ '.' := by
  have : ∀ n < 10, digitVal (Char.ofNat (48 + n)) = n ∧ Char.ofNat (48 + n) ≠ 'x' ∧
      Char.ofNat (48 + n) ≠ '/' ∧ Char.ofNat (48 + n) ≠ '.' := by decide
  exact this n h

theorem digitVal_digitChar (n : Nat) : digitVal (digitChar n) = n % 10 :=
  (digit_lt (n % 10) (Nat.mod_lt _ (by decide))).1

theorem digitChar_ne (n : Nat) : digitChar n ≠ 'x' ∧ digitChar n ≠ '/' ∧ digitChar n ≠ '.' :=
  (digit_lt (n % 10) (Nat.mod_lt _ (by decide))).2

theorem foldl_atoi (s : List Char) (a : Nat) :
    s.foldl (fun acc c => 10 * acc + digitVal c) a = a * 10 ^ s.length + atoi s := by
  unfold atoi
  induction s generalizing a with
  | nil => simp
  | cons c s ih =>
    simp only [List.foldl_cons, List.length_cons]
    rw [ih, ih (10 * 0 + digitVal c), Nat.pow_succ', Nat.mul_zero, Nat.zero_add]
    rw [Nat.add_mul, ← Nat.mul_assoc, Nat.mul_comm 10 a]; omega

theorem atoi_append (s t : List Char) : atoi (s ++ t) = atoi s * 10 ^ t.length + atoi t := by
  conv => lhs; unfold atoi
  rw [List.foldl_append, foldl_atoi]
  rfl

@[simp] theorem pad_length (d i : Nat) : (pad d i).length = d := by
  induction d generalizing i with
  | zero => rfl
  | succ d ih => simp [pad, ih]

theorem atoi_pad (d i : Nat) : atoi (pad d i) = i % 10 ^ d := by
  induction d generalizing i with
  | zero => simp [pad, atoi, Nat.mod_one]
  | succ d ih =>
    rw [pad, atoi_append, ih, Nat.pow_succ']
    simp only [List.length_singleton, Nat.pow_one]
    have : atoi [digitChar i] = i % 10 := by simp [atoi, digitVal_digitChar]
    rw [this, Nat.mod_mul]; omega

theorem pad_chars (d i : Nat) : ∀ c ∈ pad d i, c ≠ 'x' ∧ c ≠ '/' ∧ c ≠ '.' := by
  induction d generalizing i with
  | zero => simp [pad]
  | succ d ih =>
    intro c hc
    simp only [pad, List.mem_append, List.mem_singleton] at hc
    rcases hc with hc | rfl
    · exact ih _ c hc
    · exact digitChar_ne i

theorem foldl_name (bs : List (List Char)) (acc : List Char) :
    bs.foldl (fun name bigit => bigit ++ name) acc = bs.reverse.flatten ++ acc := by
  induction bs generalizing acc with
  | nil => rfl
  | cons b bs ih => simp [ih]

theorem atoi_bigitsLoop {f : Nat} (hf : 0 < f) (n : Nat) : atoi (bigitsLoop f n).reverse.flatten = n := by
  induction n using Nat.strongRecOn with
  | ind n ih =>
    unfold bigitsLoop
    by_cases h : n = 0
    · simp [h, atoi]
    · rw [dif_neg (by omega)]
      simp only [List.reverse_cons, List.flatten_append, List.flatten_singleton]
      have h10 : 10 ^ 1 ≤ 10 ^ f := Nat.pow_le_pow_right (by decide) hf
      rw [atoi_append, ih _ (Nat.div_lt_self (by omega) (by omega)), pad_length, atoi_pad, Nat.mod_mod]
      rw [Nat.mul_comm]; exact Nat.div_add_mod n (10 ^ f)

theorem bigitsLoop_chars (f n : Nat) : ∀ b ∈ bigitsLoop f n, ∀ c ∈ b, c ≠ 'x' ∧ c ≠ '/' ∧ c ≠ '.' := by
  induction n using Nat.strongRecOn with
  | ind n ih =>
    unfold bigitsLoop
    by_cases h : n = 0 ∨ f = 0
    · simp [h]
    · rw [dif_neg h]
      have h10 : 10 ^ 1 ≤ 10 ^ f := Nat.pow_le_pow_right (by decide) (by omega)
      intro b hb c hc
      rcases List.mem_cons.mp hb with rfl | hb
      · exact pad_chars _ _ c hc
      · exact ih _ (Nat.div_lt_self (by omega) (by omega)) b hb c hc

theorem filename_eq (d f n : Nat) : filename d f n =
    (if d > 0 then (bigitsLoop f (n / 10 ^ d)).reverse.flatten ++ placeholder d
      else (bigitsLoop f (n / 10 ^ f)).reverse.flatten ++ pad f (n % 10 ^ f)) := by
  unfold filename bigits
  simp only [foldl_name]
  by_cases h : d > 0 <;> simp [h]

theorem filename_chars (d f n : Nat) : ∀ c ∈ filename d f n, c ≠ '/' ∧ c ≠ '.' := by
  intro c hc
  rw [filename_eq] at hc
  have key : ∀ m, c ∈ (bigitsLoop f m).reverse.flatten → c ≠ '/' ∧ c ≠ '.' := by
    intro m hm
    simp only [List.mem_flatten, List.mem_reverse] at hm
    obtain ⟨b, hb, hcb⟩ := hm
    exact (bigitsLoop_chars f _ b hb c hcb).2
  split at hc
  · rcases List.mem_append.mp hc with hc | hc
    · exact key _ hc
    · simp only [placeholder, List.mem_replicate] at hc; rw [hc.2]; decide
  · rcases List.mem_append.mp hc with hc | hc
    · exact key _ hc
    · exact (pad_chars _ _ c hc).2

theorem map_replace {s : List Char} (h : ∀ c ∈ s, c ≠ 'x') :
    s.map (fun c => if c = 'x' then '0' else c) = s := by
  induction s with
  | nil => rfl
  | cons c s ih =>
    rw [List.map_cons, if_neg (h c (by simp)), ih (fun x hx => h x (by simp [hx]))]

theorem atoi_zeros (d : Nat) : atoi (List.replicate d '0') = 0 := by
  induction d with
  | zero => rfl
  | succ d ih =>
    rw [List.replicate_succ', atoi_append, ih]; rfl

theorem fileNum_eq {f : Nat} (hf : 0 < f) (d n : Nat) : fileNum d f n = n / 10 ^ d * 10 ^ d := by
  unfold fileNum
  rw [filename_eq]
  by_cases h : d = 0
  · subst h
    rw [if_pos rfl, if_neg (by decide), atoi_append, atoi_bigitsLoop hf, pad_length, atoi_pad, Nat.mod_mod]
    rw [Nat.mul_comm, Nat.div_add_mod]; simp
  · rw [if_neg h, if_pos (by omega)]
    rw [List.map_append, atoi_append]
    have h1 : (placeholder d).map (fun c => if c = 'x' then '0' else c) = List.replicate d '0' := by
      simp [placeholder]
    rw [h1, map_replace, atoi_bigitsLoop hf, atoi_zeros]
    · simp
    · intro c hc
      simp only [List.mem_flatten, List.mem_reverse] at hc
      obtain ⟨b, hb, hcb⟩ := hc
      exact (bigitsLoop_chars f _ b hb c hcb).1

theorem folderName_congr {ph0 phF : List Char} {b0 b1 : List Char} {bs : List (List Char)} (level : Nat) :
    folderName ph0 phF (b0 :: bs) level = folderName ph0 phF (b1 :: bs) level := by
  unfold folderName
  simp only [List.length_cons]
  congr 1
  apply List.map_congr_left
  intro s _
  cases s with
  | zero => simp
  | succ s => simp

theorem same_of_div {d f a b : Nat} (h : a / 10 ^ d = b / 10 ^ d) :
    folders d f a = folders d f b ∧ filename d f a = filename d f b := by
  by_cases hd : d = 0
  · subst hd
    simp only [Nat.pow_zero, Nat.div_one] at h
    subst h; exact ⟨rfl, rfl⟩
  · constructor
    · unfold folders bigits
      have hd' : d > 0 := by omega
      simp only [hd, if_false, hd', if_true, h]
      congr 1
      simp only [List.length_cons]
      apply List.map_congr_left
      intro l _
      exact folderName_congr l
    · rw [filename_eq, filename_eq, h, if_pos (by omega), if_pos (by omega)]

/-- **C11.** Two numbers are stored in the same file exactly when they agree after dropping their low `d`
digits (`d` = digits per file, possibly 0; `f` > 0 = digits per folder level). Even the file names alone
never collide. -/
theorem same_file_iff {f : Nat} (hf : 0 < f) (d a b : Nat) :
    ((folders d f a, filename d f a) = (folders d f b, filename d f b) ↔ a / 10 ^ d = b / 10 ^ d) ∧
      (filename d f a = filename d f b ↔ a / 10 ^ d = b / 10 ^ d) := by
  have key : filename d f a = filename d f b → a / 10 ^ d = b / 10 ^ d := by
    intro h
    have e : fileNum d f a = fileNum d f b := by unfold fileNum; rw [h]
    rw [fileNum_eq hf, fileNum_eq hf] at e
    exact Nat.eq_of_mul_eq_mul_right (Nat.pos_of_ne_zero (by simp)) e
  refine ⟨⟨fun h => key (by simpa using congrArg Prod.snd h), fun h => ?_⟩,
    ⟨key, fun h => (same_of_div h).2⟩⟩
  obtain ⟨h1, h2⟩ := same_of_div (f := f) h
  rw [h1, h2]

/-- **C11 (file number).** The file number is the number with its low `d` digits zeroed. -/
theorem fileNum_is_rounded {f : Nat} (hf : 0 < f) (d n : Nat) :
    fileNum d f n = n - n % 10 ^ d := by
  rw [fileNum_eq hf]
  have := Nat.div_add_mod n (10 ^ d)
  rw [Nat.mul_comm] at this
  omega

example : filename 3 2 1234567 = "1234xxx".toList ∧ folders 3 2 1234567 = "xxxxxxx/12xxxxx".toList ∧
    fileNum 3 2 1234567 = 1234000 ∧ filename 0 2 5 = "05".toList := by
  simp +decide [filename, folders, fileNum, bigits, bigitsLoop, pad, placeholder, digitChar, atoi, digitVal, folderName]

end Verif.NumberedFolders
