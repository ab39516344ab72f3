import Verif.Model.ParamFile
import Verif.Props.Bulk3

/-! # C126: the parameters of a hash store are read back as they were written, or not at all -/

namespace Verif.ParamFile

/-! ## Numbers -/

theorem digit_char : ∀ k : Fin 10, isDigit (Char.ofNat (48 + k.val)) = true ∧ (Char.ofNat (48 + k.val)).toNat - 48 = k.val ∧
    (k.val ≠ 0 → Char.ofNat (48 + k.val) ≠ '0') := by
  decide

theorem digits_spec (n : Nat) : digits n ≠ [] ∧ (∀ c ∈ digits n, isDigit c = true) ∧ value (digits n) = n ∧
    (0 < n → (digits n).head? ≠ some '0') ∧ (n < 10 → (digits n).length = 1) := by
  induction n using Nat.strongRecOn with
  | ind n ih =>
    unfold digits
    split
    · next h =>
      obtain ⟨h1, h2, h3⟩ := digit_char ⟨n, h⟩
      dsimp only at h1 h2 h3
      refine ⟨by simp, by simpa using h1, ?_, ?_, fun _ => rfl⟩
      · show 10 * 0 + ((Char.ofNat (48 + n)).toNat - 48) = n
        omega
      · intro hn he
        exact h3 (by omega) (by simpa using he)
    · next h =>
      obtain ⟨g1, g2, g3, g4, _⟩ := ih (n / 10) (by omega)
      obtain ⟨h1, h2, _⟩ := digit_char ⟨n % 10, by omega⟩
      dsimp only at h1 h2
      refine ⟨by simp, ?_, ?_, ?_, fun hn => absurd hn h⟩
      · intro c hc
        rcases List.mem_append.mp hc with hc | hc
        · exact g2 c hc
        · rw [List.mem_singleton.mp hc]
          exact h1
      · unfold value at g3 ⊢
        rw [List.foldl_append, g3]
        show 10 * (n / 10) + ((Char.ofNat (48 + n % 10)).toNat - 48) = n
        omega
      · intro _
        rw [List.head?_append_of_ne_nil _ g1]
        exact g4 (by omega)

theorem readDigits_digits (n : Nat) {c : Char} (hc : isDigit c = false) (rest : Text) :
    readDigits (digits n ++ c :: rest) = some (n, c :: rest) := by
  obtain ⟨h1, h2, h3, h4, h5⟩ := digits_spec n
  have e1 : (digits n ++ c :: rest).takeWhile isDigit = digits n := by
    rw [List.takeWhile_append_of_pos h2, List.takeWhile_cons_of_neg (by simp [hc]), List.append_nil]
  have e2 : (digits n ++ c :: rest).dropWhile isDigit = c :: rest := by
    rw [List.dropWhile_append_of_pos h2, List.dropWhile_cons_of_neg (by simp [hc])]
  unfold readDigits
  dsimp only
  rw [e1, e2, h3, if_neg]
  rintro (h | ⟨h, hl⟩)
  · exact h1 h
  · by_cases hn : n < 10
    · rw [h5 hn] at hl
      omega
    · exact h4 (by omega) h

theorem readInt_minus (t : Text) : readInt ('-' :: t) = (readDigits t).map fun x => (-(x.1 : Int), x.2) := rfl

theorem readInt_intText (z : Int) {c : Char} (hc : isDigit c = false) (rest : Text) :
    readInt (intText z ++ c :: rest) = some (z, c :: rest) := by
  unfold intText
  split
  · rw [List.cons_append, readInt_minus, readDigits_digits _ hc]
    show some (-((z.natAbs : Nat) : Int), c :: rest) = _
    congr 2
    omega
  · have hr := readDigits_digits z.natAbs hc rest
    obtain ⟨h1, h2, -⟩ := digits_spec z.natAbs
    obtain ⟨d, u, hd⟩ := List.exists_cons_of_ne_nil h1
    have hdig := h2 d (by rw [hd]; simp)
    rw [hd, List.cons_append] at hr ⊢
    unfold readInt
    split
    · next heq =>
      injection heq with heq _
      rw [heq] at hdig
      exact absurd hdig (by decide)
    · rw [hr]
      show some (((z.natAbs : Nat) : Int), c :: rest) = _
      congr 2
      omega

/-! ## Objects -/

/-- A key without quotes, escapes and braces. -/
def Plain (k : Text) : Prop := '"' ∉ k ∧ '\\' ∉ k ∧ '}' ∉ k

theorem readString_quote (t : Text) : readString ('"' :: t) =
    match t.dropWhile fun c => c ≠ '"' with
    | [] => none
    | _ :: u => if '\\' ∈ t.takeWhile (fun c => c ≠ '"') then none else some (t.takeWhile fun c => c ≠ '"', u) := rfl

theorem readString_key {k : Text} (hk : Plain k) (rest : Text) : readString ('"' :: k ++ '"' :: rest) = some (k, rest) := by
  have hp : ∀ c ∈ k, (decide (c ≠ '"')) = true := by
    intro c hc
    rw [decide_eq_true_iff]
    rintro rfl
    exact hk.1 hc
  have e1 : (k ++ '"' :: rest).takeWhile (fun c => decide (c ≠ '"')) = k := by
    rw [List.takeWhile_append_of_pos hp, List.takeWhile_cons_of_neg (by simp), List.append_nil]
  have e2 : (k ++ '"' :: rest).dropWhile (fun c => decide (c ≠ '"')) = '"' :: rest := by
    rw [List.dropWhile_append_of_pos hp, List.dropWhile_cons_of_neg (by simp)]
  rw [List.cons_append, readString_quote, e1, e2]
  dsimp only
  rw [if_neg hk.2.1]

theorem readMembers_last {t k : Text} {z : Int} {u : Text} {fuel : Nat} (h : readString t = some (k, ':' :: u))
    (hz : readInt u = some (z, ['}'])) : readMembers (fuel + 1) t = some [(k, z)] := by
  rw [readMembers, h]
  show (match readInt u with
    | some (z, ['}']) => some [(k, z)]
    | some (z, ',' :: w) => (readMembers fuel w).map fun kvs => (k, z) :: kvs
    | _ => none) = _
  rw [hz]
  rfl

theorem readMembers_more {t k : Text} {z : Int} {u w : Text} {fuel : Nat} (h : readString t = some (k, ':' :: u))
    (hz : readInt u = some (z, ',' :: w)) : readMembers (fuel + 1) t = (readMembers fuel w).map fun kvs => (k, z) :: kvs := by
  rw [readMembers, h]
  show (match readInt u with
    | some (z, ['}']) => some [(k, z)]
    | some (z, ',' :: w) => (readMembers fuel w).map fun kvs => (k, z) :: kvs
    | _ => none) = _
  rw [hz]
  rfl

theorem readMembers_text : ∀ (kvs : List (Text × Int)) (fuel : Nat), kvs ≠ [] → kvs.length ≤ fuel → (∀ kv ∈ kvs, Plain kv.1) →
    readMembers fuel (membersText kvs ++ ['}']) = some kvs
  | [], _, h, _, _ => absurd rfl h
  | [kv], 0, _, h, _ => by simp at h
  | [kv], fuel + 1, _, _, hk => by
    have e : membersText [kv] ++ ['}'] = '"' :: kv.1 ++ '"' :: (':' :: (intText kv.2 ++ ['}'])) := by
      simp [membersText]
    rw [e]
    exact readMembers_last (readString_key (hk kv (by simp)) _) (readInt_intText kv.2 (by decide) [])
  | kv :: kv2 :: kvs, 0, _, h, _ => by simp at h
  | kv :: kv2 :: kvs, fuel + 1, _, h, hk => by
    have e : membersText (kv :: kv2 :: kvs) ++ ['}'] =
        '"' :: kv.1 ++ '"' :: (':' :: (intText kv.2 ++ ',' :: (membersText (kv2 :: kvs) ++ ['}']))) := by
      simp [membersText]
    rw [e, readMembers_more (readString_key (hk kv (by simp)) _) (readInt_intText kv.2 (by decide) _),
      readMembers_text (kv2 :: kvs) fuel (by simp) (by simpa using h) (fun x hx => hk x (by simp [hx]))]
    rfl

theorem membersText_length (kvs : List (Text × Int)) : kvs.length ≤ (membersText kvs).length := by
  fun_induction membersText kvs with
  | case1 => simp
  | case2 kv => simp
  | case3 kv kvs _ ih =>
    simp only [List.length_append, List.length_cons]
    omega

theorem readObject_marshal {kvs : List (Text × Int)} (h : kvs ≠ []) (hk : ∀ kv ∈ kvs, Plain kv.1) :
    readObject (marshal kvs) = some kvs := by
  unfold marshal readObject
  have hl := membersText_length kvs
  have hr := readMembers_text kvs (membersText kvs ++ ['}']).length h (by rw [List.length_append]; omega) hk
  split
  · next heq =>
    have h1 := congrArg List.length heq
    simp at h1
    rw [h1] at hl
    have := List.length_pos_iff.mpr h
    simp at hl
    exact absurd hl h
  · next heq =>
    injection heq with _ heq
    rw [← heq]
    exact hr
  · next h1 => exact absurd rfl (h1 _)

/-- Only a text with a closing brace is an object. -/
theorem brace_of_members : ∀ (fuel : Nat) (t : Text) {kvs : List (Text × Int)}, readMembers fuel t = some kvs → '}' ∈ t := by
  have hs : ∀ (t : Text) {k u : Text}, readString t = some (k, u) → ∀ c ∈ u, c ∈ t := by
    intro t k u h c hc
    unfold readString at h
    split at h
    · next t' =>
      dsimp only at h
      split at h
      · cases h
      · next q v hd =>
        split at h
        · cases h
        · injection h with h
          injection h with _ h
          subst h
          exact List.mem_cons_of_mem _ ((List.dropWhile_sublist _).subset (hd ▸ List.mem_cons_of_mem _ hc))
    · cases h
  have hd : ∀ (t : Text) {n : Nat} {u : Text}, readDigits t = some (n, u) → ∀ c ∈ u, c ∈ t := by
    intro t n u h c hc
    unfold readDigits at h
    dsimp only at h
    split at h
    · cases h
    · injection h with h
      injection h with _ h
      subst h
      exact (List.dropWhile_sublist _).subset hc
  have hi : ∀ (t : Text) {z : Int} {u : Text}, readInt t = some (z, u) → ∀ c ∈ u, c ∈ t := by
    intro t z u h c hc
    unfold readInt at h
    split at h
    · obtain ⟨x, hx, he⟩ := Option.map_eq_some_iff.mp h
      injection he with _ he
      rw [← he] at hc
      exact List.mem_cons_of_mem _ (hd _ (u := x.2) hx c hc)
    · obtain ⟨x, hx, he⟩ := Option.map_eq_some_iff.mp h
      injection he with _ he
      rw [← he] at hc
      exact hd _ (u := x.2) hx c hc
  intro fuel
  induction fuel with
  | zero => intro t kvs h; cases h
  | succ fuel ih =>
    intro t kvs h
    unfold readMembers at h
    split at h
    · next k u hk =>
      split at h
      · next z hz => exact hs t hk _ (List.mem_cons_of_mem _ (hi u hz _ (by simp)))
      · next z w hz =>
        obtain ⟨x, hx, _⟩ := Option.map_eq_some_iff.mp h
        exact hs t hk _ (List.mem_cons_of_mem _ (hi u hz _ (List.mem_cons_of_mem _ (ih w hx))))
      · cases h
    · cases h

theorem brace_of_object {t : Text} {kvs : List (Text × Int)} (h : readObject t = some kvs) : '}' ∈ t := by
  unfold readObject at h
  split at h
  · simp
  · exact List.mem_cons_of_mem _ (brace_of_members _ _ h)
  · cases h

theorem no_brace_int (z : Int) : '}' ∉ intText z := by
  have hd : '}' ∉ digits z.natAbs := fun h => absurd ((digits_spec z.natAbs).2.1 _ h) (by decide)
  unfold intText
  split
  · simp only [List.mem_cons, not_or]
    exact ⟨by decide, hd⟩
  · exact hd

theorem no_brace_members {kvs : List (Text × Int)} (hk : ∀ kv ∈ kvs, Plain kv.1) : '}' ∉ membersText kvs := by
  fun_induction membersText kvs with
  | case1 => simp
  | case2 kv =>
    have := (hk kv (by simp)).2.2
    simp only [List.mem_cons, List.mem_append, not_or]
    exact ⟨⟨by decide, this⟩, by decide, by decide, no_brace_int _⟩
  | case3 kv kvs _ ih =>
    have := (hk kv (by simp)).2.2
    simp only [List.mem_cons, List.mem_append, not_or]
    exact ⟨⟨⟨by decide, this⟩, by decide, by decide, no_brace_int _⟩, by decide, ih fun x hx => hk x (by simp [hx])⟩

/-- What is cut short is not an object. -/
theorem cut_short {kvs : List (Text × Int)} (hk : ∀ kv ∈ kvs, Plain kv.1) {k : Nat} (h : k < (marshal kvs).length) :
    readObject ((marshal kvs).take k) = none := by
  cases hr : readObject ((marshal kvs).take k) with
  | none => rfl
  | some x =>
    exfalso
    have hb := brace_of_object hr
    unfold marshal at hb h
    rw [List.length_append, List.length_singleton] at h
    rw [List.take_append_of_le_length (by omega)] at hb
    rcases List.mem_cons.mp (List.mem_of_mem_take hb) with hb | hb
    · exact absurd hb (by decide)
    · exact no_brace_members hk hb

/-! ## The binned store -/

/-- The fields are `int64`s, and there are bins (as `NewHashStoreParams` makes sure of). -/
structure Binned.Valid (p : Binned) : Prop where
  a : -2 ^ 63 ≤ p.bitsPerHashIndex ∧ p.bitsPerHashIndex < 2 ^ 63
  b : -2 ^ 63 ≤ p.hashCountEstimate ∧ p.hashCountEstimate < 2 ^ 63
  c : -2 ^ 63 ≤ p.numberOfBins ∧ p.numberOfBins < 2 ^ 63
  d : -2 ^ 63 ≤ p.entriesInBinStart ∧ p.entriesInBinStart < 2 ^ 63
  e : -2 ^ 63 ≤ p.digitsPerNumberedFolder ∧ p.digitsPerNumberedFolder < 2 ^ 63
  f : -2 ^ 63 ≤ p.bytesPerSortNum ∧ p.bytesPerSortNum < 2 ^ 63
  bins : p.numberOfBins ≠ 0 ∧ p.numberOfBins ≠ 1

theorem Binned.plain (p : Binned) : ∀ kv ∈ p.members, Plain kv.1 := by
  intro kv hkv
  simp only [Binned.members, List.mem_cons, List.not_mem_nil, or_false] at hkv
  rcases hkv with rfl | rfl | rfl | rfl | rfl | rfl <;> (unfold Plain; dsimp only; decide)

theorem Uniform.plain (p : Uniform) : ∀ kv ∈ p.members, Plain kv.1 := by
  intro kv hkv
  simp only [Uniform.members, List.mem_cons, List.not_mem_nil, or_false] at hkv
  rcases hkv with rfl | rfl <;> (unfold Plain; dsimp only; decide)

/-- A key that is there once, with a number of the type. -/
theorem field_once {pre post : List (Text × Int)} {key : Text} {z lo hi : Int} (h1 : ∀ kv ∈ pre, kv.1 ≠ key) (h2 : ∀ kv ∈ post, kv.1 ≠ key)
    (hz : lo ≤ z ∧ z < hi) : field (pre ++ (key, z) :: post) key lo hi = some z := by
  have hf : (pre ++ (key, z) :: post).filter (fun kv => kv.1 == key) = [(key, z)] := by
    rw [List.filter_append, List.filter_cons_of_pos (by simp), List.filter_eq_nil_iff.mpr (fun x hx => by simpa using h1 x hx),
      List.filter_eq_nil_iff.mpr (fun x hx => by simpa using h2 x hx)]
    rfl
  unfold field
  rw [hf, if_neg]
  · rfl
  · rw [List.any_eq_true]
    rintro ⟨x, hx, hb⟩
    rw [Bool.and_eq_true, beq_iff_eq, Bool.not_eq_true', decide_eq_false_iff_not] at hb
    rcases List.mem_append.mp hx with hx | hx
    · exact h1 x hx hb.1
    · rcases List.mem_cons.mp hx with rfl | hx
      · exact hb.2 hz
      · exact h2 x hx hb.1

/-- Keys of which `key` is none. -/
theorem not_key {l : List (Text × Int)} {key : Text} (h : key ∉ l.map Prod.fst) : ∀ kv ∈ l, kv.1 ≠ key :=
  fun kv hkv e => h (List.mem_map.mpr ⟨kv, hkv, e⟩)

theorem Binned.ofText_marshal {p : Binned} (h : p.Valid) : Binned.ofText (marshal p.members) = some p := by
  obtain ⟨a, b, c, d, e, f⟩ := p
  obtain ⟨ha, hb, hc, hd, he, hf, -⟩ := h
  dsimp only at ha hb hc hd he hf
  unfold Binned.ofText
  rw [readObject_marshal (by simp [Binned.members]) (Binned.plain _)]
  have f1 : field64 (Binned.members ⟨a, b, c, d, e, f⟩) "bitsPerHashIndex".toList = some a :=
    field_once (pre := []) (by simp) (not_key (by dsimp only [List.map]; decide)) ha
  have f2 : field64 (Binned.members ⟨a, b, c, d, e, f⟩) "hashCountEstimate".toList = some b :=
    field_once (pre := [(_, a)]) (not_key (by dsimp only [List.map]; decide)) (not_key (by dsimp only [List.map]; decide)) hb
  have f3 : field64 (Binned.members ⟨a, b, c, d, e, f⟩) "numberOfBins".toList = some c :=
    field_once (pre := [(_, a), (_, b)]) (not_key (by dsimp only [List.map]; decide)) (not_key (by dsimp only [List.map]; decide)) hc
  have f4 : field64 (Binned.members ⟨a, b, c, d, e, f⟩) "entriesInBinStart".toList = some d :=
    field_once (pre := [(_, a), (_, b), (_, c)]) (not_key (by dsimp only [List.map]; decide))
      (not_key (by dsimp only [List.map]; decide)) hd
  have f5 : field64 (Binned.members ⟨a, b, c, d, e, f⟩) "digitsPerNumberedFolder".toList = some e :=
    field_once (pre := [(_, a), (_, b), (_, c), (_, d)]) (not_key (by dsimp only [List.map]; decide))
      (not_key (by dsimp only [List.map]; decide)) he
  have f6 : field64 (Binned.members ⟨a, b, c, d, e, f⟩) "bytesPerSortNum".toList = some f :=
    field_once (pre := [(_, a), (_, b), (_, c), (_, d), (_, e)]) (not_key (by dsimp only [List.map]; decide)) (by simp) hf
  dsimp only [Option.bind_eq_bind, Option.bind_some]
  rw [f1, f2, f3, f4, f5, f6]
  rfl

theorem Uniform.ofText_marshal {p : Uniform} (h1 : 0 ≤ p.hashDivider ∧ p.hashDivider < 2 ^ 64)
    (h2 : -2 ^ 63 ≤ p.digitsPerFolder ∧ p.digitsPerFolder < 2 ^ 63) : Uniform.ofText (marshal p.members) = some p := by
  obtain ⟨a, b⟩ := p
  dsimp only at h1 h2
  unfold Uniform.ofText
  rw [readObject_marshal (by simp [Uniform.members]) (Uniform.plain _)]
  have f1 : field (Uniform.members ⟨a, b⟩) "hashDivider".toList 0 (2 ^ 64) = some a :=
    field_once (pre := []) (by simp) (not_key (by dsimp only [List.map]; decide)) h1
  have f2 : field64 (Uniform.members ⟨a, b⟩) "digitsPerFolder".toList = some b :=
    field_once (pre := [(_, a)]) (not_key (by dsimp only [List.map]; decide)) (by simp) h2
  dsimp only [Option.bind_eq_bind, Option.bind_some]
  rw [f1, f2]
  rfl

/-- C126: what was written whole is read back, all parameters the same; a file cut short, by a full disk or because the program was
killed, is an error, and never other parameters. -/
theorem binned_parameters_survive {p : Binned} (h : p.Valid) (old : Option Text) (k : Nat) :
    binnedFromFile (newBinned (.wrote k) old p).2 = if (marshal p.members).length ≤ k then .ok p else .err := by
  unfold newBinned Fate.file binnedFromFile
  dsimp only
  by_cases hk : (marshal p.members).length ≤ k
  · rw [if_pos hk, List.take_of_length_le hk, Binned.ofText_marshal h]
    dsimp only
    rw [if_neg (by have := h.bins; omega)]
  · have : Binned.ofText ((marshal p.members).take k) = none := by
      unfold Binned.ofText
      rw [cut_short p.plain (by omega)]
      rfl
    rw [this, if_neg hk]

/-- C126: the same for the uniform store. -/
theorem uniform_parameters_survive {p : Uniform} (h1 : 0 ≤ p.hashDivider ∧ p.hashDivider < 2 ^ 64)
    (h2 : -2 ^ 63 ≤ p.digitsPerFolder ∧ p.digitsPerFolder < 2 ^ 63) (old : Option Text) (k : Nat) :
    uniformFromFile (newUniform (.wrote k) old p).2 = if (marshal p.members).length ≤ k then .ok p else .err := by
  unfold newUniform Fate.file uniformFromFile
  dsimp only
  by_cases hk : (marshal p.members).length ≤ k
  · rw [if_pos hk, List.take_of_length_le hk, Uniform.ofText_marshal h1 h2]
  · have : Uniform.ofText ((marshal p.members).take k) = none := by
      unfold Uniform.ofText
      rw [cut_short p.plain (by omega)]
      rfl
    rw [this, if_neg hk]

/-- C126: in a folder without a file of parameters, whatever becomes of making and writing it, the store is opened again with the
parameters it was made with, or opening it is an error. -/
theorem same_or_error_partial {p : Binned} (h : p.Valid) (fate : Fate) :
    binnedFromFile (newBinned fate none p).2 = .ok (newBinned fate none p).1 ∨ binnedFromFile (newBinned fate none p).2 = .err := by
  cases fate with
  | notMade => exact .inr rfl
  | wrote k =>
    rw [binned_parameters_survive h]
    split
    · exact .inl rfl
    · exact .inr rfl

/-- C126: and so for the uniform store. -/
theorem same_or_error_uniform_partial {p : Uniform} (h1 : 0 ≤ p.hashDivider ∧ p.hashDivider < 2 ^ 64)
    (h2 : -2 ^ 63 ≤ p.digitsPerFolder ∧ p.digitsPerFolder < 2 ^ 63) (fate : Fate) :
    uniformFromFile (newUniform fate none p).2 = .ok (newUniform fate none p).1 ∨ uniformFromFile (newUniform fate none p).2 = .err := by
  cases fate with
  | notMade => exact .inr rfl
  | wrote k =>
    rw [uniform_parameters_survive h1 h2]
    split
    · exact .inl rfl
    · exact .inr rfl

/-- C126 for `CreateHashStore` of the uniform store: it returns nil exactly if the store can be opened from its folder with the
parameters of the creator, and else opening it from the folder is an error. -/
theorem created_uniform_parameters {p : Uniform} (h1 : 0 ≤ p.hashDivider ∧ p.hashDivider < 2 ^ 64)
    (h2 : -2 ^ 63 ≤ p.digitsPerFolder ∧ p.digitsPerFolder < 2 ^ 63) (fate : Fate) :
    uniformFromFile (createUniform fate p).2 = if (createUniform fate p).1 then .ok p else .err := by
  cases fate with
  | notMade => rfl
  | wrote k =>
    have h := uniform_parameters_survive h1 h2 none k
    unfold newUniform Fate.file at h
    unfold createUniform
    dsimp only at h ⊢
    rw [h]
    by_cases hk : (marshal p.members).length ≤ k
    · rw [if_pos hk, if_pos (decide_eq_true hk)]
    · rw [if_neg hk, if_neg (by rw [decide_eq_false hk]; decide)]

/-- C126, against the code: where a file opened with `O_CREATE` alone cannot be written, creating a uniform store is always an
error, and takes away the parameters that the constructor wrote: the store cannot be opened from its folder. -/
theorem creating_takes_the_parameters {p : Uniform} (h1 : 0 ≤ p.hashDivider ∧ p.hashDivider < 2 ^ 64)
    (h2 : -2 ^ 63 ≤ p.digitsPerFolder ∧ p.digitsPerFolder < 2 ^ 63) :
    uniformFromFile (newUniform (.wrote (marshal p.members).length) none p).2 = .ok p ∧
    (createUniform (.wrote 0) p).1 = false ∧ uniformFromFile (createUniform (.wrote 0) p).2 = .err := by
  have h0 : (createUniform (.wrote 0) p).1 = false := by
    unfold createUniform marshal
    simp
  refine ⟨?_, h0, ?_⟩
  · rw [uniform_parameters_survive h1 h2, if_pos (Nat.le_refl _)]
  · rw [created_uniform_parameters h1 h2, h0]
    rfl

/-- C126, against the code: over the file of an earlier store that cannot be written (a file for reading only), the constructor
reports no error, its creator has the new parameters, and later the store is opened with the old ones. -/
theorem old_parameters_are_used {p q : Binned} (hq : q.Valid) :
    (newBinned .notMade (some (marshal q.members)) p).1 = p ∧
    binnedFromFile (newBinned .notMade (some (marshal q.members)) p).2 = .ok q := by
  refine ⟨rfl, ?_⟩
  have h := binned_parameters_survive hq none (marshal q.members).length
  rw [if_pos (Nat.le_refl _)] at h
  unfold newBinned Fate.file at h ⊢
  dsimp only at h ⊢
  rwa [List.take_length] at h

/-! ## What the old parameters do to the store -/

open Bins HashStore3 Bulk3

/-- The parameters that the model of the binned store uses (params.go:27-59; the estimate is not among them). -/
def Binned.params (p : Binned) : Params :=
  ⟨p.bitsPerHashIndex.toNat, p.numberOfBins.toNat, p.entriesInBinStart.toNat, p.digitsPerNumberedFolder.toNat, p.bytesPerSortNum.toNat⟩

theorem empty_bin {p : Params} (hg : Good p) {sort : List Bytes → List Bytes} (hsort : SortOK p sort)
    {L : List Bytes} (hA : Storable p L) {bn : Nat} (hno : ∀ h ∈ L, binNum p h ≠ bn) : finalEntries p sort L bn = [] := by
  obtain ⟨-, -, -, h4⟩ := finalEntries_sub hg hsort hA bn
  cases hf : finalEntries p sort L bn with
  | nil => rfl
  | cons e es =>
    rw [hf] at h4
    obtain ⟨x, hx, -⟩ := List.mem_map.mp (h4 (itemOf p e) (by simp))
    obtain ⟨hm, hb⟩ := List.mem_filter.mp hx
    rw [List.mem_zipIdx_iff_getElem?] at hm
    exact absurd (of_decide_eq_true hb) (hno _ (List.mem_of_getElem? hm))

/-- C126, against the code: a store of hashes is made with other parameters than those of the file that is there and cannot be
written, its constructor reports no error, and all its hashes are indexed. When the parameters differ in the number of bins only,
the store that is opened from the folder later counts all the hashes, but does not find any hash, indexed or not, whose bin by the
parameters read is one to which no hash was put. -/
theorem old_parameters_lose_hashes {fl : Rat → Rat} {new old : Binned} (hold : old.Valid)
    (hsame : old.params = { new.params with numberOfBins := old.params.numberOfBins })
    (hw : old.params.bytesRoomForBinNum = new.params.bytesRoomForBinNum) (hp : ParamsOK new.params)
    {estimate bytesPerPass threads : Nat} (ht : 0 < threads) {sort : List Bytes → List Bytes} (hsort : SortOK new.params sort)
    {L : List Bytes} (hA : Storable new.params L) {d : Disk}
    (hrun : IndexTheHashes (newBinned .notMade (some (marshal old.members)) new).1.params estimate bytesPerPass threads sort L d) :
    ∃ q, binnedFromFile (newBinned .notMade (some (marshal old.members)) new).2 = .ok q ∧
    ∃ s, openStore q.params (WordFile.close d.nums) d.files false = some s ∧ countHashes s = L.length ∧
      ∀ h, binNum q.params h < new.params.numberOfBins → (∀ x ∈ L, binNum new.params x ≠ binNum q.params h) →
        indexOfHash fl q.params s h = some .absent := by
  obtain ⟨h1, h2⟩ := old_parameters_are_used (p := new) hold
  rw [h1] at hrun
  obtain ⟨s, ho, hs⟩ := bulk_store hp ht hsort hA hrun
  refine ⟨old, h2, s, ?_, ?_, ?_⟩
  · unfold openStore at ho ⊢
    rw [hw]
    exact ho
  · have := hs.nums.count
    rw [List.length_map] at this
    exact this
  · intro h hb hno
    have hl : loadBin old.params s.files (binNum old.params h) = loadBin new.params s.files (binNum old.params h) := by
      generalize binNum old.params h = b
      rw [hsame]
      rfl
    have he := hs.bins _ hb
    rw [empty_bin hp.good hsort hA hno] at he
    unfold indexOfHash binFor
    rw [hs.ram]
    dsimp only
    rw [hl, he]
    simp [lookupByHash, findIndex, binLen, scanHash]

/-! ## Instances -/

/-- Parameters like those of a test, and others. -/
def sampleParams : Binned := ⟨30, 1000000, 2000, 50, 2, 3⟩
def otherParams : Binned := ⟨30, -5, 4000, 50, 2, 3⟩

theorem sample_valid : sampleParams.Valid := by constructor <;> decide
theorem other_valid : otherParams.Valid := by constructor <;> decide

example : marshal sampleParams.members = ("{\"bitsPerHashIndex\":30,\"hashCountEstimate\":1000000,\"numberOfBins\":2000,\"" ++
    "entriesInBinStart\":50,\"digitsPerNumberedFolder\":2,\"bytesPerSortNum\":3}").toList := by
  decide +kernel

/-- All of it, all but the last character, and nothing. -/
example : binnedFromFile (newBinned (.wrote 1000) none otherParams).2 = .ok otherParams ∧
    binnedFromFile (newBinned (.wrote 141) none sampleParams).2 = .err ∧ binnedFromFile (newBinned (.wrote 142) none sampleParams).2 = .ok sampleParams ∧
    binnedFromFile (newBinned .notMade none sampleParams).2 = .err := by
  refine ⟨?_, ?_, ?_, rfl⟩
  · rw [binned_parameters_survive other_valid, if_pos (by decide +kernel)]
  · rw [binned_parameters_survive sample_valid, if_neg (by decide +kernel)]
  · rw [binned_parameters_survive sample_valid, if_pos (by decide +kernel)]

/-- The parameters of the other store, with which a hash is in another bin. -/
example : binnedFromFile (newBinned .notMade (some (marshal otherParams.members)) sampleParams).2 = .ok otherParams ∧
    Bins.binNum ⟨30, 4000, 50, 2, 3⟩ (List.replicate 32 9) ≠ Bins.binNum ⟨30, 2000, 50, 2, 3⟩ (List.replicate 32 9) :=
  ⟨(old_parameters_are_used other_valid).2, by decide +kernel⟩

/-- The parameters `demoParams` and others with half as many bins. -/
def halfBins : Binned := ⟨19, 100, 32768, 9, 2, 6⟩
def allBins : Binned := ⟨19, 100, 65536, 9, 2, 6⟩

theorem half_valid : halfBins.Valid := by constructor <;> decide

/-- Four hashes are indexed; later the second is not found. -/
example : ∃ d, IndexTheHashes demoParams 100 (1000 * 1000) 3 demoSort demoFile d ∧
    ∃ q, binnedFromFile (newBinned .notMade (some (marshal halfBins.members)) allBins).2 = .ok q ∧
    ∃ s, openStore q.params (WordFile.close d.nums) d.files false = some s ∧ countHashes s = 4 ∧
      demoFile[1]? = some (9 :: List.replicate 31 1) ∧ indexOfHash fl53 q.params s (9 :: List.replicate 31 1) = some .absent := by
  obtain ⟨d, hd⟩ := bulk_completes demo_paramsOK (estimate := 100) (bytesPerPass := 1000 * 1000) (threads := 3)
    (by decide) (sort := demoSort) demoFile_indexable.storable (by decide +kernel)
  obtain ⟨q, h1, s, h2, h3, h4⟩ := old_parameters_lose_hashes (fl := fl53) (new := allBins) half_valid rfl (by decide +kernel) demo_paramsOK (by decide)
    demoSort_ok demoFile_indexable.storable hd
  refine ⟨d, hd, q, h1, s, h2, h3, rfl, ?_⟩
  have hq : q = halfBins := by
    have := (old_parameters_are_used (p := allBins) half_valid).2
    rw [h1] at this
    cases this
    rfl
  subst hq
  exact h4 _ (by decide +kernel) (by decide +kernel)

/-- A divider beyond `int64`, as the uniform store may have. -/
example : uniformFromFile (newUniform (.wrote 100) none ⟨2 ^ 64 - 1, 2⟩).2 = .ok ⟨2 ^ 64 - 1, 2⟩ := by
  rw [uniform_parameters_survive (by decide) (by decide), if_pos (by decide +kernel)]

/-- Creating a uniform store on a disk with room for 40 bytes, and for 20. -/
example : (createUniform (.wrote 40) ⟨4, 2⟩).1 = true ∧ uniformFromFile (createUniform (.wrote 40) ⟨4, 2⟩).2 = .ok ⟨4, 2⟩ ∧
    (createUniform (.wrote 20) ⟨4, 2⟩).1 = false ∧ uniformFromFile (createUniform (.wrote 20) ⟨4, 2⟩).2 = .err := by
  have a : (createUniform (.wrote 40) ⟨4, 2⟩).1 = true := by decide +kernel
  have b : (createUniform (.wrote 20) ⟨4, 2⟩).1 = false := by decide +kernel
  refine ⟨a, ?_, b, ?_⟩
  · rw [created_uniform_parameters (by decide) (by decide), a]
    rfl
  · rw [created_uniform_parameters (by decide) (by decide), b]
    rfl

example : (createUniform (.wrote 0) ⟨4, 2⟩).1 = false ∧ uniformFromFile (createUniform (.wrote 0) ⟨4, 2⟩).2 = .err :=
  (creating_takes_the_parameters (by decide) (by decide)).2

end Verif.ParamFile
