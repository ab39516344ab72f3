import Verif.Model.PreLoad
import Verif.Lemmas.Bytes

/-! # Lemmas for the two goroutines that sort hashes into files -/

namespace Verif.PreLoad

variable {c : Cfg} {s t : State}

/-! ## Specification -/

/-- The hashes with address `a` among the first `n`, with their numbers, in order. -/
def expected (c : Cfg) (n a : Nat) : List Entry :=
  ((c.hashes.take n).zipIdx.filter fun p => address c.divider p.1 = a).map fun p => ⟨p.2, p.1⟩

theorem expected_zero (a : Nat) : expected c 0 a = [] := by simp [expected]

theorem expected_succ {n : Nat} {h : Bytes} (hh : c.hashes[n]? = some h) (a : Nat) :
    expected c (n + 1) a = expected c n a ++ if address c.divider h = a then [⟨n, h⟩] else [] := by
  have hn : n < c.hashes.length := by
    rcases Nat.lt_or_ge n c.hashes.length with h' | h'
    · exact h'
    · rw [List.getElem?_eq_none h'] at hh; cases hh
  have hl : (c.hashes.take n).length = n := by rw [List.length_take]; omega
  unfold expected
  rw [List.take_add_one, hh, Option.toList_some, List.zipIdx_append, List.filter_append, List.map_append, hl]
  by_cases ha : address c.divider h = a
  · simp [ha]
  · simp [ha]

theorem expected_mem {n a : Nat} {e : Entry} (he : e ∈ expected c n a) :
    e.hash ∈ c.hashes ∧ address c.divider e.hash = a ∧ e.index < c.hashes.length := by
  unfold expected at he
  obtain ⟨p, hp, rfl⟩ := List.mem_map.mp he
  obtain ⟨hp, ha⟩ := List.mem_filter.mp hp
  have := List.mem_zipIdx' (x := p.1) (i := p.2) hp
  refine ⟨?_, by simpa using ha, ?_⟩
  · exact List.mem_of_mem_take (this.2 ▸ List.getElem_mem _)
  · have h1 := this.1
    rw [List.length_take] at h1
    show p.2 < _
    omega

/-! ## Bytes of a file -/

/-- Entries that can be written and read back. -/
def Sound (l : List Entry) : Prop := ∀ e ∈ l, e.index < 2 ^ 64 ∧ e.hash.length = 32

theorem fileBytes_length {l : List Entry} (h : Sound l) : (fileBytes l).length = 40 * l.length := by
  induction l with
  | nil => rfl
  | cons e l ih =>
    have := (h e (by simp)).2
    have := ih fun x hx => h x (by simp [hx])
    simp only [fileBytes, List.flatMap_cons, List.length_append, List.length_cons, leEnc_length] at this ⊢
    omega

theorem fromBytes_fileBytes {l : List Entry} (h : Sound l) : fromBytes (fileBytes l) = some l := by
  have hl := fileBytes_length h
  unfold fromBytes
  rw [hl, if_neg (by omega), Nat.mul_div_cancel_left _ (by omega)]
  congr 1
  clear hl
  induction l with
  | nil => rfl
  | cons e l ih =>
    have he := h e (by simp)
    have hb : fileBytes (e :: l) = (leEnc 8 e.index ++ e.hash) ++ fileBytes l := by simp [fileBytes]
    have h40 : (leEnc 8 e.index ++ e.hash).length = 40 := by rw [List.length_append, leEnc_length]; omega
    rw [List.length_cons, List.range_succ_eq_map, List.map_cons, List.map_map]
    congr 1
    · have h1 : slice (fileBytes (e :: l)) (0 * 40) 8 = leEnc 8 e.index := by
        rw [hb, slice, Nat.zero_mul, List.drop_zero, List.append_assoc]
        exact List.take_left' (leEnc_length _ _)
      have h2 : slice (fileBytes (e :: l)) (0 * 40 + 8) 32 = e.hash := by
        rw [hb, slice, Nat.zero_mul, Nat.zero_add, List.append_assoc, List.drop_left' (leEnc_length _ _)]
        exact List.take_left' he.2
      rw [h1, h2, leDec_leEnc_of_lt (by simpa using he.1)]
    · refine Eq.trans ?_ (ih fun x hx => h x (by simp [hx]))
      apply List.map_congr_left
      intro i _
      have hs : ∀ o n, slice (fileBytes (e :: l)) (40 + o) n = slice (fileBytes l) o n := by
        intro o n
        rw [slice, slice, hb, ← List.drop_drop, List.drop_left' h40]
      show (⟨_, _⟩ : Entry) = ⟨_, _⟩
      congr 1
      · rw [← hs]; congr 2; simp only [Nat.succ_eq_add_one]; omega
      · rw [← hs]; congr 1; simp only [Nat.succ_eq_add_one]; omega

/-! ## The stores -/

/-- The sizes are those of the lists, and no list is empty. -/
structure StoreOK (st : Store) : Prop where
  size : ∀ g, g ∈ st.groups ↔ ∃ l, st.lists g.2 = some l ∧ l.length = g.1
  ne : ∀ a l, st.lists a = some l → l ≠ []

theorem storeOK_new : StoreOK .new := ⟨fun g => by simp [Store.new], fun a l h => by simp [Store.new] at h⟩

theorem upd_self {α : Type} (m : Nat → α) (k : Nat) (v : α) : upd m k v k = v := by simp [upd]

theorem upd_other {α : Type} {m : Nat → α} {k i : Nat} {v : α} (h : i ≠ k) : upd m k v i = m i := by simp [upd, h]

theorem storeOK_new_list {st : Store} (h : StoreOK st) {a : Nat} {l : List Entry} (ha : st.lists a = none) (hl : l ≠ []) :
    StoreOK (st.addNewList a l) := by
  constructor
  · rintro ⟨n, b⟩
    by_cases hb : b = a
    · subst hb
      simp only [Store.addNewList, upd_self, List.mem_cons, h.size, ha, Prod.mk.injEq, and_true]
      constructor
      · rintro (h1 | ⟨l', h1, _⟩)
        · exact ⟨l, rfl, h1.symm⟩
        · cases h1
      · rintro ⟨l', h1, h2⟩
        cases h1; exact Or.inl h2.symm
    · simp only [Store.addNewList, upd_other hb, List.mem_cons, h.size, Prod.mk.injEq, hb, and_false, false_or]
  · intro b l' h1
    by_cases hb : b = a
    · subst hb
      simp only [Store.addNewList, upd_self] at h1
      cases h1; exact hl
    · simp only [Store.addNewList, upd_other hb] at h1
      exact h.ne b l' h1

theorem storeOK_add {st st' : Store} (h : StoreOK st) {a : Nat} {e : Entry} (hs : st.addIfListed a e = some st') :
    ∃ l, st.lists a = some l ∧ st'.lists = upd st.lists a (some (l ++ [e])) ∧ StoreOK st' := by
  unfold Store.addIfListed at hs
  split at hs
  · cases hs
  · rename_i l hl
    cases hs
    refine ⟨l, hl, rfl, ?_, ?_⟩
    · rintro ⟨n, b⟩
      by_cases hb : b = a
      · subst hb
        simp only [upd_self, List.mem_cons, List.mem_filter, h.size, hl, Prod.mk.injEq, and_true]
        constructor
        · rintro (h1 | ⟨⟨l', h1, h2⟩, h3⟩)
          · exact ⟨_, rfl, by simp [h1]⟩
          · cases h1; simp [h2] at h3
        · rintro ⟨l', h1, h2⟩
          cases h1; left; simpa using h2.symm
      · simp only [upd_other hb, List.mem_cons, List.mem_filter, h.size, Prod.mk.injEq, hb, and_false, false_or]
        constructor
        · exact fun h1 => h1.1
        · exact fun h1 => ⟨h1, by simp [hb]⟩
    · intro b l' h1
      by_cases hb : b = a
      · subst hb
        simp only [upd_self] at h1
        cases h1; simp
      · simp only [upd_other hb] at h1
        exact h.ne b l' h1

theorem addIfListed_none {st : Store} {a : Nat} {e : Entry} (hs : st.addIfListed a e = none) : st.lists a = none := by
  unfold Store.addIfListed at hs
  split at hs
  · assumption
  · cases hs

theorem storeOK_extract {st : Store} (h : StoreOK st) {size a : Nat} :
    (∃ l, st.lists a = some l ∧ ∃ st', st.extract size a = .list l st' ∧ st'.lists = upd st.lists a none ∧ StoreOK st') ∨
    (st.extract size a = .nil ∧ (size, a) ∉ st.groups) := by
  unfold Store.extract
  by_cases hg : (size, a) ∈ st.groups
  · left
    obtain ⟨l, hl, hs⟩ := (h.size _).mp hg
    simp only at hl hs
    refine ⟨l, hl, ⟨upd st.lists a none, st.groups.filter fun g => g ≠ (size, a)⟩, ?_, rfl, ?_, ?_⟩
    · rw [if_pos hg, hl]
    · rintro ⟨n, b⟩
      by_cases hb : b = a
      · subst hb
        simp only [upd_self, List.mem_filter, h.size, hl]
        constructor
        · rintro ⟨⟨l', h1, h2⟩, h3⟩
          cases h1; simp [← h2, hs] at h3
        · rintro ⟨l', h1, _⟩; cases h1
      · simp only [upd_other hb, List.mem_filter, h.size]
        constructor
        · exact fun h1 => h1.1
        · exact fun h1 => ⟨h1, by simp [hb]⟩
    · intro b l' h1
      by_cases hb : b = a
      · subst hb
        simp only [upd_self] at h1
        cases h1
      · simp only [upd_other hb] at h1
        exact h.ne b l' h1
  · exact Or.inr ⟨if_neg hg, hg⟩

theorem biggest_aux (gs : List (Nat × Nat)) (m : Nat) :
    m ≤ gs.foldl (fun m g => if g.1 > m then g.1 else m) m ∧
    (∀ g ∈ gs, g.1 ≤ gs.foldl (fun m g => if g.1 > m then g.1 else m) m) ∧
    (gs.foldl (fun m g => if g.1 > m then g.1 else m) m = m ∨
      ∃ g ∈ gs, g.1 = gs.foldl (fun m g => if g.1 > m then g.1 else m) m) := by
  induction gs generalizing m with
  | nil => simp
  | cons g gs ih =>
    simp only [List.foldl_cons]
    by_cases hg : g.1 > m
    · rw [if_pos hg]
      obtain ⟨h1, h2, h3⟩ := ih g.1
      refine ⟨by omega, ?_, ?_⟩
      · intro x hx
        rcases List.mem_cons.mp hx with rfl | hx
        · exact h1
        · exact h2 x hx
      · rcases h3 with h3 | ⟨x, hx, h3⟩
        · exact Or.inr ⟨g, by simp, h3.symm⟩
        · exact Or.inr ⟨x, by simp [hx], h3⟩
    · rw [if_neg hg]
      obtain ⟨h1, h2, h3⟩ := ih m
      refine ⟨h1, ?_, ?_⟩
      · intro x hx
        rcases List.mem_cons.mp hx with rfl | hx
        · omega
        · exact h2 x hx
      · rcases h3 with h3 | ⟨x, hx, h3⟩
        · exact Or.inl h3
        · exact Or.inr ⟨x, by simp [hx], h3⟩

theorem biggest_zero {st : Store} (h : StoreOK st) (hb : st.biggest = 0) (a : Nat) : st.lists a = none := by
  cases hl : st.lists a with
  | none => rfl
  | some l =>
    have h1 := (h.size (l.length, a)).mpr ⟨l, hl, rfl⟩
    have h2 := (biggest_aux st.groups 0).2.1 _ h1
    have h3 := h.ne a l hl
    have h4 : 0 < l.length := List.length_pos_iff.mpr h3
    unfold Store.biggest at hb
    rw [hb] at h2
    simp only at h2
    omega

theorem biggest_mem {st : Store} (hb : 0 < st.biggest) : st.groups.any (fun g => g.1 = st.biggest) = true := by
  rcases (biggest_aux st.groups 0).2.2 with h | ⟨g, hg, h⟩
  · unfold Store.biggest at hb; omega
  · exact List.any_eq_true.mpr ⟨g, hg, decide_eq_true h⟩

/-! ## The bits -/

/-- There is a bit for every address below `n`, and none is set as long as all files are empty. -/
structure BitsOK (b : Bits) (n : Nat) : Prop where
  len : n ≤ 64 * b.words.length
  zero : b.allEmpty = true → ∀ w ∈ b.words, w = 0

theorem bitsOK_new (n : Nat) : BitsOK (.new n) n := by
  constructor
  · simp only [Bits.new, List.length_replicate]
    split <;> omega
  · intro _ w hw
    exact List.eq_of_mem_replicate hw

theorem isEmpty_eq {b : Bits} {n a : Nat} (h : BitsOK b n) (ha : a < n) :
    b.isEmpty a = some (!(b.words.getD (a / 64) 0).testBit (a % 64)) := by
  have hl : a / 64 < b.words.length := by have := h.len; omega
  unfold Bits.isEmpty
  rw [List.getD_eq_getElem?_getD, List.getElem?_eq_getElem hl, Option.getD_some]
  split
  · rename_i he
    rw [h.zero he _ (List.getElem_mem hl)]
    simp
  · simp only [Option.some.injEq]
    cases hb : (b.words[a / 64]).testBit (a % 64) with
    | false =>
      have : b.words[a / 64] &&& 2 ^ (a % 64) = 0 := by
        apply Nat.eq_of_testBit_eq
        intro i
        rw [Nat.testBit_and, Nat.zero_testBit, Nat.testBit_two_pow]
        by_cases hi : a % 64 = i
        · rw [← hi, hb, Bool.false_and]
        · simp [hi]
      simp [this]
    | true =>
      have : b.words[a / 64] &&& 2 ^ (a % 64) ≠ 0 := by
        intro h0
        have := congrArg (fun x => x.testBit (a % 64)) h0
        simp [Nat.testBit_and, hb] at this
      simp [this]

theorem setNotEmpty_eq {b : Bits} {n a : Nat} (h : BitsOK b n) (ha : a < n) :
    ∃ b', b.setNotEmpty a = some b' ∧ BitsOK b' n ∧ ∀ i, i < n → b'.isEmpty i = if i = a then some false else b.isEmpty i := by
  have hl : a / 64 < b.words.length := by have := h.len; omega
  have hk : BitsOK ⟨false, b.words.set (a / 64) (b.words[a / 64] ||| 2 ^ (a % 64))⟩ n :=
    ⟨by simpa using h.len, fun h' => by simp at h'⟩
  refine ⟨_, by unfold Bits.setNotEmpty; rw [List.getElem?_eq_getElem hl], hk, ?_⟩
  intro i hi
  rw [isEmpty_eq hk hi, isEmpty_eq h hi]
  simp only [List.getD_eq_getElem?_getD, List.getElem?_set]
  by_cases hia : i = a
  · subst hia
    simp [hl, Nat.testBit_or]
  · rw [if_neg hia]
    by_cases hw : a / 64 = i / 64
    · have hm : a % 64 ≠ i % 64 := by omega
      rw [if_pos hw, if_pos hl, Option.getD_some, Nat.testBit_or, Nat.testBit_two_pow_of_ne hm, Bool.or_false]
      have : b.words[i / 64]? = some b.words[a / 64] := by rw [← hw, List.getElem?_eq_getElem hl]
      rw [this, Option.getD_some]
    · rw [if_neg hw]

/-! ## Addresses -/

theorem address_le {h : Bytes} (d : Nat) : address d h ≤ biggestAddress d := by
  unfold address biggestAddress address
  apply Nat.div_le_div_right
  have h1 := leDec_lt (h.take 8)
  have h2 : (h.take 8).length ≤ 8 := by simp; omega
  have h3 : 256 ^ (h.take 8).length ≤ 256 ^ 8 := Nat.pow_le_pow_right (by omega) h2
  have h4 : leDec ((List.replicate 32 (255 : UInt8)).take 8) = 256 ^ 8 - 1 := by decide
  rw [h4]
  omega

theorem biggest_lt {d : Nat} (hd : 2 ≤ d) : (biggestAddress d + 1) % 2 ^ 64 = biggestAddress d + 1 := by
  have h4 : leDec ((List.replicate 32 (255 : UInt8)).take 8) = 2 ^ 64 - 1 := by decide
  unfold biggestAddress address
  rw [h4]
  have : (2 ^ 64 - 1) / d ≤ (2 ^ 64 - 1) / 2 := Nat.div_le_div_left hd (by omega)
  exact Nat.mod_eq_of_lt (by omega)

/-! ## Runs -/

/-- What can be reached by steps that satisfy `P`. -/
inductive Reach (P : State → Act → Prop) (c : Cfg) : State → Prop where
  | start : Reach P c (start c)
  | step {s t : State} {x : Act} : Reach P c s → P s x → step c s x = some t → Reach P c t

/-- The list being written, and its address. -/
def flight : Cons → Option (Nat × List Entry)
  | .trunc _ _ a l => some (a, l)
  | .fill _ _ a l => some (a, l)
  | .mark _ _ a l => some (a, l)
  | _ => none

/-- The producer has not found the address in the memory store. -/
def pastMem : Prod → Option Nat
  | .cache a _ => some a
  | .bit a _ => some a
  | .read a _ => some a
  | .putCache a _ => some a
  | .putMem a _ => some a
  | _ => none

/-- Nor in the cache. -/
def pastCache : Prod → Option Nat
  | .bit a _ => some a
  | .read a _ => some a
  | .putCache a _ => some a
  | .putMem a _ => some a
  | _ => none

/-- The hashes that have been handed over. -/
def handed (s : State) : Nat :=
  match s.prod with
  | .mem _ _ => s.sent - 1
  | .cache _ _ => s.sent - 1
  | .bit _ _ => s.sent - 1
  | .read _ _ => s.sent - 1
  | .putCache _ _ => s.sent - 1
  | .putMem _ _ => s.sent - 1
  | _ => s.sent

/-- The entry is the last that was read. -/
def Last (c : Cfg) (s : State) (a : Nat) (e : Entry) : Prop :=
  0 < s.sent ∧ c.hashes[s.sent - 1]? = some e.hash ∧ e.index = s.sent - 1 ∧ a = address c.divider e.hash

/-- What the producer has in its hands. -/
def Hand (c : Cfg) (s : State) : Prop :=
  match s.prod with
  | .mem a e => Last c s a e
  | .cache a e => Last c s a e
  | .bit a e => Last c s a e
  | .read a e => Last c s a e
  | .putCache a l => ∃ e l', l = l' ++ [e] ∧ Last c s a e
  | .putMem a l => ∃ e l', l = l' ++ [e] ∧ Last c s a e
  | .ready => s.sent ≤ c.hashes.length
  | _ => s.sent = c.hashes.length

/-- The producer is not yet past its last hash. -/
def busy : Prod → Bool
  | .last => false
  | .waiting => false
  | .returned => false
  | _ => true

/-- What holds whatever the schedule. -/
structure Inv (c : Cfg) (s : State) : Prop where
  mem : StoreOK s.mem
  cache : StoreOK s.cache
  hand : Hand c s
  pm : ∀ a, pastMem s.prod = some a → s.mem.lists a = none
  pc : ∀ a, pastCache s.prod = some a → s.cache.lists a = none
  bits : BitsOK s.bits (biggestAddress c.divider + 1)
  subMem : ∀ a l, s.mem.lists a = some l → l.Sublist (expected c (handed s) a)
  subCache : ∀ a l, s.cache.lists a = some l → l.Sublist (expected c (handed s) a)
  subFlight : ∀ a l, flight s.cons = some (a, l) → l.Sublist (expected c (handed s) a) ∧ l ≠ []
  subFile : ∀ a, ∃ l, s.files a = fileBytes l ∧ l.Sublist (expected c (handed s) a)
  subPutMem : ∀ a l, s.prod = .putMem a l → l.Sublist (expected c s.sent a)
  subPutCache : ∀ a l, s.prod = .putCache a l → l.Sublist (expected c s.sent a)
  sent : s.allSent = !busy s.prod
  np : s.prod ≠ .panicked

theorem expected_last {a : Nat} {e : Entry} (h : Last c s a e) (b : Nat) :
    expected c s.sent b = expected c (s.sent - 1) b ++ if a = b then [e] else [] := by
  obtain ⟨h0, h1, h2, h3⟩ := h
  have := expected_succ h1 b
  rw [Nat.sub_add_cancel h0] at this
  rw [this, ← h3, ← h2]

theorem expected_mono {a : Nat} {e : Entry} (h : Last c s a e) (b : Nat) :
    (expected c (s.sent - 1) b).Sublist (expected c s.sent b) := by
  rw [expected_last h b]
  exact List.sublist_append_left _ _

theorem sound_expected (hl : ∀ h ∈ c.hashes, h.length = 32) (hn : c.hashes.length ≤ 2 ^ 64) (n a : Nat) :
    Sound (expected c n a) := by
  intro e he
  obtain ⟨h1, _, h2⟩ := expected_mem he
  exact ⟨by omega, hl _ h1⟩

theorem sound_sublist {l l' : List Entry} (h : l.Sublist l') (hs : Sound l') : Sound l := fun e he => hs e (h.subset he)

theorem address_lt {n a : Nat} {l : List Entry} (h : l.Sublist (expected c n a)) (hne : l ≠ []) :
    a < biggestAddress c.divider + 1 := by
  obtain ⟨e, he⟩ := List.exists_mem_of_ne_nil l hne
  obtain ⟨_, h2, _⟩ := expected_mem (h.subset he)
  have := address_le (h := e.hash) c.divider
  omega

/-- The configurations the theorems are about. -/
structure CfgOK (c : Cfg) : Prop where
  divider : 2 ≤ c.divider
  len : ∀ h ∈ c.hashes, h.length = 32
  count : c.hashes.length ≤ 2 ^ 64
  round : 0 < c.round

theorem inv_start (hc : CfgOK c) : Inv c (start c) := by
  constructor
  case mem => exact storeOK_new
  case cache => exact storeOK_new
  case hand => simp [Hand, start]
  case pm => intro a h; simp [start, pastMem] at h
  case pc => intro a h; simp [start, pastCache] at h
  case bits => simp only [start]; rw [biggest_lt hc.divider]; exact bitsOK_new _
  case subMem => intro a l h; simp [start, Store.new] at h
  case subCache => intro a l h; simp [start, Store.new] at h
  case subFlight => intro a l h; simp [start, flight] at h
  case subFile => intro a; exact ⟨[], rfl, List.nil_sublist _⟩
  case subPutMem => intro a l h; simp [start] at h
  case subPutCache => intro a l h; simp [start] at h
  case sent => simp [start, busy]
  case np => simp [start]

/-- A step that leaves the stores, the bits and the files. -/
theorem inv_keep (h : Inv c s) (em : t.mem = s.mem) (ec : t.cache = s.cache) (eb : t.bits = s.bits) (ef : t.files = s.files)
    (el : ∀ a l, flight t.cons = some (a, l) → flight s.cons = some (a, l)) (eh : handed t = handed s) (hand : Hand c t)
    (pm : ∀ a, pastMem t.prod = some a → t.mem.lists a = none) (pc : ∀ a, pastCache t.prod = some a → t.cache.lists a = none)
    (m : ∀ a l, t.prod = .putMem a l → l.Sublist (expected c t.sent a))
    (k : ∀ a l, t.prod = .putCache a l → l.Sublist (expected c t.sent a))
    (sent : t.allSent = !busy t.prod) (np : t.prod ≠ .panicked) : Inv c t where
  mem := em ▸ h.mem
  cache := ec ▸ h.cache
  hand := hand
  pm := pm
  pc := pc
  bits := eb ▸ h.bits
  subMem := by rw [em, eh]; exact h.subMem
  subCache := by rw [ec, eh]; exact h.subCache
  subFlight := by intro a l hf; rw [eh]; exact h.subFlight a l (el a l hf)
  subFile := by rw [ef, eh]; exact h.subFile
  subPutMem := m
  subPutCache := k
  sent := sent
  np := np

/-- A step that puts the entry into the memory store. -/
theorem inv_put_mem (h : Inv c s) {a : Nat} {e : Entry} (hl : Last c s a e) (hs : handed s = s.sent - 1) {st : Store}
    {l : List Entry} (hb : busy s.prod = true) (hm : st.lists = upd s.mem.lists a (some l))
    (hsub : l.Sublist (expected c s.sent a)) (hok : StoreOK st) : Inv c { s with mem := st, prod := .ready } where
  mem := hok
  cache := h.cache
  hand := by
    obtain ⟨h0, h1, _⟩ := hl
    have : s.sent - 1 < c.hashes.length := by
      rcases Nat.lt_or_ge (s.sent - 1) c.hashes.length with h' | h'
      · exact h'
      · rw [List.getElem?_eq_none h'] at h1; cases h1
    show s.sent ≤ c.hashes.length
    omega
  pm := by intro b hb; simp [pastMem] at hb
  pc := by intro b hb; simp [pastCache] at hb
  bits := h.bits
  subMem := by
    intro b l' h1
    simp only [hm] at h1
    show l'.Sublist (expected c s.sent b)
    by_cases hba : b = a
    · subst hba; rw [upd_self] at h1; cases h1; exact hsub
    · rw [upd_other hba] at h1
      have := h.subMem b l' h1
      rw [hs] at this
      exact this.trans (expected_mono hl b)
  subCache := by
    intro b l' h1
    have := h.subCache b l' h1
    rw [hs] at this
    exact this.trans (expected_mono hl b)
  subFlight := by
    intro b l' h1
    have := h.subFlight b l' h1
    rw [hs] at this
    exact ⟨this.1.trans (expected_mono hl b), this.2⟩
  subFile := by
    intro b
    obtain ⟨l', h1, h2⟩ := h.subFile b
    rw [hs] at h2
    exact ⟨l', h1, h2.trans (expected_mono hl b)⟩
  subPutMem := by intro b l' h1; cases h1
  subPutCache := by intro b l' h1; cases h1
  sent := by
    have := h.sent
    rw [hb] at this
    exact this
  np := by simp

/-- A step that puts the entry into the cache. -/
theorem inv_put_cache (h : Inv c s) {a : Nat} {e : Entry} (hl : Last c s a e) (hs : handed s = s.sent - 1) {st : Store}
    {l : List Entry} (hb : busy s.prod = true) (hm : st.lists = upd s.cache.lists a (some l))
    (hsub : l.Sublist (expected c s.sent a)) (hok : StoreOK st) : Inv c { s with cache := st, prod := .ready } where
  mem := h.mem
  cache := hok
  hand := by
    obtain ⟨h0, h1, _⟩ := hl
    have : s.sent - 1 < c.hashes.length := by
      rcases Nat.lt_or_ge (s.sent - 1) c.hashes.length with h' | h'
      · exact h'
      · rw [List.getElem?_eq_none h'] at h1; cases h1
    show s.sent ≤ c.hashes.length
    omega
  pm := by intro b hb; simp [pastMem] at hb
  pc := by intro b hb; simp [pastCache] at hb
  bits := h.bits
  subMem := by
    intro b l' h1
    have := h.subMem b l' h1
    rw [hs] at this
    exact this.trans (expected_mono hl b)
  subCache := by
    intro b l' h1
    simp only [hm] at h1
    show l'.Sublist (expected c s.sent b)
    by_cases hba : b = a
    · subst hba; rw [upd_self] at h1; cases h1; exact hsub
    · rw [upd_other hba] at h1
      have := h.subCache b l' h1
      rw [hs] at this
      exact this.trans (expected_mono hl b)
  subFlight := by
    intro b l' h1
    have := h.subFlight b l' h1
    rw [hs] at this
    exact ⟨this.1.trans (expected_mono hl b), this.2⟩
  subFile := by
    intro b
    obtain ⟨l', h1, h2⟩ := h.subFile b
    rw [hs] at h2
    exact ⟨l', h1, h2.trans (expected_mono hl b)⟩
  subPutMem := by intro b l' h1; cases h1
  subPutCache := by intro b l' h1; cases h1
  sent := by
    have := h.sent
    rw [hb] at this
    exact this
  np := by simp

theorem sub_snoc {a : Nat} {e : Entry} (hl : Last c s a e) {l : List Entry} (h : l.Sublist (expected c (s.sent - 1) a)) :
    (l ++ [e]).Sublist (expected c s.sent a) := by
  rw [expected_last hl a, if_pos rfl]
  exact h.append (List.Sublist.refl _)

theorem inv_stepProd (hc : CfgOK c) (h : Inv c s) (hs : stepProd c s = some t) : Inv c t := by
  have hh := h.hand
  have hse := h.sent
  unfold stepProd at hs
  unfold Hand at hh
  split at hs
  · -- ready
    rename_i hp
    simp only [hp] at hh
    split at hs
    · rename_i hn
      cases hs
      refine inv_keep h rfl rfl rfl rfl (fun _ _ x => x) (by simp [handed, hp]) ?_ (by simp [pastMem]) (by simp [pastCache])
        (by simp) (by simp) (by simp [busy]) (by simp)
      show s.sent = c.hashes.length
      have := List.getElem?_eq_none_iff.mp hn
      omega
    · rename_i b hb
      cases hs
      refine inv_keep h rfl rfl rfl rfl (fun _ _ x => x) (by simp [handed, hp]) ?_ (by simp [pastMem]) (by simp [pastCache])
        (by simp) (by simp) (by simp [hse, hp, busy]) (by simp)
      exact ⟨Nat.succ_pos _, hb, rfl, rfl⟩
  · -- mem
    rename_i a e hp
    simp only [hp] at hh
    have hd : handed s = s.sent - 1 := by simp [handed, hp]
    split at hs
    · rename_i st hst
      cases hs
      obtain ⟨l, h1, h2, h3⟩ := storeOK_add h.mem hst
      refine inv_put_mem h hh hd (by simp [hp, busy]) h2 (sub_snoc hh ?_) h3
      rw [← hd]; exact h.subMem a l h1
    · rename_i hst
      cases hs
      refine inv_keep h rfl rfl rfl rfl (fun _ _ x => x) (by simp [handed, hp]) hh ?_ (by simp [pastCache])
        (by simp) (by simp) (by simp [hse, hp, busy]) (by simp)
      intro b hb
      cases hb
      exact addIfListed_none hst
  · -- cache
    rename_i a e hp
    simp only [hp] at hh
    have hd : handed s = s.sent - 1 := by simp [handed, hp]
    split at hs
    · rename_i st hst
      cases hs
      obtain ⟨l, h1, h2, h3⟩ := storeOK_add h.cache hst
      refine inv_put_cache h hh hd (by simp [hp, busy]) h2 (sub_snoc hh ?_) h3
      rw [← hd]; exact h.subCache a l h1
    · rename_i hst
      cases hs
      refine inv_keep h rfl rfl rfl rfl (fun _ _ x => x) (by simp [handed, hp]) hh ?_ ?_
        (by simp) (by simp) (by simp [hse, hp, busy]) (by simp)
      · intro b hb
        exact h.pm b (by rw [hp]; exact hb)
      · intro b hb
        cases hb
        exact addIfListed_none hst
  · -- bit
    rename_i a e hp
    simp only [hp] at hh
    have hpm : ∀ b, some a = some b → s.mem.lists b = none := fun b hb => h.pm b (by rw [hp]; exact hb)
    have hpc : ∀ b, some a = some b → s.cache.lists b = none := fun b hb => h.pc b (by rw [hp]; exact hb)
    split at hs
    · rename_i hn
      have ha : a < biggestAddress c.divider + 1 := by
        have := address_le (h := e.hash) c.divider
        have := hh.2.2.2
        omega
      rw [isEmpty_eq h.bits ha] at hn
      cases hn
    · cases hs
      refine inv_keep h rfl rfl rfl rfl (fun _ _ x => x) (by simp [handed, hp]) ⟨e, [], rfl, hh⟩ hpm hpc
        ?_ (by simp) (by simp [hse, hp, busy]) (by simp)
      intro b l hb
      cases hb
      exact sub_snoc hh (List.nil_sublist _)
    · cases hs
      exact inv_keep h rfl rfl rfl rfl (fun _ _ x => x) (by simp [handed, hp]) hh hpm hpc
        (by simp) (by simp) (by simp [hse, hp, busy]) (by simp)
  · -- read
    rename_i a e hp
    simp only [hp] at hh
    have hd : handed s = s.sent - 1 := by simp [handed, hp]
    have hpm : ∀ b, some a = some b → s.mem.lists b = none := fun b hb => h.pm b (by rw [hp]; exact hb)
    have hpc : ∀ b, some a = some b → s.cache.lists b = none := fun b hb => h.pc b (by rw [hp]; exact hb)
    obtain ⟨l, h1, h2⟩ := h.subFile a
    rw [h1, fromBytes_fileBytes (sound_sublist h2 (sound_expected hc.len hc.count _ _))] at hs
    simp only [Option.some.injEq] at hs
    subst hs
    refine inv_keep h rfl rfl rfl rfl (fun _ _ x => x) (by simp [handed, hp]) ⟨e, l, rfl, hh⟩ hpm hpc
      (by simp) ?_ (by simp [hse, hp, busy]) (by simp)
    intro b l hb
    cases hb
    rw [hd] at h2
    exact sub_snoc hh h2
  · -- putCache
    rename_i a l hp
    simp only [hp] at hh
    have hd : handed s = s.sent - 1 := by simp [handed, hp]
    obtain ⟨e, l', rfl, hl⟩ := hh
    cases hs
    have hn := h.pc a (by rw [hp]; rfl)
    exact inv_put_cache h hl hd (by simp [hp, busy]) rfl (h.subPutCache a _ hp) (storeOK_new_list h.cache hn (by simp))
  · -- putMem
    rename_i a l hp
    simp only [hp] at hh
    have hd : handed s = s.sent - 1 := by simp [handed, hp]
    obtain ⟨e, l', rfl, hl⟩ := hh
    cases hs
    have hn := h.pm a (by rw [hp]; rfl)
    exact inv_put_mem h hl hd (by simp [hp, busy]) rfl (h.subPutMem a _ hp) (storeOK_new_list h.mem hn (by simp))
  · -- last
    rename_i hp
    simp only [hp] at hh
    split at hs
    · cases hs
      exact inv_keep h rfl rfl rfl rfl (fun _ _ x => x) (by simp [handed, hp]) hh (by simp [pastMem]) (by simp [pastCache])
        (by simp) (by simp) (by simp [hse, hp, busy]) (by simp)
    · split at hs
      · cases hs
        exact inv_keep h rfl rfl rfl rfl (fun _ _ x => by simp [flight] at x) (by simp [handed, hp]) hh (by simp [pastMem])
          (by simp [pastCache]) (by simp) (by simp) (by simp [hse, hp, busy]) (by simp)
      · cases hs
  · -- waiting
    rename_i hp
    simp only [hp] at hh
    split at hs
    · cases hs
      exact inv_keep h rfl rfl rfl rfl (fun _ _ x => by simp [flight] at x) (by simp [handed, hp]) hh (by simp [pastMem])
        (by simp [pastCache]) (by simp) (by simp) (by simp [hse, hp, busy]) (by simp)
    · cases hs
  · cases hs
  · cases hs

/-- A step of the consumer that takes a list or writes a file. -/
theorem inv_cons (h : Inv c s) (ep : t.prod = s.prod) (es : t.sent = s.sent) (ea : t.allSent = s.allSent)
    (mem : StoreOK t.mem) (cache : StoreOK t.cache)
    (em : ∀ a l, t.mem.lists a = some l → s.mem.lists a = some l)
    (ec : ∀ a l, t.cache.lists a = some l → s.cache.lists a = some l)
    (bits : BitsOK t.bits (biggestAddress c.divider + 1))
    (ef : ∀ a, t.files a = s.files a ∨ t.files a = [] ∨ ∃ l, flight s.cons = some (a, l) ∧ t.files a = fileBytes l)
    (el : ∀ a l, flight t.cons = some (a, l) → flight s.cons = some (a, l) ∨ s.mem.lists a = some l ∨ s.cache.lists a = some l) :
    Inv c t := by
  have hh : handed t = handed s := by unfold handed; rw [ep, es]
  have none_of : ∀ {st st' : Store}, (∀ a l, st'.lists a = some l → st.lists a = some l) → ∀ a, st.lists a = none →
      st'.lists a = none := by
    intro st st' h1 a h2
    cases h3 : st'.lists a with
    | none => rfl
    | some l => rw [h1 a l h3] at h2; cases h2
  constructor
  case mem => exact mem
  case cache => exact cache
  case hand =>
    have := h.hand
    unfold Hand Last at this ⊢
    rw [ep, es]
    exact this
  case pm => intro a ha; rw [ep] at ha; exact none_of em a (h.pm a ha)
  case pc => intro a ha; rw [ep] at ha; exact none_of ec a (h.pc a ha)
  case bits => exact bits
  case subMem => intro a l hl; rw [hh]; exact h.subMem a l (em a l hl)
  case subCache => intro a l hl; rw [hh]; exact h.subCache a l (ec a l hl)
  case subFlight =>
    intro a l hl
    rw [hh]
    rcases el a l hl with h1 | h1 | h1
    · exact h.subFlight a l h1
    · exact ⟨h.subMem a l h1, h.mem.ne a l h1⟩
    · exact ⟨h.subCache a l h1, h.cache.ne a l h1⟩
  case subFile =>
    intro a
    rw [hh]
    rcases ef a with h1 | h1 | ⟨l, h1, h2⟩
    · rw [h1]; exact h.subFile a
    · exact ⟨[], h1, List.nil_sublist _⟩
    · exact ⟨l, h2, (h.subFlight a l h1).1⟩
  case subPutMem => intro a l hl; rw [ep] at hl; rw [es]; exact h.subPutMem a l hl
  case subPutCache => intro a l hl; rw [ep] at hl; rw [es]; exact h.subPutCache a l hl
  case sent => rw [ea, ep]; exact h.sent
  case np => rw [ep]; exact h.np

theorem flight_more (n : Nat) (late : Bool) : flight (more c n late) = none := by
  unfold more
  split <;> rfl

theorem inv_stepCons (h : Inv c s) {x : Nat} (hs : stepCons c s x = some t) : Inv c t := by
  unfold stepCons at hs
  split at hs
  · cases hs
  · cases hs
    refine inv_cons h rfl rfl rfl h.mem h.cache (fun _ _ x => x) (fun _ _ x => x) h.bits (fun _ => Or.inl rfl) ?_
    intro a l hl
    simp only at hl
    split at hl
    · rw [flight_more] at hl; cases hl
    · cases hl
  · cases hs
    exact inv_cons h rfl rfl rfl h.mem h.cache (fun _ _ x => x) (fun _ _ x => x) h.bits (fun _ => Or.inl rfl)
      (fun _ _ hl => by simp [flight] at hl)
  · cases hs
    refine inv_cons h rfl rfl rfl h.mem h.cache (fun _ _ x => x) (fun _ _ x => x) h.bits (fun _ => Or.inl rfl) ?_
    intro a l hl
    simp only at hl
    split at hl
    · cases hl
    · split at hl <;> cases hl
  · -- takeMem
    rename_i n late size hp
    rcases storeOK_extract h.mem (size := size) (a := x) with ⟨l, h1, st, h2, h3, h4⟩ | ⟨h1, _⟩
    · rw [h2] at hs
      cases hs
      refine inv_cons h rfl rfl rfl h4 h.cache ?_ (fun _ _ x => x) h.bits (fun _ => Or.inl rfl) ?_
      · intro b l' hb
        simp only [h3] at hb
        by_cases hbx : b = x
        · subst hbx; rw [upd_self] at hb; cases hb
        · rw [upd_other hbx] at hb; exact hb
      · intro b l' hb
        cases hb
        exact Or.inr (Or.inl h1)
    · rw [h1] at hs
      simp only at hs
      split at hs
      · cases hs
      · cases hs
        exact inv_cons h rfl rfl rfl h.mem h.cache (fun _ _ x => x) (fun _ _ x => x) h.bits (fun _ => Or.inl rfl)
          (fun _ _ hl => by simp [flight] at hl)
  · -- takeCache
    rename_i n late size hp
    rcases storeOK_extract h.cache (size := size) (a := x) with ⟨l, h1, st, h2, h3, h4⟩ | ⟨h1, _⟩
    · rw [h2] at hs
      cases hs
      refine inv_cons h rfl rfl rfl h.mem h4 (fun _ _ x => x) ?_ h.bits (fun _ => Or.inl rfl) ?_
      · intro b l' hb
        simp only [h3] at hb
        by_cases hbx : b = x
        · subst hbx; rw [upd_self] at hb; cases hb
        · rw [upd_other hbx] at hb; exact hb
      · intro b l' hb
        cases hb
        exact Or.inr (Or.inr h1)
    · rw [h1] at hs
      simp only at hs
      split at hs
      · cases hs
      · cases hs
        exact inv_cons h rfl rfl rfl h.mem h.cache (fun _ _ x => x) (fun _ _ x => x) h.bits (fun _ => Or.inl rfl)
          (fun _ _ hl => by simp [flight] at hl)
  · -- trunc
    rename_i n late b l hp
    split at hs
    · cases hs
      refine inv_cons h rfl rfl rfl h.mem h.cache (fun _ _ x => x) (fun _ _ x => x) h.bits ?_ ?_
      · intro a
        by_cases hab : a = b
        · subst hab; exact Or.inr (Or.inl (upd_self _ _ _))
        · exact Or.inl (upd_other hab)
      · intro a l' hl
        rw [hp]; exact Or.inl hl
    · cases hs
      exact inv_cons h rfl rfl rfl h.mem h.cache (fun _ _ x => x) (fun _ _ x => x) h.bits (fun _ => Or.inl rfl)
        (fun _ _ hl => by simp [flight] at hl)
  · -- fill
    rename_i n late b l hp
    cases hs
    refine inv_cons h rfl rfl rfl h.mem h.cache (fun _ _ x => x) (fun _ _ x => x) h.bits ?_ ?_
    · intro a
      by_cases hab : a = b
      · subst hab; exact Or.inr (Or.inr ⟨l, by rw [hp]; rfl, upd_self _ _ _⟩)
      · exact Or.inl (upd_other hab)
    · intro a l' hl
      rw [hp]; exact Or.inl hl
  · -- mark
    rename_i n late b l hp
    have h1 := h.subFlight b l (by rw [hp]; rfl)
    obtain ⟨bits, h2, h3, _⟩ := setNotEmpty_eq h.bits (address_lt h1.1 h1.2)
    rw [h2] at hs
    cases hs
    exact inv_cons h rfl rfl rfl h.mem h.cache (fun _ _ x => x) (fun _ _ x => x) h3 (fun _ => Or.inl rfl)
      (fun _ _ hl => by rw [flight_more] at hl; cases hl)
  · cases hs
  · cases hs
  · cases hs

theorem inv_step (hc : CfgOK c) (h : Inv c s) {x : Act} (hs : step c s x = some t) : Inv c t := by
  cases x with
  | prod => exact inv_stepProd hc h hs
  | cons a => exact inv_stepCons h hs
  | short =>
    unfold step at hs
    simp only at hs
    split at hs
    · split at hs
      · cases hs
        exact inv_cons h rfl rfl rfl h.mem h.cache (fun _ _ x => x) (fun _ _ x => x) h.bits (fun _ => Or.inl rfl)
          (fun _ _ hl => by simp [flight] at hl)
      · cases hs
    · cases hs

theorem inv_reach (hc : CfgOK c) {P : State → Act → Prop} (h : Reach P c s) : Inv c s := by
  induction h with
  | start => exact inv_start hc
  | step _ _ hs ih => exact inv_step hc ih hs

/-! ## Careful runs -/

/-- No look for a file while that file is being written; and the consumer only stops after a round that began when all
hashes had been sent. -/
structure Careful (s : State) (x : Act) : Prop where
  bit : x = .prod → ∀ a e, s.prod = .bit a e → ∀ l, flight s.cons ≠ some (a, l)
  stop : ∀ y n late, x = .cons y → s.cons = .test n late → s.allSent = true → n = 0 → late = true

/-- The producer has looked for a file. -/
def pastBit : Prod → Option Nat
  | .read a _ => some a
  | .putCache a _ => some a
  | .putMem a _ => some a
  | _ => none

/-- Where the entries of an address are. -/
structure Hold (c : Cfg) (s : State) : Prop where
  fl : ∀ a l, flight s.cons = some (a, l) → l = expected c (handed s) a ∧ s.mem.lists a = none ∧ s.cache.lists a = none ∧
    pastBit s.prod ≠ some a
  mem : ∀ a l, s.mem.lists a = some l → l = expected c (handed s) a ∧ s.cache.lists a = none
  cache : ∀ a l, s.cache.lists a = some l → l = expected c (handed s) a
  file : ∀ a, (∀ l, flight s.cons ≠ some (a, l)) → s.mem.lists a = none → s.cache.lists a = none →
    s.files a = fileBytes (expected c (handed s) a) ∧
    (a < biggestAddress c.divider + 1 → s.bits.isEmpty a = some (decide (expected c (handed s) a = [])))
  mark : ∀ n late a l, s.cons = .mark n late a l → s.files a = fileBytes l
  putMem : ∀ a l, s.prod = .putMem a l → l = expected c s.sent a
  putCache : ∀ a l, s.prod = .putCache a l → l = expected c s.sent a

theorem hold_start : Hold c (start c) := by
  constructor
  case fl => intro a l h; simp [start, flight] at h
  case mem => intro a l h; simp [start, Store.new] at h
  case cache => intro a l h; simp [start, Store.new] at h
  case file =>
    intro a _ _ _
    simp only [start, handed, expected_zero]
    exact ⟨rfl, fun _ => rfl⟩
  case mark => intro n late a l h; simp [start] at h
  case putMem => intro a l h; simp [start] at h
  case putCache => intro a l h; simp [start] at h

/-- A step of the producer that leaves the stores. -/
theorem hold_keep (h : Hold c s) (em : t.mem = s.mem) (ec : t.cache = s.cache) (eb : t.bits = s.bits) (ef : t.files = s.files)
    (eh : handed t = handed s) (ek : t.cons = s.cons ∨ (flight s.cons = none ∧ flight t.cons = none))
    (pb : ∀ a l, pastBit t.prod = some a → flight s.cons ≠ some (a, l))
    (m : ∀ a l, t.prod = .putMem a l → l = expected c t.sent a)
    (k : ∀ a l, t.prod = .putCache a l → l = expected c t.sent a) : Hold c t := by
  have el : flight t.cons = flight s.cons := by
    rcases ek with h1 | ⟨h1, h2⟩
    · rw [h1]
    · rw [h1, h2]
  constructor
  case fl =>
    intro a l hl
    rw [el] at hl
    rw [em, ec, eh]
    have := h.fl a l hl
    exact ⟨this.1, this.2.1, this.2.2.1, fun hp => pb a l hp hl⟩
  case mem => rw [em, ec, eh]; exact h.mem
  case cache => rw [ec, eh]; exact h.cache
  case file => rw [em, ec, eh, eb, ef, el]; exact h.file
  case mark =>
    intro n late a l hm
    rw [ef]
    rcases ek with h1 | ⟨_, h2⟩
    · rw [h1] at hm; exact h.mark n late a l hm
    · rw [hm] at h2; cases h2
  case putMem => exact m
  case putCache => exact k

theorem given_other {a b : Nat} {e : Entry} (hl : Last c s a e) (h : b ≠ a) :
    expected c s.sent b = expected c (s.sent - 1) b := by
  rw [expected_last hl b, if_neg (Ne.symm h), List.append_nil]

theorem hold_put_mem (h : Hold c s) {a : Nat} {e : Entry} (hl : Last c s a e) (hs : handed s = s.sent - 1) {st : Store}
    (hm : st.lists = upd s.mem.lists a (some (expected c s.sent a))) (hf : ∀ l, flight s.cons ≠ some (a, l))
    (hc : s.cache.lists a = none) : Hold c { s with mem := st, prod := .ready } := by
  constructor
  case fl =>
    intro b l h1
    have h2 := h.fl b l h1
    have hba : b ≠ a := fun hba => hf l (hba ▸ h1)
    show l = expected c s.sent b ∧ st.lists b = none ∧ _ ∧ none ≠ some b
    rw [given_other hl hba, ← hs, hm, upd_other hba]
    exact ⟨h2.1, h2.2.1, h2.2.2.1, by simp⟩
  case mem =>
    intro b l h1
    show l = expected c s.sent b ∧ s.cache.lists b = none
    simp only [hm] at h1
    by_cases hba : b = a
    · subst hba; rw [upd_self] at h1; cases h1; exact ⟨rfl, hc⟩
    · rw [upd_other hba] at h1
      rw [given_other hl hba, ← hs]
      exact h.mem b l h1
  case cache =>
    intro b l h1
    show l = expected c s.sent b
    have hba : b ≠ a := by rintro rfl; rw [hc] at h1; cases h1
    rw [given_other hl hba, ← hs]
    exact h.cache b l h1
  case file =>
    intro b h1 h2 h3
    show s.files b = fileBytes (expected c s.sent b) ∧ (_ → s.bits.isEmpty b = some (decide (expected c s.sent b = [])))
    simp only [hm] at h2
    have hba : b ≠ a := by rintro rfl; rw [upd_self] at h2; cases h2
    rw [upd_other hba] at h2
    rw [given_other hl hba, ← hs]
    exact h.file b h1 h2 h3
  case mark => exact h.mark
  case putMem => intro b l h1; cases h1
  case putCache => intro b l h1; cases h1

theorem hold_put_cache (h : Hold c s) {a : Nat} {e : Entry} (hl : Last c s a e) (hs : handed s = s.sent - 1) {st : Store}
    (hm : st.lists = upd s.cache.lists a (some (expected c s.sent a))) (hf : ∀ l, flight s.cons ≠ some (a, l))
    (hc : s.mem.lists a = none) : Hold c { s with cache := st, prod := .ready } := by
  constructor
  case fl =>
    intro b l h1
    have h2 := h.fl b l h1
    have hba : b ≠ a := fun hba => hf l (hba ▸ h1)
    show l = expected c s.sent b ∧ _ ∧ st.lists b = none ∧ none ≠ some b
    rw [given_other hl hba, ← hs, hm, upd_other hba]
    exact ⟨h2.1, h2.2.1, h2.2.2.1, by simp⟩
  case mem =>
    intro b l h1
    show l = expected c s.sent b ∧ st.lists b = none
    have hba : b ≠ a := by rintro rfl; rw [hc] at h1; cases h1
    rw [given_other hl hba, ← hs, hm, upd_other hba]
    exact h.mem b l h1
  case cache =>
    intro b l h1
    show l = expected c s.sent b
    simp only [hm] at h1
    by_cases hba : b = a
    · subst hba; rw [upd_self] at h1; cases h1; rfl
    · rw [upd_other hba] at h1
      rw [given_other hl hba, ← hs]
      exact h.cache b l h1
  case file =>
    intro b h1 h2 h3
    show s.files b = fileBytes (expected c s.sent b) ∧ (_ → s.bits.isEmpty b = some (decide (expected c s.sent b = [])))
    simp only [hm] at h3
    have hba : b ≠ a := by rintro rfl; rw [upd_self] at h3; cases h3
    rw [upd_other hba] at h3
    rw [given_other hl hba, ← hs]
    exact h.file b h1 h2 h3
  case mark => exact h.mark
  case putMem => intro b l h1; cases h1
  case putCache => intro b l h1; cases h1

theorem given_snoc {a : Nat} {e : Entry} (hl : Last c s a e) (hs : handed s = s.sent - 1) :
    expected c (handed s) a ++ [e] = expected c s.sent a := by
  rw [expected_last hl a, if_pos rfl, hs]

theorem not_flight {a : Nat} (h : Hold c s) (ha : pastBit s.prod = some a) (l : List Entry) : flight s.cons ≠ some (a, l) :=
  fun hf => (h.fl a l hf).2.2.2 ha

theorem hold_stepProd (hc : CfgOK c) (hi : Inv c s) (h : Hold c s) (hcare : Careful s .prod) (hs : stepProd c s = some t) :
    Hold c t := by
  have hh := hi.hand
  unfold stepProd at hs
  unfold Hand at hh
  split at hs
  · -- ready
    rename_i hp
    split at hs
    · cases hs
      exact hold_keep h rfl rfl rfl rfl (by simp [handed, hp]) (Or.inl rfl) (by simp [pastBit]) (by simp) (by simp)
    · cases hs
      exact hold_keep h rfl rfl rfl rfl (by simp [handed, hp]) (Or.inl rfl) (by simp [pastBit]) (by simp) (by simp)
  · -- mem
    rename_i a e hp
    simp only [hp] at hh
    have hd : handed s = s.sent - 1 := by simp [handed, hp]
    split at hs
    · rename_i st hst
      cases hs
      obtain ⟨l, h1, h2, h3⟩ := storeOK_add hi.mem hst
      have h4 := h.mem a l h1
      rw [h4.1, given_snoc hh hd] at h2
      refine hold_put_mem h hh hd h2 ?_ h4.2
      intro l' hf
      rw [(h.fl a l' hf).2.1] at h1
      cases h1
    · cases hs
      exact hold_keep h rfl rfl rfl rfl (by simp [handed, hp]) (Or.inl rfl) (by simp [pastBit]) (by simp) (by simp)
  · -- cache
    rename_i a e hp
    simp only [hp] at hh
    have hd : handed s = s.sent - 1 := by simp [handed, hp]
    split at hs
    · rename_i st hst
      cases hs
      obtain ⟨l, h1, h2, h3⟩ := storeOK_add hi.cache hst
      have h4 := h.cache a l h1
      rw [h4, given_snoc hh hd] at h2
      refine hold_put_cache h hh hd h2 ?_ (hi.pm a (by rw [hp]; rfl))
      intro l' hf
      rw [(h.fl a l' hf).2.2.1] at h1
      cases h1
    · cases hs
      exact hold_keep h rfl rfl rfl rfl (by simp [handed, hp]) (Or.inl rfl) (by simp [pastBit]) (by simp) (by simp)
  · -- bit
    rename_i a e hp
    simp only [hp] at hh
    have hd : handed s = s.sent - 1 := by simp [handed, hp]
    have hf := hcare.bit rfl a e hp
    have ha : a < biggestAddress c.divider + 1 := by
      have := address_le (h := e.hash) c.divider
      have := hh.2.2.2
      omega
    have hfile := (h.file a hf (hi.pm a (by rw [hp]; rfl)) (hi.pc a (by rw [hp]; rfl))).2 ha
    rw [hfile] at hs
    cases hx : decide (expected c (handed s) a = []) with
    | true =>
      rw [hx] at hs
      cases hs
      refine hold_keep h rfl rfl rfl rfl (by simp [handed, hp]) (Or.inl rfl) ?_ ?_ (by simp)
      · intro b l hb; cases hb; exact hf l
      · intro b l hb
        cases hb
        rw [← given_snoc hh hd, of_decide_eq_true hx]
        rfl
    | false =>
      rw [hx] at hs
      cases hs
      refine hold_keep h rfl rfl rfl rfl (by simp [handed, hp]) (Or.inl rfl) ?_ (by simp) (by simp)
      intro b l hb; cases hb; exact hf l
  · -- read
    rename_i a e hp
    simp only [hp] at hh
    have hd : handed s = s.sent - 1 := by simp [handed, hp]
    have hf := not_flight h (a := a) (by rw [hp]; rfl)
    have hfile := (h.file a hf (hi.pm a (by rw [hp]; rfl)) (hi.pc a (by rw [hp]; rfl))).1
    rw [hfile, fromBytes_fileBytes (sound_expected hc.len hc.count _ _)] at hs
    cases hs
    refine hold_keep h rfl rfl rfl rfl (by simp [handed, hp]) (Or.inl rfl) ?_ (by simp) ?_
    · intro b l hb; cases hb; exact hf l
    · intro b l hb
      cases hb
      exact given_snoc hh hd
  · -- putCache
    rename_i a l hp
    simp only [hp] at hh
    have hd : handed s = s.sent - 1 := by simp [handed, hp]
    obtain ⟨e, l', hl', hl⟩ := hh
    cases hs
    rw [h.putCache a l hp]
    exact hold_put_cache h hl hd rfl (not_flight h (by rw [hp]; rfl)) (hi.pm a (by rw [hp]; rfl))
  · -- putMem
    rename_i a l hp
    simp only [hp] at hh
    have hd : handed s = s.sent - 1 := by simp [handed, hp]
    obtain ⟨e, l', hl', hl⟩ := hh
    cases hs
    rw [h.putMem a l hp]
    exact hold_put_mem h hl hd rfl (not_flight h (by rw [hp]; rfl)) (hi.pc a (by rw [hp]; rfl))
  · -- last
    rename_i hp
    split at hs
    · cases hs
      exact hold_keep h rfl rfl rfl rfl (by simp [handed, hp]) (Or.inl rfl) (by simp [pastBit]) (by simp) (by simp)
    · split at hs
      · rename_i hk
        cases hs
        exact hold_keep h rfl rfl rfl rfl (by simp [handed, hp]) (Or.inr ⟨by rw [hk]; rfl, rfl⟩) (by simp [pastBit])
          (by simp) (by simp)
      · cases hs
  · -- waiting
    rename_i hp
    split at hs
    · rename_i hk
      cases hs
      exact hold_keep h rfl rfl rfl rfl (by simp [handed, hp]) (Or.inr ⟨by rw [hk]; rfl, rfl⟩) (by simp [pastBit])
        (by simp) (by simp)
    · cases hs
  · cases hs
  · cases hs

/-- A step of the consumer that touches nothing. -/
theorem hold_cons (h : Hold c s) {k : Cons} (h1 : flight s.cons = none) (h2 : flight k = none) : Hold c { s with cons := k } := by
  constructor
  case fl => intro a l hl; simp only [h2] at hl; cases hl
  case mem => exact h.mem
  case cache => exact h.cache
  case file =>
    intro a _ h4 h5
    exact h.file a (by rw [h1]; simp) h4 h5
  case mark => intro n late a l hm; simp only at hm; rw [hm] at h2; cases h2
  case putMem => exact h.putMem
  case putCache => exact h.putCache

theorem hold_take_mem (h : Hold c s) (hi : Inv c s) {a : Nat} {l : List Entry} {st : Store} {n : Nat} {late : Bool}
    (hl : s.mem.lists a = some l) (hst : st.lists = upd s.mem.lists a none) (hf : flight s.cons = none) :
    Hold c { s with mem := st, cons := .trunc n late a l } := by
  have hm := h.mem a l hl
  constructor
  case fl =>
    intro b l' hb
    cases hb
    refine ⟨hm.1, by show st.lists a = none; rw [hst, upd_self], hm.2, ?_⟩
    intro hp
    have : pastMem s.prod = some a := by
      simp only at hp
      cases hps : s.prod <;> rw [hps] at hp <;> simp_all [pastBit, pastMem]
    rw [hi.pm a this] at hl
    cases hl
  case mem =>
    intro b l' hb
    simp only [hst] at hb
    by_cases hba : b = a
    · subst hba; rw [upd_self] at hb; cases hb
    · rw [upd_other hba] at hb; exact h.mem b l' hb
  case cache => exact h.cache
  case file =>
    intro b h1 h2 h3
    have hba : b ≠ a := by rintro rfl; exact h1 l rfl
    simp only [hst, upd_other hba] at h2
    exact h.file b (by rw [hf]; simp) h2 h3
  case mark => intro n late a l hk; cases hk
  case putMem => exact h.putMem
  case putCache => exact h.putCache

theorem hold_take_cache (h : Hold c s) (hi : Inv c s) {a : Nat} {l : List Entry} {st : Store} {n : Nat} {late : Bool}
    (hl : s.cache.lists a = some l) (hst : st.lists = upd s.cache.lists a none) (hf : flight s.cons = none) :
    Hold c { s with cache := st, cons := .trunc n late a l } := by
  have hm := h.cache a l hl
  have hmem : s.mem.lists a = none := by
    cases hx : s.mem.lists a with
    | none => rfl
    | some l' => rw [(h.mem a l' hx).2] at hl; cases hl
  constructor
  case fl =>
    intro b l' hb
    cases hb
    refine ⟨hm, hmem, by show st.lists a = none; rw [hst, upd_self], ?_⟩
    intro hp
    have : pastCache s.prod = some a := by
      simp only at hp
      cases hps : s.prod <;> rw [hps] at hp <;> simp_all [pastBit, pastCache]
    rw [hi.pc a this] at hl
    cases hl
  case mem =>
    intro b l' hb
    have h1 := h.mem b l' hb
    refine ⟨h1.1, ?_⟩
    show st.lists b = none
    rw [hst]
    by_cases hba : b = a
    · subst hba; rw [upd_self]
    · rw [upd_other hba]; exact h1.2
  case cache =>
    intro b l' hb
    simp only [hst] at hb
    by_cases hba : b = a
    · subst hba; rw [upd_self] at hb; cases hb
    · rw [upd_other hba] at hb; exact h.cache b l' hb
  case file =>
    intro b h1 h2 h3
    have hba : b ≠ a := by rintro rfl; exact h1 l rfl
    simp only [hst, upd_other hba] at h3
    exact h.file b (by rw [hf]; simp) h2 h3
  case mark => intro n late a l hk; cases hk
  case putMem => exact h.putMem
  case putCache => exact h.putCache

/-- A step of writing. -/
theorem hold_write (h : Hold c s) {a : Nat} {l : List Entry} {k : Cons} {f : Bytes} (h1 : flight s.cons = some (a, l))
    (h2 : flight k = some (a, l)) (h3 : ∀ n late b l', k = .mark n late b l' → f = fileBytes l') :
    Hold c { s with files := upd s.files a f, cons := k } := by
  constructor
  case fl => intro b l' hl; simp only [h2] at hl; exact h.fl b l' (h1.trans hl)
  case mem => exact h.mem
  case cache => exact h.cache
  case file =>
    intro b h4 h5 h6
    have hba : b ≠ a := by rintro rfl; exact h4 l h2
    show upd s.files a f b = _ ∧ _
    rw [upd_other hba]
    exact h.file b (fun l' h7 => h4 l' (by simp only [h2]; exact h1.symm.trans h7)) h5 h6
  case mark =>
    intro n late b l' hm
    simp only at hm
    have : b = a := by rw [hm] at h2; cases h2; rfl
    subst this
    show upd s.files b f b = _
    rw [upd_self]
    exact h3 n late b l' hm
  case putMem => exact h.putMem
  case putCache => exact h.putCache

theorem hold_stepCons (hi : Inv c s) (h : Hold c s) {x : Nat} (hs : stepCons c s x = some t) (hn : t.cons ≠ .panicked) :
    Hold c t := by
  unfold stepCons at hs
  split at hs
  · cases hs
  · rename_i hp
    cases hs
    refine hold_cons h (by rw [hp]; rfl) ?_
    split
    · exact flight_more _ _
    · rfl
  · rename_i hp
    cases hs
    exact hold_cons h (by rw [hp]; rfl) rfl
  · rename_i hp
    cases hs
    refine hold_cons h (by rw [hp]; rfl) ?_
    split
    · rfl
    · split <;> rfl
  · -- takeMem
    rename_i n late size hp
    rcases storeOK_extract hi.mem (size := size) (a := x) with ⟨l, h1, st, h2, h3, h4⟩ | ⟨h1, _⟩
    · rw [h2] at hs
      cases hs
      exact hold_take_mem h hi h1 h3 (by rw [hp]; rfl)
    · rw [h1] at hs
      simp only at hs
      split at hs
      · cases hs
      · cases hs
        exact hold_cons h (by rw [hp]; rfl) rfl
  · -- takeCache
    rename_i n late size hp
    rcases storeOK_extract hi.cache (size := size) (a := x) with ⟨l, h1, st, h2, h3, h4⟩ | ⟨h1, _⟩
    · rw [h2] at hs
      cases hs
      exact hold_take_cache h hi h1 h3 (by rw [hp]; rfl)
    · rw [h1] at hs
      simp only at hs
      split at hs
      · cases hs
      · cases hs
        exact hold_cons h (by rw [hp]; rfl) rfl
  · -- trunc
    rename_i n late b l hp
    split at hs
    · cases hs
      exact hold_write h (by rw [hp]; rfl) rfl (by simp)
    · cases hs
      exact absurd rfl hn
  · -- fill
    rename_i n late b l hp
    cases hs
    refine hold_write h (by rw [hp]; rfl) rfl ?_
    intro n' late' b' l' hm
    cases hm
    rfl
  · -- mark
    rename_i n late b l hp
    have h1 := hi.subFlight b l (by rw [hp]; rfl)
    have hk := h.fl b l (by rw [hp]; rfl)
    obtain ⟨bits, h2, h3, h4⟩ := setNotEmpty_eq hi.bits (address_lt h1.1 h1.2)
    rw [h2] at hs
    cases hs
    constructor
    case fl => intro a l' hl; simp only [flight_more] at hl; cases hl
    case mem => exact h.mem
    case cache => exact h.cache
    case file =>
      intro a _ h5 h6
      by_cases hab : a = b
      · subst hab
        refine ⟨?_, fun ha => ?_⟩
        · show s.files a = fileBytes (expected c (handed s) a)
          rw [h.mark n late a l hp, hk.1]
        · show bits.isEmpty a = some (decide (expected c (handed s) a = []))
          rw [h4 a ha, if_pos rfl, ← hk.1]
          simp [h1.2]
      · have h7 := h.file a (by intro l' hl'; rw [hp] at hl'; cases hl'; exact hab rfl) h5 h6
        refine ⟨h7.1, fun ha => ?_⟩
        show bits.isEmpty a = _
        rw [h4 a ha, if_neg hab]
        exact h7.2 ha
    case mark =>
      intro n' late' a l' hm
      have := flight_more (c := c) (n + 1) late
      simp only at hm
      rw [hm] at this
      cases this
    case putMem => exact h.putMem
    case putCache => exact h.putCache
  · cases hs
  · cases hs
  · cases hs

theorem panicked_stepProd (hs : stepProd c s = some t) (hp : s.cons = .panicked) : t.cons = .panicked := by
  unfold stepProd at hs
  split at hs
  all_goals first
    | contradiction
    | (cases hs; exact hp)
    | (split at hs <;> first
        | contradiction
        | (cases hs; exact hp)
        | (simp_all; done)
        | (split at hs <;> simp_all))

theorem panicked_step {x : Act} (hs : step c s x = some t) (hp : s.cons = .panicked) : t.cons = .panicked := by
  cases x with
  | prod => exact panicked_stepProd hs hp
  | cons a => simp only [step, stepCons, hp] at hs; cases hs
  | short =>
    simp only [step, hp] at hs
    split at hs
    · rename_i h1; cases h1
    · cases hs

theorem hold_reach (hc : CfgOK c) (h : Reach Careful c s) (hn : s.cons ≠ .panicked) : Hold c s := by
  induction h with
  | start => exact hold_start
  | @step s t x hr hcare hs ih =>
    have hi := inv_reach hc hr
    have h := ih fun hp => hn (panicked_step hs hp)
    cases x with
    | prod => exact hold_stepProd hc hi h hcare hs
    | cons a => exact hold_stepCons hi h hs hn
    | short =>
      unfold step at hs
      simp only at hs
      split at hs
      · rename_i hp hk
        split at hs
        · cases hs
          exact hold_keep h rfl rfl rfl rfl (by simp [handed]) (Or.inr ⟨by rw [hk]; rfl, rfl⟩) (by simp [pastBit, hp])
            (by simp [hp]) (by simp [hp])
        · cases hs
      · cases hs

/-! ## The end of a careful run -/

/-- The round began when all hashes had been sent, or the consumer has stopped. -/
def lateOf : Cons → Bool
  | .test _ late => late
  | .mem _ late => late
  | .cache _ late _ => late
  | .takeMem _ late _ => late
  | .takeCache _ late _ => late
  | .trunc _ late _ _ => late
  | .fill _ late _ _ => late
  | .mark _ late _ _ => late
  | .ending => true
  | .ended => true
  | _ => false

/-- What the consumer knows in a late round. -/
structure LateOK (s : State) : Prop where
  sent : lateOf s.cons = true → s.allSent = true
  cache : ∀ n m, s.cons = .cache n true m → m = s.mem.biggest
  takeMem : ∀ n m, s.cons = .takeMem n true m → m = s.mem.biggest ∧ 0 < m
  takeCache : ∀ n m, s.cons = .takeCache n true m → m = s.cache.biggest ∧ 0 < m
  test : s.cons = .test 0 true → ∀ a, s.mem.lists a = none ∧ s.cache.lists a = none
  stop : s.cons = .ending ∨ s.cons = .ended → ∀ a, s.mem.lists a = none ∧ s.cache.lists a = none

theorem lateOK_early (h : lateOf s.cons = false) : LateOK s := by
  constructor
  case sent => intro h1; rw [h] at h1; cases h1
  case cache => intro n m h1; rw [h1] at h; cases h
  case takeMem => intro n m h1; rw [h1] at h; cases h
  case takeCache => intro n m h1; rw [h1] at h; cases h
  case test => intro h1; rw [h1] at h; cases h
  case stop => rintro (h1 | h1) <;> rw [h1] at h <;> cases h

theorem lateOK_stepProd (hi : Inv c s) (h : LateOK s) (hs : stepProd c s = some t) : LateOK t := by
  have hse := hi.sent
  have early : busy s.prod = true → t.cons = s.cons → LateOK t := by
    intro hb he
    refine lateOK_early ?_
    rw [he]
    cases hl : lateOf s.cons with
    | false => rfl
    | true => rw [h.sent hl, hb] at hse; cases hse
  unfold stepProd at hs
  split at hs
  case h_8 hp =>
    split at hs
    · cases hs
      exact ⟨h.sent, h.cache, h.takeMem, h.takeCache, h.test, h.stop⟩
    · split at hs
      · cases hs; exact lateOK_early rfl
      · cases hs
  case h_9 hp =>
    split at hs
    · rename_i hk
      cases hs
      refine ⟨fun _ => h.sent (by rw [hk]; rfl), ?_, ?_, ?_, ?_, fun _ => h.stop (Or.inl hk)⟩ <;> intros <;> contradiction
    · cases hs
  all_goals
    rename_i hp
    first
    | contradiction
    | (cases hs; exact early (by rw [hp]; rfl) rfl)
    | (split at hs <;> (cases hs; exact early (by rw [hp]; rfl) rfl))

theorem lateOf_more (n : Nat) (late : Bool) : lateOf (more c n late) = late := by
  unfold more
  split <;> rfl

theorem lateOK_stepCons (hc : CfgOK c) (hi : Inv c s) (h : LateOK s) {x : Nat} (hcare : Careful s (.cons x))
    (hs : stepCons c s x = some t) : LateOK t := by
  have hsent := h.sent
  unfold stepCons at hs
  split at hs
  · cases hs
  · -- test
    rename_i n late hp
    cases hs
    split
    · rename_i hg
      have : more c 0 s.allSent = .mem 0 s.allSent := by unfold more; rw [if_pos hc.round]
      simp only [this]
      refine ⟨fun hl => hl, ?_, ?_, ?_, ?_, ?_⟩ <;> intros <;> simp_all
    · rename_i hg
      have hn : n = 0 := by omega
      have ha : s.allSent = true := by
        cases hx : s.allSent
        · exact absurd (Or.inl hx) hg
        · rfl
      have hl := hcare.stop x n late rfl hp ha hn
      subst hn hl
      refine ⟨fun _ => ha, ?_, ?_, ?_, ?_, fun _ => h.test hp⟩ <;> intros <;> contradiction
  · -- mem
    rename_i n late hp
    cases hs
    refine ⟨fun hl => hsent (by rw [hp]; exact hl), ?_, ?_, ?_, ?_, ?_⟩
    case refine_1 => intro n' m hm; cases hm; rfl
    all_goals intros; simp_all
  · -- cache
    rename_i n late m hp
    cases hs
    split
    · rename_i hm
      refine ⟨fun hl => hsent (by rw [hp]; exact hl), ?_, ?_, ?_, ?_, ?_⟩
      case refine_2 =>
        intro n' m' h1
        cases h1
        exact ⟨h.cache n m hp, by omega⟩
      all_goals intros; simp_all
    · rename_i hm
      split
      · rename_i hk
        refine ⟨fun hl => hsent (by rw [hp]; exact hl), ?_, ?_, ?_, ?_, ?_⟩
        case refine_3 =>
          intro n' m' h1
          cases h1
          exact ⟨rfl, hk⟩
        all_goals intros; simp_all
      · rename_i hk
        refine ⟨fun hl => hsent (by rw [hp]; exact hl), ?_, ?_, ?_, ?_, ?_⟩
        case refine_4 =>
          intro h1 a
          cases h1
          have := h.cache 0 m hp
          exact ⟨biggest_zero hi.mem (by omega) a, biggest_zero hi.cache (by omega) a⟩
        all_goals intros; simp_all
  · -- takeMem
    rename_i n late size hp
    split at hs
    · split at hs
      · cases hs
      · rename_i hg
        cases hs
        refine ⟨fun hl => hsent (by rw [hp]; exact hl), ?_, ?_, ?_, ?_, ?_⟩
        case refine_4 =>
          intro h1 a
          cases h1
          have := h.takeMem 0 size hp
          rw [this.1] at hg
          exact absurd (biggest_mem (by omega)) hg
        all_goals intros; simp_all
    · cases hs
      refine ⟨fun hl => hsent (by rw [hp]; exact hl), ?_, ?_, ?_, ?_, ?_⟩ <;> intros <;> simp_all
    · cases hs; exact lateOK_early rfl
  · -- takeCache
    rename_i n late size hp
    split at hs
    · split at hs
      · cases hs
      · rename_i hg
        cases hs
        refine ⟨fun hl => hsent (by rw [hp]; exact hl), ?_, ?_, ?_, ?_, ?_⟩
        case refine_4 =>
          intro h1 a
          cases h1
          have := h.takeCache 0 size hp
          rw [this.1] at hg
          exact absurd (biggest_mem (by omega)) hg
        all_goals intros; simp_all
    · cases hs
      refine ⟨fun hl => hsent (by rw [hp]; exact hl), ?_, ?_, ?_, ?_, ?_⟩ <;> intros <;> simp_all
    · cases hs; exact lateOK_early rfl
  · -- trunc
    rename_i n late b l hp
    split at hs
    · cases hs
      refine ⟨fun hl => hsent (by rw [hp]; exact hl), ?_, ?_, ?_, ?_, ?_⟩ <;> intros <;> simp_all
    · cases hs; exact lateOK_early rfl
  · -- fill
    rename_i n late b l hp
    cases hs
    refine ⟨fun hl => hsent (by rw [hp]; exact hl), ?_, ?_, ?_, ?_, ?_⟩ <;> intros <;> simp_all
  · -- mark
    rename_i n late b l hp
    split at hs
    · cases hs; exact lateOK_early rfl
    · cases hs
      refine ⟨fun hl => hsent (by rw [hp]; rw [lateOf_more] at hl; exact hl), ?_, ?_, ?_, ?_, ?_⟩ <;>
        (unfold more; split) <;> intros <;> simp_all
  · cases hs
  · cases hs
  · cases hs

theorem lateOK_reach (hc : CfgOK c) (h : Reach Careful c s) : LateOK s := by
  induction h with
  | start => exact lateOK_early rfl
  | @step s t x hr hcare hs ih =>
    have hi := inv_reach hc hr
    cases x with
    | prod => exact lateOK_stepProd hi ih hs
    | cons a => exact lateOK_stepCons hc hi ih hcare hs
    | short =>
      unfold step at hs
      simp only at hs
      split at hs
      · split at hs
        · cases hs; exact lateOK_early rfl
        · cases hs
      · cases hs

/-- The producer has returned only if the consumer has ended. -/
theorem returned_ended {P : State → Act → Prop} (h : Reach P c s) (hr : s.prod = .returned) : s.cons = .ended := by
  induction h with
  | start => cases hr
  | @step s t x _ _ hs ih =>
    cases x with
    | prod =>
      simp only [step] at hs
      unfold stepProd at hs
      split at hs
      case h_9 hp =>
        split at hs
        · cases hs; rfl
        · cases hs
      all_goals first
        | contradiction
        | (cases hs; cases hr)
        | (split at hs <;> first
            | contradiction
            | (cases hs; cases hr)
            | (split at hs <;> first | contradiction | (cases hs; cases hr)))
    | cons a =>
      have hk : ∀ {k}, k = s.cons → k = .ended → stepCons c s a = none := by
        rintro k rfl h1
        unfold stepCons
        rw [h1]
      have hp : t.prod = s.prod := by
        simp only [step] at hs
        unfold stepCons at hs
        split at hs
        all_goals first
          | contradiction
          | (cases hs; rfl)
          | (split at hs <;> first
              | contradiction
              | (cases hs; rfl)
              | (split at hs <;> first | contradiction | (cases hs; rfl)))
      simp only [step] at hs
      rw [hk rfl (ih (hp ▸ hr))] at hs
      cases hs
    | short =>
      unfold step at hs
      simp only at hs
      split at hs
      · rename_i hp _
        split at hs
        · cases hs; rw [hp] at hr; cases hr
        · cases hs
      · cases hs

/-! ## Panics -/

theorem stepCons_panicked (hi : Inv c s) {x : Nat} (hs : stepCons c s x = some t) (hn : t.cons = .panicked) :
    ∃ a, c.writable a = false := by
  unfold stepCons at hs
  split at hs
  · cases hs
  · cases hs
    simp only at hn
    split at hn
    · unfold more at hn; split at hn <;> cases hn
    · cases hn
  · cases hs; cases hn
  · cases hs
    simp only at hn
    split at hn
    · cases hn
    · split at hn <;> cases hn
  · rename_i n late size hp
    rcases storeOK_extract hi.mem (size := size) (a := x) with ⟨l, h1, st, h2, h3, h4⟩ | ⟨h1, _⟩
    · rw [h2] at hs; cases hs; cases hn
    · rw [h1] at hs
      simp only at hs
      split at hs <;> cases hs
      cases hn
  · rename_i n late size hp
    rcases storeOK_extract hi.cache (size := size) (a := x) with ⟨l, h1, st, h2, h3, h4⟩ | ⟨h1, _⟩
    · rw [h2] at hs; cases hs; cases hn
    · rw [h1] at hs
      simp only at hs
      split at hs <;> cases hs
      cases hn
  · rename_i n late b l hp
    split at hs
    · cases hs; cases hn
    · rename_i hw; exact ⟨b, by simpa using hw⟩
  · cases hs; cases hn
  · rename_i n late b l hp
    have h1 := hi.subFlight b l (by rw [hp]; rfl)
    obtain ⟨bits, h2, h3, h4⟩ := setNotEmpty_eq hi.bits (address_lt h1.1 h1.2)
    rw [h2] at hs
    cases hs
    simp only at hn
    unfold more at hn; split at hn <;> cases hn
  · cases hs
  · cases hs
  · cases hs

/-! ## Waking and waiting -/

/-- Who waits for whom. -/
structure Wake (s : State) : Prop where
  quiet : s.hit = false → busy s.prod = true ∨ s.prod = .last → s.cons = .asleep
  woken : s.hit = true → s.cons ≠ .asleep
  waits : s.prod = .waiting → s.cons ≠ .asleep ∧ s.cons ≠ .ended
  ended : s.cons = .ended → s.prod = .returned
  ending : s.cons = .ending → s.allSent = true

theorem wake_stepProd (h : Wake s) (hi : Inv c s) (hs : stepProd c s = some t) : Wake t := by
  have keep : busy s.prod = true → busy t.prod = true ∨ t.prod = .last → t.hit = s.hit → t.cons = s.cons →
      (s.allSent = true → t.allSent = true) → Wake t := by
    intro hb hb' eh ec ea
    refine ⟨fun h1 _ => ?_, fun h1 => ?_, fun h1 => ?_, fun h1 => ?_, fun h1 => ?_⟩
    · rw [ec]; exact h.quiet (eh ▸ h1) (Or.inl hb)
    · rw [ec]; exact h.woken (eh ▸ h1)
    · rw [h1] at hb'; rcases hb' with h2 | h2 <;> cases h2
    · rw [ec] at h1; rw [h.ended h1] at hb; cases hb
    · rw [ec] at h1; exact ea (h.ending h1)
  have hse := hi.sent
  unfold stepProd at hs
  split at hs
  case h_1 hp =>
    split at hs
    · cases hs; exact keep (by rw [hp]; rfl) (Or.inr rfl) rfl rfl (fun _ => rfl)
    · cases hs; exact keep (by rw [hp]; rfl) (Or.inl rfl) rfl rfl (fun x => x)
  case h_8 hp =>
    split at hs
    · rename_i hh
      cases hs
      refine ⟨fun h1 _ => ?_, fun h1 => h.woken h1, fun _ => ⟨h.woken hh, fun h1 => ?_⟩, fun h1 => ?_, fun h1 => h.ending h1⟩
      · simp only [hh] at h1; cases h1
      · have := h.ended h1; rw [hp] at this; cases this
      · have := h.ended h1; rw [hp] at this; cases this
    · rename_i hh
      split at hs
      · cases hs
        refine ⟨fun _ h1 => ?_, fun h1 => absurd h1 hh, fun _ => by simp, by simp, by simp⟩
        rcases h1 with h1 | h1 <;> cases h1
      · cases hs
  case h_9 hp =>
    split at hs
    · cases hs
      refine ⟨fun _ h1 => ?_, fun h1 => by simp, by simp, fun _ => rfl, by simp⟩
      rcases h1 with h1 | h1 <;> cases h1
    · cases hs
  all_goals
    rename_i hp
    first
    | contradiction
    | (cases hs; exact keep (by rw [hp]; rfl) (Or.inl rfl) rfl rfl (fun x => x))
    | (split at hs <;> (cases hs; exact keep (by rw [hp]; rfl) (Or.inl rfl) rfl rfl (fun x => x)))

theorem stepCons_keep {x : Nat} (hs : stepCons c s x = some t) : t.prod = s.prod ∧ t.hit = s.hit ∧ t.allSent = s.allSent ∧
    t.sent = s.sent ∧ s.cons ≠ .asleep ∧ t.cons ≠ .asleep ∧ t.cons ≠ .ended ∧ (t.cons = .ending → s.allSent = true) := by
  have hm : ∀ n late, more c n late ≠ .asleep ∧ more c n late ≠ .ended ∧ more c n late ≠ .ending := by
    intro n late
    unfold more
    split <;> simp
  unfold stepCons at hs
  split at hs
  · cases hs
  · rename_i n late hp
    cases hs
    refine ⟨rfl, rfl, rfl, rfl, by simp [hp], ?_, ?_, ?_⟩
    · dsimp only; split
      · exact (hm _ _).1
      · simp
    · dsimp only; split
      · exact (hm _ _).2.1
      · simp
    · dsimp only; split
      · intro h1; exact absurd h1 (hm _ _).2.2
      · rename_i hg
        intro _
        cases hx : s.allSent
        · exact absurd (Or.inl hx) hg
        · rfl
  · rename_i hp; cases hs; simp [hp]
  · rename_i hp
    cases hs
    dsimp only
    split
    · simp [hp]
    · split <;> simp [hp]
  · rename_i hp
    split at hs
    · split at hs <;> cases hs
      simp [hp]
    · cases hs; simp [hp]
    · cases hs; simp [hp]
  · rename_i hp
    split at hs
    · split at hs <;> cases hs
      simp [hp]
    · cases hs; simp [hp]
    · cases hs; simp [hp]
  · rename_i hp
    split at hs <;> cases hs <;> simp [hp]
  · rename_i hp; cases hs; simp [hp]
  · rename_i hp
    split at hs
    · cases hs; simp [hp]
    · cases hs
      exact ⟨rfl, rfl, rfl, rfl, by simp [hp], (hm _ _).1, (hm _ _).2.1, fun h1 => absurd h1 (hm _ _).2.2⟩
  · cases hs
  · cases hs
  · cases hs

theorem wake_step (hi : Inv c s) (h : Wake s) {x : Act} (hs : step c s x = some t) : Wake t := by
  cases x with
  | prod => exact wake_stepProd h hi hs
  | cons a =>
    obtain ⟨h1, h2, h3, _, h4, h5, h6, h7⟩ := stepCons_keep hs
    exact ⟨fun h8 h9 => absurd (h.quiet (h2 ▸ h8) (h1 ▸ h9)) h4, fun _ => h5, fun _ => ⟨h5, h6⟩, fun h8 => absurd h8 h6,
      fun h8 => h3 ▸ h7 h8⟩
  | short =>
    unfold step at hs
    simp only at hs
    split at hs
    · rename_i hp hk
      split at hs
      · cases hs
        exact ⟨by simp, by simp, by simp [hp], by simp, by simp⟩
      · cases hs
    · cases hs

theorem wake_reach (hc : CfgOK c) {P : State → Act → Prop} (h : Reach P c s) : Wake s := by
  induction h with
  | start => exact ⟨fun _ _ => rfl, by simp [start], by simp [start], by simp [start], by simp [start]⟩
  | step hr _ hs ih => exact wake_step (inv_reach hc hr) ih hs

/-- The consumer can always make a step unless it sleeps, has stopped or has panicked. -/
theorem cons_enabled (hi : Inv c s) (h1 : s.cons ≠ .asleep) (h2 : s.cons ≠ .ending) (h3 : s.cons ≠ .ended)
    (h4 : s.cons ≠ .panicked) : ∃ a t, stepCons c s a = some t := by
  have grp : ∀ {st : Store}, StoreOK st → ∀ {size : Nat}, st.groups.any (fun g => g.1 = size) = true →
      ∃ a l st', st.extract size a = .list l st' := by
    intro st hst size ha
    obtain ⟨⟨n, a⟩, hg, hn⟩ := List.any_eq_true.mp ha
    have hn : n = size := by simpa using hn
    subst hn
    rcases storeOK_extract hst (size := n) (a := a) with ⟨l, _, st', h2, _⟩ | ⟨_, h2⟩
    · exact ⟨a, l, st', h2⟩
    · exact absurd hg h2
  cases hk : s.cons with
  | asleep => exact absurd hk h1
  | ending => exact absurd hk h2
  | ended => exact absurd hk h3
  | panicked => exact absurd hk h4
  | test n late => exact ⟨0, _, by unfold stepCons; rw [hk]⟩
  | mem n late => exact ⟨0, _, by unfold stepCons; rw [hk]⟩
  | cache n late m => exact ⟨0, _, by unfold stepCons; rw [hk]⟩
  | takeMem n late size =>
    by_cases ha : s.mem.groups.any (fun g => g.1 = size) = true
    · obtain ⟨a, l, st', h⟩ := grp hi.mem ha
      exact ⟨a, _, by unfold stepCons; rw [hk]; simp only [h]; rfl⟩
    · rcases storeOK_extract hi.mem (size := size) (a := 0) with ⟨l, _, st', h, _⟩ | ⟨h, _⟩
      · exact ⟨0, _, by unfold stepCons; rw [hk]; simp only [h]; rfl⟩
      · exact ⟨0, _, by unfold stepCons; rw [hk]; simp only [h, if_neg ha]; rfl⟩
  | takeCache n late size =>
    by_cases ha : s.cache.groups.any (fun g => g.1 = size) = true
    · obtain ⟨a, l, st', h⟩ := grp hi.cache ha
      exact ⟨a, _, by unfold stepCons; rw [hk]; simp only [h]; rfl⟩
    · rcases storeOK_extract hi.cache (size := size) (a := 0) with ⟨l, _, st', h, _⟩ | ⟨h, _⟩
      · exact ⟨0, _, by unfold stepCons; rw [hk]; simp only [h]; rfl⟩
      · exact ⟨0, _, by unfold stepCons; rw [hk]; simp only [h, if_neg ha]; rfl⟩
  | trunc n late b l =>
    by_cases hw : c.writable b = true
    · exact ⟨0, _, by unfold stepCons; rw [hk]; simp only [if_pos hw]; rfl⟩
    · exact ⟨0, _, by unfold stepCons; rw [hk]; simp only [if_neg hw]; rfl⟩
  | fill n late b l => exact ⟨0, _, by unfold stepCons; rw [hk]⟩
  | mark n late b l =>
    have h1 := hi.subFlight b l (by rw [hk]; rfl)
    obtain ⟨bits, h2, _, _⟩ := setNotEmpty_eq hi.bits (address_lt h1.1 h1.2)
    exact ⟨0, _, by unfold stepCons; rw [hk]; simp only [h2]; rfl⟩

theorem enabled (hi : Inv c s) (hw : Wake s) (h1 : s.prod ≠ .returned) (h2 : s.cons ≠ .panicked) :
    ∃ x t, x ≠ .short ∧ step c s x = some t := by
  have hcons : s.cons ≠ .asleep → s.cons ≠ .ending → ∃ x t, x ≠ .short ∧ step c s x = some t := by
    intro h3 h4
    obtain ⟨a, t, h⟩ := cons_enabled hi h3 h4 (fun h5 => h1 (hw.ended h5)) h2
    exact ⟨.cons a, t, by simp, h⟩
  have hprod : ∀ t, stepProd c s = some t → ∃ x t, x ≠ .short ∧ step c s x = some t := fun t ht => ⟨.prod, t, by simp, ht⟩
  cases hp : s.prod with
  | ready => cases hh : c.hashes[s.sent]? <;> exact hprod _ (by unfold stepProd; rw [hp]; simp only [hh]; rfl)
  | mem a e => cases hh : s.mem.addIfListed a e <;> exact hprod _ (by unfold stepProd; rw [hp]; simp only [hh]; rfl)
  | cache a e => cases hh : s.cache.addIfListed a e <;> exact hprod _ (by unfold stepProd; rw [hp]; simp only [hh]; rfl)
  | bit a e =>
    cases hh : s.bits.isEmpty a with
    | none => exact hprod _ (by unfold stepProd; rw [hp]; simp only [hh]; rfl)
    | some b => cases b <;> exact hprod _ (by unfold stepProd; rw [hp]; simp only [hh]; rfl)
  | read a e => cases hh : fromBytes (s.files a) <;> exact hprod _ (by unfold stepProd; rw [hp]; simp only [hh]; rfl)
  | putCache a l => exact hprod _ (by unfold stepProd; rw [hp])
  | putMem a l => exact hprod _ (by unfold stepProd; rw [hp])
  | last =>
    cases hh : s.hit with
    | true => exact hprod _ (by unfold stepProd; rw [hp]; simp only [hh, if_true]; rfl)
    | false =>
      have hk := hw.quiet hh (Or.inr hp)
      exact hprod { s with prod := .waiting, cons := .test 0 false } (by unfold stepProd; rw [hp]; simp [hh, hk])
  | waiting =>
    by_cases hk : s.cons = .ending
    · exact hprod { s with prod := .returned, cons := .ended } (by unfold stepProd; rw [hp]; simp [hk])
    · exact hcons (hw.waits hp).1 hk
  | returned => exact absurd hp h1
  | panicked => exact absurd hp hi.np

/-! ## Runs in which memory is never short -/

/-- The consumer has done nothing. -/
structure Idle (s : State) : Prop where
  hit : s.hit = false
  files : ∀ a, s.files a = []
  cons : s.cons = .asleep ∨ (s.cons = .test 0 false ∧ s.allSent = true) ∨ s.cons = .ending ∨ s.cons = .ended

theorem idle_stepProd (hi : Inv c s) (h : Idle s) (hs : stepProd c s = some t) : Idle t := by
  have keep : t.hit = s.hit → t.files = s.files → t.cons = s.cons → (s.allSent = true → t.allSent = true) → Idle t := by
    intro h1 h2 h3 h4
    refine ⟨h1 ▸ h.hit, h2 ▸ h.files, ?_⟩
    rw [h3]
    rcases h.cons with h5 | ⟨h5, h6⟩ | h5
    · exact Or.inl h5
    · exact Or.inr (Or.inl ⟨h5, h4 h6⟩)
    · exact Or.inr (Or.inr h5)
  have hse := hi.sent
  unfold stepProd at hs
  split at hs
  case h_1 hp =>
    split at hs
    · cases hs; exact keep rfl rfl rfl (fun _ => rfl)
    · cases hs; exact keep rfl rfl rfl (fun x => x)
  case h_8 hp =>
    split at hs
    · cases hs; exact keep rfl rfl rfl (fun x => x)
    · split at hs
      · cases hs
        exact ⟨h.hit, h.files, Or.inr (Or.inl ⟨rfl, by show s.allSent = true; rw [hse, hp]; rfl⟩)⟩
      · cases hs
  case h_9 hp =>
    split at hs
    · cases hs; exact ⟨h.hit, h.files, Or.inr (Or.inr (Or.inr rfl))⟩
    · cases hs
  all_goals first
    | contradiction
    | (cases hs; exact keep rfl rfl rfl (fun x => x))
    | (split at hs <;> (cases hs; exact keep rfl rfl rfl (fun x => x)))

theorem idle_reach (hc : CfgOK c) (h : Reach (fun _ x => x ≠ .short) c s) : Idle s := by
  induction h with
  | start => exact ⟨rfl, fun _ => rfl, Or.inl rfl⟩
  | @step s t x hr hn hs ih =>
    have hi := inv_reach hc hr
    cases x with
    | prod => exact idle_stepProd hi ih hs
    | cons a =>
      simp only [step] at hs
      unfold stepCons at hs
      rcases ih.cons with h5 | ⟨h5, h6⟩ | h5 | h5
      · rw [h5] at hs; cases hs
      · rw [h5] at hs
        simp only [h6] at hs
        cases hs
        exact ⟨ih.hit, ih.files, Or.inr (Or.inr (Or.inl (by simp)))⟩
      · rw [h5] at hs; cases hs
      · rw [h5] at hs; cases hs
    | short => exact absurd rfl hn

/-! ## Coming to an end -/

/-- Steps the consumer has left in this round and the one after. -/
def consLeft : Cons → Nat
  | .asleep => 0
  | .test n _ => if n = 0 then 1 else 5
  | .mem n _ => if n = 0 then 4 else 8
  | .cache n _ _ => if n = 0 then 3 else 7
  | .takeMem n _ _ => if n = 0 then 2 else 6
  | .takeCache n _ _ => if n = 0 then 2 else 6
  | .trunc _ _ _ _ => 11
  | .fill _ _ _ _ => 10
  | .mark _ _ _ _ => 9
  | _ => 0

def prodLeft : Prod → Nat
  | .last => 20
  | .waiting => 10
  | _ => 0

def left (s : State) : Nat := 10 * (s.mem.groups.length + s.cache.groups.length) + consLeft s.cons + prodLeft s.prod

theorem extract_shorter {st st' : Store} {size a : Nat} {l : List Entry} (h : st.extract size a = .list l st') :
    st'.groups.length < st.groups.length := by
  unfold Store.extract at h
  split at h
  · rename_i hg
    split at h
    · cases h
    · cases h
      rcases Nat.lt_or_ge (st.groups.filter fun g => g ≠ (size, a)).length st.groups.length with h1 | h1
      · exact h1
      · have h2 := List.length_filter_eq_length_iff.mp (Nat.le_antisymm (List.length_filter_le _ _) h1) _ hg
        simp at h2
  · cases h

theorem left_step (hi : Inv c s) (hc : CfgOK c) (ha : s.allSent = true) {x : Act} (hs : step c s x = some t) :
    left t < left s ∧ t.allSent = true := by
  have hb : busy s.prod = false := by
    have := hi.sent
    rw [ha] at this
    cases hb : busy s.prod
    · rfl
    · rw [hb] at this; cases this
  have hmore : ∀ n late, consLeft (more c (n + 1) late) < 9 := by
    intro n late
    unfold more
    split <;> simp [consLeft]
  cases x with
  | short =>
    unfold step at hs
    simp only at hs
    split at hs
    · rename_i hp _; rw [hp] at hb; cases hb
    · cases hs
  | prod =>
    simp only [step] at hs
    unfold stepProd at hs
    split at hs
    case h_8 hp =>
      split at hs
      · cases hs; refine ⟨?_, ha⟩; simp [left, hp, prodLeft]
      · split at hs
        · rename_i hk; cases hs; refine ⟨?_, ha⟩; simp [left, hp, prodLeft, hk, consLeft]
        · cases hs
    case h_9 hp =>
      split at hs
      · rename_i hk; cases hs; refine ⟨?_, ha⟩; simp [left, hp, prodLeft, hk, consLeft]
      · cases hs
    all_goals
      rename_i hp
      first
      | contradiction
      | (rw [hp] at hb; cases hb)
  | cons a =>
    have hk := (stepCons_keep hs).2.2.1
    refine ⟨?_, hk.trans ha⟩
    simp only [step] at hs
    unfold stepCons at hs
    split at hs
    · cases hs
    · rename_i n late hp
      cases hs
      simp only [left, hp, ha, Bool.true_eq_false, false_or]
      split
      · rw [more, if_pos hc.round]
        simp only [consLeft, if_pos]
        rw [if_neg (show ¬ n = 0 by omega)]
        omega
      · simp only [consLeft]; split <;> omega
    · rename_i n late hp
      cases hs
      simp only [left, hp, consLeft]
      split <;> omega
    · rename_i n late m hp
      cases hs
      simp only [left, hp]
      split
      · simp only [consLeft]; split <;> omega
      · split
        · simp only [consLeft]; split <;> omega
        · simp only [consLeft]; split <;> omega
    · rename_i n late size hp
      split at hs
      · split at hs
        · cases hs
        · cases hs; simp only [left, hp, consLeft]; split <;> omega
      · rename_i hx
        have := extract_shorter hx
        cases hs; simp only [left, hp, consLeft]; split <;> omega
      · cases hs; simp only [left, hp, consLeft]; split <;> omega
    · rename_i n late size hp
      split at hs
      · split at hs
        · cases hs
        · cases hs; simp only [left, hp, consLeft]; split <;> omega
      · rename_i hx
        have := extract_shorter hx
        cases hs; simp only [left, hp, consLeft]; split <;> omega
      · cases hs; simp only [left, hp, consLeft]; split <;> omega
    · rename_i n late b l hp
      split at hs
      · cases hs; simp only [left, hp, consLeft]; omega
      · cases hs; simp only [left, hp, consLeft]; omega
    · rename_i n late b l hp
      cases hs; simp only [left, hp, consLeft]; omega
    · rename_i n late b l hp
      split at hs
      · cases hs; simp only [left, hp, consLeft]; omega
      · cases hs
        have := hmore n late
        simp only [left, hp]
        have h9 : consLeft (.mark n late b l) = 9 := rfl
        rw [h9]
        omega
    · cases hs
    · cases hs
    · cases hs

theorem run_left (hc : CfgOK c) {xs : List Act} : ∀ {s : State}, Inv c s → s.allSent = true → run c s xs = some t →
    xs.length ≤ left s := by
  induction xs with
  | nil => intro s _ _ _; exact Nat.zero_le _
  | cons x xs ih =>
    intro s hi ha hr
    unfold run at hr
    split at hr
    · cases hr
    · rename_i u hu
      have h1 := left_step hi hc ha hu
      have h2 := ih (inv_step hc hi hu) h1.2 hr
      simp only [List.length_cons]
      omega

end Verif.PreLoad
