import Verif.Model.ChainedFiles
import Verif.Lemmas.ChainedHashStore
import Verif.Lemmas.AppendOpt
import Verif.Lemmas.Records
import Verif.Lemmas.Bytes

/-!
# The bytes of the chained hash store against its words
-/

namespace Verif.ChainedFiles

open ChainedHashStore (Params Res msb keyOf hasMsb zeroBuf CH put setLookup)
open HashStores (Found)
open AppendOpt (AOF)

/-! ### Words of a file -/

/-- The file as words of `nb` bytes. -/
def words (nb : Nat) (f : Bytes) : List Nat := (recs nb f).map leDec

theorem words_length (nb : Nat) (f : Bytes) : (words nb f).length = f.length / nb := by
  rw [words, List.length_map, recs_length]

theorem words_getElem? {nb : Nat} (hn : 0 < nb) (f : Bytes) (i : Nat) :
    (words nb f)[i]? = (Verif.readAt f (i * nb) nb).map leDec := by
  rw [words, List.getElem?_map, recs_getElem?]
  unfold Verif.readAt
  by_cases h : i < f.length / nb
  · have := rec_in_range hn h
    rw [if_pos h, if_pos this]; rfl
  · have h2 : ¬ i * nb + nb ≤ f.length := by
      intro h'
      apply h
      rw [Nat.lt_iff_add_one_le, Nat.le_div_iff_mul_le hn, Nat.add_mul]
      omega
    rw [if_neg h, if_neg h2, Option.map_none]

theorem len_eq {nb : Nat} {f : Bytes} (hm : f.length % nb = 0) : f.length = (words nb f).length * nb := by
  rw [words_length]
  have := Nat.div_add_mod f.length nb
  rw [hm] at this
  rw [Nat.mul_comm]; omega

theorem setExt_set {α : Type} {l : List α} {i : Nat} (h : i < l.length) (a pad : α) : setExt l i a pad = l.set i a := by
  apply List.ext_getElem?
  intro j
  rw [setExt_getElem?, List.getElem?_set]
  by_cases hj : j = i
  · rw [if_pos hj, if_pos hj.symm, if_pos h]
  · rw [if_neg hj, if_neg (Ne.symm hj)]
    by_cases hl : j < l.length
    · rw [if_pos hl]
    · rw [if_neg hl, if_neg (by omega), List.getElem?_eq_none (by omega)]

theorem words_write {nb : Nat} (hn : 0 < nb) {f : Bytes} (hm : f.length % nb = 0) (i v : Nat) :
    words nb (Verif.writeAt f (i * nb) (leEnc nb v)) = setExt (words nb f) i (v % 256 ^ nb) 0 ∧
    (Verif.writeAt f (i * nb) (leEnc nb v)).length % nb = 0 := by
  refine ⟨?_, writeAt_rec_mod hn hm (leEnc_length nb v) i⟩
  rw [words, recs_writeAt hn hm (leEnc_length nb v), setExt_map, leDec_leEnc, leDec_zeros]; rfl

theorem words_append {nb : Nat} (hn : 0 < nb) {f g : Bytes} (hf : f.length % nb = 0) :
    words nb (f ++ g) = words nb f ++ words nb g := by
  apply List.ext_getElem?
  intro i
  have hl := len_eq hf
  by_cases hi : i < (words nb f).length
  · rw [List.getElem?_append_left hi, words_getElem? hn, words_getElem? hn]
    have h1 : (i + 1) * nb ≤ (words nb f).length * nb := Nat.mul_le_mul_right _ hi
    rw [Nat.add_mul] at h1
    have hin : i * nb + nb ≤ f.length := by omega
    unfold Verif.readAt
    rw [if_pos hin, if_pos (by rw [List.length_append]; omega), List.drop_append_of_le_length (by omega),
      List.take_append_of_le_length (by rw [List.length_drop]; omega)]
  · rw [List.getElem?_append_right (by omega), words_getElem? hn, words_getElem? hn]
    have h1 : (words nb f).length * nb ≤ i * nb := Nat.mul_le_mul_right _ (by omega)
    have h2 : (i - (words nb f).length) * nb = i * nb - f.length := by rw [Nat.sub_mul]; omega
    unfold Verif.readAt
    rw [h2]
    by_cases hin : i * nb + nb ≤ (f ++ g).length
    · have hin' := hin
      rw [List.length_append] at hin'
      rw [if_pos hin, if_pos (by omega)]
      rw [List.drop_append, List.drop_eq_nil_of_le (by omega), List.nil_append]
    · have hin' := hin
      rw [List.length_append] at hin'
      rw [if_neg hin, if_neg (by omega)]

theorem words_zeros {nb : Nat} (hn : 0 < nb) (n : Nat) : words nb (zeros (n * nb)) = List.replicate n 0 := by
  apply List.ext_getElem?
  intro i
  rw [words_getElem? hn, List.getElem?_replicate]
  unfold Verif.readAt
  rw [zeros_length]
  by_cases hi : i < n
  · have h1 : (i + 1) * nb ≤ n * nb := Nat.mul_le_mul_right _ hi
    rw [Nat.add_mul] at h1
    rw [if_pos (by omega), if_pos hi]
    have : ((zeros (n * nb)).drop (i * nb)).take nb = zeros nb := by
      unfold zeros
      rw [List.drop_replicate, List.take_replicate]
      congr 1; omega
    rw [this]
    simp [leDec_zeros]
  · have h1 : n * nb ≤ i * nb := Nat.mul_le_mul_right _ (by omega)
    rw [if_neg (by omega), if_neg hi]; rfl

theorem words_lt {nb : Nat} (hn : 0 < nb) {f : Bytes} {i w : Nat} (h : (words nb f)[i]? = some w) : w < 256 ^ nb := by
  rw [words_getElem? hn] at h
  unfold Verif.readAt at h
  split at h
  · rename_i hin
    simp only [Option.map_some, Option.some.injEq] at h
    rw [← h]
    have := leDec_lt ((f.drop (i * nb)).take nb)
    rwa [List.length_take, List.length_drop, Nat.min_eq_left (by omega)] at this
  · simp at h

/-! ### The simulation -/

/-- The hashes file holds the hashes. -/
def HshOK : Hsh → List Bytes → Prop
  | .plain d, l => d.length % 32 = 0 ∧ recs 32 d = l
  | .opt a, l => ∃ plain, AppendOpt.Inv a plain ∧ plain.length % 32 = 0 ∧ recs 32 plain = l

/-- What is read through the lookup file. -/
def Lkp.view : Lkp → Bytes
  | .file d => d
  | .mem b _ _ => b

/-- The bytes are the lookup words. -/
structure BufOK (p : Params) (b : Bytes) (look : Nat → Nat) : Prop where
  len : b.length = 2 ^ p.nbits * p.nbytes
  word : ∀ k, k < 2 ^ p.nbits → (words p.nbytes b)[k]? = some (look k)

/-- The files are those of the store of words. -/
structure Sim (p : Params) (s : Store) (c : CH) : Prop where
  hsh : HshOK s.hsh c.hashes
  cnt : s.count = c.hashes.length
  lkp : BufOK p s.lkp.view c.lookups
  cmod : s.cls.length % p.nbytes = 0
  cls : words p.nbytes s.cls = c.coll

theorem keyOf_lt (p : Params) (h : Bytes) : keyOf p h < 2 ^ p.nbits := Nat.mod_lt _ (Nat.two_pow_pos _)

theorem hshOK_read {h : Hsh} {l : List Bytes} (hi : HshOK h l) (i : Nat) :
    HshOK (readHash h i).1 l ∧ (readHash h i).2 = l[i]? := by
  cases h with
  | plain d =>
    obtain ⟨hm, hl⟩ := hi
    refine ⟨⟨hm, hl⟩, ?_⟩
    simp only [readHash, Verif.readAt]
    rw [← hl, recs_getElem?]
    by_cases hin : i < d.length / 32
    · have := rec_in_range (k := 32) (by decide) hin
      rw [if_pos hin, if_pos (by omega)]; rfl
    · rw [if_neg hin, if_neg (by omega)]
  | opt a =>
    obtain ⟨plain, hp, hm, hl⟩ := hi
    obtain ⟨hf1, hf2, _⟩ := AppendOpt.inv_flush hp
    refine ⟨⟨plain, hf1, hm, hl⟩, ?_⟩
    simp only [readHash, AppendOpt.readAt, hf2]
    have hlen := slice_length_le plain (i * 32) 32
    have e : (plain.drop (i * 32)).take 32 = slice plain (i * 32) 32 := rfl
    rw [e, ← hl, recs_getElem?]
    by_cases hin : i < plain.length / 32
    · have := rec_in_range (k := 32) (by decide) hin
      rw [if_pos hin, if_neg (by omega)]
    · rw [if_neg hin, if_pos (by omega)]

theorem hshOK_append {h : Hsh} {l : List Bytes} (hi : HshOK h l) {v : Bytes} (hv : v.length = 32) :
    HshOK (writeHash h l.length v) (l ++ [v]) := by
  have hv0 : v ≠ [] := by intro e; rw [e] at hv; simp at hv
  cases h with
  | plain d =>
    obtain ⟨hm, hl⟩ := hi
    refine ⟨writeAt_rec_mod (by decide) hm hv _, ?_⟩
    rw [recs_writeAt (by decide) hm hv, hl, setExt_end]
  | opt a =>
    obtain ⟨plain, hp, hm, hl⟩ := hi
    refine ⟨_, AppendOpt.inv_writeAt hp (Or.inl hv0), writeAt_rec_mod (by decide) hm hv _, ?_⟩
    rw [recs_writeAt (by decide) hm hv, hl, setExt_end]

theorem lkp_read {p : Params} (hn : 0 < p.nbytes) {l : Lkp} {look : Nat → Nat} (h : BufOK p l.view look) {k : Nat}
    (hk : k < 2 ^ p.nbits) : ∃ lb, l.readAt (k * p.nbytes) p.nbytes = .ok lb ∧ lb.length = p.nbytes ∧ leDec lb = look k := by
  have hw := h.word k hk
  rw [words_getElem? hn] at hw
  have hin : k * p.nbytes + p.nbytes ≤ l.view.length := by
    rw [h.len]
    have : (k + 1) * p.nbytes ≤ 2 ^ p.nbits * p.nbytes := Nat.mul_le_mul_right _ hk
    rw [Nat.add_mul] at this; omega
  rw [Verif.readAt, if_pos hin, Option.map_some, Option.some.injEq] at hw
  refine ⟨_, ?_, ?_, hw⟩
  · cases l with
    | file d => simp only [Lkp.view] at hin; simp only [Lkp.readAt, Verif.readAt, if_pos hin]; rfl
    | mem b s d =>
      simp only [Lkp.view] at hin
      simp only [Lkp.readAt, Lkp.view]
      rw [if_pos (by omega), List.drop_append_of_le_length (by omega),
        List.take_append_of_le_length (by rw [List.length_drop]; omega)]
  · rw [List.length_take, List.length_drop]; omega

theorem writeAt_take {b s v : Bytes} {off : Nat} (h : off + v.length ≤ b.length) :
    (Verif.writeAt (b ++ s) off v).take b.length = Verif.writeAt b off v := by
  by_cases hv : v = []
  · simp [Verif.writeAt, hv]
  · apply List.ext_getElem?
    intro i
    rw [List.getElem?_take]
    have hl : (Verif.writeAt b off v).length = b.length := by rw [writeAt_length hv]; omega
    by_cases hi : i < b.length
    · rw [if_pos hi, writeAt_getElem? hv, writeAt_getElem? hv, List.length_append, List.getElem?_append_left hi,
        if_pos hi, if_pos (show i < b.length + s.length by omega)]
    · rw [if_neg hi, List.getElem?_eq_none (by omega)]

theorem lkp_write {p : Params} (hn : 0 < p.nbytes) {l : Lkp} {look : Nat → Nat} (h : BufOK p l.view look) {k : Nat}
    (hk : k < 2 ^ p.nbits) (v : Nat) :
    ∃ l', l.writeAt (k * p.nbytes) (leEnc p.nbytes v) = .ok l' ∧
      BufOK p l'.view (fun j => if j = k then put p v else look j) ∧
      (∀ b s d, l = .mem b s d → ∃ b' s', l' = .mem b' s' d) ∧ (∀ d, l = .file d → ∃ d', l' = .file d') := by
  have hin : k * p.nbytes + p.nbytes ≤ l.view.length := by
    rw [h.len]
    have : (k + 1) * p.nbytes ≤ 2 ^ p.nbits * p.nbytes := Nat.mul_le_mul_right _ hk
    rw [Nat.add_mul] at this; omega
  have hne : leEnc p.nbytes v ≠ [] := by
    intro e
    have := leEnc_length p.nbytes v
    rw [e] at this; simp at this; omega
  have hm : l.view.length % p.nbytes = 0 := by rw [h.len]; exact Nat.mul_mod_left _ _
  have hb : BufOK p (Verif.writeAt l.view (k * p.nbytes) (leEnc p.nbytes v)) (fun j => if j = k then put p v else look j) := by
    refine ⟨?_, ?_⟩
    · rw [writeAt_length hne, leEnc_length, ← h.len]; omega
    · intro j hj
      rw [(words_write hn hm k v).1, setExt_getElem?]
      by_cases he : j = k
      · rw [if_pos he, if_pos he]; rfl
      · have := h.word j hj
        have hl : j < (words p.nbytes l.view).length := by
          rcases Nat.lt_or_ge j (words p.nbytes l.view).length with h1 | h1
          · exact h1
          · rw [List.getElem?_eq_none h1] at this; cases this
        rw [if_neg he, if_neg he, if_pos hl, this]
  cases l with
  | file d => exact ⟨_, rfl, hb, (by intro b s d h; cases h), fun d _ => ⟨_, rfl⟩⟩
  | mem b s d =>
    simp only [Lkp.view] at hin hb
    refine ⟨_, by simp only [Lkp.writeAt]; rw [if_pos (by rw [leEnc_length]; omega)], ?_, ?_, (by intro d h; cases h)⟩
    · simp only [Lkp.view]
      rw [writeAt_take (by rw [leEnc_length]; exact hin)]
      exact hb
    · intro b0 s0 d0 e
      cases e
      exact ⟨_, _, rfl⟩

/-! ### Chains -/

theorem firstZero_eq (nb : Nat) (b : Bytes) (ws : List Nat) (n j : Nat)
    (h : ∀ t, t < n → ws[t]? = some (leDec ((b.drop ((j + t) * nb)).take nb))) :
    firstZero nb b j n = ((ws.take n).findIdx? (· == 0)).map (j + ·) := by
  induction n generalizing j ws with
  | zero => simp [firstZero]
  | succ n ih =>
    have h0 := h 0 (by omega)
    cases ws with
    | nil => simp at h0
    | cons w ws =>
      rw [List.getElem?_cons_zero, Option.some.injEq, Nat.add_zero] at h0
      rw [firstZero, List.take_succ_cons, List.findIdx?_cons, ← h0]
      by_cases hw : w = 0
      · simp [hw]
      · rw [if_neg hw, if_neg (by simpa using hw)]
        rw [ih ws (j + 1) (by
          intro t ht
          have := h (t + 1) (by omega)
          rw [List.getElem?_cons_succ] at this
          rw [this, show j + (t + 1) = j + 1 + t by omega])]
        rw [Option.map_map]
        congr 1
        funext x
        simp only [Function.comp]
        omega

/-- Reading a chunk of the bytes is reading the chunk of words. -/
theorem readChunk_sim {p : Params} (hn : 0 < p.nbytes) {cls : Bytes} {ws : List Nat} {chunk : Nat}
    (hm : cls.length % p.nbytes = 0) (h : ChainedHashStore.readChunk p (words p.nbytes cls) chunk = some ws) :
    ∃ b, Verif.readAt cls (chunk * (p.cpc + 1) * p.nbytes) (p.nbytes * (p.cpc + 1)) = some b ∧
      ∀ t, t ≤ p.cpc → ws[t]? = some (leDec ((b.drop (t * p.nbytes)).take p.nbytes)) := by
  have hlen := len_eq hm
  unfold ChainedHashStore.readChunk at h
  split at h
  case isFalse => cases h
  rename_i hin
  have h1 : (chunk + 1) * (p.cpc + 1) * p.nbytes ≤ cls.length := by
    rw [hlen]; exact Nat.mul_le_mul_right _ hin
  have h2 : (chunk + 1) * (p.cpc + 1) * p.nbytes = chunk * (p.cpc + 1) * p.nbytes + p.nbytes * (p.cpc + 1) := by
    rw [Nat.add_mul, Nat.add_mul, Nat.one_mul, Nat.mul_comm p.nbytes]
  refine ⟨_, by rw [Verif.readAt, if_pos (by omega)], ?_⟩
  intro t ht
  rw [← Option.some.inj h, List.getElem?_take_of_lt (by omega), List.getElem?_drop, words_getElem? hn]
  have h3 : (chunk * (p.cpc + 1) + t) * p.nbytes = chunk * (p.cpc + 1) * p.nbytes + t * p.nbytes := by rw [Nat.add_mul]
  have h4 : (t + 1) * p.nbytes ≤ (p.cpc + 1) * p.nbytes := Nat.mul_le_mul_right _ (by omega)
  rw [Nat.add_mul, Nat.one_mul] at h4
  rw [Nat.mul_comm p.nbytes] at h2
  rw [Verif.readAt, if_pos (by omega), Option.map_some, h3, List.drop_take, List.drop_drop, List.take_take]
  congr 4
  rw [Nat.mul_comm p.nbytes]
  omega

theorem writeAt_end' (f : Bytes) (n : Nat) : Verif.writeAt f f.length (zeros n) = f ++ zeros n := AppendOpt.writeAt_end f _

theorem mod_append {nb : Nat} {f : Bytes} (hm : f.length % nb = 0) (n : Nat) : (f ++ zeros (n * nb)).length % nb = 0 := by
  rw [List.length_append, zeros_length, Nat.add_mul_mod_self_right]; exact hm

/-- Finding a slot in the bytes follows finding a slot in the words. -/
theorem findSlot_sim {p : Params} (hn : 0 < p.nbytes) {cls : Bytes} (hm : cls.length % p.nbytes = 0) (fuel chunk : Nat)
    {coll' : List Nat} {slot : Nat} (h : ChainedHashStore.findSlot p (words p.nbytes cls) fuel chunk = .ok (coll', slot)) :
    ∃ cls' ch j, findSlot p cls fuel chunk = .ok (cls', ch, j) ∧ words p.nbytes cls' = coll' ∧
      cls'.length % p.nbytes = 0 ∧ ch * (p.cpc + 1) + j = slot := by
  induction fuel generalizing chunk with
  | zero => cases h
  | succ fuel ih =>
    rw [ChainedHashStore.findSlot] at h
    cases hr : ChainedHashStore.readChunk p (words p.nbytes cls) chunk with
    | none => rw [hr] at h; cases h
    | some ws =>
      obtain ⟨b, hb, hw⟩ := readChunk_sim hn hm hr
      rw [hr] at h
      dsimp only at h
      rw [findSlot, hb]
      dsimp only
      rw [firstZero_eq p.nbytes b ws p.cpc 0 (by intro t ht; rw [Nat.zero_add]; exact hw t (by omega))]
      have hnext : ws.getD p.cpc 0 = leDec ((b.drop (p.cpc * p.nbytes)).take p.nbytes) := by
        rw [List.getD_eq_getElem?_getD, hw p.cpc (Nat.le_refl _)]; rfl
      rw [hnext] at h
      cases hf : (ws.take p.cpc).findIdx? (· == 0) with
      | some j =>
        rw [hf] at h
        cases h
        exact ⟨_, _, _, rfl, rfl, hm, by simp⟩
      | none =>
        rw [hf] at h
        simp only [Option.map_none]
        dsimp only at h
        split at h
        case isTrue hz =>
          rw [if_pos hz]
          have hav : cls.length / (p.nbytes * (p.cpc + 1)) = (words p.nbytes cls).length / (p.cpc + 1) := by
            rw [len_eq hm, Nat.mul_comm, Nat.mul_div_mul_left _ _ hn]
          split at h
          case isTrue => cases h
          rename_i hz
          rw [if_neg hz]
          have hin : chunk * (p.cpc + 1) + p.cpc < (words p.nbytes cls).length + (p.cpc + 1) := by
            unfold ChainedHashStore.readChunk at hr
            split at hr
            · rename_i h1
              rw [Nat.add_mul] at h1; omega
            · cases hr
          simp only [ChainedHashStore.Res.ok.injEq, Prod.mk.injEq] at h
          obtain ⟨h1, h2⟩ := h
          refine ⟨_, _, _, rfl, ?_, ?_, ?_⟩
          · rw [writeAt_end', Nat.mul_comm p.nbytes, (words_write hn (mod_append hm _) _ _).1, words_append hn hm, words_zeros hn,
              setExt_set (by rw [List.length_append, List.length_replicate]; exact hin), ← h1, ← Nat.mul_comm p.nbytes, hav]
            rfl
          · rw [writeAt_end', Nat.mul_comm p.nbytes]
            exact (words_write hn (mod_append hm _) _ _).2
          · rw [hav, ← h2]; rfl
        case isFalse hz =>
          rw [if_neg hz]
          exact ih _ h

/-- A slot that is found is inside the file. -/
theorem slot_in_range {p : Params} {coll coll' : List Nat} {fuel chunk slot : Nat}
    (h : ChainedHashStore.findSlot p coll fuel chunk = .ok (coll', slot)) : slot < coll'.length := by
  induction fuel generalizing chunk with
  | zero => cases h
  | succ fuel ih =>
    rw [ChainedHashStore.findSlot] at h
    cases hr : ChainedHashStore.readChunk p coll chunk with
    | none => rw [hr] at h; cases h
    | some ws =>
      rw [hr] at h
      dsimp only at h
      cases hf : (ws.take p.cpc).findIdx? (· == 0) with
      | some j =>
        rw [hf] at h
        simp only [ChainedHashStore.Res.ok.injEq, Prod.mk.injEq] at h
        obtain ⟨h1, h2⟩ := h
        have hj := (List.findIdx?_eq_some_iff_getElem.mp hf).1
        rw [List.length_take] at hj
        unfold ChainedHashStore.readChunk at hr
        split at hr
        · rename_i hin
          rw [Nat.add_mul] at hin
          rw [← h1, ← h2]
          omega
        · cases hr
      | none =>
        rw [hf] at h
        dsimp only at h
        split at h
        · split at h
          · cases h
          · simp only [ChainedHashStore.Res.ok.injEq, Prod.mk.injEq] at h
            obtain ⟨h1, h2⟩ := h
            have := Nat.div_mul_le_self coll.length (p.cpc + 1)
            rw [← h1, ← h2, List.length_set, List.length_append, List.length_replicate]
            omega
        · exact ih h

/-- The kind of the lookup file, and what it has on disk if it is held in memory. -/
def Lkp.sameKind (l l' : Lkp) : Prop :=
  (∀ b s d, l = .mem b s d → ∃ b' s', l' = .mem b' s' d) ∧ (∀ d, l = .file d → ∃ d', l' = .file d')

theorem Lkp.sameKind_refl (l : Lkp) : l.sameKind l := by
  refine ⟨?_, ?_⟩
  · rintro b s d rfl; exact ⟨_, _, rfl⟩
  · rintro d rfl; exact ⟨_, rfl⟩

theorem Lkp.sameKind.trans {l l' l'' : Lkp} (h : l.sameKind l') (h' : l'.sameKind l'') : l.sameKind l'' := by
  refine ⟨?_, ?_⟩
  · intro b s d e
    obtain ⟨b', s', e'⟩ := h.1 b s d e
    exact h'.1 _ _ _ e'
  · intro d e
    obtain ⟨d', e'⟩ := h.2 d e
    exact h'.2 _ e'

/-- Indexing in the bytes follows indexing in the words. -/
theorem indexIt_sim {p : Params} (hn : 0 < p.nbytes) {s : Store} {c c' : CH} (h : Sim p s c) {key index : Nat}
    (hk : key < 2 ^ p.nbits) (hc : ChainedHashStore.indexIt p c key index = .ok c') :
    ∃ s', indexIt p s key index = .ok s' ∧ Sim p s' c' ∧ s'.hsh = s.hsh ∧ s.lkp.sameKind s'.lkp := by
  obtain ⟨lb, hlb, hll, hld⟩ := lkp_read hn h.lkp hk
  unfold ChainedHashStore.indexIt at hc
  dsimp only at hc
  unfold indexIt
  rw [hlb]
  dsimp only
  rw [hld]
  split at hc
  case isTrue hz =>
    rw [if_pos hz]
    obtain ⟨l', hw, hb, hk1, hk2⟩ := lkp_write hn h.lkp hk (index + 1)
    rw [hw]
    cases hc
    exact ⟨_, rfl, ⟨h.hsh, h.cnt, hb, h.cmod, h.cls⟩, rfl, hk1, hk2⟩
  rename_i hz
  rw [if_neg hz]
  have hav : s.cls.length / (p.nbytes * (p.cpc + 1)) = c.coll.length / (p.cpc + 1) := by
    rw [len_eq h.cmod, Nat.mul_comm, Nat.mul_div_mul_left _ _ hn, h.cls]
  split at hc
  case isTrue hmsb =>
    rw [if_pos hmsb]
    unfold firstCollision
    dsimp only
    rw [hav]
    split at hc
    case isTrue => cases hc
    rename_i h1
    rw [if_neg h1]
    obtain ⟨l', hw, hb, hk1, hk2⟩ := lkp_write hn h.lkp hk (c.coll.length / (p.cpc + 1) + 1 ||| msb p)
    rw [hw]
    dsimp only
    split at hc
    case isTrue => cases hc
    rename_i h2
    rw [if_neg h2]
    cases hc
    have hlen := len_eq h.cmod
    rw [h.cls] at hlen
    have hlb' : lb = leEnc p.nbytes (c.lookups key) := by rw [← hld, ← hll, leEnc_leDec]
    have hlt : c.lookups key < 256 ^ p.nbytes := by rw [← hld, ← hll]; exact leDec_lt lb
    have e1 := words_write hn h.cmod c.coll.length (c.lookups key)
    rw [h.cls, setExt_end, ← hlen, ← hlb', Nat.mod_eq_of_lt hlt] at e1
    have e2 := words_write hn e1.2 (c.coll.length + 1) (index + 1)
    rw [e1.1, show c.coll.length + 1 = (c.coll ++ [c.lookups key]).length by simp, setExt_end, List.length_append,
      List.length_singleton, Nat.add_mul, Nat.one_mul, ← hlen] at e2
    have hl2 := len_eq e2.2
    rw [e2.1] at hl2
    simp only [List.length_append, List.length_singleton] at hl2
    have hl3 : s.cls.length + p.nbytes * 2 = (Verif.writeAt (Verif.writeAt s.cls s.cls.length lb) (s.cls.length + p.nbytes)
        (leEnc p.nbytes (index + 1))).length := by
      rw [hl2, Nat.add_mul, Nat.add_mul, Nat.one_mul, ← hlen]; omega
    refine ⟨_, rfl, ⟨h.hsh, h.cnt, hb, ?_, ?_⟩, rfl, hk1, hk2⟩
    · simp only
      rw [hl3, writeAt_end']
      exact mod_append e2.2 _
    · simp only
      rw [hl3, writeAt_end', words_append hn e2.2, words_zeros hn, e2.1]
      simp [put]
  case isFalse hmsb =>
    rw [if_neg hmsb]
    unfold furtherCollision
    dsimp only
    split at hc
    case isTrue => cases hc
    rename_i h1
    rw [if_neg h1]
    cases hfs : ChainedHashStore.findSlot p c.coll (c.coll.length + 1) (c.lookups key - msb p - 1) with
    | ok r =>
      obtain ⟨coll', slot⟩ := r
      rw [hfs] at hc
      cases hc
      rw [← h.cls] at hfs
      obtain ⟨cls', ch, j, hf, hw, hm', hs⟩ := findSlot_sim hn h.cmod _ _ hfs
      rw [words_length] at hf
      rw [hf]
      dsimp only
      have e := words_write hn hm' slot (index + 1)
      rw [hs]
      refine ⟨_, rfl, ⟨h.hsh, h.cnt, h.lkp, e.2, ?_⟩, rfl, Lkp.sameKind_refl _⟩
      simp only
      rw [e.1, hw]
      exact setExt_set (slot_in_range hfs) _ _
    | err => rw [hfs] at hc; cases hc
    | panicked => rw [hfs] at hc; cases hc
    | hang => rw [hfs] at hc; cases hc

/-- Appending to the bytes follows appending to the words. -/
theorem appendHash_sim {p : Params} {s : Store} {c c' : CH} (h : Sim p s c) {v : Bytes} (hv : v.length = 32) {i : Nat}
    (hc : ChainedHashStore.appendHash p c v = .ok (c', i)) :
    ∃ s', appendHash p s v = .ok (s', i) ∧ Sim p s' c' ∧ s'.hsh = writeHash s.hsh s.count v ∧ s.lkp.sameKind s'.lkp := by
  unfold ChainedHashStore.appendHash at hc
  dsimp only at hc
  unfold appendHash
  dsimp only
  split at hc
  case isTrue => cases hc
  rename_i h0
  rw [if_neg h0, h.cnt]
  split at hc
  case isTrue => cases hc
  rename_i h1
  rw [if_neg h1]
  split at hc
  case isTrue => cases hc
  rename_i h2
  rw [if_neg h2]
  have h' : Sim p { s with hsh := writeHash s.hsh c.hashes.length v, count := c.hashes.length + 1 }
      { c with hashes := c.hashes ++ [v] } :=
    ⟨hshOK_append h.hsh hv, by simp, h.lkp, h.cmod, h.cls⟩
  cases hi : ChainedHashStore.indexIt p { c with hashes := c.hashes ++ [v] } (keyOf p v) c.hashes.length with
  | ok c1 =>
    rw [hi] at hc
    cases hc
    obtain ⟨s', e1, e2, e3, e4⟩ := indexIt_sim (by omega) h' (keyOf_lt p v) hi
    rw [e1]
    exact ⟨_, rfl, e2, e3, e4⟩
  | err => rw [hi] at hc; cases hc
  | panicked => rw [hi] at hc; cases hc
  | hang => rw [hi] at hc; cases hc

/-! ### Searching -/

theorem scanSlots_sim {p : Params} (hn : 0 < p.nbytes) {c : CH} {cls : Bytes} (hcls : words p.nbytes cls = c.coll) (v : Bytes)
    (base n j : Nat) {hsh : Hsh} (h : HshOK hsh c.hashes) :
    HshOK (scanSlots p cls v base hsh j n).1 c.hashes ∧
    (scanSlots p cls v base hsh j n).2 = (match ChainedHashStore.scanSlots c v base j n with
      | .done f => Scan.done f
      | .link w => Scan.link w) := by
  induction n generalizing j hsh with
  | zero =>
    have hw := words_getElem? hn cls (base + j)
    rw [hcls] at hw
    rw [scanSlots, ChainedHashStore.scanSlots, hw]
    cases Verif.readAt cls ((base + j) * p.nbytes) p.nbytes with
    | none => exact ⟨h, rfl⟩
    | some b =>
      simp only [Option.map_some]
      split
      · exact ⟨h, rfl⟩
      · exact ⟨h, rfl⟩
  | succ n ih =>
    have hw := words_getElem? hn cls (base + j)
    rw [hcls] at hw
    rw [scanSlots, ChainedHashStore.scanSlots, hw]
    cases Verif.readAt cls ((base + j) * p.nbytes) p.nbytes with
    | none => exact ⟨h, rfl⟩
    | some b =>
      simp only [Option.map_some]
      split
      · exact ⟨h, rfl⟩
      · obtain ⟨h1, h2⟩ := hshOK_read h (leDec b - 1)
        rw [← h2]
        cases hr : readHash hsh (leDec b - 1) with
        | mk hsh' r =>
          rw [hr] at h1
          cases r with
          | none => exact ⟨h1, rfl⟩
          | some x =>
            simp only
            split
            · exact ⟨h1, rfl⟩
            · exact ih (j + 1) h1

theorem searchChain_sim {p : Params} (hn : 0 < p.nbytes) {c : CH} {cls : Bytes} (hcls : words p.nbytes cls = c.coll) (v : Bytes)
    (fuel link : Nat) {hsh : Hsh} (h : HshOK hsh c.hashes) :
    HshOK (searchChain p cls v fuel hsh link).1 c.hashes ∧
    (searchChain p cls v fuel hsh link).2 = ChainedHashStore.searchChain p c v fuel link := by
  induction fuel generalizing link hsh with
  | zero => exact ⟨h, rfl⟩
  | succ fuel ih =>
    rw [searchChain, ChainedHashStore.searchChain]
    split
    · exact ⟨h, rfl⟩
    · obtain ⟨h1, h2⟩ := scanSlots_sim hn hcls v ((link - 1) * (p.cpc + 1)) p.cpc 0 h
      cases hs : scanSlots p cls v ((link - 1) * (p.cpc + 1)) hsh 0 p.cpc with
      | mk hsh' r =>
        rw [hs] at h1 h2
        cases hc : ChainedHashStore.scanSlots c v ((link - 1) * (p.cpc + 1)) 0 p.cpc with
        | done f => rw [hc] at h2; simp only at h2; subst h2; exact ⟨h1, rfl⟩
        | link w => rw [hc] at h2; simp only at h2; subst h2; exact ih w h1

/-- Looking up in the bytes is looking up in the words. -/
theorem indexOf_sim {p : Params} (hn : 0 < p.nbytes) {s : Store} {c : CH} (h : Sim p s c) (v : Bytes) {f : Found}
    (hf : ChainedHashStore.indexOfHash p c v = some f) :
    (indexOfHash p s v).2 = .found f ∧ HshOK (indexOfHash p s v).1.hsh c.hashes ∧
    (indexOfHash p s v).1 = { s with hsh := (indexOfHash p s v).1.hsh } := by
  obtain ⟨lb, hlb, hll, hld⟩ := lkp_read hn h.lkp (keyOf_lt p v)
  unfold ChainedHashStore.indexOfHash at hf
  dsimp only at hf
  unfold indexOfHash
  rw [hlb]
  dsimp only
  rw [hld]
  split at hf
  case isTrue hm =>
    rw [if_pos hm]
    split at hf
    case isTrue hz =>
      rw [if_pos hz]
      cases hf
      exact ⟨rfl, h.hsh, rfl⟩
    rename_i hz
    rw [if_neg hz]
    obtain ⟨h1, h2⟩ := hshOK_read h.hsh (c.lookups (keyOf p v) - 1)
    rw [← h2] at hf
    cases hr : readHash s.hsh (c.lookups (keyOf p v) - 1) with
    | mk hsh' r =>
      rw [hr] at h1 hf
      cases r with
      | none => cases hf; exact ⟨rfl, h1, rfl⟩
      | some x =>
        simp only at hf ⊢
        split at hf
        · cases hf; rename_i hx; rw [if_pos hx]; exact ⟨rfl, h1, rfl⟩
        · cases hf; rename_i hx; rw [if_neg hx]; exact ⟨rfl, h1, rfl⟩
  case isFalse hm =>
    rw [if_neg hm]
    have hl : s.cls.length / p.nbytes = c.coll.length := by rw [← words_length, h.cls]
    rw [hl]
    obtain ⟨h1, h2⟩ := searchChain_sim hn h.cls v (c.coll.length + 1) (c.lookups (keyOf p v) - msb p) h.hsh
    rw [hf] at h2
    cases hs : searchChain p s.cls v (c.coll.length + 1) s.hsh (c.lookups (keyOf p v) - msb p) with
    | mk hsh' r =>
      rw [hs] at h1 h2
      simp only at h2
      subst h2
      exact ⟨rfl, h1, rfl⟩

end Verif.ChainedFiles
