import Verif.Model.JsonBlock
import Verif.Lemmas.BinBlock
import Verif.Lemmas.Secant
import Verif.Props.Hex

/-! # What a node says in JSON about a block, and parsing it -/

namespace Verif.JsonBlock

open Verif.BinBlock

/-! ## Specification: the JSON description of a block -/

/-- Bytes as text: two lower-case hex digits each. -/
def shown (b : Bytes) : Bytes := b.flatMap fun x => [Hex.digits.getD (x.toNat / 16) 0, Hex.digits.getD (x.toNat % 16) 0]

/-- A hash as text: its bytes from the last to the first. -/
def shownHash (h : Bytes) : Bytes := shown h.reverse

/-- A number below 2^32 as eight hex digits. -/
def shown32 (n : Nat) : Bytes := shown (leEnc 4 n).reverse

/-- An input that spends nothing: the one of the first transaction of a block. -/
def IsNull (i : In) : Prop := i.txid = zeros 32 ∧ i.vout = 2 ^ 32 - 1

/-- An input as JSON. The input of the first transaction of a block has neither `txid` nor `vout`. -/
def DescribesIn (i : In) (j : JTxi) : Prop :=
  (IsNull i ∧ j.txid = [] ∧ j.vout = 0) ∨ (¬ IsNull i ∧ j.txid = shownHash i.txid ∧ j.vout = i.vout)

/-- An output as JSON: the amount is a decimal number of bitcoins, read as the float64 `fl` gives. -/
def DescribesOut (fl : Rat → Rat) (o : Out) (j : JTxo) : Prop :=
  j.value = fl ((o.value : Rat) / 100000000) ∧ j.hex = shown o.script

/-- A transaction as JSON. Versions are shown signed or unsigned. -/
structure DescribesTx (sha : Bytes → Bytes) (fl : Rat → Rat) (t : Tx) (j : JTx) : Prop where
  txid : j.txid = shownHash (sha (sha t.stripped))
  vin : List.Forall₂ DescribesIn t.ins j.vin
  vout : List.Forall₂ (DescribesOut fl) t.outs j.vout
  version : j.version = t.version ∨ j.version = t.version - 2 ^ 32
  size : j.size = t.enc.length
  weight : j.weight = 3 * t.stripped.length + t.enc.length
  vsize : j.vsize = ((3 * t.stripped.length + t.enc.length + 3) / 4 : Nat)

/-- The block without its witnesses. -/
def Blk.stripped (b : Blk) : Bytes := b.header ++ cs b.txs.length ++ (b.txs.map Tx.stripped).flatten

/-- A block as JSON. The first block of the chain has no `previousblockhash`. -/
structure Describes (sha : Bytes → Bytes) (fl : Rat → Rat) (b : Blk) (j : JBlock) : Prop where
  hash : j.hash = shownHash (sha (sha b.header))
  prev : j.prev = if b.prev = zeros 32 then [] else shownHash b.prev
  merkle : j.merkle = shownHash b.merkle
  version : j.version = b.version ∨ j.version = b.version - 2 ^ 32
  time : j.time = b.time
  nonce : j.nonce = b.nonce
  bits : j.bits = shown32 b.bits
  size : j.size = b.enc.length
  strippedsize : j.strippedsize = (Blk.stripped b).length
  weight : j.weight = 3 * (Blk.stripped b).length + b.enc.length
  tx : List.Forall₂ (DescribesTx sha fl) b.txs j.tx

/-- Amounts that the currency's supply allows: at most 21 million bitcoins. -/
def Money (b : Blk) : Prop := ∀ t ∈ b.txs, ∀ o ∈ t.outs, o.value ≤ 2100000000000000

/-! ## Text -/

theorem digits_getD : ∀ n, n < 16 → Hex.digits.getD n 0 = Hex.nibbleChar n := by decide

theorem shown_eq (b : Bytes) : shown b = Hex.encodeToString b := by
  induction b with
  | nil => rfl
  | cons x b ih =>
    have hx := x.toNat_lt
    unfold shown Hex.encodeToString at ih ⊢
    rw [List.flatMap_cons, List.flatMap_cons, ih, digits_getD _ (by omega), digits_getD _ (by omega)]

theorem shown_length (b : Bytes) : (shown b).length = 2 * b.length := by rw [shown_eq, Hex.encode_length]

theorem shownHash_eq {h : Bytes} (hl : h.length = 32) : shownHash h = Hex.hashToHex h := by
  unfold shownHash Hex.hashToHex
  rw [shown_eq]
  congr 1
  apply List.ext_getElem (by simp [hl])
  intro i h1 h2
  rw [List.length_reverse] at h1
  rw [List.getElem_reverse, List.getElem_map, List.getElem_range, List.getD_eq_getElem?_getD,
    List.getElem?_eq_getElem (by omega)]
  simp only [Option.getD_some, hl]

theorem hash_read {h : Bytes} (hl : h.length = 32) : Hex.hexToSha256 (shownHash h) = some h := by
  rw [shownHash_eq hl]
  exact (Hex.hex_roundtrip h hl).1

theorem shownHash_ne {h : Bytes} (hl : h.length = 32) : shownHash h ≠ [] := by
  intro h0
  have := congrArg List.length h0
  unfold shownHash at this
  rw [shown_length, List.length_reverse, hl] at this
  simp at this

theorem hexValue_digit : ∀ n, n < 16 → hexValue (Hex.digits.getD n 0) = some n := by decide

theorem shown_cons (x : UInt8) (b : Bytes) :
    shown (x :: b) = Hex.digits.getD (x.toNat / 16) 0 :: Hex.digits.getD (x.toNat % 16) 0 :: shown b := by
  unfold shown
  rw [List.flatMap_cons]
  rfl

theorem shown_append (a b : Bytes) : shown (a ++ b) = shown a ++ shown b := by
  unfold shown
  rw [List.flatMap_append]

theorem hexDecode_shown (b : Bytes) : hexDecode (shown b) = some b := by
  induction b with
  | nil => rfl
  | cons x b ih =>
    have hx := x.toNat_lt
    rw [shown_cons, hexDecode, hexValue_digit _ (by omega), hexValue_digit _ (by omega)]
    dsimp only
    rw [ih, Option.map_some, show 16 * (x.toNat / 16) + x.toNat % 16 = x.toNat by omega, UInt8.ofNat_toNat]

theorem hexNumber_append (a b : Bytes) (n : Nat) : hexNumber (a ++ b) n = (hexNumber a n).bind (hexNumber b) := by
  induction a generalizing n with
  | nil => rfl
  | cons c a ih =>
    rw [List.cons_append, hexNumber, hexNumber]
    cases hexValue c with
    | none => rfl
    | some d => exact ih _

theorem hexNumber_shown (l : Bytes) (n : Nat) : hexNumber (shown l.reverse) n = some (n * 256 ^ l.length + leDec l) := by
  induction l with
  | nil => simp [shown, hexNumber, leDec]
  | cons x l ih =>
    have hx := x.toNat_lt
    rw [List.reverse_cons, shown_append, hexNumber_append, ih, Option.bind_some, shown_cons, hexNumber,
      hexValue_digit _ (by omega)]
    dsimp only
    rw [hexNumber, hexValue_digit _ (by omega)]
    dsimp only
    unfold shown
    rw [List.flatMap_nil, hexNumber, leDec, List.length_cons, Nat.pow_succ]
    congr 1
    have : n * (256 ^ l.length * 256) = 256 * (n * 256 ^ l.length) := by
      rw [Nat.mul_comm 256, Nat.mul_assoc]
    rw [this]
    omega

theorem parseUint_shown {n : Nat} (h : n < 2 ^ 32) : parseUint (shown32 n) = some n := by
  unfold parseUint shown32
  have hne : shown (leEnc 4 n).reverse ≠ [] := by
    intro h0
    have := congrArg List.length h0
    rw [shown_length, List.length_reverse, leEnc_length] at this
    simp at this
  rw [if_neg hne, hexNumber_shown, leDec_leEnc_of_lt (by simpa using h), Nat.zero_mul, Nat.zero_add]
  dsimp only
  rw [if_pos h]

theorem toU32_signed {v : Int} {n : Nat} (hn : n < 2 ^ 32) (h : v = n ∨ v = n - 2 ^ 32) : toU32 v = n := by
  unfold toU32
  omega

/-! ## Amounts -/

/-- `round` of a number within less than a half of a natural number. -/
theorem round_near {x : Rat} {n : Nat} (h1 : (n : Rat) - 1 / 2 < x) (h2 : x < n + 1 / 2) : JsonBlock.round x = n := by
  unfold JsonBlock.round
  by_cases h0 : 0 ≤ x
  · rw [if_pos h0]
    have : ⌊x + 1 / 2⌋ = (n : Int) := by
      rw [Int.floor_eq_iff]
      push_cast
      constructor <;> linarith
    rw [← this]
    rfl
  · rw [if_neg h0]
    have hn : n = 0 := by
      by_contra hne
      have : (1 : Rat) ≤ n := by
        have : 1 ≤ n := by omega
        exact_mod_cast this
      linarith
    subst hn
    have : ⌊-x + 1 / 2⌋ = (0 : Int) := by
      rw [Int.floor_eq_iff]
      push_cast at h1 h2 ⊢
      constructor <;> linarith
    have h' : (-x + 1 / 2).floor = 0 := this
    rw [h']
    rfl

theorem satoshis_ok {fl : Rat → Rat} (hfl : Bins.FloatOK fl) {v : Nat} (hv : v ≤ 2100000000000000) :
    satoshis fl (fl ((v : Rat) / 100000000)) = v := by
  unfold satoshis
  have hv' : (v : Rat) ≤ 2100000000000000 := by exact_mod_cast hv
  have hv0 : (0 : Rat) ≤ v := Nat.cast_nonneg v
  have hx : (0 : Rat) ≤ (v : Rat) / 100000000 := by positivity
  have u1 := hfl.upper hx
  have l1 := hfl.lower hx
  have hy : (0 : Rat) ≤ fl ((v : Rat) / 100000000) * 100000000 := by
    have := hfl.nonneg hx
    positivity
  have u2 := hfl.upper hy
  have l2 := hfl.lower hy
  generalize fl ((v : Rat) / 100000000) = a at *
  generalize fl (a * 100000000) = z at *
  apply round_near <;> generalize (v : Rat) = w at * <;> norm_num at u1 l1 u2 l2 ⊢ <;> linarith

/-! ## Inputs and outputs -/

/-- The same input, except that an input that spends nothing has output number 0. -/
def Same (x y : Txi) : Prop := x = y ∨ (x = ⟨zeros 32, 2 ^ 32 - 1⟩ ∧ y = ⟨zeros 32, 0⟩)

theorem parseTxis_ok {ins : List In} {js : List JTxi} (h : List.Forall₂ DescribesIn ins js) (hw : ∀ i ∈ ins, i.WF)
    (st : Storage) : ∃ xs, parseTxis js st = (true, { st with txis := st.txis ++ xs }) ∧
      List.Forall₂ Same (ins.map In.txi) xs := by
  induction h generalizing st with
  | nil => exact ⟨[], by rw [parseTxis, List.append_nil], List.Forall₂.nil⟩
  | @cons i j ins js hij _ ih =>
    have hi := (hw i (by simp)).txid
    have hn : zeros 32 ≠ ([] : Bytes) := by decide
    have key : ∃ x, (if j.txid = [] then some (zeros 32) else Hex.hexToSha256 j.txid) = some x ∧
        Same i.txi ⟨x, j.vout⟩ := by
      rcases hij with ⟨⟨h1, h2⟩, h3, h4⟩ | ⟨_, h3, h4⟩
      · refine ⟨zeros 32, by rw [if_pos h3], Or.inr ⟨?_, by rw [h4]⟩⟩
        unfold In.txi
        rw [h1, h2]
        rfl
      · refine ⟨i.txid, by rw [h3, if_neg (shownHash_ne hi), hash_read hi], Or.inl ?_⟩
        rw [h4]
        rfl
    obtain ⟨x, e, hs⟩ := key
    obtain ⟨xs, e2, hs2⟩ := ih (fun i hi => hw i (by simp [hi])) { st with txis := st.txis ++ [⟨x, j.vout⟩] }
    refine ⟨⟨x, j.vout⟩ :: xs, ?_, List.Forall₂.cons hs hs2⟩
    rw [parseTxis, e]
    dsimp only
    rw [e2]
    simp only [List.append_assoc, List.singleton_append]

theorem parseTxos_ok {fl : Rat → Rat} (hfl : Bins.FloatOK fl) {outs : List Out} {js : List JTxo}
    (h : List.Forall₂ (DescribesOut fl) outs js) (hm : ∀ o ∈ outs, o.value ≤ 2100000000000000) (st : Storage)
    (hl : st.scripts.length + (outs.map Out.script).flatten.length < 2 ^ 31) :
    parseTxos fl js st = (true, { st with txos := st.txos ++ outTxos st.scripts.length outs
                                          scripts := st.scripts ++ (outs.map Out.script).flatten }) := by
  induction h generalizing st with
  | nil => simp [parseTxos, outTxos]
  | @cons o j outs js hoj _ ih =>
    obtain ⟨h1, h2⟩ := hoj
    rw [List.map_cons, List.flatten_cons, List.length_append] at hl
    rw [parseTxos, h2, hexDecode_shown]
    dsimp only
    rw [ih (fun o ho => hm o (by simp [ho])) _ (by dsimp only; rw [List.length_append]; omega), h1,
      satoshis_ok hfl (hm o (by simp)), toI32_small (by omega), toI32_small (by omega)]
    simp only [List.append_assoc, List.singleton_append, List.map_cons, List.flatten_cons, outTxos, List.length_append]

/-! ## Transactions -/

theorem segwit_iff {t : Tx} (hw : t.WF) :
    decide ((((3 * t.stripped.length + t.enc.length + 3) / 4 : Nat) : Int) < (t.enc.length : Int)) = t.segwit := by
  have hs : t.segwit = true → t.stripped.length + 3 ≤ t.enc.length := by
    intro h
    have h1 : 1 ≤ (t.ins.map fun i => encStack i.witness).flatten.length := by
      obtain ⟨i, is, hi⟩ := List.exists_cons_of_ne_nil hw.some
      rw [hi, List.map_cons, List.flatten_cons, List.length_append]
      unfold encStack
      rw [List.length_append]
      have := cs_pos i.witness.length
      omega
    unfold Tx.enc
    rw [if_pos h]
    unfold Tx.stripped
    simp only [List.length_append, List.length_cons, List.length_nil] at h1 ⊢
    omega
  have hn : t.segwit = false → t.enc.length = t.stripped.length := by
    intro h
    unfold Tx.enc
    rw [if_neg (by rw [h]; simp)]
  cases h : t.segwit with
  | true =>
    have := hs h
    rw [decide_eq_true_eq]
    omega
  | false =>
    have := hn h
    rw [decide_eq_false_iff_not]
    omega

theorem stripped_pos (t : Tx) : 0 < t.stripped.length := by
  unfold Tx.stripped
  simp only [List.length_append, leEnc_length]
  omega

theorem strippedSize_ok {s e : Nat} (hs : 0 < s) (_ : s ≤ e) : strippedSize ((3 * s + e : Nat) : Int) e = s := by
  unfold strippedSize
  have h1 : (((3 * s + e : Nat) : Int) - e).tdiv 3 = s := by
    have h2 : ((3 * s + e : Nat) : Int) - e = s * 3 := by push_cast; omega
    rw [h2, Int.mul_tdiv_cancel _ (by decide)]
  rw [h1, if_neg (by omega)]

theorem parseTransaction_ok {sha : Bytes → Bytes} (hsha : ∀ x, (sha x).length = 32) {fl : Rat → Rat}
    (hfl : Bins.FloatOK fl) {t : Tx} {j : JTx} (h : DescribesTx sha fl t j) (hw : t.WF)
    (hm : ∀ o ∈ t.outs, o.value ≤ 2100000000000000) (g : Transaction) (st : Storage)
    (hl : st.scripts.length + (t.outs.map Out.script).flatten.length < 2 ^ 31) :
    ∃ xs, parseTransaction fl j g st = (true, t.parsed sha st, { t.stored st with txis := st.txis ++ xs }) ∧
      List.Forall₂ Same (t.ins.map In.txi) xs := by
  obtain ⟨xs, e, hs⟩ := parseTxis_ok h.vin hw.ins st
  refine ⟨xs, ?_, hs⟩
  unfold parseTransaction
  rw [h.txid, hash_read (hsha _)]
  dsimp only
  rw [e]
  dsimp only
  rw [parseTxos_ok hfl h.vout hm { st with txis := st.txis ++ xs } hl]
  dsimp only
  rw [h.weight, h.size, h.vsize, segwit_iff hw, toU32_signed hw.version h.version]
  have hss := strippedSize_ok (stripped_pos t) (stripped_le t)
  push_cast at hss
  rw [hss, ← h.vin.length_eq, ← h.vout.length_eq]
  unfold Tx.parsed Tx.stored
  dsimp only
  congr 3
  · push_cast; omega
  · congr 2; omega

/-- Storages that differ only in the inputs that spend nothing. -/
def SameStorage (a b : Storage) : Prop := a.txos = b.txos ∧ a.scripts = b.scripts ∧ List.Forall₂ Same a.txis b.txis

theorem same_refl (l : List Txi) : List.Forall₂ Same l l := by
  induction l with
  | nil => exact List.Forall₂.nil
  | cons x l ih => exact List.Forall₂.cons (Or.inl rfl) ih

theorem forall₂_append {α β : Type} {R : α → β → Prop} {a c : List α} {b d : List β} (h1 : List.Forall₂ R a b)
    (h2 : List.Forall₂ R c d) : List.Forall₂ R (a ++ c) (b ++ d) := by
  induction h1 with
  | nil => exact h2
  | cons h _ ih => exact List.Forall₂.cons h ih

theorem parsed_same {sha : Bytes → Bytes} {t : Tx} {a b : Storage} (h : SameStorage a b) : t.parsed sha b = t.parsed sha a := by
  unfold Tx.parsed
  rw [h.1, h.2.2.length_eq]

theorem parseTransactions_ok {sha : Bytes → Bytes} (hsha : ∀ x, (sha x).length = 32) {fl : Rat → Rat}
    (hfl : Bins.FloatOK fl) {ts : List Tx} {js : List JTx} (h : List.Forall₂ (DescribesTx sha fl) ts js)
    (hw : ∀ t ∈ ts, t.WF) (hm : ∀ t ∈ ts, ∀ o ∈ t.outs, o.value ≤ 2100000000000000) (a b : Storage) (hs : SameStorage a b)
    (hl : a.scripts.length + (ts.map Tx.enc).flatten.length < 2 ^ 31) :
    ∃ st, parseTransactions fl js b = (true, parsedAll sha ts a, st) ∧ SameStorage (storedAll ts a) st := by
  induction h generalizing a b with
  | nil => exact ⟨b, rfl, hs⟩
  | @cons t j ts js htj _ ih =>
    rw [List.map_cons, List.flatten_cons, List.length_append] at hl
    have hsl := stored_scripts_le t a
    have hlt : b.scripts.length + (t.outs.map Out.script).flatten.length < 2 ^ 31 := by
      unfold Tx.stored at hsl
      dsimp only at hsl
      rw [List.length_append] at hsl
      rw [← hs.2.1]
      omega
    obtain ⟨xs, e, hxs⟩ := parseTransaction_ok hsha hfl htj (hw t (by simp)) (hm t (by simp)) zeroTransaction b hlt
    have hs' : SameStorage (t.stored a) { t.stored b with txis := b.txis ++ xs } := by
      refine ⟨?_, ?_, ?_⟩
      · unfold Tx.stored; dsimp only; rw [hs.1, hs.2.1]
      · unfold Tx.stored; dsimp only; rw [hs.2.1]
      · exact forall₂_append hs.2.2 hxs
    obtain ⟨st, e2, h2⟩ := ih (fun t ht => hw t (by simp [ht])) (fun t ht => hm t (by simp [ht])) _ _ hs' (by omega)
    refine ⟨st, ?_, h2⟩
    rw [parseTransactions, e]
    dsimp only
    rw [e2, parsed_same hs]
    rfl

end Verif.JsonBlock
