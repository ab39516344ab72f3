import Verif.Lemmas.JsonBlock
import Verif.Props.BinBlock

/-! # C69, C70, C71: blocks read as JSON

`Verif.Lemmas.JsonBlock` specifies what a node says about a block in JSON (`Describes`), with hex text and float64
amounts, without reference to the parser. `fl` is rounding to float64: any function with relative error at most 2^-53.
`sha` is any function with 32-byte results. -/

namespace Verif.JsonBlock

open Verif.BinBlock

theorem parseBlock_ok {sha : Bytes → Bytes} (hsha : ∀ x, (sha x).length = 32) {fl : Rat → Rat} (hfl : Bins.FloatOK fl)
    {b : Blk} (hw : b.WF) (hb : b.enc.length < 2 ^ 31) (hm : Money b) {j : JBlock} (h : Describes sha fl b j) (g : Block) :
    ∃ p st, BinBlock.parseBlock sha b.enc = some p ∧ parseBlock fl (some j) g = (true, { p with storage := st }) ∧
      SameStorage p.storage st ∧ p.transactions = parsedAll sha b.txs ⟨[], [], []⟩ ∧
      p.storage = storedAll b.txs ⟨[], [], []⟩ := by
  have henc : b.enc.length = 80 + (cs b.txs.length).length + (b.txs.map Tx.enc).flatten.length := by
    unfold Blk.enc
    simp only [List.length_append, header_length hw]
  have hstr : (Blk.stripped b).length = 80 + (cs b.txs.length).length + (b.txs.map fun t => t.stripped.length).sum := by
    unfold Blk.stripped
    simp only [List.length_append, header_length hw, List.length_flatten, List.map_map]
    rfl
  have hsum : ∀ ts : List Tx, (ts.map fun t => 3 * t.stripped.length + t.enc.length).sum =
      3 * (ts.map fun t => t.stripped.length).sum + (ts.map Tx.enc).flatten.length := by
    intro ts
    induction ts with
    | nil => rfl
    | cons t ts ih =>
      simp only [List.map_cons, List.sum_cons, List.flatten_cons, List.length_append] at ih ⊢
      omega
  obtain ⟨st, e, hs⟩ := parseTransactions_ok hsha hfl h.tx hw.txs hm ⟨[], [], []⟩ ⟨[], [], []⟩
    ⟨rfl, rfl, List.Forall₂.nil⟩ (by simp only [List.length_nil]; omega)
  refine ⟨_, st, parseBlock_eq sha hw hb, ?_, hs, rfl, rfl⟩
  have hprev : (if j.prev = [] then some (zeros 32) else Hex.hexToSha256 j.prev) = some b.prev := by
    rw [h.prev]
    by_cases h0 : b.prev = zeros 32
    · rw [if_pos h0, if_pos rfl, h0]
    · rw [if_neg h0, if_neg (shownHash_ne hw.prev), hash_read hw.prev]
  unfold parseBlock
  dsimp only
  rw [h.hash, hash_read (hsha _)]
  dsimp only
  rw [hprev]
  dsimp only
  rw [h.merkle, hash_read hw.merkle]
  dsimp only
  rw [h.bits, parseUint_shown hw.bits]
  dsimp only
  rw [e]
  dsimp only
  rw [h.time, h.nonce, toU32_signed hw.version h.version, toU32_signed hw.time (Or.inl rfl),
    toU32_signed hw.nonce (Or.inl rfl), h.size, h.strippedsize, h.weight, hsum]
  congr 2
  · rw [henc, hstr]; push_cast; omega
  · rw [hstr]; push_cast; omega

/-- C69: the block read as JSON, into a block structure whatever it held before, is the block read in binary. Only the
output number of the input that spends nothing differs. -/
theorem json_equals_binary {sha : Bytes → Bytes} (hsha : ∀ x, (sha x).length = 32) {fl : Rat → Rat}
    (hfl : Bins.FloatOK fl) {b : Blk} (hw : b.WF) (hb : b.enc.length < 2 ^ 31) (hm : Money b) {j : JBlock}
    (h : Describes sha fl b j) (g : Block) :
    ∃ p st, BinBlock.parseBlock sha b.enc = some p ∧ parseBlock fl (some j) g = (true, { p with storage := st }) ∧
      st.txos = p.storage.txos ∧ st.scripts = p.storage.scripts ∧ st.txis.length = p.storage.txis.length ∧
      ∀ (k : Nat) x, p.storage.txis[k]? = some x →
        st.txis[k]? = some x ∨ x = ⟨zeros 32, 2 ^ 32 - 1⟩ ∧ st.txis[k]? = some ⟨zeros 32, 0⟩ := by
  obtain ⟨p, st, e1, e2, ⟨h1, h2, h3⟩, _⟩ := parseBlock_ok hsha hfl hw hb hm h g
  refine ⟨p, st, e1, e2, h1.symm, h2.symm, h3.length_eq.symm, ?_⟩
  have key : ∀ {a c : List Txi}, List.Forall₂ Same a c → ∀ (k : Nat) x, a[k]? = some x →
      c[k]? = some x ∨ x = ⟨zeros 32, 2 ^ 32 - 1⟩ ∧ c[k]? = some ⟨zeros 32, 0⟩ := by
    intro a c hac
    induction hac with
    | nil => intro k x hk; simp at hk
    | @cons y z a c hyz _ ih =>
      intro k x hk
      cases k with
      | zero =>
        simp only [List.getElem?_cons_zero, Option.some.injEq] at hk ⊢
        subst hk
        rcases hyz with rfl | ⟨h1, h2⟩
        · exact Or.inl rfl
        · exact Or.inr ⟨h1, h2⟩
      | succ k =>
        rw [List.getElem?_cons_succ] at hk ⊢
        exact ih k x hk
  exact key h3

/-- A transaction read as JSON, looked up in the storage `st`, agrees with `t`; of inputs, those that spend something. -/
def AgreesJson (q : Transaction) (st : Storage) (t : Tx) : Prop :=
  q.version = t.version ∧ q.isSegWit = t.segwit ∧ q.txisCount = t.ins.length ∧ q.txosCount = t.outs.length ∧
  (∀ (j : Nat) i, t.ins[j]? = some i → ¬ IsNull i → getTxi q st j = some ⟨i.txid, i.vout⟩) ∧
  (∀ (j : Nat) o, t.outs[j]? = some o →
    ∃ x, getTxo q st j = some x ∧ x.value = o.value ∧ scriptOf st x = some o.script)

/-- C69: what the JSON says is what the block structure then holds. -/
theorem json_block_recovered {sha : Bytes → Bytes} (hsha : ∀ x, (sha x).length = 32) {fl : Rat → Rat}
    (hfl : Bins.FloatOK fl) {b : Blk} (hw : b.WF) (hb : b.enc.length < 2 ^ 31) (hm : Money b) {j : JBlock}
    (h : Describes sha fl b j) (g : Block) :
    ∃ p, parseBlock fl (some j) g = (true, p) ∧ p.hash = sha (sha b.header) ∧ p.version = b.version ∧
      p.prevHash = b.prev ∧ p.merkleRoot = b.merkle ∧ p.time = b.time ∧ p.nBits = b.bits ∧ p.nonce = b.nonce ∧
      p.size = b.enc.length ∧ p.transactions.map Transaction.txId = (b.txs.map fun t => sha (sha t.stripped)) ∧
      ∀ (k : Nat) t, b.txs[k]? = some t → ∃ q, p.transactions[k]? = some q ∧ AgreesJson q p.storage t ∧
        q.size = t.enc.length ∧ q.strippedSize = t.stripped.length ∧ q.weight = 3 * t.stripped.length + t.enc.length := by
  obtain ⟨p, st, e1, e2, e3, e4, h4⟩ := json_equals_binary hsha hfl hw hb hm h g
  obtain ⟨p1, f1, g1, g2, g3, g4, g5, g6, g7, _, g9⟩ := block_recovered sha hw hb
  obtain ⟨p2, f2, k2⟩ := txid_stripped sha hw hb
  obtain ⟨p3, f3, k3⟩ := transaction_sizes sha hw hb
  obtain ⟨p4, f4, k4, _⟩ := block_sizes sha hw hb
  rw [e1, Option.some.injEq] at f1 f2 f3 f4
  subst f1 f2 f3 f4
  refine ⟨_, e2, g1, g2, g3, g4, g5, g6, g7, k4, k2, ?_⟩
  intro k t hk
  obtain ⟨q, hq, a1, a2, a3, a4, a5, a6⟩ := g9 k t hk
  obtain ⟨q', hq', z1, z2, z3, _⟩ := k3 k t hk
  rw [hq, Option.some.injEq] at hq'
  subst hq'
  refine ⟨q, hq, ⟨a1, a2, a3, a4, ?_, ?_⟩, z1, z2, by rw [z3, z1, z2]⟩
  · intro n i hi hn
    have h5 := a5 n i hi
    unfold getTxi at h5 ⊢
    by_cases h0 : 0 ≤ q.txisStart + n
    · rw [if_pos h0] at h5 ⊢
      rcases h4.2 _ _ h5 with h6 | ⟨h6, _⟩
      · exact h6
      · rw [Txi.mk.injEq] at h6
        exact absurd ⟨h6.1, by have := h6.2; omega⟩ hn
    · rw [if_neg h0] at h5
      simp at h5
  · intro n o ho
    obtain ⟨x, x1, x2, x3⟩ := a6 n o ho
    refine ⟨x, ?_, x2, ?_⟩
    · unfold getTxo at x1 ⊢
      dsimp only
      rw [e3]
      exact x1
    · unfold scriptOf at x3 ⊢
      dsimp only
      rw [e4]
      exact x3

/-- C70: an amount written as a decimal number of bitcoins, read as a float64, multiplied and rounded, is the amount, to
the satoshi, up to the whole supply. -/
theorem amount_exact {fl : Rat → Rat} (hfl : Bins.FloatOK fl) {v : Nat} (hv : v ≤ 21000000 * 100000000) :
    satoshis fl (fl ((v : Rat) / 100000000)) = v :=
  satoshis_ok hfl (by omega)

/-! ## Fetching -/

theorem parse_flag (fl : Rat → Rat) (j : Option JBlock) (g g' : Block) :
    (parseBlock fl j g).1 = (parseBlock fl j g').1 ∧
      ((parseBlock fl j g).1 = true → parseBlock fl j g = parseBlock fl j g') := by
  unfold parseBlock
  dsimp only
  cases j with
  | none => exact ⟨rfl, fun h => by simp at h⟩
  | some j =>
    dsimp only
    cases Hex.hexToSha256 j.hash with
    | none => exact ⟨rfl, fun h => by simp at h⟩
    | some h1 =>
      dsimp only
      cases (if j.prev = [] then some (zeros 32) else Hex.hexToSha256 j.prev) with
      | none => exact ⟨rfl, fun h => by simp at h⟩
      | some h2 =>
        dsimp only
        cases Hex.hexToSha256 j.merkle with
        | none => exact ⟨rfl, fun h => by simp at h⟩
        | some h3 =>
          dsimp only
          cases parseUint j.bits with
          | none => exact ⟨rfl, fun h => by simp at h⟩
          | some h4 => exact ⟨rfl, fun _ => rfl⟩

/-! ### Which JSON is a block -/

/-- Text of hex digits. -/
def IsHex (s : Bytes) : Prop := ∀ c ∈ s, Hex.isHexDigit c = true

/-- A transaction that is accepted: an id of 64 characters; inputs with no id or one of 64 characters; scripts that are
whole bytes in hex. -/
structure TxAcceptable (j : JTx) : Prop where
  txid : j.txid.length = 64
  vin : ∀ i ∈ j.vin, i.txid.length = 0 ∨ i.txid.length = 64
  vout : ∀ o ∈ j.vout, o.hex.length % 2 = 0 ∧ IsHex o.hex

/-- A block that is accepted. Not counting zeros in front, the bits have at most eight hex digits. -/
structure Acceptable (j : JBlock) : Prop where
  hash : j.hash.length = 64
  prev : j.prev.length = 0 ∨ j.prev.length = 64
  merkle : j.merkle.length = 64
  bits : j.bits ≠ [] ∧ IsHex j.bits ∧ (j.bits.dropWhile (· == 0x30)).length ≤ 8
  tx : ∀ t ∈ j.tx, TxAcceptable t

theorem hexToSha256_isSome (s : Bytes) : (Hex.hexToSha256 s).isSome = true ↔ s.length = 64 := by
  unfold Hex.hexToSha256
  by_cases h : s.length = 64
  · rw [if_neg (by omega)]; simp [h]
  · rw [if_pos h]; simp [h]

theorem optional_isSome (s : Bytes) :
    (if s = [] then some (zeros 32) else Hex.hexToSha256 s).isSome = true ↔ s.length = 0 ∨ s.length = 64 := by
  by_cases h : s = []
  · rw [if_pos h]; simp [h]
  · rw [if_neg h, hexToSha256_isSome]
    have : s.length ≠ 0 := by simpa using h
    omega

theorem hexValue_isSome : ∀ c : Fin 256, (hexValue (UInt8.ofNat c.val)).isSome = Hex.isHexDigit (UInt8.ofNat c.val) := by
  decide +kernel

theorem hexValue_isSome' (c : UInt8) : (hexValue c).isSome = Hex.isHexDigit c := by
  have := hexValue_isSome ⟨c.toNat, c.toNat_lt⟩
  simpa using this

theorem hexDecode_isSome : ∀ s : Bytes, (hexDecode s).isSome = true ↔ s.length % 2 = 0 ∧ IsHex s
  | [] => by simp [hexDecode, IsHex]
  | [x] => by simp [hexDecode]
  | a :: b :: rest => by
    have ih := hexDecode_isSome rest
    have ha := hexValue_isSome' a
    have hb := hexValue_isSome' b
    rw [hexDecode]
    have hc : IsHex (a :: b :: rest) ↔ Hex.isHexDigit a = true ∧ Hex.isHexDigit b = true ∧ IsHex rest := by
      simp [IsHex]
    rw [hc, List.length_cons, List.length_cons]
    have hm : (rest.length + 1 + 1) % 2 = rest.length % 2 := by omega
    rw [hm]
    cases h1 : hexValue a with
    | none =>
      rw [h1] at ha
      simp only [Option.isSome_none] at ha ⊢
      rw [← ha]
      simp
    | some x =>
      cases h2 : hexValue b with
      | none =>
        rw [h2] at hb
        simp only [Option.isSome_none] at hb ⊢
        rw [← hb]
        simp
      | some y =>
        rw [h1] at ha
        rw [h2] at hb
        dsimp only
        rw [Option.isSome_map, ih, ← ha, ← hb]
        simp

theorem hexNumber_none {s : Bytes} {n : Nat} (h : ¬ IsHex s) : hexNumber s n = none := by
  induction s generalizing n with
  | nil => exact absurd (fun c hc => by simp at hc) h
  | cons c s ih =>
    rw [hexNumber]
    cases hv : hexValue c with
    | none => rfl
    | some d =>
      dsimp only
      apply ih
      intro hs
      apply h
      intro x hx
      rcases List.mem_cons.mp hx with rfl | hx
      · rw [← hexValue_isSome', hv]; rfl
      · exact hs x hx

theorem hexValue_lt : ∀ c : Fin 256, ∀ d ∈ hexValue (UInt8.ofNat c.val), d < 16 ∧ (d = 0 ↔ UInt8.ofNat c.val = 0x30) := by
  decide +kernel

theorem hexNumber_bounds {s : Bytes} (h : IsHex s) (n : Nat) :
    ∃ m, hexNumber s n = some m ∧ n * 16 ^ s.length ≤ m ∧ m < (n + 1) * 16 ^ s.length := by
  induction s generalizing n with
  | nil => exact ⟨n, rfl, by simp, by simp⟩
  | cons c s ih =>
    have hc := h c (by simp)
    rw [← hexValue_isSome'] at hc
    obtain ⟨d, hd⟩ := Option.isSome_iff_exists.mp hc
    have hl := (hexValue_lt ⟨c.toNat, c.toNat_lt⟩ d (by simpa using hd)).1
    obtain ⟨m, e, h1, h2⟩ := ih (fun x hx => h x (by simp [hx])) (16 * n + d)
    refine ⟨m, by rw [hexNumber, hd]; exact e, ?_, ?_⟩
    · rw [List.length_cons, Nat.pow_succ, Nat.mul_comm _ 16, ← Nat.mul_assoc]
      exact Nat.le_trans (Nat.mul_le_mul_right _ (by omega)) h1
    · rw [List.length_cons, Nat.pow_succ, Nat.mul_comm _ 16, ← Nat.mul_assoc]
      exact Nat.lt_of_lt_of_le h2 (Nat.mul_le_mul_right _ (by omega))

theorem hexNumber_zeros (s : Bytes) : hexNumber s 0 = hexNumber (s.dropWhile (· == 0x30)) 0 := by
  induction s with
  | nil => rfl
  | cons c s ih =>
    by_cases hc : c = 0x30
    · subst hc
      have : List.dropWhile (fun x : UInt8 => x == 0x30) (0x30 :: s) = List.dropWhile (· == 0x30) s := by
        rw [List.dropWhile_cons_of_pos (by decide)]
      rw [this, ← ih, hexNumber]
      rfl
    · rw [List.dropWhile_cons_of_neg (by simpa using hc)]

theorem parseUint_isSome (s : Bytes) : (parseUint s).isSome = true ↔
    s ≠ [] ∧ IsHex s ∧ (s.dropWhile (· == 0x30)).length ≤ 8 := by
  unfold parseUint
  by_cases h0 : s = []
  · rw [if_pos h0]; simp [h0]
  rw [if_neg h0]
  by_cases hh : IsHex s
  · have hd : IsHex (s.dropWhile (· == 0x30)) := fun c hc => hh c ((List.dropWhile_sublist _).subset hc)
    rw [hexNumber_zeros]
    cases he : s.dropWhile (· == 0x30) with
    | nil => simp [hexNumber, h0, hh]
    | cons c r =>
      rw [he] at hd
      have hc0 : c ≠ 0x30 := by
        have := List.head_dropWhile_not (l := s) (· == (0x30 : UInt8)) (by rw [he]; simp)
        simp only [he, List.head_cons] at this
        simpa using this
      have hc := hd c (by simp)
      rw [← hexValue_isSome'] at hc
      obtain ⟨d, hv⟩ := Option.isSome_iff_exists.mp hc
      have hl := hexValue_lt ⟨c.toNat, c.toNat_lt⟩ d (by simpa using hv)
      simp only [UInt8.ofNat_toNat] at hl
      have hd0 : d ≠ 0 := fun h => hc0 (hl.2.mp h)
      obtain ⟨m, e, h1, h2⟩ := hexNumber_bounds (fun x hx => hd x (by simp [hx])) (s := r) d
      have : hexNumber (c :: r) 0 = some m := by
        rw [hexNumber, hv]
        simpa using e
      rw [this]
      dsimp only
      have hiff : m < 2 ^ 32 ↔ r.length + 1 ≤ 8 := by
        constructor
        · intro hm
          by_contra hr
          have hp : 16 ^ 8 ≤ 16 ^ r.length := Nat.pow_le_pow_right (by omega) (by omega)
          have : 1 * 16 ^ r.length ≤ d * 16 ^ r.length := Nat.mul_le_mul_right _ (by omega)
          omega
        · intro hr
          have hp : 16 ^ r.length ≤ 16 ^ 7 := Nat.pow_le_pow_right (by omega) (by omega)
          have : (d + 1) * 16 ^ r.length ≤ 16 * 16 ^ 7 := Nat.mul_le_mul (by omega) hp
          omega
      rw [List.length_cons]
      by_cases hm : m < 2 ^ 32
      · rw [if_pos hm]; simp [h0, hh]; omega
      · rw [if_neg hm]; simp [h0, hh]; omega
  · rw [hexNumber_none hh]; simp [hh]

theorem parseTxis_flag (js : List JTxi) (st : Storage) :
    (parseTxis js st).1 = true ↔ ∀ i ∈ js, i.txid.length = 0 ∨ i.txid.length = 64 := by
  induction js generalizing st with
  | nil => simp [parseTxis]
  | cons j js ih =>
    have h := optional_isSome j.txid
    rw [parseTxis]
    cases ho : (if j.txid = [] then some (zeros 32) else Hex.hexToSha256 j.txid) with
    | none =>
      rw [ho] at h
      simp only [Option.isSome_none, Bool.false_eq_true, false_iff] at h
      simp only [Bool.false_eq_true, List.mem_cons, forall_eq_or_imp, false_iff]
      exact fun hc => h hc.1
    | some x =>
      rw [ho] at h
      dsimp only
      rw [ih, List.forall_mem_cons]
      exact ⟨fun hx => ⟨h.mp rfl, hx⟩, fun hx => hx.2⟩

theorem parseTxos_flag (fl : Rat → Rat) (js : List JTxo) (st : Storage) :
    (parseTxos fl js st).1 = true ↔ ∀ o ∈ js, o.hex.length % 2 = 0 ∧ IsHex o.hex := by
  induction js generalizing st with
  | nil => simp [parseTxos]
  | cons j js ih =>
    have h := hexDecode_isSome j.hex
    rw [parseTxos]
    cases ho : hexDecode j.hex with
    | none =>
      rw [ho] at h
      simp only [Option.isSome_none, Bool.false_eq_true, false_iff] at h
      simp only [Bool.false_eq_true, List.mem_cons, forall_eq_or_imp, false_iff]
      exact fun hc => h hc.1
    | some x =>
      rw [ho] at h
      dsimp only
      rw [ih, List.forall_mem_cons]
      exact ⟨fun hx => ⟨h.mp rfl, hx⟩, fun hx => hx.2⟩

theorem parseTransaction_flag (fl : Rat → Rat) (j : JTx) (t : Transaction) (st : Storage) :
    (parseTransaction fl j t st).1 = true ↔ TxAcceptable j := by
  have h := hexToSha256_isSome j.txid
  have hi := parseTxis_flag j.vin st
  unfold parseTransaction
  dsimp only
  cases h1 : Hex.hexToSha256 j.txid with
  | none =>
    rw [h1] at h
    simp only [Option.isSome_none, Bool.false_eq_true, false_iff] at h
    dsimp only
    constructor
    · intro hc; exact absurd hc (by decide)
    · intro hc; exact absurd hc.txid h
  | some x =>
    rw [h1] at h
    dsimp only
    cases h2 : parseTxis j.vin st with
    | mk ok st1 =>
      rw [h2] at hi
      dsimp only at hi
      cases ok with
      | false =>
        dsimp only
        constructor
        · intro hc; exact absurd hc (by decide)
        · intro hc; exact hi.mpr hc.vin
      | true =>
        dsimp only
        have ho := parseTxos_flag fl j.vout st1
        cases h3 : parseTxos fl j.vout st1 with
        | mk ok st2 =>
          rw [h3] at ho
          dsimp only at ho
          cases ok with
          | false =>
            dsimp only
            constructor
            · intro hc; exact absurd hc (by decide)
            · intro hc; exact ho.mpr hc.vout
          | true =>
            dsimp only
            exact ⟨fun _ => ⟨h.mp rfl, hi.mp rfl, ho.mp rfl⟩, fun _ => rfl⟩

theorem parseTransactions_flag (fl : Rat → Rat) (js : List JTx) (st : Storage) :
    (parseTransactions fl js st).1 = true ↔ ∀ t ∈ js, TxAcceptable t := by
  induction js generalizing st with
  | nil => simp [parseTransactions]
  | cons j js ih =>
    have h := parseTransaction_flag fl j zeroTransaction st
    rw [parseTransactions, List.forall_mem_cons]
    cases h1 : parseTransaction fl j zeroTransaction st with
    | mk ok r =>
      obtain ⟨t, st1⟩ := r
      rw [h1] at h
      dsimp only at h
      cases ok with
      | false =>
        dsimp only
        exact ⟨fun hc => absurd hc (by decide), fun hc => h.mpr hc.1⟩
      | true =>
        dsimp only
        rw [ih]
        exact ⟨fun hx => ⟨h.mp rfl, hx⟩, fun hx => hx.2⟩

/-- C71: the JSON that is accepted. -/
theorem accepted_iff (fl : Rat → Rat) (j : Option JBlock) (g : Block) :
    (parseBlock fl j g).1 = true ↔ ∃ x, j = some x ∧ Acceptable x := by
  cases j with
  | none => simp [parseBlock]
  | some j =>
    have e : ∀ {P : Prop}, (P ↔ Acceptable j) → (P ↔ ∃ x, some j = some x ∧ Acceptable x) := by
      intro P hP
      rw [hP]
      exact ⟨fun h => ⟨j, rfl, h⟩, fun ⟨x, h1, h2⟩ => by rw [Option.some.injEq] at h1; rw [h1]; exact h2⟩
    apply e
    have f1 := hexToSha256_isSome j.hash
    have f2 := optional_isSome j.prev
    have f3 := hexToSha256_isSome j.merkle
    have f4 := parseUint_isSome j.bits
    have f5 := parseTransactions_flag fl j.tx ⟨[], [], []⟩
    have no : ∀ {P : Prop}, ¬ P → (false = true ↔ P) := fun h => ⟨fun hc => absurd hc (by decide), fun hc => absurd hc h⟩
    unfold parseBlock
    dsimp only
    cases h1 : Hex.hexToSha256 j.hash with
    | none =>
      rw [h1] at f1
      exact no fun hc => absurd (f1.mpr hc.hash) (by decide)
    | some x1 =>
      dsimp only
      cases h2 : (if j.prev = [] then some (zeros 32) else Hex.hexToSha256 j.prev) with
      | none =>
        rw [h2] at f2
        exact no fun hc => absurd (f2.mpr hc.prev) (by decide)
      | some x2 =>
        dsimp only
        cases h3 : Hex.hexToSha256 j.merkle with
        | none =>
          rw [h3] at f3
          exact no fun hc => absurd (f3.mpr hc.merkle) (by decide)
        | some x3 =>
          dsimp only
          cases h4 : parseUint j.bits with
          | none =>
            rw [h4] at f4
            exact no fun hc => absurd (f4.mpr hc.bits) (by decide)
          | some x4 =>
            dsimp only
            rw [f5]
            rw [h1] at f1
            rw [h2] at f2
            rw [h3] at f3
            rw [h4] at f4
            exact ⟨fun h => ⟨f1.mp rfl, f2.mp rfl, f3.mp rfl, f4.mp rfl, h⟩, fun h => h.tx⟩

/-- C71: a block structure left over from a failed attempt makes no difference: whether the next attempt succeeds, and
what it gives if it does, are as for a new block structure. -/
theorem leftovers_harmless (fl : Rat → Rat) (j : Option JBlock) (g g' p : Block) :
    parseBlock fl j g = (true, p) ↔ parseBlock fl j g' = (true, p) := by
  constructor
  · intro h
    rw [← (parse_flag fl j g g').2 (by rw [h]), h]
  · intro h
    rw [← (parse_flag fl j g' g).2 (by rw [h]), h]

/-- A reply that is a block: it has a body that reads as `p` into a new block structure. -/
def IsBlock (fl : Rat → Rat) (unmarshal : Bytes → Option JBlock) (r : Reply) (p : Block) : Prop :=
  ∃ bytes, r = .body bytes ∧ parseBlock fl (unmarshal bytes) newBlock = (true, p)

theorem fetch_json_eq (fl : Rat → Rat) (unmarshal : Bytes → Option JBlock) (n : Nat) (rs : List Reply) (g p : Block) :
    fetch (fun bytes b => some (parseBlock fl (unmarshal bytes) b)) n rs g = .block p ↔
      ∃ k r, k < n ∧ rs[k]? = some r ∧ IsBlock fl unmarshal r p ∧
        ∀ i r', i < k → rs[i]? = some r' → ¬ ∃ p', IsBlock fl unmarshal r' p' := by
  induction n generalizing rs g with
  | zero =>
    rw [fetch]
    constructor
    · intro h; simp at h
    · rintro ⟨k, r, hk, _⟩; omega
  | succ n ih =>
    cases rs with
    | nil =>
      rw [fetch]
      constructor
      · intro h; simp at h
      · rintro ⟨k, r, hk, h, _⟩; simp at h
    | cons r rs =>
      -- a reply that is not a block is passed over
      have pass : ∀ g', (¬ ∃ p', IsBlock fl unmarshal r p') →
          (fetch (fun bytes b => some (parseBlock fl (unmarshal bytes) b)) n rs g' = .block p ↔
          ∃ k r', k < n + 1 ∧ (r :: rs)[k]? = some r' ∧ IsBlock fl unmarshal r' p ∧
            ∀ i r'', i < k → (r :: rs)[i]? = some r'' → ¬ ∃ p', IsBlock fl unmarshal r'' p') := by
        intro g' hno
        rw [ih]
        constructor
        · rintro ⟨k, r', hk, h1, h2, h3⟩
          refine ⟨k + 1, r', by omega, by rw [List.getElem?_cons_succ]; exact h1, h2, ?_⟩
          intro i r'' hi h4
          cases i with
          | zero =>
            simp only [List.getElem?_cons_zero, Option.some.injEq] at h4
            subst h4
            exact hno
          | succ i => exact h3 i r'' (by omega) (by rw [List.getElem?_cons_succ] at h4; exact h4)
        · rintro ⟨k, r', hk, h1, h2, h3⟩
          cases k with
          | zero =>
            simp only [List.getElem?_cons_zero, Option.some.injEq] at h1
            subst h1
            exact absurd ⟨p, h2⟩ hno
          | succ k =>
            rw [List.getElem?_cons_succ] at h1
            exact ⟨k, r', by omega, h1, h2,
              fun i r'' hi h4 => h3 (i + 1) r'' (by omega) (by rw [List.getElem?_cons_succ]; exact h4)⟩
      cases r with
      | failed =>
        rw [fetch]
        apply pass
        rintro ⟨p', bytes, h, _⟩
        simp at h
      | body bytes =>
        rw [fetch]
        have hf := parse_flag fl (unmarshal bytes) g newBlock
        cases hg : parseBlock fl (unmarshal bytes) g with
        | mk ok b' =>
          rw [hg] at hf
          cases ok with
          | true =>
            dsimp only at hf ⊢
            have hnew := (hf.2 rfl).symm
            have hb : IsBlock fl unmarshal (.body bytes) b' := ⟨bytes, rfl, hnew⟩
            constructor
            · intro h
              rw [Fetched.block.injEq] at h
              subst h
              exact ⟨0, _, by omega, rfl, hb, fun i r' hi => by omega⟩
            · rintro ⟨k, r', hk, h1, h2, h3⟩
              cases k with
              | zero =>
                simp only [List.getElem?_cons_zero, Option.some.injEq] at h1
                subst h1
                obtain ⟨b2, h4, h5⟩ := h2
                rw [Reply.body.injEq] at h4
                subst h4
                rw [hnew, Prod.mk.injEq] at h5
                rw [h5.2]
              | succ k => exact absurd ⟨b', hb⟩ (h3 0 (.body bytes) (by omega) rfl)
          | false =>
            dsimp only at hf ⊢
            apply pass
            rintro ⟨p', b2, h4, h5⟩
            rw [Reply.body.injEq] at h4
            subst h4
            rw [h5] at hf
            simp at hf

/-- C71: fetching as JSON delivers a block exactly if one of the first three replies is a block, and then it is the
first of them, read as if into a new block structure. -/
theorem fetch_first_good (fl : Rat → Rat) (unmarshal : Bytes → Option JBlock) (rs : List Reply) (p : Block) :
    fetchJson fl unmarshal rs = .block p ↔
      ∃ k r, k < 3 ∧ rs[k]? = some r ∧ IsBlock fl unmarshal r p ∧
        ∀ i r', i < k → rs[i]? = some r' → ¬ ∃ p', IsBlock fl unmarshal r' p' :=
  fetch_json_eq fl unmarshal 3 rs newBlock p

/-- C71: otherwise it panics. -/
theorem fetch_panics_iff (fl : Rat → Rat) (unmarshal : Bytes → Option JBlock) (rs : List Reply) :
    fetchJson fl unmarshal rs = .panic ↔
      ∀ k r, k < 3 → rs[k]? = some r → ¬ ∃ p, IsBlock fl unmarshal r p := by
  constructor
  · intro h
    -- the first block among the replies would be delivered
    have key : ∀ k, k ≤ 3 → ∀ i r, i < k → rs[i]? = some r → ¬ ∃ p, IsBlock fl unmarshal r p := by
      intro k
      induction k with
      | zero => intro _ i r hi; omega
      | succ k ih =>
        intro hk i r hi hr
        have ih' := ih (by omega)
        by_cases he : i < k
        · exact ih' i r he hr
        · rintro ⟨p, hp⟩
          have : i = k := by omega
          subst this
          have := (fetch_first_good fl unmarshal rs p).mpr ⟨i, r, by omega, hr, hp, ih'⟩
          rw [h] at this
          simp at this
    intro k r hk hr
    exact key 3 (by omega) k r hk hr
  · intro h
    cases hf : fetchJson fl unmarshal rs with
    | panic => rfl
    | block p =>
      obtain ⟨k, r, hk, hr, hp, _⟩ := (fetch_first_good fl unmarshal rs p).mp hf
      exact absurd ⟨p, hp⟩ (h k r hk hr)

/-- C71: after up to two replies that are not blocks, a reply that describes a block gives that block. -/
theorem fetch_describes {sha : Bytes → Bytes} (hsha : ∀ x, (sha x).length = 32) {fl : Rat → Rat} (hfl : Bins.FloatOK fl)
    {b : Blk} (hw : b.WF) (hb : b.enc.length < 2 ^ 31) (hm : Money b) {j : JBlock} (h : Describes sha fl b j)
    (unmarshal : Bytes → Option JBlock) {bytes : Bytes} (hj : unmarshal bytes = some j) (bad rest : List Reply)
    (h3 : bad.length < 3) (hbad : ∀ r ∈ bad, ¬ ∃ p, IsBlock fl unmarshal r p) :
    ∃ p st, BinBlock.parseBlock sha b.enc = some p ∧
      fetchJson fl unmarshal (bad ++ .body bytes :: rest) = .block { p with storage := st } ∧
      SameStorage p.storage st := by
  obtain ⟨p, st, e1, e2, e3, _⟩ := parseBlock_ok hsha hfl hw hb hm h newBlock
  refine ⟨p, st, e1, ?_, e3⟩
  rw [fetch_first_good]
  refine ⟨bad.length, .body bytes, h3, ?_, ⟨bytes, rfl, by rw [hj]; exact e2⟩, ?_⟩
  · rw [List.getElem?_append_right (Nat.le_refl _), Nat.sub_self]
    rfl
  · intro i r' hi hr
    rw [List.getElem?_append_left hi] at hr
    exact hbad r' (List.mem_of_getElem? hr)

/-- C71: fetching in binary, the first reply with a body decides: the block, or a panic if it is not one. -/
theorem fetch_binary (sha : Bytes → Bytes) (bytes : Bytes) (n : Nat) (rest : List Reply) :
    fetchBinary sha (List.replicate n .failed ++ .body bytes :: rest) =
      if n < 3 then match BinBlock.parseBlock sha bytes with | some p => .block p | none => .panic else .panic := by
  have key : ∀ m g, fetch (fun bytes _ => (BinBlock.parseBlock sha bytes).map fun b => (true, b)) m
      (List.replicate n .failed ++ .body bytes :: rest) g =
      if n < m then match BinBlock.parseBlock sha bytes with | some p => .block p | none => .panic else .panic := by
    intro m g
    induction n generalizing m with
    | zero =>
      cases m with
      | zero => rfl
      | succ m =>
        rw [if_pos (by omega), List.replicate_zero, List.nil_append, fetch]
        cases BinBlock.parseBlock sha bytes <;> rfl
    | succ n ih =>
      cases m with
      | zero => rfl
      | succ m =>
        rw [List.replicate_succ, List.cons_append, fetch, ih]
        by_cases hnm : n < m
        · rw [if_pos hnm, if_pos (by omega)]
        · rw [if_neg hnm, if_neg (by omega)]
  exact key 3 newBlock

/-! ## Non-vacuity -/

/-- A function with 32-byte results, in place of the hash. -/
def exSha (x : Bytes) : Bytes := (x.take 32 ++ zeros 32).take 32

theorem exSha_length (x : Bytes) : (exSha x).length = 32 := by
  unfold exSha zeros
  rw [List.length_take, List.length_append, List.length_replicate]
  omega

/-- An input as JSON. -/
def exIn (i : In) : JTxi := if i.txid = zeros 32 ∧ i.vout = 2 ^ 32 - 1 then ⟨[], 0⟩ else ⟨shownHash i.txid, i.vout⟩

/-- A transaction as JSON. -/
def exTx (t : Tx) : JTx :=
  { txid := shownHash (exSha (exSha t.stripped)), vin := t.ins.map exIn
    vout := t.outs.map fun o => ⟨Bins.fl53 ((o.value : Rat) / 100000000), shown o.script⟩
    version := t.version, size := t.enc.length, weight := 3 * t.stripped.length + t.enc.length
    vsize := ((3 * t.stripped.length + t.enc.length + 3) / 4 : Nat) }

/-- The example block of the binary parser, as JSON. -/
def exJson : JBlock :=
  { hash := shownHash (exSha (exSha exBlk.header)), prev := shownHash exBlk.prev, merkle := shownHash exBlk.merkle
    version := 2, time := 1231006505, nonce := 2083236893, bits := shown32 0x1d00ffff
    size := exBlk.enc.length, strippedsize := (Blk.stripped exBlk).length
    weight := 3 * (Blk.stripped exBlk).length + exBlk.enc.length
    tx := exBlk.txs.map exTx }

theorem forall₂_map {α β : Type} {R : α → β → Prop} (f : α → β) (l : List α) (h : ∀ x ∈ l, R x (f x)) :
    List.Forall₂ R l (l.map f) := by
  induction l with
  | nil => exact List.Forall₂.nil
  | cons x l ih => exact List.Forall₂.cons (h x (by simp)) (ih fun y hy => h y (by simp [hy]))

theorem exJson_describes : Describes exSha Bins.fl53 exBlk exJson := by
  refine ⟨rfl, ?_, rfl, Or.inl rfl, rfl, rfl, rfl, rfl, rfl, rfl, forall₂_map exTx exBlk.txs ?_⟩
  · rw [if_neg (by decide)]
    rfl
  · intro t _
    refine ⟨rfl, forall₂_map exIn t.ins ?_, forall₂_map _ t.outs fun o _ => ⟨rfl, rfl⟩, Or.inl rfl, rfl, rfl, rfl⟩
    intro i _
    by_cases hi : i.txid = zeros 32 ∧ i.vout = 2 ^ 32 - 1
    · exact Or.inl ⟨hi, by rw [exIn, if_pos hi], by rw [exIn, if_pos hi]⟩
    · exact Or.inr ⟨hi, by rw [exIn, if_neg hi], by rw [exIn, if_neg hi]⟩

theorem exBlk_money : Money exBlk := by
  intro t ht
  simp only [exBlk, List.mem_cons, List.not_mem_nil, or_false] at ht
  rcases ht with rfl | rfl
  · intro o ho; simp at ho; subst ho; decide
  · intro o ho; simp at ho; rcases ho with rfl | rfl <;> decide

/-- The hypotheses of the theorems are met by a block with a first transaction and a segwit transaction. -/
example : (∀ x, (exSha x).length = 32) ∧ Bins.FloatOK Bins.fl53 ∧ exBlk.WF ∧ exBlk.enc.length < 2 ^ 31 ∧ Money exBlk ∧
    Describes exSha Bins.fl53 exBlk exJson :=
  ⟨exSha_length, Bins.floatOK_fl53, exBlk_wf, by decide +kernel, exBlk_money, exJson_describes⟩

/-- The example is accepted; with a character taken from a script or an id it is not. -/
example : (parseBlock Bins.fl53 (some exJson) newBlock).1 = true ∧
    ¬ ∃ x, some { exJson with tx := exJson.tx.map fun t => { t with txid := t.txid.tail } } = some x ∧ Acceptable x := by
  refine ⟨by rw [(parseBlock_ok exSha_length Bins.floatOK_fl53 exBlk_wf (by decide +kernel) exBlk_money exJson_describes newBlock).choose_spec.choose_spec.2.1], ?_⟩
  rintro ⟨x, h1, h2⟩
  rw [Option.some.injEq] at h1
  subst h1
  have := (h2.tx _ (List.mem_map.mpr ⟨_, List.mem_cons_self, rfl⟩)).txid
  revert this
  decide +kernel

/-- A refused request, then a body that is not JSON, then the block. -/
example : ∃ p, fetchJson Bins.fl53 (fun b => if b = [1] then some exJson else none) [.failed, .body [0], .body [1]] = .block p := by
  obtain ⟨p, st, _, h, _⟩ := fetch_describes exSha_length Bins.floatOK_fl53 exBlk_wf (by decide +kernel) exBlk_money
    exJson_describes (fun b => if b = [1] then some exJson else none) (bytes := [1]) rfl [.failed, .body [0]] [] (by decide)
    (by
      intro r hr
      simp only [List.mem_cons, List.not_mem_nil, or_false] at hr
      rcases hr with rfl | rfl
      · rintro ⟨p, b, h, _⟩; simp at h
      · rintro ⟨p, b, h, h2⟩
        rw [Reply.body.injEq] at h
        subst h
        have h3 : (parseBlock Bins.fl53 none newBlock).1 = true := congrArg Prod.fst h2
        exact Bool.noConfusion h3)
  exact ⟨_, h⟩

/-- A short binary body is not tried again. -/
example : fetchBinary id [.body [1, 2, 3], .body exBlk.enc] = .panic := by
  have := fetch_binary id [1, 2, 3] 0 [.body exBlk.enc]
  rw [List.replicate_zero, List.nil_append] at this
  rw [this, if_pos (by decide)]
  rfl

end Verif.JsonBlock
