import Verif.Model.BinBlock
import Verif.Lemmas.Bytes
import Verif.Lemmas.Records

/-! # The standard serialization, and parsing it -/

namespace Verif.BinBlock

/-! ## Specification: the standard serialization of blocks -/

/-- An input: the output spent, script, sequence number and witness stack. -/
structure In where
  txid : Bytes
  vout : Nat
  script : Bytes
  seq : Bytes
  witness : List Bytes

/-- An output. -/
structure Out where
  value : Nat
  script : Bytes

/-- A transaction; `segwit` says whether it is serialized with witnesses. -/
structure Tx where
  version : Nat
  segwit : Bool
  ins : List In
  outs : List Out
  locktime : Bytes

/-- A block. -/
structure Blk where
  version : Nat
  prev : Bytes
  merkle : Bytes
  time : Nat
  bits : Nat
  nonce : Nat
  txs : List Tx

/-- Variable-length count. -/
def cs (n : Nat) : Bytes :=
  if n < 253 then [UInt8.ofNat n]
  else if n < 2 ^ 16 then 253 :: leEnc 2 n
  else if n < 2 ^ 32 then 254 :: leEnc 4 n
  else 255 :: leEnc 8 n

/-- Bytes with their length in front. -/
def varBytes (b : Bytes) : Bytes := cs b.length ++ b

/-- An input without its witness. -/
def In.enc (i : In) : Bytes := i.txid ++ leEnc 4 i.vout ++ varBytes i.script ++ i.seq

/-- An output. -/
def Out.enc (o : Out) : Bytes := leEnc 8 o.value ++ varBytes o.script

/-- A witness stack. -/
def encStack (w : List Bytes) : Bytes := cs w.length ++ (w.map varBytes).flatten

/-- Inputs and outputs. -/
def Tx.body (t : Tx) : Bytes :=
  cs t.ins.length ++ (t.ins.map In.enc).flatten ++ (cs t.outs.length ++ (t.outs.map Out.enc).flatten)

/-- The witness-free serialization. -/
def Tx.stripped (t : Tx) : Bytes := leEnc 4 t.version ++ t.body ++ t.locktime

/-- The serialization. -/
def Tx.enc (t : Tx) : Bytes :=
  if t.segwit then leEnc 4 t.version ++ [0, 1] ++ t.body ++ (t.ins.map fun i => encStack i.witness).flatten ++ t.locktime
  else t.stripped

/-- The 80-byte header. -/
def Blk.header (b : Blk) : Bytes :=
  leEnc 4 b.version ++ b.prev ++ b.merkle ++ leEnc 4 b.time ++ leEnc 4 b.bits ++ leEnc 4 b.nonce

/-- The block. -/
def Blk.enc (b : Blk) : Bytes := b.header ++ cs b.txs.length ++ (b.txs.map Tx.enc).flatten

/-- Field widths of an input. -/
structure In.WF (i : In) : Prop where
  txid : i.txid.length = 32
  vout : i.vout < 2 ^ 32
  seq : i.seq.length = 4

/-- Field widths of a transaction; at least one input (as the format demands); amounts that are not negative
as 64-bit integers. -/
structure Tx.WF (t : Tx) : Prop where
  version : t.version < 2 ^ 32
  some : t.ins ≠ []
  ins : ∀ i ∈ t.ins, i.WF
  outs : ∀ o ∈ t.outs, o.value < 2 ^ 63
  locktime : t.locktime.length = 4

/-- Field widths of a block. -/
structure Blk.WF (b : Blk) : Prop where
  version : b.version < 2 ^ 32
  prev : b.prev.length = 32
  merkle : b.merkle.length = 32
  time : b.time < 2 ^ 32
  bits : b.bits < 2 ^ 32
  nonce : b.nonce < 2 ^ 32
  txs : ∀ t ∈ b.txs, t.WF

/-! ## Reading at a position -/

/-- `bin` has `s` at position `off`. -/
def At (bin : Bytes) (off : Nat) (s : Bytes) : Prop := ∃ post, bin.drop off = s ++ post

theorem At.le {bin : Bytes} {off : Nat} {s : Bytes} (h : At bin off s) (hs : s ≠ []) : off + s.length ≤ bin.length := by
  obtain ⟨post, h⟩ := h
  have h1 := congrArg List.length h
  rw [List.length_drop, List.length_append] at h1
  have : 0 < s.length := List.length_pos_iff.mpr hs
  omega

theorem At.left {bin : Bytes} {off : Nat} {s t : Bytes} (h : At bin off (s ++ t)) : At bin off s := by
  obtain ⟨post, h⟩ := h
  exact ⟨t ++ post, by rw [h, List.append_assoc]⟩

theorem At.right {bin : Bytes} {off : Nat} {s t : Bytes} (h : At bin off (s ++ t)) : At bin (off + s.length) t := by
  obtain ⟨post, h⟩ := h
  refine ⟨post, ?_⟩
  rw [← List.drop_drop, h, List.append_assoc, List.drop_left]

theorem At.sub {bin : Bytes} {off : Nat} {s : Bytes} (h : At bin off s) (hle : off + s.length ≤ bin.length) (a b : Int)
    (ha : a = off) (hb : b = off + s.length) : sub bin a b = some s := by
  obtain ⟨post, h⟩ := h
  subst ha hb
  unfold BinBlock.sub
  rw [if_pos ⟨by omega, by omega, by omega⟩]
  have : ((off : Int) + s.length - off).toNat = s.length := by omega
  rw [this, Int.toNat_natCast, h, List.take_left]

theorem At.at1 {bin : Bytes} {off : Nat} {x : Byte} {s : Bytes} (h : At bin off (x :: s)) (a : Int) (ha : a = off) :
    at1 bin a = some x := by
  obtain ⟨post, h⟩ := h
  subst ha
  unfold BinBlock.at1
  rw [if_pos (by omega), Int.toNat_natCast, ← List.head?_drop, h]
  rfl

theorem cs_ne (n : Nat) : cs n ≠ [] := by
  unfold cs
  split
  · simp
  · split
    · simp
    · split <;> simp

theorem cs_pos (n : Nat) : 1 ≤ (cs n).length := List.length_pos_iff.mpr (cs_ne n)

theorem readCompactSize_cs {bin : Bytes} {off : Nat} {n : Nat} (hn : n < 2 ^ 64) (h : At bin off (cs n)) (a : Int)
    (ha : a = off) : readCompactSize bin a = some (n, (cs n).length) := by
  subst ha
  have hle := h.le (cs_ne n)
  unfold readCompactSize
  unfold cs at h hle ⊢
  by_cases h1 : n < 253
  · rw [if_pos h1] at h hle ⊢
    have hu : (UInt8.ofNat n).toNat = n := by
      rw [UInt8.toNat_ofNat']; omega
    rw [h.at1 _ rfl]
    simp only [Option.bind_eq_bind, Option.bind_some, hu, h1, if_true]
    rfl
  · have key : ∀ (k w : Nat) (b : Byte), b.toNat = k → At bin off (b :: leEnc w n) → off + (b :: leEnc w n).length ≤ bin.length →
        n < 256 ^ w → BinBlock.sub bin ((off : Int) + 1) (off + (1 + w : Nat)) = some (leEnc w n) := by
      intro k w b hb hAt hlen hnw
      have hr : At bin (off + 1) (leEnc w n) := (At.right (s := [b]) hAt)
      apply hr.sub
      · rw [List.length_cons, leEnc_length] at hlen
        rw [leEnc_length]; omega
      · push_cast; rfl
      · rw [leEnc_length]; push_cast; omega
    rw [if_neg h1] at h hle ⊢
    by_cases h2 : n < 2 ^ 16
    · rw [if_pos h2] at h hle ⊢
      rw [h.at1 _ rfl]
      have := key 253 2 253 rfl h hle (by simpa using h2)
      simp only [Option.bind_eq_bind, Option.bind_some]
      rw [if_neg (by decide), if_pos (by decide)]
      rw [show ((off : Int) + 3) = off + ((1 + 2 : Nat) : Int) by push_cast; rfl, this, Option.map_some,
        leDec_leEnc_of_lt (by simpa using h2)]
      simp
    · rw [if_neg h2] at h hle ⊢
      by_cases h3 : n < 2 ^ 32
      · rw [if_pos h3] at h hle ⊢
        rw [h.at1 _ rfl]
        have := key 254 4 254 rfl h hle (by simpa using h3)
        simp only [Option.bind_eq_bind, Option.bind_some]
        rw [if_neg (by decide), if_neg (by decide), if_pos (by decide)]
        rw [show ((off : Int) + 5) = off + ((1 + 4 : Nat) : Int) by push_cast; rfl, this, Option.map_some,
          leDec_leEnc_of_lt (by simpa using h3)]
        simp
      · rw [if_neg h3] at h hle ⊢
        rw [h.at1 _ rfl]
        have := key 255 8 255 rfl h hle (by simpa using hn)
        simp only [Option.bind_eq_bind, Option.bind_some]
        rw [if_neg (by decide), if_neg (by decide), if_neg (by decide)]
        rw [show ((off : Int) + 9) = off + ((1 + 8 : Nat) : Int) by push_cast; rfl, this, Option.map_some,
          leDec_leEnc_of_lt (by simpa using hn)]
        simp

theorem ofU64_small {n : Nat} (h : n < 2 ^ 63) : ofU64 n = n := by unfold ofU64; rw [if_pos h]

theorem toI32_small {n : Nat} (h : n < 2 ^ 31) : toI32 n = n := by unfold toI32; omega

/-! ## Transactions -/

/-- What the parser makes of an input. -/
def In.txi (i : In) : Txi := ⟨i.txid, i.vout⟩

theorem parseTxis_ok {bin : Bytes} (hb : bin.length < 2 ^ 31) (ins : List In) (hw : ∀ i ∈ ins, i.WF) {off : Nat}
    (h : At bin off (ins.map In.enc).flatten) (acc : List Txi) (a : Int) (ha : a = off) :
    parseTxis bin ins.length a acc =
      some (((off + (ins.map In.enc).flatten.length : Nat) : Int), acc ++ ins.map In.txi) := by
  induction ins generalizing off acc a with
  | nil => subst ha; simp [parseTxis]
  | cons i ins ih =>
    subst ha
    have w := hw i (by simp)
    rw [List.map_cons, List.flatten_cons] at h
    have hr := h.right
    have hh := h.left
    have hlen : off + i.enc.length ≤ bin.length := by
      apply hh.le
      unfold In.enc
      intro h0
      have := congrArg List.length h0
      simp [w.txid] at this
    have hl : i.enc.length = 40 + (cs i.script.length).length + i.script.length := by
      unfold In.enc varBytes
      simp only [List.length_append, w.txid, w.seq, leEnc_length]; omega
    unfold In.enc at hh
    have a4 := hh.left.left.left
    have a5 := hh.left.left.right
    have a6 := hh.left.right
    rw [List.length_append, w.txid, leEnc_length] at a6
    rw [w.txid] at a5
    unfold varBytes at a6
    have hs : i.script.length < 2 ^ 31 := by omega
    rw [List.length_cons]
    unfold parseTxis
    rw [a4.sub (by rw [w.txid]; omega) _ _ rfl (by rw [w.txid]; rfl),
      a5.sub (by rw [leEnc_length]; omega) _ _ (by push_cast; rfl) (by rw [leEnc_length]; push_cast; omega),
      readCompactSize_cs (by omega) a6.left _ (by push_cast; omega)]
    simp only [Option.bind_eq_bind, Option.bind_some]
    rw [ofU64_small (by omega), leDec_leEnc_of_lt (by have := w.vout; simpa using this)]
    rw [ih (fun x hx => hw x (by simp [hx])) hr _ _ (by rw [hl]; push_cast; omega)]
    rw [List.map_cons, List.flatten_cons, List.length_append]
    simp only [List.append_assoc, List.map_cons, List.singleton_append]
    congr 3
    push_cast
    omega

/-- What the parser makes of the outputs, with the scripts stored from position `n`. -/
def outTxos (n : Nat) : List Out → List Txo
  | [] => []
  | o :: os => ⟨o.value, n, o.script.length⟩ :: outTxos (n + o.script.length) os

theorem parseTxos_ok {bin : Bytes} (hb : bin.length < 2 ^ 31) (outs : List Out) (hw : ∀ o ∈ outs, o.value < 2 ^ 63)
    {off : Nat} (h : At bin off (outs.map Out.enc).flatten) (st : Storage) (hst : st.scripts.length ≤ off) (a : Int)
    (ha : a = off) :
    parseTxos bin outs.length a st =
      some (((off + (outs.map Out.enc).flatten.length : Nat) : Int),
        { st with txos := st.txos ++ outTxos st.scripts.length outs
                  scripts := st.scripts ++ (outs.map Out.script).flatten }) := by
  induction outs generalizing off st a with
  | nil => subst ha; simp [parseTxos, outTxos]
  | cons o outs ih =>
    subst ha
    have w := hw o (by simp)
    rw [List.map_cons, List.flatten_cons] at h
    have hr := h.right
    have hh := h.left
    have hlen : off + o.enc.length ≤ bin.length := by
      apply hh.le
      unfold Out.enc
      intro h0
      have := congrArg List.length h0
      simp at this
    have hl : o.enc.length = 8 + (cs o.script.length).length + o.script.length := by
      unfold Out.enc varBytes
      simp only [List.length_append, leEnc_length]; omega
    unfold Out.enc at hh
    have a1 := hh.left
    have a2 := hh.right
    rw [leEnc_length] at a2
    unfold varBytes at a2
    have a3 := a2.right
    have hs : o.script.length < 2 ^ 31 := by omega
    rw [List.length_cons]
    unfold parseTxos
    rw [a1.sub (by rw [leEnc_length]; omega) _ _ rfl (by rw [leEnc_length]; rfl),
      readCompactSize_cs (by omega) a2.left _ (by push_cast; rfl)]
    simp only [Option.bind_eq_bind, Option.bind_some]
    rw [ofU64_small (n := o.script.length) (by omega),
      a3.sub (by omega) _ _ (by push_cast; rfl) (by push_cast; rfl)]
    simp only [Option.bind_some]
    rw [leDec_leEnc_of_lt (by have : (256:Nat)^8 = 2^64 := by decide
                              omega), ofU64_small w, toI32_small (by omega), toI32_small hs]
    rw [ih (fun x hx => hw x (by simp [hx])) hr _ (by
      rw [List.length_append, hl]; omega) _ (by rw [hl]; push_cast; omega)]
    rw [List.map_cons, List.flatten_cons, List.length_append]
    simp only [List.append_assoc, List.map_cons, List.singleton_append, List.length_append, List.flatten_cons, outTxos]
    congr 3
    push_cast
    omega

theorem varBytes_length (b : Bytes) : (varBytes b).length = (cs b.length).length + b.length := by
  unfold varBytes; rw [List.length_append]

theorem skipItems_ok {bin : Bytes} (hb : bin.length < 2 ^ 31) (items : List Bytes) {off : Nat}
    (h : At bin off (items.map varBytes).flatten) (a : Int) (ha : a = off) :
    skipItems bin items.length a = some ((off + (items.map varBytes).flatten.length : Nat) : Int) := by
  induction items generalizing off a with
  | nil => subst ha; simp [skipItems]
  | cons x items ih =>
    subst ha
    rw [List.map_cons, List.flatten_cons] at h
    have hl := h.left.le (by
      unfold varBytes
      intro h0
      exact cs_ne _ (List.append_eq_nil_iff.mp h0).1)
    have hr := h.right
    have hh := h.left
    rw [varBytes_length] at hl
    unfold varBytes at hh
    rw [List.length_cons]
    unfold skipItems
    rw [readCompactSize_cs (by omega) hh.left _ rfl]
    simp only [Option.bind_eq_bind, Option.bind_some]
    rw [ofU64_small (by omega), ih hr _ (by rw [varBytes_length]; push_cast; omega), List.map_cons, List.flatten_cons,
      List.length_append]
    congr 2
    omega

theorem flatten_length_le (items : List Bytes) : items.length ≤ (items.map varBytes).flatten.length := by
  induction items with
  | nil => simp
  | cons x items ih =>
    rw [List.map_cons, List.flatten_cons, List.length_append, varBytes_length, List.length_cons]
    have := cs_pos x.length
    omega

theorem skipWitness_ok {bin : Bytes} (hb : bin.length < 2 ^ 31) (stacks : List (List Bytes)) {off : Nat}
    (h : At bin off (stacks.map encStack).flatten) (a : Int) (ha : a = off) :
    skipWitness bin stacks.length a = some ((off + (stacks.map encStack).flatten.length : Nat) : Int) := by
  induction stacks generalizing off a with
  | nil => subst ha; simp [skipWitness]
  | cons x stacks ih =>
    subst ha
    rw [List.map_cons, List.flatten_cons] at h
    have hl := h.left.le (by
      unfold encStack
      intro h0
      exact cs_ne _ (List.append_eq_nil_iff.mp h0).1)
    have hr := h.right
    have hh := h.left
    have hlen : (encStack x).length = (cs x.length).length + (x.map varBytes).flatten.length := by
      unfold encStack; rw [List.length_append]
    rw [hlen] at hl
    have := flatten_length_le x
    unfold encStack at hh
    rw [List.length_cons]
    unfold skipWitness
    rw [readCompactSize_cs (by omega) hh.left _ rfl]
    simp only [Option.bind_eq_bind, Option.bind_some]
    rw [skipItems_ok hb x hh.right _ (by push_cast; rfl)]
    simp only [Option.bind_some]
    rw [ih hr _ (by rw [hlen]; push_cast; omega), List.map_cons, List.flatten_cons, List.length_append, hlen]
    congr 2
    omega

theorem enc_ge (ins : List In) (hw : ∀ i ∈ ins, i.WF) : ins.length ≤ (ins.map In.enc).flatten.length := by
  induction ins with
  | nil => simp
  | cons x l ih =>
    rw [List.map_cons, List.flatten_cons, List.length_append, List.length_cons]
    have := ih (fun i hi => hw i (by simp [hi]))
    have : 1 ≤ x.enc.length := by
      unfold In.enc
      simp only [List.length_append, (hw x (by simp)).txid]; omega
    omega

theorem oenc_ge (outs : List Out) : outs.length ≤ (outs.map Out.enc).flatten.length := by
  induction outs with
  | nil => simp
  | cons x l ih =>
    rw [List.map_cons, List.flatten_cons, List.length_append, List.length_cons]
    have : 1 ≤ x.enc.length := by
      unfold Out.enc
      simp only [List.length_append, leEnc_length]; omega
    omega

theorem scripts_le (outs : List Out) : (outs.map Out.script).flatten.length ≤ (outs.map Out.enc).flatten.length := by
  induction outs with
  | nil => simp
  | cons x l ih =>
    rw [List.map_cons, List.flatten_cons, List.length_append, List.map_cons, List.flatten_cons, List.length_append]
    have : x.script.length ≤ x.enc.length := by
      unfold Out.enc varBytes
      simp only [List.length_append]; omega
    omega

/-- The count of inputs does not start with a zero byte. -/
theorem cs_head {n : Nat} (hn : n ≠ 0) : ∃ x s, cs n = x :: s ∧ x ≠ 0 := by
  unfold cs
  split
  · rename_i h
    refine ⟨_, _, rfl, ?_⟩
    intro h0
    have := congrArg UInt8.toNat h0
    rw [UInt8.toNat_ofNat'] at this
    simp at this
    omega
  · split
    · exact ⟨_, _, rfl, by decide⟩
    · split
      · exact ⟨_, _, rfl, by decide⟩
      · exact ⟨_, _, rfl, by decide⟩

/-- What the parser makes of a transaction. -/
def Tx.parsed (sha : Bytes → Bytes) (t : Tx) (st : Storage) : Transaction :=
  { txId := sha (sha t.stripped), version := t.version, isSegWit := t.segwit
    txisStart := st.txis.length, txisCount := t.ins.length, txosStart := st.txos.length, txosCount := t.outs.length
    size := t.enc.length, weight := t.stripped.length * 3 + t.enc.length
    vSize := ((t.stripped.length * 3 + t.enc.length + 3) / 4 : Nat), strippedSize := t.stripped.length }

/-- The storage after a transaction. -/
def Tx.stored (t : Tx) (st : Storage) : Storage :=
  { txis := st.txis ++ t.ins.map In.txi, txos := st.txos ++ outTxos st.scripts.length t.outs
    scripts := st.scripts ++ (t.outs.map Out.script).flatten }

theorem body_parts {bin : Bytes} (hb : bin.length < 2 ^ 31) {t : Tx} (hw : t.WF) {off : Nat} (h : At bin off t.body)
    (st : Storage) (hst : st.scripts.length ≤ off) :
    ∃ i : Int, readCompactSize bin off = some (t.ins.length, (cs t.ins.length).length) ∧
      parseTxis bin t.ins.length (off + (cs t.ins.length).length) st.txis = some (i, st.txis ++ t.ins.map In.txi) ∧
      readCompactSize bin i = some (t.outs.length, (cs t.outs.length).length) ∧
      parseTxos bin t.outs.length (i + (cs t.outs.length).length) { st with txis := st.txis ++ t.ins.map In.txi } =
        some (((off + t.body.length : Nat) : Int), t.stored st) ∧ off + t.body.length ≤ bin.length ∧
      t.ins.length < 2 ^ 31 ∧ t.outs.length < 2 ^ 31 := by
  have hlen : t.body.length = (cs t.ins.length).length + (t.ins.map In.enc).flatten.length +
      ((cs t.outs.length).length + (t.outs.map Out.enc).flatten.length) := by
    unfold Tx.body
    simp only [List.length_append]
  have hne : t.body ≠ [] := by
    intro h0
    have h1 := congrArg List.length h0
    have := cs_pos t.ins.length
    rw [hlen] at h1
    simp only [List.length_nil] at h1
    omega
  have hle := h.le hne
  have e1 := enc_ge t.ins hw.ins
  have e2 := oenc_ge t.outs
  have a := h
  unfold Tx.body at a
  have a1 := a.left.left
  have a2 := a.left.right
  have a3 := a.right.left
  have a4 := a.right.right
  rw [List.length_append] at a3 a4
  refine ⟨((off + (cs t.ins.length).length + (t.ins.map In.enc).flatten.length : Nat) : Int), ?_, ?_, ?_, ?_, hle, by omega, by omega⟩
  · exact readCompactSize_cs (by omega) a1 _ rfl
  · exact parseTxis_ok hb t.ins hw.ins a2 _ _ (by push_cast; rfl)
  · exact readCompactSize_cs (by omega) a3 _ (by push_cast; omega)
  · rw [parseTxos_ok hb t.outs hw.outs a4 { st with txis := st.txis ++ t.ins.map In.txi } (by dsimp only; omega) _ (by push_cast; omega)]
    rw [hlen]
    unfold Tx.stored
    congr 3
    omega

theorem parseTransaction_ok (sha : Bytes → Bytes) {bin : Bytes} (hb : bin.length < 2 ^ 31) {t : Tx} (hw : t.WF) {off : Nat}
    (h : At bin off t.enc) (st : Storage) (hst : st.scripts.length ≤ off) :
    parseTransaction sha bin off st = some (t.parsed sha st, t.stored st) := by
  have hlt := hw.locktime
  cases hseg : t.segwit with
  | false =>
    have henc : t.enc = t.stripped := by unfold Tx.enc; rw [hseg]; rfl
    rw [henc] at h
    have h0 := h
    unfold Tx.stripped at h
    have v1 := h.left.left
    have v2 := h.left.right
    rw [leEnc_length] at v2
    have v3 := h.right
    rw [List.length_append, leEnc_length] at v3
    have hl : off + t.stripped.length ≤ bin.length := h0.le (by
      unfold Tx.stripped
      intro h0
      have := congrArg List.length h0
      simp at this)
    have hsl : t.stripped.length = 4 + t.body.length + 4 := by
      unfold Tx.stripped
      simp only [List.length_append, leEnc_length, hlt]
    obtain ⟨i, p1, p2, p3, p4, p5, p6, p7⟩ := body_parts hb hw v2 st (by omega)
    obtain ⟨x, s, hx, hx0⟩ := cs_head (n := t.ins.length) (by
      intro h; exact hw.some (List.length_eq_zero_iff.mp h))
    have hb0 : at1 bin ((off : Int) + 4) = some x := by
      have v4 : At bin (off + 4) (x :: s) := by
        unfold Tx.body at v2
        have := v2.left.left
        rw [hx] at this
        exact this
      exact v4.at1 _ (by push_cast; rfl)
    unfold parseTransaction
    rw [v1.sub (by rw [leEnc_length]; omega) _ _ rfl (by rw [leEnc_length]; rfl), hb0]
    simp only [Option.bind_eq_bind, Option.bind_some, hx0, if_false, Bool.false_eq_true]
    rw [show ((off : Int) + 4) = ((off + 4 : Nat) : Int) by push_cast; rfl, p1]
    simp only [Option.bind_some]
    rw [p2]
    simp only [Option.bind_some]
    rw [p3]
    simp only [Option.bind_some]
    rw [p4]
    simp only [Option.bind_some]
    rw [v2.sub p5 _ _ rfl (by push_cast; rfl)]
    simp only [Option.bind_some]
    rw [v3.sub (by rw [hlt]; omega) _ _ (by push_cast; omega) (by rw [hlt]; push_cast; omega)]
    simp only [Option.bind_some, Option.some.injEq, Prod.mk.injEq]
    refine ⟨?_, trivial⟩
    unfold Tx.parsed
    have hvv := hw.version
    rw [leDec_leEnc_of_lt (by simpa using hvv), ofU64_small (by omega), ofU64_small (by omega), henc, hseg, hsl]
    have hz : ∀ z : Int, 0 ≤ z → z.tdiv 4 = z / 4 := fun z hz => Int.tdiv_eq_ediv_of_nonneg hz
    rw [hz _ (by omega)]
    simp only [Tx.stripped, Transaction.mk.injEq, true_and]
    refine ⟨?_, ?_, ?_, ?_⟩ <;> push_cast <;> omega
  | true =>
    have henc : t.enc = leEnc 4 t.version ++ [0, 1] ++ t.body ++ (t.ins.map fun i => encStack i.witness).flatten ++ t.locktime := by
      unfold Tx.enc; rw [hseg]; rfl
    have hsl : t.stripped.length = 4 + t.body.length + 4 := by
      unfold Tx.stripped
      simp only [List.length_append, leEnc_length, hlt]
    have hel : t.enc.length = 6 + t.body.length + (t.ins.map fun i => encStack i.witness).flatten.length + 4 := by
      rw [henc]
      simp only [List.length_append, leEnc_length, hlt, List.length_cons, List.length_nil]
    have hl : off + t.enc.length ≤ bin.length := h.le (by
      rw [henc]
      intro h0
      have := congrArg List.length h0
      simp at this)
    rw [henc] at h
    have v1 := h.left.left.left.left
    have v2 := h.left.left.left.right
    have v3 := h.left.left.right
    have v4 := h.left.right
    have v5 := h.right
    simp only [List.length_append, leEnc_length, List.length_cons, List.length_nil] at v2 v3 v4 v5
    obtain ⟨i, p1, p2, p3, p4, p5, p6, p7⟩ := body_parts hb hw v3 st (by omega)
    have hw' : (t.ins.map fun i => encStack i.witness) = (t.ins.map In.witness).map encStack := by
      rw [List.map_map]; rfl
    have hskip := skipWitness_ok hb (t.ins.map In.witness) (off := off + (4 + (0 + 1 + 1)) + t.body.length) (by
      rw [← hw']
      have : off + (4 + (0 + 1 + 1) + t.body.length) = off + (4 + (0 + 1 + 1)) + t.body.length := by omega
      rw [← this]; exact v4) _ rfl
    rw [List.length_map, ← hw'] at hskip
    unfold parseTransaction
    rw [v1.sub (by rw [leEnc_length]; omega) _ _ rfl (by rw [leEnc_length]; rfl),
      v2.at1 _ (by push_cast; rfl), (v2.right (s := [0])).at1 (x := 1) _ (by simp only [List.length_cons, List.length_nil]; push_cast; omega)]
    simp only [Option.bind_eq_bind, Option.bind_some, if_true, Option.map_some]
    rw [show decide ((1 : UInt8) ≠ 0) = true from rfl]
    simp only [if_true]
    rw [show ((off : Int) + 6) = ((off + (4 + (0 + 1 + 1)) : Nat) : Int) by push_cast; rfl, p1]
    simp only [Option.bind_some]
    rw [p2]
    simp only [Option.bind_some]
    rw [p3]
    simp only [Option.bind_some]
    rw [p4]
    simp only [Option.bind_some]
    rw [hskip]
    simp only [Option.bind_some]
    rw [v3.sub p5 _ _ rfl (by push_cast; rfl)]
    simp only [Option.bind_some]
    rw [v5.sub (by rw [hlt]; omega) _ _ (by push_cast; omega) (by rw [hlt]; push_cast; omega)]
    simp only [Option.bind_some, Option.some.injEq, Prod.mk.injEq]
    refine ⟨?_, trivial⟩
    unfold Tx.parsed
    have hvv := hw.version
    rw [leDec_leEnc_of_lt (by simpa using hvv), ofU64_small (by omega), ofU64_small (by omega), hseg, hsl, hel]
    have hz : ∀ z : Int, 0 ≤ z → z.tdiv 4 = z / 4 := fun z hz => Int.tdiv_eq_ediv_of_nonneg hz
    rw [hz _ (by omega)]
    simp only [Tx.stripped, Transaction.mk.injEq, true_and]
    refine ⟨?_, ?_, ?_, ?_⟩ <;> push_cast <;> omega

/-! ## Blocks -/

/-- What the parser makes of the transactions. -/
def parsedAll (sha : Bytes → Bytes) : List Tx → Storage → List Transaction
  | [], _ => []
  | t :: ts, st => t.parsed sha st :: parsedAll sha ts (t.stored st)

/-- The storage after the transactions. -/
def storedAll : List Tx → Storage → Storage
  | [], st => st
  | t :: ts, st => storedAll ts (t.stored st)

theorem stripped_le (t : Tx) : t.stripped.length ≤ t.enc.length := by
  unfold Tx.enc
  split
  · unfold Tx.stripped
    simp only [List.length_append]
    omega
  · exact Nat.le_refl _

theorem stored_scripts_le (t : Tx) (st : Storage) : (t.stored st).scripts.length ≤ st.scripts.length + t.enc.length := by
  unfold Tx.stored
  rw [List.length_append]
  have h1 := scripts_le t.outs
  have h2 := stripped_le t
  have h3 : (t.outs.map Out.enc).flatten.length ≤ t.stripped.length := by
    unfold Tx.stripped Tx.body
    simp only [List.length_append]
    omega
  omega

theorem enc_ne {t : Tx} (hw : t.WF) : t.enc ≠ [] := by
  have h2 := stripped_le t
  have h3 : 4 ≤ t.stripped.length := by
    unfold Tx.stripped
    simp only [List.length_append, leEnc_length]
    omega
  intro h
  have := congrArg List.length h
  simp only [List.length_nil] at this
  omega

theorem parseTransactions_ok (sha : Bytes → Bytes) {bin : Bytes} (hb : bin.length < 2 ^ 31) (ts : List Tx)
    (hw : ∀ t ∈ ts, t.WF) {off : Nat} (h : At bin off (ts.map Tx.enc).flatten) (st : Storage)
    (hst : st.scripts.length ≤ off) (a : Int) (ha : a = off) :
    parseTransactions sha bin ts.length a st = some (parsedAll sha ts st,
      (((ts.map fun t => 3 * t.stripped.length + t.enc.length).sum : Nat) : Int),
      (((ts.map fun t => t.stripped.length).sum : Nat) : Int), storedAll ts st) := by
  induction ts generalizing off st a with
  | nil => rfl
  | cons t ts ih =>
    subst ha
    rw [List.map_cons, List.flatten_cons] at h
    have hr := h.right
    have hst' := stored_scripts_le t st
    rw [List.length_cons]
    unfold parseTransactions
    rw [parseTransaction_ok sha hb (hw t (by simp)) h.left st hst]
    simp only [Option.bind_eq_bind, Option.bind_some]
    rw [ih (fun x hx => hw x (by simp [hx])) hr (t.stored st) (by omega) _ (by
      unfold Tx.parsed; push_cast; rfl)]
    simp only [Option.bind_some, Option.some.injEq, Prod.mk.injEq, parsedAll, storedAll, and_true, true_and,
      List.map_cons, List.sum_cons]
    unfold Tx.parsed
    constructor <;> push_cast <;> omega

/-- `st'` has everything `st` has, in the same places. -/
def Ext (st st' : Storage) : Prop :=
  ∃ a b c, st'.txis = st.txis ++ a ∧ st'.txos = st.txos ++ b ∧ st'.scripts = st.scripts ++ c

theorem Ext.trans {a b c : Storage} (h1 : Ext a b) (h2 : Ext b c) : Ext a c := by
  obtain ⟨x, y, z, e1, e2, e3⟩ := h1
  obtain ⟨x', y', z', f1, f2, f3⟩ := h2
  exact ⟨x ++ x', y ++ y', z ++ z', by rw [f1, e1, List.append_assoc], by rw [f2, e2, List.append_assoc],
    by rw [f3, e3, List.append_assoc]⟩

theorem ext_stored (t : Tx) (st : Storage) : Ext st (t.stored st) := ⟨_, _, _, rfl, rfl, rfl⟩

theorem ext_storedAll (ts : List Tx) (st : Storage) : Ext st (storedAll ts st) := by
  induction ts generalizing st with
  | nil => exact ⟨[], [], [], by simp [storedAll], by simp [storedAll], by simp [storedAll]⟩
  | cons t ts ih => exact (ext_stored t st).trans (ih _)

theorem sub_mid (pre x post : Bytes) (a b : Int) (ha : a = pre.length) (hb : b = pre.length + x.length) :
    sub (pre ++ x ++ post) a b = some x := by
  have h : At (pre ++ x ++ post) pre.length x := ⟨post, by rw [List.append_assoc, List.drop_left]⟩
  exact h.sub (by simp only [List.length_append]; omega) _ _ ha hb

theorem outTxos_at (outs : List Out) (n : Nat) {j : Nat} {o : Out} (hj : outs[j]? = some o) :
    ∃ s : Nat, (outTxos n outs)[j]? = some ⟨o.value, s, o.script.length⟩ ∧
      ∀ pre post : Bytes, pre.length = n →
        sub (pre ++ (outs.map Out.script).flatten ++ post) s (s + o.script.length) = some o.script := by
  induction outs generalizing n j with
  | nil => simp at hj
  | cons x outs ih =>
    cases j with
    | zero =>
      simp only [List.getElem?_cons_zero, Option.some.injEq] at hj
      subst hj
      refine ⟨n, rfl, ?_⟩
      intro pre post hp
      rw [List.map_cons, List.flatten_cons]
      have := sub_mid pre x.script ((outs.map Out.script).flatten ++ post) n (n + x.script.length) (by rw [hp]) (by rw [hp])
      simpa only [List.append_assoc] using this
    | succ j =>
      rw [List.getElem?_cons_succ] at hj
      obtain ⟨s, h1, h2⟩ := ih (n + x.script.length) hj
      refine ⟨s, by rw [outTxos, List.getElem?_cons_succ]; exact h1, ?_⟩
      intro pre post hp
      have := h2 (pre ++ x.script) post (by rw [List.length_append, hp])
      rw [List.map_cons, List.flatten_cons]
      simpa only [List.append_assoc] using this

theorem outTxos_length (outs : List Out) (n : Nat) : (outTxos n outs).length = outs.length := by
  induction outs generalizing n with
  | nil => rfl
  | cons x l ih => rw [outTxos, List.length_cons, List.length_cons, ih]

theorem parsedAll_length (sha : Bytes → Bytes) (ts : List Tx) (st : Storage) : (parsedAll sha ts st).length = ts.length := by
  induction ts generalizing st with
  | nil => rfl
  | cons t ts ih => rw [parsedAll, List.length_cons, List.length_cons, ih]

/-- Each transaction is parsed in some storage that is kept. -/
theorem parsedAll_at (sha : Bytes → Bytes) (ts : List Tx) (st : Storage) {k : Nat} {t : Tx} (hk : ts[k]? = some t) :
    ∃ st', (parsedAll sha ts st)[k]? = some (t.parsed sha st') ∧ Ext (t.stored st') (storedAll ts st) := by
  induction ts generalizing st k with
  | nil => simp at hk
  | cons x ts ih =>
    cases k with
    | zero =>
      simp only [List.getElem?_cons_zero, Option.some.injEq] at hk
      subst hk
      exact ⟨st, rfl, ext_storedAll _ _⟩
    | succ k =>
      rw [List.getElem?_cons_succ] at hk
      obtain ⟨st', h1, h2⟩ := ih (x.stored st) hk
      exact ⟨st', by rw [parsedAll, List.getElem?_cons_succ]; exact h1, h2⟩

theorem getTxi_ok (sha : Bytes → Bytes) (t : Tx) (st : Storage) {st' : Storage} (he : Ext (t.stored st) st') {j : Nat} {i : In}
    (hj : t.ins[j]? = some i) : getTxi (t.parsed sha st) st' j = some ⟨i.txid, i.vout⟩ := by
  obtain ⟨a, b, c, e1, e2, e3⟩ := he
  unfold getTxi Tx.parsed
  dsimp only
  rw [if_pos (by omega), e1]
  unfold Tx.stored
  dsimp only
  have hlt := (List.getElem?_eq_some_iff.mp hj).1
  have : ((st.txis.length : Int) + j).toNat = st.txis.length + j := by omega
  rw [this, List.append_assoc, List.getElem?_append_right (by omega), Nat.add_sub_cancel_left,
    List.getElem?_append_left (by rw [List.length_map]; exact hlt), List.getElem?_map, hj]
  rfl

theorem getTxo_ok (sha : Bytes → Bytes) (t : Tx) (st : Storage) {st' : Storage} (he : Ext (t.stored st) st') {j : Nat} {o : Out}
    (hj : t.outs[j]? = some o) :
    ∃ x, getTxo (t.parsed sha st) st' j = some x ∧ x.value = o.value ∧ scriptOf st' x = some o.script := by
  obtain ⟨a, b, c, e1, e2, e3⟩ := he
  obtain ⟨s, h1, h2⟩ := outTxos_at t.outs st.scripts.length hj
  refine ⟨⟨o.value, s, o.script.length⟩, ?_, rfl, ?_⟩
  · unfold getTxo Tx.parsed
    dsimp only
    rw [if_pos (by omega), e2]
    unfold Tx.stored
    dsimp only
    have hlt := (List.getElem?_eq_some_iff.mp hj).1
    have : ((st.txos.length : Int) + j).toNat = st.txos.length + j := by omega
    rw [this, List.append_assoc, List.getElem?_append_right (by omega), Nat.add_sub_cancel_left,
      List.getElem?_append_left (by rw [outTxos_length]; exact hlt), h1]
  · unfold scriptOf
    rw [e3]
    exact h2 st.scripts c rfl

theorem header_length {b : Blk} (hw : b.WF) : b.header.length = 80 := by
  unfold Blk.header
  simp only [List.length_append, leEnc_length, hw.prev, hw.merkle]

theorem tx_count_le (ts : List Tx) (hw : ∀ t ∈ ts, t.WF) : ts.length ≤ (ts.map Tx.enc).flatten.length := by
  induction ts with
  | nil => simp
  | cons x l ih =>
    rw [List.map_cons, List.flatten_cons, List.length_append, List.length_cons]
    have := ih (fun i hi => hw i (by simp [hi]))
    have := List.length_pos_iff.mpr (enc_ne (hw x (by simp)))
    omega

/-- The whole result. -/
theorem parseBlock_eq (sha : Bytes → Bytes) {b : Blk} (hw : b.WF) (hb : b.enc.length < 2 ^ 31) :
    parseBlock sha b.enc = some
      { hash := sha (sha b.header), version := b.version, prevHash := b.prev, merkleRoot := b.merkle, time := b.time
        nBits := b.bits, nonce := b.nonce, transactions := parsedAll sha b.txs ⟨[], [], []⟩, size := b.enc.length
        weight := 80 * 4 + 4 * ((cs b.txs.length).length : Int) +
          (((b.txs.map fun t => 3 * t.stripped.length + t.enc.length).sum : Nat) : Int)
        strippedSize := 80 + ((cs b.txs.length).length : Int) + (((b.txs.map fun t => t.stripped.length).sum : Nat) : Int)
        storage := storedAll b.txs ⟨[], [], []⟩ } := by
  have hA : At b.enc 0 b.enc := ⟨[], by simp⟩
  have hlen : b.enc.length = 80 + (cs b.txs.length).length + (b.txs.map Tx.enc).flatten.length := by
    unfold Blk.enc
    simp only [List.length_append, header_length hw]
  have hc := tx_count_le b.txs hw.txs
  have h := hA
  rw [show At b.enc 0 b.enc = At b.enc 0 (b.header ++ cs b.txs.length ++ (b.txs.map Tx.enc).flatten) from rfl] at h
  have hh := h.left.left
  have hcs := h.left.right
  have htx := h.right
  rw [List.length_append, header_length hw] at htx
  rw [header_length hw] at hcs
  have hh' := hh
  rw [show At b.enc 0 b.header = At b.enc 0 (leEnc 4 b.version ++ b.prev ++ b.merkle ++ leEnc 4 b.time ++ leEnc 4 b.bits ++ leEnc 4 b.nonce) from rfl] at hh'
  have f1 := hh'.left.left.left.left.left
  have f2 := hh'.left.left.left.left.right
  have f3 := hh'.left.left.left.right
  have f4 := hh'.left.left.right
  have f5 := hh'.left.right
  have f6 := hh'.right
  simp only [List.length_append, leEnc_length, hw.prev, hw.merkle] at f2 f3 f4 f5 f6
  have v : ∀ n, n < 2 ^ 32 → leDec (leEnc 4 n) = n := fun n hn => leDec_leEnc_of_lt (by simpa using hn)
  unfold parseBlock
  rw [hh.sub (by rw [header_length hw]; omega) 0 80 rfl (by rw [header_length hw]; rfl),
    f1.sub (by rw [leEnc_length]; omega) 0 4 rfl (by rw [leEnc_length]; rfl),
    f2.sub (by rw [hw.prev]; omega) 4 36 rfl (by rw [hw.prev]; rfl),
    f3.sub (by rw [hw.merkle]; omega) 36 68 rfl (by rw [hw.merkle]; rfl),
    f4.sub (by rw [leEnc_length]; omega) 68 72 rfl (by rw [leEnc_length]; rfl),
    f5.sub (by rw [leEnc_length]; omega) 72 76 rfl (by rw [leEnc_length]; rfl),
    f6.sub (by rw [leEnc_length]; omega) 76 80 rfl (by rw [leEnc_length]; rfl),
    readCompactSize_cs (by omega) hcs 80 rfl]
  simp only [Option.bind_eq_bind, Option.bind_some]
  rw [parseTransactions_ok sha hb b.txs hw.txs htx ⟨[], [], []⟩ (by simp) _ (by push_cast; omega)]
  simp only [Option.bind_some]
  rw [v _ hw.version, v _ hw.time, v _ hw.bits, v _ hw.nonce]

end Verif.BinBlock
