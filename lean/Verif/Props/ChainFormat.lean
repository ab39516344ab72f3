import Verif.Props.Killed

/-!
# C106: the bytes of a finished chain

The folder that a finished run leaves, byte by byte, from the chain of blocks alone: what a program that opens the files
without this library has to know. The files of the hash stores are in C79 and C24, the files with the further outputs of
an address in C88.
-/

namespace Verif.Killed

open ChainStore
open WordFile (WF wordsOf)

/-! ## Specification -/

/-- The transaction an input spends from, by the way the source refers to it. -/
def target (i : Iface) (bs : List Blk) (x : Txi) : Nat :=
  match i, x.ref with
  | .cri, some (.height h) => h.toNat
  | .cri, some (.path c m) => ((firstAt bs c.toNat : Int) + m).toNat
  | _, _ => ((allTxs bs).map (·.hash)).idxOf x.txid

/-- Output `k` is the first to pay its address. -/
def opens (bs : List Blk) (k : Nat) : Bool := ((outputs bs).map (·.addr)).idxOf (((outputs bs).map (·.addr)).getD k []) = k

/-- The number asked for, as the lowest `w` bytes of it. -/
def lowBytes (w : Nat) (fields : List (String × Int)) (name : String) : Nat := (((lookup fields name).getD 0) % (256 ^ w : Nat)).toNat

/-- The files: folder, name, bytes for each number, and the numbers. An address has the number of the first output that pays
it. -/
def files (i : Iface) (bn tn : List (String × Nat)) (bs : List Blk) : List (String × String × Nat × List Nat) :=
  [("Blocks", "firsttrans.int", 4, (List.range bs.length).map (firstAt bs)),
   ("Parents", "parentblockoftrans.int", 4, bs.zipIdx.flatMap fun x => List.replicate x.1.txs.length x.2),
   ("Transactions", "firsttxi.int", 5, (List.range (allTxs bs).length).map (inputsBefore i bs)),
   ("Transactions", "firsttxo.int", 5, (List.range (allTxs bs).length).map (outputsBefore bs)),
   ("TransactionInputs", "tx.int", 4, (inputs i bs).map (target i bs)),
   ("TransactionInputs", "vout.int", 4, (inputs i bs).map fun x => x.vout.toNat),
   ("Parents", "parenttransoftxi.int", 5, (inputRows i bs).zipIdx.flatMap fun x => List.replicate x.1.length x.2),
   ("Parents", "parenttransoftxo.int", 5, (allTxs bs).zipIdx.flatMap fun x => List.replicate x.1.txos.length x.2),
   ("TransactionOutputs", "value.int", 7, (outputs bs).map fun x => x.sats.toNat),
   ("TransactionOutputs", "address.int", 5, (outputs bs).map fun x => ((outputs bs).map (·.addr)).idxOf x.addr),
   ("TransactionOutputs", "spenttotxi.int", 5, List.replicate (outputs bs).length 0),
   ("Addresses", "firsttxo.int", 5,
    (List.range ((((List.range (outputs bs).length).filter (opens bs)).getLast?.map (· + 1)).getD 0)).map
      fun k => if opens bs k then k else 0)] ++
  (bn.map fun f => ("Blocks", f.1 ++ ".int", f.2, bs.map fun b => lowBytes f.2 b.fields f.1)) ++
  tn.map fun f => ("Transactions", f.1 ++ ".int", f.2, (allTxs bs).map fun t => lowBytes f.2 t.fields f.1)

/-- A file holds the numbers `l` in `w` bytes each, least byte first, and nothing else. -/
def Encodes (w : Nat) (l : List Nat) (data : Bytes) : Prop :=
  data.length = l.length * w ∧
  ∀ j v, l[j]? = some v → v < 256 ^ w ∧ ∀ k < w, (data[j * w + k]?).map UInt8.toNat = some (v / 256 ^ k % 256)

theorem Encodes.unique {w : Nat} (hw : 0 < w) {l : List Nat} {d1 d2 : Bytes} (h1 : Encodes w l d1) (h2 : Encodes w l d2) : d1 = d2 := by
  apply List.ext_getElem?
  intro n
  by_cases hn : n < l.length * w
  · have hj : n / w < l.length := Nat.div_lt_of_lt_mul (by rw [Nat.mul_comm]; exact hn)
    have hk : n % w < w := Nat.mod_lt _ hw
    have e : n / w * w + n % w = n := by rw [Nat.mul_comm]; exact Nat.div_add_mod n w
    have a1 := (h1.2 _ _ (List.getElem?_eq_getElem hj)).2 _ hk
    have a2 := (h2.2 _ _ (List.getElem?_eq_getElem hj)).2 _ hk
    rw [e] at a1 a2
    rw [← a2] at a1
    exact Option.map_injective (fun a b h => UInt8.toNat_inj.mp h) a1
  · rw [List.getElem?_eq_none (by rw [h1.1]; omega), List.getElem?_eq_none (by rw [h2.1]; omega)]

/-! ## The bytes of the words -/

theorem leEnc_get (w n k : Nat) (hk : k < w) : ((leEnc w n)[k]?).map UInt8.toNat = some (n / 256 ^ k % 256) := by
  induction w generalizing n k with
  | zero => omega
  | succ w ih =>
    rw [leEnc]
    cases k with
    | zero => simp
    | succ k =>
      rw [List.getElem?_cons_succ, ih _ _ (by omega), Nat.div_div_eq_div_mul, Nat.pow_succ, Nat.mul_comm]

theorem encodes_recs {w : Nat} (hw : 0 < w) {l : Words} {data : Bytes} (hm : data.length % w = 0)
    (hr : recs w data = l.map (leEnc w)) (hb : ∀ v ∈ l, v < 256 ^ w) : Encodes w l data := by
  have hl := congrArg List.length hr
  rw [recs_length, List.length_map] at hl
  have hlen : data.length = l.length * w := by rw [← hl, Nat.div_mul_cancel (Nat.dvd_of_mod_eq_zero hm)]
  refine ⟨hlen, fun j v hv => ⟨hb v (List.mem_of_getElem? hv), fun k hk => ?_⟩⟩
  have hj : j < l.length := (List.getElem?_eq_some_iff.mp hv).1
  have e : (recs w data)[j]? = some (leEnc w v) := by rw [hr, List.getElem?_map, hv]; rfl
  unfold recs at e
  rw [List.getElem?_map, List.getElem?_range (by rw [hl]; exact hj)] at e
  have e2 : slice data (j * w) w = leEnc w v := Option.some.inj e
  rw [← leEnc_get w v k hk, ← e2]
  unfold slice
  rw [List.getElem?_take_of_lt hk, List.getElem?_drop]

theorem disk_bytes {w : Nat} (hw : 0 < w ∧ w ≤ 8) {ops : List WordFile.Op} :
    Encodes w (replay w [] ops) (diskAfter w (ops ++ [.sync])) := by
  obtain ⟨_, hb, plain, h1, h2, h3⟩ := (holds_fresh w).run hw ops
  have e : diskAfter w (ops ++ [.sync]) = plain := by
    unfold diskAfter
    rw [run_append]
    exact (AppendOpt.inv_flush h1).2.1
  rw [e]
  exact encodes_recs hw.1 h2 h3 hb

/-! ## The words of the chain -/

/-- The numbers in each file, by the file's place in the model. -/
def content (i : Iface) (bn tn : List (String × Nat)) (bs : List Blk) : File → List Nat
  | .blkFirstTrans => (List.range bs.length).map (firstAt bs)
  | .parentBlockOfTrans => bs.zipIdx.flatMap fun x => List.replicate x.1.txs.length x.2
  | .trnFirstTxi => (List.range (allTxs bs).length).map (inputsBefore i bs)
  | .txiTx => (inputs i bs).map (target i bs)
  | .txiVout => (inputs i bs).map fun x => x.vout.toNat
  | .parentTransOfTxi => (inputRows i bs).zipIdx.flatMap fun x => List.replicate x.1.length x.2
  | .trnFirstTxo => (List.range (allTxs bs).length).map (outputsBefore bs)
  | .txoSats => (outputs bs).map fun x => x.sats.toNat
  | .txoAddress => (outputs bs).map fun x => ((outputs bs).map (·.addr)).idxOf x.addr
  | .txoSpentTxi => List.replicate (outputs bs).length 0
  | .parentTransOfTxo => (allTxs bs).zipIdx.flatMap fun x => List.replicate x.1.txos.length x.2
  | .addrFirstTxo => (List.range ((((List.range (outputs bs).length).filter (opens bs)).getLast?.map (· + 1)).getD 0)).map
      fun k => if opens bs k then k else 0
  | .blkNei k => ((bn[k]?).map fun f => bs.map fun b => lowBytes f.2 b.fields f.1).getD []
  | .trnNei k => ((tn[k]?).map fun f => (allTxs bs).map fun t => lowBytes f.2 t.fields f.1).getD []

theorem indexOf_idxOf {l : List Bytes} {a : Bytes} (h : a ∈ l) : indexOf l a = (l.idxOf a : Nat) := by
  have hlt : l.idxOf a < l.length := List.idxOf_lt_length_iff.mpr h
  apply indexOf_first
  · rw [List.getElem?_eq_getElem hlt, List.getElem_idxOf]
  · intro j hj he
    have := List.not_of_lt_findIdx (p := (· == a)) (xs := l) (i := j) hj
    obtain ⟨hj2, he2⟩ := List.getElem?_eq_some_iff.mp he
    simp [he2] at this

theorem neiVal_low {w : Nat} (hw : w ≤ 8) (fields : List (String × Int)) (name : String) :
    neiVal w fields name = lowBytes w fields name := by
  unfold neiVal lowBytes toU64
  generalize (lookup fields name).getD 0 = v
  have hd : (256 ^ w : Nat) ∣ (2 ^ 64 : Nat) := by
    rw [show (256 : Nat) = 2 ^ 8 from rfl, ← Nat.pow_mul]
    exact Nat.pow_dvd_pow 2 (by omega)
  generalize (256 ^ w : Nat) = m at hd
  obtain ⟨c, hc⟩ := hd
  have hm : 0 < m := by
    rcases Nat.eq_zero_or_pos m with h | h
    · rw [h] at hc; omega
    · exact h
  have e : (v % 2 ^ 64) % (m : Int) = v % (m : Int) := by
    apply Int.emod_emod_of_dvd
    exact ⟨(c : Int), by exact_mod_cast hc⟩
  have h0 : 0 ≤ v % 2 ^ 64 := Int.emod_nonneg _ (by omega)
  obtain ⟨u, hu⟩ := Int.eq_ofNat_of_zero_le h0
  rw [← e, hu, ← Int.natCast_emod]
  rfl

theorem target_src {i : Iface} {d : Bool} {bn tn : List (String × Nat)} {bs : List Blk} (hg : Good i d bn tn bs) {x : Txi}
    (hx : x ∈ inputs i bs) : srcOf i bs x = target i bs x := by
  unfold inputs inputRows at hx
  rw [List.mem_flatten] at hx
  obtain ⟨row, hrow, hx⟩ := hx
  rw [List.mem_flatMap] at hrow
  obtain ⟨b, hb, hrow⟩ := hrow
  rw [List.mem_map] at hrow
  obtain ⟨y, hy, rfl⟩ := hrow
  obtain ⟨k, hk⟩ := List.getElem?_of_mem hb
  obtain ⟨n, hn, hr⟩ := hg.refs (b, k) (zipIdx_mem hk) y hy x hx
  have hkl := lt_of_getElem? hk
  have hs : (sizes bs).sum < 2 ^ 63 := by
    have := hg.trnCount
    have e : (allTxs bs).length = (sizes bs).sum := by simp [allTxs, sizes]
    omega
  rw [refers_srcOf hkl hr hs]
  have hhash : (((allTxs bs)[n]?).map (·.hash) = some x.txid ∧ ∀ j, j < n → ((allTxs bs)[j]?).map (·.hash) ≠ some x.txid) →
      n = ((allTxs bs).map (·.hash)).idxOf x.txid := by
    rintro ⟨h1, h2⟩
    simp only [← List.getElem?_map] at h1 h2
    have e := indexOf_first h1 h2
    rw [indexOf_idxOf (List.mem_of_getElem? h1)] at e
    exact_mod_cast e.symm
  unfold Refers at hr
  unfold target
  cases i with
  | chi => exact hhash hr
  | cri =>
    cases he : x.ref with
    | none => rw [he] at hr; exact hhash hr
    | some r =>
      rw [he] at hr
      cases r with
      | height h => dsimp only at hr ⊢; omega
      | path c m => dsimp only at hr ⊢; omega

theorem sorted_last {l : List Nat} {m : Nat} (hs : l.Pairwise (· < ·)) (hm : m ∈ l) (hle : ∀ k ∈ l, k ≤ m) : l.getLast? = some m := by
  obtain ⟨s, t, rfl⟩ := List.append_of_mem hm
  cases t with
  | nil => simp
  | cons z t =>
    have h1 := (List.pairwise_append.mp hs).2.1
    rw [List.pairwise_cons] at h1
    have := h1.1 z (by simp)
    have := hle z (by simp)
    omega

theorem idxOf_fixed {l : List Bytes} {a : Bytes} (h : a ∈ l) : l.getD (l.idxOf a) [] = a := by
  have hlt : l.idxOf a < l.length := List.idxOf_lt_length_iff.mpr h
  simp [List.getD_eq_getElem?_getD, hlt]

/-- The address file, given what is known of it. -/
theorem addresses_content {outs : List Bytes} {first : Words} {more : Nat → List Nat} (h : AddrInv outs first more outs) :
    first = (List.range ((((List.range outs.length).filter fun k => decide (outs.idxOf (outs.getD k []) = k)).getLast?.map
      (· + 1)).getD 0)).map fun k => if decide (outs.idxOf (outs.getD k []) = k) then k else 0 := by
  have hopen : ∀ k, k < outs.length → outs.idxOf (outs.getD k []) = k → first[k]? = some k := by
    intro k hk hko
    have hget : outs.getD k [] = outs[k] := by simp [List.getD_eq_getElem?_getD, hk]
    have hmem : outs[k] ∈ outs := List.getElem_mem hk
    obtain ⟨p, ps, h1, h2, _⟩ := h.some _ hmem
    rw [indexOf_idxOf hmem, ← hget, hko, Int.toNat_natCast] at h2
    rw [h2]
    have hs := positions_sorted outs outs[k]
    rw [h1, List.pairwise_cons] at hs
    have hk2 : k ∈ positions outs outs[k] := mem_positions.mpr (List.getElem?_eq_getElem hk)
    rw [h1, List.mem_cons] at hk2
    rcases hk2 with hk2 | hk2
    · rw [← hk2]
    · have hlt := hs.1 k hk2
      have hp : p ∈ positions outs outs[k] := by rw [h1]; simp
      obtain ⟨hpl, hpe⟩ := List.getElem?_eq_some_iff.mp (mem_positions.mp hp)
      rw [hget] at hko
      have hlt' : p < List.findIdx (· == outs[k]) outs := by
        show p < outs.idxOf outs[k]
        omega
      have := List.not_of_lt_findIdx hlt'
      simp [hpe] at this
  rcases h.top with h0 | ⟨a, ha, hlen⟩
  · have hno : outs = [] := by
      apply List.eq_nil_iff_forall_not_mem.mpr
      intro a ha
      have := h.lt a ha
      rw [indexOf_idxOf ha, h0] at this
      simp at this
      omega
    subst hno
    simpa using h0
  · rw [indexOf_idxOf ha] at hlen
    have hal : outs.idxOf a < outs.length := List.idxOf_lt_length_iff.mpr ha
    rw [sorted_last (m := outs.idxOf a)]
    · have hL : first.length = outs.idxOf a + 1 := by omega
      rw [Option.map_some, Option.getD_some, ← hL]
      apply List.ext_getElem?
      intro k
      by_cases hk : k < first.length
      · rw [List.getElem?_map, List.getElem?_range hk, Option.map_some]
        by_cases ho : outs.idxOf (outs.getD k []) = k
        · rw [hopen k (by omega) ho, if_pos (decide_eq_true ho)]
        · rw [if_neg (by simpa using ho)]
          refine (h.gap k fun b hb he => ho ?_).2 hk
          rw [indexOf_idxOf hb] at he
          have he' : outs.idxOf b = k := by exact_mod_cast he
          rw [← he', idxOf_fixed hb]
      · rw [List.getElem?_eq_none (by omega), List.getElem?_eq_none (by simp; omega)]
    · exact List.Pairwise.filter _ List.pairwise_lt_range
    · rw [List.mem_filter]
      exact ⟨List.mem_range.mpr hal, decide_eq_true (by rw [idxOf_fixed ha])⟩
    · intro k hk
      rw [List.mem_filter, List.mem_range] at hk
      have h1 := hopen k hk.1 (of_decide_eq_true hk.2)
      have := (List.getElem?_eq_some_iff.mp h1).1
      omega

/-- The words in the files after storing, from the chain alone. -/
theorem stored_content {i : Iface} {d : Bool} {bn tn : List (String × Nat)} (hw : Widths bn tn) {bs : List Blk}
    (hg : Good i d bn tn bs) {s : St} (hc : Closed d (hashesOf bs) bn tn (srcOf i bs) s bs bs (allKept i bs)) (f : File) :
    (fileOf s f).2 = content i bn tn bs f := by
  cases f with
  | blkFirstTrans =>
    show s.blkFirstTrans = _
    rw [hc.blkFirst]
    simp only [offsets, sizes, List.length_map, content, ← List.map_take]
    rfl
  | parentBlockOfTrans =>
    show s.parentBlockOfTrans = _
    rw [hc.parentBlk]
    simp only [owners, sizes, content, List.zipIdx_map, List.flatMap_map, Prod.map]
    rfl
  | trnFirstTxi =>
    show s.trnFirstTxi = _
    rw [hc.firstTxi]
    simp only [offsets, List.length_map, content, ← List.map_take, ← inputsBefore_eq, allTxs_length i]
  | txiTx =>
    show s.txiTx = _
    rw [hc.tx, ← inputs_eq]
    exact List.map_congr_left fun x hx => target_src hg hx
  | txiVout =>
    show s.txiVout = _
    rw [hc.vout, ← inputs_eq]
    rfl
  | parentTransOfTxi =>
    show s.parentTransOfTxi = _
    rw [hc.parentTxi]
    simp only [owners, content, inputRows_eq, List.zipIdx_map, List.flatMap_map, Prod.map]
    try rfl
  | trnFirstTxo =>
    show s.trnFirstTxo = _
    rw [hc.firstTxo]
    simp only [offsets, List.length_map, content, ← List.map_take, ← outputsBefore_eq, allTxs_length i]
  | txoSats =>
    show s.txoSats = _
    rw [hc.sats, ← outputs_eq]
    rfl
  | txoAddress =>
    show s.txoAddress = _
    rw [hc.address, ← outputs_eq]
    refine List.map_congr_left fun x hx => ?_
    show (indexOf ((outputs bs).map (·.addr)) x.addr).toNat = _
    rw [indexOf_idxOf (List.mem_map.mpr ⟨x, hx, rfl⟩), Int.toNat_natCast]
  | txoSpentTxi =>
    show s.txoSpentTxi = _
    rw [hc.spent, ← outputs_eq]
    rfl
  | parentTransOfTxo =>
    show s.parentTransOfTxo = _
    rw [hc.parentTxo]
    have e : (allKept i bs).map (·.txos.length) = (allTxs bs).map (·.txos.length) := by
      have := congrArg (List.map List.length) (allKept_txos i bs)
      rw [List.map_map, List.map_map] at this
      exact this
    rw [e]
    simp only [owners, content, List.zipIdx_map, List.flatMap_map, Prod.map]
    rfl
  | addrFirstTxo =>
    show s.addrFirstTxo = _
    have h := hc.addr
    rw [← outputs_eq] at h
    have := addresses_content (show AddrInv ((outputs bs).map (·.addr)) s.addrFirstTxo s.additional _ from h)
    rw [List.length_map] at this
    exact this
  | blkNei k =>
    show (((s.blkNei[k]?).map fun n => (n.width, n.words)).getD (1, [])).2 = _
    rw [hc.neiB, List.getElem?_map, content]
    cases hk : bn[k]? with
    | none => rfl
    | some x =>
      show bs.map _ = bs.map _
      exact List.map_congr_left fun b _ => neiVal_low (hw x (by simp [List.mem_of_getElem? hk])).2 _ _
  | trnNei k =>
    show (((s.trnNei[k]?).map fun n => (n.width, n.words)).getD (1, [])).2 = _
    rw [hc.neiT, List.getElem?_map, content]
    cases hk : tn[k]? with
    | none => rfl
    | some x =>
      have e : (allKept i bs).map (·.fields) = (allTxs bs).map (·.fields) := by
        unfold allKept allTxs
        rw [List.map_flatMap, List.map_flatMap]
        congr 1
        funext b
        rw [kept_eq, List.map_map]
        conv_rhs => rw [← List.zipIdx_map_fst 0 b.txs, List.map_map]
        rfl
      have e2 : ∀ l : List Tx, (l.map fun t => neiVal x.2 t.fields x.1) = (l.map (·.fields)).map fun g => neiVal x.2 g x.1 := by
        intro l; rw [List.map_map]; rfl
      show ((allKept i bs).map fun t => neiVal x.2 t.fields x.1) = (allTxs bs).map fun t => lowBytes x.2 t.fields x.1
      rw [e2, e, ← e2]
      exact List.map_congr_left fun b _ => neiVal_low (hw x (by simp [List.mem_of_getElem? hk])).2 _ _

/-! ## C106 -/

theorem finished_content {bn tn : List (String × Nat)} (hw : Widths bn tn) {p q : Int} (hp : p ≤ 0) (hq : q ≤ 0)
    {i : Iface} {d : Bool} {bs : List Blk} (hg : Good i d bn tn bs) {fs fs' : ChainFactory.FS} {done : File → List WordFile.Op}
    (hd : ∀ f, done f = opsOn f (ingestEvs i 0 (-1) bs
      (create p q d ⟨bs.map (·.hash), (allTxs bs).map (·.hash), (outputs bs).map (·.addr)⟩ bn tn)) ++ [.sync])
    (hl : Left bn tn fs done fs') :
    ∀ f dir name w, File.place bn tn f = some (dir, name, w) →
      ∃ data, fs'.file dir name = some data ∧ Encodes w (content i bn tn bs f) data := by
  intro f dir name w hf
  obtain ⟨s, hs, hc, _⟩ := store_ok hp hq hg
  rw [store_eq p q i d bn tn bs hg.nonempty] at hs
  obtain ⟨h1, h2⟩ := place_new hw p q d (hashesOf bs) hf
  refine ⟨_, hl.words f _ _ _ hf, ?_⟩
  rw [hd f, ← stored_content hw hg hc f]
  have he := ingest_calls hs f
  rw [h1] at he
  rw [he]
  exact disk_bytes h2

theorem files_place {i : Iface} {bn tn : List (String × Nat)} {bs : List Blk} {e : String × String × Nat × List Nat}
    (he : e ∈ files i bn tn bs) : ∃ f, File.place bn tn f = some (e.1, e.2.1, e.2.2.1) ∧ content i bn tn bs f = e.2.2.2 := by
  unfold files at he
  rw [List.mem_append, List.mem_append] at he
  rcases he with (he | he) | he
  · simp only [List.mem_cons, List.not_mem_nil, or_false] at he
    rcases he with rfl | rfl | rfl | rfl | rfl | rfl | rfl | rfl | rfl | rfl | rfl | rfl
    · exact ⟨.blkFirstTrans, rfl, rfl⟩
    · exact ⟨.parentBlockOfTrans, rfl, rfl⟩
    · exact ⟨.trnFirstTxi, rfl, rfl⟩
    · exact ⟨.trnFirstTxo, rfl, rfl⟩
    · exact ⟨.txiTx, rfl, rfl⟩
    · exact ⟨.txiVout, rfl, rfl⟩
    · exact ⟨.parentTransOfTxi, rfl, rfl⟩
    · exact ⟨.parentTransOfTxo, rfl, rfl⟩
    · exact ⟨.txoSats, rfl, rfl⟩
    · exact ⟨.txoAddress, rfl, rfl⟩
    · exact ⟨.txoSpentTxi, rfl, rfl⟩
    · exact ⟨.addrFirstTxo, rfl, rfl⟩
  · rw [List.mem_map] at he
    obtain ⟨f, hf, rfl⟩ := he
    obtain ⟨k, hk⟩ := List.getElem?_of_mem hf
    exact ⟨.blkNei k, by simp [File.place, hk], by simp [content, hk]⟩
  · rw [List.mem_map] at he
    obtain ⟨f, hf, rfl⟩ := he
    obtain ⟨k, hk⟩ := List.getElem?_of_mem hf
    exact ⟨.trnNei k, by simp [File.place, hk], by simp [content, hk]⟩

/-- **C106.** A finished run leaves exactly these bytes in the word files. -/
theorem finished_chain_format {bn tn : List (String × Nat)} (hw : Widths bn tn) {p q : Int} (hp : p ≤ 0) (hq : q ≤ 0)
    {i : Iface} {d : Bool} {bs : List Blk} (hg : Good i d bn tn bs) {fs fs' : ChainFactory.FS} {done : File → List WordFile.Op}
    (hd : ∀ f, done f = opsOn f (ingestEvs i 0 (-1) bs
      (create p q d ⟨bs.map (·.hash), (allTxs bs).map (·.hash), (outputs bs).map (·.addr)⟩ bn tn)) ++ [.sync])
    (hl : Left bn tn fs done fs') :
    ∀ e ∈ files i bn tn bs, ∃ data, fs'.file e.1 e.2.1 = some data ∧ Encodes e.2.2.1 e.2.2.2 data := by
  intro e he
  obtain ⟨f, h1, h2⟩ := files_place he
  rw [← h2]
  exact finished_content hw hp hq hg hd hl f _ _ _ h1

theorem files_width {i : Iface} {bn tn : List (String × Nat)} (hw : Widths bn tn) {bs : List Blk}
    {e : String × String × Nat × List Nat} (he : e ∈ files i bn tn bs) : 0 < e.2.2.1 := by
  obtain ⟨f, h1, _⟩ := files_place he
  exact (place_new hw 0 0 true ⟨[], [], []⟩ h1).2.1

/-- **C106.** The word files depend on the chain only: not on whether the indexing of transactions was delegated, nor on
what was there before, nor on an earlier run in the process. -/
theorem same_chain_same_files {bn tn : List (String × Nat)} (hw : Widths bn tn) {i : Iface} {bs : List Blk}
    {p1 q1 p2 q2 : Int} (hp1 : p1 ≤ 0) (hq1 : q1 ≤ 0) (hp2 : p2 ≤ 0) (hq2 : q2 ≤ 0) {d1 d2 : Bool}
    (hg1 : Good i d1 bn tn bs) (hg2 : Good i d2 bn tn bs) {fs1 fs2 fs1' fs2' : ChainFactory.FS}
    {done1 done2 : File → List WordFile.Op}
    (hd1 : ∀ f, done1 f = opsOn f (ingestEvs i 0 (-1) bs
      (create p1 q1 d1 ⟨bs.map (·.hash), (allTxs bs).map (·.hash), (outputs bs).map (·.addr)⟩ bn tn)) ++ [.sync])
    (hd2 : ∀ f, done2 f = opsOn f (ingestEvs i 0 (-1) bs
      (create p2 q2 d2 ⟨bs.map (·.hash), (allTxs bs).map (·.hash), (outputs bs).map (·.addr)⟩ bn tn)) ++ [.sync])
    (hl1 : Left bn tn fs1 done1 fs1') (hl2 : Left bn tn fs2 done2 fs2') :
    ∀ e ∈ files i bn tn bs, fs1'.file e.1 e.2.1 = fs2'.file e.1 e.2.1 := by
  intro e he
  obtain ⟨a, ha, ea⟩ := finished_chain_format hw hp1 hq1 hg1 hd1 hl1 e he
  obtain ⟨b, hb, eb⟩ := finished_chain_format hw hp2 hq2 hg2 hd2 hl2 e he
  rw [ha, hb, ea.unique (files_width hw he) eb]

/-- **C106.** The file that should tell by which input an output was spent tells nothing: it is zero bytes, five for each
output, spent or not. -/
theorem spent_to_is_blank {bn tn : List (String × Nat)} (hw : Widths bn tn) {p q : Int} (hp : p ≤ 0) (hq : q ≤ 0)
    {i : Iface} {d : Bool} {bs : List Blk} (hg : Good i d bn tn bs) {fs fs' : ChainFactory.FS} {done : File → List WordFile.Op}
    (hd : ∀ f, done f = opsOn f (ingestEvs i 0 (-1) bs
      (create p q d ⟨bs.map (·.hash), (allTxs bs).map (·.hash), (outputs bs).map (·.addr)⟩ bn tn)) ++ [.sync])
    (hl : Left bn tn fs done fs') :
    fs'.file "TransactionOutputs" "spenttotxi.int" = some (List.replicate ((outputs bs).length * 5) 0) := by
  obtain ⟨data, h1, h2⟩ := finished_content hw hp hq hg hd hl .txoSpentTxi _ _ _ rfl
  rw [h1]
  refine congrArg some (h2.unique (by decide) ⟨by simp [content], fun j v hv => ?_⟩)
  have hj : j < (outputs bs).length := by simpa [content] using lt_of_getElem? hv
  have hv0 : v = 0 := List.eq_of_mem_replicate (List.mem_of_getElem? hv)
  subst hv0
  refine ⟨by decide, fun k hk => ?_⟩
  rw [List.getElem?_replicate, if_pos (by omega)]
  simp

/-! ## Examples -/

example : Good .cri true [("time", 4)] [("size", 4)] demo ∧ Widths [("time", 4)] [("size", 4)] := ⟨demo_good true, by simp [Widths]⟩
-- three blocks, four transactions, three inputs, five outputs, three addresses
example : content .cri [("time", 4)] [("size", 4)] demo .blkFirstTrans = [0, 1, 3] := by decide
example : content .cri [("time", 4)] [("size", 4)] demo .parentBlockOfTrans = [0, 1, 1, 2] := by decide
example : content .cri [("time", 4)] [("size", 4)] demo .trnFirstTxi = [0, 0, 0, 2] := by decide
example : content .cri [("time", 4)] [("size", 4)] demo .txiTx = [0, 1, 2] := by decide
example : content .cri [("time", 4)] [("size", 4)] demo .txiVout = [1, 0, 1] := by decide
example : content .cri [("time", 4)] [("size", 4)] demo .parentTransOfTxi = [2, 2, 3] := by decide
example : content .cri [("time", 4)] [("size", 4)] demo .trnFirstTxo = [0, 2, 3, 5] := by decide
example : content .cri [("time", 4)] [("size", 4)] demo .txoAddress = [0, 1, 0, 3, 0] := by decide
example : content .cri [("time", 4)] [("size", 4)] demo .addrFirstTxo = [0, 1, 0, 3] := by decide
-- a size of -1 is stored as four bytes of ones
example : content .cri [("time", 4)] [("size", 4)] demo (.trnNei 0) = [100, 101, 102, 4294967295] := by decide
-- the chain read by handles has the same files
example : content .chi [("time", 4)] [("size", 4)] demoChi .txiTx = [0, 1] := by decide
example : Encodes 2 [258, 7] [2, 1, 7, 0] := by
  refine ⟨rfl, fun j v hv => ?_⟩
  match j with
  | 0 => cases hv; exact ⟨by decide, by decide⟩
  | 1 => cases hv; exact ⟨by decide, by decide⟩
  | j + 2 => cases hv
example : ∃ fs', Left [] [] indexed (fun f => opsOn f (ingestEvs .cri 0 (-1) six
    (create (-1) (-1) true ⟨six.map (·.hash), (allTxs six).map (·.hash), (outputs six).map (·.addr)⟩ [] [])) ++ [.sync]) fs' :=
  ⟨_, leave_left _ _⟩

end Verif.Killed
