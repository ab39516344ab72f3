import Verif.Model.ChainStore
import Verif.Lemmas.Records
import Mathlib.Data.List.Induction

/-! # Lemmas about the stored chain: what each append leaves in the files -/

namespace Verif.ChainStore

/-! ## Running totals and owners -/

/-- The running totals: the `k`-th is the sum of the first `k` numbers. -/
def offsets (ns : List Nat) : List Nat := (List.range ns.length).map fun k => (ns.take k).sum

/-- Each index repeated as many times as the number there says. -/
def owners (ns : List Nat) : List Nat := ns.zipIdx.flatMap fun x => List.replicate x.1 x.2

theorem offsets_length (ns : List Nat) : (offsets ns).length = ns.length := by simp [offsets]

theorem offsets_snoc (ns : List Nat) (n : Nat) : offsets (ns ++ [n]) = offsets ns ++ [ns.sum] := by
  unfold offsets
  rw [List.length_append, List.length_singleton, List.range_succ, List.map_append]
  congr 1
  · apply List.map_congr_left
    intro k hk
    rw [List.mem_range] at hk
    rw [List.take_append_of_le_length (by omega)]
  · simp

theorem offsets_getElem? (ns : List Nat) (k : Nat) (h : k < ns.length) : (offsets ns)[k]? = some (ns.take k).sum := by
  simp [offsets, h]

theorem owners_snoc (ns : List Nat) (n : Nat) : owners (ns ++ [n]) = owners ns ++ List.replicate n ns.length := by
  simp [owners, List.zipIdx_append]

theorem owners_length (ns : List Nat) : (owners ns).length = ns.sum := by
  induction ns using List.reverseRecOn with
  | nil => rfl
  | append_singleton l a ih => rw [owners_snoc]; simp [ih]

theorem flatten_at {α : Type} (l : List (List α)) (k n : Nat) (row : List α) (h : l[k]? = some row) (hn : n < row.length) :
    l.flatten[((l.take k).map List.length).sum + n]? = row[n]? := by
  induction l generalizing k with
  | nil => simp at h
  | cons a l ih =>
    cases k with
    | zero =>
      simp only [List.getElem?_cons_zero, Option.some.injEq] at h
      subst h
      simp only [List.take_zero, List.map_nil, List.sum_nil, Nat.zero_add, List.flatten_cons]
      rw [List.getElem?_append_left hn]
    | succ k =>
      rw [List.getElem?_cons_succ] at h
      have := ih k h
      simp only [List.take_succ_cons, List.map_cons, List.sum_cons, List.flatten_cons]
      rw [List.getElem?_append_right (by omega)]
      rw [← this]
      congr 1
      omega

theorem owners_at (ns : List Nat) (k n m : Nat) (h : ns[k]? = some m) (hn : n < m) :
    (owners ns)[(ns.take k).sum + n]? = some k := by
  have h2 : (ns.zipIdx.map fun x => List.replicate x.1 x.2)[k]? = some (List.replicate m k) := by
    rw [List.getElem?_map, List.getElem?_zipIdx, h]; simp
  have := flatten_at _ k n _ h2 (by simpa using hn)
  have e : (List.map List.length (List.take k (ns.zipIdx.map fun x => List.replicate x.1 x.2))) = ns.take k := by
    rw [List.map_take, List.map_map]
    congr 1
    have : (List.length ∘ fun x : Nat × Nat => List.replicate x.1 x.2) = Prod.fst := by
      funext x; simp
    rw [this, List.zipIdx_map_fst]
  rw [e] at this
  unfold owners
  rw [List.flatMap_def, this]
  simp [hn]

/-! ## Word files -/

theorem toU64_fit {v : Int} {w : Nat} (h0 : 0 ≤ v) (h1 : v < 256 ^ w) (hw : w ≤ 7) : toU64 v % 256 ^ w = v.toNat := by
  have h2 : (256 : Int) ^ w ≤ 256 ^ 7 := by
    have : (256 : Nat) ^ w ≤ 256 ^ 7 := Nat.pow_le_pow_right (by omega) hw
    have e : ((256 ^ w : Nat) : Int) = (256 : Int) ^ w := by rw [Int.natCast_pow]; rfl
    rw [← e]; omega
  have h3 : toU64 v = v.toNat := toU64_of_nonneg h0 (by omega)
  rw [h3]
  apply Nat.mod_eq_of_lt
  have : ((256 ^ w : Nat) : Int) = (256 : Int) ^ w := by rw [Int.natCast_pow]; rfl
  omega

theorem put_end (w : Nat) (l : Words) (off v : Int) (hoff : off = l.length) (h0 : 0 ≤ v) (h1 : v < 256 ^ w) (hw : w ≤ 7) :
    put w l off v = .ok (l ++ [v.toNat]) := by
  unfold put
  rw [if_neg (by omega), toU64_fit h0 h1 hw, show off.toNat = l.length by omega, setExt_end]

theorem get_nat (l : Words) (off : Int) (k v : Nat) (hoff : off = k) (h : l[k]? = some v) (hv : v < 2 ^ 63) :
    get l off = .ok (v : Int) := by
  unfold get
  rw [if_neg (by omega), show off.toNat = k by omega, h]
  simp only [ofU64]
  rw [if_pos hv]

theorem get_none (l : Words) (off : Int) (k : Nat) (hoff : off = k) (h : l.length ≤ k) : get l off = .error .err := by
  unfold get
  rw [if_neg (by omega), show off.toNat = k by omega, List.getElem?_eq_none h]

theorem indexOf_lt {l : List Bytes} {h : Bytes} (hne : indexOf l h ≠ -1) :
    ∃ i : Nat, indexOf l h = i ∧ l[i]? = some h ∧ ∀ j, j < i → l[j]? ≠ some h := by
  unfold indexOf at hne ⊢
  cases hf : l.findIdx? (fun x => decide (x = h)) with
  | none => rw [hf] at hne; simp at hne
  | some i =>
    rw [List.findIdx?_eq_some_iff_getElem] at hf
    obtain ⟨hi, h1, h2⟩ := hf
    refine ⟨i, rfl, ?_, ?_⟩
    · rw [List.getElem?_eq_getElem hi]; simpa using h1
    · intro j hj e
      have hjl : j < l.length := by omega
      have := h2 j hj
      rw [List.getElem?_eq_getElem hjl] at e
      simp at this
      exact this (Option.some.inj e)

theorem indexOf_first {l : List Bytes} {h : Bytes} {i : Nat} (h1 : l[i]? = some h) (h2 : ∀ j, j < i → l[j]? ≠ some h) :
    indexOf l h = i := by
  have : l.findIdx? (fun x => decide (x = h)) = some i := by
    rw [List.findIdx?_eq_some_iff_getElem]
    have hi : i < l.length := by
      by_contra hc
      rw [List.getElem?_eq_none (by omega)] at h1
      simp at h1
    refine ⟨hi, ?_, ?_⟩
    · rw [List.getElem?_eq_getElem hi] at h1; simpa using h1
    · intro j hj
      have hjl : j < l.length := by omega
      have := h2 j hj
      rw [List.getElem?_eq_getElem hjl] at this
      simpa using this
  unfold indexOf
  rw [this]

theorem indexOf_mem {l : List Bytes} {h : Bytes} (hm : h ∈ l) : indexOf l h ≠ -1 := by
  unfold indexOf
  cases hf : l.findIdx? (fun x => decide (x = h)) with
  | none =>
    rw [List.findIdx?_eq_none_iff] at hf
    have := hf h hm
    simp at this
  | some i => simp

theorem indexOf_inj {l : List Bytes} {a b : Bytes} (ha : indexOf l a ≠ -1) (h : indexOf l a = indexOf l b) : a = b := by
  obtain ⟨i, e1, e2, _⟩ := indexOf_lt ha
  obtain ⟨j, f1, f2, _⟩ := indexOf_lt (l := l) (h := b) (by rw [← h]; exact ha)
  have : i = j := by omega
  subst this
  rw [e2] at f2
  exact Option.some.inj f2

theorem bind_ok {α β : Type} (a : α) (f : α → Except Fail β) : (Except.ok a >>= f) = f a := rfl

/-! ## Inputs -/

theorem appendTxis_ok (i : Iface) (trans : Nat) (src : Txi → Nat) (xs : List Txi) (s : St)
    (ht : trans < 256 ^ 5)
    (h1 : s.txiVout.length = s.txiTx.length) (h2 : s.parentTransOfTxi.length = s.txiTx.length)
    (hs : ∀ x ∈ xs, txiSource i s x = .ok (src x : Int))
    (hf : ∀ x ∈ xs, src x < 256 ^ 4 ∧ 0 ≤ x.vout ∧ x.vout < 256 ^ 4)
    (hh : i = .cri → ∀ (k : Nat) x, xs[k]? = some x → differs x.height (s.txiTx.length + k : Nat) = false) :
    appendTxis i trans xs s = .ok { s with
      txiTx := s.txiTx ++ xs.map src
      txiVout := s.txiVout ++ xs.map (·.vout.toNat)
      parentTransOfTxi := s.parentTransOfTxi ++ List.replicate xs.length trans } := by
  induction xs generalizing s with
  | nil => simp [appendTxis]
  | cons x xs ih =>
    have hx := hf x (by simp)
    have hstep : appendTxi i trans s x = .ok { s with
        txiTx := s.txiTx ++ [src x]
        txiVout := s.txiVout ++ [x.vout.toNat]
        parentTransOfTxi := s.parentTransOfTxi ++ [trans] } := by
      unfold appendTxi
      rw [hs x (by simp), bind_ok]
      dsimp only
      rw [if_neg]
      · rw [put_end 4 s.txiTx (count s.txiTx) (src x) rfl (by omega) (by omega) (by omega), bind_ok,
          put_end 4 s.txiVout (count s.txiTx) x.vout (by simp [count, h1]) hx.2.1 hx.2.2 (by omega), bind_ok,
          put_end 5 s.parentTransOfTxi (count s.txiTx) trans (by simp [count, h2]) (by omega) (by omega) (by omega), bind_ok]
        simp
      · rintro ⟨rfl, hd⟩
        have := hh rfl 0 x (by simp)
        rw [show ((s.txiTx.length + 0 : Nat) : Int) = count s.txiTx by simp [count]] at this
        rw [this] at hd
        simp at hd
    unfold appendTxis
    rw [hstep, bind_ok, ih]
    · simp [List.replicate_succ]
    · simp [h1]
    · simp [h2]
    · intro y hy
      have := hs y (by simp [hy])
      rw [← this]
      rfl
    · intro y hy; exact hf y (by simp [hy])
    · intro hi k y hy
      have := hh hi (k + 1) y (by simpa using hy)
      rw [← this]
      congr 2
      simp
      omega

/-! ## Addresses -/

/-- The positions at which an address occurs. -/
def positions (outs : List Bytes) (a : Bytes) : List Nat :=
  (outs.zipIdx.filter fun x => x.1 = a).map (·.2)

theorem positions_snoc (outs : List Bytes) (b a : Bytes) :
    positions (outs ++ [b]) a = if b = a then positions outs a ++ [outs.length] else positions outs a := by
  unfold positions
  rw [List.zipIdx_append, List.filter_append, List.map_append]
  by_cases h : b = a <;> simp [h]

theorem positions_eq_nil {outs : List Bytes} {a : Bytes} : positions outs a = [] ↔ a ∉ outs := by
  induction outs using List.reverseRecOn with
  | nil => simp [positions]
  | append_singleton l b ih =>
    rw [positions_snoc]
    by_cases h : b = a
    · simp [h]
    · rw [if_neg h, ih]
      simp only [List.mem_append, List.mem_singleton, not_or]
      constructor
      · intro h2; exact ⟨h2, fun h3 => h h3.symm⟩
      · intro h2; exact h2.1

/-- What the address files hold after outputs paying `outs`. -/
structure AddrInv (adr : List Bytes) (first : Words) (more : Nat → List Nat) (outs : List Bytes) : Prop where
  lt : ∀ a ∈ outs, indexOf adr a < first.length
  top : first = [] ∨ ∃ a ∈ outs, (first.length : Int) = indexOf adr a + 1
  none : ∀ a ∈ adr, a ∉ outs → more (indexOf adr a).toNat = []
  some : ∀ a ∈ outs, ∃ p ps, positions outs a = p :: ps ∧ first[(indexOf adr a).toNat]? = Option.some p ∧
    more (indexOf adr a).toNat = ps
  gap : ∀ k : Nat, (∀ a ∈ outs, indexOf adr a ≠ k) → more k = [] ∧ (k < first.length → first[k]? = Option.some 0)

/-- Addresses are numbered in the order of first appearance in `outs`. -/
def InOrder (adr : List Bytes) (outs : List Bytes) : Prop :=
  ∀ (i j : Nat) a b, i < j → outs[i]? = some a → outs[j]? = some b → b ∉ outs.take j → indexOf adr a < indexOf adr b

theorem setExt_get_self {l : Words} {k v : Nat} : (setExt l k v 0)[k]? = some v := by
  rw [setExt_getElem?]; simp

theorem touchAddress_ok {s : St} {outs rest : List Bytes} {a : Bytes}
    (hI : AddrInv s.adrHashes s.addrFirstTxo s.additional outs)
    (hord : InOrder s.adrHashes (outs ++ a :: rest)) (hm : ∀ x ∈ outs ++ a :: rest, x ∈ s.adrHashes)
    (hlen : outs.length < 256 ^ 5) (htp : indexOf s.adrHashes a = testPoint → outs ≠ []) :
    ∃ first more, touchAddress s a outs.length = .ok (indexOf s.adrHashes a, first, more) ∧
      AddrInv s.adrHashes first more (outs ++ [a]) := by
  have hma : indexOf s.adrHashes a ≠ -1 := indexOf_mem (hm a (by simp))
  obtain ⟨n, e1, e2, e3⟩ := indexOf_lt hma
  have hinj : ∀ x, indexOf s.adrHashes x = n → x = a := by
    intro x hx
    exact (indexOf_inj hma (by rw [e1, hx])).symm
  have hnat : ∀ x ∈ s.adrHashes, (indexOf s.adrHashes x).toNat = n → x = a := by
    intro x hx hx2
    obtain ⟨m, f1, _⟩ := indexOf_lt (indexOf_mem hx)
    exact hinj x (by omega)
  unfold touchAddress
  dsimp only
  rw [if_neg hma]
  by_cases hin : a ∈ outs
  · -- seen before
    have hlt := hI.lt a hin
    rw [if_neg (by simp only [count]; omega)]
    refine ⟨_, _, rfl, ?_⟩
    obtain ⟨p, ps, q1, q2, q3⟩ := hI.some a hin
    constructor
    · intro x hx
      rcases List.mem_append.mp hx with hx | hx
      · exact hI.lt x hx
      · rw [List.mem_singleton] at hx; subst hx; exact hlt
    · rcases hI.top with h | ⟨x, hx, h⟩
      · exact Or.inl h
      · exact Or.inr ⟨x, by simp [hx], h⟩
    · intro x hx hxo
      rw [List.mem_append, List.mem_singleton, not_or] at hxo
      have hne : ¬ (indexOf s.adrHashes x).toNat = (indexOf s.adrHashes a).toNat := by
        rw [e1]; intro h
        exact hxo.2 (hnat x hx (by simpa using h))
      rw [if_neg hne]
      exact hI.none x hx hxo.1
    · intro x hx
      by_cases hxa : x = a
      · subst hxa
        refine ⟨p, ps ++ [outs.length], ?_, q2, ?_⟩
        · rw [positions_snoc, if_pos rfl, q1]; rfl
        · rw [if_pos rfl, q3]; simp
      · have hxo : x ∈ outs := by
          rcases List.mem_append.mp hx with hx | hx
          · exact hx
          · rw [List.mem_singleton] at hx; exact absurd hx hxa
        obtain ⟨p', ps', r1, r2, r3⟩ := hI.some x hxo
        refine ⟨p', ps', ?_, r2, ?_⟩
        · rw [positions_snoc, if_neg (fun h => hxa h.symm), r1]
        · have hne : ¬ (indexOf s.adrHashes x).toNat = (indexOf s.adrHashes a).toNat := by
            rw [e1]; intro h
            exact hxa (hnat x (hm x (by simp [hxo])) (by simpa using h))
          rw [if_neg hne]; exact r3
    · intro k hk
      have hka := hk a (by simp)
      rw [if_neg (by omega)]
      exact hI.gap k (fun x hx => hk x (by simp [hx]))
  · -- first appearance
    have hge : (s.addrFirstTxo.length : Int) ≤ indexOf s.adrHashes a := by
      rcases hI.top with h | ⟨x, hx, h⟩
      · rw [h, e1]; simp
      · obtain ⟨k, hk, hk2⟩ := List.mem_iff_getElem.mp hx
        have := hord k outs.length x a hk (by rw [List.getElem?_append_left hk, List.getElem?_eq_getElem hk, hk2])
          (by rw [List.getElem?_append_right (Nat.le_refl _)]; simp) (by rw [List.take_append_of_le_length (Nat.le_refl _)]; simpa using hin)
        omega
    rw [if_pos (by simp only [count]; omega)]
    have hput : put 5 s.addrFirstTxo (indexOf s.adrHashes a) outs.length = .ok (setExt s.addrFirstTxo n outs.length 0) := by
      unfold put
      rw [if_neg (by omega), toU64_fit (by omega) (by omega) (by omega), show (indexOf s.adrHashes a).toNat = n by omega]
      simp
    rw [hput, bind_ok]
    have hbig : AddrInv s.adrHashes (setExt s.addrFirstTxo n outs.length 0) s.additional (outs ++ [a]) := by
      have hl : (setExt s.addrFirstTxo n outs.length 0).length = n + 1 := by rw [setExt_length]; omega
      constructor
      · intro x hx
        rw [hl]
        rcases List.mem_append.mp hx with hx | hx
        · have := hI.lt x hx; omega
        · rw [List.mem_singleton] at hx; subst hx; omega
      · right; exact ⟨a, by simp, by rw [hl, e1]; omega⟩
      · intro x hx hxo
        rw [List.mem_append, not_or] at hxo
        exact hI.none x hx hxo.1
      · intro x hx
        by_cases hxa : x = a
        · subst hxa
          refine ⟨outs.length, [], ?_, ?_, hI.none x (hm x (by simp)) hin⟩
          · rw [positions_snoc, if_pos rfl, positions_eq_nil.mpr hin]; rfl
          · rw [show (indexOf s.adrHashes x).toNat = n by omega]; exact setExt_get_self
        · have hxo : x ∈ outs := by
            rcases List.mem_append.mp hx with hx | hx
            · exact hx
            · rw [List.mem_singleton] at hx; exact absurd hx hxa
          obtain ⟨p', ps', r1, r2, r3⟩ := hI.some x hxo
          refine ⟨p', ps', ?_, ?_, r3⟩
          · rw [positions_snoc, if_neg (fun h => hxa h.symm), r1]
          · have hlt := hI.lt x hxo
            obtain ⟨m, f1, _⟩ := indexOf_lt (indexOf_mem (hm x (by simp [hxo])))
            rw [setExt_getElem?]
            have h1 : ¬ (indexOf s.adrHashes x).toNat = n := by omega
            have h2 : (indexOf s.adrHashes x).toNat < s.addrFirstTxo.length := by omega
            simp only [h1, h2, if_true, if_false]
            exact r2
      · intro k hk
        have hka := hk a (by simp)
        obtain ⟨g1, g2⟩ := hI.gap k (fun x hx => hk x (by simp [hx]))
        refine ⟨g1, ?_⟩
        intro hlt
        rw [hl] at hlt
        rw [setExt_getElem?]
        have h1 : ¬ k = n := by omega
        by_cases h2 : k < s.addrFirstTxo.length
        · simp only [h1, h2, if_true, if_false]; exact g2 h2
        · have h3 : k < n := by omega
          simp [h1, h2, h3]
    by_cases htest : indexOf s.adrHashes a = testPoint
    · rw [if_pos htest]
      have hg : get (setExt s.addrFirstTxo n outs.length 0) (indexOf s.adrHashes a) = .ok (outs.length : Int) :=
        get_nat _ _ n outs.length e1 setExt_get_self (by omega)
      rw [hg, bind_ok, if_neg (by simp), if_neg]
      · exact ⟨_, _, rfl, hbig⟩
      · have := htp htest
        have : outs.length ≠ 0 := by rwa [Ne, List.length_eq_zero_iff]
        omega
    · rw [if_neg htest]
      exact ⟨_, _, rfl, hbig⟩

/-! ## Outputs -/

theorem appendTxos_ok (i : Iface) (trans : Nat) (xs : List Txo) (rest : List Bytes) (outs : List Bytes) (s : St)
    (ht : trans < 256 ^ 5)
    (h0 : s.txoSats.length = outs.length) (h1 : s.parentTransOfTxo.length = outs.length)
    (h2 : s.txoAddress.length = outs.length) (h3 : s.txoSpentTxi.length = outs.length)
    (hI : AddrInv s.adrHashes s.addrFirstTxo s.additional outs)
    (hord : InOrder s.adrHashes (outs ++ xs.map (·.addr) ++ rest))
    (hm : ∀ x ∈ outs ++ xs.map (·.addr) ++ rest, x ∈ s.adrHashes)
    (hlen : outs.length + xs.length ≤ 256 ^ 5) (hadr : s.adrHashes.length ≤ 256 ^ 5)
    (htp : ∀ a, (outs ++ xs.map (·.addr))[0]? = some a → indexOf s.adrHashes a ≠ testPoint)
    (hf : ∀ x ∈ xs, 0 ≤ x.sats ∧ x.sats < 256 ^ 7)
    (hh : i = .cri → ∀ (k : Nat) x, xs[k]? = some x → differs x.height (outs.length + k : Nat) = false) :
    ∃ first more, appendTxos i trans xs s = .ok { s with
        txoSats := s.txoSats ++ xs.map (·.sats.toNat)
        parentTransOfTxo := s.parentTransOfTxo ++ List.replicate xs.length trans
        txoAddress := s.txoAddress ++ xs.map fun x => (indexOf s.adrHashes x.addr).toNat
        txoSpentTxi := s.txoSpentTxi ++ List.replicate xs.length 0
        addrFirstTxo := first
        additional := more } ∧
      AddrInv s.adrHashes first more (outs ++ xs.map (·.addr)) := by
  induction xs generalizing s outs with
  | nil => exact ⟨s.addrFirstTxo, s.additional, by simp [appendTxos], by simpa using hI⟩
  | cons x xs ih =>
    have hx := hf x (by simp)
    obtain ⟨first, more, hta, hA⟩ := touchAddress_ok (s := s) (outs := outs) (a := x.addr) (rest := xs.map (·.addr) ++ rest) hI
      (by simpa using hord) (by simpa using hm) (by simp at hlen; omega)
      (by
        intro he ho
        subst ho
        exact htp x.addr (by simp) he)
    have hidx : 0 ≤ indexOf s.adrHashes x.addr ∧ indexOf s.adrHashes x.addr < 256 ^ 5 := by
      obtain ⟨n, e1, e2, _⟩ := indexOf_lt (indexOf_mem (hm x.addr (by simp)))
      have : n < s.adrHashes.length := by
        by_contra hc
        rw [List.getElem?_eq_none (by omega)] at e2
        simp at e2
      omega
    have hstep : appendTxo i trans s x = .ok { s with
        txoSats := s.txoSats ++ [x.sats.toNat]
        parentTransOfTxo := s.parentTransOfTxo ++ [trans]
        txoAddress := s.txoAddress ++ [(indexOf s.adrHashes x.addr).toNat]
        txoSpentTxi := s.txoSpentTxi ++ [0]
        addrFirstTxo := first
        additional := more } := by
      unfold appendTxo
      dsimp only
      have hc : count s.txoSats = outs.length := by simp [count, h0]
      rw [if_neg]
      · rw [hc, put_end 7 s.txoSats _ x.sats (by simp [h0]) hx.1 hx.2 (by omega), bind_ok,
          put_end 5 s.parentTransOfTxo _ trans (by simp [h1]) (by omega) (by omega) (by omega), bind_ok, hta, bind_ok]
        dsimp only
        rw [put_end 5 s.txoAddress _ _ (by simp [h2]) hidx.1 hidx.2 (by omega), bind_ok,
          put_end 5 s.txoSpentTxi _ 0 (by simp [h3]) (by omega) (by omega) (by omega), bind_ok]
        simp
      · rintro ⟨rfl, hd⟩
        have := hh rfl 0 x (by simp)
        rw [show ((outs.length + 0 : Nat) : Int) = count s.txoSats by simp [hc]] at this
        rw [this] at hd
        simp at hd
    obtain ⟨first', more', h', hA'⟩ := ih (outs ++ [x.addr]) { s with
        txoSats := s.txoSats ++ [x.sats.toNat]
        parentTransOfTxo := s.parentTransOfTxo ++ [trans]
        txoAddress := s.txoAddress ++ [(indexOf s.adrHashes x.addr).toNat]
        txoSpentTxi := s.txoSpentTxi ++ [0]
        addrFirstTxo := first
        additional := more }
      (by simp [h0]) (by simp [h1]) (by simp [h2]) (by simp [h3]) hA (by simpa using hord) (by simpa using hm)
      (by simp at hlen ⊢; omega) hadr (by simpa using htp) (fun y hy => hf y (by simp [hy]))
      (by
        intro hi k y hy
        have := hh hi (k + 1) y (by simpa using hy)
        rw [← this]
        congr 2
        simp
        omega)
    refine ⟨first', more', ?_, by simpa using hA'⟩
    unfold appendTxos
    rw [hstep, bind_ok, h']
    simp [List.replicate_succ]

end Verif.ChainStore
