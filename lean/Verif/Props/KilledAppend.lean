import Verif.Model.KilledAppend
import Verif.Props.ChainedHashStore

/-!
# C110: a process killed inside an append of the collision-chained hash store
-/

namespace Verif.KilledAppend

open ChainedHashStore
open HashStores (Found firstIndex)

/-! ### The writes are the append -/

theorem applyAll_append (s : CH) (a b : List Write) : applyAll s (a ++ b) = applyAll (applyAll s a) b :=
  List.foldl_append

/-- The writes of `findSlot`: none, if a slot of the file is vacant; otherwise a chunk of zeros and a link where there is none. -/
theorem slotWrites_ok {p : Params} {coll : List Nat} {fuel c : Nat} {coll' : List Nat} {slot : Nat}
    (h : findSlot p coll fuel c = .ok (coll', slot)) :
    (slotWrites p coll fuel c = some ([], slot) ∧ coll' = coll ∧ coll[slot]? = some 0) ∨
    (∃ i w, slotWrites p coll fuel c = some ([.tail (List.replicate (p.cpc + 1) 0), .word i w], slot) ∧
      coll' = (coll ++ List.replicate (p.cpc + 1) 0).set i w ∧ coll[i]? = some 0 ∧
      slot = coll.length / (p.cpc + 1) * (p.cpc + 1)) := by
  induction fuel generalizing c with
  | zero => simp [findSlot] at h
  | succ fuel ih =>
    rw [findSlot] at h
    rw [slotWrites]
    cases hr : readChunk p coll c with
    | none => simp [hr] at h
    | some ws =>
      simp only [hr] at h ⊢
      have hwl : ws.length = p.cpc + 1 := by
        unfold readChunk at hr
        split at hr
        · rename_i hle
          rw [Nat.add_mul] at hle
          rw [← Option.some.inj hr, List.length_take, List.length_drop]; omega
        · simp at hr
      cases hj : (ws.take p.cpc).findIdx? (· == 0) with
      | some j =>
        simp only [hj, Res.ok.injEq, Prod.mk.injEq] at h ⊢
        left
        obtain ⟨hlt, h0, _⟩ := List.findIdx?_eq_some_iff_getElem.mp hj
        rw [List.length_take] at hlt
        refine ⟨by rw [h.2], h.1.symm, ?_⟩
        rw [← h.2, ← getElem?_readChunk hr j (by omega), List.getElem?_eq_getElem (by omega)]
        rw [List.getElem_take] at h0
        rw [eq_of_beq h0]
      | none =>
        simp only [hj] at h ⊢
        by_cases hz : ws.getD p.cpc 0 = 0
        · rw [if_pos hz] at h
          rw [if_pos hz]
          split at h
          · simp at h
          · simp only [Res.ok.injEq, Prod.mk.injEq] at h
            right
            refine ⟨_, _, by rw [h.2], h.1.symm, ?_, h.2.symm⟩
            rw [← getElem?_readChunk hr p.cpc (by omega), List.getElem?_eq_getElem (by omega)]
            rw [List.getD_eq_getElem?_getD, List.getElem?_eq_getElem (by omega)] at hz
            simpa using hz
        · rw [if_neg hz] at h
          rw [if_neg hz]
          exact ih h

/-- **The modelled writes are those of the append.** Whenever `AppendHash` succeeds, doing all the writes one after another
gives the files it leaves. -/
theorem writes_are_the_append (p : Params) (s : CH) (h : Bytes) (s' : CH) (i : Nat)
    (ha : appendHash p s h = .ok (s', i)) : applyAll s (writes p s h) = s' := by
  unfold appendHash at ha
  dsimp only at ha
  split at ha
  · simp at ha
  split at ha
  · simp at ha
  split at ha
  · simp at ha
  unfold writes
  show applyAll { s with hashes := s.hashes ++ [h] } _ = _
  generalize hx : indexIt p { s with hashes := s.hashes ++ [h] } (keyOf p h) s.hashes.length = r at ha
  cases r with
  | err => simp at ha
  | panicked => simp at ha
  | hang => simp at ha
  | ok s1 =>
    simp only [Res.ok.injEq, Prod.mk.injEq] at ha
    rw [← ha.1]
    unfold indexIt at hx
    unfold indexWrites
    dsimp only at hx ⊢
    by_cases h0 : s.lookups (keyOf p h) = 0
    · rw [if_pos h0] at hx
      rw [if_pos h0]
      simp only [Res.ok.injEq] at hx
      rw [← hx]; rfl
    rw [if_neg h0] at hx
    rw [if_neg h0]
    by_cases h1 : hasMsb p (s.lookups (keyOf p h)) = false
    · rw [if_pos h1] at hx
      rw [if_pos h1]
      split at hx
      · simp at hx
      split at hx
      · simp at hx
      simp only [Res.ok.injEq] at hx
      rw [← hx]
      simp [applyAll, apply, setLookup]
    rw [if_neg h1] at hx
    rw [if_neg h1]
    split at hx
    · simp at hx
    generalize hf : findSlot p s.coll (s.coll.length + 1) (s.lookups (keyOf p h) - msb p - 1) = r at hx
    cases r with
    | err => simp at hx
    | panicked => simp at hx
    | hang => simp at hx
    | ok r =>
      obtain ⟨coll', slot⟩ := r
      simp only [Res.ok.injEq] at hx
      rcases slotWrites_ok hf with ⟨hw, hc, _⟩ | ⟨i, w, hw, hc, _, _⟩
      · rw [hw, ← hx, hc]; rfl
      · rw [hw, ← hx, hc]; rfl

/-! ### Adding words where there were zeros does not change what is found -/

/-- Everything `s` holds about key `k`, `s'` holds too. -/
structure Below (s s' : CH) (k : Nat) : Prop where
  hash : ∀ (i : Nat) h, s.hashes[i]? = some h → s'.hashes[i]? = some h
  word : ∀ (i : Nat) w, s.coll[i]? = some w → w ≠ 0 → s'.coll[i]? = some w
  look : s.lookups k ≠ 0 → s'.lookups k = s.lookups k
  len : s.coll.length ≤ s'.coll.length

theorem below_refl (s : CH) (k : Nat) : Below s s k :=
  ⟨fun _ _ e => e, fun _ _ e _ => e, fun _ => rfl, Nat.le_refl _⟩

theorem below_trans {a b c : CH} {k : Nat} (h : Below a b k) (h' : Below b c k) : Below a c k := by
  refine ⟨fun i x e => h'.hash i x (h.hash i x e), fun i w e n => h'.word i w (h.word i w e n) n, ?_, Nat.le_trans h.len h'.len⟩
  intro n
  have := h.look n
  rw [h'.look (by rw [this]; exact n), this]

theorem below_hash (s : CH) (k : Nat) (h : Bytes) : Below s (apply s (.hash h)) k := by
  refine ⟨?_, fun _ _ e _ => e, fun _ => rfl, Nat.le_refl _⟩
  intro i x e
  simp only [apply]
  rw [List.getElem?_append_left (lt_of_getElem?_some e), e]

theorem below_tail (s : CH) (k : Nat) (ws : List Nat) : Below s (apply s (.tail ws)) k := by
  refine ⟨fun _ _ e => e, ?_, fun _ => rfl, by simp [apply]⟩
  intro i x e _
  simp only [apply]
  rw [List.getElem?_append_left (lt_of_getElem?_some e), e]

theorem below_word (s : CH) (k i v : Nat) (hz : s.coll[i]? = some 0) : Below s (apply s (.word i v)) k := by
  refine ⟨fun _ _ e => e, ?_, fun _ => rfl, by simp [apply]⟩
  intro j x e hx
  simp only [apply]
  rw [List.getElem?_set_ne, e]
  intro hij
  rw [← hij, hz] at e
  exact hx (Option.some.inj e).symm

theorem below_look (s : CH) (k key v : Nat) (hk : k ≠ key ∨ s.lookups key = 0) : Below s (apply s (.look key v)) k := by
  refine ⟨fun _ _ e => e, fun _ _ e _ => e, ?_, Nat.le_refl _⟩
  intro hn
  simp only [apply, setLookup]
  rw [if_neg]
  rintro rfl
  exact hk.elim (fun h => h rfl) (fun h => hn h)

theorem scan_below {s s' : CH} {k : Nat} (b : Below s s' k) (v : Bytes) (base : Nat) (n j : Nat) :
    (∀ i, scanSlots s v base j n = .done (.at i) → scanSlots s' v base j n = .done (.at i)) ∧
    (∀ w, scanSlots s v base j n = .link w → scanSlots s' v base j n = .link w) := by
  induction n generalizing j with
  | zero =>
    rw [scanSlots, scanSlots]
    cases hw : s.coll[base + j]? with
    | none => simp
    | some w =>
      by_cases h0 : w = 0
      · simp [h0]
      · rw [b.word _ _ hw h0]; simp
  | succ n ih =>
    rw [scanSlots, scanSlots]
    cases hw : s.coll[base + j]? with
    | none => simp
    | some w =>
      by_cases h0 : w = 0
      · simp [h0]
      · rw [b.word _ _ hw h0]
        simp only [if_neg h0]
        cases hh : s.hashes[w - 1]? with
        | none => simp
        | some h =>
          rw [b.hash _ _ hh]
          dsimp only
          by_cases e : h = v
          · simp [e]
          · rw [if_neg e, if_neg e]; exact ih (j + 1)

theorem search_below {p : Params} {s s' : CH} {k : Nat} (b : Below s s' k) (v : Bytes) (i : Nat) (fuel fuel' link : Nat)
    (hf : fuel ≤ fuel') (h : searchChain p s v fuel link = some (.at i)) : searchChain p s' v fuel' link = some (.at i) := by
  induction fuel generalizing link fuel' with
  | zero => simp [searchChain] at h
  | succ fuel ih =>
    obtain ⟨f', rfl⟩ : ∃ f', fuel' = f' + 1 := ⟨fuel' - 1, by omega⟩
    rw [searchChain] at h ⊢
    by_cases h0 : link = 0
    · simp [h0] at h
    rw [if_neg h0] at h
    rw [if_neg h0]
    generalize hs : scanSlots s v ((link - 1) * (p.cpc + 1)) 0 p.cpc = r at h
    obtain ⟨h1, h2⟩ := scan_below b v ((link - 1) * (p.cpc + 1)) p.cpc 0
    cases r with
    | done f =>
      simp only [Option.some.injEq] at h
      subst h
      rw [h1 i hs]
    | link w =>
      rw [h2 w hs]
      exact ih f' w (by omega) h

theorem index_below {p : Params} {s s' : CH} (v : Bytes) (b : Below s s' (keyOf p v)) (i : Nat)
    (h : indexOfHash p s v = some (.at i)) : indexOfHash p s' v = some (.at i) := by
  unfold indexOfHash at h ⊢
  dsimp only at h ⊢
  have hn : s.lookups (keyOf p v) ≠ 0 := by
    intro e
    rw [e] at h
    simp [hasMsb] at h
  rw [b.look hn]
  by_cases hm : hasMsb p (s.lookups (keyOf p v)) = false
  · rw [if_pos hm, if_neg hn] at h
    rw [if_pos hm, if_neg hn]
    cases hh : s.hashes[s.lookups (keyOf p v) - 1]? with
    | none => simp [hh] at h
    | some x => rw [b.hash _ _ hh]; simpa [hh] using h
  · rw [if_neg hm] at h
    rw [if_neg hm]
    exact search_below b v i _ _ _ (by have := b.len; omega) h

/-! ### The states a kill can leave -/

theorem killed_zero (p : Params) (s : CH) (h : Bytes) : killedAfter p s h 0 = s := rfl

theorem killed_succ (p : Params) (s : CH) (h : Bytes) (n : Nat) : killedAfter p s h (n + 1) =
    applyAll (apply s (.hash h)) ((indexWrites p s (keyOf p h) s.hashes.length).take n) := rfl

/-- Outside the first collision of a key, every kill leaves everything in place. -/
theorem below_killed {p : Params} (hp : p.Valid) {s : CH} {chains : Nat → List Nat} {nch : Nat} (inv : Inv p s chains nch)
    (h : Bytes) (n k : Nat) (hk : k ≠ keyOf p h ∨ (bucket p s.hashes (keyOf p h)).length ≠ 1)
    (hlen : s.hashes.length < msb p) : Below s (killedAfter p s h n) k := by
  cases n with
  | zero => exact below_refl s k
  | succ n =>
    rw [killed_succ]
    have b0 := below_hash s k h
    rcases hb : bucket p s.hashes (keyOf p h) with _ | ⟨i, _ | ⟨i', rest⟩⟩
    · have hl := inv.look0 _ hb
      unfold indexWrites
      dsimp only
      rw [if_pos hl]
      rcases n with _ | n
      · exact b0
      · simp only [List.take_succ_cons, List.take_nil]
        exact below_trans b0 (below_look _ k _ _ (.inr hl))
    · have hi : i < s.hashes.length := bucket_lt (k := keyOf p h) (p := p) (by simp [hb])
      have hl := inv.look1 _ i hb
      have hk' : k ≠ keyOf p h := hk.elim id (fun e => absurd (by simp [hb]) e)
      unfold indexWrites
      dsimp only
      rw [if_neg (by omega), hl, hasMsb_small hp.nbytes_pos (by omega), if_pos rfl]
      rcases n with _ | _ | _ | _ | n
      · exact b0
      · exact below_trans b0 (below_look _ k _ _ (.inl hk'))
      · exact below_trans b0 (below_trans (below_look _ k _ _ (.inl hk')) (below_tail _ k _))
      · exact below_trans b0 (below_trans (below_look _ k _ _ (.inl hk')) (below_trans (below_tail _ k _) (below_tail _ k _)))
      · simp only [List.take_succ_cons, List.take_nil]
        exact below_trans b0 (below_trans (below_look _ k _ _ (.inl hk')) (below_trans (below_tail _ k _)
          (below_trans (below_tail _ k _) (below_tail _ k _))))
    · have h2 : 2 ≤ (bucket p s.hashes (keyOf p h)).length := by simp [hb]
      obtain ⟨c, hc, hl⟩ := inv.look2 _ h2
      have hcn := inv.lt _ 0 c hc
      have hfew := inv.few
      have hfuel : (chains (keyOf p h)).length ≤ 0 + (s.coll.length + 1) := by
        have hnd : (chains (keyOf p h)).Nodup := by
          rw [List.nodup_iff_pairwise_ne, List.pairwise_iff_getElem]
          intro a b ha hb hab e
          have := (inv.inj _ _ a b _ (List.getElem?_eq_getElem ha)
            (by rw [List.getElem?_eq_getElem hb, e])).2
          omega
        have := nodup_length_le hnd (n := nch) (by
          intro c hc
          obtain ⟨q, hq⟩ := List.getElem?_of_mem hc
          exact inv.lt _ q c hq)
        rw [inv.len, Nat.mul_add]
        omega
      obtain ⟨cl, _, hslot⟩ := findSlot_ok hp inv _ h2 (s.coll.length + 1) 0 c hc hfuel
      have hdiv : s.coll.length / (p.cpc + 1) * (p.cpc + 1) = s.coll.length := by
        rw [inv.len, Nat.mul_div_cancel _ (by omega)]
      unfold indexWrites
      dsimp only
      rw [if_neg (by rw [hl]; omega), hl, hasMsb_big hp.nbytes_pos (by omega), if_neg (by simp),
        show msb p + (c + 1) - msb p - 1 = c by omega]
      have hx : ∃ coll' slot, findSlot p s.coll (s.coll.length + 1) c = .ok (coll', slot) := by
        rw [hslot]; split <;> exact ⟨_, _, rfl⟩
      obtain ⟨coll', slot, hx⟩ := hx
      rcases slotWrites_ok hx with ⟨hw, _, hz⟩ | ⟨i, w, hw, _, hz, hsl⟩
      · rw [hw]
        rcases n with _ | n
        · exact b0
        · simp only [List.take_succ_cons, List.take_nil, List.nil_append]
          exact below_trans b0 (below_word _ k _ _ hz)
      · rw [hw]
        have hz' : (apply (apply s (.hash h)) (.tail (List.replicate (p.cpc + 1) 0))).coll[i]? = some 0 := by
          simp only [apply]
          rw [List.getElem?_append_left (lt_of_getElem?_some hz), hz]
        rcases n with _ | _ | _ | n
        · exact b0
        · exact below_trans b0 (below_tail _ k _)
        · exact below_trans b0 (below_trans (below_tail _ k _) (below_word _ k _ _ hz'))
        · simp only [List.take_succ_cons, List.take_nil, List.cons_append, List.nil_append]
          refine below_trans b0 (below_trans (below_tail _ k _) (below_trans (below_word _ k i w hz') ?_))
          apply below_word
          simp only [apply]
          rw [hdiv] at hsl
          have hi := lt_of_getElem?_some hz
          rw [List.getElem?_set_ne (by omega), hsl, List.getElem?_append_right (by omega)]
          simp

theorem bucket_filter (p : Params) (hs : List Bytes) (k : Nat) :
    (bucket p hs k).length = (hs.filter (fun x => keyOf p x == k)).length := by
  generalize hm : hs.length = m
  induction m generalizing hs with
  | zero => rw [List.length_eq_zero_iff.mp hm]; rfl
  | succ m ih =>
    obtain rfl | ⟨l, x, rfl⟩ := List.eq_nil_or_concat hs
    · simp at hm
    have ih := ih l (by simpa using hm)
    rw [List.concat_eq_append, bucket_append, List.filter_append, List.length_append, List.length_append, ih]
    congr 1
    by_cases e : keyOf p x = k
    · simp [e]
    · have : (keyOf p x == k) = false := by simpa using e
      simp [e, this]

/-- **C110 (partial).** Build a store with any hashes and end the process after any number `n` of the writes of one more append.
Opening the files again, `IndexOfHash` of every hash appended before gives its first index as it did, except at a single moment:
when the new hash is the first to collide with a hash, and the kill comes just after its second write, that one earlier hash
gives an error. Missing from the full statement: that moment, see also `going_on_loses_a_stored_hash`. -/
theorem a_kill_inside_an_append_partial (p : Params) (hp : p.Valid) (hs : List Bytes) (hlen : hs.length + 1 < msb p)
    (s : CH) (is : List Nat) (hr : appendAll p create hs = .ok (s, is)) (h v : Bytes) (hv : v ∈ hs) (n : Nat) :
    indexOfHash p (killedAfter p s h n) v =
      if n = 2 ∧ hs.filter (fun x => keyOf p x == keyOf p h) = [v] then some .err else some (firstIndex hs v) := by
  obtain ⟨s', ch, nch, h1, h2, inv⟩ := appendAll_ok hp hs (inv_create p) (by simp only [create, List.length_nil]; omega)
  rw [hr] at h1
  simp only [Res.ok.injEq, Prod.mk.injEq] at h1
  rw [← h1.1] at h2 inv
  have h2' : s.hashes = hs := by simpa [create] using h2
  have hmsb1 : s.hashes.length + 1 < msb p := by rw [h2']; exact hlen
  have hmsb : s.hashes.length < msb p := by omega
  obtain ⟨i, hi⟩ : ∃ i, firstIndex hs v = .at i := by
    cases hf : firstIndex hs v with
    | «at» i => exact ⟨i, rfl⟩
    | absent => exact absurd hv (HashStores.firstIndex_absent.mp hf)
    | err => simp [firstIndex] at hf; split at hf <;> simp at hf
  have hold : indexOfHash p s v = some (.at i) := by
    rw [indexOf_ok hp inv hmsb, h2', hi]
  by_cases hk : keyOf p v ≠ keyOf p h ∨ (bucket p s.hashes (keyOf p h)).length ≠ 1
  · rw [index_below v (below_killed hp inv h n _ hk hmsb) i hold, hi, if_neg]
    rintro ⟨_, hf⟩
    rcases hk with hk | hk
    · have : v ∈ hs.filter (fun x => keyOf p x == keyOf p h) := by rw [hf]; simp
      exact hk (by simpa using (List.mem_filter.mp this).2)
    · rw [h2', bucket_filter, hf] at hk
      exact hk rfl
  · have hkey : keyOf p v = keyOf p h := Classical.byContradiction fun e => hk (.inl e)
    have hone : (bucket p s.hashes (keyOf p h)).length = 1 := Classical.byContradiction fun e => hk (.inr e)
    have hfil : hs.filter (fun x => keyOf p x == keyOf p h) = [v] := by
      have hl : (hs.filter (fun x => keyOf p x == keyOf p h)).length = 1 := by rw [← bucket_filter, ← h2', hone]
      have hm : v ∈ hs.filter (fun x => keyOf p x == keyOf p h) := by simp [hv, hkey]
      obtain ⟨x, hx⟩ := List.length_eq_one_iff.mp hl
      rw [hx] at hm ⊢
      simp at hm; rw [hm]
    obtain ⟨b, hb⟩ := List.length_eq_one_iff.mp hone
    have hlook := inv.look1 _ b hb
    have hbl : b < s.hashes.length := bucket_lt (k := keyOf p h) (p := p) (by simp [hb])
    have hsm : hasMsb p (b + 1) = false := hasMsb_small hp.nbytes_pos (by omega)
    -- the hash the lookup points to is `v`
    have hbi : b = i ∧ s.hashes[b]? = some v := by
      unfold indexOfHash at hold
      dsimp only at hold
      rw [hkey, hlook, if_pos hsm, if_neg (by omega), Nat.add_sub_cancel, List.getElem?_eq_getElem hbl] at hold
      dsimp only at hold
      split at hold
      · rename_i e
        simp only [Option.some.injEq, Found.at.injEq] at hold
        exact ⟨hold, by rw [List.getElem?_eq_getElem hbl, e]⟩
      · simp at hold
    have hW : indexWrites p s (keyOf p h) s.hashes.length =
        [.look (keyOf p h) (put p ((s.coll.length / (p.cpc + 1) + 1) ||| msb p)), .tail [b + 1],
          .tail [put p (s.hashes.length + 1)], .tail (List.replicate (p.cpc - 1) 0)] := by
      unfold indexWrites
      dsimp only
      rw [hlook, if_neg (by omega), if_pos hsm]
    have hdiv : s.coll.length / (p.cpc + 1) = nch := by
      rw [inv.len, Nat.mul_div_cancel _ (by omega)]
    have hput : put p ((s.coll.length / (p.cpc + 1) + 1) ||| msb p) = msb p + (nch + 1) := by
      have := inv.few
      rw [hdiv, or_msb hp.nbytes_pos (by omega), put_small hp.nbytes_pos (by omega)]
    have hbig : hasMsb p (msb p + (nch + 1)) = true := hasMsb_big hp.nbytes_pos (by have := inv.few; omega)
    have hcl : s.coll.length = nch * (p.cpc + 1) := inv.len
    have hcpc := hp.cpc_ge
    rw [hput] at hW
    -- once the old entry is in the collisions file it is found there
    have hfound : ∀ rest, indexOfHash p (CH.mk (s.hashes ++ [h]) (fun k => if k = keyOf p h then msb p + (nch + 1) else s.lookups k) (s.coll ++ (b + 1) :: rest)) v = some (.at i) := by
      intro rest
      unfold indexOfHash
      dsimp only
      rw [if_pos hkey, if_neg (by rw [hbig]; simp), Nat.add_sub_cancel_left, searchChain, if_neg (by omega), Nat.add_sub_cancel]
      obtain ⟨c', hc'⟩ : ∃ c', p.cpc = c' + 1 := ⟨p.cpc - 1, by omega⟩
      have : scanSlots (CH.mk (s.hashes ++ [h]) (fun k => if k = keyOf p h then msb p + (nch + 1) else s.lookups k) (s.coll ++ (b + 1) :: rest)) v (nch * (p.cpc + 1)) 0 p.cpc = .done (.at i) := by
        rw [← hcl, hc', scanSlots]
        simp only [Nat.add_zero, Nat.add_sub_cancel]
        rw [List.getElem?_append_right (by omega), Nat.sub_self, List.getElem?_cons_zero]
        dsimp only
        rw [if_neg (by omega), Nat.add_sub_cancel, List.getElem?_append_left hbl, hbi.2]
        dsimp only
        rw [if_pos rfl, hbi.1]
      rw [this]
    rw [hfil, hi]
    rcases n with _ | _ | _ | _ | n
    · rw [if_neg (by simp)]; exact hold
    · rw [if_neg (by simp)]
      exact index_below v (below_hash s _ h) i hold
    · rw [if_pos ⟨rfl, rfl⟩, killed_succ, hW]
      show indexOfHash p (CH.mk (s.hashes ++ [h]) (fun k => if k = keyOf p h then msb p + (nch + 1) else s.lookups k) (s.coll)) v = _
      unfold indexOfHash
      dsimp only
      rw [if_pos hkey, if_neg (by rw [hbig]; simp), Nat.add_sub_cancel_left, searchChain, if_neg (by omega), Nat.add_sub_cancel]
      obtain ⟨c', hc'⟩ : ∃ c', p.cpc = c' + 1 := ⟨p.cpc - 1, by omega⟩
      have : scanSlots (CH.mk (s.hashes ++ [h]) (fun k => if k = keyOf p h then msb p + (nch + 1) else s.lookups k) (s.coll)) v (nch * (p.cpc + 1)) 0 p.cpc = .done .err := by
        rw [← hcl, hc', scanSlots]
        simp only [Nat.add_zero]
        rw [List.getElem?_eq_none (by omega)]
      rw [this]
    · rw [if_neg (by simp), killed_succ, hW]
      exact hfound []
    · rw [if_neg (by simp), killed_succ, hW]
      simp only [List.take_succ_cons]
      rcases n with _ | n
      · simpa [applyAll, apply, setLookup] using hfound [put p (s.hashes.length + 1)]
      · simpa [applyAll, apply, setLookup] using
          hfound (put p (s.hashes.length + 1) :: List.replicate (p.cpc - 1) 0)

/-- Three hashes, two of them with one key; then another with that key, and another with the key of the single one. -/
example : ∃ s is, appendAll demo create [mkHash 3, mkHash 19, mkHash 4] = .ok (s, is) ∧
    indexOfHash demo (killedAfter demo s (mkHash 35) 1) (mkHash 19) = some (.at 1) ∧
    indexOfHash demo (killedAfter demo s (mkHash 20) 2) (mkHash 4) = some .err ∧
    indexOfHash demo (killedAfter demo s (mkHash 20) 3) (mkHash 4) = some (.at 2) := by
  refine ⟨_, _, rfl, ?_, ?_, ?_⟩ <;> decide +kernel

/-! ### The hash whose append was cut off -/

theorem scan_hash (s : CH) (h v : Bytes) (base n j : Nat) (hn : scanSlots s v base j n ≠ .done .err) :
    scanSlots (apply s (.hash h)) v base j n = scanSlots s v base j n := by
  induction n generalizing j with
  | zero => rfl
  | succ n ih =>
    rw [scanSlots] at hn ⊢
    rw [scanSlots]
    show (match s.coll[base + j]? with | none => _ | some w => _) = _
    cases hw : s.coll[base + j]? with
    | none => rfl
    | some w =>
      simp only [hw] at hn ⊢
      by_cases h0 : w = 0
      · simp [h0]
      rw [if_neg h0] at hn
      rw [if_neg h0, if_neg h0]
      cases hh : s.hashes[w - 1]? with
      | none => simp [hh] at hn
      | some x =>
        rw [(below_hash s 0 h).hash _ _ hh]
        simp only [hh] at hn ⊢
        by_cases e : x = v
        · simp [e]
        · rw [if_neg e] at hn
          rw [if_neg e, if_neg e]; exact ih (j + 1) hn

theorem search_hash (p : Params) (s : CH) (h v : Bytes) (fuel link : Nat) (hn : searchChain p s v fuel link ≠ some .err) :
    searchChain p (apply s (.hash h)) v fuel link = searchChain p s v fuel link := by
  induction fuel generalizing link with
  | zero => rfl
  | succ fuel ih =>
    rw [searchChain] at hn ⊢
    rw [searchChain]
    by_cases h0 : link = 0
    · rw [if_pos h0, if_pos h0]
    rw [if_neg h0] at hn
    rw [if_neg h0, if_neg h0]
    have hs : scanSlots s v ((link - 1) * (p.cpc + 1)) 0 p.cpc ≠ .done .err := by
      intro e; simp [e] at hn
    rw [scan_hash s h v _ _ _ hs]
    generalize hr : scanSlots s v ((link - 1) * (p.cpc + 1)) 0 p.cpc = r at hn
    cases r with
    | done f => rfl
    | link w => exact ih w hn

theorem index_hash (p : Params) (s : CH) (h v : Bytes) (hn : indexOfHash p s v ≠ some .err) :
    indexOfHash p (apply s (.hash h)) v = indexOfHash p s v := by
  unfold indexOfHash at hn ⊢
  dsimp only at hn ⊢
  show (if hasMsb p (s.lookups (keyOf p v)) = false then _ else _) = _
  by_cases hm : hasMsb p (s.lookups (keyOf p v)) = false
  · rw [if_pos hm] at hn
    rw [if_pos hm, if_pos hm]
    by_cases h0 : s.lookups (keyOf p v) = 0
    · rw [if_pos h0]; exact if_pos h0
    rw [if_neg h0] at hn
    rw [if_neg h0]
    show (if s.lookups (keyOf p v) = 0 then _ else _) = _
    rw [if_neg h0]
    show (match (apply s (.hash h)).hashes[s.lookups (keyOf p v) - 1]? with | none => _ | some x => _) = _
    cases hh : s.hashes[s.lookups (keyOf p v) - 1]? with
    | none => simp [hh] at hn
    | some x => rw [(below_hash s 0 h).hash _ _ hh]; rfl
  · rw [if_neg hm] at hn
    rw [if_neg hm, if_neg hm]
    exact search_hash p s h v _ _ hn

/-- **The hash of a cut-off append is counted, readable by index, and not found.** Killed after its first write, an append of a new
hash leaves one hash more: `CountHashes` counts it and `GetHashAtIndex` returns it, `IndexOfHash` says it is absent, and says
of every hash what it said before. So opening the files and appending the hash again stores it twice. -/
theorem the_interrupted_hash_is_orphaned (p : Params) (hp : p.Valid) (hs : List Bytes) (hlen : hs.length < msb p)
    (s : CH) (is : List Nat) (hr : appendAll p create hs = .ok (s, is)) (h : Bytes) (hh : h ∉ hs) :
    countHashes (killedAfter p s h 1) = hs.length + 1 ∧ getHashAtIndex (killedAfter p s h 1) hs.length = some h ∧
      indexOfHash p (killedAfter p s h 1) h = some .absent ∧
      ∀ v, indexOfHash p (killedAfter p s h 1) v = some (firstIndex hs v) := by
  obtain ⟨s', h1, h2, h3, h4⟩ := chained_store_finds_all_partial p hp hs hlen
  rw [hr] at h1
  simp only [Res.ok.injEq, Prod.mk.injEq] at h1
  rw [← h1.1] at h2 h3 h4
  have hall : ∀ v, indexOfHash p (killedAfter p s h 1) v = some (firstIndex hs v) := by
    intro v
    show indexOfHash p (apply s (.hash h)) v = _
    rw [index_hash, h2]
    rw [h2]
    intro e
    simp [firstIndex] at e; split at e <;> simp at e
  unfold countHashes at h4
  refine ⟨by show (s.hashes ++ [h]).length = _; simp [h4], ?_, ?_, hall⟩
  · show (s.hashes ++ [h])[hs.length]? = _
    rw [← h4]; simp
  · rw [hall, HashStores.firstIndex_absent.mpr hh]

example : mkHash 20 ∉ [mkHash 3, mkHash 19, mkHash 4] := by decide +kernel

/-! ### Going on after the kill -/

/-- **C110 is violated.** Append `a`; append `b`, which has the key of `a`, and be killed after its second write; open the
files and append `c` and `d`, which share another key. No append reports an error, and `IndexOfHash a` now says, without an error,
that `a` is absent, though it is still the hash at index 0: the chunk the lookup of `a` points to, never written, has been
handed out again. -/
theorem going_on_loses_a_stored_hash (p : Params) (hp : p.Valid) (a b c d : Bytes) (hab : keyOf p a = keyOf p b)
    (hcd : keyOf p c = keyOf p d) (hac : keyOf p a ≠ keyOf p c) :
    ∃ s s', appendAll p create [a] = .ok (s, [0]) ∧
      appendAll p (killedAfter p s b 2) [c, d] = .ok (s', [2, 3]) ∧
      getHashAtIndex s' 0 = some a ∧ indexOfHash p s' a = some .absent := by
  have hm : 128 ≤ msb p := by
    unfold msb
    exact Nat.le_mul_of_pos_right _ (Nat.pow_pos (by decide))
  have h1 := hp.nbytes_pos
  have h7 := hp.nbytes_le
  have hc2 := hp.cpc_ge
  have hc8 := hp.cpc_le
  have hbuf := hp.buf
  have hcd' : keyOf p d = keyOf p c := hcd.symm
  have hab' : keyOf p b = keyOf p a := hab.symm
  have hca : keyOf p c ≠ keyOf p a := fun e => hac e.symm
  have e1 : put p 1 = 1 := put_small h1 (by omega)
  have e3 : put p 3 = 3 := put_small h1 (by omega)
  have e4 : put p 4 = 4 := put_small h1 (by omega)
  have em : put p (1 ||| msb p) = msb p + 1 := by rw [or_msb h1 (by omega), put_small h1 (by omega)]
  have m1 : hasMsb p 1 = false := hasMsb_small h1 (by omega)
  have m3 : hasMsb p 3 = false := hasMsb_small h1 (by omega)
  have mm : hasMsb p (msb p + 1) = true := hasMsb_big h1 (by omega)
  have hb' : ¬ (p.cpc = 0 ∨ (p.cpc - 1) * p.nbytes > zeroBuf) := by
    have h' : (p.cpc - 1) * p.nbytes ≤ p.nbytes * (p.cpc + 1) := by
      rw [Nat.mul_comm]; exact Nat.mul_le_mul_left _ (by omega)
    omega
  have n0 : ¬ p.nbytes = 0 := by omega
  have n8 : ∀ i, i < 4 → ¬ (p.nbytes ≥ 8 ∨ i ≥ msb p) := by intro i hi; omega
  have n9 : ¬ p.cpc > 8 := by omega
  have hcre : appendHash p create a = .ok (CH.mk [a] (fun k => if k = keyOf p a then 1 else 0) [], 0) := by
    unfold appendHash indexIt
    simp only [create, List.length_nil, List.nil_append, if_neg n0, if_neg (n8 0 (by omega)), if_neg n9, ↓reduceIte,
      setLookup, Nat.zero_add, e1]
  have hk : killedAfter p (CH.mk [a] (fun k => if k = keyOf p a then 1 else 0) []) b 2 =
      CH.mk [a, b] (fun k => if k = keyOf p a then msb p + 1 else 0) [] := by
    rw [killed_succ]
    unfold indexWrites
    simp only [hab', ↓reduceIte, m1, List.length_nil, Nat.zero_div, Nat.zero_add, em, Nat.one_ne_zero]
    simp only [List.take_succ_cons, List.take_zero, applyAll, List.foldl_cons, List.foldl_nil, apply, setLookup,
      List.cons_append, List.nil_append, CH.mk.injEq, true_and, and_true]
    funext k
    by_cases e : k = keyOf p a <;> simp [e]
  have hcs : appendHash p (CH.mk [a, b] (fun k => if k = keyOf p a then msb p + 1 else 0) []) c =
      .ok (CH.mk [a, b, c] (fun k => if k = keyOf p c then 3 else if k = keyOf p a then msb p + 1 else 0) [], 2) := by
    unfold appendHash indexIt
    simp only [List.length_cons, List.length_nil, Nat.zero_add, Nat.reduceAdd, if_neg n0, if_neg (n8 2 (by omega)), if_neg n9,
      if_neg hca, ↓reduceIte, setLookup, e3, List.cons_append, List.nil_append]
  have hds : appendHash p (CH.mk [a, b, c] (fun k => if k = keyOf p c then 3 else if k = keyOf p a then msb p + 1 else 0) []) d =
      .ok (CH.mk [a, b, c, d] (fun k => if k = keyOf p c then msb p + 1 else
        if k = keyOf p c then 3 else if k = keyOf p a then msb p + 1 else 0) ([3, 4] ++ List.replicate (p.cpc - 1) 0), 3) := by
    unfold appendHash indexIt
    simp only [List.length_cons, List.length_nil, Nat.zero_add, Nat.reduceAdd, if_neg n0, if_neg (n8 3 (by omega)), if_neg n9,
      ↓reduceIte, setLookup, e4, List.cons_append, List.nil_append, hcd', m3, Nat.zero_div, em, if_neg hb',
      if_neg (show ¬ (1 ≥ msb p) by omega), show ¬ (3 = 0) by omega]
  refine ⟨CH.mk [a] (fun k => if k = keyOf p a then 1 else 0) [], CH.mk [a, b, c, d] (fun k => if k = keyOf p c then msb p + 1 else
    if k = keyOf p c then 3 else if k = keyOf p a then msb p + 1 else 0) ([3, 4] ++ List.replicate (p.cpc - 1) 0),
    by simp only [appendAll, hcre], by rw [hk]; simp only [appendAll, hcs, hds], rfl, ?_⟩
  have hne : c ≠ a := fun e => hca (by rw [e])
  have hne' : d ≠ a := fun e => hca (by rw [← hcd', e])
  unfold indexOfHash
  simp only [if_neg hac, ↓reduceIte, mm, Bool.true_eq_false, Nat.add_sub_cancel_left]
  rw [searchChain, if_neg (by omega), Nat.sub_self, Nat.zero_mul]
  obtain ⟨q, hq⟩ : ∃ q, p.cpc = q + 2 := ⟨p.cpc - 2, by omega⟩
  have : scanSlots (CH.mk [a, b, c, d] (fun k => if k = keyOf p c then msb p + 1 else
        if k = keyOf p c then 3 else if k = keyOf p a then msb p + 1 else 0) ([3, 4] ++ List.replicate (p.cpc - 1) 0)) a 0 0 p.cpc =
      .done .absent := by
    rw [hq, show q + 2 - 1 = q + 1 by omega, List.replicate_succ]
    rw [scanSlots]
    simp only [Nat.add_zero, List.cons_append, List.nil_append, List.getElem?_cons_zero, List.getElem?_cons_succ,
      Nat.reduceSub, if_neg hne, show ¬ (3 = 0) by omega, if_false]
    rw [scanSlots]
    simp only [Nat.zero_add, List.getElem?_cons_zero, List.getElem?_cons_succ,
      Nat.reduceSub, if_neg hne', show ¬ (4 = 0) by omega, if_false]
    cases q with
    | zero => rw [scanSlots]; simp
    | succ q => rw [scanSlots]; simp
  rw [this]

example : keyOf demo (mkHash 3) = keyOf demo (mkHash 19) ∧ keyOf demo (mkHash 4) = keyOf demo (mkHash 20) ∧
    keyOf demo (mkHash 3) ≠ keyOf demo (mkHash 4) := by decide +kernel

/-- **A kill can also put the chunks out of step.** Killed after the fourth write, when both entries are in the collisions file and
the zeros are not, the file is not a whole number of chunks. The next two hashes with another common key are appended without
an error into what is left of that chunk; looking up the second of them fails. -/
theorem a_kill_puts_the_chunks_out_of_step :
    ∃ s s', appendAll demo create [mkHash 3] = .ok (s, [0]) ∧
      appendAll demo (killedAfter demo s (mkHash 19) 4) [mkHash 4, mkHash 20] = .ok (s', [2, 3]) ∧
      getHashAtIndex s' 3 = some (mkHash 20) ∧ indexOfHash demo s' (mkHash 20) = some .err := by
  refine ⟨_, _, rfl, rfl, ?_, ?_⟩ <;> decide +kernel

end Verif.KilledAppend
