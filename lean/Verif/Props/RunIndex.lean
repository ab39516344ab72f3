import Verif.Props.Run
import Verif.Props.Adaptive3

/-!
# C79: a whole run with the index that phase two builds

C77 takes phase two as giving the gathered lists of hashes. Here the stores are those that bulk indexing leaves, opened
as phase three opens them (bins in memory) or as a reader does (bins on disk).
-/

namespace Verif.Run

open Verif.BinBlock (Block)
open Verif.ChainStore (Iface St)
open Verif.BlockHolder (SortOK)
open Verif.Bins (Params Files FloatOK)
open Verif.HashStore3 (Store ParamsOK openStore indexOfHash getHashAtIndex countHashes)
open Verif.HashStores (Found)
open Verif.Bulk3 (FirstAt Indexable)

/-! ## Specification -/

/-- jobs/intrinsicparallel.go:60-190, one hash file: the bytes of the bin number file and the other files after a completed
run of the multipass or of the adaptive preloader, in any schedule. -/
def Indexed (p : Params) (L : List Bytes) (nums : Bytes) (files : Files) : Prop :=
  ∃ sort, Bulk3.SortOK p sort ∧
    ((∃ estimate bytesPerPass threads d, 0 < threads ∧ Bulk3.IndexTheHashes p estimate bytesPerPass threads sort L d ∧
        nums = WordFile.close d.nums ∧ files = d.files) ∨
      ∃ gb threads sortDesc d, 0 < threads ∧ Adaptive3.SortDescOK sortDesc ∧
        Adaptive3.IndexTheHashes p gb threads sortDesc sort L d ∧ nums = WordFile.close d.nums ∧ files = d.files)

/-- As the callers see an answer: the index, or -1. -/
def answer : Found → Option Int
  | .at i => some i
  | .absent => some (-1)
  | .err => none

/-- The store answers as the list does, but for the hash at an index where the hash has occurred before. -/
structure Represents (fl : Rat → Rat) (p : Params) (S : Store) (L : List Bytes) : Prop where
  count : countHashes S = L.length
  index : ∀ h : Bytes, h.length = 32 → ∃ r, indexOfHash fl p S h = some r ∧ answer r = some (ChainStore.indexOf L h)
  get : ∀ i h, FirstAt L i h → ∃ S', getHashAtIndex p S i = some (S', some h)
  past : ∀ i, L.length ≤ i → ∃ S', getHashAtIndex p S i = some (S', none)

/-! ## Lemmas -/

theorem indexOf_first {L : List Bytes} {i : Nat} {h : Bytes} (hf : FirstAt L i h) : ChainStore.indexOf L h = i := by
  unfold ChainStore.indexOf
  have : L.findIdx? (· = h) = some i := by
    rw [List.findIdx?_eq_some_iff_getElem]
    obtain ⟨hi, he⟩ := List.getElem?_eq_some_iff.mp hf.1
    refine ⟨hi, by simpa using he, ?_⟩
    intro j hj
    have := hf.2 j hj
    rw [List.getElem?_eq_getElem (by omega)] at this
    simpa using this
  rw [this]

theorem indexOf_absent {L : List Bytes} {h : Bytes} (hf : h ∉ L) : ChainStore.indexOf L h = -1 := by
  unfold ChainStore.indexOf
  have : L.findIdx? (· = h) = none := by
    rw [List.findIdx?_eq_none_iff]
    intro x hx
    simp only [decide_eq_false_iff_not]
    rintro rfl
    exact hf hx
  rw [this]

variable {fl : Rat → Rat} {p : Params} {L : List Bytes}

theorem indexed_bulk (hp : ParamsOK p) (hI : Indexable p L) {nums : Bytes} {files : Files} (h : Indexed p L nums files) :
    ∃ sort S, Bulk3.SortOK p sort ∧ openStore p nums files false = some S ∧ Bulk3.IsBulk p sort L S := by
  obtain ⟨sort, hs, ⟨est, bpp, threads, d, ht, hrun, rfl, rfl⟩ | ⟨gb, threads, sd, d, ht, hsd, hrun, rfl, rfl⟩⟩ := h
  · obtain ⟨S, h1, h2⟩ := Bulk3.bulk_store hp ht hs hI.storable hrun
    exact ⟨sort, S, hs, h1, h2⟩
  · obtain ⟨S, h1, h2⟩ := Adaptive3.adaptive_store hp ht hsd hs hI.storable hrun
    exact ⟨sort, S, hs, h1, h2⟩

theorem open_ram {nums : Bytes} {files : Files} {S S' : Store} (h : openStore p nums files false = some S)
    (h' : openStore p nums files true = some S') : S'.binNums = S.binNums ∧ S'.files = S.files ∧ S.files = files := by
  unfold openStore at h h'
  cases ho : WordFile.openWordFile p.bytesRoomForBinNum nums with
  | none => rw [ho] at h; simp at h
  | some w =>
    rw [ho] at h h'
    simp only [Bool.false_eq_true, if_false, Option.some.injEq] at h
    simp only [if_true] at h'
    obtain ⟨b, _, rfl⟩ := Option.map_eq_some_iff.mp h'
    subst h
    exact ⟨rfl, rfl, rfl⟩

/-- **Phase two.** The store that bulk indexing leaves, opened either way, represents the list; where a hash is repeated
the hash at the later index is all zero. -/
theorem phase_two (hfl : FloatOK fl) (hp : ParamsOK p) (hI : Indexable p L) {nums : Bytes} {files : Files} (h : Indexed p L nums files)
    (inRam : Bool) : ∃ S, openStore p nums files inRam = some S ∧ Represents fl p S L ∧
      ∀ i j x, L[i]? = some x → L[j]? = some x → j < i → ∃ S', getHashAtIndex p S i = some (S', some (zeros 32)) := by
  obtain ⟨sort, S, hs, h1, h2⟩ := indexed_bulk hp hI h
  obtain ⟨a1, a2⟩ := h2.index hfl hp hs hI
  obtain ⟨a3, a4⟩ := h2.get hp hs hI
  have idx : ∀ h : Bytes, h.length = 32 → ∃ r, indexOfHash fl p S h = some r ∧ answer r = some (ChainStore.indexOf L h) := by
    intro h hl
    obtain ⟨r, r1, ⟨i, rfl, hi⟩ | ⟨rfl, hn⟩⟩ := a2 h hl
    · exact ⟨_, r1, by rw [indexOf_first hi]; rfl⟩
    · exact ⟨_, r1, by rw [indexOf_absent hn]; rfl⟩
  cases inRam with
  | false => exact ⟨S, h1, ⟨a1, idx, a3, a4⟩, fun i j x hi hj hji => h2.dup hp hs hI hi hj hji⟩
  | true =>
    have hf : S.files = files := by
      unfold openStore at h1
      cases ho : WordFile.openWordFile p.bytesRoomForBinNum nums with
      | none => rw [ho] at h1; simp at h1
      | some w =>
        rw [ho] at h1
        simp only [Bool.false_eq_true, if_false, Option.some.injEq] at h1
        subst h1; rfl
    obtain ⟨S', b1, b2, b3, _⟩ := HashStore3.ram_store_agrees fl hp h1 (by rw [← hf]; exact h2.room)
    have hg : ∀ i x, (∃ T, getHashAtIndex p S i = some (T, x)) → ∃ T, getHashAtIndex p S' i = some (T, x) := by
      rintro i x ⟨T, hT⟩
      have := b3 i
      rw [hT, Option.map_some] at this
      obtain ⟨⟨T', x'⟩, h3, h4⟩ := Option.map_eq_some_iff.mp this
      dsimp only at h4
      subst h4
      exact ⟨T', h3⟩
    refine ⟨S', b1, ⟨?_, ?_, ?_, ?_⟩, ?_⟩
    · rw [← a1]; unfold countHashes; rw [(open_ram h1 b1).1]
    · intro h hl; rw [b2 h hl]; exact idx h hl
    · intro i h hi; exact hg i _ (a3 i h hi)
    · intro i hi; exact hg i _ (a4 i hi)
    · intro i j x hi hj hji; exact hg i _ (h2.dup hp hs hI hi hj hji)

theorem stored_hashes {e : Env} {i : Iface} {med : Nat → Nat} {bs : List BinBlock.Blk} {s : St} (hw : ∀ b ∈ bs, b.WF) (hf : Fits e i bs)
    (h : ChainStore.store (-1) (-1) i true blkInts trnInts (written e i med bs) = .ok s) :
    s.blkHashes = bs.map (blkHash e) ∧ s.trnHashes = (txsOf bs).map (txHash e) ∧ s.adrHashes = (outsOf bs).map fun o => e.sha o.script := by
  obtain ⟨s', h1, hC, _⟩ := ChainStore.store_ok (p := -1) (q := -1) (by omega) (by omega) (written_good (med := med) hw hf)
  rw [h] at h1
  cases h1
  refine ⟨?_, ?_, ?_⟩
  · rw [hC.blkH]
    unfold ChainStore.hashesOf written
    exact map_mapIdx' (F := fun b : ChainStore.Blk => b.hash) (F' := blkHash e) (g := fun k b => writtenBlk e i k (med k) b) (fun _ _ => rfl) bs
  · rw [hC.trnH]
    exact hashes_written
  · rw [hC.adrH]
    show (ChainStore.outputs (written e i med bs)).map _ = _
    rw [outputs_written, List.map_map]
    rfl

/-- What phase one gathers. -/
theorem phase_one {e : Env} {i : Iface} {node : Node} {chain : List BinBlock.Blk} {n : Nat} (hsha : ∀ x, (e.sha x).length = 32)
    (hs : SortOK e.sort) (hv : Serving e node chain n) (hf : Fits e i (chain.take n)) :
    phase e i hashSink ((chain.take n).map (parsed e)) ⟨[], [], []⟩ =
      .ok ⟨(chain.take n).map (blkHash e), (txsOf (chain.take n)).map (txHash e), (outsOf (chain.take n)).map fun o => e.sha o.script⟩ := by
  have hwf : ∀ b ∈ chain.take n, b.WF := fun b hb => hv.wf b (List.mem_of_mem_take hb)
  have hl := hv.longer
  have hn : 0 < n := by
    rcases Nat.eq_zero_or_pos n with h0 | h0
    · exact absurd (by rw [h0]; rfl) hf.some
    · exact h0
  obtain ⟨a1, a2, a3, a4, a5⟩ := first_blocks hsha hs hv hf hn (Nat.le_refl _)
  rw [List.take_of_length_le (l := written e i (medOf e (chain.take n)) (chain.take n)) (by
    unfold written; rw [List.length_mapIdx, List.length_take]; omega)] at a4
  have hg := written_good (med := medOf e (chain.take n)) hwf hf
  apply phase_feed hs hashSink_prefix a1 a2 a3 a4 a5
  rw [feed_hashes, ChainStore.gatherHashes_ok _ _ hg.nonempty]
  have e1 : (written e i (medOf e (chain.take n)) (chain.take n)).map (·.hash) = (chain.take n).map (blkHash e) :=
    map_mapIdx' (F := fun b : ChainStore.Blk => b.hash) (F' := blkHash e)
      (g := fun k b => writtenBlk e i k (medOf e (chain.take n) k) b) (fun _ _ => rfl) _
  have e2 := hashes_written (e := e) (i := i) (med := medOf e (chain.take n)) (bs := chain.take n)
  have e3 := congrArg (List.map ChainStore.Txo.addr) (outputs_written (e := e) (i := i) (med := medOf e (chain.take n)) (bs := chain.take n))
  rw [List.map_map] at e3
  unfold ChainStore.outputs ChainStore.allTxs at e3
  unfold ChainStore.allTxs at e2
  simp only [List.nil_append, e1, e2, e3]
  rfl

/-! ## C79 -/

/-- **C79, partial.** The three phases: what is gathered in phase one is what is indexed in phase two, in phase three every
answer of the hash stores is that of the gathered list, and afterwards the chain and the hash stores say what the blocks
say: heights for hashes, numbers for addresses, hashes for heights.

Missing: the hash of a transaction whose hash has occurred before (`repeated_transaction_hash_is_zero`), and chains in
whose hashes the indexer can not tell two apart (C25). -/
theorem whole_run_indexed_partial {e : Env} {i : Iface} {node : Node} {chain : List BinBlock.Blk} {n : Nat}
    (hsha : ∀ x, (e.sha x).length = 32) (hdiff : ∀ x, -2 ^ 63 ≤ e.difficulty x ∧ e.difficulty x < 2 ^ 63)
    (hs : SortOK e.sort) (hv : Serving e node chain n) (hf : Fits e i (chain.take n)) {bloat1 bloat3 threads1 threads3 : Nat}
    (ht1 : 0 < threads1) (ht3 : 0 < threads3) {ps1 ps3 : List Block} (h1 : Delivers e node n bloat1 threads1 ps1)
    (h3 : Delivers e node n bloat3 threads3 ps3) (hfl : FloatOK fl) {pb pt pa : Params} (hpb : ParamsOK pb) (hpt : ParamsOK pt)
    (hpa : ParamsOK pa) (hib : Indexable pb ((chain.take n).map (blkHash e))) (hit : Indexable pt ((txsOf (chain.take n)).map (txHash e)))
    (hia : Indexable pa ((outsOf (chain.take n)).map fun o => e.sha o.script)) {h : ChainStore.Hashes}
    (hone : phase e i hashSink ps1 ⟨[], [], []⟩ = .ok h) {nb nt na : Bytes} {fb ft fa : Files}
    (hb : Indexed pb h.blk nb fb) (ht : Indexed pt h.trn nt ft) (ha : Indexed pa h.adr na fa) (inRam : Bool) :
    ∃ s Sb St Sa, phase e i (chainSink i) ps3 (ChainStore.create (-1) (-1) true h blkInts trnInts) = .ok s ∧ Faithful e (chain.take n) s ∧
      openStore pb nb fb inRam = some Sb ∧ openStore pt nt ft inRam = some St ∧ openStore pa na fa inRam = some Sa ∧
      Represents fl pb Sb h.blk ∧ Represents fl pt St h.trn ∧ Represents fl pa Sa h.adr ∧
      s.blkHashes = h.blk ∧ s.trnHashes = h.trn ∧ s.adrHashes = h.adr ∧
      (∀ (k : Nat) b, (chain.take n)[k]? = some b → indexOfHash fl pb Sb (blkHash e b) = some (.at k) ∧
        ∃ S', getHashAtIndex pb Sb k = some (S', some (blkHash e b))) ∧
      (∀ (g : Nat) t, (txsOf (chain.take n))[g]? = some t → (∀ j t', j < g → (txsOf (chain.take n))[j]? = some t' → txHash e t' ≠ txHash e t) →
        indexOfHash fl pt St (txHash e t) = some (.at g) ∧ ∃ S', getHashAtIndex pt St g = some (S', some (txHash e t))) ∧
      ∀ (o : Nat) x, (outsOf (chain.take n))[o]? = some x → ∃ a : Nat, ChainStore.addressOf s o = .ok (a : Int) ∧
        indexOfHash fl pa Sa (e.sha x.script) = some (.at a) ∧ ∃ S', getHashAtIndex pa Sa a = some (S', some (e.sha x.script)) := by
  have hsz : ∀ b ∈ chain.take n, b.enc.length < 2 ^ 31 := fun b hb => by have := hf.size b hb; omega
  have hwf : ∀ b ∈ chain.take n, b.WF := fun b hb => hv.wf b (List.mem_of_mem_take hb)
  obtain ⟨s, g1, g2⟩ := phases_store hsha hs hv hf
  have hfaith := written_faithful hdiff hs hwf hf g2
  obtain ⟨l1, l2, l3⟩ := stored_hashes hwf hf g2
  have e1 := delivered hv hsz ht1 h1
  have e3 := delivered hv hsz ht3 h3
  subst e1 e3
  unfold phases at g1
  rw [hone, ChainStore.bind_ok] at g1
  have hh := phase_one hsha hs hv hf
  rw [hone] at hh
  cases hh
  obtain ⟨Sb, b1, b2, _⟩ := phase_two hfl hpb hib hb inRam
  obtain ⟨St, t1, t2, _⟩ := phase_two hfl hpt hit ht inRam
  obtain ⟨Sa, a1, a2, _⟩ := phase_two hfl hpa hia ha inRam
  have at_first : ∀ {p : Params} {S : Store} {L : List Bytes}, Represents fl p S L → ∀ {k : Nat} {x : Bytes}, x.length = 32 → FirstAt L k x →
      indexOfHash fl p S x = some (.at k) ∧ ∃ S', getHashAtIndex p S k = some (S', some x) := by
    intro p S L hr k x hx hk
    refine ⟨?_, hr.get k x hk⟩
    obtain ⟨r, r1, r2⟩ := hr.index x hx
    rw [r1]
    rw [indexOf_first hk] at r2
    cases r with
    | «at» i => simp only [answer, Option.some.injEq, Int.natCast_inj] at r2; rw [r2]
    | absent => simp only [answer, Option.some.injEq] at r2; omega
    | err => simp [answer] at r2
  refine ⟨s, Sb, St, Sa, g1, hfaith, b1, t1, a1, b2, t2, a2, l1, l2, l3, ?_, ?_, ?_⟩
  · intro k b hk
    have hlen : (blkHash e b).length = 32 := hsha _
    apply at_first b2 hlen
    have hk' : ((chain.take n).map (blkHash e))[k]? = some (blkHash e b) := by rw [List.getElem?_map, hk]; rfl
    refine ⟨hk', ?_⟩
    intro j hj hj'
    have hjl := (List.getElem?_eq_some_iff.mp hj').1
    have hkl := (List.getElem?_eq_some_iff.mp hk').1
    rw [List.getElem?_eq_getElem hjl, Option.some.injEq] at hj'
    rw [List.getElem?_eq_getElem hkl, Option.some.injEq] at hk'
    have := (List.Nodup.getElem_inj_iff hf.hashes).mp (hj'.trans hk'.symm)
    omega
  · intro g t hg hfirst
    have hlen : (txHash e t).length = 32 := hsha _
    apply at_first t2 hlen
    refine ⟨by rw [List.getElem?_map, hg]; rfl, ?_⟩
    intro j hj hj'
    rw [List.getElem?_map] at hj'
    obtain ⟨t', h1, h2⟩ := Option.map_eq_some_iff.mp hj'
    exact hfirst j t' hj h1 h2
  · intro o x ho
    obtain ⟨a, _, c1, c2, _⟩ := hfaith.address o x ho
    unfold ChainStore.addressByHash at c2
    rw [l3] at c2
    obtain ⟨k, hk⟩ := Bulk3.exists_first (L := (outsOf (chain.take n)).map fun o => e.sha o.script) (h := e.sha x.script)
      (List.mem_map.mpr ⟨x, List.mem_of_getElem? ho, rfl⟩)
    rw [indexOf_first hk, if_neg (by omega)] at c2
    cases c2
    exact ⟨k, c1, at_first a2 (hsha _) hk⟩

/-- **C79 is violated for a repeated transaction hash** (there are two in the first hundred thousand blocks of the main
chain): the hash read for the later transaction is all zero. -/
theorem repeated_transaction_hash_is_zero {e : Env} {bs : List BinBlock.Blk} (hfl : FloatOK fl) (hp : ParamsOK p)
    (hI : Indexable p ((txsOf bs).map (txHash e))) {nums : Bytes} {files : Files} (h : Indexed p ((txsOf bs).map (txHash e)) nums files)
    (inRam : Bool) {g g' : Nat} {t t' : BinBlock.Tx} (hlt : g' < g) (ht : (txsOf bs)[g]? = some t) (ht' : (txsOf bs)[g']? = some t')
    (he : txHash e t' = txHash e t) : ∃ S, openStore p nums files inRam = some S ∧
      ∃ S', getHashAtIndex p S g = some (S', some (zeros 32)) := by
  obtain ⟨S, h1, _, h2⟩ := phase_two hfl hp hI h inRam
  exact ⟨S, h1, h2 g g' (txHash e t) (by rw [List.getElem?_map, ht]; rfl) (by rw [List.getElem?_map, ht', Option.map_some, he]) hlt⟩

/-! ## Examples -/

theorem indexable_of {L : List Bytes} (h1 : ∀ h ∈ L, h.length = 32) (h2 : L.length ≤ 1000)
    (h3 : ∀ h ∈ L, Bins.truncOf h ≠ zeros 24) (h4 : ∀ a ∈ L, ∀ b ∈ L, Bins.abbrOf a = Bins.abbrOf b → a = b)
    (h5 : ∀ a ∈ L, ∀ b ∈ L, Bins.truncOf a = Bins.truncOf b → a = b) : Indexable Bins.demoParams L :=
  ⟨⟨h1, Nat.le_trans h2 (by decide), Nat.le_trans h2 (by decide), fun h hh hz => h3 h (List.mem_of_getElem? hh) hz.1, h4⟩,
    fun a ha b hb _ => h5 a ha b hb⟩

theorem exBlkHashes : Indexable Bins.demoParams ((exChain.take 2).map (blkHash exEnv)) :=
  indexable_of (by decide +kernel) (by decide +kernel) (by decide +kernel) (by decide +kernel) (by decide +kernel)
theorem exTxHashes : Indexable Bins.demoParams ((txsOf (exChain.take 2)).map (txHash exEnv)) :=
  indexable_of (by decide +kernel) (by decide +kernel) (by decide +kernel) (by decide +kernel) (by decide +kernel)
theorem exAdrHashes : Indexable Bins.demoParams ((outsOf (exChain.take 2)).map fun o => exEnv.sha o.script) :=
  indexable_of (by decide +kernel) (by decide +kernel) (by decide +kernel) (by decide +kernel) (by decide +kernel)

theorem indexed_exists {L : List Bytes} (hI : Indexable Bins.demoParams L) : ∃ nums files, Indexed Bins.demoParams L nums files := by
  obtain ⟨d, hd⟩ := Bulk3.bulk_completes HashStore3.demo_paramsOK (estimate := 100) (bytesPerPass := 1000 * 1000) (threads := 3)
    (by decide) (sort := Bulk3.demoSort) hI.storable (by decide +kernel)
  exact ⟨_, _, Bulk3.demoSort, Bulk3.demoSort_ok, Or.inl ⟨_, _, _, d, by decide, hd, rfl, rfl⟩⟩

/-- Two blocks, three transactions, six outputs to three addresses. -/
example : ∃ ps1 ps3 h nb fb nt ft na fa, Delivers exEnv exNode 2 5 1 ps1 ∧ Delivers exEnv exNode 2 5 3 ps3 ∧
    phase exEnv .chi hashSink ps1 ⟨[], [], []⟩ = .ok h ∧ Indexed Bins.demoParams h.blk nb fb ∧
    Indexed Bins.demoParams h.trn nt ft ∧ Indexed Bins.demoParams h.adr na fa := by
  obtain ⟨ps1, h1⟩ := delivery_happens exServing 5 1
  obtain ⟨ps3, h3⟩ := delivery_happens exServing 5 3
  have e1 := delivered exServing (fun b hb => by have := (exFits .chi).size b hb; omega) (by decide) h1
  have hone := phase_one exSha_length BlockHolder.isort_ok exServing (exFits .chi)
  rw [← e1] at hone
  obtain ⟨nb, fb, hb⟩ := indexed_exists exBlkHashes
  obtain ⟨nt, ft, ht⟩ := indexed_exists exTxHashes
  obtain ⟨na, fa, ha⟩ := indexed_exists exAdrHashes
  exact ⟨ps1, ps3, _, nb, fb, nt, ft, na, fa, h1, h3, hone, hb, ht, ha⟩

/-- The same coinbase in two blocks. -/
def twice : List BinBlock.Blk := [exBlk0, exBlk0]

example : ∃ nums files S S', Indexed Bins.demoParams ((txsOf twice).map (txHash exEnv)) nums files ∧
    openStore Bins.demoParams nums files true = some S ∧ getHashAtIndex Bins.demoParams S 1 = some (S', some (zeros 32)) := by
  have hI : Indexable Bins.demoParams ((txsOf twice).map (txHash exEnv)) :=
    indexable_of (by decide +kernel) (by decide +kernel) (by decide +kernel) (by decide +kernel) (by decide +kernel)
  obtain ⟨n, f, h⟩ := indexed_exists hI
  obtain ⟨S, h1, S', h2⟩ := repeated_transaction_hash_is_zero Bins.floatOK_fl53 HashStore3.demo_paramsOK hI h true (g := 1) (g' := 0) (by decide)
    (t := exCoinbase 50) (t' := exCoinbase 50) rfl rfl rfl
  exact ⟨n, f, S, S', h, h1, h2⟩

end Verif.Run
