import Verif.Model.ChainFactory
import Verif.Props.WordFile
import Verif.Props.ReadOnlyWords
import Verif.Props.ChainStore

/-!
# C90: creating and opening a chain's folder
-/

namespace Verif.ChainFactory

open ROWords (Res Reader)
open WordFile (WF wordsOf)

/-! ## Specification -/

/-- The word files a chain consists of: folder, file, bytes of a word. -/
def essential : List (String × String × Nat) :=
  [("Blocks", "firsttrans.int", 4), ("Transactions", "firsttxi.int", 5), ("Transactions", "firsttxo.int", 5),
   ("TransactionInputs", "tx.int", 4), ("TransactionInputs", "vout.int", 4), ("TransactionOutputs", "value.int", 7),
   ("TransactionOutputs", "address.int", 5), ("TransactionOutputs", "spenttotxi.int", 5),
   ("Addresses", "firsttxo.int", 5), ("Parents", "parentblockoftrans.int", 4), ("Parents", "parenttransoftxi.int", 5),
   ("Parents", "parenttransoftxo.int", 5)]

/-- The non-essential ints of blocks: name, bytes of a word. -/
def blkNames : List (String × Nat) :=
  [("version", 4), ("time", 4), ("mediantime", 4), ("nonce", 4), ("difficulty", 8), ("strippedsize", 4), ("size", 4),
   ("weight", 4)]

/-- The non-essential ints of transactions. -/
def trnNames : List (String × Nat) :=
  [("version", 4), ("size", 4), ("vsize", 4), ("weight", 4), ("locktime", 4)]

/-- The folders of the hash stores. -/
def hashFolders : List String := ["Blocks/Hashes", "Transactions/Hashes", "Addresses/Hashes"]

/-- The file is there and holds a whole number of words. -/
def Whole (fs : FS) (folder name : String) (w : Nat) : Prop :=
  ∃ d, fs.file folder name = some d ∧ d.length % w = 0

/-- The hash store in the folder has its two files. -/
def HashReady (fs : FS) (folder : String) : Prop :=
  (fs.file folder "BinStarts.bes").isSome ∧
    ∀ p, fs.params folder = some p → Whole fs folder "BinNums.int" p.binNumBytes

/-- All the files a chain needs are there, in whole words. -/
def Complete (fs : FS) : Prop :=
  (∀ d ∈ hashFolders, HashReady fs d) ∧ ∀ e ∈ essential, Whole fs e.1 e.2.1 e.2.2

/-- The parameters are there, and a bin number has one to eight bytes. -/
def Params (fs : FS) : Prop :=
  ∀ d ∈ hashFolders, ∃ p, fs.params d = some p ∧ 0 < p.binNumBytes ∧ p.binNumBytes ≤ 8

/-- A writable word file that behaves as the words of the file on disk: every session of fitting writes, reads,
counts and syncs gives what it gives on the array of those words. -/
def Shows (fs : FS) (folder name : String) (w : Nat) (wf : WF) : Prop :=
  ∃ d, fs.file folder name = some d ∧ ∀ ops : List WordFile.Op, (∀ op ∈ ops, op.fits w) →
    (WordFile.run wf ops).2 = (WordFile.specRun (wordsOf w d) ops).2

/-- A reader that gives the words of the file on disk. -/
def ShowsRO (fs : FS) (folder name : String) (w : Nat) (r : Reader) : Prop :=
  ∃ d, fs.file folder name = some d ∧ (d.length < 2 ^ 63 →
    ROWords.countWords r = (wordsOf w d).length ∧
    ∀ (i : Nat) (v : Int), (wordsOf w d)[i]? = some v → (ROWords.readWordAt d r i).2 = .ok v)

/-- Every part of an open chain shows (in the sense of `S`) the file of its name. -/
structure AllShown {α : Type} (S : String → String → Nat → α → Prop) (fs : FS) (c : Chain α) : Prop where
  blkHashes : ∀ p, fs.params "Blocks/Hashes" = some p → S "Blocks/Hashes" "BinNums.int" p.binNumBytes c.parts.blkHashes
  trnHashes : ∀ p, fs.params "Transactions/Hashes" = some p →
    S "Transactions/Hashes" "BinNums.int" p.binNumBytes c.parts.trnHashes
  addrHashes : ∀ p, fs.params "Addresses/Hashes" = some p →
    S "Addresses/Hashes" "BinNums.int" p.binNumBytes c.parts.addrHashes
  blkFirstTrans : S "Blocks" "firsttrans.int" 4 c.parts.blkFirstTrans
  trnFirstTxi : S "Transactions" "firsttxi.int" 5 c.parts.trnFirstTxi
  trnFirstTxo : S "Transactions" "firsttxo.int" 5 c.parts.trnFirstTxo
  txiTx : S "TransactionInputs" "tx.int" 4 c.parts.txiTx
  txiVout : S "TransactionInputs" "vout.int" 4 c.parts.txiVout
  txoSats : S "TransactionOutputs" "value.int" 7 c.parts.txoSats
  txoAddress : S "TransactionOutputs" "address.int" 5 c.parts.txoAddress
  txoSpentTxi : S "TransactionOutputs" "spenttotxi.int" 5 c.parts.txoSpentTxi
  addrFirstTxo : S "Addresses" "firsttxo.int" 5 c.parts.addrFirstTxo
  parentBlockOfTrans : S "Parents" "parentblockoftrans.int" 4 c.parts.parentBlockOfTrans
  parentTransOfTxi : S "Parents" "parenttransoftxi.int" 5 c.parts.parentTransOfTxi
  parentTransOfTxo : S "Parents" "parenttransoftxo.int" 5 c.parts.parentTransOfTxo
  blkNei : ∀ n r, (n, r) ∈ c.blkNei → ∃ w, (n, w) ∈ blkNames ∧ S "Blocks" (n ++ ".int") w r
  trnNei : ∀ n r, (n, r) ∈ c.trnNei → ∃ w, (n, w) ∈ trnNames ∧ S "Transactions" (n ++ ".int") w r

/-- The name is among the non-essential ints. -/
def Has {α : Type} (l : List (String × α)) (n : String) : Prop := ∃ r, (n, r) ∈ l

/-- The files that creating a chain with these names makes. -/
def Made (bn tn : List String) (folder name : String) : Prop :=
  (∃ e ∈ essential, folder = e.1 ∧ name = e.2.1) ∨
    (folder = "Blocks" ∧ ∃ n ∈ bn, Has blkNames n ∧ name = n ++ ".int") ∨
    (folder = "Transactions" ∧ ∃ n ∈ tn, Has trnNames n ∧ name = n ++ ".int")

/-! ## Lemmas -/

theorem bind_eq_ok {α β : Type} {x : Res α} {f : α → Res β} {b : β} :
    (x >>= f) = .ok b ↔ ∃ a, x = .ok a ∧ f a = .ok b := by
  show Res.bind x f = .ok b ↔ _
  cases x <;> simp [Res.bind]

theorem pure_eq_ok {α : Type} {a b : α} : (pure a : Res α) = .ok b ↔ a = b := by
  show (Res.ok a : Res α) = .ok b ↔ _
  simp

/-- The factory with these parameters. -/
def theFactory (b t a : HashParams) (bn tn : List String) (r : Bool) : Factory :=
  { creators :=
      { blkHashes := ⟨"Blocks/Hashes", b⟩, trnHashes := ⟨"Transactions/Hashes", t⟩, addrHashes := ⟨"Addresses/Hashes", a⟩
        blkFirstTrans := ⟨"firsttrans", "Blocks", 4, r⟩
        trnFirstTxi := ⟨"firsttxi", "Transactions", 5, r⟩
        trnFirstTxo := ⟨"firsttxo", "Transactions", 5, r⟩
        txiTx := ⟨"tx", "TransactionInputs", 4, r⟩
        txiVout := ⟨"vout", "TransactionInputs", 4, r⟩
        txoSats := ⟨"value", "TransactionOutputs", 7, r⟩
        txoAddress := ⟨"address", "TransactionOutputs", 5, r⟩
        txoSpentTxi := ⟨"spenttotxi", "TransactionOutputs", 5, r⟩
        addrFirstTxo := ⟨"firsttxo", "Addresses", 5, r⟩
        parentBlockOfTrans := ⟨"parentblockoftrans", "Parents", 4, r⟩
        parentTransOfTxi := ⟨"parenttransoftxi", "Parents", 5, r⟩
        parentTransOfTxo := ⟨"parenttransoftxo", "Parents", 5, r⟩ }
    requestedBlk := bn
    requestedTrn := tn
    inRam := r }

theorem hashCreator_ok {fs : FS} {d : String} {h : HashCreator} :
    hashCreator fs d = .ok h ↔ ∃ p, fs.params d = some p ∧ p.binNumBytes ≠ 0 ∧ h = ⟨d, p⟩ := by
  unfold hashCreator
  cases fs.params d with
  | none => simp
  | some p =>
    by_cases h0 : p.binNumBytes = 0
    · simp [h0]
    · simp [h0, eq_comm]

theorem newFactory_ok {fs : FS} {bn tn : List String} {r : Bool} {f : Factory} :
    newFactory fs bn tn r = .ok f ↔ ∃ b t a, fs.params "Blocks/Hashes" = some b ∧ b.binNumBytes ≠ 0 ∧
      fs.params "Transactions/Hashes" = some t ∧ t.binNumBytes ≠ 0 ∧
      fs.params "Addresses/Hashes" = some a ∧ a.binNumBytes ≠ 0 ∧ f = theFactory b t a bn tn r := by
  unfold newFactory
  simp only [bind_eq_ok, pure_eq_ok, hashCreator_ok]
  constructor
  · rintro ⟨_, ⟨b, hb, hb0, rfl⟩, _, ⟨t, ht, ht0, rfl⟩, _, ⟨a, ha, ha0, rfl⟩, rfl⟩
    exact ⟨b, t, a, hb, hb0, ht, ht0, ha, ha0, rfl⟩
  · rintro ⟨b, t, a, hb, hb0, ht, ht0, ha, ha0, rfl⟩
    exact ⟨_, ⟨b, hb, hb0, rfl⟩, _, ⟨t, ht, ht0, rfl⟩, _, ⟨a, ha, ha0, rfl⟩, rfl⟩

theorem openRW_iff (c : WordCreator) (hw : c.wordSize ≤ 8) (hr : c.inRam = false) (fs : FS) :
    (∃ r, c.open_ fs = .ok r) ↔ Whole fs c.folder (c.name ++ ".int") c.wordSize := by
  unfold WordCreator.open_ Whole
  rw [hr]
  simp only [Bool.false_eq_true, if_false]
  cases fs.file c.folder (c.name ++ ".int") with
  | none => simp
  | some d =>
    simp only [WordFile.openWordFile, WordFile.fileWordCount]
    by_cases h : d.length % c.wordSize = 0
    · simp [h, show ¬ 8 < c.wordSize by omega]
    · simp [h]

theorem openRW_shows {c : WordCreator} (hw : 0 < c.wordSize ∧ c.wordSize ≤ 8) {fs : FS} {r : WF}
    (h : c.open_ fs = .ok r) : Shows fs c.folder (c.name ++ ".int") c.wordSize r := by
  unfold WordCreator.open_ at h
  split at h
  · cases h
  · split at h
    · cases h
    · rename_i d hd
      split at h
      · cases h
      · rename_i x hx
        rw [if_neg (by omega)] at h
        cases h
        exact ⟨d, hd, fun ops ho => WordFile.wordfile_is_array hw d _ hx ops ho⟩

theorem openRO_iff (c : WordCreator) (hw : 0 < c.wordSize ∧ c.wordSize ≤ 8) (fs : FS) :
    (∃ r, c.openReadOnly fs = .ok r) ↔ Whole fs c.folder (c.name ++ ".int") c.wordSize ∧
      (c.inRam = true → fs.file c.folder (c.name ++ ".int") ≠ some []) := by
  unfold WordCreator.openReadOnly Whole ROWords.openReadOnly
  rw [if_neg (show ¬ c.wordSize = 0 by omega)]
  cases fs.file c.folder (c.name ++ ".int") with
  | none => simp
  | some d =>
    simp only [WordFile.fileWordCount]
    by_cases h : d.length % c.wordSize = 0
    · cases c.inRam with
      | false => simp [h, show ¬ 8 < c.wordSize by omega]
      | true =>
        by_cases hd : d = []
        · simp [hd]
        · simp [h, hd, show ¬ 8 < c.wordSize by omega]
    · simp [h]

theorem openRO_shows {c : WordCreator} (hw : 0 < c.wordSize ∧ c.wordSize ≤ 8) {fs : FS} {r : Reader}
    (h : c.openReadOnly fs = .ok r) : ShowsRO fs c.folder (c.name ++ ".int") c.wordSize r := by
  obtain ⟨⟨d, hd, hm⟩, hn⟩ := (openRO_iff c hw fs).mp ⟨r, h⟩
  refine ⟨d, hd, fun hl => ?_⟩
  have ho : ROWords.Openable (if c.inRam then .mapped else .plain) c.wordSize d := by
    refine ⟨hm, fun hk hd0 => ?_⟩
    cases hr : c.inRam with
    | false => rw [hr] at hk; cases hk
    | true => exact hn hr (by rw [hd, hd0])
  obtain ⟨r', h1, h2⟩ := ROWords.readers_keep_the_words hw d hl ho
  unfold WordCreator.openReadOnly at h
  rw [hd, h1] at h
  cases h
  exact h2 [] trivial

theorem hashOpen_iff (d : String) (p : HashParams) (hw : p.binNumBytes ≤ 8) (fs : FS) :
    (∃ r, (HashCreator.mk d p).open_ fs = .ok r) ↔
      (fs.file d "BinStarts.bes").isSome ∧ Whole fs d "BinNums.int" p.binNumBytes := by
  unfold HashCreator.open_
  cases hb : fs.file (HashCreator.mk d p).folder "BinStarts.bes" with
  | none =>
    simp
  | some x =>
    have := openRW_iff (HashCreator.mk d p).binNums hw rfl fs
    simp only [Option.isSome_some, true_and]
    exact this

theorem hashOpenRO_iff (d : String) (p : HashParams) (hw : 0 < p.binNumBytes ∧ p.binNumBytes ≤ 8) (fs : FS) :
    (∃ r, (HashCreator.mk d p).openReadOnly fs = .ok r) ↔
      (fs.file d "BinStarts.bes").isSome ∧ Whole fs d "BinNums.int" p.binNumBytes := by
  unfold HashCreator.openReadOnly
  cases hb : fs.file (HashCreator.mk d p).folder "BinStarts.bes" with
  | none =>
    simp
  | some x =>
    have := openRO_iff (HashCreator.mk d p).binNums hw fs
    simp only [Option.isSome_some, true_and]
    rw [this]
    exact and_iff_left (fun h => by cases h)

theorem hashOpen_shows {d : String} {p : HashParams} (hw : 0 < p.binNumBytes ∧ p.binNumBytes ≤ 8) {fs : FS} {r : WF}
    (h : (HashCreator.mk d p).open_ fs = .ok r) : Shows fs d "BinNums.int" p.binNumBytes r := by
  unfold HashCreator.open_ at h
  split at h
  · cases h
  · exact openRW_shows (c := (HashCreator.mk d p).binNums) hw h

theorem hashOpenRO_shows {d : String} {p : HashParams} (hw : 0 < p.binNumBytes ∧ p.binNumBytes ≤ 8) {fs : FS}
    {r : Reader} (h : (HashCreator.mk d p).openReadOnly fs = .ok r) : ShowsRO fs d "BinNums.int" p.binNumBytes r := by
  unfold HashCreator.openReadOnly at h
  split at h
  · cases h
  · exact openRO_shows (c := (HashCreator.mk d p).binNums) hw h

/-- What opening the parts gives. -/
theorem openParts_ok {α : Type} {hop : HashCreator → Res α} {op : WordCreator → Res α} {f : Factory} {c : Chain α} :
    openParts hop op f = .ok c ↔
      (hop f.creators.blkHashes = .ok c.parts.blkHashes ∧ hop f.creators.trnHashes = .ok c.parts.trnHashes ∧
        hop f.creators.addrHashes = .ok c.parts.addrHashes) ∧
      (op f.creators.blkFirstTrans = .ok c.parts.blkFirstTrans ∧ op f.creators.trnFirstTxi = .ok c.parts.trnFirstTxi ∧
        op f.creators.trnFirstTxo = .ok c.parts.trnFirstTxo ∧ op f.creators.txiTx = .ok c.parts.txiTx ∧
        op f.creators.txiVout = .ok c.parts.txiVout ∧ op f.creators.txoSats = .ok c.parts.txoSats ∧
        op f.creators.txoAddress = .ok c.parts.txoAddress ∧ op f.creators.txoSpentTxi = .ok c.parts.txoSpentTxi ∧
        op f.creators.addrFirstTxo = .ok c.parts.addrFirstTxo ∧
        op f.creators.parentBlockOfTrans = .ok c.parts.parentBlockOfTrans ∧
        op f.creators.parentTransOfTxi = .ok c.parts.parentTransOfTxi ∧
        op f.creators.parentTransOfTxo = .ok c.parts.parentTransOfTxo) ∧
      c.blkNei = neis op "Blocks" f.inRam supportedBlk ∧ c.trnNei = neis op "Transactions" f.inRam supportedTrn := by
  unfold openParts
  simp only [bind_eq_ok, pure_eq_ok]
  constructor
  · rintro ⟨_, h1, _, h2, _, h3, _, h4, _, h5, _, h6, _, h7, _, h8, _, h9, _, h10, _, h11, _, h12, _, h13, _, h14, _, h15, rfl⟩
    exact ⟨⟨h1, h2, h3⟩, ⟨h4, h5, h6, h7, h8, h9, h10, h11, h12, h13, h14, h15⟩, rfl, rfl⟩
  · rintro ⟨⟨h1, h2, h3⟩, ⟨h4, h5, h6, h7, h8, h9, h10, h11, h12, h13, h14, h15⟩, h16, h17⟩
    refine ⟨_, h1, _, h2, _, h3, _, h4, _, h5, _, h6, _, h7, _, h8, _, h9, _, h10, _, h11, _, h12, _, h13, _, h14, _, h15, ?_⟩
    rw [← h16, ← h17]

theorem neis_mem {α : Type} {op : WordCreator → Res α} {folder : String} {r : Bool} {l : List (String × Nat)}
    {n : String} {x : α} : (n, x) ∈ neis op folder r l ↔ ∃ w, (n, w) ∈ l ∧ op ⟨n, folder, w, r⟩ = .ok x := by
  unfold neis
  rw [List.mem_filterMap]
  constructor
  · rintro ⟨⟨m, w⟩, hm, h⟩
    dsimp only at h
    split at h
    · rename_i y hy
      cases h
      exact ⟨w, hm, hy⟩
    · cases h
  · rintro ⟨w, hm, h⟩
    exact ⟨(n, w), hm, by dsimp only; rw [h]⟩

theorem blkSizes {n : String} {w : Nat} (h : (n, w) ∈ supportedBlk) : 0 < w ∧ w ≤ 8 := by
  simp only [supportedBlk, List.mem_cons, Prod.mk.injEq, List.not_mem_nil, or_false] at h
  omega

theorem trnSizes {n : String} {w : Nat} (h : (n, w) ∈ supportedTrn) : 0 < w ∧ w ≤ 8 := by
  simp only [supportedTrn, List.mem_cons, Prod.mk.injEq, List.not_mem_nil, or_false] at h
  omega

theorem Params.get {fs : FS} (h : Params fs) {d : String} (hd : d ∈ hashFolders) {p : HashParams}
    (hp : fs.params d = some p) : 0 < p.binNumBytes ∧ p.binNumBytes ≤ 8 := by
  obtain ⟨q, hq, h1⟩ := h d hd
  rw [hp] at hq
  cases hq
  exact h1

/-- The word files of a chain satisfying `W`, and its hash stores `WH`. -/
def CompleteAs (W : String → String → Nat → Prop) (WH : String → HashParams → Prop) (fs : FS) : Prop :=
  (∀ d ∈ hashFolders, ∀ p, fs.params d = some p → WH d p) ∧ ∀ e ∈ essential, W e.1 e.2.1 e.2.2

theorem openParts_shows {α : Type} {hop : HashCreator → Res α} {op : WordCreator → Res α} {fs : FS} {r : Bool}
    {W : String → String → Nat → Prop} {WH : String → HashParams → Prop} {S : String → String → Nat → α → Prop}
    (hp : Params fs) {bn tn : List String} {f : Factory} (hf : newFactory fs bn tn r = .ok f)
    (iw : ∀ n d w, 0 < w ∧ w ≤ 8 → ((∃ x, op ⟨n, d, w, r⟩ = .ok x) ↔ W d (n ++ ".int") w))
    (ih : ∀ d p, 0 < p.binNumBytes ∧ p.binNumBytes ≤ 8 → ((∃ x, hop ⟨d, p⟩ = .ok x) ↔ WH d p))
    (sw : ∀ n d w x, 0 < w ∧ w ≤ 8 → op ⟨n, d, w, r⟩ = .ok x → S d (n ++ ".int") w x)
    (sh : ∀ d p x, 0 < p.binNumBytes ∧ p.binNumBytes ≤ 8 → hop ⟨d, p⟩ = .ok x → S d "BinNums.int" p.binNumBytes x) :
    ((∃ c, openParts hop op f = .ok c) ↔ CompleteAs W WH fs) ∧
    ∀ c, openParts hop op f = .ok c → AllShown S fs c ∧
      (∀ n, Has c.blkNei n ↔ ∃ w, (n, w) ∈ blkNames ∧ W "Blocks" (n ++ ".int") w) ∧
      ∀ n, Has c.trnNei n ↔ ∃ w, (n, w) ∈ trnNames ∧ W "Transactions" (n ++ ".int") w := by
  obtain ⟨b, t, a, hb, _, ht, _, ha, _, rfl⟩ := newFactory_ok.mp hf
  have sb := hp.get (by simp [hashFolders]) hb
  have st := hp.get (by simp [hashFolders]) ht
  have sa := hp.get (by simp [hashFolders]) ha
  have z4 : 0 < 4 ∧ 4 ≤ 8 := by decide
  have z5 : 0 < 5 ∧ 5 ≤ 8 := by decide
  have z7 : 0 < 7 ∧ 7 ≤ 8 := by decide
  constructor
  · constructor
    · rintro ⟨c, hc⟩
      obtain ⟨⟨h1, h2, h3⟩, ⟨h4, h5, h6, h7, h8, h9, h10, h11, h12, h13, h14, h15⟩, _⟩ := openParts_ok.mp hc
      refine ⟨?_, ?_⟩
      · simp only [hashFolders, List.mem_cons, List.not_mem_nil, or_false, forall_eq_or_imp, forall_eq]
        exact ⟨fun p e => by rw [hb] at e; cases e; exact (ih _ _ sb).mp ⟨_, h1⟩,
          fun p e => by rw [ht] at e; cases e; exact (ih _ _ st).mp ⟨_, h2⟩,
          fun p e => by rw [ha] at e; cases e; exact (ih _ _ sa).mp ⟨_, h3⟩⟩
      · simp only [essential, List.mem_cons, List.not_mem_nil, or_false, forall_eq_or_imp, forall_eq]
        exact ⟨(iw "firsttrans" "Blocks" 4 z4).mp ⟨_, h4⟩, (iw "firsttxi" "Transactions" 5 z5).mp ⟨_, h5⟩,
          (iw "firsttxo" "Transactions" 5 z5).mp ⟨_, h6⟩, (iw "tx" "TransactionInputs" 4 z4).mp ⟨_, h7⟩,
          (iw "vout" "TransactionInputs" 4 z4).mp ⟨_, h8⟩, (iw "value" "TransactionOutputs" 7 z7).mp ⟨_, h9⟩,
          (iw "address" "TransactionOutputs" 5 z5).mp ⟨_, h10⟩, (iw "spenttotxi" "TransactionOutputs" 5 z5).mp ⟨_, h11⟩,
          (iw "firsttxo" "Addresses" 5 z5).mp ⟨_, h12⟩, (iw "parentblockoftrans" "Parents" 4 z4).mp ⟨_, h13⟩,
          (iw "parenttransoftxi" "Parents" 5 z5).mp ⟨_, h14⟩, (iw "parenttransoftxo" "Parents" 5 z5).mp ⟨_, h15⟩⟩
    · rintro ⟨hh, he⟩
      simp only [hashFolders, List.mem_cons, List.not_mem_nil, or_false, forall_eq_or_imp, forall_eq] at hh
      simp only [essential, List.mem_cons, List.not_mem_nil, or_false, forall_eq_or_imp, forall_eq] at he
      obtain ⟨q1, q2, q3⟩ := hh
      obtain ⟨e4, e5, e6, e7, e8, e9, e10, e11, e12, e13, e14, e15⟩ := he
      obtain ⟨x1, h1⟩ := (ih _ _ sb).mpr (q1 _ hb)
      obtain ⟨x2, h2⟩ := (ih _ _ st).mpr (q2 _ ht)
      obtain ⟨x3, h3⟩ := (ih _ _ sa).mpr (q3 _ ha)
      obtain ⟨x4, h4⟩ := (iw "firsttrans" "Blocks" 4 z4).mpr e4
      obtain ⟨x5, h5⟩ := (iw "firsttxi" "Transactions" 5 z5).mpr e5
      obtain ⟨x6, h6⟩ := (iw "firsttxo" "Transactions" 5 z5).mpr e6
      obtain ⟨x7, h7⟩ := (iw "tx" "TransactionInputs" 4 z4).mpr e7
      obtain ⟨x8, h8⟩ := (iw "vout" "TransactionInputs" 4 z4).mpr e8
      obtain ⟨x9, h9⟩ := (iw "value" "TransactionOutputs" 7 z7).mpr e9
      obtain ⟨x10, h10⟩ := (iw "address" "TransactionOutputs" 5 z5).mpr e10
      obtain ⟨x11, h11⟩ := (iw "spenttotxi" "TransactionOutputs" 5 z5).mpr e11
      obtain ⟨x12, h12⟩ := (iw "firsttxo" "Addresses" 5 z5).mpr e12
      obtain ⟨x13, h13⟩ := (iw "parentblockoftrans" "Parents" 4 z4).mpr e13
      obtain ⟨x14, h14⟩ := (iw "parenttransoftxi" "Parents" 5 z5).mpr e14
      obtain ⟨x15, h15⟩ := (iw "parenttransoftxo" "Parents" 5 z5).mpr e15
      exact ⟨⟨⟨x1, x2, x3, x4, x5, x6, x7, x8, x9, x10, x11, x12, x13, x14, x15⟩, _, _⟩,
        openParts_ok.mpr ⟨⟨h1, h2, h3⟩, ⟨h4, h5, h6, h7, h8, h9, h10, h11, h12, h13, h14, h15⟩, rfl, rfl⟩⟩
  · intro c hc
    obtain ⟨⟨h1, h2, h3⟩, ⟨h4, h5, h6, h7, h8, h9, h10, h11, h12, h13, h14, h15⟩, hn1, hn2⟩ := openParts_ok.mp hc
    refine ⟨⟨fun p e => ?_, fun p e => ?_, fun p e => ?_, sw _ _ _ _ z4 h4, sw _ _ _ _ z5 h5, sw _ _ _ _ z5 h6,
      sw _ _ _ _ z4 h7, sw _ _ _ _ z4 h8, sw _ _ _ _ z7 h9, sw _ _ _ _ z5 h10, sw _ _ _ _ z5 h11, sw _ _ _ _ z5 h12,
      sw _ _ _ _ z4 h13, sw _ _ _ _ z5 h14, sw _ _ _ _ z5 h15, ?_, ?_⟩, ?_, ?_⟩
    · rw [hb] at e; cases e; exact sh _ _ _ sb h1
    · rw [ht] at e; cases e; exact sh _ _ _ st h2
    · rw [ha] at e; cases e; exact sh _ _ _ sa h3
    · intro n y h
      rw [hn1, neis_mem] at h
      obtain ⟨w, hm, ho⟩ := h
      exact ⟨w, hm, sw _ _ _ _ (blkSizes hm) ho⟩
    · intro n y h
      rw [hn2, neis_mem] at h
      obtain ⟨w, hm, ho⟩ := h
      exact ⟨w, hm, sw _ _ _ _ (trnSizes hm) ho⟩
    · intro n
      simp only [Has, hn1, neis_mem]
      constructor
      · rintro ⟨x, w, hm, ho⟩
        exact ⟨w, hm, (iw _ _ _ (blkSizes hm)).mp ⟨x, ho⟩⟩
      · rintro ⟨w, hm, ho⟩
        obtain ⟨x, hx⟩ := (iw _ _ _ (blkSizes hm)).mpr ho
        exact ⟨x, w, hm, hx⟩
    · intro n
      simp only [Has, hn2, neis_mem]
      constructor
      · rintro ⟨x, w, hm, ho⟩
        exact ⟨w, hm, (iw _ _ _ (trnSizes hm)).mp ⟨x, ho⟩⟩
      · rintro ⟨w, hm, ho⟩
        obtain ⟨x, hx⟩ := (iw _ _ _ (trnSizes hm)).mpr ho
        exact ⟨x, w, hm, hx⟩

theorem completeAs_iff {fs : FS} (hp : Params fs) (W : String → String → Nat → Prop) :
    CompleteAs W (fun d p => (fs.file d "BinStarts.bes").isSome ∧ Whole fs d "BinNums.int" p.binNumBytes) fs ↔
      (∀ d ∈ hashFolders, HashReady fs d) ∧ ∀ e ∈ essential, W e.1 e.2.1 e.2.2 := by
  refine and_congr_left fun _ => forall_congr' fun d => forall_congr' fun hd => ?_
  obtain ⟨p, e, _⟩ := hp d hd
  constructor
  · intro h
    exact ⟨(h p e).1, fun q eq => (h q eq).2⟩
  · intro h q eq
    exact ⟨h.1, h.2 q eq⟩

/-- Creating word files one after the other. -/
def created (fs : FS) (l : List WordCreator) : FS := l.foldl (fun fs c => c.create fs) fs

theorem created_append (fs : FS) (l m : List WordCreator) : created fs (l ++ m) = created (created fs l) m := by
  simp [created]

theorem created_file (l : List WordCreator) (fs : FS) (d n : String) :
    ((∃ c ∈ l, d = c.folder ∧ n = c.name ++ ".int") → (created fs l).file d n = some []) ∧
    ((¬ ∃ c ∈ l, d = c.folder ∧ n = c.name ++ ".int") → (created fs l).file d n = fs.file d n) := by
  induction l generalizing fs with
  | nil => simp [created]
  | cons c l ih =>
    have h := ih (c.create fs)
    have he : created fs (c :: l) = created (c.create fs) l := rfl
    rw [he]
    by_cases hl : ∃ c ∈ l, d = c.folder ∧ n = c.name ++ ".int"
    · refine ⟨fun _ => h.1 hl, fun hn => absurd ?_ hn⟩
      obtain ⟨x, hx, hy⟩ := hl
      exact ⟨x, List.mem_cons_of_mem _ hx, hy⟩
    · rw [h.2 hl]
      by_cases hc : d = c.folder ∧ n = c.name ++ ".int"
      · refine ⟨fun _ => ?_, fun hn => absurd ⟨c, by simp, hc⟩ hn⟩
        unfold WordCreator.create FS.put
        dsimp only
        rw [if_pos hc]
      · constructor
        · rintro ⟨x, hx, hy⟩
          rcases List.mem_cons.mp hx with rfl | hx
          · exact absurd hy hc
          · exact absurd ⟨x, hx, hy⟩ hl
        · intro _
          unfold WordCreator.create FS.put
          dsimp only
          rw [if_neg hc]

theorem created_params (l : List WordCreator) (fs : FS) : (created fs l).params = fs.params := by
  induction l generalizing fs with
  | nil => rfl
  | cons c l ih => exact ih (c.create fs)

theorem created_arrays (l : List WordCreator) (fs : FS) : (created fs l).arrays = fs.arrays := by
  induction l generalizing fs with
  | nil => rfl
  | cons c l ih => exact ih (c.create fs)

/-- The creators of the requested non-essential ints. -/
def neiCreators (folder : String) (requested : List String) (supported : List (String × Nat)) : List WordCreator :=
  (supported.filter fun s => requested.contains s.1).map fun s => ⟨s.1, folder, s.2, false⟩

theorem createNeis_eq (folder : String) (requested : List String) (supported : List (String × Nat)) (fs : FS) :
    createNeis folder requested supported fs = created fs (neiCreators folder requested supported) := by
  unfold createNeis neiCreators created
  induction supported generalizing fs with
  | nil => rfl
  | cons s l ih =>
    rw [List.foldl_cons, ih]
    by_cases h : requested.contains s.1 = true
    · rw [if_pos h, List.filter_cons_of_pos (p := fun s : String × Nat => requested.contains s.1) h, List.map_cons, List.foldl_cons]
    · rw [if_neg h, List.filter_cons_of_neg (p := fun s : String × Nat => requested.contains s.1) h]

/-- The creators of the twelve word files. -/
def wordCreators : List WordCreator :=
  [⟨"firsttrans", "Blocks", 4, false⟩, ⟨"firsttxi", "Transactions", 5, false⟩, ⟨"firsttxo", "Transactions", 5, false⟩,
   ⟨"tx", "TransactionInputs", 4, false⟩, ⟨"vout", "TransactionInputs", 4, false⟩,
   ⟨"value", "TransactionOutputs", 7, false⟩, ⟨"address", "TransactionOutputs", 5, false⟩,
   ⟨"spenttotxi", "TransactionOutputs", 5, false⟩, ⟨"firsttxo", "Addresses", 5, false⟩,
   ⟨"parentblockoftrans", "Parents", 4, false⟩, ⟨"parenttransoftxi", "Parents", 5, false⟩,
   ⟨"parenttransoftxo", "Parents", 5, false⟩]

theorem cfhs_eq (b t a : HashParams) (bn tn : List String) (fs : FS) (hx : fs.file "Blocks" "firsttrans.int" = none) :
    (theFactory b t a bn tn false).createFromHashStores fs =
      (let fs1 := created { created fs wordCreators with arrays := some [] } (neiCreators "Blocks" bn supportedBlk)
       if !allSupported bn supportedBlk then (fs1, false)
       else (created fs1 (neiCreators "Transactions" tn supportedTrn), allSupported tn supportedTrn)) := by
  unfold Factory.createFromHashStores
  rw [if_neg (by simp [theFactory]), if_neg]
  · dsimp only
    rw [createNeis_eq, createNeis_eq]
    show (if (!allSupported bn supportedBlk) = true then _ else _) = _
    split
    · rfl
    · show (if (!allSupported tn supportedTrn) = true then _ else _) = _
      cases h : allSupported tn supportedTrn <;> rfl
  · have : ((theFactory b t a bn tn false).creators.blkFirstTrans.exists_ fs) = (fs.file "Blocks" "firsttrans.int").isSome := rfl
    rw [this, hx]
    simp

theorem mem_wordCreators (d n : String) :
    (∃ c ∈ wordCreators, d = c.folder ∧ n = c.name ++ ".int") ↔ ∃ e ∈ essential, d = e.1 ∧ n = e.2.1 := by
  simp only [wordCreators, essential, List.mem_cons, List.not_mem_nil, or_false, exists_eq_or_imp, exists_eq_left]
  exact Iff.rfl

theorem mem_neiCreators (folder : String) (requested : List String) (supported : List (String × Nat)) (d n : String) :
    (∃ c ∈ neiCreators folder requested supported, d = c.folder ∧ n = c.name ++ ".int") ↔
      d = folder ∧ ∃ x ∈ requested, Has supported x ∧ n = x ++ ".int" := by
  unfold neiCreators Has
  constructor
  · rintro ⟨c, hc, hd, hn⟩
    obtain ⟨s, hs, rfl⟩ := List.mem_map.mp hc
    obtain ⟨h1, h2⟩ := List.mem_filter.mp hs
    exact ⟨hd, s.1, by simpa using h2, ⟨s.2, h1⟩, hn⟩
  · rintro ⟨hd, x, hx, ⟨w, hw⟩, hn⟩
    exact ⟨⟨x, folder, w, false⟩, List.mem_map.mpr ⟨(x, w), List.mem_filter.mpr ⟨hw, by simpa using hx⟩, rfl⟩, hd, hn⟩

theorem allSupported_iff (requested : List String) (supported : List (String × Nat)) :
    allSupported requested supported = true ↔ ∀ n ∈ requested, Has supported n := by
  unfold allSupported Has
  simp

/-- What creation from hash stores leaves: if a name of a block is unsupported, the transaction names count for
nothing. -/
theorem cfhs_files (b t a : HashParams) (bn tn : List String) (fs : FS)
    (hx : fs.file "Blocks" "firsttrans.int" = none) :
    ∃ tn' fs', (theFactory b t a bn tn false).createFromHashStores fs =
        (fs', allSupported bn supportedBlk && allSupported tn supportedTrn) ∧
      ((∀ n ∈ bn, Has blkNames n) → tn' = tn) ∧ fs'.params = fs.params ∧ fs'.arrays = some [] ∧
      ∀ d n, (Made bn tn' d n → fs'.file d n = some []) ∧ (¬ Made bn tn' d n → fs'.file d n = fs.file d n) := by
  rw [cfhs_eq b t a bn tn fs hx]
  have hm : ∀ tn' d n, Made bn tn' d n ↔ (∃ c ∈ wordCreators, d = c.folder ∧ n = c.name ++ ".int") ∨
      (∃ c ∈ neiCreators "Blocks" bn supportedBlk, d = c.folder ∧ n = c.name ++ ".int") ∨
      (∃ c ∈ neiCreators "Transactions" tn' supportedTrn, d = c.folder ∧ n = c.name ++ ".int") := by
    intro tn' d n
    rw [mem_wordCreators, mem_neiCreators, mem_neiCreators]
    exact Iff.rfl
  have key : ∀ tn', ∀ d n,
      (Made bn tn' d n → (created (created { created fs wordCreators with arrays := some [] }
        (neiCreators "Blocks" bn supportedBlk)) (neiCreators "Transactions" tn' supportedTrn)).file d n = some []) ∧
      (¬ Made bn tn' d n → (created (created { created fs wordCreators with arrays := some [] }
        (neiCreators "Blocks" bn supportedBlk)) (neiCreators "Transactions" tn' supportedTrn)).file d n = fs.file d n) := by
    intro tn' d n
    rw [hm]
    have k1 := created_file wordCreators fs d n
    have k2 := created_file (neiCreators "Blocks" bn supportedBlk) { created fs wordCreators with arrays := some [] } d n
    have k3 := created_file (neiCreators "Transactions" tn' supportedTrn) (created { created fs wordCreators with arrays := some [] } (neiCreators "Blocks" bn supportedBlk)) d n
    dsimp only at k2
    by_cases h3 : ∃ c ∈ neiCreators "Transactions" tn' supportedTrn, d = c.folder ∧ n = c.name ++ ".int"
    · exact ⟨fun _ => k3.1 h3, fun h => absurd (Or.inr (Or.inr h3)) h⟩
    · rw [k3.2 h3]
      by_cases h2 : ∃ c ∈ neiCreators "Blocks" bn supportedBlk, d = c.folder ∧ n = c.name ++ ".int"
      · exact ⟨fun _ => k2.1 h2, fun h => absurd (Or.inr (Or.inl h2)) h⟩
      · rw [k2.2 h2]
        by_cases h1 : ∃ c ∈ wordCreators, d = c.folder ∧ n = c.name ++ ".int"
        · exact ⟨fun _ => k1.1 h1, fun h => absurd (Or.inl h1) h⟩
        · rw [k1.2 h1]
          exact ⟨fun h => by rcases h with h | h | h <;> contradiction, fun _ => rfl⟩
  dsimp only
  cases hs : allSupported bn supportedBlk with
  | false =>
    refine ⟨[], _, rfl, fun h => ?_, ?_, ?_, key []⟩
    · rw [(allSupported_iff bn supportedBlk).mpr h] at hs; cases hs
    · simp only [created_params]
    · simp only [created_arrays]
  | true =>
    refine ⟨tn, _, rfl, fun _ => rfl, ?_, ?_, key tn⟩
    · simp only [created_params]
    · simp only [created_arrays]

theorem made_folder {bn tn : List String} {d n : String} (h : Made bn tn d n) : d ∉ hashFolders := by
  rcases h with ⟨e, he, rfl, _⟩ | ⟨rfl, _⟩ | ⟨rfl, _⟩
  · exact (by decide : ∀ e ∈ essential, e.1 ∉ hashFolders) e he
  · decide
  · decide

theorem complete_of_made {bn tn : List String} {fs fs' : FS} (hp : fs'.params = fs.params)
    (hh : ∀ d ∈ hashFolders, HashReady fs d)
    (h : ∀ d n, (Made bn tn d n → fs'.file d n = some []) ∧ (¬ Made bn tn d n → fs'.file d n = fs.file d n)) :
    Complete fs' := by
  refine ⟨fun d hd => ?_, fun e he => ⟨[], (h _ _).1 (Or.inl ⟨e, he, rfl, rfl⟩), by simp⟩⟩
  have hf : ∀ n, fs'.file d n = fs.file d n := fun n => (h d n).2 fun hm => made_folder hm hd
  have := hh d hd
  unfold HashReady Whole at this ⊢
  simp only [hf, hp]
  exact this

/-! ## C90 -/

/-- A factory can be made exactly where the three parameter files are. -/
theorem factory_needs_the_parameters (fs : FS) (bn tn : List String) (r : Bool)
    (hz : ∀ d p, fs.params d = some p → 0 < p.binNumBytes) :
    (∃ f, newFactory fs bn tn r = .ok f) ↔ ∀ d ∈ hashFolders, (fs.params d).isSome := by
  simp only [newFactory_ok, hashFolders, List.mem_cons, List.not_mem_nil, or_false, forall_eq_or_imp, forall_eq,
    Option.isSome_iff_exists]
  constructor
  · rintro ⟨_, b, t, a, hb, _, ht, _, ha, _⟩
    exact ⟨⟨b, hb⟩, ⟨t, ht⟩, ⟨a, ha⟩⟩
  · rintro ⟨⟨b, hb⟩, ⟨t, ht⟩, ⟨a, ha⟩⟩
    exact ⟨_, b, t, a, hb, Nat.ne_of_gt (hz _ _ hb), ht, Nat.ne_of_gt (hz _ _ ht), ha, Nat.ne_of_gt (hz _ _ ha), rfl⟩

/-- **C90.** `Open` succeeds exactly when all the files a chain needs are there in whole words, whatever names were
requested, and every part of the chain it gives shows the file of its name; its non-essential ints are those whose
file is there in whole words. -/
theorem open_shows_the_files {fs : FS} (hp : Params fs) {bn tn : List String} {f : Factory}
    (hf : newFactory fs bn tn false = .ok f) :
    ((∃ c, f.open_ fs = .ok c) ↔ Complete fs) ∧
    ∀ c, f.open_ fs = .ok c → AllShown (Shows fs) fs c ∧
      (∀ n, Has c.blkNei n ↔ ∃ w, (n, w) ∈ blkNames ∧ Whole fs "Blocks" (n ++ ".int") w) ∧
      ∀ n, Has c.trnNei n ↔ ∃ w, (n, w) ∈ trnNames ∧ Whole fs "Transactions" (n ++ ".int") w := by
  have hr : f.inRam = false := by
    obtain ⟨b, t, a, _, _, _, _, _, _, rfl⟩ := newFactory_ok.mp hf
    rfl
  have h := openParts_shows (hop := (·.open_ fs)) (op := (·.open_ fs)) (W := Whole fs) (S := Shows fs) hp hf
    (fun n d w hw => openRW_iff ⟨n, d, w, false⟩ hw.2 rfl fs)
    (fun d p hw => hashOpen_iff d p hw.2 fs)
    (fun n d w x hw e => openRW_shows (c := ⟨n, d, w, false⟩) hw e)
    (fun d p x hw e => hashOpen_shows hw e)
  rw [completeAs_iff hp] at h
  unfold Factory.open_
  rw [hr]
  exact h

/-- **C90.** `OpenReadOnly` of a chain not held in RAM succeeds exactly when `Open` does, and shows the same. -/
theorem open_read_only_shows_the_files {fs : FS} (hp : Params fs) {bn tn : List String} {f : Factory}
    (hf : newFactory fs bn tn false = .ok f) :
    ((∃ c, f.openReadOnly fs = .ok c) ↔ Complete fs) ∧
    ∀ c, f.openReadOnly fs = .ok c → AllShown (ShowsRO fs) fs c ∧
      (∀ n, Has c.blkNei n ↔ ∃ w, (n, w) ∈ blkNames ∧ Whole fs "Blocks" (n ++ ".int") w) ∧
      ∀ n, Has c.trnNei n ↔ ∃ w, (n, w) ∈ trnNames ∧ Whole fs "Transactions" (n ++ ".int") w := by
  have h := openParts_shows (hop := (·.openReadOnly fs)) (op := (·.openReadOnly fs)) (W := Whole fs) (S := ShowsRO fs) hp hf
    (fun n d w hw => (openRO_iff ⟨n, d, w, false⟩ hw fs).trans (and_iff_left (fun h => by cases h)))
    (fun d p hw => hashOpenRO_iff d p hw fs)
    (fun n d w x hw e => openRO_shows (c := ⟨n, d, w, false⟩) hw e)
    (fun d p x hw e => hashOpenRO_shows hw e)
  rw [completeAs_iff hp] at h
  exact h

/-- **C90.** In RAM a chain opens for reading only, and only if none of its files is empty. -/
theorem open_in_ram {fs : FS} (hp : Params fs) {bn tn : List String} {f : Factory}
    (hf : newFactory fs bn tn true = .ok f) :
    f.open_ fs = .err ∧
    ((∃ c, f.openReadOnly fs = .ok c) ↔ Complete fs ∧ ∀ e ∈ essential, fs.file e.1 e.2.1 ≠ some []) ∧
    ∀ c, f.openReadOnly fs = .ok c → AllShown (ShowsRO fs) fs c ∧
      (∀ n, Has c.blkNei n ↔ ∃ w, (n, w) ∈ blkNames ∧ Whole fs "Blocks" (n ++ ".int") w ∧
        fs.file "Blocks" (n ++ ".int") ≠ some []) ∧
      ∀ n, Has c.trnNei n ↔ ∃ w, (n, w) ∈ trnNames ∧ Whole fs "Transactions" (n ++ ".int") w ∧
        fs.file "Transactions" (n ++ ".int") ≠ some [] := by
  have h := openParts_shows (hop := (·.openReadOnly fs)) (op := (·.openReadOnly fs))
    (W := fun d n w => Whole fs d n w ∧ fs.file d n ≠ some []) (S := ShowsRO fs) hp hf
    (fun n d w hw => (openRO_iff ⟨n, d, w, true⟩ hw fs).trans (and_congr_right fun _ => ⟨fun h => h rfl, fun h _ => h⟩))
    (fun d p hw => hashOpenRO_iff d p hw fs)
    (fun n d w x hw e => openRO_shows (c := ⟨n, d, w, true⟩) hw e)
    (fun d p x hw e => hashOpenRO_shows hw e)
  rw [completeAs_iff hp] at h
  refine ⟨?_, ?_, h.2⟩
  · obtain ⟨b, t, a, _, _, _, _, _, _, rfl⟩ := newFactory_ok.mp hf
    rfl
  · unfold Factory.openReadOnly
    rw [h.1]
    unfold Complete
    constructor
    · intro ⟨x, y⟩
      exact ⟨⟨x, fun e he => (y e he).1⟩, fun e he => (y e he).2⟩
    · intro ⟨⟨x, y⟩, z⟩
      exact ⟨x, fun e he => ⟨y e he, z e he⟩⟩

/-- **C90.** Where a chain opens, neither `Create` nor `CreateFromHashStores` does anything but give an error,
whatever the factory was asked for. -/
theorem creation_never_touches_a_chain {fs : FS} (hc : Complete fs) {bn tn : List String} {r : Bool} {f : Factory}
    (hf : newFactory fs bn tn r = .ok f) :
    f.exists_ fs = true ∧ f.create fs = (fs, false) ∧ f.createFromHashStores fs = (fs, false) := by
  obtain ⟨b, t, a, hb, _, _, _, _, _, rfl⟩ := newFactory_ok.mp hf
  obtain ⟨d, hd, _⟩ := (hc.1 "Blocks/Hashes" (by simp [hashFolders])).2 b hb
  obtain ⟨d', hd', _⟩ := hc.2 ("Blocks", "firsttrans.int", 4) (by simp [essential])
  have h1 : (theFactory b t a bn tn r).exists_ fs = true := by
    show (fs.file "Blocks/Hashes" "BinNums.int").isSome = true
    rw [hd]; rfl
  have h2 : (theFactory b t a bn tn r).creators.blkFirstTrans.exists_ fs = true := by
    show (fs.file "Blocks" "firsttrans.int").isSome = true
    rw [hd']; rfl
  refine ⟨h1, ?_, ?_⟩
  · unfold Factory.create
    rw [h1]
    simp
  · unfold Factory.createFromHashStores
    rw [h2]
    simp

/-- **C90 (partial).** Creating a chain from hash stores, where there is none yet and every name is supported: it succeeds, and
the chain then opens with every file of its own empty, the hash stores as they were.  Files that it does not make stay
as they were.  Missing: that a creation asked for an unsupported name leaves nothing, which the code violates
(`failed_creation_leaves_a_chain`). -/
theorem creation_from_hash_stores_partial {fs : FS} {bn tn : List String} {f : Factory} (hf : newFactory fs bn tn false = .ok f)
    (hx : fs.file "Blocks" "firsttrans.int" = none) (hh : ∀ d ∈ hashFolders, HashReady fs d)
    (hb : ∀ n ∈ bn, Has blkNames n) (ht : ∀ n ∈ tn, Has trnNames n) :
    ∃ fs', f.createFromHashStores fs = (fs', true) ∧ Complete fs' ∧ fs'.params = fs.params ∧ fs'.arrays = some [] ∧
      ∀ d n, (Made bn tn d n → fs'.file d n = some []) ∧ (¬ Made bn tn d n → fs'.file d n = fs.file d n) := by
  obtain ⟨b, t, a, _, _, _, _, _, _, rfl⟩ := newFactory_ok.mp hf
  obtain ⟨tn', fs', e, htn, hp, har, h⟩ := cfhs_files b t a bn tn fs hx
  rw [htn hb] at h
  refine ⟨fs', ?_, complete_of_made hp hh h, hp, har, h⟩
  rw [e, (allSupported_iff bn supportedBlk).mpr hb, (allSupported_iff tn supportedTrn).mpr ht]
  rfl

theorem int_inj {a b : String} (h : a ++ ".int" = b ++ ".int") : a = b := by
  have := congrArg String.toList h
  simp only [String.toList_append] at this
  exact String.toList_inj.mp (List.append_cancel_right this)

/-- **C90.** In a folder without files of non-essential ints, the chain then opens with exactly the requested ones. -/
theorem created_chain_has_the_requested_names {fs : FS} (hp : Params fs) {bn tn : List String} {f : Factory}
    (hf : newFactory fs bn tn false = .ok f)
    (hx : fs.file "Blocks" "firsttrans.int" = none) (hh : ∀ d ∈ hashFolders, HashReady fs d)
    (hb : ∀ n ∈ bn, Has blkNames n) (ht : ∀ n ∈ tn, Has trnNames n)
    (fb : ∀ n, Has blkNames n → fs.file "Blocks" (n ++ ".int") = none)
    (ft : ∀ n, Has trnNames n → fs.file "Transactions" (n ++ ".int") = none) :
    ∃ c, f.open_ (f.createFromHashStores fs).1 = .ok c ∧ (∀ n, Has c.blkNei n ↔ n ∈ bn) ∧
      ∀ n, Has c.trnNei n ↔ n ∈ tn := by
  obtain ⟨fs', e, hc, hpa, _, h⟩ := creation_from_hash_stores_partial hf hx hh hb ht
  have hp' : Params fs' := by unfold Params; rw [hpa]; exact hp
  have hf' : newFactory fs' bn tn false = .ok f := by
    rw [newFactory_ok] at hf ⊢; rw [hpa]; exact hf
  rw [e]
  obtain ⟨hi, hs⟩ := open_shows_the_files hp' hf'
  obtain ⟨c, ho⟩ := hi.mpr hc
  obtain ⟨_, h1, h2⟩ := hs c ho
  have ne : ∀ w, ∀ x ∈ essential, x.1 = "Blocks" → ∀ y, (y, w) ∈ blkNames → x.2.1 ≠ y ++ ".int" := by
    intro w x hx' hxd y hy
    simp only [essential, List.mem_cons, List.not_mem_nil, or_false] at hx'
    simp only [blkNames, List.mem_cons, List.not_mem_nil, or_false, Prod.mk.injEq] at hy
    rcases hx' with rfl | rfl | rfl | rfl | rfl | rfl | rfl | rfl | rfl | rfl | rfl | rfl <;>
      first
      | exact absurd hxd (by decide)
      | (rcases hy with ⟨rfl, _⟩ | ⟨rfl, _⟩ | ⟨rfl, _⟩ | ⟨rfl, _⟩ | ⟨rfl, _⟩ | ⟨rfl, _⟩ | ⟨rfl, _⟩ | ⟨rfl, _⟩ <;> decide)
  have nt : ∀ w, ∀ x ∈ essential, x.1 = "Transactions" → ∀ y, (y, w) ∈ trnNames → x.2.1 ≠ y ++ ".int" := by
    intro w x hx' hxd y hy
    simp only [essential, List.mem_cons, List.not_mem_nil, or_false] at hx'
    simp only [trnNames, List.mem_cons, List.not_mem_nil, or_false, Prod.mk.injEq] at hy
    rcases hx' with rfl | rfl | rfl | rfl | rfl | rfl | rfl | rfl | rfl | rfl | rfl | rfl <;>
      first
      | exact absurd hxd (by decide)
      | (rcases hy with ⟨rfl, _⟩ | ⟨rfl, _⟩ | ⟨rfl, _⟩ | ⟨rfl, _⟩ | ⟨rfl, _⟩ <;> decide)
  refine ⟨c, ho, fun n => ?_, fun n => ?_⟩
  · rw [h1]
    constructor
    · rintro ⟨w, hw, d, hd, _⟩
      by_contra hn
      rw [(h _ _).2, fb n ⟨w, hw⟩] at hd
      · cases hd
      · rintro (⟨x, hx', e1, e2⟩ | ⟨_, m, hm, _, e2⟩ | ⟨e1, _⟩)
        · exact ne w x hx' e1.symm n hw e2.symm
        · exact hn (int_inj e2 ▸ hm)
        · exact absurd e1 (by decide)
    · intro hn
      obtain ⟨w, hw⟩ := hb n hn
      exact ⟨w, hw, [], (h _ _).1 (Or.inr (Or.inl ⟨rfl, n, hn, ⟨w, hw⟩, rfl⟩)), by simp⟩
  · rw [h2]
    constructor
    · rintro ⟨w, hw, d, hd, _⟩
      by_contra hn
      rw [(h _ _).2, ft n ⟨w, hw⟩] at hd
      · cases hd
      · rintro (⟨x, hx', e1, e2⟩ | ⟨e1, _⟩ | ⟨_, m, hm, _, e2⟩)
        · exact nt w x hx' e1.symm n hw e2.symm
        · exact absurd e1 (by decide)
        · exact hn (int_inj e2 ▸ hm)
    · intro hn
      obtain ⟨w, hw⟩ := ht n hn
      exact ⟨w, hw, [], (h _ _).1 (Or.inr (Or.inr ⟨rfl, n, hn, ⟨w, hw⟩, rfl⟩)), by simp⟩

/-- **C90.** The whole of `Create` where there is no chain: it makes empty hash stores, then creates from them. -/
theorem creation {fs : FS} {bn tn : List String} {f : Factory} (hf : newFactory fs bn tn false = .ok f)
    (he : fs.file "Blocks/Hashes" "BinNums.int" = none) :
    ∃ fs1, f.create fs = f.createFromHashStores fs1 ∧ (∀ d ∈ hashFolders, HashReady fs1 d) ∧
      fs1.params = fs.params ∧ fs1.arrays = fs.arrays ∧
      (∀ d ∈ hashFolders, fs1.file d "BinNums.int" = some [] ∧
        ∀ p, fs.params d = some p → fs1.file d "BinStarts.bes" = some (zeros p.binStartBytes)) ∧
      ∀ d n, d ∉ hashFolders → fs1.file d n = fs.file d n := by
  obtain ⟨b, t, a, hb, _, ht, _, ha, _, rfl⟩ := newFactory_ok.mp hf
  have h0 : (theFactory b t a bn tn false).exists_ fs = false := by
    show (fs.file "Blocks/Hashes" "BinNums.int").isSome = false
    rw [he]; rfl
  have hfile : ∀ d n,
      ((HashCreator.mk "Addresses/Hashes" a).create ((HashCreator.mk "Transactions/Hashes" t).create
        ((HashCreator.mk "Blocks/Hashes" b).create fs))).file d n =
      if d = "Addresses/Hashes" ∧ n = "BinStarts.bes" then some (zeros a.binStartBytes)
      else if d = "Addresses/Hashes" ∧ n = "BinNums.int" then some []
      else if d = "Transactions/Hashes" ∧ n = "BinStarts.bes" then some (zeros t.binStartBytes)
      else if d = "Transactions/Hashes" ∧ n = "BinNums.int" then some []
      else if d = "Blocks/Hashes" ∧ n = "BinStarts.bes" then some (zeros b.binStartBytes)
      else if d = "Blocks/Hashes" ∧ n = "BinNums.int" then some []
      else fs.file d n := fun d n => rfl
  refine ⟨(HashCreator.mk "Addresses/Hashes" a).create ((HashCreator.mk "Transactions/Hashes" t).create
    ((HashCreator.mk "Blocks/Hashes" b).create fs)), ?_, ?_, rfl, rfl, ?_, ?_⟩
  · show Factory.create _ _ = _
    unfold Factory.create
    rw [if_neg (by simp [theFactory]), h0, if_neg (by simp)]
    rfl
  · simp only [hashFolders, List.mem_cons, List.not_mem_nil, or_false, forall_eq_or_imp, forall_eq]
    unfold HashReady Whole
    simp only [hfile]
    simp
  · simp only [hashFolders, List.mem_cons, List.not_mem_nil, or_false, forall_eq_or_imp, forall_eq]
    simp only [hfile, hb, ht, ha]
    simp
  · intro d n hd
    simp only [hashFolders, List.mem_cons, List.not_mem_nil, or_false, not_or] at hd
    rw [hfile]
    simp [hd.1, hd.2.1, hd.2.2]

/-- **C90, against the code.** A creation that fails because a name is unsupported has made the chain all the same:
it opens, and no later creation does anything but give an error. -/
theorem failed_creation_leaves_a_chain {fs : FS} {bn tn : List String} {f : Factory}
    (hf : newFactory fs bn tn false = .ok f) (hx : fs.file "Blocks" "firsttrans.int" = none)
    (hh : ∀ d ∈ hashFolders, HashReady fs d)
    (hn : (∃ n ∈ bn, ¬ Has blkNames n) ∨ ∃ n ∈ tn, ¬ Has trnNames n) :
    ∃ fs', f.createFromHashStores fs = (fs', false) ∧ Complete fs' ∧
      ∀ bn' tn' r f', newFactory fs' bn' tn' r = .ok f' →
        f'.create fs' = (fs', false) ∧ f'.createFromHashStores fs' = (fs', false) := by
  obtain ⟨b, t, a, _, _, _, _, _, _, rfl⟩ := newFactory_ok.mp hf
  obtain ⟨tn', fs', e, _, hp, _, h⟩ := cfhs_files b t a bn tn fs hx
  have hc := complete_of_made hp hh h
  refine ⟨fs', ?_, hc, fun bn' tn' r f' hf' => (creation_never_touches_a_chain hc hf').2⟩
  rw [e]
  have : (allSupported bn supportedBlk && allSupported tn supportedTrn) = false := by
    rw [Bool.and_eq_false_iff, ← Bool.not_eq_true, ← Bool.not_eq_true, allSupported_iff, allSupported_iff]
    rcases hn with ⟨n, h1, h2⟩ | ⟨n, h1, h2⟩
    · exact Or.inl fun h => h2 (h n h1)
    · exact Or.inr fun h => h2 (h n h1)
  rw [this]

/-- **C90, against the code.** After the hash stores are made and before the chain is, `Exists` says yes, while
`Open` fails. -/
theorem exists_before_it_opens {fs : FS} (hp : Params fs) {bn tn : List String} {f : Factory}
    (hf : newFactory fs bn tn false = .ok f) (hx : fs.file "Blocks" "firsttrans.int" = none)
    (hh : ∀ d ∈ hashFolders, HashReady fs d) :
    f.exists_ fs = true ∧ (¬ ∃ c, f.open_ fs = .ok c) ∧ f.create fs = (fs, false) := by
  refine ⟨?_, fun h => ?_, ?_⟩
  · obtain ⟨b, t, a, hb, _, _, _, _, _, rfl⟩ := newFactory_ok.mp hf
    obtain ⟨d, hd, _⟩ := (hh "Blocks/Hashes" (by simp [hashFolders])).2 b hb
    show (fs.file "Blocks/Hashes" "BinNums.int").isSome = true
    rw [hd]; rfl
  · obtain ⟨d, hd, _⟩ := ((open_shows_the_files hp hf).1.mp h).2 ("Blocks", "firsttrans.int", 4) (by simp [essential])
    rw [hx] at hd; cases hd
  · obtain ⟨b, t, a, hb, _, _, _, _, _, rfl⟩ := newFactory_ok.mp hf
    obtain ⟨d, hd, _⟩ := (hh "Blocks/Hashes" (by simp [hashFolders])).2 b hb
    have h1 : (theFactory b t a bn tn false).exists_ fs = true := by
      show (fs.file "Blocks/Hashes" "BinNums.int").isSome = true
      rw [hd]; rfl
    unfold Factory.create
    rw [h1]
    simp

/-- **C90, against the code.** A stored chain of which no transaction has an input (the first 170 blocks of Bitcoin)
cannot be opened in RAM: the files of its inputs are empty. -/
theorem chain_without_inputs_not_in_ram {p q : Int} (hp : p ≤ 0) (hq : q ≤ 0) {i : ChainStore.Iface} {d : Bool}
    {bn tn : List (String × Nat)} {bs : List ChainStore.Blk} (hg : ChainStore.Good i d bn tn bs)
    (hi : ChainStore.inputs i bs = []) {s : ChainStore.St} (hs : ChainStore.store p q i d bn tn bs = .ok s)
    {fs : FS} (hfs : Params fs) (hd : fs.file "TransactionInputs" "tx.int" = some (s.txiTx.flatMap (leEnc 4)))
    {rb rt : List String} {f : Factory} (hf : newFactory fs rb rt true = .ok f) :
    ¬ ∃ c, f.openReadOnly fs = .ok c := by
  obtain ⟨s', e, hc, _⟩ := ChainStore.store_ok hp hq hg
  rw [hs] at e
  cases e
  intro h
  have h1 := ((open_in_ram hfs hf).2.1.mp h).2 ("TransactionInputs", "tx.int", 4) (by simp [essential])
  apply h1
  show fs.file "TransactionInputs" "tx.int" = some []
  rw [hd, hc.tx]
  rw [← ChainStore.inputs_eq, hi]
  rfl

/-! ## Instances -/

/-- A folder with the parameters only. -/
def bare : FS := ⟨fun _ _ => none, fun _ => some ⟨3, 12⟩, none⟩

/-- Asking for two names of blocks and one of transactions; the chain is created, opens with these, and is not created
again. -/
example : ∃ f c, newFactory bare ["time", "difficulty"] ["size"] false = .ok f ∧ (f.create bare).2 = true ∧
    f.open_ (f.create bare).1 = .ok c ∧ c.blkNei.map (·.1) = ["time", "difficulty"] ∧ c.trnNei.map (·.1) = ["size"] ∧
    (f.create (f.create bare).1).2 = false :=
  ⟨theFactory ⟨3, 12⟩ ⟨3, 12⟩ ⟨3, 12⟩ ["time", "difficulty"] ["size"] false, _, rfl, by decide +kernel, rfl, by decide +kernel,
    by decide +kernel, by decide +kernel⟩

/-- A name that is not supported: an error, and a chain that opens; asking again without it is refused. -/
example : ∃ f f' c, newFactory bare ["time", "colour"] ["size"] false = .ok f ∧ (f.create bare).2 = false ∧
    f.open_ (f.create bare).1 = .ok c ∧ c.blkNei.map (·.1) = ["time"] ∧ c.trnNei.map (·.1) = [] ∧
    newFactory (f.create bare).1 ["time"] ["size"] false = .ok f' ∧ (f'.create (f.create bare).1).2 = false :=
  ⟨theFactory ⟨3, 12⟩ ⟨3, 12⟩ ⟨3, 12⟩ ["time", "colour"] ["size"] false,
    theFactory ⟨3, 12⟩ ⟨3, 12⟩ ⟨3, 12⟩ ["time"] ["size"] false, _, rfl, by decide +kernel, rfl, by decide +kernel,
    by decide +kernel, rfl, by decide +kernel⟩

/-- The chain of the first instance, its times torn and its sizes written: the times are gone, the sizes can be read. -/
example : ∃ f c, newFactory bare ["time", "difficulty"] ["size"] false = .ok f ∧
    f.openReadOnly (((f.create bare).1.put "Blocks" "time.int" [1, 2, 3]).put "Transactions" "size.int" [7, 1, 0, 0]) = .ok c ∧
    c.blkNei.map (·.1) = ["difficulty"] ∧
    c.trnNei.map (fun x => (x.1, (ROWords.readWordAt [7, 1, 0, 0] x.2 0).2)) = [("size", .ok 263)] :=
  ⟨theFactory ⟨3, 12⟩ ⟨3, 12⟩ ⟨3, 12⟩ ["time", "difficulty"] ["size"] false, _, rfl, rfl, by decide +kernel, by decide +kernel⟩

/-- A chain of one block with a coinbase transaction is a good chain without inputs. -/
example : ChainStore.Good .cri false [] []
    [⟨[1], some 0, [], [⟨[11], none, some 0, [], [], [⟨50, [91], none⟩]⟩]⟩] ∧
    ChainStore.inputs .cri [⟨[1], some 0, [], [⟨[11], none, some 0, [], [], [⟨50, [91], none⟩]⟩]⟩] = [] :=
  ⟨⟨by decide, by decide, by decide, by decide, by decide, by decide, by decide, by decide, by decide, by decide,
    by decide, by decide, by decide, by decide, by decide⟩, by decide⟩

end Verif.ChainFactory
