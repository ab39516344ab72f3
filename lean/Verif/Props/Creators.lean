import Verif.Model.Creators
import Verif.Props.ChainedFiles
import Verif.Props.HashStores
import Verif.Props.HashStore3
import Verif.Props.Uniform

/-!
# Properties of the creators of hash stores
-/

namespace Verif.Creators

open HashStores (Found)

/-! ## Specification -/

/-- Whatever was in the folder before: a store that is created is there, can be opened, has no hashes, finds none and
shows none at any index. -/
def CreatesEmpty {F S : Type} (c : Creator F S) : Prop :=
  ∀ f, c.isThere (c.create f) = true ∧ ∃ s, c.openStore (c.create f) = some s ∧ c.count s = 0 ∧
    (∀ h : Bytes, h.length = 32 → c.lookup s h = some .absent) ∧ ∀ i, c.hashAt s i = none

/-- A store that is said to be there can be opened. -/
def ThereOpens {F S : Type} (c : Creator F S) : Prop := ∀ f, c.isThere f = true → (c.openStore f).isSome = true

/-- A store that can be opened is said to be there. -/
def OpensThere {F S : Type} (c : Creator F S) : Prop := ∀ f, (c.openStore f).isSome = true → c.isThere f = true

/-! ## In memory, tier zero -/

/-- **C96.** The store with its index in memory is created empty, and is there exactly if it opens. -/
theorem memory_creator : CreatesEmpty memory ∧ ThereOpens memory ∧ OpensThere memory := by
  refine ⟨fun f => ⟨rfl, _, rfl, rfl, fun _ _ => rfl, fun i => ?_⟩, ?_, ?_⟩
  · show (HashFile.readHashAt (HashFile.openHashFile []) i).2 = none
    simp [HashFile.readHashAt, HashFile.openHashFile, AppendOpt.readAt, AppendOpt.openFile, AppendOpt.flush]
  · intro f hf
    cases f with
    | none => cases hf
    | some d => rfl
  · intro f hf
    cases f with
    | none => cases hf
    | some d => rfl

/-- Every file can be loaded. -/
theorem loadLoop_some (data : Bytes) : ∀ (n i : Nat) (t : HashStores.TierZero.TZ), t.hashesFile = HashFile.openHashFile data →
    i + n ≤ data.length / 32 → ∃ t', HashStores.TierZero.loadLoop t i n = some t' := by
  intro n
  induction n with
  | zero => intro i t _ _; exact ⟨t, rfl⟩
  | succ n ih =>
    intro i t ht hn
    rw [HashStores.TierZero.loadLoop, ht]
    have hrd : HashFile.readHashAt (HashFile.openHashFile data) i =
        (HashFile.openHashFile data, some ((data.drop (i * 32)).take 32)) := by
      have hl : ((data.drop (i * 32)).take 32).length = 32 := by
        rw [List.length_take, List.length_drop]
        omega
      have h1 : HashFile.readHashAt (HashFile.openHashFile data) i = (HashFile.openHashFile data,
          if ((data.drop (i * 32)).take 32).length < 32 then none else some ((data.drop (i * 32)).take 32)) := rfl
      rw [h1, if_neg (by omega)]
    rw [hrd]
    exact ih _ _ rfl (by omega)

/-- **C96.** Tier zero is created empty, and is there exactly if it opens, also if its last hash is torn. -/
theorem tierZero_creator : CreatesEmpty tierZero ∧ ThereOpens tierZero ∧ OpensThere tierZero := by
  refine ⟨fun f => ⟨rfl, _, rfl, rfl, fun _ _ => rfl, fun _ => rfl⟩, ?_, ?_⟩
  · intro f hf
    cases f with
    | none => cases hf
    | some d =>
      obtain ⟨t, ht⟩ := loadLoop_some d (d.length / 32) 0
        { hashesFile := HashFile.openHashFile d, theMap := fun _ => none, theSlice := List.replicate (d.length / 32) (zeros 32) } rfl
        (by omega)
      show (HashStores.TierZero.new d).isSome = true
      unfold HashStores.TierZero.new
      rw [ht]
      rfl
  · intro f hf
    cases f with
    | none => cases hf
    | some d => rfl

/-! ## Lookup and collision files -/

/-- **C96: partial.** The store with lookup and collision files is created empty whatever was in the folder, and is there if it
opens. Missing: that it opens if it is there, `chained_there_not_open`. -/
theorem chained_creator_partial (p : ChainedHashStore.Params) (hp : p.Valid) (m : ChainedFiles.Mode) :
    CreatesEmpty (chained p m) ∧ OpensThere (chained p m) := by
  constructor
  · intro f
    refine ⟨rfl, _, rfl, Nat.zero_div 32, fun h _ => ?_, fun i => ?_⟩
    rotate_left
    · obtain ⟨lim, opt⟩ := m
      cases opt <;> simp [chained, ChainedFiles.openStore, ChainedFiles.create, ChainedFiles.readHash, Verif.readAt, AppendOpt.readAt,
        AppendOpt.openFile, AppendOpt.flush]
    have := ChainedFiles.sessions_find_all_partial p hp m [.indexOf h] (by simp [ChainedFiles.appended])
      (by simp [ChainedFiles.appended, ChainedHashStore.msb]) trivial
    simp only [ChainedFiles.run, ChainedFiles.step, ChainedFiles.specRun, ChainedFiles.specStep, List.cons.injEq, and_true] at this
    show (match (ChainedFiles.indexOfHash p (ChainedFiles.openStore m (ChainedFiles.create p)) h).2 with
      | .found f => some f
      | .panicked => none
      | .hang => none) = _
    generalize ChainedFiles.indexOfHash p (ChainedFiles.openStore m (ChainedFiles.create p)) h = r at this ⊢
    obtain ⟨s, a⟩ := r
    cases a with
    | found g =>
      simp only [ChainedFiles.Out.found.injEq] at this
      dsimp only
      rw [this]
      rfl
    | panicked => cases this
    | hang => cases this
  · intro f hf
    obtain ⟨hsh, lkp, cls⟩ := f
    cases hsh with
    | none => cases hf
    | some d => rfl

/-- **C96: violated.** If creating the store is cut short by the process being killed, or only the hashes are there, it is said to be
there and cannot be opened - in every folder without a collisions file. Creating it again mends it. -/
theorem chained_there_not_open (p : ChainedHashStore.Params) (m : ChainedFiles.Mode) (f : ChainedFolder) (hf : f.cls = none) (n : Nat)
    (hn : 0 < n) (hn' : n < 4) :
    (chained p m).isThere (chainedKilled p f n) = true ∧ (chained p m).openStore (chainedKilled p f n) = none ∧
    (chained p m).create (chainedKilled p f n) = chainedKilled p f 4 := by
  obtain ⟨hsh, lkp, cls⟩ := f
  dsimp only at hf
  subst hf
  match n, hn, hn' with
  | 1, _, _ => exact ⟨rfl, by cases lkp <;> rfl, rfl⟩
  | 2, _, _ => exact ⟨rfl, rfl, rfl⟩
  | 3, _, _ => exact ⟨rfl, rfl, rfl⟩

/-- So being there does not mean it opens. -/
theorem chained_not_thereOpens (p : ChainedHashStore.Params) (m : ChainedFiles.Mode) : ¬ ThereOpens (chained p m) := by
  intro h
  have h1 := chained_there_not_open p m ⟨none, none, none⟩ rfl 1 (by decide) (by decide)
  have h2 := h _ h1.1
  rw [h1.2.1] at h2
  cases h2

/-- **C96: violated.** Killed while it is created where there is a store, the files are mixed: the hashes are gone, the lookups are the
old ones. Looking up a hash that was there is an error, for every hash whose lookup leads to it directly. -/
theorem half_created_errs (p : ChainedHashStore.Params) (f : ChainedFolder) (lkp cls : Bytes) (hl : f.lkp = some lkp)
    (hc : f.cls = some cls) (h w : Bytes) (hw : Verif.readAt lkp (ChainedHashStore.keyOf p h * p.nbytes) p.nbytes = some w)
    (hne : leDec w ≠ 0) (hmsb : ChainedHashStore.hasMsb p (leDec w) = false) :
    ∃ s, (chained p ⟨none, false⟩).openStore (chainedKilled p f 1) = some s ∧ (chained p ⟨none, false⟩).count s = 0 ∧
      (chained p ⟨none, false⟩).lookup s h = some .err := by
  obtain ⟨hsh, lkp', cls'⟩ := f
  dsimp only at hl hc
  subst hl hc
  refine ⟨_, rfl, Nat.zero_div 32, ?_⟩
  show (match (ChainedFiles.indexOfHash p (ChainedFiles.openStore ⟨none, false⟩ ⟨[], lkp, cls⟩) h).2 with
    | .found f => some f
    | .panicked => none
    | .hang => none) = _
  have hr : (ChainedFiles.openStore ⟨none, false⟩ ⟨[], lkp, cls⟩).lkp.readAt (ChainedHashStore.keyOf p h * p.nbytes) p.nbytes =
      .ok w := by
    show ChainedFiles.Lkp.readAt (.file lkp) _ _ = _
    rw [ChainedFiles.Lkp.readAt, hw]
  unfold ChainedFiles.indexOfHash
  rw [hr]
  dsimp only
  rw [if_pos hmsb, if_neg hne]
  have hh : ChainedFiles.readHash (ChainedFiles.openStore ⟨none, false⟩ ⟨[], lkp, cls⟩).hsh (leDec w - 1) = (.plain [], none) := by
    show ChainedFiles.readHash (.plain []) _ = _
    rw [ChainedFiles.readHash, Verif.readAt, if_neg (by simp)]
  rw [hh]

/-! ## Bins -/

/-- **C96: violated.** The store of bins is not created empty: a lookup of any hash of another bin than the first is an error, and if the
bins are to be held in memory it does not open at all. (C24 has the appends.) -/
theorem binned_not_created (fl : Rat → Rat) {p : Bins.Params} (hr : 0 < p.entriesInBinStart) (f : BinFolder) :
    (∀ h : Bytes, 1 ≤ Bins.binNum p h → ∃ s, (binned fl p false).openStore ((binned fl p false).create f) = some s ∧
      (binned fl p false).count s = 0 ∧ (binned fl p false).lookup s h = some .err) ∧
    (2 ≤ p.numberOfBins → (binned fl p true).openStore ((binned fl p true).create f) = none) := by
  have hpos : 0 < p.entrySize * p.entriesInBinStart := Nat.mul_pos (Bins.entrySize_pos p) hr
  have ho : WordFile.openWordFile p.bytesRoomForBinNum [] =
      some (WordFile.new (AppendOpt.openFile []) p.bytesRoomForBinNum (0 / p.bytesRoomForBinNum)) := by
    simp [WordFile.openWordFile, WordFile.fileWordCount]
  constructor
  · intro h hb
    refine ⟨⟨WordFile.new (AppendOpt.openFile []) p.bytesRoomForBinNum (0 / p.bytesRoomForBinNum),
      ⟨zeros (p.entrySize * p.entriesInBinStart), f.overflow⟩, none⟩, ?_, ?_, ?_⟩
    · show HashStore3.openStore p [] ⟨zeros (p.entrySize * p.entriesInBinStart), f.overflow⟩ false = _
      unfold HashStore3.openStore
      rw [ho]
      rfl
    · show WordFile.countWords _ = 0
      simp [WordFile.countWords, WordFile.new]
    · show HashStore3.indexOfHash fl p _ h = _
      unfold HashStore3.indexOfHash HashStore3.binFor
      dsimp only
      have hload : Bins.loadBin p ⟨zeros (p.entrySize * p.entriesInBinStart), f.overflow⟩ (Bins.binNum p h) = none := by
        unfold Bins.loadBin readAt
        rw [if_neg, Option.map_none]
        rw [zeros_length, Nat.mul_assoc]
        have := Nat.mul_le_mul_right (p.entrySize * p.entriesInBinStart) hb
        omega
      rw [hload]
  · intro hb
    show HashStore3.openStore p [] ⟨zeros (p.entrySize * p.entriesInBinStart), f.overflow⟩ true = none
    unfold HashStore3.openStore
    rw [ho]
    dsimp only
    rw [if_pos rfl]
    obtain ⟨n, hn⟩ : ∃ n, p.numberOfBins = n + 2 := ⟨p.numberOfBins - 2, by omega⟩
    have : Bins.loadAllBins p ⟨zeros (p.entrySize * p.entriesInBinStart), f.overflow⟩ = none := by
      unfold Bins.loadAllBins
      rw [hn, Bins.loadAllFrom]
      split
      · rfl
      · rw [Bins.loadAllFrom, if_pos]
        rw [List.length_drop, zeros_length, Nat.sub_self]
        exact hpos
    rw [this]
    rfl

/-- So the store of bins is not created empty. -/
theorem binned_not_createsEmpty (fl : Rat → Rat) {p : Bins.Params} (hr : 0 < p.entriesInBinStart) {h : Bytes} (hl : h.length = 32)
    (hb : 1 ≤ Bins.binNum p h) : ¬ CreatesEmpty (binned fl p false) := by
  intro hc
  obtain ⟨-, s, h1, -, h3⟩ := hc ⟨none, none, fun _ => none⟩
  obtain ⟨s', g1, -, g3⟩ := (binned_not_created fl hr ⟨none, none, fun _ => none⟩).1 h hb
  rw [h1] at g1
  obtain rfl := Option.some.inj g1
  rw [h3.1 h hl] at g3
  cases g3

/-- **C96: violated.** Merely making the creator for bulk indexing destroys a store: where there was none it is said to be there and does not
open; where there was one it has no hashes any more, while it still finds every hash it found. -/
theorem binned_constructor_destroys (fl : Rat → Rat) (p : Bins.Params) (inRam : Bool) (f : BinFolder) :
    (binned fl p inRam).isThere (binnedConstructor f) = true ∧
    (f.starts = none → (binned fl p inRam).openStore (binnedConstructor f) = none) ∧
    ∀ s, (binned fl p inRam).openStore f = some s → ∃ s', (binned fl p inRam).openStore (binnedConstructor f) = some s' ∧
      (binned fl p inRam).count s' = 0 ∧ ∀ h, (binned fl p inRam).lookup s' h = (binned fl p inRam).lookup s h := by
  obtain ⟨nums, starts, ovf⟩ := f
  have ho : WordFile.openWordFile p.bytesRoomForBinNum [] =
      some (WordFile.new (AppendOpt.openFile []) p.bytesRoomForBinNum (0 / p.bytesRoomForBinNum)) := by
    simp [WordFile.openWordFile, WordFile.fileWordCount]
  refine ⟨rfl, ?_, ?_⟩
  · rintro ⟨⟩
    rfl
  · intro s hs
    cases starts with
    | none => cases hs
    | some st =>
      cases nums with
      | none => cases hs
      | some nm =>
        have hs' : HashStore3.openStore p nm ⟨st, ovf⟩ inRam = some s := hs
        show ∃ s', HashStore3.openStore p [] ⟨st, ovf⟩ inRam = some s' ∧ HashStore3.countHashes s' = 0 ∧
          ∀ h, HashStore3.indexOfHash fl p s' h = HashStore3.indexOfHash fl p s h
        unfold HashStore3.openStore at hs' ⊢
        rw [ho]
        cases hw : WordFile.openWordFile p.bytesRoomForBinNum nm with
        | none => rw [hw] at hs'; cases hs'
        | some w =>
          rw [hw] at hs'
          dsimp only at hs' ⊢
          cases inRam with
          | false =>
            rw [if_neg (by decide)] at hs' ⊢
            obtain rfl := Option.some.inj hs'
            exact ⟨_, rfl, by simp [HashStore3.countHashes, WordFile.countWords, WordFile.new], fun h => rfl⟩
          | true =>
            rw [if_pos rfl] at hs' ⊢
            cases hl : Bins.loadAllBins p ⟨st, ovf⟩ with
            | none => rw [hl] at hs'; cases hs'
            | some bins =>
              rw [hl] at hs'
              obtain rfl := Option.some.inj hs'
              exact ⟨_, rfl, by simp [HashStore3.countHashes, WordFile.countWords, WordFile.new], fun h => rfl⟩

/-- **C96: partial.** A store of bins that opens is there. -/
theorem binned_opens_there_partial (fl : Rat → Rat) (p : Bins.Params) (inRam : Bool) : OpensThere (binned fl p inRam) := by
  intro f hf
  obtain ⟨nums, starts, ovf⟩ := f
  cases nums with
  | none => cases starts <;> cases hf
  | some d => rfl

/-! ## Uniform -/

/-- **C96: violated.** A uniform store that has been created is there and does not open; one that opens is there. -/
theorem uniform_creator (f : UniformFolder) : uniform.isThere (uniform.create f) = true ∧ uniform.openStore (uniform.create f) = none ∧
    OpensThere uniform := by
  refine ⟨rfl, rfl, ?_⟩
  intro f hf
  obtain ⟨hsh, st⟩ := f
  cases hsh with
  | true => rfl
  | false => cases hf

/-! ## Examples -/

example : ChainedHashStore.Params.Valid ⟨3, 2, 2⟩ := by constructor <;> decide

/-- One hash stored, then created again and killed: the lookup for key 5 is left. -/
example : ∃ s, (chained ⟨3, 2, 1⟩ ⟨none, false⟩).openStore (chainedKilled ⟨3, 2, 1⟩
      ⟨some (5 :: zeros 31), some (zeros 10 ++ [1, 0] ++ zeros 4), some []⟩ 1) = some s ∧
    (chained ⟨3, 2, 1⟩ ⟨none, false⟩).lookup s (5 :: zeros 31) = some .err := by
  obtain ⟨s, h1, -, h3⟩ := half_created_errs ⟨3, 2, 1⟩ ⟨some (5 :: zeros 31), some (zeros 10 ++ [1, 0] ++ zeros 4), some []⟩
    _ _ rfl rfl (5 :: zeros 31) [1, 0] (by decide) (by decide) (by decide)
  exact ⟨s, h1, h3⟩

example : ¬ CreatesEmpty (binned Bins.fl53 Bins.demoParams false) :=
  binned_not_createsEmpty _ (by decide) (h := List.replicate 32 1) rfl (by decide +kernel)

end Verif.Creators
