import Verif.Model.ChainedFiles
import Verif.Model.HashStores
import Verif.Model.HashStore3
import Verif.Model.Uniform

/-!
# The creators of hash stores

`HashStoreExists`, `CreateHashStore` and `OpenHashStore` of indexedhashes/concretehashstorecreator.go,
indexedhashes/concretehashstorecreatormemory.go, weddingcake/tierzero.go:100-155, indexedhashes3/hashstorecreator.go and
indexedhashes/uniform.go:113-178. (That of the cake is in `Verif.Model.CakeFiles`.)

Simplifications: the folder is the files in it, a missing file is `none`; no operation on files fails other than opening a
missing one.
-/

namespace Verif.Creators

open HashStores (Found)

/-- indexedhashes/interfaces.go:20-25 `HashStoreCreator`, with of the stores it opens the number of hashes, the lookup
(`none` is a panic or an endless loop) and the hash at an index (`none` is an error). -/
structure Creator (F S : Type) where
  isThere : F → Bool
  create : F → F
  openStore : F → Option S
  count : S → Nat
  lookup : S → Bytes → Option Found
  hashAt : S → Nat → Option Bytes

/-! ## Lookup and collision files -/

/-- The files `.hsh`, `.lkp` and `.cls`. -/
structure ChainedFolder where
  hsh : Option Bytes
  lkp : Option Bytes
  cls : Option Bytes
deriving DecidableEq, Repr

/-- concretehashstorecreator.go:40-51 `HashStoreExists`, 53-89 `CreateHashStore`, 91-140 `OpenHashStore`. -/
def chained (p : ChainedHashStore.Params) (m : ChainedFiles.Mode) : Creator ChainedFolder ChainedFiles.Store where
  isThere f := f.hsh.isSome
  create _ := ⟨some (ChainedFiles.create p).hsh, some (ChainedFiles.create p).lkp, some (ChainedFiles.create p).cls⟩
  openStore f :=
    match f.hsh, f.lkp, f.cls with
    | some hsh, some lkp, some cls => some (ChainedFiles.openStore m ⟨hsh, lkp, cls⟩)
    | _, _, _ => none
  count s := s.count
  lookup s h :=
    match (ChainedFiles.indexOfHash p s h).2 with
    | .found f => some f
    | .panicked => none
    | .hang => none
  hashAt s i := (ChainedFiles.readHash s.hsh i).2

/-- concretehashstorecreator.go:53-89: the folder when the process is killed after `n` of the four changes `CreateHashStore`
makes: the hashes file, the lookup file, its size, the collisions file. -/
def chainedKilled (p : ChainedHashStore.Params) (f : ChainedFolder) : Nat → ChainedFolder
  | 0 => f
  | 1 => { f with hsh := some [] }
  | 2 => { f with hsh := some [], lkp := some [] }
  | 3 => { f with hsh := some [], lkp := some (zeros (p.nbytes * 2 ^ p.nbits)) }
  | _ => (chained p ⟨none, false⟩).create f

/-! ## The index in memory -/

/-- concretehashstorecreatormemory.go:22-32 `HashStoreExists`, 34-50 `CreateHashStore`, 52-73 `OpenHashStore`. The folder is the file
`.hsh`. -/
def memory : Creator (Option Bytes) HashStores.MemIndexed.MI where
  isThere f := f.isSome
  create _ := some []
  openStore f := f.map fun data => HashStores.MemIndexed.new (HashFile.openHashFile data)
  count s := s.count
  lookup s h := some (HashStores.MemIndexed.indexOfHash s h)
  hashAt s i := (HashStores.MemIndexed.getHashAtIndex s i).2

/-! ## Tier zero -/

/-- tierzero.go:113-122 `HashStoreExists`, 124-137 `CreateHashStore`, 139-146 `OpenHashStore`. The folder is the file
`Tier0/Hashes.hsh`. -/
def tierZero : Creator (Option Bytes) HashStores.TierZero.TZ where
  isThere f := f.isSome
  create _ := some []
  openStore f := f.bind HashStores.TierZero.new
  count s := HashStores.TierZero.countHashes s
  lookup s h := some (HashStores.TierZero.indexOfHash s h)
  hashAt s i := HashStores.TierZero.getHashAtIndex s i

/-! ## Bins -/

/-- `BinNums.int`, `BinStarts.bes` and the overflow files. -/
structure BinFolder where
  nums : Option Bytes
  starts : Option Bytes
  overflow : Bins.OvfPath → Option Bytes

/-- indexedhashes3/hashstorecreator.go:110-113 `HashStoreExists`, 115-135 `CreateHashStore` (the overflow files stay), 137-149
`OpenHashStore`. -/
def binned (fl : Rat → Rat) (p : Bins.Params) (inRam : Bool) : Creator BinFolder HashStore3.Store where
  isThere f := f.nums.isSome
  create f := { f with nums := some (HashStore3.createHashStore p).1, starts := some (HashStore3.createHashStore p).2.binStarts }
  openStore f :=
    match f.starts, f.nums with
    | some starts, some nums => HashStore3.openStore p nums ⟨starts, f.overflow⟩ inRam
    | _, _ => none
  count s := HashStore3.countHashes s
  lookup s h := HashStore3.indexOfHash fl p s h
  hashAt s i := (HashStore3.getHashAtIndex p s i).bind (·.2)

/-- indexedhashes3/hashstorecreator.go:23-46 `NewHashStoreCreatorAndPreloader`, 48-72 `NewHashStoreCreatorAndPreloaderAdaptive`: what
making the creator does to the folder (the parameters aside). -/
def binnedConstructor (f : BinFolder) : BinFolder := { f with nums := some [] }

/-! ## Uniform -/

/-- The folder of a uniform store: is there a file of hashes, and the rest. -/
structure UniformFolder where
  hsh : Bool
  store : Uniform.Store

/-- uniform.go:103-111 `HashStoreExists`, 113-138 `CreateHashStore`, 140-178 `OpenHashStore`. -/
def uniform : Creator UniformFolder Uniform.Store where
  isThere f := f.hsh
  create f := ⟨true, Uniform.createHashStore f.store⟩
  openStore f := if f.hsh = false ∨ Uniform.openFails f.store = true then none else some f.store
  count s := Uniform.countHashes s
  lookup s h :=
    match Uniform.indexOfHash s h with
    | .ok (some i) => some (.at i)
    | .ok none => some .absent
    | .err => some .err
    | .panic => none
  hashAt s i := Uniform.getHashAtIndex s i

end Verif.Creators
