import Verif.Model.DonutForest
import Verif.Model.TierTop

/-!
# The whole cake: the top tier and the chain of tiers below it

Models weddingcakefront/cake.go and, of weddingcakeback, what connects the tiers: tiertop.go:38-72 (`NewTierTop`), 180-216
(`AppendHash`), 280-337 (`MakeEmptyAfterBaking`), donutforestwrite.go:28-265 (`Write`), tierbelow.go:43-79, 147-190 (making
and closing a `TierBelow`), tierbelowsource.go:144-175.

Simplifications.
* The tiers are objects linked by their `nextTier`; no object is ever linked from two, so the chain below the top tier is
  a list. What happens to an object no longer in the chain is left out.
* `TierBelowConfigs` is a list, one configuration for each tier; the number of hashes the top tier holds before it is
  baked (65535, tiertop.go:182, 208) is a parameter.
* The cake is not opened read-only. After an error or a panic nothing more is said about it.
* No operation on files fails, except as in `Verif.Model.DonutForest` and where a missing file is opened.
-/

namespace Verif.Cake

open Verif.ShallowTree Verif.Chunk Verif.SingleTree Verif.DonutForest Verif.TierTop

/-- cakeconfig.go:55-66 `TierBelowConfig`. -/
structure TierConfig where
  c : Config
  pre : Nat
  quota : Nat

/-- cakeconfig.go:17-53. -/
structure Settings where
  cap : Nat
  tiers : List TierConfig

/-- tierbelow.go:24-40 `TierBelow`, as far as it is not in the memory maps; `none` is a nil. -/
structure Below where
  index : Nat
  cfg : TierConfig
  forests : List (Int × List Level)
  jumps : Option Bytes
  hashes : Option (List Bytes)

/-- The folders `Tier0`, `Tier1`, ... -/
abbrev Disk := Nat → DonutForest.Folder

/-- cake.go:10-14, with the files. -/
structure Cake where
  top : Top
  disk : Disk
  chain : List Below

/-! ## Tiers below -/

/-- tierbelow.go:43-60 `NewTierBelow` and 73-79 `OpenAsEmptyTier`. -/
def emptyBelow (index : Nat) (cfg : TierConfig) : Below := ⟨index, cfg, [], none, none⟩

/-- tierbelow.go:81-145 `Open`, once it has succeeded. -/
def openedBelow (index : Nat) (cfg : TierConfig) (t : Tier) : Below := ⟨index, cfg, t.forests, some t.jumps, some t.hashes⟩

/-- tierbelow.go:156-190 `CloseThis`: the descriptions of the forests stay. -/
def closeBelow (b : Below) : Below := { b with jumps := none, hashes := none }

/-- `CloseThis` of the next tier (tiertop.go:325-335, tierbelowsource.go:157-163). -/
def closeNext : List Below → List Below
  | [] => []
  | b :: bs => closeBelow b :: bs

/-- tierbelow.go:192-248 `TryIndexOfHash`; a slice of a nil jump table is a panic. -/
def belowIndexOf (b : Below) (h : Bytes) : Option (Option Int) :=
  if h.length < 8 then none
  else
    match b.forests with
    | [] => some none
    | _ :: _ =>
      match b.jumps with
      | none => none
      | some j => DonutForest.tryIndexOfHash b.cfg.c b.cfg.pre ⟨b.forests, j, []⟩ h

/-- tierbelow.go:250-268 `TryGetHashAtIndex`; `CountHashes` of a nil hash file is a panic. -/
def belowHashAt (b : Below) (g : Int) : Option (Option Bytes) :=
  match b.forests with
  | [] => some none
  | _ :: _ =>
    match b.hashes with
    | none => none
    | some hs => some (DonutForest.tryGetHashAtIndex ⟨b.forests, [], hs⟩ g)

/-! ## Opening -/

/-- tiertop.go:51-70: the tiers from `index` on. -/
def openBelows (disk : Disk) : Nat → List TierConfig → Outcome (List Below)
  | _, [] => .ok []
  | index, cfg :: cfgs =>
    match (disk index).hashes with
    | none =>
      match openBelows disk (index + 1) cfgs with
      | .ok bs => .ok (emptyBelow index cfg :: bs)
      | .error => .error
      | .panic => .panic
    | some _ =>
      match openTier cfg.quota (disk index) with
      | .error => .error
      | .panic => .panic
      | .ok t =>
        match openBelows disk (index + 1) cfgs with
        | .ok bs => .ok (openedBelow index cfg t :: bs)
        | .error => .error
        | .panic => .panic

/-- tiertop.go:38-72 `NewTierTop`, on the files found. -/
def openCake (s : Settings) (file : List Bytes) (first : Int) (disk : Disk) : Outcome Cake :=
  match openTop file first with
  | none => .panic
  | some top =>
    match openBelows disk 0 s.tiers with
    | .ok bs => .ok ⟨top, disk, bs⟩
    | .error => .error
    | .panic => .panic

/-- cakecreator.go:27-40: a new cake. -/
def newCake (s : Settings) : Outcome Cake := openCake s [] 0 fun _ => noFolder

/-- cake.go:76-84 `Close`, and opening again. -/
def reopen (s : Settings) (k : Cake) : Outcome Cake := openCake s k.top.file k.top.first k.disk

/-! ## Looking up -/

/-- The loop at cake.go:34-46 over the tiers below. -/
def searchBelow (h : Bytes) : List Below → Option (Option Int)
  | [] => some none
  | b :: bs =>
    match belowIndexOf b h with
    | none => none
    | some (some g) => some (some g)
    | some none => searchBelow h bs

/-- cake.go:27-51 `IndexOfHash`. -/
def indexOfHash (k : Cake) (h : Bytes) : Option Int :=
  match TierTop.tryIndexOfHash k.top h with
  | none => none
  | some (some g) => some g
  | some none =>
    match searchBelow h k.chain with
    | none => none
    | some (some g) => some g
    | some none => some (-1)

/-- The loop at cake.go:57-65 over the tiers below. -/
def hashBelow (g : Int) : List Below → Option (Option Bytes)
  | [] => some none
  | b :: bs =>
    match belowHashAt b g with
    | none => none
    | some (some h) => some (some h)
    | some none => hashBelow g bs

/-- cake.go:53-70 `GetHashAtIndex`; the inner `none` is the error 'not found'. -/
def getHashAtIndex (m : Memory) (k : Cake) (g : Int) : Option (Option Bytes) :=
  match TierTop.tryGetHashAtIndex m k.top g with
  | none => none
  | some (some h) => some (some h)
  | some none => hashBelow g k.chain

/-! ## Appending -/

/-- Writing to one folder. -/
def setFolder (disk : Disk) (n : Nat) (f : DonutForest.Folder) : Disk := fun i => if i = n then f else disk i

/-- donutforestwrite.go:80-83: `GetHashesAtIndex` for `n` indices from `i` on. -/
def takeOut (cfg : TierConfig) (t : Tier) : Nat → Nat → Option (List (List Entry))
  | 0, _ => some []
  | n + 1, i =>
    match getHashesAtIndex cfg.c cfg.pre t i with
    | none => none
    | some es => (takeOut cfg t n (i + 1)).map (es :: ·)

/-- donutforestwrite.go:28-265 `Write` for a tier below, its `nextTier` being the first of `below`. The list has the
configurations of the tiers after it. The result is the disk and the chain from the source tier on. -/
def writeBelow (ent : List Entry → Nat → Nat) : List TierConfig → Disk → Below → List Below → Outcome (Disk × List Below)
  | [], _, _, _ => .panic
  | cfg :: cfgs, disk, src, below =>
    match src.forests, src.jumps, src.hashes with
    | f :: fs, some j, some hs =>
      match takeOut src.cfg ⟨f :: fs, j, hs⟩ (256 ^ src.cfg.pre) 0 with
      | none => .panic
      | some source =>
        match bake ent cfg.c cfg.pre f.1 source with
        | none => .panic
        | some forest =>
          match (disk src.index).hashes with
          | none => .error
          | some file =>
            let disk1 := setFolder disk (src.index + 1) (addForest (disk (src.index + 1)) forest file)
            let disk2 := setFolder disk1 src.index noFolder
            match openTier cfg.quota (disk2 (src.index + 1)) with
            | .error => .error
            | .panic => .panic
            | .ok t =>
              let new := openedBelow (src.index + 1) cfg t
              if new.forests.length = cfg.quota then
                match writeBelow ent cfgs disk2 new (closeNext below) with
                | .ok (d, bs) => .ok (d, emptyBelow src.index src.cfg :: bs)
                | .error => .error
                | .panic => .panic
              else .ok (disk2, emptyBelow src.index src.cfg :: new :: closeNext below)
    | _, _, _ => .panic

/-- donutforestwrite.go:28-265 `Write` for the top tier. -/
def writeTop (ent : List Entry → Nat → Nat) (s : Settings) (m : Memory) (k : Cake) : Outcome Cake :=
  match s.tiers with
  | [] => .panic
  | cfg :: cfgs =>
    match bake ent cfg.c cfg.pre k.top.first
        [(k.top.cells.map (Cell.read m)).mapIdx fun i h => ⟨h, globalOfTop i k.top.first⟩] with
    | none => .panic
    | some forest =>
      let disk := setFolder k.disk 0 (addForest (k.disk 0) forest k.top.file)
      match makeEmpty k.top with
      | none => .panic
      | some top =>
        match openTier cfg.quota (disk 0) with
        | .error => .error
        | .panic => .panic
        | .ok t =>
          let new := openedBelow 0 cfg t
          if new.forests.length = cfg.quota then
            match writeBelow ent cfgs disk new (closeNext k.chain) with
            | .ok (d, bs) => .ok ⟨top, d, bs⟩
            | .error => .error
            | .panic => .panic
          else .ok ⟨top, disk, new :: closeNext k.chain⟩

/-- cake.go:86-92 and tiertop.go:180-216 `AppendHash` of a slice; the index is returned. -/
def append (ent : List Entry → Nat → Nat) (s : Settings) (m : Memory) (k : Cake) (a : Cell) : Outcome (Cake × Int) :=
  let index := k.top.cells.length
  if index ≥ s.cap then .panic
  else
    let h := a.read m
    if h.length ≠ 32 then .panic
    else
      let top : Top := { k.top with
        map := setMap k.top.map h index, cells := k.top.cells ++ [a], file := k.top.file ++ [h] }
      if index + 1 = s.cap then
        match writeTop ent s m { k with top := top } with
        | .ok k' => .ok (k', globalOfTop index k.top.first)
        | .error => .error
        | .panic => .panic
      else .ok ({ k with top := top }, globalOfTop index k.top.first)

end Verif.Cake
