import Verif.Model.Cake

/-!
# The files of a cake: creating it, and being killed while it bakes

Models weddingcakeback/tiertopcreator.go, weddingcakefront/cakecreator.go and, of weddingcakeback/donutforestwrite.go:28-213
and tiertop.go:180-216, 251-278, 280-337, the order in which an append that bakes changes the files.

Simplifications.
* A file `FirstPresentationIndex.bin` of less than eight bytes is the same as none (`binary.Read` returns an error where
  `os.Open` would have).
* The process is killed between two changes of files, not within one; the files of the levels are written as one. What has
  been handed to the operating system stays. `Hashes.hsh` of the top tier is written through a buffer, of which whole hashes
  reach the file.
-/

namespace Verif.Cake

open Verif.ShallowTree Verif.Chunk Verif.SingleTree Verif.DonutForest Verif.TierTop

/-- The files of a cake: `TierTop/Hashes.hsh`, `TierTop/FirstPresentationIndex.bin` and the folders `Tier0`, `Tier1`, ... -/
structure Files where
  hashes : Option (List Bytes)
  first : Option Int
  tiers : Disk

/-- tiertopcreator.go:21-30 `Exists` and cakecreator.go:27-30 `HashStoreExists`. -/
def Files.exist (f : Files) : Bool := f.hashes.isSome

/-- tiertopcreator.go:32-58 `Create`: the tiers below are not looked at. -/
def Files.createTop (f : Files) (first : Int) : Files := { f with hashes := some [], first := some first }

/-- cakecreator.go:32-35 `CreateHashStore`. -/
def Files.create (f : Files) : Files := f.createTop 0

/-- tiertopcreator.go:60-66 `Open`, cakecreator.go:37-45 `OpenHashStore` and tiertop.go:38-72 `NewTierTop`. -/
def Files.openCake (s : Settings) (f : Files) : Outcome Cake :=
  match f.hashes, f.first with
  | some hs, some first => Verif.Cake.openCake s hs first f.tiers
  | _, _ => .error

/-- The files of a cake that has been closed (cake.go:76-84), or of which everything has reached the disk. -/
def closedFiles (k : Cake) : Files := ⟨some k.top.file, some k.top.first, k.disk⟩

/-- The files of a cake which was killed between appends when `m` hashes of its top tier had reached the disk. -/
def killedFiles (k : Cake) (m : Nat) : Files := ⟨some (k.top.file.take m), some k.top.first, k.disk⟩

/-- donutforestwrite.go:33-60: the files of the tier that is written to are there. -/
def openedFolder (d : DonutForest.Folder) : DonutForest.Folder :=
  { d with jumps := some (d.jumps.getD []), info := some (d.info.getD []), hashes := some (d.hashes.getD []) }

/-- The moments of an append that bakes, in order. -/
inductive Moment where
  /-- The files of the tier below have been opened (donutforestwrite.go:33-60); `m` hashes of the top tier have reached the
  disk. -/
  | opened (m : Nat)
  /-- The levels have been written (donutforestwrite.go:66-156). -/
  | levels (m : Nat)
  /-- So has the jump table (donutforestwrite.go:125-138). -/
  | jumps (m : Nat)
  /-- The hashes have been copied (tiertop.go:251-278). -/
  | copied
  /-- The forest has been described (donutforestwrite.go:166-198). -/
  | described
  /-- `TierTop/Hashes.hsh` has been removed (tiertop.go:302). -/
  | unlinked
  /-- `TierTop/FirstPresentationIndex.bin` has been removed (tiertop.go:307). -/
  | bare
  /-- `TierTop/Hashes.hsh` has been made again (tiertopcreator.go:39-44). -/
  | blank
  /-- `TierTop/FirstPresentationIndex.bin` has been written again (tiertopcreator.go:45-55). -/
  | done

/-- The files at a moment of the append of `h` to `k` which bakes the forest `forest`. -/
def filesAt (k : Cake) (h : Bytes) (forest : Forest) : Moment → Files
  | .opened m => ⟨some ((k.top.file ++ [h]).take m), some k.top.first, setFolder k.disk 0 (openedFolder (k.disk 0))⟩
  | .levels m => ⟨some ((k.top.file ++ [h]).take m), some k.top.first,
      setFolder k.disk 0 { openedFolder (k.disk 0) with level := appendLevels 0 forest.levels (k.disk 0).level }⟩
  | .jumps m => ⟨some ((k.top.file ++ [h]).take m), some k.top.first,
      setFolder k.disk 0 { openedFolder (k.disk 0) with
        level := appendLevels 0 forest.levels (k.disk 0).level, jumps := some ((k.disk 0).jumps.getD [] ++ forest.jumps) }⟩
  | .copied => ⟨some (k.top.file ++ [h]), some k.top.first,
      setFolder k.disk 0 { addForest (k.disk 0) forest (k.top.file ++ [h]) with info := some ((k.disk 0).info.getD []) }⟩
  | .described => ⟨some (k.top.file ++ [h]), some k.top.first, setFolder k.disk 0 (addForest (k.disk 0) forest (k.top.file ++ [h]))⟩
  | .unlinked => ⟨none, some k.top.first, setFolder k.disk 0 (addForest (k.disk 0) forest (k.top.file ++ [h]))⟩
  | .bare => ⟨none, none, setFolder k.disk 0 (addForest (k.disk 0) forest (k.top.file ++ [h]))⟩
  | .blank => ⟨some [], none, setFolder k.disk 0 (addForest (k.disk 0) forest (k.top.file ++ [h]))⟩
  | .done => ⟨some [], some (k.top.first + (k.top.file.length + 1)),
      setFolder k.disk 0 (addForest (k.disk 0) forest (k.top.file ++ [h]))⟩

/-- The bytes a forest has on a level. -/
def levelBytes (forest : Forest) (n : Nat) : Bytes :=
  match forest.levels[n]? with
  | some lv => lv.index ++ lv.nodes
  | none => []

/-- The folder `d` of a tier at any moment of the writing of `forest` with the hashes `file`, from donutforestwrite.go:60,
when its files are open, to 164, before the forest is described: of every file any part of what is written to it may have
reached it, and the file of a level may be there with nothing in it. (Not all of these happen: the files are written in a
certain order.) -/
structure PartBake (d : DonutForest.Folder) (forest : Forest) (file : List Bytes) (d' : DonutForest.Folder) : Prop where
  levels : ∀ n, d'.level n = d.level n ∨
    (n < forest.levels.length ∧ ∃ p, p <+: levelBytes forest n ∧ d'.level n = some ((d.level n).getD [] ++ p))
  jumps : ∃ p, p <+: forest.jumps ∧ d'.jumps = some (d.jumps.getD [] ++ p)
  info : d'.info = some (d.info.getD [])
  hashes : ∃ p, p <+: file ∧ d'.hashes = some (d.hashes.getD [] ++ p)

/-- The forest that the append of `h` bakes (`writeTop`). -/
def forestOf (ent : List Entry → Nat → Nat) (s : Settings) (k : Cake) (h : Bytes) : Option Forest :=
  match s.tiers with
  | [] => none
  | cfg :: _ => bake ent cfg.c cfg.pre k.top.first
      [(((k.top.cells ++ [Cell.own h]).map (Cell.read fun _ => [])).mapIdx fun i x => ⟨x, globalOfTop i k.top.first⟩)]

/-- The files left by a process killed at a moment of the append of `h` to `k`, an append that bakes. -/
def killedBaking (ent : List Entry → Nat → Nat) (s : Settings) (k : Cake) (h : Bytes) (p : Moment) : Option Files :=
  (forestOf ent s k h).map fun f => filesAt k h f p

end Verif.Cake
