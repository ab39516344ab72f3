import Verif.Model.CakeFiles

/-!
# What a cake holds of the operating system

The open files and memory maps of a process while it opens a cake, appends to it and closes it:
weddingcakeback/tiertop.go:38-127, 163-178, 280-337, tierbelow.go:73-190, 353-500, tierbelowsource.go:119-175,
donutforestwrite.go:28-265, tiertopcreator.go:32-58 and weddingcakefront/cake.go:76-84.

What the files contain, and what is read from them, is `Verif.Model.Cake`; the functions here go through the same steps
and also tell what becomes of the table of things held.  A file or a map is found by its number; no number is used twice.

Not modelled: limits on the number of open files or maps; the Go runtime closing an unreachable `os.File`; an error of
`Stat`, `Seek`, `Write` or `Close`.  `Unmap` of a nil map is an error (`munmap` of no bytes); of any other it succeeds.
After a panic nothing is said about the table.
-/

namespace Verif.CakeHandles

open Verif.ShallowTree Verif.Chunk Verif.SingleTree Verif.DonutForest Verif.TierTop
open Verif.Cake (TierConfig Settings Below Disk Cake Files emptyBelow openedBelow setFolder takeOut)

/-- A thing held: a file of `TierTop`, a file of a tier below, a file of a level, the map of a level, the map of a jump
table. -/
inductive Thing where
  | topFile (name : String)
  | tierFile (tier : Nat) (name : String)
  | levelFile (tier level : Nat)
  | levelMap (tier level : Nat)
  | jumpMap (tier : Nat)
deriving DecidableEq, Repr

/-- What the process holds: the number of the next thing, and number and kind of each. -/
structure Table where
  next : Nat
  held : List (Nat × Thing)
deriving DecidableEq, Repr

/-- `os.Open`, `os.Create`, `os.OpenFile` or `mmap.Map`; the number is `t.next`. -/
def Table.add (t : Table) (x : Thing) : Table := ⟨t.next + 1, t.held ++ [(t.next, x)]⟩

/-- `file.Close()` or `Unmap()`. -/
def Table.remove (t : Table) (i : Nat) : Table := { t with held := t.held.filter fun x => decide (x.1 ≠ i) }

/-- A file that is opened and closed again. -/
def Table.during (t : Table) (x : Thing) : Table := (t.add x).remove t.next

/-- tierbelow.go:26-39: what a `TierBelow` holds; a level without a file has a nil map (line 378). -/
structure Holding where
  tier : Nat
  maps : List (Option Nat)
  jump : Option Nat
  file : Option Nat
deriving DecidableEq, Repr

/-- tierbelow.go:73-79 `OpenAsEmptyTier`. -/
def nothing (tier : Nat) : Holding := ⟨tier, [], none, none⟩

/-- What a cake holds: the number of `TierTop/Hashes.hsh`, and the tiers of the chain. -/
structure Held where
  top : Nat
  chain : List Holding
deriving DecidableEq, Repr

/-! ## Opening -/

/-- tierbelow.go:367-396 `mmapLevelFiles`, as `DonutForest.mapLevels`. -/
def mapLevels (tier : Nat) (d : DonutForest.Folder) : Nat → Nat → Bool → Table → Option (List (Bytes × Option Nat)) × Table
  | 0, _, _, t => (some [], t)
  | k + 1, n, found, t =>
    match hexLevel d n with
    | none =>
      if found = true then (some [], t)
      else
        match mapLevels tier d k (n + 1) false t with
        | (some ms, t) => (some (([], none) :: ms), t)
        | (none, t) => (none, t)
    | some [] => (none, t.during (.levelFile tier n))
    | some (b :: bs) =>
      match mapLevels tier d k (n + 1) true (((t.add (.levelFile tier n)).add (.levelMap tier n)).remove t.next) with
      | (some ms, t') => (some ((b :: bs, some (t.next + 1)) :: ms), t')
      | (none, t') => (none, t')

/-- The loops at tierbelow.go:91-93 and its like, which pass over errors. -/
def unmapAll (ids : List (Option Nat)) (t : Table) : Table :=
  ids.foldl (fun t i => match i with
    | none => t
    | some i => t.remove i) t

/-- tierbelow.go:81-145 `Open`, as `DonutForest.openTier`. -/
def openTier (tier quota : Nat) (d : DonutForest.Folder) (t : Table) : Outcome (Tier × Holding) × Table :=
  match mapLevels tier d 65 0 false t with
  | (none, t1) => (.error, t1)
  | (some maps, t1) =>
    match d.jumps with
    | none => (.error, unmapAll (maps.map Prod.snd) t1)
    | some [] => (.error, unmapAll (maps.map Prod.snd) (t1.during (.tierFile tier "DonutForestsJumpTables.bin")))
    | some (j :: js) =>
      let t2 := ((t1.add (.tierFile tier "DonutForestsJumpTables.bin")).add (.jumpMap tier)).remove t1.next
      match d.info with
      | none => (.error, (unmapAll (maps.map Prod.snd) t2).remove (t1.next + 1))
      | some bytes =>
        let t3 := t2.during (.tierFile tier "DonutForestsInfo.bin")
        match readInfo quota (maps.map Prod.fst) bytes with
        | .error => (.error, (unmapAll (maps.map Prod.snd) t3).remove (t1.next + 1))
        | .panic => (.panic, t3)
        | .ok fs =>
          match d.hashes with
          | none => (.error, (unmapAll (maps.map Prod.snd) t3).remove (t1.next + 1))
          | some hs => (.ok (⟨fs, j :: js, hs⟩, ⟨tier, maps.map Prod.snd, some (t1.next + 1), some t3.next⟩),
              t3.add (.tierFile tier "Hashes.hsh"))

/-- tiertop.go:51-70, as `Cake.openBelows`: when a tier does not open, the ones before it are not closed. -/
def openBelows (disk : Disk) : Nat → List TierConfig → Table → Outcome (List Below × List Holding) × Table
  | _, [], t => (.ok ([], []), t)
  | index, cfg :: cfgs, t =>
    match (disk index).hashes with
    | none =>
      match openBelows disk (index + 1) cfgs t with
      | (.ok (bs, hs), t') => (.ok (emptyBelow index cfg :: bs, nothing index :: hs), t')
      | (.error, t') => (.error, t')
      | (.panic, t') => (.panic, t')
    | some _ =>
      match openTier index cfg.quota (disk index) t with
      | (.error, t') => (.error, t')
      | (.panic, t') => (.panic, t')
      | (.ok (b, h), t') =>
        match openBelows disk (index + 1) cfgs t' with
        | (.ok (bs, hs), t'') => (.ok (openedBelow index cfg b :: bs, h :: hs), t'')
        | (.error, t'') => (.error, t'')
        | (.panic, t'') => (.panic, t'')

/-- tiertop.go:38-127 `NewTierTop` and `Open`, as `Cake.Files.openCake`: when `FirstPresentationIndex.bin` or a tier does
not open, `Hashes.hsh` is not closed. -/
def openCake (s : Settings) (f : Files) (t : Table) : Outcome (Cake × Held) × Table :=
  match f.hashes with
  | none => (.error, t)
  | some file =>
    match f.first with
    | none => (.error, t.add (.topFile "Hashes.hsh"))
    | some first =>
      match openTop file first with
      | none => (.panic, t.add (.topFile "Hashes.hsh"))
      | some top =>
        match openBelows f.tiers 0 s.tiers
            ((t.add (.topFile "Hashes.hsh")).during (.topFile "FirstPresentationIndex.bin")) with
        | (.ok (bs, hs), t') => (.ok (⟨top, f.tiers, bs⟩, ⟨t.next, hs⟩), t')
        | (.error, t') => (.error, t')
        | (.panic, t') => (.panic, t')

/-! ## Closing -/

/-- The loop at tierbelow.go:158-163: the first error ends it. -/
def closeMaps : List (Option Nat) → Table → Bool × Table
  | [], t => (true, t)
  | none :: _, t => (false, t)
  | some i :: ms, t => closeMaps ms (t.remove i)

/-- A field that is closed if it is not nil. -/
def closeField (i : Option Nat) (t : Table) : Table :=
  match i with
  | none => t
  | some i => t.remove i

/-- tierbelow.go:156-190 `CloseThis`; `none` is an error.  (`underlyingFile` is the file of `hashesFile`, closed with
it.) -/
def closeThis (h : Holding) (t : Table) : Option Holding × Table :=
  match closeMaps h.maps t with
  | (false, t') => (none, t')
  | (true, t') => (some (nothing h.tier), closeField h.file (closeField h.jump t'))

/-- `CloseThis` of the next tier, if there is one (tiertop.go:326-334, tierbelowsource.go:156-162). -/
def closeNext : List Holding → Table → Option (List Holding) × Table
  | [], t => (some [], t)
  | h :: hs, t =>
    match closeThis h t with
    | (none, t') => (none, t')
    | (some h', t') => (some (h' :: hs), t')

/-- tierbelow.go:147-155 `CloseAll`: the tiers after this one come first; whether there was no error. -/
def closeChain : List Holding → Table → Bool × Table
  | [], t => (true, t)
  | h :: hs, t =>
    match closeChain hs t with
    | (false, t') => (false, t')
    | (true, t') =>
      match closeThis h t' with
      | (none, t'') => (false, t'')
      | (some _, t'') => (true, t'')

/-- cake.go:76-84 `Close` with tiertop.go:163-178. -/
def closeCake (h : Held) (t : Table) : Bool × Table :=
  match closeChain h.chain t with
  | (false, t') => (false, t')
  | (true, t') => (true, t'.remove h.top)

/-! ## Appending -/

/-- donutforestwrite.go:147-154, 325-334, 436-445: the level files, opened and closed. -/
def levelFiles (tier : Nat) : Nat → Table → Table
  | 0, t => t
  | n + 1, t => (levelFiles tier n (t.add (.levelFile tier n))).remove t.next

/-- donutforestwrite.go:28-265 `Write` for a tier below, as `Cake.writeBelow`.  The numbers of the files opened at lines
42, 49 and 56 are `t.next` and the two after it. -/
def writeBelow (ent : List Entry → Nat → Nat) : List TierConfig → Disk → Below → Holding → List Below → List Holding → Table →
    Outcome (Disk × List Below × List Holding) × Table
  | [], _, _, _, _, _, t => (.panic, t)
  | cfg :: cfgs, disk, src, hsrc, below, hbelow, t =>
    let t1 := ((t.add (.tierFile (src.index + 1) "Hashes.hsh")).add (.tierFile (src.index + 1) "DonutForestsJumpTables.bin")).add
      (.tierFile (src.index + 1) "DonutForestsInfo.bin")
    match src.forests, src.jumps, src.hashes with
    | f :: fs, some j, some hs =>
      match takeOut src.cfg ⟨f :: fs, j, hs⟩ (256 ^ src.cfg.pre) 0 with
      | none => (.panic, t1)
      | some source =>
        match bake ent cfg.c cfg.pre f.1 source with
        | none => (.panic, t1)
        | some forest =>
          match (disk src.index).hashes with
          | none => (.error, levelFiles (src.index + 1) forest.levels.length t1)
          | some file =>
            match closeThis hsrc (((levelFiles (src.index + 1) forest.levels.length t1).during
                (.tierFile src.index "Hashes.hsh")).remove t.next) with
            | (none, t2) => (.error, t2)
            | (some _, t2) =>
              match closeNext hbelow t2 with
              | (none, t3) => (.error, t3)
              | (some hbelow', t3) =>
                let disk1 := setFolder disk (src.index + 1) (addForest (disk (src.index + 1)) forest file)
                let disk2 := setFolder disk1 src.index noFolder
                match openTier (src.index + 1) cfg.quota (disk2 (src.index + 1)) t3 with
                | (.error, t4) => (.error, t4)
                | (.panic, t4) => (.panic, t4)
                | (.ok (b, hnew), t4) =>
                  let new := openedBelow (src.index + 1) cfg b
                  if new.forests.length = cfg.quota then
                    match writeBelow ent cfgs disk2 new hnew (Verif.Cake.closeNext below) hbelow'
                        ((t4.remove (t.next + 1)).remove (t.next + 2)) with
                    | (.ok (d, bs, hs), t5) => (.ok (d, emptyBelow src.index src.cfg :: bs, nothing src.index :: hs), t5)
                    | (.error, t5) => (.error, t5)
                    | (.panic, t5) => (.panic, t5)
                  else (.ok (disk2, emptyBelow src.index src.cfg :: new :: Verif.Cake.closeNext below,
                      nothing src.index :: hnew :: hbelow'), (t4.remove (t.next + 1)).remove (t.next + 2))
    | _, _, _ => (.panic, t1)

/-- tiertop.go:285-322: the file of the top tier is closed, made anew (tiertopcreator.go:32-58) and opened; its number is
the third after `t.next`. -/
def reopenTop (top : Nat) (t : Table) : Table :=
  let t1 := t.remove top
  let t2 := (((t1.add (.topFile "Hashes.hsh")).add (.topFile "FirstPresentationIndex.bin")).remove t1.next).remove (t1.next + 1)
  (t2.add (.topFile "Hashes.hsh")).during (.topFile "FirstPresentationIndex.bin")

/-- donutforestwrite.go:28-265 `Write` for the top tier, as `Cake.writeTop`. -/
def writeTop (ent : List Entry → Nat → Nat) (s : Settings) (m : Memory) (k : Cake) (h : Held) (t : Table) :
    Outcome (Cake × Held) × Table :=
  match s.tiers with
  | [] => (.panic, t)
  | cfg :: cfgs =>
    let t1 := ((t.add (.tierFile 0 "Hashes.hsh")).add (.tierFile 0 "DonutForestsJumpTables.bin")).add
      (.tierFile 0 "DonutForestsInfo.bin")
    match bake ent cfg.c cfg.pre k.top.first
        [(k.top.cells.map (Cell.read m)).mapIdx fun i h => ⟨h, globalOfTop i k.top.first⟩] with
    | none => (.panic, t1)
    | some forest =>
      let disk := setFolder k.disk 0 (addForest (k.disk 0) forest k.top.file)
      let t2 := ((levelFiles 0 forest.levels.length t1).during (.topFile "Hashes.hsh")).remove t.next
      match makeEmpty k.top with
      | none => (.panic, t2)
      | some top =>
        match closeNext h.chain (reopenTop h.top t2) with
        | (none, t3) => (.error, t3)
        | (some chain, t3) =>
          match openTier 0 cfg.quota (disk 0) t3 with
          | (.error, t4) => (.error, t4)
          | (.panic, t4) => (.panic, t4)
          | (.ok (b, hnew), t4) =>
            let new := openedBelow 0 cfg b
            if new.forests.length = cfg.quota then
              match writeBelow ent cfgs disk new hnew (Verif.Cake.closeNext k.chain) chain
                  ((t4.remove (t.next + 1)).remove (t.next + 2)) with
              | (.ok (d, bs, hs), t5) => (.ok (⟨top, d, bs⟩, ⟨t2.next + 2, hs⟩), t5)
              | (.error, t5) => (.error, t5)
              | (.panic, t5) => (.panic, t5)
            else (.ok (⟨top, disk, new :: Verif.Cake.closeNext k.chain⟩, ⟨t2.next + 2, hnew :: chain⟩),
              (t4.remove (t.next + 1)).remove (t.next + 2))

/-- tiertop.go:180-216 `AppendHash`, as `Cake.append`: only an append that bakes changes what is held. -/
def append (ent : List Entry → Nat → Nat) (s : Settings) (m : Memory) (k : Cake) (h : Held) (a : Cell) (t : Table) :
    Outcome (Cake × Held × Int) × Table :=
  let index := k.top.cells.length
  if index ≥ s.cap then (.panic, t)
  else
    let x := a.read m
    if x.length ≠ 32 then (.panic, t)
    else
      let top : Top := { k.top with
        map := setMap k.top.map x index, cells := k.top.cells ++ [a], file := k.top.file ++ [x] }
      if index + 1 = s.cap then
        match writeTop ent s m { k with top := top } h t with
        | (.ok (k', h'), t') => (.ok (k', h', globalOfTop index k.top.first), t')
        | (.error, t') => (.error, t')
        | (.panic, t') => (.panic, t')
      else (.ok ({ k with top := top }, h, globalOfTop index k.top.first), t)

end Verif.CakeHandles
