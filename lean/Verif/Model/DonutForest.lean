import Verif.Model.ChunkFiles
import Verif.Model.SingleTree

/-!
# Donut forests and the tiers made of them

Models weddingcakeback/donutforestwrite.go, donutforestread.go, tierbelow.go, tierbelowsource.go, bakingdesigner.go,
bakingdesign.go and hashidconversions.go, as far as they concern one tier: how a forest is written to the tier's files,
how the tier is opened, and how hashes are looked up and taken out again. What is the same as for one tree in weddingcake
(formats, nodes, searching) is in `Verif.Model.NodeFormat` and `Verif.Model.Chunk`, with `Config.back` set.

Simplifications.
* `none` is a panic. A check made where a number is written (`WriteID`, types.go) is made where the number arises.
* The presentation index of a hash is turned into the id that goes into its leaf (donutforestwrite.go:481-483) before its
  tree is made, not when the leaf is written: the tree does not depend on it.
* The metrics are gathered and the forest is written from the same trees (the program makes every tree twice, in the same
  way). `PanicIfDuplicates` (bakingdesigner.go:81-96) panics where making the tree would.
* `Hashes.hsh` is the list of its hashes (wordfile/hashfile.go has its own model). Other than a missing file, or mapping
  an empty one, no operation on files fails; a memory map is the contents of the file when mapped.
* A level file is known by the number its name has in decimal digits (`Level%02dNodes.bin`, donutforestwrite.go:326, 440).
-/

namespace Verif.DonutForest

open Verif.ShallowTree Verif.Chunk Verif.SingleTree

/-! ## The design of a forest -/

/-- bakingdesign.go:8-19 `LevelFormat`. -/
structure LevelFormat where
  groups : List Group
  allocs : List Alloc
deriving DecidableEq, Repr

/-- The number of levels of a tree whose root is on level `pre`. -/
def depth (pre : Nat) (t : Tree) : Nat := if t.isEmpty = true then 0 else pre + levelCount (visitAll t)

/-- bakingdesigner.go:32-79, 98-126, 241-261 and 138-155: the shapes of the levels, all trees together. The array has 65
levels. -/
def shapes (c : Config) (pre : Nat) (trees : List Tree) : Option (List Shape) :=
  let n := (trees.map (depth pre)).foldl max 0
  if n > 65 then none
  else
    some ((List.range n).map fun level s =>
      (trees.map fun t => (visitAll t).countP fun n => decide (pre + n.1.length = level ∧ activeSlots n.2 = s)).sum % c.wrap)

/-- bakingdesign.go:21-50 `InitializeNodeIdAllocations`. -/
def initLevels (c : Config) : List (List Group) → Option (List LevelFormat)
  | [] => some []
  | gs :: rest =>
    match initAllocs c 1 gs with
    | none => none
    | some as => (initLevels c rest).map (⟨gs, as⟩ :: ·)

/-- bakingdesigner.go:128-221 `DesignTheDesign`. -/
def designForest (c : Config) (pre : Nat) (trees : List Tree) : Option (List LevelFormat) :=
  match shapes c pre trees with
  | none => none
  | some ss =>
    match chooseFormats c ss with
    | none => none
    | some gss => initLevels c gss

/-! ## Writing a forest -/

/-- The nodes of a tree that are on a level. -/
def nodesOn (pre : Nat) (t : Tree) (level : Nat) : List Named := if level < pre then [] else nodesAt t (level - pre)

/-- Pass A, donutforestwrite.go:379-391: the ids of the nodes, in order, and what is left of the allocations. -/
def allocRun (gs : List Group) : List Named → List Alloc → Option (List Nat × List Alloc)
  | [], as => some ([], as)
  | n :: ns, as =>
    match allocate gs as (activeSlots n.2) with
    | none => none
    | some (id, as') => (allocRun gs ns as').map fun x => (id :: x.1, x.2)

/-- What `serializeSingleTreeNodeBytes` makes of the levels from some level on: their bytes, the formats with what is left
of their allocations, the ids on the first of these levels, the id of the root if met (else 0). -/
structure Serialized where
  bytes : List Bytes
  formats : List LevelFormat
  ids : IdMap
  root : Nat

/-- donutforestwrite.go:345-428 `serializeSingleTreeNodeBytes`, for the levels from `level` on, bottom-up. -/
def treeLevels (c : Config) (pre : Nat) (t : Tree) : Nat → List LevelFormat → Option Serialized
  | _, [] => some ⟨[], [], fun _ => none, 0⟩
  | level, lf :: rest =>
    match treeLevels c pre t (level + 1) rest with
    | none => none
    | some s =>
      match allocRun lf.groups (nodesOn pre t level) lf.allocs with
      | none => none
      | some (ids, as) =>
        if ids.any (fun id => decide (id ≥ 256 ^ c.w)) = true then none
        else
          match groupBytes c lf.groups s.ids (nodesOn pre t level) 0 lf.groups with
          | none => none
          | some bs =>
            let m := idMap (nodesOn pre t level) ids
            some ⟨bs :: s.bytes, ⟨lf.groups, as⟩ :: s.formats, m, if level = pre then (m []).getD 0 else s.root⟩

/-- The loop at donutforestwrite.go:113-142 over all trees: the bytes of the nodes on each level, and the jump table. -/
def writeTrees (c : Config) (pre : Nat) : List Tree → List LevelFormat → Option (List Bytes × Bytes)
  | [], fs => some (fs.map fun _ => [], [])
  | t :: ts, fs =>
    match treeLevels c pre t 0 fs with
    | none => none
    | some s => (writeTrees c pre ts s.formats).map fun x => (List.zipWith (· ++ ·) s.bytes x.1, leEnc c.w s.root ++ x.2)

/-- A forest as written: its first index, its levels, their sizes as recorded in `DonutForestsInfo.bin`, its jump
table. -/
structure Forest where
  first : Int
  levels : List Level
  sizes : List (Nat × Nat)
  jumps : Bytes
deriving DecidableEq, Repr

/-- bakingdesign.go:71-92 `countChunkLevelBytes`. -/
def levelSizes (c : Config) (gs : List Group) : Nat × Nat := (2 + gs.length * (c.w + 4), (gs.map (·.bytes)).sum)

/-- donutforestwrite.go:86-103: the hashes of one index of the source tier, in buckets. -/
def split (pre : Nat) (l : List Entry) : List (List Entry) :=
  if pre = 0 then [l] else allBytes.map fun b => l.filter fun e => byteAt e.hash (pre - 1) = b

/-- donutforestwrite.go:115-118, 455-488: the tree of a bucket, with hash ids. -/
def treeOf (ent : List Entry → Nat → Nat) (c : Config) (pre : Nat) (first : Int) (bucket : List Entry) : Option Tree :=
  match toLocal c first bucket with
  | none => none
  | some loc =>
    if loc.any (fun e => decide (e.pi ≥ 256 ^ c.hw)) = true then none else generateSingle ent loc pre c.hl c.r

/-- The trees of all buckets. -/
def allTrees (ent : List Entry → Nat → Nat) (c : Config) (pre : Nat) (first : Int) : List (List Entry) → Option (List Tree)
  | [] => some []
  | b :: bs =>
    match treeOf ent c pre first b with
    | none => none
    | some t => (allTrees ent c pre first bs).map (t :: ·)

/-- donutforestwrite.go:28-198 `Write`, without the files: the forest made of the hashes of the source tier, given for
each of its indices. `pre` is the number of prefix bytes of the destination tier. -/
def bake (ent : List Entry → Nat → Nat) (c : Config) (pre : Nat) (first : Int) (source : List (List Entry)) : Option Forest :=
  match allTrees ent c pre first (source.flatMap (split pre)) with
  | none => none
  | some trees =>
    match designForest c pre trees with
    | none => none
    | some fs =>
      if fs.any (fun lf => lf.groups.any fun g => decide (g.nodes ≥ 256 ^ c.w)) = true then none
      else
        match writeTrees c pre trees fs with
        | none => none
        | some (nodes, jumps) =>
          some ⟨first, List.zipWith (fun lf bs => ⟨indexBytes c lf.groups, bs⟩) fs nodes, fs.map fun lf => levelSizes c lf.groups,
            jumps⟩

/-! ## The files of a tier -/

/-- The folder of a tier. -/
structure Folder where
  level : Nat → Option Bytes
  jumps : Option Bytes
  info : Option Bytes
  hashes : Option (List Bytes)

/-- No folder. -/
def noFolder : Folder := ⟨fun _ => none, none, none, none⟩

/-- donutforestwrite.go:166-198: what is appended to `DonutForestsInfo.bin`. -/
def infoOf (f : Forest) : Bytes :=
  leEnc 8 (toU64 f.first) ++ UInt8.ofNat f.sizes.length :: f.sizes.flatMap fun s => leEnc 8 s.1 ++ leEnc 8 s.2

/-- donutforestwrite.go:28-198: the folder after a forest has been written to it, with the hashes of the source tier. -/
def addForest (d : Folder) (f : Forest) (hashes : List Bytes) : Folder :=
  { level := appendLevels 0 f.levels d.level
    jumps := some (d.jumps.getD [] ++ f.jumps)
    info := some (d.info.getD [] ++ infoOf f)
    hashes := some (d.hashes.getD [] ++ hashes) }

/-! ## Opening a tier -/

/-- The file `Level%02XNodes.bin` (tierbelow.go:368) of a level: if the hexadecimal number has letters there is none,
otherwise it is the one whose decimal number looks the same. -/
def hexLevel (d : Folder) (n : Nat) : Option Bytes :=
  if n / 16 ≤ 9 ∧ n % 16 ≤ 9 then d.level (n / 16 * 10 + n % 16) else none

/-- The loop at tierbelow.go:367-396: `k` more levels from `n` on; a level without a file before the first with one is
mapped to nothing. The outer `none` is an error. -/
def mapLevels (d : Folder) : Nat → Nat → Bool → Option (List Bytes)
  | 0, _, _ => some []
  | k + 1, n, found =>
    match hexLevel d n with
    | none => if found = true then some [] else (mapLevels d k (n + 1) false).map ([] :: ·)
    | some [] => none
    | some (b :: bs) => (mapLevels d k (n + 1) true).map ((b :: bs) :: ·)

/-- tierbelow.go:24-40, an open `TierBelow`: for each forest its first index and its levels. -/
structure Tier where
  forests : List (Int × List Level)
  jumps : Bytes
  hashes : List Bytes
deriving DecidableEq, Repr

/-- The loop at tierbelow.go:451-499; `k` is the number of forests so far. The first argument bounds the number of rounds
(each takes bytes off `rest`, so the number of bytes is enough). -/
def readForests (quota : Nat) (maps : List Bytes) : Nat → Bytes → (Nat → Nat) → Nat → Outcome (List (Int × List Level))
  | _, [], _, _ => .ok []
  | 0, _ :: _, _, _ => .panic
  | fuel + 1, b :: bs, acc, k =>
    let rest := b :: bs
    if k ≥ quota then .panic
    else if rest.length < 8 then .error
    else
      match rest.drop 8 with
      | [] => .error
      | count :: rest' =>
        if maps.length < count.toNat then .panic
        else
          match readLevels maps count.toNat 0 rest' acc with
          | .ok (lvs, rest'', acc') =>
            match readForests quota maps fuel rest'' acc' (k + 1) with
            | .ok fs => .ok ((ofU64 (leDec (rest.take 8)), lvs) :: fs)
            | .error => .error
            | .panic => .panic
          | .error => .error
          | .panic => .panic

/-- tierbelow.go:421-500 `readInfoFile`. -/
def readInfo (quota : Nat) (maps : List Bytes) (bytes : Bytes) : Outcome (List (Int × List Level)) :=
  if bytes.length = 0 then if maps.length > 0 then .panic else .ok []
  else readForests quota maps bytes.length bytes (fun _ => 0) 0

/-- tierbelow.go:81-145 `Open`; `quota` is `MaxDonutForests`. -/
def openTier (quota : Nat) (d : Folder) : Outcome Tier :=
  match mapLevels d 65 0 false with
  | none => .error
  | some maps =>
    match d.jumps with
    | none => .error
    | some [] => .error
    | some (j :: js) =>
      match d.info with
      | none => .error
      | some bytes =>
        match readInfo quota maps bytes with
        | .error => .error
        | .panic => .panic
        | .ok fs =>
          match d.hashes with
          | none => .error
          | some hashes => .ok ⟨fs, j :: js, hashes⟩

/-! ## Looking up -/

/-- tierbelow.go:201-212: the entry of the jump table for a hash. -/
def prefixIndex (pre : Nat) (h : Bytes) : Nat := leDec (h.take pre)

/-- The size of one forest's jump table: tierbelow.go:219-220. -/
def tableSize (c : Config) (pre : Nat) : Nat := 256 ^ pre * c.w

/-- The body of the loop at tierbelow.go:225-246: the `k`-th forest; the inner `none` is 'not in this forest'. -/
def tryForest (c : Config) (pre : Nat) (jumps : Bytes) (k : Nat) (f : Int × List Level) (h : Bytes) : Option (Option Int) :=
  match readAt jumps (k * tableSize c pre + prefixIndex pre h * c.w) c.w with
  | none => none
  | some bs =>
    if leDec bs = 0 then some none
    else
      match find c h (f.2.drop pre) (leDec bs) (afterPrefix c.hl pre) with
      | none => none
      | some id => if id = 0 then some none else some (some (globalOfId f.1 id))

/-- The loop at tierbelow.go:225-246, from the `k`-th forest on. -/
def tryForests (c : Config) (pre : Nat) (jumps : Bytes) (h : Bytes) : Nat → List (Int × List Level) → Option (Option Int)
  | _, [] => some none
  | k, f :: fs =>
    match tryForest c pre jumps k f h with
    | none => none
    | some (some g) => some (some g)
    | some none => tryForests c pre jumps h (k + 1) fs

/-- tierbelow.go:192-248 `TryIndexOfHash`; the inner `none` is 'not found'. -/
def tryIndexOfHash (c : Config) (pre : Nat) (t : Tier) (h : Bytes) : Option (Option Int) :=
  if h.length < 8 then none else tryForests c pre t.jumps h 0 t.forests

/-- tierbelow.go:250-268 `TryGetHashAtIndex`; the inner `none` is 'not in this tier'. -/
def tryGetHashAtIndex (t : Tier) (g : Int) : Option Bytes :=
  match t.forests with
  | [] => none
  | f :: _ => if g ≥ f.1 ∧ g < f.1 + t.hashes.length then t.hashes[(g - f.1).toNat]? else none

/-! ## Taking the hashes out again -/

/-- donutforestread.go:219-231: the ids in a full node. -/
def fullAll (c : Config) (bytes : Bytes) : List Nat → Option (List Nat)
  | [] => some []
  | s :: ss =>
    match readAt bytes (1 + 1 + s * c.w) c.w with
    | none => none
    | some id => (fullAll c bytes ss).map fun l => if leDec id ≠ 0 then leDec id :: l else l

/-- donutforestread.go:252-274: the ids in a medium node, as many as there are flags set. -/
def mediumAll (c : Config) (bytes : Bytes) : Option (List Nat) :=
  match readAt bytes 2 8, readAt bytes 10 8, readAt bytes 18 8, readAt bytes 26 8 with
  | some u0, some u1, some u2, some u3 =>
    let n := onesCount (leDec u0) + onesCount (leDec u1) + onesCount (leDec u2) + onesCount (leDec u3)
    let rec go : List Nat → Option (List Nat)
      | [] => some []
      | i :: is =>
        match readAt bytes (2 + 32 + i * c.w) c.w with
        | none => none
        | some id => (go is).map fun l => if leDec id ≠ 0 then leDec id :: l else l
    go (List.range n)
  | _, _, _, _ => none

/-- donutforestread.go:275-288: the ids in a tiny node; `n` more slots from the offset on. -/
def tinyAll (c : Config) (bytes : Bytes) : Nat → Nat → Option (List Nat)
  | 0, _ => some []
  | n + 1, off =>
    match readAt bytes (off + 1) c.w with
    | none => none
    | some id => (tinyAll c bytes n (off + 1 + c.w)).map fun l => if leDec id ≠ 0 then leDec id :: l else l

/-- donutforestread.go:213-292 `getAllNextLevelNodeIds`. -/
def allNext (c : Config) (word : Nat) (bytes : Bytes) (medium tiny : Nat) : Option (List Nat) :=
  if word = (1 + 1 + 256 * c.w) % 2 ^ 32 then fullAll c bytes (List.range 256)
  else if medium > 0 then mediumAll c bytes
  else if tiny > 0 then tinyAll c bytes tiny 1
  else none

/-- One after the other; a panic of one is a panic of all. -/
def concatAll (f : Nat → Option (List Nat)) : List Nat → Option (List Nat)
  | [] => some []
  | x :: xs =>
    match f x with
    | none => none
    | some l => (concatAll f xs).map (l ++ ·)

/-- tierbelowsource.go:90-118 `recurseVisitEveryLeaf`: the hash ids in the order visited, for the levels from the current
one on. -/
def leaves (c : Config) : List Level → Nat → Option (List Nat)
  | [], _ => none
  | lv :: rest, id =>
    match extract c lv id with
    | none => none
    | some (word, bytes) =>
      if word = c.r + c.hw then
        match readAt bytes 0 c.r, readAt bytes c.r c.hw with
        | some _, some id => some [leDec id]
        | _, _ => none
      else
        match byteIndex c word bytes with
        | none => none
        | some (_, medium, tiny) =>
          match allNext c word bytes medium tiny with
          | none => none
          | some ids => concatAll (leaves c rest) ids

/-- tierbelowsource.go:62-84, the visitor: the hash of an id. -/
def hashOf (t : Tier) (base first : Int) (id : Nat) : Option Entry :=
  let g := globalOfId first id
  if g - base < 0 then none
  else
    match t.hashes[(g - base).toNat]? with
    | none => none
    | some h => some ⟨h, g⟩

/-- The visitor called for each id. -/
def hashesOf (t : Tier) (base first : Int) : List Nat → Option (List Entry)
  | [] => some []
  | id :: ids =>
    match hashOf t base first id with
    | none => none
    | some e => (hashesOf t base first ids).map (e :: ·)

/-- The loop at tierbelowsource.go:50-86, from the `k`-th forest on. -/
def hashesFrom (c : Config) (pre : Nat) (t : Tier) (base : Int) (index : Nat) : Nat → List (Int × List Level) →
    Option (List Entry)
  | _, [] => some []
  | k, f :: fs =>
    match readAt t.jumps (k * tableSize c pre + index * c.w) c.w with
    | none => none
    | some bs =>
      if leDec bs = 0 then hashesFrom c pre t base index (k + 1) fs
      else
        match leaves c (f.2.drop pre) (leDec bs) with
        | none => none
        | some ids =>
          match hashesOf t base f.1 ids with
          | none => none
          | some es => (hashesFrom c pre t base index (k + 1) fs).map (es ++ ·)

/-- tierbelowsource.go:25-87 `GetHashesAtIndex`. -/
def getHashesAtIndex (c : Config) (pre : Nat) (t : Tier) (index : Nat) : Option (List Entry) :=
  if index ≥ 256 ^ pre then none
  else
    match t.forests with
    | [] => some []
    | f :: _ => hashesFrom c pre t f.1 index 0 t.forests

end Verif.DonutForest
