import Verif.Model.ShallowTree

/-!
# Node formats

Models weddingcake/nodeformat.go and the counting part of weddingcake/treeshape.go, and at the same time
weddingcakeback/bakingdesigner.go, weddingcakeback/bakingdesign.go and weddingcakeback/nodeformats.go, which were made
from them: `Config.back` tells which of the two packages is meant. Where only one is cited, the other has the same text.
`none` is a panic; unsigned arithmetic is written out with remainders where it could wrap (32 bits in weddingcake, 64 in
weddingcakeback).
-/

namespace Verif.Chunk

open Verif.ShallowTree (Tree Named activeSlots visitAll)

/-- nodeformat.go:15-21 `StoreConfig`: hash length, reassurance bytes, formats per level, bytes per node id, bytes per
hash index id; and whether the package is weddingcakeback (cakeconfig.go:17-62, the parts that concern one tier). -/
structure Config where
  hl : Nat
  r : Nat
  specs : Nat
  w : Nat
  hw : Nat
  back : Bool
deriving DecidableEq, Repr

/-- The number of values of `NodeIdType`, `NodeCountType`, `HashIndexIdType` and `BytesCountType`: weddingcake/types.go,
weddingcakeback/types.go:15-29. -/
def Config.wrap (c : Config) : Nat := if c.back = true then 2 ^ 64 else 2 ^ 32

/-- `MaxBytesCount`, `MaxNodeCount` (`MaxNodesCount`), `MaxHashIndexId`. -/
def Config.max (c : Config) : Nat := c.wrap - 1

/-- nodeformat.go:29-34. -/
inductive Format where
  | tiny
  | medium
  | full
  | leaf
deriving DecidableEq, Repr

/-- nodeformat.go:37-40 `NodeFormatSpec`. -/
structure Spec where
  format : Format
  cap : Nat
deriving DecidableEq, Repr

/-- nodeformat.go:42-63 `ByteSize`. -/
def byteSize (c : Config) (s : Spec) : Nat :=
  match s.format with
  | .tiny => 1 + s.cap * (1 + c.w)
  | .medium => 1 + 1 + 32 + s.cap * c.w
  | .full => 1 + 1 + 256 * c.w
  | .leaf => c.r + c.hw

/-- nodeformat.go:65-71 `NodeFormatGroup`. -/
structure Group where
  start : Nat
  stop : Nat
  nodes : Nat
  spec : Spec
  bytes : Nat
deriving DecidableEq, Repr

/-- nodeformat.go:77-99 `ProposeNodeFormatForSlotsCount`. -/
def propose (activeSlots : Nat) : Option Spec :=
  if activeSlots = 0 then some ⟨.leaf, activeSlots⟩
  else if activeSlots = 1 then none
  else if activeSlots ≤ 5 then some ⟨.tiny, activeSlots⟩
  else if activeSlots ≥ 245 then some ⟨.full, 256⟩
  else some ⟨.medium, activeSlots⟩

/-- A level's shape: the number of nodes with each number of active slots. -/
abbrev Shape := Nat → Nat

/-- The loop at nodeformat.go:103-118, over the slot counts. -/
def proposeLoop (c : Config) (shape : Shape) : List Nat → Option (List Group)
  | [] => some []
  | s :: ss =>
    if shape s > 0 then
      match propose s with
      | none => none
      | some spec =>
        if shape s * byteSize c spec > c.max then none
        else (proposeLoop c shape ss).map (⟨s, s + 1, shape s, spec, shape s * byteSize c spec⟩ :: ·)
    else proposeLoop c shape ss

/-- nodeformat.go:101-120 `ProposeNodeFormatGroupsForLevelShape`. -/
def proposeGroups (c : Config) (shape : Shape) : Option (List Group) := proposeLoop c shape (List.range 257)

/-- nodeformat.go:126-145 `ProposeMergeGroups`. -/
def merge (c : Config) (left right : Group) : Option Group :=
  if right.start < left.stop then none
  else if right.spec.format ≠ left.spec.format then none
  else
    let nodes := (left.nodes + right.nodes) % c.wrap
    let spec : Spec := ⟨left.spec.format, right.spec.cap⟩
    if nodes * byteSize c spec > c.max then none
    else some ⟨left.start, right.stop, nodes, spec, nodes * byteSize c spec⟩

/-- The loop at nodeformat.go:153-167, from the `i`-th group on: the lowest cost so far, and where and what the best
merge is. -/
def scan (c : Config) : Nat → List Group → Nat × Option (Nat × Group) → Option (Nat × Option (Nat × Group))
  | i, g :: h :: rest, best =>
    if h.spec.format = g.spec.format then
      match merge c g h with
      | none => none
      | some m =>
        let cost := (m.bytes + c.wrap - (g.bytes + h.bytes) % c.wrap) % c.wrap
        scan c (i + 1) (h :: rest) (if cost < best.1 then (cost, some (i, m)) else best)
    else scan c (i + 1) (h :: rest) best
  | _, _, best => some best

/-- nodeformat.go:147-178 `RefineNodeFormatGroups`; `some none` if nothing could be merged. -/
def refine (c : Config) (groups : List Group) : Option (Option (List Group)) :=
  match scan c 0 groups (c.max, none) with
  | none => none
  | some (_, none) => some none
  | some (_, some (i, m)) => some (some (groups.take i ++ m :: groups.drop (i + 2)))

/-- The loop at nodeformat.go:268-277; the first argument bounds the number of rounds. -/
def reduce (c : Config) : Nat → List Group → Option (List Group)
  | 0, groups => if groups.length ≤ c.specs then some groups else none
  | n + 1, groups =>
    if groups.length ≤ c.specs then some groups
    else
      match refine c groups with
      | some (some groups') => reduce c n groups'
      | _ => none

/-- The order at nodeformat.go:289-300: `!less(y, x)`. -/
def groupLe (x y : Group) : Bool :=
  let less (i j : Group) : Bool :=
    if decide (i.spec.format = .tiny) ≠ decide (j.spec.format = .tiny) then decide (j.spec.format = .tiny)
    else decide (i.nodes > j.nodes)
  !less y x

/-- The body of the loop at nodeformat.go:259-302: the format groups of a level. -/
def chooseLevel (c : Config) (shape : Shape) : Option (List Group) :=
  match proposeGroups c shape with
  | none => none
  | some gs => (reduce c gs.length gs).map (stableSort groupLe)

/-- A panic in any round is a panic of the loop. -/
def chooseLevels (c : Config) : List Shape → Option (List (List Group))
  | [] => some []
  | s :: ss =>
    match chooseLevel c s with
    | none => none
    | some gs => (chooseLevels c ss).map (gs :: ·)

/-- nodeformat.go:249-304 `ChooseNodeFormatSpecsForTreeShape`. -/
def chooseFormats (c : Config) (shapes : List Shape) : Option (List (List Group)) :=
  if c.specs < 5 then none else chooseLevels c shapes

/-! ## Counting -/

/-- The number of levels: treeshape.go:44-46. -/
def levelCount (ns : List Named) : Nat := ns.foldl (fun m n => max m (n.1.length + 1)) 0

/-- treeshape.go:35-71 `CountLevelShapes`: the shapes of the non-empty levels. The loop at line 59 goes up to and
including `NonEmptyLevels`, past the end of the array of 65 if there are 65 levels. In weddingcakeback
(bakingdesigner.go:127-155, 241-261) only a 66th level would be past the end. -/
def countShapes (c : Config) (t : Tree) : Option (List Shape) :=
  let ns := visitAll t
  if levelCount ns ≥ (if c.back = true then 66 else 65) then none
  else
    some ((List.range (levelCount ns)).map fun level s =>
      (ns.countP fun n => decide (n.1.length = level ∧ activeSlots n.2 = s)) % c.wrap)

/-- nodeformat.go:306-314 `DesignTreeFormat`, without the allocation of ids. -/
def design (c : Config) (t : Tree) : Option (List (List Group)) :=
  match countShapes c t with
  | none => none
  | some shapes => chooseFormats c shapes

end Verif.Chunk
