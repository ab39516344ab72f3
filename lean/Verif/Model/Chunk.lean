import Verif.Model.NodeFormat
import Verif.Model.Records

/-!
# Chunks: a decision tree stored as bytes

Models weddingcake/chunk.go, weddingcake/chunklevel.go and the allocation of node ids in weddingcake/nodeformat.go. Under
`Config.back` the same definitions model what weddingcakeback/donutforestwrite.go and weddingcakeback/donutforestread.go
do to one tree: the text was copied there, with wider integers and other padding bytes.

Simplifications.
* `none` is a panic. A slice expression is taken to panic past the length of the slice (Go only panics past its
  capacity).
* A `*ShallowTreeNode` used as a key of a map is the path of byte values leading to the node.
* `uint32` values are natural numbers, with remainders where they could wrap; the subtraction of two `int64` indices
  is not wrapped.
* A check that a byte slice has grown to exactly its capacity is a check that it has the length foreseen.
-/

namespace Verif.Chunk

open Verif.ShallowTree

/-! ## Node ids -/

/-- nodeformat.go:192-195 `NodeIdAllocation`. -/
structure Alloc where
  next : Nat
  avail : Nat
deriving DecidableEq, Repr

/-- nodeformat.go:201-226, the ids: the allocations of the groups, ids from `id` on. -/
def initAllocs (c : Config) : Nat → List Group → Option (List Alloc)
  | _, [] => some []
  | id, g :: gs =>
    if id + g.nodes > c.max then none else (initAllocs c (id + g.nodes) gs).map (⟨id, g.nodes⟩ :: ·)

/-- nodeformat.go:216-220 for all the groups from the `i`-th on: `SlotCountToGroup`. -/
def slotToGroup : Nat → List Group → (Nat → Nat) → Nat → Nat
  | _, [], m => m
  | i, g :: gs, m => slotToGroup (i + 1) gs fun s => if g.start ≤ s ∧ s < g.stop then i % 256 else m s

/-- The group of a number of active slots. -/
def groupOf (gs : List Group) (s : Nat) : Nat := slotToGroup 0 gs (fun _ => 0) s

/-- nodeformat.go:230-247 `AllocateIdAndSpecForNode`. -/
def allocate (gs : List Group) (allocs : List Alloc) (s : Nat) : Option (Nat × List Alloc) :=
  match allocs[groupOf gs s]? with
  | none => none
  | some a => if a.avail = 0 then none else some (a.next, allocs.set (groupOf gs s) ⟨a.next + 1, a.avail - 1⟩)

/-- Pass A, chunk.go:210-214: the ids of the nodes, in order. -/
def allocAll (gs : List Group) : List Named → List Alloc → Option (List Nat)
  | [], _ => some []
  | n :: ns, allocs =>
    match allocate gs allocs (activeSlots n.2) with
    | none => none
    | some (id, allocs') => (allocAll gs ns allocs').map (id :: ·)

/-- `map[*ShallowTreeNode]NodeIdType`. -/
abbrev IdMap := List UInt8 → Option Nat

/-- The map made in pass A. -/
def idMap (ns : List Named) (ids : List Nat) : IdMap := fun p => ((ns.zip ids).find? fun x => x.1.1 = p).map (·.2)

/-! ## Serializing -/

/-- A level of a chunk: chunklevel.go:18-21. -/
structure Level where
  index : Bytes
  nodes : Bytes
deriving DecidableEq, Repr

/-- chunk.go:293; donutforestwrite.go:504: the padding byte of a full node. -/
def Config.padFull (c : Config) : UInt8 := if c.back = true then 0xAA else 0

/-- chunk.go:326; donutforestwrite.go:542: the padding byte of a medium node. -/
def Config.padMedium (c : Config) : UInt8 := if c.back = true then 0x55 else 0

/-- chunk.go:155-179: the description of a format. -/
def specWord (c : Config) (s : Spec) : Nat :=
  match s.format with
  | .full => (1 + 1 + 256 * c.w) % 2 ^ 32
  | .leaf => (c.r + c.hw) % 2 ^ 32
  | .medium => (s.cap * 2 ^ 16) % 2 ^ 32 ||| (1 + 1 + 32 + c.w * s.cap) % 2 ^ 32
  | .tiny => (s.cap * 2 ^ 24) % 2 ^ 32 ||| (1 + s.cap * (1 + c.w)) % 2 ^ 32

/-- chunk.go:129-187 `serializeIndexBytes`, one level. -/
def indexBytes (c : Config) (gs : List Group) : Bytes :=
  leEnc 2 gs.length ++ gs.flatMap fun g => leEnc c.w g.nodes ++ leEnc 4 (specWord c g.spec)

/-- chunk.go:256-282 `serializeLeafNode`. -/
def leafBytes (c : Config) (reass : Bytes) (pi : Int) : Option Bytes :=
  if pi = 0 then none
  else if pi > c.max then none
  else some (reass ++ zeros ((c.r + 256 - reass.length % 256) % 256) ++ leEnc c.hw (toU64 pi % c.wrap))

/-- The id of the node in a slot, from the map. -/
def childId (m : IdMap) (p : List UInt8) (b : UInt8) : Option Nat :=
  match m (p ++ [b]) with
  | none => none
  | some id => if id = 0 then none else some id

/-- The loop at chunk.go:296-310: what a full node has for the slots. -/
def fullIds (m : IdMap) (p : List UInt8) (next : UInt8 → Tree) : List UInt8 → Option (List Nat)
  | [] => some []
  | b :: bs =>
    if (next b).isEmpty = true then (fullIds m p next bs).map (0 :: ·)
    else
      match childId m p b with
      | none => none
      | some id => (fullIds m p next bs).map (id :: ·)

/-- chunk.go:284-315 `serializeFullNode`. -/
def fullBytes (c : Config) (m : IdMap) (p : List UInt8) (bi : Nat) (next : UInt8 → Tree) : Option Bytes :=
  (fullIds m p next allBytes).map fun ids => c.padFull :: UInt8.ofNat bi :: ids.flatMap (leEnc c.w)

/-- The slots in use, in order. -/
def actives (next : UInt8 → Tree) : List UInt8 := allBytes.filter fun b => !(next b).isEmpty

/-- The ids of the slots in use. -/
def activeIds (m : IdMap) (p : List UInt8) : List UInt8 → Option (List Nat)
  | [] => some []
  | b :: bs =>
    match childId m p b with
    | none => none
    | some id => (activeIds m p bs).map (id :: ·)

/-- chunk.go:338-342: set the bit of one slot. -/
def setBit (flags : Bytes) (b : UInt8) : Bytes :=
  flags.set (b.toNat / 8) (UInt8.ofNat ((flags.getD (b.toNat / 8) 0).toNat ||| 2 ^ (b.toNat % 8)))

/-- chunk.go:317-367 `serializeMediumNode`. -/
def mediumBytes (c : Config) (spec : Spec) (m : IdMap) (p : List UInt8) (bi : Nat) (next : UInt8 → Tree) : Option Bytes :=
  let flags := (actives next).foldl setBit (zeros 32)
  match activeIds m p (actives next) with
  | none => none
  | some ids =>
    if ids.length > spec.cap then none
    else some (c.padMedium :: UInt8.ofNat bi :: flags ++ ids.flatMap (leEnc c.w) ++ zeros (c.w * (spec.cap - ids.length)))

/-- chunk.go:369-403 `serializeTinyNode`. -/
def tinyBytes (c : Config) (spec : Spec) (m : IdMap) (p : List UInt8) (bi : Nat) (next : UInt8 → Tree) : Option Bytes :=
  let count := 1 + (1 + c.w) * spec.cap
  let room := 1 + (1 + 8) * 5
  if count > room then none
  else
    match activeIds m p (actives next) with
    | none => none
    | some ids =>
      let written := UInt8.ofNat bi :: ((actives next).zip ids).flatMap fun x => x.1 :: leEnc c.w x.2
      if written.length > room then none
      else some ((written ++ zeros (room - written.length)).take count)

/-- chunk.go:229-242: a node in a given format; a node of the other kind is a nil pointer dereferenced. -/
def nodeBytes (c : Config) (spec : Spec) (m : IdMap) : Named → Option Bytes
  | (_, .leaf reass pi) => match spec.format with
    | .leaf => leafBytes c reass pi
    | _ => none
  | (p, .slots bi next) => match spec.format with
    | .leaf => none
    | .full => fullBytes c m p bi next
    | .medium => mediumBytes c spec m p bi next
    | .tiny => tinyBytes c spec m p bi next
  | (_, .empty) => none

/-- The nodes one after the other. -/
def allNodeBytes (c : Config) (spec : Spec) (m : IdMap) : List Named → Option Bytes
  | [] => some []
  | n :: ns =>
    match nodeBytes c spec m n with
    | none => none
    | some bs => (allNodeBytes c spec m ns).map (bs ++ ·)

/-- Pass B, chunk.go:218-244, from the `i`-th group on: the nodes group by group. -/
def groupBytes (c : Config) (gs : List Group) (m : IdMap) (ns : List Named) : Nat → List Group → Option Bytes
  | _, [] => some []
  | i, g :: rest =>
    match allNodeBytes c g.spec m (ns.filter fun n => groupOf gs (activeSlots n.2) = i) with
    | none => none
    | some bs => (groupBytes c gs m ns (i + 1) rest).map (bs ++ ·)

/-- One round of the loop at chunk.go:202-253: the level, and the ids of its nodes. -/
def serializeLevel (c : Config) (gs : List Group) (ns : List Named) (below : IdMap) : Option (Level × IdMap) :=
  match initAllocs c 1 gs with
  | none => none
  | some allocs =>
    match allocAll gs ns allocs with
    | none => none
    | some ids =>
      match groupBytes c gs below ns 0 gs with
      | none => none
      | some bs => if bs.length ≠ (gs.map (·.bytes)).sum then none else some (⟨indexBytes c gs, bs⟩, idMap ns ids)

/-- The nodes of a level, in the order visited: chunk.go:193-196. -/
def nodesAt (t : Tree) (level : Nat) : List Named := (visitAll t).filter fun n => n.1.length = level

/-- chunk.go:189-254 `serializeNodeBytes`, bottom-up, for the levels from `level` on. -/
def serializeLevels (c : Config) (t : Tree) : Nat → List (List Group) → Option (List Level × IdMap)
  | _, [] => some ([], fun _ => none)
  | level, gs :: rest =>
    match serializeLevels c t (level + 1) rest with
    | none => none
    | some (lvs, below) =>
      match serializeLevel c gs (nodesAt t level) below with
      | none => none
      | some (lv, m) => some (lv :: lvs, m)

/-! ## Preparing a chunk -/

/-- chunk.go:15-19 `Chunk`. -/
structure Chunk where
  config : Config
  first : Int
  levels : List Level
deriving DecidableEq, Repr

/-- chunk.go:26-40 `HashIndexIdFromGlobalPresentationIndex`. -/
def idOfGlobal (c : Config) (first global : Int) : Option Int :=
  if global = -1 then some 0
  else if global - first + 1 < 1 then none
  else if global - first + 1 > c.max then none
  else some (global - first + 1)

/-- chunk.go:42-49 `GlobalPresentationIndexFromHashIndexId`. -/
def globalOfId (first : Int) (id : Nat) : Int := if id = 0 then -1 else id - 1 + first

/-- The loop at chunk.go:94-97. -/
def toLocal (c : Config) (first : Int) : List Entry → Option (List Entry)
  | [] => some []
  | e :: es =>
    match idOfGlobal c first e.pi with
    | none => none
    | some id => (toLocal c first es).map (⟨e.hash, id⟩ :: ·)

/-- chunk.go:101-116 `verifyShallowTree`: whether it passes. -/
def verify (c : Config) (t : Tree) : Bool :=
  (visitAll t).all fun n =>
    match n.2 with
    | .leaf reass pi => decide (reass.length ≤ c.r ∧ pi ≠ 0 ∧ pi ≤ c.max)
    | _ => true

/-- chunk.go:77-89 `PrepareAndSerialize`. -/
def prepare (ent : List Entry → Nat → Nat) (c : Config) (hashes : List Entry) : Option Chunk :=
  let first := match hashes with
    | [] => 0
    | e :: _ => e.pi
  match toLocal c first hashes with
  | none => none
  | some loc =>
    match generate ent loc c.hl c.r with
    | none => none
    | some t =>
      if verify c t = true then
        match design c t with
        | none => none
        | some formats =>
          match serializeLevels c t 0 formats with
          | none => none
          | some (lvs, _) => some ⟨c, first, lvs⟩
      else none

/-! ## Looking up -/

/-- The loop at chunklevel.go:57-71. Arguments: the specs still to read, `byteCount`, `currentSpecNodeId`,
`currentSpecNodeByteOffset`. `some none` if it ends without having found the id. -/
def extractLoop (c : Config) (index : Bytes) (id : Nat) : Nat → Nat → Nat → Nat → Option (Option (Nat × Nat))
  | 0, _, _, _ => some none
  | n + 1, bc, cur, off =>
    match readAt index bc c.w, readAt index (bc + c.w) 4 with
    | some a, some b =>
      let count := leDec a
      let word := leDec b
      let size := word % 2 ^ 16
      if (cur + count) % c.wrap > id then
        some (some (word, (off + (id + c.wrap - cur) % c.wrap * size % c.wrap) % c.wrap))
      else extractLoop c index id n (bc + c.w + 4) ((cur + count) % c.wrap) ((off + count * size % c.wrap) % c.wrap)
    | _, _ => none

/-- chunklevel.go:41-78 `ExtractNode` into a zero `chunkNode`: the format's description and the bytes. If the id is not
found the node stays as it was, and the caller (chunk.go:436) takes no notice. -/
def extract (c : Config) (lv : Level) (id : Nat) : Option (Nat × Bytes) :=
  match readAt lv.index 0 2 with
  | none => none
  | some n =>
    match extractLoop c lv.index id (leDec n) 2 1 0 with
    | none => none
    | some none => some (0, [])
    | some (some (word, off)) => (readAt lv.nodes off (word % 2 ^ 16)).map (word, ·)

/-- chunklevel.go:104-129 `hashByteIndexToExamine`: the byte to look at, medium slots, tiny slots. -/
def byteIndex (c : Config) (word : Nat) (bytes : Bytes) : Option (Nat × Nat × Nat) :=
  if word = (1 + 1 + 256 * c.w) % 2 ^ 32 then
    match bytes[0]?, bytes[1]? with
    | some z, some b => if z ≠ c.padFull then none else some (b.toNat, 0, 0)
    | _, _ => none
  else if word / 2 ^ 16 % 256 > 0 then
    match bytes[0]?, bytes[1]? with
    | some z, some b => if z ≠ c.padMedium then none else some (b.toNat, word / 2 ^ 16 % 256, 0)
    | _, _ => none
  else if word / 2 ^ 24 % 256 > 0 then
    match bytes[0]? with
    | some b => some (b.toNat, 0, word / 2 ^ 24 % 256)
    | none => none
  else none

/-- `bits.OnesCount64`. -/
def onesCount (u : Nat) : Nat := (List.range 64).countP u.testBit

/-- chunklevel.go:172-187: the flags set before a slot, from the four words. -/
def onesBefore (u0 u1 u2 u3 : Nat) (b : Nat) : Nat :=
  let mask := 2 ^ (b % 64) - 1
  match b / 64 with
  | 0 => onesCount (u0 &&& mask)
  | 1 => onesCount u0 + onesCount (u1 &&& mask)
  | 2 => onesCount u0 + onesCount u1 + onesCount (u2 &&& mask)
  | _ => onesCount u0 + onesCount u1 + onesCount u2 + onesCount (u3 &&& mask)

/-- chunklevel.go:145-194: the next node's id, from a medium node. -/
def mediumNext (c : Config) (bytes : Bytes) (b : Nat) : Option Nat :=
  match bytes[2 + b / 8]? with
  | none => none
  | some fl =>
    if fl.toNat &&& 2 ^ (b % 8) = 0 then some 0
    else
      match readAt bytes 2 8, readAt bytes 10 8, readAt bytes 18 8, readAt bytes 26 8 with
      | some u0, some u1, some u2, some u3 =>
        (readAt bytes (2 + 32 + onesBefore (leDec u0) (leDec u1) (leDec u2) (leDec u3) b * c.w) c.w).map leDec
      | _, _, _, _ => none

/-- The loop at chunklevel.go:201-208. -/
def tinyLoop (c : Config) (bytes : Bytes) (b : UInt8) : Nat → Nat → Option Nat
  | 0, _ => some 0
  | n + 1, off =>
    match bytes[off]? with
    | none => none
    | some v => if b = v then (readAt bytes (off + 1) c.w).map leDec else tinyLoop c bytes b n (off + 1 + c.w)

/-- chunklevel.go:134-212 `nextLevelNodeId`. -/
def nextId (c : Config) (word : Nat) (bytes : Bytes) (b : UInt8) (medium tiny : Nat) : Option Nat :=
  if word = (1 + 1 + 256 * c.w) % 2 ^ 32 then (readAt bytes (1 + 1 + b.toNat * c.w) c.w).map leDec
  else if medium > 0 then mediumNext c bytes b.toNat
  else if tiny > 0 then tinyLoop c bytes b tiny 1
  else none

/-- The loop at chunk.go:446-463, over the flags still set. -/
def reassured (h : Bytes) : List Nat → Bytes → Option Bool
  | i :: is, v :: vs =>
    match h[i]? with
    | none => none
    | some b => if b ≠ v then some false else reassured h is vs
  | _, _ => some true

/-- chunk.go:438-468 and `detailsIfLeaf`, chunklevel.go:95-97: the answer at a leaf. -/
def leafAnswer (c : Config) (h : Bytes) (f : Flags) (bytes : Bytes) : Option Nat :=
  match readAt bytes 0 c.r, readAt bytes c.r c.hw with
  | some re, some id =>
    match reassured h (setBits f) re with
    | none => none
    | some true => some (leDec id)
    | some false => some 0
  | _, _ => none

/-- chunk.go:426-488 `recurseLookupHash`, for the levels from the current one on; tierbelow.go:274-351, which looks at the
flag first. -/
def find (c : Config) (h : Bytes) : List Level → Nat → Flags → Option Nat
  | [], _, _ => none
  | lv :: rest, id, f =>
    match extract c lv id with
    | none => none
    | some (word, bytes) =>
      if word = c.r + c.hw then leafAnswer c h f bytes
      else
        match byteIndex c word bytes with
        | none => none
        | some (bi, medium, tiny) =>
          match h[bi]? with
          | none => none
          | some b =>
            if c.back = true ∧ f bi = false then none
            else
              match nextId c word bytes b medium tiny with
              | none => none
              | some next =>
                if next = 0 then some 0
                else if f bi = false then none
                else find c h rest next (flip f bi)

/-- chunk.go:405-424 `lookupHash`. -/
def lookupId (ch : Chunk) (h : Bytes) : Option Nat :=
  if ch.config.hl = 0 then none
  else
    match ch.levels with
    | [] => some 0
    | lvs => find ch.config h lvs 1 (allUnused ch.config.hl)

/-- chunk.go:21-24 `LookupHash`. -/
def lookupHash (ch : Chunk) (h : Bytes) : Option Int := (lookupId ch h).map (globalOfId ch.first)

end Verif.Chunk
