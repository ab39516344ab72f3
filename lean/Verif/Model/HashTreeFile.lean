import Verif.Model.HashTree

/-!
# The pool of nodes as bytes

Models indexedhashestree/multiplefixednodesize.go: the nodes of a pool are given one of a few formats of fixed size, put
in the order of the formats, and written one after the other; looking up reads the bytes.

Simplifications.
* A pointer to a format is the format.
* The loop at 217-234, which finds the first node id and byte offset of each format and the byte offset of each level,
  is three functions; the node ids and offsets are natural numbers (the theorems are about fewer than 65536 nodes, of
  less than 2 ^ 31 bytes).
* `byteBits` is the function giving its bits.
* `none` is a panic.
-/

namespace Verif.HashTree

open Verif.ShallowTree (Flags byteAt allBytes)

/-- multiplefixednodesize.go:100-103. -/
inductive Format where
  | tiny
  | medium
  | full
  | duplicate
deriving DecidableEq, Repr

/-- The number of a format. -/
def Format.num : Format → Nat
  | .tiny => 1
  | .medium => 2
  | .full => 3
  | .duplicate => 4

/-- multiplefixednodesize.go:41-46 `nodeSpec`. -/
structure Spec where
  level : Nat
  format : Format
  size : Nat
  bytes : Nat
deriving DecidableEq, Repr

/-- multiplefixednodesize.go:48-78 `newNodeSpec`; its panics are for other sizes than those of `configA`. -/
def newSpec (level : Nat) (format : Format) (size : Nat) : Spec :=
  ⟨level, format, size,
    match format with
    | .tiny => 1 + size * 3
    | .medium => 1 + 32 + size * 2
    | .full => 1 + 256 * 2
    | .duplicate => 2⟩

/-- multiplefixednodesize.go:87-98 `Less`. -/
def less (i j : Spec) : Bool :=
  if i.level ≠ j.level then decide (i.level < j.level)
  else if i.bytes ≠ j.bytes then decide (i.bytes < j.bytes)
  else if i.format ≠ j.format then decide (i.format.num < j.format.num)
  else decide (i.size < j.size)

/-- The formats of one level: multiplefixednodesize.go:111-131. -/
def levelSpecs (level : Nat) : List Spec :=
  [newSpec level .tiny 2, newSpec level .tiny 3, newSpec level .tiny 4, newSpec level .tiny 5,
    newSpec level .medium 90, newSpec level .medium 100, newSpec level .medium 105, newSpec level .medium 108,
    newSpec level .medium 112, newSpec level .medium 118, newSpec level .medium 126, newSpec level .medium 130,
    newSpec level .full 256, newSpec level .duplicate 1]

/-- multiplefixednodesize.go:107-137 `newContainerParamsConfigA`; no two of the formats are equal in the order, so that
any way of sorting gives the same. -/
def configA : List Spec := stableSort (fun a b => !less b a) ((List.range 32).flatMap levelSpecs)

/-- multiplefixednodesize.go:141-157 `nodeSpecSuitableFor`. -/
def suitable (specs : List Spec) (level slots : Nat) : Option Spec :=
  specs.foldl (fun best s =>
    if s.size ≥ slots ∧ s.format ≠ .duplicate ∧ s.level = level then
      match best with
      | none => some s
      | some b => if s.bytes < b.bytes then some s else best
    else best) none

/-- multiplefixednodesize.go:158-169 `nodeSpecSuitableForDuplicate`. -/
def suitableDuplicate (specs : List Spec) (level : Nat) : Option Spec :=
  specs.foldl (fun best s => if s.format = .duplicate ∧ s.level = level then some s else best) none

/-- multiplefixednodesize.go:173-177 `nodeReconfigShallow`. -/
structure Recon where
  old : Nat
  node : Node
  spec : Spec

/-- The body of the loop at multiplefixednodesize.go:182-198. -/
def reconOne (specs : List Spec) (i : Nat) (n : Node) : Option Recon :=
  (if n.hbi = 32 then suitableDuplicate specs n.level else suitable specs n.level (used n.lookups)).map
    fun s => ⟨i, n, s⟩

/-- The loop at multiplefixednodesize.go:182-198, from node `i` on. -/
def reconFrom (specs : List Spec) : Nat → List Node → Option (List Recon)
  | _, [] => some []
  | i, n :: ns =>
    match reconOne specs i n with
    | none => none
    | some r => (reconFrom specs (i + 1) ns).map (r :: ·)

/-- multiplefixednodesize.go:180-200 `sliceOfNodesFromShallowTree`. -/
def recon (specs : List Spec) (p : Pool) : Option (List Recon) := reconFrom specs 0 p.nodes

/-- The nodes of each format in turn: the conditions of the loops at multiplefixednodesize.go:230 and 273. -/
def groups : List Spec → List Recon → List (Spec × List Recon)
  | [], _ => []
  | s :: ss, rs => (s, rs.takeWhile fun r => r.spec = s) :: groups ss (rs.dropWhile fun r => r.spec = s)

/-- The format, the first node id and the first byte. -/
structure Start where
  spec : Spec
  id : Nat
  off : Nat
deriving DecidableEq, Repr

/-- multiplefixednodesize.go:217-219, 230-233: `next` nodes and `off` bytes come before. -/
def starts : List (Spec × List Recon) → Nat → Nat → List Start
  | [], _, _ => []
  | g :: gs, next, off => ⟨g.1, next + 1, off⟩ :: starts gs (next + g.2.length) (off + g.2.length * g.1.bytes)

/-- The loop at multiplefixednodesize.go:224-227. -/
def fill : Nat → Nat → Nat → List Nat → Nat × List Nat
  | 0, cur, _, lev => (cur, lev)
  | n + 1, cur, off, lev => fill n (cur + 1) off (lev.set (cur + 1) off)

/-- multiplefixednodesize.go:222-228. -/
def reach (cur off : Nat) (lev : List Nat) : List Recon → Nat × List Nat
  | [] => (cur, lev)
  | r :: _ => fill (r.spec.level - cur) cur off lev

/-- multiplefixednodesize.go:222-228, 230-233: the bytes, the level reached and the byte offset of each level. -/
def levels : List Spec → List Recon → Nat → Nat → List Nat → Nat × Nat × List Nat
  | [], _, off, cur, lev => (off, cur, lev)
  | s :: ss, rs, off, cur, lev =>
    levels ss (rs.dropWhile fun r => r.spec = s) (off + (rs.takeWhile fun r => r.spec = s).length * s.bytes)
      (reach cur off lev rs).1 (reach cur off lev rs).2

/-- multiplefixednodesize.go:215-239: `levelByteOffsets`. -/
def levelOffsets (specs : List Spec) (sorted : List Recon) : List Nat :=
  let r := levels specs sorted 0 0 (List.replicate 33 0)
  (fill (32 - r.2.1) r.2.1 r.1 r.2.2).2

/-- multiplefixednodesize.go:247-256 `mapNewIdFromOld[old]`, for the sorted nodes. -/
def newId (sorted : List Recon) (old : Nat) : Option Nat := (sorted.findIdx? fun r => r.old = old).map (· + 1)

/-- multiplefixednodesize.go:285-301: a slot with the new node id. -/
def update (sorted : List Recon) (count lookup : Nat) : Option Nat :=
  if lookup = 0 then some 0
  else if lookup ≤ count then some lookup
  else (newId sorted (65536 - lookup)).map fun (id : Nat) => u16 (65536 - (id : Int))

/-- A panic for any slot is a panic of the whole. -/
def updateAll (sorted : List Recon) (count : Nat) (lk : UInt8 → Nat) : Option (UInt8 → Nat) :=
  if allBytes.all (fun b => (update sorted count (lk b)).isSome) = true
  then some fun b => (update sorted count (lk b)).getD 0 else none

/-- `updatedLookupsNonZero`: multiplefixednodesize.go:282-302. -/
def nonZero (old lk : UInt8 → Nat) : List (UInt8 × Nat) :=
  (allBytes.filter fun b => decide (old b ≠ 0)).map fun b => (b, lk b)

/-- A word, little-endian. -/
def word (v : Nat) : Bytes := leEnc 2 v

/-- multiplefixednodesize.go:328-334: the 32 bytes of flags. -/
def flagBytes (items : List (UInt8 × Nat)) : Bytes :=
  items.foldl (fun (bits : Bytes) (it : UInt8 × Nat) =>
    let byteIndex : UInt8 := (it.1 &&& (0xF8 : UInt8)) >>> (3 : UInt8)
    let bitIndex : UInt8 := it.1 &&& 0x07
    bits.set byteIndex.toNat (bits.getD byteIndex.toNat 0 ||| ((1 : UInt8) <<< bitIndex))) (zeros 32)

/-- An item, or the padding: multiplefixednodesize.go:310-321, 338-347. -/
def itemOr (g : UInt8 × Nat → Bytes) (padding : Bytes) : Option (UInt8 × Nat) → Bytes
  | some it => g it
  | none => padding

/-- multiplefixednodesize.go:304-372: the bytes of a node; `lk` are the updated slots. -/
def encode (s : Spec) (n : Node) (lk : UInt8 → Nat) : Bytes :=
  let items := nonZero n.lookups lk
  match s.format with
  | .tiny => UInt8.ofNat n.hbi ::
      (List.range s.size).flatMap fun i => itemOr (fun it => it.1 :: word it.2) (zeros 3) items[i]?
  | .medium => UInt8.ofNat n.hbi :: flagBytes items ++
      (List.range s.size).flatMap fun i => itemOr (fun it => word it.2) (zeros 2) items[i]?
  | .full => UInt8.ofNat n.hbi :: allBytes.flatMap fun b => word (lk b)
  | .duplicate => word (lk 0)

/-- multiplefixednodesize.go:31-39 `nodeContainer`. -/
structure Container where
  first : Int
  count : Nat
  root : Nat
  starts : List Start
  bytes : Bytes
  levelBytes : List Bytes

/-- The loop at multiplefixednodesize.go:273-375 over the nodes of one format. -/
def writeNodes (sorted : List Recon) (count : Nat) : List Recon → Option Bytes
  | [] => some []
  | r :: rs =>
    match updateAll sorted count r.node.lookups with
    | none => none
    | some lk => (writeNodes sorted count rs).map (encode r.spec r.node lk ++ ·)

/-- The loop at multiplefixednodesize.go:262-376; the bytes so far and the nodes so far are checked against what was
planned. -/
def writeGroups (sorted : List Recon) (count : Nat) : List (Spec × List Recon) → List Start → Bytes → Nat → Option Bytes
  | g :: gs, s :: ss, done, next =>
    if done.length ≠ s.off then none
    else if next + 1 ≠ s.id then none
    else
      match writeNodes sorted count g.2 with
      | none => none
      | some bs => writeGroups sorted count gs ss (done ++ bs) (next + g.2.length)
  | _, _, done, _ => some done

/-- multiplefixednodesize.go:203-378 `serializeMultiFixedSizedNodeTree`. The slices `nodeLevelBytes` share the array that
is filled afterwards (240-245). -/
def serialize (specs : List Spec) (sorted : List Recon) (p : Pool) : Option Container :=
  let gs := groups specs sorted
  let st := starts gs 0 0
  match newId sorted 0 with
  | none => none
  | some root =>
    match writeGroups sorted p.count gs st [] 0 with
    | none => none
    | some bytes =>
      let lo := levelOffsets specs sorted
      some ⟨p.first, p.count, root, st, bytes,
        (List.range 32).map fun l => (bytes.drop (lo.getD l 0)).take (lo.getD (l + 1) 0 - lo.getD l 0)⟩

/-! ## Looking up -/

/-- multiplefixednodesize.go:381-410 `nodeIdToByteIndex`, without the comparison with the number of bytes. -/
def locate : List Start → Nat → Option (Nat × Spec)
  | [], _ => none
  | [s], id => some (s.off + (id - s.id) * s.spec.bytes, s.spec)
  | s :: s' :: ss, id => if id < s'.id then some (s.off + (id - s.id) * s.spec.bytes, s.spec) else locate (s' :: ss) id

/-- `uint16(lookup0) + uint16(lookup1)<<8`. -/
def readWord (rd : Nat → Option UInt8) (i : Nat) : Option Nat :=
  match rd i, rd (i + 1) with
  | some a, some b => some (a.toNat + 256 * b.toNat)
  | _, _ => none

/-- The loop at multiplefixednodesize.go:439-446, from item `i` on. -/
def readTiny (rd : Nat → Option UInt8) : Nat → Nat → (UInt8 → Nat) → Option (UInt8 → Nat)
  | 0, _, lk => some lk
  | n + 1, i, lk =>
    match rd (1 + i * 3), readWord rd (1 + i * 3 + 1) with
    | some b, some v => readTiny rd n (i + 1) (put lk b v)
    | _, _ => none

/-- The loop at multiplefixednodesize.go:456-466 over the eight flags of a byte, from flag `j` on: the slots, and the
offset of the next lookup. -/
def readFlags (rd : Nat → Option UInt8) (flagByte : UInt8) : Nat → Nat → Nat → Nat → (UInt8 → Nat) → Option (Nat × (UInt8 → Nat))
  | 0, _, _, off, lk => some (off, lk)
  | n + 1, j, v, off, lk =>
    if flagByte &&& (1 <<< UInt8.ofNat j) ≠ 0 then
      match readWord rd off with
      | none => none
      | some w => readFlags rd flagByte n (j + 1) (v + 1) (off + 2) (put lk (UInt8.ofNat v) w)
    else readFlags rd flagByte n (j + 1) (v + 1) off lk

/-- The loop at multiplefixednodesize.go:451-468, from flag byte `i` on. -/
def readMedium (rd : Nat → Option UInt8) : Nat → Nat → Nat → (UInt8 → Nat) → Option (UInt8 → Nat)
  | 0, _, _, lk => some lk
  | n + 1, i, off, lk =>
    match rd (1 + i) with
    | none => none
    | some fb =>
      if fb = 0 then readMedium rd n (i + 1) off lk
      else
        match readFlags rd fb 8 0 (8 * i) off lk with
        | none => none
        | some r => readMedium rd n (i + 1) r.1 r.2

/-- The loop at multiplefixednodesize.go:471-476. -/
def readFull (rd : Nat → Option UInt8) : List UInt8 → (UInt8 → Nat) → Option (UInt8 → Nat)
  | [], lk => some lk
  | b :: bs, lk =>
    match readWord rd (1 + b.toNat * 2) with
    | none => none
    | some w => readFull rd bs (put lk b w)

/-- A node read back: the byte of the hash to look at and the slots, or the one word of a duplicate. -/
inductive Decoded where
  | slots (hbi : Nat) (lk : UInt8 → Nat)
  | dup (v : Nat)

/-- multiplefixednodesize.go:429-486; `rd` reads the bytes of the node. -/
def decode (rd : Nat → Option UInt8) (s : Spec) : Option Decoded :=
  match s.format with
  | .duplicate => (readWord rd 0).map .dup
  | .tiny =>
    match rd 0, readTiny rd s.size 0 noLookups with
    | some b, some lk => some (.slots b.toNat lk)
    | _, _ => none
  | .medium =>
    match rd 0, readMedium rd 32 0 33 noLookups with
    | some b, some lk => some (.slots b.toNat lk)
    | _, _ => none
  | .full =>
    match rd 0, readFull rd allBytes noLookups with
    | some b, some lk => some (.slots b.toNat lk)
    | _, _ => none

/-- What `lookupHash` gives: the index, whether it is a duplicate, and the bytes of the hash examined. -/
structure Found where
  idx : Int
  dup : Bool
  examined : Flags

/-- `byteBits |= 1 << i`. -/
def setBit (f : Flags) (i : Nat) : Flags := fun j => if j = i then true else f j

/-- The loop at multiplefixednodesize.go:424-506; the first argument bounds the number of rounds. -/
def scan (c : Container) (h : Bytes) : Nat → Nat → Flags → Option Found
  | 0, _, _ => none
  | n + 1, id, seen =>
    match locate c.starts id with
    | none => none
    | some (off, s) =>
      if c.bytes.length ≤ off then some ⟨-2, false, seen⟩
      else
        match decode (fun i => c.bytes[off + i]?) s with
        | none => none
        | some (.dup v) => some ⟨c.first + (u16 ((v : Int) - 1) : Int), true, seen⟩
        | some (.slots hbi lk) =>
          if 32 ≤ hbi then none
          else
            let seen := setBit seen hbi
            let e := lk (byteAt h hbi)
            if e = 0 then some ⟨-1, false, seen⟩
            else if e ≤ c.count then some ⟨c.first + ((e : Int) - 1), false, seen⟩
            else if (List.range 32).all seen = true then some ⟨-1, true, seen⟩
            else scan c h n (65536 - e) seen

/-- multiplefixednodesize.go:416-507 `lookupHash`. -/
def find (c : Container) (h : Bytes) : Option Found :=
  if c.count = 0 then some ⟨-1, false, fun _ => false⟩ else scan c h 33 c.root fun _ => false

end Verif.HashTree
