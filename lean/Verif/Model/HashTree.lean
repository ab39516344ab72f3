import Verif.Model.ShallowTree

/-!
# The pool of nodes over a batch of hashes

Models indexedhashestree/shallowtree.go, from which weddingcake/shallowtree.go was made: here a node is an index into a
pool, a slot is a 16-bit word, and hashes may be presented more than once.

Simplifications.
* `unusedByteIndices` is the function giving its bits (`Flags`), the entropy an arbitrary function `ent`, and the sort by
  one byte `stableSort`, all as in `Verif.ShallowTree`.
* The slots of the node being made are kept beside the pool until they are all known; nothing reads the node before
  that.
* A hash is a list of bytes; the theorems are about lists of 32.
* `uint16` values are natural numbers below 65536, with the remainder written out where a conversion could wrap.
-/

namespace Verif.HashTree

open Verif.ShallowTree (Entry Flags byteAt best cut allBytes allUnused)

/-- shallowtree.go:26-30 `shallowTreeNode`. -/
structure Node where
  level : Nat
  hbi : Nat
  lookups : UInt8 → Nat

/-- shallowtree.go:32-36 `shallowTreeContainer`. -/
structure Pool where
  first : Int
  count : Nat
  nodes : List Node

/-- shallowtree.go:44-48 `reset`. -/
def Pool.reset : Pool := ⟨0, 0, []⟩

/-- `uint16(v)`. -/
def u16 (v : Int) : Nat := (v % 65536).toNat

/-- No slot in use. -/
def noLookups : UInt8 → Nat := fun _ => 0

/-- `lookups[b] = v`. -/
def put (lk : UInt8 → Nat) (b : UInt8) (v : Nat) : UInt8 → Nat := fun c => if c = b then v else lk c

/-- The loop at shallowtree.go:128-134: the lowest presentation index. -/
def lowest : Int → List Entry → Int
  | m, [] => m
  | m, e :: es => lowest (if e.pi < m then e.pi else m) es

/-- The slots of a node: the loop at shallowtree.go:154-193 over the runs of equal bytes. `none` is an overflow. -/
def slots (first : Int) (count : Nat) (rec : List Entry → List Node → Option (Nat × List Node)) :
    List (UInt8 × List Entry) → (UInt8 → Nat) → List Node → Option ((UInt8 → Nat) × List Node)
  | [], lk, nodes => some (lk, nodes)
  | (b, []) :: rs, lk, nodes => slots first count rec rs (put lk b 0) nodes
  | (b, [e]) :: rs, lk, nodes => slots first count rec rs (put lk b (u16 (e.pi - first + 1))) nodes
  | (b, e :: e' :: es) :: rs, lk, nodes =>
    match rec (e :: e' :: es) nodes with
    | none => none
    | some (child, nodes) =>
      let encoded := u16 (65536 - child)
      if encoded ≤ count then none else slots first count rec rs (put lk b encoded) nodes

/-- shallowtree.go:111-139: the node for entries that no byte tells apart. -/
def ended (first : Int) (level : Nat) : List Entry → Option Node
  | [] => none
  | e :: es =>
    if es = [] ∧ level = 0 then some ⟨level, 0, put noLookups (byteAt e.hash 0) (u16 (e.pi - first + 1))⟩
    else some ⟨level, 32, put noLookups 0 (u16 (lowest e.pi es - first + 1))⟩

/-- shallowtree.go:87-195 `recurseGenerateNode`: the index of the node and the nodes so far, or `none` for an overflow.
The first argument bounds the depth of the recursion: after 32 bytes none is left to look at. -/
def gen (ent : List Entry → Nat → Nat) (first : Int) (count : Nat) :
    Nat → List Entry → Flags → Nat → List Node → Option (Nat × List Node)
  | 0, _, _, _, _ => none
  | n + 1, l, f, level, nodes =>
    let idx := nodes.length
    let nodes := nodes ++ [⟨level, 0, noLookups⟩]
    let m := best ent l f 32
    if m.1 = 0 then (ended first level l).map fun node => (idx, nodes.set idx node)
    else
      let f' := ShallowTree.flip f m.2
      let sorted := stableSort (fun a b => decide (byteAt a.hash m.2 ≤ byteAt b.hash m.2)) l
      (slots first count (fun run nodes => gen ent first count n run f' (level + 1) nodes)
        (cut m.2 allBytes sorted) noLookups nodes).map fun r => (idx, r.2.set idx ⟨level, m.2, r.1⟩)

/-- shallowtree.go:57-84 `generate`: the container afterwards, and whether it overflowed. -/
def generate (ent : List Entry → Nat → Nat) (input : List Entry) : Pool × Bool :=
  match input with
  | [] => (Pool.reset, false)
  | e :: _ =>
    if 65536 ≤ input.length then (Pool.reset, true)
    else
      match gen ent e.pi input.length 33 input (allUnused 32) 0 [] with
      | none => (Pool.reset, true)
      | some (_, nodes) => (⟨e.pi, input.length, nodes⟩, false)

/-- The loop at shallowtree.go:221-250, the number of bytes left and the next node given. `none` is a panic. -/
def walk (p : Pool) (h : Bytes) : Nat → Nat → Option (Int × Bool)
  | 0, _ => some (-1, true)
  | left + 1, idx =>
    match p.nodes[idx]? with
    | none => none
    | some node =>
      if node.hbi = 32 then
        let e := node.lookups 0
        if e = 0 then none
        else if e ≤ p.count then some (p.first + ((e : Int) - 1), true)
        else none
      else if 32 < node.hbi then none
      else
        let e := node.lookups (byteAt h node.hbi)
        if e = 0 then some (-1, false)
        else if e ≤ p.count then some (p.first + ((e : Int) - 1), false)
        else walk p h left (65536 - e)

/-- shallowtree.go:212-251 `lookupHash`: the presentation index, and whether the hash was presented more than once. -/
def lookup (p : Pool) (h : Bytes) : Option (Int × Bool) :=
  if p.count = 0 then some (-1, false) else walk p h 32 0

/-- shallowtree.go:197-209 `getNodeSizeStatistics`, the inner loop: the slots in use. -/
def used (lk : UInt8 → Nat) : Nat := allBytes.countP fun b => decide (lk b ≠ 0)

/-- shallowtree.go:197-209 `getNodeSizeStatistics`: for each size the number of nodes. -/
def sizes (p : Pool) (size : Nat) : Nat := p.nodes.countP fun n => decide (used n.lookups = size)

end Verif.HashTree
