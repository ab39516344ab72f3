import Verif.Model.Bytes
import Verif.Model.StableSort

/-!
# The decision tree over a set of hashes

Models weddingcake/shallowtree.go.

Simplifications.
* A `*ShallowTreeNode` is the tree below it, the nil pointer `empty`. The `Level` of a node is its distance from the
  root and is not stored.
* A word of flags (`unusedBytesFlags`, `uint64`) is the function giving its bits; the loops that look for the next set
  bit walk over the list of set bits.
* The entropy of a partition, a non-negative float64, is an arbitrary function `ent` into the natural numbers (its bit
  pattern: non-negative floats are ordered as their bit patterns are), constrained by `EntropyOK` only.
* `none` is a panic.
-/

namespace Verif.ShallowTree

/-- shallowtree.go:31-51: `ShallowTreeSlot` with the node it points to. -/
inductive Tree where
  | empty
  | leaf (reass : Bytes) (pi : Int)
  | slots (bi : Nat) (next : UInt8 → Tree)

/-- shallowtree.go:59-62 `ShallowTreeHash`. -/
structure Entry where
  hash : Bytes
  pi : Int
deriving DecidableEq, Repr

/-- `hash[i]`; only used with `i` below the length. -/
def byteAt (h : Bytes) (i : Nat) : UInt8 := h.getD i 0

/-- `uint64` flags. -/
abbrev Flags := Nat → Bool

/-- `unusedBytesFlags` at the start: 109-114, 141-146. -/
def allUnused (hl : Nat) : Flags := fun i => decide (i < hl)

/-- `flags ^= 1 << i`. -/
def flip (f : Flags) (i : Nat) : Flags := fun j => if j = i then !f j else f j

/-- The set bits, lowest first. -/
def setBits (f : Flags) : List Nat := (List.range 64).filter f

/-- 0 to 255. -/
def allBytes : List UInt8 := (List.range 256).map UInt8.ofNat

/-! ## Making the tree -/

/-- The loop at shallowtree.go:281-291: the greatest entropy and its byte index. -/
def best (ent : List Entry → Nat → Nat) (l : List Entry) (f : Flags) (hl : Nat) : Nat × Nat :=
  (List.range hl).foldl
    (fun m i => if f i = true then (if ent l i > m.1 then (ent l i, i) else m) else m) (0, 0)

/-- The loop at shallowtree.go:335-350: the reassurance bytes of a leaf. -/
def reassurance (f : Flags) (r : Nat) (h : Bytes) : Bytes := ((setBits f).take r).map (byteAt h)

/-- The loop at shallowtree.go:313-320 over the byte values: the run of hashes with each value. -/
def cut (bi : Nat) : List UInt8 → List Entry → List (UInt8 × List Entry)
  | [], _ => []
  | b :: bs, l =>
    (b, l.takeWhile fun e => byteAt e.hash bi = b) :: cut bi bs (l.dropWhile fun e => byteAt e.hash bi = b)

/-- The run of one byte value. -/
def runOf (c : List (UInt8 × List Entry)) (b : UInt8) : List Entry :=
  match c.find? fun x => x.1 = b with
  | some x => x.2
  | none => []

/-- 321-363: what a slot points to. -/
def child (rec : List Entry → Option Tree) (f : Flags) (r : Nat) : List Entry → Option Tree
  | [] => some .empty
  | [e] => some (.leaf (reassurance f r e.hash) e.pi)
  | run => rec run

/-- A panic for any slot is a panic of the whole. -/
def collect (g : UInt8 → Option Tree) : Option (UInt8 → Tree) :=
  if allBytes.all (fun b => (g b).isSome) = true then some fun b => (g b).getD .empty else none

/-- shallowtree.go:265-366 `recurseGenerateNode`. The first argument bounds the depth of the recursion. -/
def gen (ent : List Entry → Nat → Nat) (r hl : Nat) : Nat → List Entry → Flags → Option Tree
  | 0, _, _ => none
  | n + 1, l, f =>
    if l.length < 2 then none
    else
      let m := best ent l f hl
      if m.1 = 0 then none
      else
        let f' := flip f m.2
        let sorted := stableSort (fun a b => decide (byteAt a.hash m.2 ≤ byteAt b.hash m.2)) l
        let runs := cut m.2 allBytes sorted
        (collect fun b => child (fun run => gen ent r hl n run f') f' r (runOf runs b)).map (.slots m.2)

/-- shallowtree.go:65-118 `GenerateShallowTree`: the root slot. -/
def generate (ent : List Entry → Nat → Nat) (l : List Entry) (hl r : Nat) : Option Tree :=
  if hl < 1 ∨ hl > 64 then none
  else if r > hl then none
  else if l.any (fun e => decide (e.hash.length ≠ hl)) = true then none
  else
    match l with
    | [] => some .empty
    | [e] => some (.leaf (e.hash.take r) e.pi)
    | _ => gen ent r hl (hl + 1) l (allUnused hl)

/-! ## Looking up -/

/-- The loop at shallowtree.go:157-174, over the flags still set. -/
def checkReassurance (h : Bytes) : Bytes → List Nat → Option Bool
  | [], _ => some true
  | _ :: _, [] => none
  | v :: vs, i :: is => if byteAt h i ≠ v then some false else checkReassurance h vs is

/-- The loop at shallowtree.go:148-187. -/
def lookupFrom (h : Bytes) : Tree → Flags → Option Int
  | .empty, _ => some (-1)
  | .leaf reass pi, f =>
    match checkReassurance h reass (setBits f) with
    | none => none
    | some true => some pi
    | some false => some (-1)
  | .slots bi next, f => lookupFrom h (next (byteAt h bi)) (flip f bi)

/-- shallowtree.go:130-188 `LookupHash`. -/
def lookup (hl : Nat) (t : Tree) (h : Bytes) : Option Int :=
  if h.length ≠ hl then none else lookupFrom h t (allUnused hl)

/-! ## Visiting -/

/-- `IsEmpty`. -/
def Tree.isEmpty : Tree → Bool
  | .empty => true
  | _ => false

/-- A node, named by the byte values that lead to it (in place of its address). -/
abbrev Named := List UInt8 × Tree

/-- The loop at shallowtree.go:224-235: the stack (top first) after pushing the slots of a node. -/
def push (p : List UInt8) (next : UInt8 → Tree) (stack : List Named) : List Named :=
  allBytes.foldl (fun st b => if (next b).isEmpty = true then st else (p ++ [b], next b) :: st) stack

/-- The loop at shallowtree.go:213-237; the first argument bounds the number of rounds. -/
def visitLoop : Nat → List Named → List Named
  | 0, _ => []
  | _ + 1, [] => []
  | n + 1, (p, t) :: stack =>
    (p, t) ::
      (match t with
      | .slots _ next => visitLoop n (push p next stack)
      | _ => visitLoop n stack)

/-- The number of nodes. -/
def Tree.size : Tree → Nat
  | .empty => 0
  | .leaf _ _ => 1
  | .slots _ next => 1 + (allBytes.map fun b => (next b).size).sum

/-- shallowtree.go:201-238 `VisitAllNodes`: the nodes in the order visited. -/
def visitAll (t : Tree) : List Named := if t.isEmpty = true then [] else visitLoop (t.size + 1) [([], t)]

/-- shallowtree.go:249-260 `activeSlotsCount`. -/
def activeSlots : Tree → Nat
  | .slots _ next => allBytes.countP fun b => !(next b).isEmpty
  | _ => 0

end Verif.ShallowTree
