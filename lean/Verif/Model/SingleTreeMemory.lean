import Verif.Model.SingleTree

/-!
# The tree of one prefix in memory

Models `LookupHash`, `VisitAllNodes`, `VisitAllLeaves` and the counts of weddingcakeback/singletree.go, on the tree that
`GenerateSingleTree` makes (Model.SingleTree).

Unlike the stored tree, a leaf has the whole hash of its entry (singletree.go:52-57, 115-121, 392-393) besides its presentation index. In
place of these two copied fields a leaf here has the place of the entry in the input.
-/

namespace Verif.SingleTree

open Verif.ShallowTree

/-- The input with the place of each entry in place of its presentation index. -/
def placed (l : List Entry) : List Entry := l.mapIdx fun k e => ⟨e.hash, k⟩

/-- singletree.go:83-146 `GenerateSingleTree`. -/
def makeTree (ent : List Entry → Nat → Nat) (l : List Entry) (pre hl r : Nat) : Option Tree := generateSingle ent (placed l) pre hl r

/-- The loop at singletree.go:170-222. An empty slot and an empty root (155-157) give 0, `SingleTreeNoMatch`. -/
def lookupLoop (pre : Nat) (l : List Entry) (h : Bytes) : Tree → Flags → Option Int
  | .empty, _ => some 0
  | .leaf _ k, _ =>
    match l[k.toNat]? with
    | none => none
    | some e => if e.hash ≠ h then some 0 else some e.pi
  | .slots bi next, f =>
    if bi < pre then none
    else if f bi = false then none
    else lookupLoop pre l h (next (byteAt h bi)) (flip f bi)

/-- singletree.go:150-223 `LookupHash`, on the tree made of `l`. -/
def lookupHash (hl pre : Nat) (l : List Entry) (t : Tree) (h : Bytes) : Option Int :=
  if h.length ≠ hl then none else lookupLoop pre l h t (afterPrefix hl pre)

/-- singletree.go:236-273 `VisitAllNodes` is shallowtree.go:201-238; 275-281 `CountNodes`. -/
def countNodes (t : Tree) : Nat := (visitAll t).length

/-- A leaf's place in the input. -/
def leafPlace : Tree → Option Nat
  | .leaf _ k => some k.toNat
  | _ => none

/-- singletree.go:288-294 `VisitAllLeaves`: the entries of the leaves in the order visited. -/
def visitAllLeaves (l : List Entry) (t : Tree) : List Entry := (visitAll t).filterMap fun n => (leafPlace n.2).bind (l[·]?)

/-- singletree.go:296-302 `CountLeaves`. -/
def countLeaves (t : Tree) : Nat := ((visitAll t).filterMap fun n => leafPlace n.2).length

/-- singletree.go:123, 143, 327, 419, 425 `Level`: the level of the node with the given name, as the prefix and one more for each node above it. -/
def level (pre : Nat) (n : Named) : Nat := pre + n.1.length

end Verif.SingleTree
