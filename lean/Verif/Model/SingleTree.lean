import Verif.Model.ShallowTree

/-!
# The decision tree over the hashes of one prefix

Models the making of a tree in weddingcakeback/singletree.go, and searching it as weddingcakeback/tierbelow.go does.
The recursion (singletree.go:321-432 `recurseGenerateNode`) is that of weddingcake/shallowtree.go, from which it was
copied: see `ShallowTree.gen`. Its two further panics (358-364) are for a byte index whose flag is not set, which the
loop before them never chooses. The same simplifications apply. The whole hash kept at a leaf in memory (380, 392) is
left out: it is not stored.
-/

namespace Verif.SingleTree

open Verif.ShallowTree

/-- singletree.go:134-141 and tierbelow.go:193-212: the flags of the bytes after the prefix. -/
def afterPrefix (hl pre : Nat) : Flags := fun i => decide (pre ≤ i ∧ i < hl)

/-- singletree.go:83-146 `GenerateSingleTree`: the root slot. -/
def generateSingle (ent : List Entry → Nat → Nat) (l : List Entry) (pre hl r : Nat) : Option Tree :=
  if pre > hl then none
  else if hl < 1 ∨ hl > 64 then none
  else if r > hl then none
  else if l.any (fun e => decide (e.hash.length ≠ hl)) = true then none
  else
    match l with
    | [] => some .empty
    | [e] => some (.leaf (e.hash.take r) e.pi)
    | _ => gen ent r hl (hl + 1) l (afterPrefix hl pre)

/-- The loop at tierbelow.go:298-315, over the flags still set: it ends when either runs out. -/
def reassuredBelow (h : Bytes) : List Nat → Bytes → Bool
  | i :: is, v :: vs => if byteAt h i ≠ v then false else reassuredBelow h is vs
  | _, _ => true

/-- tierbelow.go:274-351 `recurseLookupHash`, on the tree rather than on its bytes: 0 is 'no match'. -/
def searchFrom (h : Bytes) : Tree → Flags → Option Int
  | .empty, _ => some 0
  | .leaf reass pi, f => if reassuredBelow h (setBits f) reass = true then some pi else some 0
  | .slots bi next, f => if f bi = false then none else searchFrom h (next (byteAt h bi)) (flip f bi)

/-- The part of tierbelow.go:192-248 `TryIndexOfHash` that concerns one tree. -/
def search (hl pre : Nat) (t : Tree) (h : Bytes) : Option Int := searchFrom h t (afterPrefix hl pre)

end Verif.SingleTree
