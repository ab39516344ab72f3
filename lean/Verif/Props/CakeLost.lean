import Verif.Props.CakeCascade

/-!
# Looking for hashes once the first tier has been emptied into one with a prefix byte
-/

namespace Verif.Cake

open Verif.ShallowTree Verif.Chunk Verif.SingleTree Verif.DonutForest Verif.TierTop

/-- A cake whose top tier holds one hash and whose first tier is emptied when it has three batches, into one with a prefix byte;
the ids have the widths of the project's own first two tiers. -/
def demoPrefixCake : Settings := ⟨1, [⟨demoTier, 0, 3⟩, ⟨⟨32, 4, 10, 3, 3, true⟩, 1, 255⟩]⟩

/-- A hash of a first byte and 31 others. -/
def demoP (a b : UInt8) : Bytes := a :: List.replicate 31 b

/-- Two hashes that begin with the same byte, and one with another. -/
def demoPrefixOps : List Op := [.append (demoP 7 1), .append (demoP 7 2), .append (demoP 8 9)]

/-- The indices given in a history, and the answers then about hashes. -/
def seenHashes (s : Settings) (ops : List Op) (qs : List Bytes) : Option (List Int × List (Option Int)) :=
  match newCake s with
  | .ok k0 =>
    match run demoEnt s k0 ops with
    | .ok (k, given) => some (given, qs.map (indexOfHash k))
    | _ => none
  | _ => none

/-- **C63 and C65: violated by the whole cake.** Three hashes are appended, and the cake is closed and opened. To look for the first
or the second is a panic, and the third is said not to be there. No two of them agree in more than one byte, and before the first
tier is emptied the first two are found (`cascade_not_yet`). -/
theorem cascade_loses_hashes : seenHashes demoPrefixCake (demoPrefixOps ++ [.reopen]) [demoP 7 1, demoP 7 2, demoP 8 9] =
    some ([0, 1, 2], [none, none, some (-1)]) := by
  decide +kernel

theorem cascade_not_yet : seenHashes demoPrefixCake (demoPrefixOps.take 2 ++ [.reopen]) [demoP 7 1, demoP 7 2, demoP 8 9] =
    some ([0, 1], [some 0, some 1, some (-1)]) := by
  decide +kernel

end Verif.Cake
