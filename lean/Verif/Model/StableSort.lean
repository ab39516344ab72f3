/-!
# `sort.SliceStable`
-/

namespace Verif

/-- Put `x` before the first element it is not after. -/
def insertStable {α : Type} (le : α → α → Bool) (x : α) : List α → List α
  | [] => [x]
  | y :: ys => if le x y = true then x :: y :: ys else y :: insertStable le x ys

/-- `sort.SliceStable`: sorted, and elements that compare equal keep their order (`le x y` is `!less(y, x)`). -/
def stableSort {α : Type} (le : α → α → Bool) : List α → List α
  | [] => []
  | x :: xs => insertStable le x (stableSort le xs)

end Verif
