import Verif.Trees.Bst
import Mathlib.Data.Rat.Defs
import Mathlib.Data.List.Permutation

/-!
# How many nodes a search looks at, and averages

`_search` (bst.py:612-623) looks at the nodes on the way down from the root.
-/

namespace Extra
variable {N X : Type} [LinearOrder N]

/-- the number of nodes `_search` looks at — bst.py:612-623; without a root it is not called
(bst.py:658) -/
def BTree.visits (v : N) (t : BTree (N × X)) : Nat :=
  match t with
  | .nil => 0
  | .node l w r => ((BTree.node l w r).search v).length + 1

/-- the mean of the values of a function on the entries of a list -/
def meanOver {α : Type} (L : List α) (f : α → ℚ) : ℚ := (L.map f).sum / L.length

/-- `z` lies between `x` and `y`, or is one of them -/
def span (x y z : N) : Bool := decide ((x ≤ z ∧ z ≤ y) ∨ (y ≤ z ∧ z ≤ x))

end Extra
