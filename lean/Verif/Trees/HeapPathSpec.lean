import Verif.Trees.BinHeap

/-!
# Specification: which entries of the list of a heap a call changes
-/

namespace Extra
variable {N : Type}

/-- the way from a place in the list up to the root, both included -/
def wayUp (i : Nat) : List Nat := i :: if h : i = 0 then [] else wayUp ((i - 1) / 2)
decreasing_by omega

/-- the places at which two lists hold different items, or only one of them holds an item -/
def changedAt [DecidableEq N] (xs ys : List N) : List Nat :=
  (List.range (max xs.length ys.length)).filter (fun i => decide (xs[i]? ≠ ys[i]?))

end Extra
