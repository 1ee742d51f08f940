import Verif.Trees.RedBlack
import Verif.Trees.BstSpec

/-!
# Red-black trees: the specification
-/

namespace Extra
variable {N : Type} [LinearOrder N]

/-- no red node has a red child -/
def NoRedRed (t : BTree (N × Color)) : Prop :=
  ∀ p b x y, t.at p = some (x, .red) → t.at (p ++ [b]) = some y → y.2 = .black

/-- the number of black nodes passed on a path -/
def blacksOn : BTree (N × Color) → List Bool → Nat
  | .node _ w r, true :: p => (if w.2 = .black then 1 else 0) + blacksOn r p
  | .node l w _, false :: p => (if w.2 = .black then 1 else 0) + blacksOn l p
  | _, _ => 0

/-- a path ends at a missing child: nothing is there, but there is a node at its last but one place -/
def MissingAt (t : BTree (N × Color)) (p : List Bool) : Prop :=
  t.at p = none ∧ ∀ q b, p = q ++ [b] → t.at q ≠ none

/-- every path from the root to a missing child passes the same number of black nodes -/
def EqualBlacks (t : BTree (N × Color)) : Prop := ∃ n, ∀ p, MissingAt t p → blacksOn t p = n

/-- the root is black -/
def RootBlack (t : BTree (N × Color)) : Prop := ∀ x, t.at [] = some x → x.2 = .black

/-- the colour invariants -/
structure RedBlackOk (t : BTree (N × Color)) : Prop where
  noRedRed : NoRedRed t
  equalBlacks : EqualBlacks t
  rootBlack : RootBlack t

/-- the way to `v` goes through the red root of the tree and on to its right (or left) child -/
def TurnsAt (v : N) (toRight : Bool) : BTree (N × Color) → Prop
  | .node a (x, .red) b => if toRight then x < v ∧ b ≠ .nil else v < x ∧ a ≠ .nil
  | _ => False

/-- on the way to `v` there is a red node without a red sibling at which the way turns, from left to
right or from right to left, and goes on to another node -/
def BadTurn (v : N) : BTree (N × Color) → Prop
  | .nil => False
  | .node l w r =>
    (v < w.1 ∧ ((TurnsAt v true l ∧ r.isRed = false) ∨ BadTurn v l)) ∨
    (w.1 < v ∧ ((TurnsAt v false r ∧ l.isRed = false) ∨ BadTurn v r))

/-- the number before or the number after the node with children `l` and `r`, in its own subtree, is
that of a red node -/
def RedNeighbour (l r : BTree (N × Color)) : Prop :=
  (∃ y, r.inorder.head? = some (y, .red)) ∨ (∃ y, l.inorder.getLast? = some (y, .red))

end Extra
