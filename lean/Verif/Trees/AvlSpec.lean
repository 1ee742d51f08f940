import Verif.Trees.Avl
import Verif.Trees.BstSpec

/-!
# Balance: the specification of `AVL`

`nlev` is the number of levels of a tree (Verif/Trees/TreeSpec.lean).
-/

namespace Extra
variable {N X : Type}

/-- at every node the numbers of levels of the two subtrees differ by one at most -/
def Balanced (t : BTree (N × X)) : Prop :=
  ∀ p l w r, t.sub p = .node l w r → l.nlev ≤ r.nlev + 1 ∧ r.nlev ≤ l.nlev + 1

/-- every node stores its true height: the number of levels below it -/
def HeightsTrue (t : BTree (N × Nat)) : Prop :=
  ∀ p l w r, t.sub p = .node l w r → w.2 + 1 = (BTree.node l w r).nlev

/-- a node heavier on the left, whose left child has two subtrees of the same height, the right one of
them lighter on the left: `_rebalance` leaves an unbalanced node if the right side loses a level -/
def BadTie (t : BTree (N × X)) : Prop :=
  ∃ p pl pv b bv c w r, t.sub p = .node (.node pl pv (.node b bv c)) w r ∧
    (BTree.node pl pv (.node b bv c)).nlev = r.nlev + 1 ∧
    pl.nlev = (BTree.node b bv c).nlev ∧ b.nlev + 2 = pl.nlev

end Extra
