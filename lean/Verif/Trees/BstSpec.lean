import Verif.Trees.Bst
import Verif.Trees.TreeSpec

/-!
# Search trees: the specification of `BST` and its subclasses
-/

namespace Extra
variable {N X : Type} [LinearOrder N]

/-- a search tree: read from left to right the numbers are strictly increasing -/
def SearchTree (t : BTree (N × X)) : Prop := (t.inorder.map Prod.fst).Pairwise (· < ·)

/-- a number is held by a tree: it is the number of the node at some path -/
def Holds (t : BTree (N × X)) (v : N) : Prop := ∃ p x, t.at p = some (v, x)

/-- only right children -/
def BTree.rightSpine : BTree (N × X) → Prop
  | .nil => True
  | .node l _ r => l = .nil ∧ r.rightSpine

/-- only left children -/
def BTree.leftSpine : BTree (N × X) → Prop
  | .nil => True
  | .node l _ r => r = .nil ∧ l.leftSpine

/-- what hangs below the leftmost node -/
def BTree.belowMin : BTree (N × X) → BTree (N × X)
  | .nil => .nil
  | .node .nil _ r => r
  | .node (.node ll lv lr) _ _ => (BTree.node ll lv lr).belowMin

/-- what hangs below the rightmost node -/
def BTree.belowMax : BTree (N × X) → BTree (N × X)
  | .nil => .nil
  | .node l _ .nil => l
  | .node _ _ (.node rl rv rr) => (BTree.node rl rv rr).belowMax

/-- the shapes of the subtree of a node for which `BST.remove` of the node keeps the order: what hangs
below the successor (or, without a right child, the predecessor) is a chain in one direction -/
def RemovalSafe : BTree (N × X) → Prop
  | .nil => True
  | .node l _ .nil => l.belowMax.leftSpine
  | .node _ _ (.node rl rv rr) => (BTree.node rl rv rr).belowMin.rightSpine

/-- whether a number is in the set the calls describe: each insert puts a number in, each remove takes
it out, `clear` takes all out -/
def inSet (x : N) : Bool → List (BstOp N) → Bool
  | b, [] => b
  | b, .insert (.num v) :: ops => inSet x (b || decide (x = v)) ops
  | b, .remove (.num v) :: ops => inSet x (b && decide (x ≠ v)) ops
  | _, .clear :: ops => inSet x false ops
  | b, _ :: ops => inSet x b ops

/-- a history without `invert` in which each remove finds a safe shape -/
def SafeRun : List (BstOp N) → Bst N Unit → Prop
  | [], _ => True
  | .remove (.num v) :: ops, t =>
    (∀ p l r, t.root.sub p = .node l (v, ()) r → RemovalSafe (.node l (v, ()) r)) ∧
      SafeRun ops (t.exec (.remove (.num v))).2
  | .invert :: _, _ => False
  | op :: ops, t => SafeRun ops (t.exec op).2

end Extra
