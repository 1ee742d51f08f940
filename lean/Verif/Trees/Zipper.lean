import Verif.Trees.Bst

/-!
# A node and the nodes above it

The loops that follow parent links from a node up to the root are modelled on a subtree together with
the nodes above it, nearest first.
-/

namespace Extra
variable {N X : Type} [LinearOrder N]

/-- a node above: whether the subtree is its left child, its data, and its other child -/
structure Above (N X : Type) where
  left : Bool
  w : N × X
  other : BTree (N × X)

/-- the subtree at the end of a walk and the nodes above it, nearest first -/
def BTree.descend : BTree (N × X) → List Bool → List (Above N X) → BTree (N × X) × List (Above N X)
  | t, [], fs => (t, fs)
  | .nil, _ :: _, fs => (.nil, fs)
  | .node l w r, false :: p, fs => l.descend p (⟨true, w, r⟩ :: fs)
  | .node l w r, true :: p, fs => r.descend p (⟨false, w, l⟩ :: fs)

/-- `is_left_child` answers what the links say — bst.py:266 -/
def sideOk (f : Above N X) (x : N) : Bool := decide (f.w.1 > x) == f.left

/-- a tree put back under the nodes above it -/
def plug : BTree (N × X) → List (Above N X) → BTree (N × X)
  | t, [] => t
  | t, f :: fs => plug (if f.left then .node t f.w f.other else .node f.other f.w t) fs

/-- the way to the node `_insert_node` returns: the new one, or the one that holds the value —
bst.py:694-713 -/
def BTree.insertPath (v : N) : BTree (N × X) → List Bool
  | .nil => []
  | .node l w r =>
    if v = w.1 then []
    else if v < w.1 then false :: l.insertPath v
    else true :: r.insertPath v

/-- the way to `_get_min_node` — bst.py:524-527 -/
def BTree.minPath : BTree (N × X) → List Bool
  | .nil => []
  | .node .nil _ _ => []
  | .node (.node ll lv lr) _ _ => false :: (BTree.node ll lv lr).minPath

/-- the way to `_get_max_node` — bst.py:455-458 -/
def BTree.maxPath : BTree (N × X) → List Bool
  | .nil => []
  | .node _ _ .nil => []
  | .node _ _ (.node rl rv rr) => true :: (BTree.node rl rv rr).maxPath

end Extra
