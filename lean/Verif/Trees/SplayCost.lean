import Verif.Trees.Splay
import Mathlib.Data.Nat.Log

/-!
# How many nodes a call on a `SplayTree` looks at

The cost of a call is counted on the model of Verif/Trees/Splay.lean: `visits` counts the nodes on the
way down from the root (a node counts once, although the code asks it several questions), and `sinks`
the swaps of `_transplant` below the replacement of a removed node.  The splaying itself walks the way
up again and is not counted twice.
-/

namespace Extra
variable {N X : Type} [LinearOrder N]

/-- how many nodes the data sink through on the way to a leaf — bst.py:894-902 -/
def BTree.sinkLen : BTree (N × X) → Nat
  | .nil => 0
  | .node .nil _ .nil => 0
  | .node (.node ll lv lr) _ _ => (BTree.node ll lv lr).sinkLen + 1
  | .node .nil _ (.node rl rv rr) => (BTree.node rl rv rr).sinkLen + 1

/-- the number of nodes of a tree -/
def BTree.nodes : BTree (N × X) → Nat
  | .nil => 0
  | .node l _ r => l.nodes + r.nodes + 1

/-- the nodes on the way down: of `_search` (bst.py:612-623), of `_insert_node` with the new node
(bst.py:694-713), of `_remove` down to the replacement (bst.py:957-970), of `_get_min_node` and
`_get_max_node` (bst.py:524-527, :455-458); a traversal looks at every node -/
def SplayOp.visits (t : BTree (N × Unit)) : SplayOp N → Nat
  | .insert (.num v) => if t = .nil then 0 else (t.insertPath v).length + 1
  | .contains (.num v) => if t = .nil then 0 else (t.search v).length + 1
  | .remove (.num v) =>
    if t = .nil then 0
    else if t.dataAt (t.search v) = some v then
      (t.search v ++ (t.walk (t.search v)).replacementPath).length + 1
    else (t.search v).length + 1
  | .getMin => if t = .nil then 0 else t.minPath.length + 1
  | .getMax => if t = .nil then 0 else t.maxPath.length + 1
  | .inorder => t.nodes
  | _ => 0

/-- the swaps below the replacement in a call of `remove` — bst.py:894-902 -/
def SplayOp.sinks (t : BTree (N × Unit)) : SplayOp N → Nat
  | .remove (.num v) =>
    if t.dataAt (t.search v) = some v then
      ((t.walk (t.search v)).walk (t.walk (t.search v)).replacementPath).sinkLen
    else 0
  | _ => 0

/-- the sum of a cost over a history -/
def costs (cost : BTree (N × Unit) → SplayOp N → Nat) : List (SplayOp N) → Bst N Unit → Nat
  | [], _ => 0
  | op :: ops, t =>
    cost t.root op + (match splayExec t op with
      | .ok (_, t') => costs cost ops t'
      | .error _ => 0)

/-- the number of calls of `insert` in a history -/
def inserts : List (SplayOp N) → Nat
  | [] => 0
  | .insert _ :: ops => inserts ops + 1
  | _ :: ops => inserts ops

/-- the calls that splay, and those that take constant time -/
def SplayOp.splays : SplayOp N → Bool
  | .insert _ | .remove _ | .contains _ | .len | .clear => true
  | .getMin | .getMax | .inorder => false

end Extra
