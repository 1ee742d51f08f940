import Verif.Trees.NodeSet
import Verif.Trees.PtrAvl
import Verif.Trees.PtrRb

/-!
# The attributes of nodes as methods for callers

`set_height` of `AVLNode`, `set_color` of `RedBlackNode`, `set_priority` of `TreapNode`.  `is_balanced` and
`get_children_heights` of `AVLNode` are in `Verif/Trees/PtrAvl.lean`.
-/

namespace Extra
variable {N P : Type} [LinearOrder N]

/-- what a caller may pass for a height: an `int`, or something else (a `bool` too: `type` is compared) -/
inductive HeightArg
  | int (i : Int)
  | other
  deriving DecidableEq

/-- `set_height` — avl.py:146-150 -/
def nodeSetHeight (a : Addr) : HeightArg → PM N Nat Unit
  | .other => PM.throw .typeError
  | .int i => if i < 0 then PM.throw .valueError else pSetNode (some a) fun n => { n with ext := i.toNat }

/-- what a caller may pass for a color: a color, something else, or something that has no hash -/
inductive ColorArg
  | color (c : Color)
  | other
  | unhashable
  deriving DecidableEq

/-- `set_color`: whether an object is in a set depends on its hash — red_black_tree.py:111-113 -/
def nodeSetColor (a : Addr) : ColorArg → PM N Color Unit
  | .color c => pSetNode (some a) fun n => { n with ext := c }
  | .other => PM.throw .valueError
  | .unhashable => PM.throw .typeError

/-- what a caller may pass for a priority: an `int` or `float`, or something else, also `None` -/
inductive PriorityArg (P : Type)
  | num (p : P)
  | other
  deriving DecidableEq

/-- `set_priority` — treap.py:106-108 -/
def treapNodeSetPriority (a : Addr) : PriorityArg P → PM N P Unit
  | .num p => pSetNode (some a) fun n => { n with ext := p }
  | .other => PM.throw .typeError

/-- `get_height`, `get_color`, `get_priority` — avl.py:87, red_black_tree.py:95, treap.py:90 -/
def nodeGetExt (a : Addr) : PM N P P := do return (← pNode (some a)).ext

end Extra
