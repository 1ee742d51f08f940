import Verif.Trees.Avl
import Verif.Trees.RedBlack

/-!
# The read methods the search trees inherit from `BinaryTree`
-/

namespace Extra
variable {N X : Type}

/-- the calls that look at a tree without changing it -/
inductive ReadOp
  | isEmpty
  | height
  | depth
  | leaves
  | isBalanced
  | isPerfect
  | isStrict
  | iter
  | toList
  | levels
  | preorder
  | depthFirst
  | postorder
  | inorder
  | breadthFirst
  | traverse (m : MethodArg)
  | leftView
  | rightView

/-- what they return -/
inductive ReadVal (N : Type)
  | bool (b : Bool)
  | int (n : Int)
  | list (vs : List N)
  | rows (vs : List (List N))
  deriving DecidableEq

/-- an exception, or a value and whether a warning was given -/
abbrev ReadRes (N : Type) := Except Err (ReadVal N × Bool)

/-- `get_data` of the nodes: the tree of the numbers — tree.py:113 -/
def BTree.nums : BTree (N × X) → BTree N
  | .nil => .nil
  | .node l w r => .node l.nums w.1 r.nums

/-- the calls of `BST`, `RedBlackTree`, `SplayTree` and `Treap`, each of which calls the method of the same name
of `BinaryTree`, and this in turn that of `Tree` —
bst.py:426, :1292, :1317, :1345, :1379, :1421, :1454, :1482, :1509, :1539, :1571, :1602, :1630, :1658, :1685, :1742,
red_black_tree.py:322, :1007, :1032, :1060, :1094, :1127, :1160, :1188, :1215, :1245, :1277, :1308, :1336, :1364, :1391,
:1448,
splay_tree.py:152, :558, :581, :617, :659, :695, :737, :763, :788, :816, :846, :875, :901, :927, :952, :1007,
treap.py:298, :635, :660, :688, :739, :775, :811, :839, :866, :896, :928, :959, :987, :1015, :1042, :1099,
binary_tree.py:512, :902, :927, :998, :1027, :1066, :1105, :1130 -/
def bstRead (t : BTree (N × X)) : ReadOp → ReadRes N
  | .isEmpty => .ok (.bool (match t with | .nil => true | .node _ _ _ => false), false)
  | .height => .ok (.int (treeHeight t.nums.rose), false)
  | .depth => .ok (.int (treeDepth t.nums.rose), false)
  | .leaves => .ok (.int (treeLeaves t.nums.rose), false)
  | .isBalanced => .ok (.bool t.nums.isBalanced.1, t.nums.isBalanced.2)
  | .isPerfect => t.nums.isPerfect.map (fun x => (.bool x.1, x.2))
  | .isStrict => t.nums.isStrict.map (fun x => (.bool x.1, x.2))
  | .iter => (treeIter t.nums.rose).map (fun vs => (.list vs, false))
  | .toList => (treeIter t.nums.rose).map (fun vs => (.list vs, false))
  | .levels => (treeLevels t.nums.rose).map (fun vs => (.rows vs, false))
  | .preorder => .ok (.list t.nums.preorder, false)
  | .depthFirst => .ok (.list t.nums.preorder, false)
  | .postorder => .ok (.list t.nums.postorder, false)
  | .inorder => .ok (.list t.nums.inorder, false)
  | .breadthFirst => (treeIter t.nums.rose).map (fun vs => (.list vs, false))
  | .traverse m => (t.nums.traverse m).map (fun vs => (.list vs, false))
  | .leftView => (t.nums.sideView true).map (fun vs => (.list vs, false))
  | .rightView => (t.nums.sideView false).map (fun vs => (.list vs, false))

/-- the calls of `AVL`: as for `BST`, but the height is the one kept at the root, and `is_balanced` looks at the
root only — avl.py:296, :615, :639, :662, :688, :802-804, :835, :866, :892, :917, :945, :975, :1004, :1030, :1056, :1081,
:1134; the depth of the root is the difference of its height and itself -/
def avlRead (t : BTree (N × Nat)) : ReadOp → ReadRes N
  | .height => .ok (.int t.avlHeight, false)
  | .depth => .ok (.int ((t.avlHeight : Int) - t.avlHeight), false)
  | .isBalanced => .ok (.bool t.avlIsBalanced.1, t.avlIsBalanced.2)
  | op => bstRead t op

end Extra
