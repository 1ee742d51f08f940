import Verif.Py

/-!
# `Tree` and `BinaryTree` — /repo/extra/trees/tree.py, /repo/extra/trees/binary_tree.py

A tree is its nodes as a value: no node is reachable in two ways, which holds for every tree built by
`from_path`, `parse` or the search trees.  (A caller who links nodes by hand with `set_child` could
share a node or close a cycle; this is not modelled here.)  `from_path` reads the file system and is
not modelled.

Stacks (Python lists used with `append`, `extend` and `pop`) are kept with their top first.
-/

namespace Extra

/-- `TreeNode` — tree.py:92-96 -/
inductive RTree (V : Type)
  | node (data : V) (children : List (RTree V))

/-- `get_data` — tree.py:113 -/
def RTree.data {V : Type} : RTree V → V
  | .node d _ => d

/-- `get_children` — tree.py:134 -/
def RTree.children {V : Type} : RTree V → List (RTree V)
  | .node _ cs => cs

/-- `BinaryTreeNode`, with `nil` for `None` — binary_tree.py:132-134 -/
inductive BTree (V : Type)
  | nil
  | node (left : BTree V) (data : V) (right : BTree V)
  deriving DecidableEq, Repr

variable {V : Type}

/-- the node as `Tree`'s methods see it, through `BinaryTreeNode.get_children` —
binary_tree.py:211-216 -/
def BTree.rose : BTree V → Option (RTree V)
  | .nil => none
  | .node l v r => some (.node v (l.rose.toList ++ r.rose.toList))

/-! ## Counting, height, leaves -/

mutual
/-- `__count_nodes` — tree.py:438-441 -/
def RTree.count : RTree V → Nat
  | .node _ cs => RTree.countAll cs 1
/-- the loop of `__count_nodes` — tree.py:439-440 -/
def RTree.countAll : List (RTree V) → Nat → Nat
  | [], total => total
  | c :: cs, total => RTree.countAll cs (total + c.count)
end

/-- `Tree.__len__` — tree.py:471-473, binary_tree.py:490 -/
def treeLen : Option (RTree V) → Nat
  | none => 0
  | some t => t.count

mutual
/-- `_get_height` — tree.py:672-675 -/
def RTree.height : RTree V → Nat
  | .node _ cs => RTree.heightAll cs 0
/-- the loop of `_get_height` — tree.py:673-674 -/
def RTree.heightAll : List (RTree V) → Nat → Nat
  | [], h => h
  | c :: cs, h => RTree.heightAll cs (max h (1 + c.height))
end

/-- `Tree.get_height` — tree.py:709-711, binary_tree.py:658 -/
def treeHeight : Option (RTree V) → Nat
  | none => 0
  | some t => t.height

/-- `_get_depth` of a node of the tree — tree.py:755 -/
def RTree.depthOf (root n : RTree V) : Int := (root.height : Int) - (n.height : Int)

/-- `Tree.get_depth` — tree.py:788-790, binary_tree.py:681 -/
def treeDepth : Option (RTree V) → Int
  | none => 0
  | some t => t.depthOf t

mutual
/-- `_count_leaf_nodes`; a node without children is a leaf — tree.py:844-849, :230 -/
def RTree.leaves : RTree V → Nat
  | .node _ [] => 1
  | .node _ (c :: cs) => RTree.leavesAll cs (0 + c.leaves)
/-- the loop of `_count_leaf_nodes` — tree.py:847-848 -/
def RTree.leavesAll : List (RTree V) → Nat → Nat
  | [], total => total
  | c :: cs, total => RTree.leavesAll cs (total + c.leaves)
end

/-- `Tree.count_leaf_nodes` — tree.py:884-886, binary_tree.py:707 -/
def treeLeaves : Option (RTree V) → Nat
  | none => 0
  | some t => t.leaves

/-! ## Iteration, search, levels -/

/-- the inner loop of `__iter__`: values yielded and `next_nodes` so far — tree.py:933-935 -/
def iterLevel : List (RTree V) → List V → List (RTree V) → List V × List (RTree V)
  | [], out, next => (out, next)
  | n :: ns, out, next => iterLevel ns (out ++ [n.data]) (next ++ n.children)

/-- the loop of `__iter__` — tree.py:931-936 -/
def treeIterLoop : Nat → List (RTree V) → List V → Except Err (List V)
  | _, [], out => .ok out
  | 0, _ :: _, _ => .error .diverge
  | fuel + 1, n :: ns, out =>
    treeIterLoop fuel (iterLevel (n :: ns) out []).2 (iterLevel (n :: ns) out []).1

/-- all values yielded by `Tree.__iter__`, which `to_list` collects — tree.py:929-936, :971-973,
binary_tree.py:902, :927, :1130 -/
def treeIter : Option (RTree V) → Except Err (List V)
  | none => .ok []
  | some t => treeIterLoop (t.count + 1) [t] []

/-- the loop of `_search`; the stack has its top first, so that `pop` takes the head and `extend`
puts the children in reverse in front — tree.py:1017-1022 -/
def treeSearchLoop [DecidableEq V] (value : V) : Nat → List (RTree V) → Except Err Bool
  | _, [] => .ok false
  | 0, _ :: _ => .error .diverge
  | fuel + 1, n :: st =>
    if n.data = value then .ok true
    else treeSearchLoop value fuel (n.children.reverse ++ st)

/-- `value in tree`.  On an empty tree the stack holds `None`, whose `get_data` does not exist —
tree.py:1016-1022, :1064-1065, binary_tree.py:1325 -/
def treeContains [DecidableEq V] (value : V) : Option (RTree V) → Except Err Bool
  | none => .error .attributeError
  | some t => treeSearchLoop value (t.count + 1) [t]

mutual
/-- `_get_nodes_per_level` with `save_data` — tree.py:1097-1109 -/
def RTree.perLevel : RTree V → Nat → List (List V) → Except Err (List (List V))
  | .node d cs, level, nodes =>
    match (if level = nodes.length then nodes ++ [[]] else nodes)[level]? with
    | none => .error .indexError
    | some row =>
      RTree.perLevelAll cs (level + 1)
        ((if level = nodes.length then nodes ++ [[]] else nodes).set level (row ++ [d]))
/-- the loop of `_get_nodes_per_level` — tree.py:1104-1108 -/
def RTree.perLevelAll : List (RTree V) → Nat → List (List V) → Except Err (List (List V))
  | [], _, nodes => .ok nodes
  | c :: cs, level, nodes => do
    let nodes ← c.perLevel level nodes
    RTree.perLevelAll cs level nodes
end

/-- `Tree.get_nodes_per_level` — tree.py:1145-1147, binary_tree.py:955 -/
def treeLevels : Option (RTree V) → Except Err (List (List V))
  | none => .ok []
  | some t => t.perLevel 0 []

/-! ## `BinaryTree` -/

/-- `__preorder_traverse` — binary_tree.py:962-969 -/
def BTree.preorder : BTree V → List V
  | .nil => []
  | .node l v r => [v] ++ l.preorder ++ r.preorder

/-- `__postorder_traverse` — binary_tree.py:1034-1041 -/
def BTree.postorder : BTree V → List V
  | .nil => []
  | .node l v r => l.postorder ++ r.postorder ++ [v]

/-- `__inorder_traverse` — binary_tree.py:1073-1080 -/
def BTree.inorder : BTree V → List V
  | .nil => []
  | .node l v r => l.inorder ++ [v] ++ r.inorder

/-- the argument of `traverse`: a string or something else -/
inductive MethodArg
  | str (s : String)
  | other

/-- `traverse` — binary_tree.py:1183-1209 -/
def BTree.traverse (t : BTree V) : MethodArg → Except Err (List V)
  | .other => .error .typeError
  | .str s =>
    if s.toLower = "inorder" then .ok t.inorder
    else if s.toLower = "postorder" then .ok t.postorder
    else if s.toLower = "preorder" ∨ s.toLower = "depth-first" then .ok t.preorder
    else if s.toLower = "breadth-first" then treeIter t.rose
    else .error .valueError

/-- `levels[depth] = value` on a `dict`, as a list of its entries in order of first insertion -/
def dictSet (d : List (Nat × V)) (k : Nat) (v : V) : List (Nat × V) :=
  match d with
  | [] => [(k, v)]
  | (k', v') :: d => if k' = k then (k', v) :: d else (k', v') :: dictSet d k v

/-- a node put on the stack of `get_leftside_view`, if it is not `None` — binary_tree.py:1247-1250 -/
def pushNode (t : BTree V) (depth : Nat) (st : List (BTree V × Nat)) : List (BTree V × Nat) :=
  match t with
  | .nil => st
  | .node l v r => (.node l v r, depth) :: st

/-- the loop of `get_leftside_view` (`leftView = true`) and `get_rightside_view`; the stack has its
top first — binary_tree.py:1244-1250, :1285-1291 -/
def viewLoop (leftView : Bool) : Nat → List (BTree V × Nat) → List (Nat × V) →
    Except Err (List (Nat × V))
  | _, [], levels => .ok levels
  | 0, _ :: _, _ => .error .diverge
  | _ + 1, (.nil, _) :: _, _ => .error .attributeError
  | fuel + 1, (.node l v r, depth) :: st, levels =>
    if leftView then
      viewLoop leftView fuel (pushNode r (depth + 1) (pushNode l (depth + 1) st)) (dictSet levels depth v)
    else
      viewLoop leftView fuel (pushNode l (depth + 1) (pushNode r (depth + 1) st)) (dictSet levels depth v)

/-- `get_leftside_view`, `get_rightside_view` — binary_tree.py:1240-1251, :1281-1292 -/
def BTree.sideView (leftView : Bool) (t : BTree V) : Except Err (List V) :=
  match t with
  | .nil => .ok []
  | .node l v r =>
    (viewLoop leftView (treeLen t.rose + 1) [(.node l v r, 0)] [(0, v)]).map
      (fun levels => levels.map Prod.snd)

/-- `_invert_subtree` — binary_tree.py:1330-1335, called by `invert` :1359 -/
def BTree.invert : BTree V → BTree V
  | .nil => .nil
  | .node l v r => .node r.invert v l.invert

/-- one of the two depths of `is_balanced` — binary_tree.py:745-754 -/
def BTree.childDepth (root : RTree V) (child : BTree V) : Int :=
  match child.rose with
  | none => 0
  | some c => 1 + root.depthOf c

/-- `is_balanced`, and whether it warns — binary_tree.py:739-755 -/
def BTree.isBalanced (t : BTree V) : Bool × Bool :=
  match t with
  | .nil => (true, true)
  | .node l v r =>
    let root : RTree V := .node v (l.rose.toList ++ r.rose.toList)
    (decide ((BTree.childDepth root l - BTree.childDepth root r).natAbs ≤ 1), false)

/-- the loop of `is_perfect` — binary_tree.py:801-804 -/
def perfectLoop : Nat → List (List V) → Bool
  | _, [] => true
  | level, row :: rows => if 2 ^ level ≠ row.length then false else perfectLoop (level + 1) rows

/-- `is_perfect`, and whether it warns — binary_tree.py:795-804 -/
def BTree.isPerfect (t : BTree V) : Except Err (Bool × Bool) :=
  match t with
  | .nil => .ok (true, true)
  | .node l v r => do
    let rows ← treeLevels (BTree.node l v r).rose
    pure (perfectLoop 0 rows, false)

/-- `__is_subtree_strict` — binary_tree.py:827-839 -/
def BTree.subtreeStrict : BTree V → Except Err Bool
  | .nil => .error .attributeError
  | .node .nil _ .nil => .ok true
  | .node (.node _ _ _) _ .nil => .ok false
  | .node .nil _ (.node _ _ _) => .ok false
  | .node (.node ll lv lr) _ (.node rl rv rr) => do
    let a ← (BTree.node ll lv lr).subtreeStrict
    if a then (BTree.node rl rv rr).subtreeStrict else pure false

/-- `is_strict`, and whether it warns — binary_tree.py:870-876 -/
def BTree.isStrict (t : BTree V) : Except Err (Bool × Bool) :=
  match t with
  | .nil => .ok (true, true)
  | .node l v r => do
    let b ← (BTree.node l v r).subtreeStrict
    pure (b, false)

/-! ## `BinaryTree.parse` -/

/-- what a nested list for `parse` is made of: a list or tuple, or any other object.  A list can also
be a node's value, as `_validate_item` accepts it. -/
inductive Nested (V : Type)
  | atom (x : Item V)
  | seq (xs : List (Nested V))

/-- `BinaryTreeNode(value)`: the value stored, with newlines of strings escaped — tree.py:92-95,
binary_tree.py:132 -/
def parseValue [PyData V] : Nested V → Except Err (Nested V)
  | .atom .none => .error .valueError
  | .atom .extra => .error .typeError
  | .atom (.val v) => .ok (.atom (.val (PyData.norm v)))
  | .seq xs => .ok (.seq xs)

/-- `__create_subtree`; the missing entries `lst[1]`, `lst[2]` raise the `IndexError` that is caught —
binary_tree.py:410-420 -/
def createSubtree [PyData V] : Nested V → Except Err (BTree (Nested V))
  | .atom x => do
    let v ← parseValue (.atom x)
    pure (.node .nil v .nil)
  | .seq [] => .error .valueError
  | .seq [x] => do
    let v ← parseValue x
    pure (.node .nil v .nil)
  | .seq [x, y] => do
    let v ← parseValue x
    let l ← createSubtree y
    pure (.node l v .nil)
  | .seq [x, y, z] => do
    let v ← parseValue x
    let l ← createSubtree y
    let r ← createSubtree z
    pure (.node l v r)
  | .seq (_ :: _ :: _ :: _ :: _) => .error .valueError

/-- `BinaryTree.parse` — binary_tree.py:459-463 -/
def parse [PyData V] : Nested V → Except Err (BTree (Nested V))
  | .atom _ => .error .typeError
  | .seq xs => createSubtree (.seq xs)

end Extra
