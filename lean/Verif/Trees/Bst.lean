import Verif.Trees.Tree
import Verif.Trees.BinHeap

/-!
# `BST` — /repo/extra/trees/bst.py

A node is `(data, ext)`: its number and what the subclass adds to it (nothing for `BST`).  The tree is
a value, so there are no parent links: `get_parent` is taken to be the node above.  That a `BST` keeps its
parent links so is proved of the model with node objects (PtrTree.lean, Props/Links.lean).  Numbers are elements of a linear order (`nan` is
not modelled).  The `assert`s on node classes are left out.
-/

namespace Extra
variable {N X : Type} [LinearOrder N]

/-- a `BST` object: `_root` and `_length` — bst.py:350-351 -/
structure Bst (N X : Type) where
  root : BTree (N × X)
  length : Int
  deriving DecidableEq

/-- the empty tree — bst.py:350-351 -/
def Bst.empty : Bst N X := ⟨.nil, 0⟩

/-- `_validate_item` — bst.py:379-381, interface.py:10-33 -/
def validNum : NumArg N → Except Err N
  | .none => .error .valueError
  | .other => .error .typeError
  | .num v => .ok v

/-- `_get_max_node`: the node reached going right — bst.py:455-458 -/
def BTree.maxNode : BTree (N × X) → Option (N × X)
  | .nil => none
  | .node _ v .nil => some v
  | .node _ _ (.node l v r) => (BTree.node l v r).maxNode

/-- `_get_min_node` — bst.py:524-527 -/
def BTree.minNode : BTree (N × X) → Option (N × X)
  | .nil => none
  | .node .nil v _ => some v
  | .node (.node l v r) _ _ => (BTree.node l v r).minNode

/-- `get_max` — bst.py:489-494 -/
def Bst.getMax (t : Bst N X) : Except Err N :=
  match t.root.maxNode with
  | none => .error .indexError
  | some v => .ok v.1

/-- `get_min` — bst.py:558-563 -/
def Bst.getMin (t : Bst N X) : Except Err N :=
  match t.root.minNode with
  | none => .error .indexError
  | some v => .ok v.1

/-- `_search`: the path to the node returned, from a node — bst.py:612-623 -/
def BTree.search (v : N) : BTree (N × X) → List Bool
  | .nil => []
  | .node l w r =>
    if v = w.1 then []
    else if v < w.1 then
      match l with
      | .nil => []
      | .node ll lv lr => false :: (BTree.node ll lv lr).search v
    else
      match r with
      | .nil => []
      | .node rl rv rr => true :: (BTree.node rl rv rr).search v

/-- the subtree at a path, as a walk over links -/
def BTree.walk : BTree (N × X) → List Bool → BTree (N × X)
  | t, [] => t
  | .nil, _ :: _ => .nil
  | .node _ _ r, true :: p => r.walk p
  | .node l _ _, false :: p => l.walk p

/-- the number at the node a walk ends in -/
def BTree.dataAt (t : BTree (N × X)) (p : List Bool) : Option N :=
  match t.walk p with
  | .nil => none
  | .node _ w _ => some w.1

/-- `value in tree` — bst.py:657-660 -/
def Bst.contains (t : Bst N X) : NumArg N → Bool
  | .num v =>
    match t.root with
    | .nil => false
    | .node l w r => decide ((BTree.node l w r).dataAt ((BTree.node l w r).search v) = some v)
  | _ => false

/-- `_insert_node`, and whether the node was inserted (otherwise the code warns) — bst.py:694-713 -/
def BTree.insertNode (v : N × X) : BTree (N × X) → BTree (N × X) × Bool
  | .nil => (.node .nil v .nil, true)
  | .node l w r =>
    if v.1 = w.1 then (.node l w r, false)
    else if v.1 < w.1 then
      match l with
      | .nil => (.node (.node .nil v .nil) w r, true)
      | .node ll lv lr =>
        (.node ((BTree.node ll lv lr).insertNode v).1 w r, ((BTree.node ll lv lr).insertNode v).2)
    else
      match r with
      | .nil => (.node l w (.node .nil v .nil), true)
      | .node rl rv rr =>
        (.node l w ((BTree.node rl rv rr).insertNode v).1, ((BTree.node rl rv rr).insertNode v).2)

/-- `BST.insert` of a number whose node gets the extension `x`: the tree and whether it warns —
bst.py:806-811, :766-774, :740-744 -/
def Bst.insertNum (t : Bst N X) (v : N) (x : X) : Bst N X × Bool :=
  match t.root with
  | .nil => (⟨.node .nil (v, x) .nil, t.length + 1⟩, false)
  | .node l w r =>
    let res := (BTree.node l w r).insertNode (v, x)
    (⟨res.1, if res.2 then t.length + 1 else t.length⟩, !res.2)

/-- `_transplant(node, replacement)` from the second call on, as seen from the subtree whose root is
`node`: its data are swapped with those of its child (the left one if there is one), and so on down
to a leaf, which is taken off — bst.py:887-902.  Each node keeps its extension: `swap` exchanges
`_data` only — tree.py:307 -/
def BTree.sink : BTree (N × X) → BTree (N × X)
  | .nil => .nil
  | .node .nil _ .nil => .nil
  | .node (.node ll lv lr) w r => .node (BTree.node ll lv lr).sink (lv.1, w.2) r
  | .node .nil w (.node rl rv rr) => .node .nil (rv.1, w.2) (BTree.node rl rv rr).sink

/-- the minimum node of a subtree gives its number away and sinks: the number and the new subtree —
bst.py:855, :894-902 -/
def BTree.takeMin : BTree (N × X) → Option (N × BTree (N × X))
  | .nil => none
  | .node .nil w r => some (w.1, (BTree.node .nil w r).sink)
  | .node (.node ll lv lr) w r =>
    match (BTree.node ll lv lr).takeMin with
    | none => none
    | some (m, l') => some (m, .node l' w r)

/-- the same for the maximum node — bst.py:858, :894-902 -/
def BTree.takeMax : BTree (N × X) → Option (N × BTree (N × X))
  | .nil => none
  | .node l w .nil => some (w.1, (BTree.node l w .nil).sink)
  | .node l w (.node rl rv rr) =>
    match (BTree.node rl rv rr).takeMax with
    | none => none
    | some (m, r') => some (m, .node l w r')

/-- `_find_replacement` and `_transplant` for the node at the root of a subtree — bst.py:853-862,
:887-902 -/
def BTree.removeRoot : BTree (N × X) → BTree (N × X)
  | .nil => .nil
  | .node l w (.node rl rv rr) =>
    match (BTree.node rl rv rr).takeMin with
    | none => .nil
    | some (m, r') => .node l (m, w.2) r'
  | .node (.node ll lv lr) w .nil =>
    match (BTree.node ll lv lr).takeMax with
    | none => .nil
    | some (m, l') => .node l' (m, w.2) .nil
  | .node .nil _ .nil => .nil

/-- a subtree is exchanged for another -/
def BTree.replace : BTree (N × X) → List Bool → BTree (N × X) → BTree (N × X)
  | _, [], s => s
  | .nil, _ :: _, _ => .nil
  | .node l w r, true :: p, s => .node l w (r.replace p s)
  | .node l w r, false :: p, s => .node (l.replace p s) w r

/-- `_remove`: the tree and whether the value was found — bst.py:957-979 -/
def BTree.remove (v : N) (t : BTree (N × X)) : BTree (N × X) × Bool :=
  if t.dataAt (t.search v) = some v then
    (t.replace (t.search v) (t.walk (t.search v)).removeRoot, true)
  else (t, false)

/-- `BST.remove`: the tree and whether it warns — bst.py:1019-1033 -/
def Bst.remove (t : Bst N X) : NumArg N → Bst N X × Bool
  | .num v =>
    match t.root with
    | .nil => (t, true)
    | .node .nil w .nil =>
      if v = w.1 then (⟨.nil, t.length - 1⟩, false)
      else (t, true)
    | .node l w r =>
      let res := (BTree.node l w r).remove v
      (⟨res.1, if res.2 then t.length - 1 else t.length⟩, !res.2)
  | _ => (t, true)

/-! ## Calls -/

/-- the calls on a `BST` -/
inductive BstOp (N : Type)
  | insert (v : NumArg N)
  | remove (v : NumArg N)
  | contains (v : NumArg N)
  | getMin
  | getMax
  | len
  | isEmpty
  | clear
  | inorder
  | invert
  deriving DecidableEq

/-- what a call returns -/
inductive BstVal (N : Type)
  | unit
  | bool (b : Bool)
  | int (n : Int)
  | num (v : N)
  | list (vs : List N)
  deriving DecidableEq

/-- the result of a call: an exception, or a value and whether a warning was given -/
abbrev BstRes (N : Type) := Except Err (BstVal N × Bool)

/-- the numbers in the order of `inorder_traverse` -/
def BTree.keys (t : BTree (N × X)) : List N := t.inorder.map Prod.fst

/-- one call on a `BST` — bst.py:404, :426, :1056, :1658, binary_tree.py:1359, and the definitions above -/
def Bst.exec (t : Bst N Unit) : BstOp N → BstRes N × Bst N Unit
  | .insert v =>
    match validNum v with
    | .error e => (.error e, t)
    | .ok v => (.ok (.unit, (t.insertNum v ()).2), (t.insertNum v ()).1)
  | .remove v => (.ok (.unit, (t.remove v).2), (t.remove v).1)
  | .contains v => (.ok (.bool (t.contains v), false), t)
  | .getMin => (t.getMin.map (fun m => (.num m, false)), t)
  | .getMax => (t.getMax.map (fun m => (.num m, false)), t)
  | .len => (.ok (.int t.length, false), t)
  | .isEmpty => (.ok (.bool (match t.root with | .nil => true | .node _ _ _ => false), false), t)
  | .clear => (.ok (.unit, false), Bst.empty)
  | .inorder => (.ok (.list t.root.keys, false), t)
  | .invert => (.ok (.unit, false), ⟨t.root.invert, t.length⟩)

/-- a history of calls; a raising call leaves the object as it is and the history goes on -/
def Bst.execs : List (BstOp N) → Bst N Unit → List (BstRes N) × Bst N Unit
  | [], t => ([], t)
  | op :: ops, t =>
    ((t.exec op).1 :: (Bst.execs ops (t.exec op).2).1, (Bst.execs ops (t.exec op).2).2)

/-- the loop of `BST(iterable)` — bst.py:358-359 -/
def bstFromLoop : List (NumArg N) → Bst N Unit → Except Err (Bst N Unit)
  | [], t => .ok t
  | v :: vs, t => do
    let n ← validNum v
    bstFromLoop vs (t.insertNum n ()).1

/-- `BST(iterable)` — bst.py:350-359 -/
def bstFrom (vs : List (NumArg N)) : Except Err (Bst N Unit) := bstFromLoop vs Bst.empty

/-! ## Rotations -/

/-- `_rotate_left` of a subtree — bst.py:1096-1100 -/
def BTree.rotateLeft : BTree (N × X) → Except Err (BTree (N × X))
  | .node a v (.node b w c) => .ok (.node (.node a v b) w c)
  | _ => .error .attributeError

/-- `_rotate_right` — bst.py:1139-1143 -/
def BTree.rotateRight : BTree (N × X) → Except Err (BTree (N × X))
  | .node (.node a v b) w c => .ok (.node a v (.node b w c))
  | _ => .error .attributeError

/-- `_rotate_left_right` — bst.py:1183-1189 -/
def BTree.rotateLeftRight : BTree (N × X) → Except Err (BTree (N × X))
  | .node (.node a u (.node b v c)) w d => .ok (.node (.node a u b) v (.node c w d))
  | _ => .error .attributeError

/-- `_rotate_right_left` — bst.py:1229-1235 -/
def BTree.rotateRightLeft : BTree (N × X) → Except Err (BTree (N × X))
  | .node a u (.node (.node b v c) w d) => .ok (.node (.node a u b) v (.node c w d))
  | _ => .error .attributeError

end Extra
