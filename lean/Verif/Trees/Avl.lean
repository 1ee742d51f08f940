import Verif.Trees.Bst

/-!
# `AVL` — /repo/extra/trees/avl.py

The extension of a node is its `_height`.  The loops of `_insert` and `_remove` go from a node up to
the root; here they are what is done after the recursive call on the way back.  `_attach` chooses the
side by comparing numbers: where this is not the side the child came from, two links would lead to
the same node and the result is `Err.unmodelled` (in a search tree this does not happen).  An exception in
the middle of a call ends the history: the half-changed object is not modelled.
-/

namespace Extra
variable {N : Type} [LinearOrder N]

/-- `get_left_height`, `get_right_height`: of the child — avl.py:98-101, :112-115 -/
def BTree.hl : BTree (N × Nat) → Nat
  | .nil => 0
  | .node _ w _ => 1 + w.2

/-- a node whose height has just been set from its children — avl.py:57-58, :75-76, :426 -/
def avlNode (l : BTree (N × Nat)) (v : N) (r : BTree (N × Nat)) : BTree (N × Nat) :=
  .node l (v, max l.hl r.hl) r

/-- `_rotate_left`; `set_left` and `set_right` of `AVLNode` set the heights — bst.py:1096-1100, avl.py:57-58 -/
def BTree.avlRotateLeft : BTree (N × Nat) → Except Err (BTree (N × Nat))
  | .node a v (.node b w c) => .ok (avlNode (avlNode a v.1 b) w.1 c)
  | _ => .error .attributeError

/-- `_rotate_right` — bst.py:1139-1143, avl.py:75-76 -/
def BTree.avlRotateRight : BTree (N × Nat) → Except Err (BTree (N × Nat))
  | .node (.node a v b) w c => .ok (avlNode a v.1 (avlNode b w.1 c))
  | _ => .error .attributeError

/-- `_rotate_left_right` — bst.py:1183-1189, avl.py:57-58, :75-76 -/
def BTree.avlRotateLeftRight : BTree (N × Nat) → Except Err (BTree (N × Nat))
  | .node (.node a u (.node b v c)) w d => .ok (avlNode (avlNode a u.1 b) v.1 (avlNode c w.1 d))
  | _ => .error .attributeError

/-- `_rotate_right_left` — bst.py:1229-1235, avl.py:57-58, :75-76 -/
def BTree.avlRotateRightLeft : BTree (N × Nat) → Except Err (BTree (N × Nat))
  | .node a u (.node (.node b v c) w d) => .ok (avlNode (avlNode a u.1 b) v.1 (avlNode c w.1 d))
  | _ => .error .attributeError

/-- the heavier child, the right one when they are equal — avl.py:743-748, :750-754 -/
def heavy (l r : BTree (N × Nat)) : BTree (N × Nat) := if l.hl > r.hl then l else r

/-- `_rebalance` — avl.py:742-771 -/
def BTree.rebalance (t : BTree (N × Nat)) : Except Err (BTree (N × Nat)) :=
  match t with
  | .nil => .error .attributeError
  | .node l g r =>
    match heavy l r with
    | .nil => .error .attributeError
    | .node pl p pr =>
      match heavy pl pr with
      | .nil => .error .attributeError
      | .node _ n _ =>
        if g.1 > p.1 then
          if p.1 > n.1 then (BTree.node l g r).avlRotateRight else (BTree.node l g r).avlRotateLeftRight
        else
          if p.1 > n.1 then (BTree.node l g r).avlRotateRightLeft else (BTree.node l g r).avlRotateLeft

/-- one round of the loop of `_insert` and `_remove`, up to `_attach`: the new subtree and whether it
was rotated — avl.py:426-428, :530-532 -/
def avlUp (l : BTree (N × Nat)) (v : N) (r : BTree (N × Nat)) :
    Except Err (BTree (N × Nat) × Bool) :=
  if l.hl ≤ r.hl + 1 ∧ r.hl ≤ l.hl + 1 then .ok (avlNode l v r, false)
  else do
    let t ← (avlNode l v r).rebalance
    pure (t, true)

/-- whether `_attach` puts the child on the side it came from — bst.py:1262-1265 -/
def attachSide (w : N) (child : BTree (N × Nat)) (left : Bool) : Bool :=
  match child with
  | .nil => false
  | .node _ c _ => decide (c.1 < w) == left

/-- `_attach` of a rotated child, then the round of the loop for this node — avl.py:429, :425-428 -/
def avlLink (left : Bool) (child : BTree (N × Nat)) (rotated : Bool) (w : N) (other : BTree (N × Nat)) :
    Except Err (BTree (N × Nat) × Bool) :=
  if rotated = true ∧ attachSide w child left = false then .error .unmodelled
  else if left then avlUp child w other else avlUp other w child

/-- `_insert` in a subtree: the new subtree, whether it was rotated, whether the value was new —
avl.py:418-431, bst.py:694-713 -/
def BTree.avlInsert (v : N) : BTree (N × Nat) → Except Err (BTree (N × Nat) × Bool × Bool)
  | .nil => .ok (.node .nil (v, 0) .nil, false, true)
  | .node l w r =>
    if v = w.1 then .ok (.node l w r, false, false)
    else if v < w.1 then do
      let (l', rot, new) ← l.avlInsert v
      let (t, rot') ← avlLink true l' rot w.1 r
      pure (t, rot', new)
    else do
      let (r', rot, new) ← r.avlInsert v
      let (t, rot') ← avlLink false r' rot w.1 l
      pure (t, rot', new)

/-- `_transplant` from the second call on: the node above the leaf that goes has its height set, the
others keep theirs — bst.py:887-902, avl.py:57-58 -/
def BTree.avlSink : BTree (N × Nat) → BTree (N × Nat)
  | .nil => .nil
  | .node .nil _ .nil => .nil
  | .node (.node .nil lv .nil) _ r => avlNode .nil lv.1 r
  | .node (.node ll lv lr) w r => .node (BTree.node ll lv lr).avlSink (lv.1, w.2) r
  | .node .nil _ (.node .nil rv .nil) => avlNode .nil rv.1 .nil
  | .node .nil w (.node rl rv rr) => .node .nil (rv.1, w.2) (BTree.node rl rv rr).avlSink

/-- the minimum of a subtree gives its number away; then the loop runs from the node above it: the number,
the new subtree, whether it was rotated — bst.py:855, :972, avl.py:527-534 -/
def BTree.avlTakeMin : BTree (N × Nat) → Except Err (N × BTree (N × Nat) × Bool)
  | .nil => .error .attributeError
  | .node .nil w r => .ok (w.1, (BTree.node .nil w r).avlSink, false)
  | .node (.node ll lv lr) w r => do
    let (m, l', rot) ← (BTree.node ll lv lr).avlTakeMin
    let (t, rot') ← avlLink true l' rot w.1 r
    pure (m, t, rot')

/-- the same for the maximum — bst.py:858, :972, avl.py:527-534 -/
def BTree.avlTakeMax : BTree (N × Nat) → Except Err (N × BTree (N × Nat) × Bool)
  | .nil => .error .attributeError
  | .node l w .nil => .ok (w.1, (BTree.node l w .nil).avlSink, false)
  | .node l w (.node rl rv rr) => do
    let (m, r', rot) ← (BTree.node rl rv rr).avlTakeMax
    let (t, rot') ← avlLink false r' rot w.1 l
    pure (m, t, rot')

/-- a node is removed: its number is that of the replacement when the loop comes to it — bst.py:853-862,
:887-902, avl.py:527-534 -/
def BTree.avlRemoveRoot : BTree (N × Nat) → Except Err (BTree (N × Nat) × Bool)
  | .nil => .error .attributeError
  | .node l _ (.node rl rv rr) => do
    let (m, r', rot) ← (BTree.node rl rv rr).avlTakeMin
    avlLink false r' rot m l
  | .node (.node ll lv lr) _ .nil => do
    let (m, l', rot) ← (BTree.node ll lv lr).avlTakeMax
    avlLink true l' rot m .nil
  | .node .nil _ .nil => .ok (.nil, false)

/-- `_remove` in a subtree: `none` when the value is not found, otherwise the new subtree and whether
it was rotated — avl.py:524-535, bst.py:957-979, :612-623 -/
def BTree.avlRemove (v : N) : BTree (N × Nat) → Except Err (Option (BTree (N × Nat) × Bool))
  | .nil => .ok none
  | .node l w r =>
    if v = w.1 then do
      let res ← (BTree.node l w r).avlRemoveRoot
      pure (some res)
    else if v < w.1 then do
      match ← l.avlRemove v with
      | none => pure none
      | some (l', rot) => do
        let res ← avlLink true l' rot w.1 r
        pure (some res)
    else do
      match ← r.avlRemove v with
      | none => pure none
      | some (r', rot) => do
        let res ← avlLink false r' rot w.1 l
        pure (some res)

/-! ## Calls -/

/-- the calls on an `AVL` -/
inductive AvlOp (N : Type)
  | insert (v : NumArg N)
  | remove (v : NumArg N)
  | contains (v : NumArg N)
  | getMin
  | getMax
  | len
  | getHeight
  | isBalanced
  | inorder
  | clear
  deriving DecidableEq

/-- `insert` of a number: the object and whether it warns — bst.py:806-811, avl.py:418-431 -/
def avlInsertNum (t : Bst N Nat) (v : N) : Except Err (Bst N Nat × Bool) :=
  match t.root with
  | .nil => .ok (⟨.node .nil (v, 0) .nil, t.length + 1⟩, false)
  | .node l w r => do
    let (s, _, new) ← (BTree.node l w r).avlInsert v
    pure (⟨s, if new then t.length + 1 else t.length⟩, !new)

/-- `remove` of a number — bst.py:1019-1033, avl.py:524-535 -/
def avlRemoveNum (t : Bst N Nat) (v : N) : Except Err (Bst N Nat × Bool) :=
  match t.root with
  | .nil => .ok (t, true)
  | .node .nil w .nil =>
    if v = w.1 then .ok (⟨.nil, t.length - 1⟩, false)
    else .ok (t, true)
  | .node l w r => do
    match ← (BTree.node l w r).avlRemove v with
    | none => pure (t, true)
    | some (s, _) => pure (⟨s, t.length - 1⟩, false)

/-- `get_height`: the stored height of the root — tree.py:709-711, avl.py:615 -/
def BTree.avlHeight : BTree (N × Nat) → Nat
  | .nil => 0
  | .node _ w _ => w.2

/-- `is_balanced`: of the root only, and whether it warns — avl.py:802-804, :165-166, binary_tree.py:739-744 -/
def BTree.avlIsBalanced : BTree (N × Nat) → Bool × Bool
  | .nil => (true, true)
  | .node l _ r => (decide (l.hl ≤ r.hl + 1 ∧ r.hl ≤ l.hl + 1), false)

/-- one call; the outer `Except` is an exception from the middle of a call — bst.py:404, :1056, :1658
and the definitions above -/
def avlExec (t : Bst N Nat) : AvlOp N → Except Err (BstRes N × Bst N Nat)
  | .insert v =>
    match validNum v with
    | .error e => .ok (.error e, t)
    | .ok v => do
      let (t', w) ← avlInsertNum t v
      pure (.ok (.unit, w), t')
  | .remove (.num v) => do
    let (t', w) ← avlRemoveNum t v
    pure (.ok (.unit, w), t')
  | .remove _ => .ok (.ok (.unit, true), t)
  | .contains v => .ok (.ok (.bool (t.contains v), false), t)
  | .getMin => .ok (t.getMin.map (fun m => (.num m, false)), t)
  | .getMax => .ok (t.getMax.map (fun m => (.num m, false)), t)
  | .len => .ok (.ok (.int t.length, false), t)
  | .getHeight => .ok (.ok (.int t.root.avlHeight, false), t)
  | .isBalanced => .ok (.ok (.bool t.root.avlIsBalanced.1, t.root.avlIsBalanced.2), t)
  | .inorder => .ok (.ok (.list t.root.keys, false), t)
  | .clear => .ok (.ok (.unit, false), Bst.empty)

/-- a history of calls -/
def avlExecs : List (AvlOp N) → Bst N Nat → Except Err (List (BstRes N) × Bst N Nat)
  | [], t => .ok ([], t)
  | op :: ops, t => do
    let (r, t') ← avlExec t op
    let (rs, t'') ← avlExecs ops t'
    pure (r :: rs, t'')

end Extra
