import Verif.Trees.BstNan

/-!
# `AVL` with `nan` — /repo/extra/trees/avl.py

`insert` takes `nan` like any number (bst.py:380).  Avl.lean has numbers of a linear order only; here are the functions of
`insert` and of `in` for numbers that may be `nan` (`remove` is left out).  The extension of a node is its `_height`.
`_rebalance` and `_attach` ask by comparing numbers on which side a node is.  Where the answer makes
`_attach` put a child on the other side than the one it came from, two links would lead to the same node and the result is
`Err.unmodelled`, as in Avl.lean.
-/

namespace Extra
variable {N : Type}

/-- `get_left_height`, `get_right_height`: of the child — avl.py:98-101, :112-115 -/
def naHl : BTree (PyNum N × Nat) → Nat
  | .nil => 0
  | .node _ w _ => 1 + w.2

/-- a node whose height has just been set from its children — avl.py:57-58, :75-76, :426 -/
def naNode (l : BTree (PyNum N × Nat)) (v : PyNum N) (r : BTree (PyNum N × Nat)) : BTree (PyNum N × Nat) :=
  .node l (v, max (naHl l) (naHl r)) r

/-- `_rotate_left` — bst.py:1096-1100, avl.py:57-58 -/
def naRotateLeft : BTree (PyNum N × Nat) → Except Err (BTree (PyNum N × Nat))
  | .node a v (.node b w c) => .ok (naNode (naNode a v.1 b) w.1 c)
  | _ => .error .attributeError

/-- `_rotate_right` — bst.py:1139-1143, avl.py:75-76 -/
def naRotateRight : BTree (PyNum N × Nat) → Except Err (BTree (PyNum N × Nat))
  | .node (.node a v b) w c => .ok (naNode a v.1 (naNode b w.1 c))
  | _ => .error .attributeError

/-- `_rotate_left_right` — bst.py:1183-1189, avl.py:57-58, :75-76 -/
def naRotateLeftRight : BTree (PyNum N × Nat) → Except Err (BTree (PyNum N × Nat))
  | .node (.node a u (.node b v c)) w d => .ok (naNode (naNode a u.1 b) v.1 (naNode c w.1 d))
  | _ => .error .attributeError

/-- `_rotate_right_left` — bst.py:1229-1235, avl.py:57-58, :75-76 -/
def naRotateRightLeft : BTree (PyNum N × Nat) → Except Err (BTree (PyNum N × Nat))
  | .node a u (.node (.node b v c) w d) => .ok (naNode (naNode a u.1 b) v.1 (naNode c w.1 d))
  | _ => .error .attributeError

/-- the heavier child, the right one when they are equal — avl.py:743-748, :750-754 -/
def naHeavy (l r : BTree (PyNum N × Nat)) : BTree (PyNum N × Nat) := if naHl l > naHl r then l else r

variable [LinearOrder N]

/-- `_rebalance` — avl.py:742-771 -/
def naRebalance (t : BTree (PyNum N × Nat)) : Except Err (BTree (PyNum N × Nat)) :=
  match t with
  | .nil => .error .attributeError
  | .node l g r =>
    match naHeavy l r with
    | .nil => .error .attributeError
    | .node pl p pr =>
      match naHeavy pl pr with
      | .nil => .error .attributeError
      | .node _ n _ =>
        if p.1.lt g.1 then
          if n.1.lt p.1 then naRotateRight (.node l g r) else naRotateLeftRight (.node l g r)
        else
          if n.1.lt p.1 then naRotateRightLeft (.node l g r) else naRotateLeft (.node l g r)

/-- one round of the loop of `_insert`, up to `_attach`: the new subtree and whether it was rotated — avl.py:426-428 -/
def naUp (l : BTree (PyNum N × Nat)) (v : PyNum N) (r : BTree (PyNum N × Nat)) :
    Except Err (BTree (PyNum N × Nat) × Bool) :=
  if naHl l ≤ naHl r + 1 ∧ naHl r ≤ naHl l + 1 then .ok (naNode l v r, false)
  else do
    let t ← naRebalance (naNode l v r)
    pure (t, true)

/-- whether `_attach` puts the child on the side it came from — bst.py:1262-1265 -/
def naAttachSide (w : PyNum N) (child : BTree (PyNum N × Nat)) (left : Bool) : Bool :=
  match child with
  | .nil => false
  | .node _ c _ => c.1.lt w == left

/-- `_attach` of a rotated child, then the round of the loop for this node — avl.py:429, :425-428 -/
def naLink (left : Bool) (child : BTree (PyNum N × Nat)) (rotated : Bool) (w : PyNum N) (other : BTree (PyNum N × Nat)) :
    Except Err (BTree (PyNum N × Nat) × Bool) :=
  if rotated = true ∧ naAttachSide w child left = false then .error .unmodelled
  else if left then naUp child w other else naUp other w child

/-- `_insert` in a subtree: the new subtree, whether it was rotated, whether the value was new — avl.py:418-431,
bst.py:694-713 -/
def naInsert (v : PyNum N) : BTree (PyNum N × Nat) → Except Err (BTree (PyNum N × Nat) × Bool × Bool)
  | .nil => .ok (.node .nil (v, 0) .nil, false, true)
  | .node l w r =>
    if v.eq w.1 then .ok (.node l w r, false, false)
    else if v.lt w.1 then do
      let (l', rot, new) ← naInsert v l
      let (t, rot') ← naLink true l' rot w.1 r
      pure (t, rot', new)
    else do
      let (r', rot, new) ← naInsert v r
      let (t, rot') ← naLink false r' rot w.1 l
      pure (t, rot', new)

/-- `_search`: the number in the node returned — bst.py:612-623 -/
def naSearch (v : PyNum N) : BTree (PyNum N × Nat) → Option (PyNum N)
  | .nil => none
  | .node l w r =>
    if v.eq w.1 then some w.1
    else if v.lt w.1 then (naSearch v l).or (some w.1)
    else (naSearch v r).or (some w.1)

/-- `value in tree` for a number — bst.py:657-660 -/
def naContains (v : PyNum N) (t : BTree (PyNum N × Nat)) : Bool :=
  match naSearch v t with
  | none => false
  | some w => w.eq v

/-- `insert` of one number after the other, as `AVL(iterable)` does: the tree, and which of them warned — bst.py:806-811,
avl.py:418-431 -/
def naInserts : List (PyNum N) → BTree (PyNum N × Nat) → Except Err (BTree (PyNum N × Nat) × List Bool)
  | [], t => .ok (t, [])
  | v :: vs, t => do
    let (t', _, new) ← naInsert v t
    let (t'', ws) ← naInserts vs t'
    pure (t'', (!new) :: ws)

end Extra
