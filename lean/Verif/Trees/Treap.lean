import Verif.Trees.Bst

/-!
# `Treap` — /repo/extra/trees/treap.py

The extension of a node is its `_priority`, an element of a linear order (`nan` is not modelled).
`minusOne` is the number `-1` that the code uses for a missing child; nothing is assumed about it.
The loop of `insert` goes from the new node up to the root; here it is what is done after the recursive
call on the way back.  `is_left_child` and `_attach` compare numbers: where the answer is not the side the
child is on, the result is `Err.unmodelled` (in a search tree this does not happen).  An exception in the
middle of a call ends the history: the half-changed object is not modelled.
-/

namespace Extra
variable {N P : Type} [LinearOrder N] [LinearOrder P]

/-- comparing the number of a node with that of the node above gives the side the node is on —
bst.py:266, :1262-1265 -/
def sameSide (left : Bool) (child above : N) : Bool := decide (above > child) == left

/-- a node with a child on the given side -/
def onSide (left : Bool) (child : BTree (N × P)) (w : N × P) (other : BTree (N × P)) : BTree (N × P) :=
  if left then .node child w other else .node other w child

/-- one round of the loop of `insert` at a node, after the loop has come up to its child: the new
subtree and whether the loop goes on — treap.py:482-493 -/
def treapUp (left : Bool) (child : BTree (N × P)) (goesOn : Bool) (w : N × P) (other : BTree (N × P)) :
    Except Err (BTree (N × P) × Bool) :=
  if goesOn then
    match child with
    | .nil => .error .attributeError
    | .node _ n _ =>
      if sameSide left n.1 w.1 = false then .error .unmodelled
      else if w.2 > n.2 then .ok (onSide left child w other, false)
      else do
        let t ← if left then (onSide left child w other).rotateRight
          else (onSide left child w other).rotateLeft
        pure (t, true)
  else .ok (onSide left child w other, false)

/-- `insert` in a subtree: the new subtree, whether the loop goes on above it, whether the value was new
(otherwise the code warns and the loop starts at the node that holds the value) — treap.py:477-493,
bst.py:694-713 -/
def BTree.treapInsert (v : N × P) : BTree (N × P) → Except Err (BTree (N × P) × Bool × Bool)
  | .nil => .ok (.node .nil v .nil, true, true)
  | .node l w r =>
    if v.1 = w.1 then .ok (.node l w r, true, false)
    else if v.1 < w.1 then do
      let (l', on, new) ← l.treapInsert v
      let (t, on') ← treapUp true l' on w r
      pure (t, on', new)
    else do
      let (r', on, new) ← r.treapInsert v
      let (t, on') ← treapUp false r' on w l
      pure (t, on', new)

/-- the priority of a child, `-1` if there is none — treap.py:562-567 -/
def BTree.prio (minusOne : P) : BTree (N × P) → P
  | .nil => minusOne
  | .node _ w _ => w.2

/-- the loop of `remove` at the node `w` with children `l` and `r`, and the removal of the leaf: the new
subtree, and the number that `_attach` (or, for a leaf, `is_left_child`) compares with that of the node
above — treap.py:558-583.  The first argument bounds the number of rounds; the number of nodes of `l` and `r` is enough. -/
def treapDown (minusOne : P) (w : N × P) : Nat → BTree (N × P) → BTree (N × P) →
    Except Err (BTree (N × P) × N)
  | _, .nil, .nil => .ok (.nil, w.1)
  | 0, _, _ => .error .diverge
  | n + 1, l, r =>
    if l.prio minusOne > r.prio minusOne then
      match l with
      | .nil => .error .attributeError
      | .node ll lv lr => do
        let (t, c) ← treapDown minusOne w n lr r
        if sameSide false c lv.1 then pure (.node ll lv t, lv.1) else .error .unmodelled
    else
      match r with
      | .nil => .error .attributeError
      | .node rl rv rr => do
        let (t, c) ← treapDown minusOne w n l rl
        if sameSide true c rv.1 then pure (.node t rv rr, rv.1) else .error .unmodelled

/-- `remove` in a subtree: `none` when the value is not found, otherwise the new subtree and the number
compared above if the subtree has another root now — treap.py:548-583, bst.py:612-623 -/
def BTree.treapRemove (minusOne : P) (v : N) :
    BTree (N × P) → Except Err (Option (BTree (N × P) × Option N))
  | .nil => .ok none
  | .node l w r =>
    if v = w.1 then do
      let (t, c) ← treapDown minusOne w (l.inorder.length + r.inorder.length) l r
      pure (some (t, some c))
    else if v < w.1 then do
      match ← l.treapRemove minusOne v with
      | none => pure none
      | some (l', some c) =>
        if sameSide true c w.1 then pure (some (.node l' w r, none)) else .error .unmodelled
      | some (l', none) => pure (some (.node l' w r, none))
    else do
      match ← r.treapRemove minusOne v with
      | none => pure none
      | some (r', some c) =>
        if sameSide false c w.1 then pure (some (.node l w r', none)) else .error .unmodelled
      | some (r', none) => pure (some (.node l w r', none))

/-! ## Calls -/

/-- the priority argument of `insert`: a number, `None` (then `randint` draws the given priority), or
something else — treap.py:75-79, :413-414 -/
inductive TreapPrio (P : Type)
  | num (p : P)
  | none (drawn : P)
  | other
  deriving DecidableEq

/-- the priority the new node gets — treap.py:75-79, :413-414 -/
def TreapPrio.value : TreapPrio P → Except Err P
  | .num p => .ok p
  | .none p => .ok p
  | .other => .error .typeError

/-- the calls on a `Treap` -/
inductive TreapOp (N P : Type)
  | insert (v : NumArg N) (p : TreapPrio P)
  | remove (v : NumArg N)
  | contains (v : NumArg N)
  | getMin
  | getMax
  | len
  | inorder
  | clear
  deriving DecidableEq

/-- `insert` — treap.py:470-493 -/
def treapInsertNum (t : Bst N P) (v : NumArg N) (p : TreapPrio P) : Except Err (BstRes N × Bst N P) :=
  match validNum v, p.value with
  | .error e, _ => .ok (.error e, t)
  | .ok _, .error e => .ok (.error e, t)
  | .ok v, .ok p =>
    match t.root with
    | .nil => .ok (.ok (.unit, false), ⟨.node .nil (v, p) .nil, t.length + 1⟩)
    | .node l w r => do
      let (s, _, new) ← (BTree.node l w r).treapInsert (v, p)
      pure (.ok (.unit, !new), ⟨s, if new then t.length + 1 else t.length⟩)

/-- `remove` — treap.py:533-585 -/
def treapRemoveNum (minusOne : P) (t : Bst N P) : NumArg N → Except Err (BstRes N × Bst N P)
  | .num v =>
    match t.root with
    | .nil => .ok (.ok (.unit, true), t)
    | .node .nil w .nil =>
      if v = w.1 then .ok (.ok (.unit, false), ⟨.nil, t.length - 1⟩)
      else .ok (.ok (.unit, true), t)
    | .node l w r => do
      match ← (BTree.node l w r).treapRemove minusOne v with
      | none => pure (.ok (.unit, true), t)
      | some (s, _) => pure (.ok (.unit, false), ⟨s, t.length - 1⟩)
  | _ => .ok (.ok (.unit, true), t)

/-- one call; the outer `Except` is an exception from the middle of a call — treap.py:276, :330, :361,
:396, :608, :1015 and the definitions above -/
def treapExec (minusOne : P) (t : Bst N P) : TreapOp N P → Except Err (BstRes N × Bst N P)
  | .insert v p => treapInsertNum t v p
  | .remove v => treapRemoveNum minusOne t v
  | .contains v => .ok (.ok (.bool (t.contains v), false), t)
  | .getMin => .ok (t.getMin.map (fun m => (.num m, false)), t)
  | .getMax => .ok (t.getMax.map (fun m => (.num m, false)), t)
  | .len => .ok (.ok (.int t.length, false), t)
  | .inorder => .ok (.ok (.list t.root.keys, false), t)
  | .clear => .ok (.ok (.unit, false), Bst.empty)

/-- a history of calls -/
def treapExecs (minusOne : P) : List (TreapOp N P) → Bst N P → Except Err (List (BstRes N) × Bst N P)
  | [], t => .ok ([], t)
  | op :: ops, t => do
    let (r, t') ← treapExec minusOne t op
    let (rs, t'') ← treapExecs minusOne ops t'
    pure (r :: rs, t'')

end Extra
