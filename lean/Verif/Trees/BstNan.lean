import Verif.Trees.Bst

/-!
# `BST` with `nan` — /repo/extra/trees/bst.py

`type(float("nan"))` is `float`, so `insert` takes `nan` like any number (bst.py:380).  Bst.lean has numbers of a
linear order only; here are the same functions for numbers that may be `nan`, of which every comparison with
`==`, `<` and `>` is false and every comparison with `!=` true.  `nan` is compared with operators only, never by
identity, so it does not matter which `nan` object it is.
-/

namespace Extra
variable {N : Type} [LinearOrder N]

/-- a Python number: `nan`, or a number of the order -/
inductive PyNum (N : Type)
  | nan
  | num (n : N)
  deriving DecidableEq

/-- `a == b` -/
def PyNum.eq : PyNum N → PyNum N → Bool
  | .num a, .num b => decide (a = b)
  | _, _ => false

/-- `a < b` -/
def PyNum.lt : PyNum N → PyNum N → Bool
  | .num a, .num b => decide (a < b)
  | _, _ => false

/-- `_search`: the number in the node returned — bst.py:612-623; `none` for no node to start from -/
def nanSearch (v : PyNum N) : BTree (PyNum N) → Option (PyNum N)
  | .nil => none
  | .node l w r =>
    if v.eq w then some w
    else if v.lt w then (nanSearch v l).or (some w)
    else (nanSearch v r).or (some w)

/-- `value in tree` for a number — bst.py:657-660 -/
def nanContains (v : PyNum N) (t : BTree (PyNum N)) : Bool :=
  match nanSearch v t with
  | none => false
  | some w => w.eq v

/-- `_insert_node`, and whether the node was inserted (otherwise the code warns); for an empty tree the new root —
bst.py:694-713, :807-811 -/
def nanInsert (v : PyNum N) : BTree (PyNum N) → BTree (PyNum N) × Bool
  | .nil => (.node .nil v .nil, true)
  | .node l w r =>
    if v.eq w then (.node l w r, false)
    else if v.lt w then (.node (nanInsert v l).1 w r, (nanInsert v l).2)
    else (.node l w (nanInsert v r).1, (nanInsert v r).2)

/-- `_get_min_node` — bst.py:524-527 -/
def nanMin : BTree (PyNum N) → Option (PyNum N)
  | .nil => none
  | .node l w _ => (nanMin l).or (some w)

/-- `_get_max_node` — bst.py:455-458 -/
def nanMax : BTree (PyNum N) → Option (PyNum N)
  | .nil => none
  | .node _ w r => (nanMax r).or (some w)

/-- `_transplant` from the second call on — bst.py:887-902 -/
def nanSink : BTree (PyNum N) → BTree (PyNum N)
  | .nil => .nil
  | .node .nil _ .nil => .nil
  | .node (.node ll lv lr) _ r => .node (nanSink (.node ll lv lr)) lv r
  | .node .nil _ (.node rl rv rr) => .node .nil rv (nanSink (.node rl rv rr))

/-- the minimum node of a subtree gives its number away and sinks — bst.py:855, :894-902 -/
def nanTakeMin : BTree (PyNum N) → Option (PyNum N × BTree (PyNum N))
  | .nil => none
  | .node .nil w r => some (w, nanSink (.node .nil w r))
  | .node (.node ll lv lr) w r =>
    match nanTakeMin (.node ll lv lr) with
    | none => none
    | some (m, l') => some (m, .node l' w r)

/-- the same for the maximum node — bst.py:858, :894-902 -/
def nanTakeMax : BTree (PyNum N) → Option (PyNum N × BTree (PyNum N))
  | .nil => none
  | .node l w .nil => some (w, nanSink (.node l w .nil))
  | .node l w (.node rl rv rr) =>
    match nanTakeMax (.node rl rv rr) with
    | none => none
    | some (m, r') => some (m, .node l w r')

/-- `_find_replacement` and `_transplant` for the node at the root of a subtree — bst.py:853-862, :887-902 -/
def nanRemoveRoot : BTree (PyNum N) → BTree (PyNum N)
  | .nil => .nil
  | .node l _ (.node rl rv rr) =>
    match nanTakeMin (.node rl rv rr) with
    | none => .nil
    | some (m, r') => .node l m r'
  | .node (.node ll lv lr) _ .nil =>
    match nanTakeMax (.node ll lv lr) with
    | none => .nil
    | some (m, l') => .node l' m .nil
  | .node .nil _ .nil => .nil

/-- `_remove`, and whether the number was found (otherwise the code warns) — bst.py:957-979, :1029-1033; the walk to
the node and what is done there in one -/
def nanRemove (v : PyNum N) : BTree (PyNum N) → BTree (PyNum N) × Bool
  | .nil => (.nil, false)
  | .node l w r =>
    if v.eq w then (nanRemoveRoot (.node l w r), true)
    else if v.lt w then (.node (nanRemove v l).1 w r, (nanRemove v l).2)
    else (.node l w (nanRemove v r).1, (nanRemove v r).2)

/-- a `BST` object — bst.py:350-351 -/
structure NanBst (N : Type) where
  root : BTree (PyNum N)
  length : Int
  deriving DecidableEq

/-- `BST()` — bst.py:350-351 -/
def NanBst.empty : NanBst N := ⟨.nil, 0⟩

/-- one call — bst.py:404, :426, :489-494, :558-563, :657-660, :806-811, :1019-1033, :1056, :1658 -/
def NanBst.exec (t : NanBst N) : BstOp (PyNum N) → BstRes (PyNum N) × NanBst N
  | .insert .none => (.error .valueError, t)
  | .insert .other => (.error .typeError, t)
  | .insert (.num v) =>
    let res := nanInsert v t.root
    (.ok (.unit, !res.2), ⟨res.1, if res.2 then t.length + 1 else t.length⟩)
  | .remove (.num v) =>
    let res := nanRemove v t.root
    (.ok (.unit, !res.2), ⟨res.1, if res.2 then t.length - 1 else t.length⟩)
  | .remove _ => (.ok (.unit, true), t)
  | .contains (.num v) => (.ok (.bool (nanContains v t.root), false), t)
  | .contains _ => (.ok (.bool false, false), t)
  | .getMin => (match nanMin t.root with | none => .error .indexError | some m => .ok (.num m, false), t)
  | .getMax => (match nanMax t.root with | none => .error .indexError | some m => .ok (.num m, false), t)
  | .len => (.ok (.int t.length, false), t)
  | .isEmpty => (.ok (.bool (match t.root with | .nil => true | .node _ _ _ => false), false), t)
  | .clear => (.ok (.unit, false), NanBst.empty)
  | .inorder => (.ok (.list t.root.inorder, false), t)
  | .invert => (.ok (.unit, false), ⟨t.root.invert, t.length⟩)

/-- a history of calls -/
def NanBst.execs : List (BstOp (PyNum N)) → NanBst N → List (BstRes (PyNum N)) × NanBst N
  | [], t => ([], t)
  | op :: ops, t => ((t.exec op).1 :: (NanBst.execs ops (t.exec op).2).1, (NanBst.execs ops (t.exec op).2).2)

end Extra
