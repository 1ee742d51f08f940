import Verif.Trees.Zipper

/-!
# `SplayTree` — /repo/extra/trees/splay_tree.py

The node to be splayed is held as a subtree with the nodes above it, nearest first (`Above`).  During
`__splaying` the link from the node above down to the splayed node is out of date until the next step
overwrites it; the model keeps it up to date.  `is_left_child` compares numbers: where its answer is not
the side the child is on, the result is `Err.unmodelled` (on the paths that are splayed in a search tree
this does not happen).
-/

namespace Extra
variable {N X : Type} [LinearOrder N]

/-- the six steps and the loop of `__splaying`, of the node `x` with children `a` and `b` —
splay_tree.py:215-323 -/
def splaying (a : BTree (N × X)) (x : N × X) (b : BTree (N × X)) :
    List (Above N X) → Except Err (BTree (N × X))
  | [] => .ok (.node a x b)
  | [f] =>
    if sideOk f x.1 then
      if f.left then .ok (.node a x (.node b f.w f.other))
      else .ok (.node (.node f.other f.w a) x b)
    else .error .unmodelled
  | f :: g :: fs =>
    if sideOk f x.1 ∧ sideOk g f.w.1 then
      match g.left, f.left with
      | true, true => splaying a x (.node b f.w (.node f.other g.w g.other)) fs
      | true, false => splaying (.node f.other f.w a) x (.node b g.w g.other) fs
      | false, true => splaying (.node g.other g.w a) x (.node b f.w f.other) fs
      | false, false => splaying (.node (.node g.other g.w f.other) f.w a) x b fs
    else .error .unmodelled

/-- `_splay` of the node at the end of a walk — splay_tree.py:336; `__splaying` of `None` —
splay_tree.py:294 -/
def BTree.splay (t : BTree (N × X)) (p : List Bool) : Except Err (BTree (N × X)) :=
  match t.descend p [] with
  | (.nil, _) => .error .assertionError
  | (.node a x b, fs) => splaying a x b fs

/-- the way from a removed node to its replacement — bst.py:853-862 -/
def BTree.replacementPath : BTree (N × X) → List Bool
  | .nil => []
  | .node _ _ (.node rl rv rr) => true :: (BTree.node rl rv rr).minPath
  | .node (.node ll lv lr) _ .nil => false :: (BTree.node ll lv lr).maxPath
  | .node .nil _ .nil => []

/-- the way to the node `_remove` returns: the last one of the search if the value is not found,
otherwise the parent of the replacement, or of the removed node if there is no replacement —
bst.py:957-979 -/
def BTree.lastAccessed (v : N) (t : BTree (N × X)) : List Bool :=
  if t.dataAt (t.search v) = some v then
    (t.search v ++ (t.walk (t.search v)).replacementPath).dropLast
  else t.search v

/-! ## Calls -/

/-- the calls on a `SplayTree` -/
inductive SplayOp (N : Type)
  | insert (v : NumArg N)
  | remove (v : NumArg N)
  | contains (v : NumArg N)
  | getMin
  | getMax
  | len
  | inorder
  | clear
  deriving DecidableEq

/-- `value in tree` — splay_tree.py:393-396, bst.py:609 -/
def splayContains (t : Bst N Unit) (v : NumArg N) : Except Err (BstRes N × Bst N Unit) :=
  match validNum v with
  | .error e => .ok (.error e, t)
  | .ok v =>
    match t.root with
    | .nil => .ok (.error .assertionError, t)
    | .node l w r => do
      let s ← (BTree.node l w r).splay ((BTree.node l w r).search v)
      pure (.ok (.bool (decide ((BTree.node l w r).dataAt ((BTree.node l w r).search v) = some v)), false),
        ⟨s, t.length⟩)

/-- `insert` — splay_tree.py:444-450 -/
def splayInsert (t : Bst N Unit) (v : NumArg N) : Except Err (BstRes N × Bst N Unit) :=
  match validNum v with
  | .error e => .ok (.error e, t)
  | .ok v =>
    match t.root with
    | .nil => .ok (.ok (.unit, false), ⟨.node .nil (v, ()) .nil, t.length + 1⟩)
    | .node l w r => do
      let res := (BTree.node l w r).insertNode (v, ())
      let s ← res.1.splay ((BTree.node l w r).insertPath v)
      pure (.ok (.unit, !res.2), ⟨s, if res.2 then t.length + 1 else t.length⟩)

/-- `remove` — splay_tree.py:487-502 -/
def splayRemove (t : Bst N Unit) : NumArg N → Except Err (BstRes N × Bst N Unit)
  | .num v =>
    match t.root with
    | .nil => .ok (.ok (.unit, true), t)
    | .node .nil w .nil =>
      if v = w.1 then .ok (.ok (.unit, false), ⟨.nil, t.length - 1⟩)
      else .ok (.ok (.unit, true), t)
    | .node l w r => do
      let res := (BTree.node l w r).remove v
      let s ← res.1.splay ((BTree.node l w r).lastAccessed v)
      pure (.ok (.unit, !res.2), ⟨s, if res.2 then t.length - 1 else t.length⟩)
  | _ => .ok (.ok (.unit, true), t)

/-- one call; the outer `Except` is an exception from the middle of a call — bst.py:404, :1056, :1658 and
the definitions above -/
def splayExec (t : Bst N Unit) : SplayOp N → Except Err (BstRes N × Bst N Unit)
  | .insert v => splayInsert t v
  | .remove v => splayRemove t v
  | .contains v => splayContains t v
  | .getMin => .ok (t.getMin.map (fun m => (.num m, false)), t)
  | .getMax => .ok (t.getMax.map (fun m => (.num m, false)), t)
  | .len => .ok (.ok (.int t.length, false), t)
  | .inorder => .ok (.ok (.list t.root.keys, false), t)
  | .clear => .ok (.ok (.unit, false), Bst.empty)

/-- a history of calls -/
def splayExecs : List (SplayOp N) → Bst N Unit → Except Err (List (BstRes N) × Bst N Unit)
  | [], t => .ok ([], t)
  | op :: ops, t => do
    let (r, t') ← splayExec t op
    let (rs, t'') ← splayExecs ops t'
    pure (r :: rs, t'')

end Extra
