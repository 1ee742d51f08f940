import Verif.Trees.PtrTree
import Verif.Trees.Tree

/-!
# The setters of nodes as methods for callers

`Verif/Trees/PtrTree.lean` has `set_left` and `set_right` as the trees use them; here the checks of their
arguments are added, and the setters of `TreeNode` — /repo/extra/trees/tree.py:136-208, bst.py:195-254.
As there, nodes of different classes are not mixed.
-/

namespace Extra
variable {N X V : Type} [LinearOrder N]

/-- what a caller may pass for a node -/
inductive NodeArg
  | none
  | node (a : Addr)
  | other
  deriving DecidableEq

/-- the link a valid argument stands for; anything but a node or `None` raises `TypeError` —
bst.py:209-210, :230-231, :250-253 -/
def NodeArg.link : NodeArg → Except Err (Option Addr)
  | .none => .ok .none
  | .node a => .ok (some a)
  | .other => .error .typeError

/-- `set_left` — bst.py:209-213, avl.py:57-58 -/
def nodeSetLeft (C : PClass X) (a : Addr) (x : NodeArg) : PM N X Unit :=
  match x.link with
  | .error e => PM.throw e
  | .ok c => pSetLeft C (some a) c

/-- `set_right` — bst.py:230-234, avl.py:75-76 -/
def nodeSetRight (C : PClass X) (a : Addr) (x : NodeArg) : PM N X Unit :=
  match x.link with
  | .error e => PM.throw e
  | .ok c => pSetRight C (some a) c

/-- `set_parent` — bst.py:250-254 -/
def nodeSetParent (a : Addr) (x : NodeArg) : PM N X Unit :=
  match x.link with
  | .error e => PM.throw e
  | .ok c => pSetParent (some a) c

/-- `has_one_child` — binary_tree.py:340-343, :211-216, tree.py:230 -/
def pHasOneChild (p : Option Addr) : PM N X Bool := do
  let b ← pIsLeaf p
  let n ← pNode p
  return !b && (n.left.isNone || n.right.isNone)

/-! ## `TreeNode` -/

/-- a `TreeNode` object: `_data` and `_children` — tree.py:95-96 -/
structure KNode (V : Type) where
  data : V
  children : List Addr
  deriving DecidableEq

/-- what a caller may pass to `set_children`: something that is not iterable, or items -/
inductive ChildrenArg
  | notIterable
  | items (l : List NodeArg)

/-- `set_child` of the node `a` — tree.py:162-167 -/
def kSetChild (h : Addr → Option (KNode V)) (a : Addr) (x : NodeArg) :
    Except Err Unit × (Addr → Option (KNode V)) :=
  match x with
  | .node c =>
    match h a with
    | some n => (.ok (), upd h a (some { n with children := n.children ++ [c] }))
    | none => (.error .unmodelled, h)
  | _ => (.error .typeError, h)

/-- the loop of `set_children` — tree.py:200-207 -/
def collectNodes : List NodeArg → List Addr → Except Err (List Addr)
  | [], acc => .ok acc
  | .node c :: l, acc => collectNodes l (acc ++ [c])
  | _ :: _, _ => .error .typeError

/-- `set_children` of the node `a` — tree.py:198-208 -/
def kSetChildren (h : Addr → Option (KNode V)) (a : Addr) (x : ChildrenArg) :
    Except Err Unit × (Addr → Option (KNode V)) :=
  match x with
  | .notIterable => (.error .typeError, h)
  | .items l =>
    match collectNodes l [] with
    | .error e => (.error e, h)
    | .ok cs =>
      match h a with
      | some n => (.ok (), upd h a (some { n with children := cs }))
      | none => (.error .unmodelled, h)

end Extra
