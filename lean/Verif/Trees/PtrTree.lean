import Verif.Trees.Bst
import Verif.Lists.Heap

/-!
# Search trees with their links — /repo/extra/trees/bst.py

Here a node is an object with `_left`, `_right` and `_parent` links, and the methods are the code's
assignments to them, in the code's order.  `Verif/Trees/Bst.lean` and its relatives describe the same code on
trees as values; the theorems of `Verif/Props/Links.lean` compare the two.

A computation gives a result (a value or an exception) and the objects it leaves behind.  Recursions and
loops have a bound on the number of rounds, which gives `Err.diverge` when it is used up.  Nodes of other
classes are not modelled, so `assert isinstance(node, ...)` fails for `None` only.
-/

namespace Extra
variable {N X α β : Type} [LinearOrder N]

/-- a node object: `_data`, what the class adds (`_height`, `_priority`, `_color`), and the links —
bst.py:122-123, binary_tree.py:132-134, avl.py:41, treap.py:75-79, red_black_tree.py:84 -/
structure PNode (N X : Type) where
  data : N
  ext : X
  left : Option Addr
  right : Option Addr
  parent : Option Addr
  deriving DecidableEq

/-- the tree object (`_root`, `_length`), all node objects there are, and whether the current call has
warned — bst.py:350-351 -/
structure PTree (N X : Type) where
  node : Addr → Option (PNode N X)
  next : Addr
  root : Option Addr
  length : Int
  warned : Bool

/-- what differs between the node classes: the extension of a node after `set_left` or `set_right`, given
those of its children (`AVLNode` sets `_height`), and whether `swap` exchanges the extensions
(`RedBlackNode`) — avl.py:57-58, :75-76, red_black_tree.py:201-203 -/
structure PClass (X : Type) where
  relink : Option X → Option X → X → X
  swapsExt : Bool

/-- `BSTNode`, and `TreapNode`, which changes neither method — bst.py:94-283, treap.py:42-156 -/
def plainClass (X : Type) : PClass X := ⟨fun _ _ x => x, false⟩

/-- computations -/
def PM (N X α : Type) : Type := PTree N X → Except Err α × PTree N X

namespace PM

def pure (a : α) : PM N X α := fun s => (.ok a, s)

def bind (m : PM N X α) (f : α → PM N X β) : PM N X β := fun s =>
  match m s with
  | (.ok a, s') => f a s'
  | (.error e, s') => (.error e, s')

def throw (e : Err) : PM N X α := fun s => (.error e, s)

instance : Monad (PM N X) where
  pure := pure
  bind := bind

end PM

/-! ## Attributes of nodes -/

/-- an attribute of a node; using `None` raises `AttributeError` -/
def pNode (p : Option Addr) : PM N X (PNode N X) := fun s =>
  match p with
  | none => (.error .attributeError, s)
  | some a =>
    match s.node a with
    | none => (.error .unmodelled, s)
    | some n => (.ok n, s)

/-- the attributes of a node are assigned -/
def pSetNode (p : Option Addr) (f : PNode N X → PNode N X) : PM N X Unit := fun s =>
  match p with
  | none => (.error .attributeError, s)
  | some a =>
    match s.node a with
    | none => (.error .unmodelled, s)
    | some n => (.ok (), { s with node := upd s.node a (some (f n)) })

/-- `assert isinstance(node, self._basic_node)` -/
def pAssert (p : Option Addr) : PM N X Unit :=
  match p with
  | none => PM.throw .assertionError
  | some _ => PM.pure ()

/-- `node.get_data()` — binary_tree.py:151 -/
def pData (p : Option Addr) : PM N X N := do return (← pNode p).data

/-- `node.get_left()` — binary_tree.py:171 -/
def pLeft (p : Option Addr) : PM N X (Option Addr) := do return (← pNode p).left

/-- `node.get_right()` — binary_tree.py:191 -/
def pRight (p : Option Addr) : PM N X (Option Addr) := do return (← pNode p).right

/-- `node.get_parent()` — bst.py:136 -/
def pParent (p : Option Addr) : PM N X (Option Addr) := do return (← pNode p).parent

/-- `node.set_parent(q)` — bst.py:254 -/
def pSetParent (p q : Option Addr) : PM N X Unit := pSetNode p fun n => { n with parent := q }

/-- the extension of a child, if there is one -/
def pExt? (p : Option Addr) : PM N X (Option X) :=
  match p with
  | none => PM.pure none
  | some a => do return some (← pNode (some a)).ext

/-- `AVLNode` sets the height after `set_left` and `set_right` — avl.py:58, :76 -/
def pRelink (C : PClass X) (p : Option Addr) : PM N X Unit := do
  let n ← pNode p
  let l ← pExt? n.left
  let r ← pExt? n.right
  pSetNode p fun n => { n with ext := C.relink l r n.ext }

/-- `if child is not None: child._parent = node` — bst.py:212-213, :233-234 -/
def pAdopt (p child : Option Addr) : PM N X Unit :=
  match child with
  | none => PM.pure ()
  | some c => pSetParent (some c) p

/-- `node.set_left(child)` — bst.py:211-213, avl.py:57-58 -/
def pSetLeft (C : PClass X) (p child : Option Addr) : PM N X Unit := do
  pSetNode p fun n => { n with left := child }
  pAdopt p child
  pRelink C p

/-- `node.set_right(child)` — bst.py:232-234, avl.py:75-76 -/
def pSetRight (C : PClass X) (p child : Option Addr) : PM N X Unit := do
  pSetNode p fun n => { n with right := child }
  pAdopt p child
  pRelink C p

/-- `node.is_leaf()` — binary_tree.py:211-216, tree.py:230 -/
def pIsLeaf (p : Option Addr) : PM N X Bool := do
  let n ← pNode p
  return n.left.isNone && n.right.isNone

/-- `node.is_left_child()` — bst.py:266 -/
def pIsLeftChild (p : Option Addr) : PM N X Bool := do
  let q ← pParent p
  let d ← pData q
  let e ← pData p
  return decide (d > e)

/-- `node.get_grand_parent()` — bst.py:149 -/
def pGrandParent (p : Option Addr) : PM N X (Option Addr) := do
  let q ← pParent p
  if q.isSome then pParent q else return none

/-- `node.get_uncle()` — bst.py:162-172 -/
def pUncle (p : Option Addr) : PM N X (Option Addr) := do
  let q ← pParent p
  if q.isNone then return none
  else do
    let g ← pParent q
    if g.isNone then return none
    else do
      let b ← pIsLeftChild q
      if b then pRight g else pLeft g

/-- `node.get_sibling()` — bst.py:186-193 -/
def pSibling (p : Option Addr) : PM N X (Option Addr) := do
  let q ← pParent p
  if q.isNone then return none
  else do
    let b ← pIsLeftChild p
    if b then pRight q else pLeft q

/-- `self._root` -/
def pRoot : PM N X (Option Addr) := fun s => (.ok s.root, s)

/-- `self._root = p` -/
def pSetRoot (p : Option Addr) : PM N X Unit := fun s => (.ok (), { s with root := p })

/-- `self._length += d` -/
def pAddLength (d : Int) : PM N X Unit := fun s => (.ok (), { s with length := s.length + d })

/-- `warnings.warn(...)` -/
def pWarn : PM N X Unit := fun s => (.ok (), { s with warned := true })

/-- `self._basic_node(value)` — bst.py:122-123 -/
def pNew (v : N) (x : X) : PM N X (Option Addr) := fun s =>
  (.ok (some s.next),
    { s with node := upd s.node s.next (some ⟨v, x, none, none, none⟩), next := s.next + 1 })

/-! ## Search -/

/-- `_get_max_node` — bst.py:452-458 -/
def pMaxNode : Nat → Option Addr → PM N X (Option Addr)
  | 0, _ => PM.throw .diverge
  | n + 1, p => do
    pAssert p
    let r ← pRight p
    if r.isNone then return p else pMaxNode n r

/-- `_get_min_node` — bst.py:521-527 -/
def pMinNode : Nat → Option Addr → PM N X (Option Addr)
  | 0, _ => PM.throw .diverge
  | n + 1, p => do
    pAssert p
    let l ← pLeft p
    if l.isNone then return p else pMinNode n l

/-- `_search` — bst.py:609-623 -/
def pSearch (v : N) : Nat → Option Addr → PM N X (Option Addr)
  | 0, _ => PM.throw .diverge
  | n + 1, p => do
    pAssert p
    let d ← pData p
    if v = d then return p
    else if v < d then do
      let l ← pLeft p
      if l.isSome then pSearch v n l else return p
    else do
      let r ← pRight p
      if r.isSome then pSearch v n r else return p

/-! ## Insertion -/

/-- `_insert_node` — bst.py:688-713 -/
def pInsertNode (C : PClass X) (inserted : Option Addr) : Nat → Option Addr → PM N X (Option Addr)
  | 0, _ => PM.throw .diverge
  | n + 1, p => do
    pAssert p
    let v ← pData inserted
    let d ← pData p
    if v = d then do
      pWarn
      return p
    else if v < d then do
      let l ← pLeft p
      if l.isSome then pInsertNode C inserted n l
      else do
        pSetLeft C p inserted
        pAddLength 1
        return inserted
    else do
      let r ← pRight p
      if r.isSome then pInsertNode C inserted n r
      else do
        pSetRight C p inserted
        pAddLength 1
        return inserted

/-- `_insert_value` and `_insert` of `BST`, for a node with the extension `x` — bst.py:740-744, :766-774 -/
def pInsert (C : PClass X) (x : X) (fuel : Nat) (v : N) : PM N X (Option Addr) := do
  let root ← pRoot
  pAssert root
  let node ← pNew v x
  pInsertNode C node fuel root

/-! ## Removal -/

/-- `_find_replacement` — bst.py:851-862 -/
def pFindReplacement (fuel : Nat) (p : Option Addr) : PM N X (Option Addr) := do
  pAssert p
  let r ← pRight p
  if r.isSome then pMinNode fuel r
  else do
    let l ← pLeft p
    if l.isSome then pMaxNode fuel l else return none

/-- `swap` — tree.py:307, red_black_tree.py:201-203 -/
def pSwap (C : PClass X) (p q : Option Addr) : PM N X Unit := do
  let n ← pNode p
  let m ← pNode q
  pSetNode p fun k => { k with data := m.data, ext := if C.swapsExt then m.ext else k.ext }
  pSetNode q fun k => { k with data := n.data, ext := if C.swapsExt then n.ext else k.ext }

/-- `_transplant` — bst.py:883-902 -/
def pTransplant (C : PClass X) : Nat → Option Addr → Option Addr → PM N X Unit
  | 0, _, _ => PM.throw .diverge
  | n + 1, node, replacement => do
    pAssert node
    if replacement.isNone then do
      let parent ← pParent node
      let l ← pLeft parent
      if l = node then pSetLeft C parent none else pSetRight C parent none
    else do
      let leaf ← pIsLeaf replacement
      let l ← pLeft replacement
      let r ← pRight replacement
      let new := if leaf then none else if l.isSome then l else r
      pSwap C node replacement
      pTransplant C n replacement new

/-- `_remove` — bst.py:953-979 -/
def pRemove (C : PClass X) (fuel : Nat) (v : N) : PM N X (Option Addr) := do
  let root ← pRoot
  pAssert root
  let removed ← pSearch v fuel root
  let d ← pData removed
  if d ≠ v then do
    pWarn
    return removed
  else do
    let replacement ← pFindReplacement fuel removed
    let parent ← if replacement.isNone then pParent removed else pParent replacement
    pTransplant C fuel removed replacement
    pAddLength (-1)
    return parent

/-! ## Rotations -/

/-- `_rotate_left` — bst.py:1093-1100 -/
def pRotateLeft (C : PClass X) (p : Option Addr) : PM N X (Option Addr) := do
  pAssert p
  let middle ← pRight p
  pSetParent middle (← pParent p)
  pSetRight C p (← pLeft middle)
  pSetLeft C middle p
  return middle

/-- `_rotate_right` — bst.py:1136-1143 -/
def pRotateRight (C : PClass X) (p : Option Addr) : PM N X (Option Addr) := do
  pAssert p
  let middle ← pLeft p
  pSetParent middle (← pParent p)
  pSetLeft C p (← pRight middle)
  pSetRight C middle p
  return middle

/-- `_rotate_left_right` — bst.py:1180-1189 -/
def pRotateLeftRight (C : PClass X) (p : Option Addr) : PM N X (Option Addr) := do
  pAssert p
  let middle ← pRight (← pLeft p)
  pSetParent middle (← pParent p)
  pSetRight C (← pLeft p) (← pLeft middle)
  pSetLeft C middle (← pLeft p)
  pSetLeft C p (← pRight middle)
  pSetRight C middle p
  return middle

/-- `_rotate_right_left` — bst.py:1226-1235 -/
def pRotateRightLeft (C : PClass X) (p : Option Addr) : PM N X (Option Addr) := do
  pAssert p
  let middle ← pLeft (← pRight p)
  pSetParent middle (← pParent p)
  pSetLeft C (← pRight p) (← pRight middle)
  pSetRight C middle (← pRight p)
  pSetRight C p (← pLeft middle)
  pSetLeft C middle p
  return middle

/-- `_attach` — bst.py:1256-1265 -/
def pAttach (C : PClass X) (parent child : Option Addr) : PM N X Unit := do
  pAssert child
  if parent.isNone then pSetRoot child
  else do
    let d ← pData parent
    let e ← pData child
    if d > e then pSetLeft C parent child else pSetRight C parent child

/-! ## The public methods of `BST` -/

/-- enough rounds for the recursions: one for each node object and one more -/
def pFuel : PM N X Nat := fun s => (.ok (s.next + 1), s)

/-- `insert`, with the class's `_insert` — bst.py:806-811 -/
def pInsertNum (insert : N → PM N X (Option Addr)) (x : X) : NumArg N → PM N X (BstVal N)
  | .none => PM.throw .valueError
  | .other => PM.throw .typeError
  | .num v => do
    let root ← pRoot
    if root.isNone then do
      let node ← pNew v x
      pSetRoot node
      pAddLength 1
    else do
      let _ ← insert v
    return .unit

/-- `remove`, with the class's `_remove` — bst.py:1019-1033 -/
def pRemoveNum (remove : N → PM N X Unit) : NumArg N → PM N X (BstVal N)
  | .num v => do
    let root ← pRoot
    if root.isNone then do
      pWarn
      return .unit
    else do
      let leaf ← pIsLeaf root
      let d ← pData root
      if leaf ∧ v = d then do
        pSetRoot none
        pAddLength (-1)
        return .unit
      else do
        remove v
        return .unit
  | _ => do
    pWarn
    return .unit

/-- `value in tree` — bst.py:657-660 -/
def pContains : NumArg N → PM N X (BstVal N)
  | .num v => do
    let root ← pRoot
    if root.isNone then return .bool false
    else do
      let found ← pSearch v (← pFuel) root
      let d ← pData found
      return .bool (decide (d = v))
  | _ => PM.pure (.bool false)

/-- `get_max` — bst.py:489-494 -/
def pGetMax : PM N X (BstVal N) := do
  let root ← pRoot
  if root.isNone then PM.throw .indexError
  else do
    let d ← pData (← pMaxNode (← pFuel) root)
    return .num d

/-- `get_min` — bst.py:558-563 -/
def pGetMin : PM N X (BstVal N) := do
  let root ← pRoot
  if root.isNone then PM.throw .indexError
  else do
    let d ← pData (← pMinNode (← pFuel) root)
    return .num d

/-- `__inorder_traverse` — binary_tree.py:1073-1080 -/
def pInorder : Nat → Option Addr → PM N X (List N)
  | 0, _ => PM.throw .diverge
  | n + 1, p => do
    if p.isNone then return []
    else do
      let l ← pLeft p
      let ls ← (if l.isSome then pInorder n l else PM.pure [])
      let d ← pData p
      let r ← pRight p
      let rs ← (if r.isSome then pInorder n r else PM.pure [])
      return ls ++ d :: rs

/-- `_invert_subtree` — binary_tree.py:1330-1335 -/
def pInvert : Nat → Option Addr → PM N X (Option Addr)
  | 0, _ => PM.throw .diverge
  | n + 1, p => do
    if p.isNone then return p
    else do
      let l ← pInvert n (← pRight p)
      let r ← pInvert n (← pLeft p)
      pSetNode p fun k => { k with left := l, right := r }
      return p

/-- a method called on the object: the result with the warning flag -/
def pCall (m : PM N X (BstVal N)) (s : PTree N X) : BstRes N × PTree N X :=
  match m { s with warned := false } with
  | (.ok v, s') => (.ok (v, s'.warned), s')
  | (.error e, s') => (.error e, s')

/-- `tree.__init__()`, which is how `clear` works, and `BST()` — bst.py:350-351, tree.py:1179 -/
def pClear : PM N X (BstVal N) := fun s => (.ok .unit, { s with root := none, length := 0 })

/-- the start: no node objects, an empty tree — bst.py:350-351 -/
def PTree.empty : PTree N X := ⟨fun _ => none, 0, none, 0, false⟩

/-- one call on a `BST` — bst.py:404, :426, :1056, :1658, binary_tree.py:1106, :1359 and the definitions above -/
def pBstExec (s : PTree N Unit) : BstOp N → BstRes N × PTree N Unit
  | .insert v => pCall (pInsertNum (fun v => do pInsert (plainClass Unit) () (← pFuel) v) () v) s
  | .remove v => pCall (pRemoveNum (fun v => do let _ ← pRemove (plainClass Unit) (← pFuel) v) v) s
  | .contains v => pCall (pContains v) s
  | .getMin => pCall pGetMin s
  | .getMax => pCall pGetMax s
  | .len => pCall (fun s => (.ok (.int s.length), s)) s
  | .isEmpty => pCall (fun s => (.ok (.bool s.root.isNone), s)) s
  | .clear => pCall pClear s
  | .inorder => pCall (do return .list (← pInorder (← pFuel) (← pRoot))) s
  | .invert => pCall (do pSetRoot (← pInvert (← pFuel) (← pRoot)); return .unit) s

/-- a history of calls; it goes on after an exception, with the objects as they are then -/
def pBstExecs : List (BstOp N) → PTree N Unit → List (BstRes N) × PTree N Unit
  | [], s => ([], s)
  | op :: ops, s =>
    ((pBstExec s op).1 :: (pBstExecs ops (pBstExec s op).2).1, (pBstExecs ops (pBstExec s op).2).2)

end Extra
