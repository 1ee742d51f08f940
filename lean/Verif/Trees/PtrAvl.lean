import Verif.Trees.PtrTree
import Verif.Trees.Avl

/-!
# `AVL` with its links — /repo/extra/trees/avl.py

The extension of a node is its `_height`.
-/

namespace Extra
variable {N : Type} [LinearOrder N]

/-- the height on the side of a child — avl.py:98-101, :112-115 -/
def sideHeight : Option Nat → Nat
  | none => 0
  | some h => 1 + h

/-- `AVLNode` — avl.py:57-58, :75-76 -/
def avlClass : PClass Nat := ⟨fun l r _ => max (sideHeight l) (sideHeight r), false⟩

/-- `node.get_children_heights()` — avl.py:98-101, :112-115, :128 -/
def pHeights (p : Option Addr) : PM N Nat (Nat × Nat) := do
  let n ← pNode p
  let l ← pExt? n.left
  let r ← pExt? n.right
  return (sideHeight l, sideHeight r)

/-- `node.is_balanced()` — avl.py:165-166 -/
def pBalanced (p : Option Addr) : PM N Nat Bool := do
  let (l, r) ← pHeights p
  return decide (l ≤ r + 1 ∧ r ≤ l + 1)

/-- `_rebalance` — avl.py:739-771 -/
def pRebalance (p : Option Addr) : PM N Nat (Option Addr) := do
  pAssert p
  let (l, r) ← pHeights p
  let parent ← (if l > r then pLeft p else pRight p)
  let (l, r) ← pHeights parent
  let node ← (if l > r then pLeft parent else pRight parent)
  if ← pIsLeftChild parent then do
    if ← pIsLeftChild node then pRotateRight avlClass p else pRotateLeftRight avlClass p
  else do
    if ← pIsLeftChild node then pRotateRightLeft avlClass p else pRotateLeft avlClass p

/-- the loop of `_insert` and `_remove` — avl.py:424-430, :528-534 -/
def pAvlLoop : Nat → Option Addr → PM N Nat Unit
  | 0, _ => PM.throw .diverge
  | n + 1, p => do
    if p.isNone then return ()
    else do
      let grandParent ← pParent p
      pRelink avlClass p
      if ← pBalanced p then pAvlLoop n grandParent
      else do
        let q ← pRebalance p
        pAttach avlClass grandParent q
        pAvlLoop n grandParent

/-- `_insert` — avl.py:413-431 -/
def pAvlInsert (v : N) : PM N Nat (Option Addr) := do
  let node ← pInsert avlClass 0 (← pFuel) v
  let parent ← pParent node
  pAvlLoop (← pFuel) parent
  return node

/-- `self._length` -/
def pLength : PM N Nat Int := fun s => (.ok s.length, s)

/-- `_remove` — avl.py:521-535 -/
def pAvlRemove (v : N) : PM N Nat Unit := do
  let before ← pLength
  let last ← pRemove avlClass (← pFuel) v
  let after ← pLength
  if after ≠ before then pAvlLoop (← pFuel) last else return ()

/-- `get_height` — tree.py:709-711, avl.py:615 -/
def pAvlHeight : PM N Nat (BstVal N) := do
  let root ← pRoot
  if root.isNone then return .int 0
  else do return .int (← pNode root).ext

/-- `is_balanced` — avl.py:802-804, binary_tree.py:739-744 -/
def pAvlIsBalanced : PM N Nat (BstVal N) := do
  let root ← pRoot
  if root.isNone then do
    pWarn
    return .bool true
  else do return .bool (← pBalanced root)

/-- one call on an `AVL` — bst.py:404, :1056, :1658 and the definitions above -/
def pAvlExec (s : PTree N Nat) : AvlOp N → BstRes N × PTree N Nat
  | .insert v => pCall (pInsertNum pAvlInsert 0 v) s
  | .remove v => pCall (pRemoveNum pAvlRemove v) s
  | .contains v => pCall (pContains v) s
  | .getMin => pCall pGetMin s
  | .getMax => pCall pGetMax s
  | .len => pCall (fun s => (.ok (.int s.length), s)) s
  | .getHeight => pCall pAvlHeight s
  | .isBalanced => pCall pAvlIsBalanced s
  | .inorder => pCall (do return .list (← pInorder (← pFuel) (← pRoot))) s
  | .clear => pCall pClear s

/-- a history of calls; it goes on after an exception, with the objects as they are then -/
def pAvlExecs : List (AvlOp N) → PTree N Nat → List (BstRes N) × PTree N Nat
  | [], s => ([], s)
  | op :: ops, s =>
    ((pAvlExec s op).1 :: (pAvlExecs ops (pAvlExec s op).2).1, (pAvlExecs ops (pAvlExec s op).2).2)

end Extra
