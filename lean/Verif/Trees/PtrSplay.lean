import Verif.Trees.PtrTree
import Verif.Trees.Splay

/-!
# `SplayTree` on node objects — /repo/extra/trees/splay_tree.py

The assignments to the links, in the code's order (see PtrTree.lean).
-/

namespace Extra
variable {N X : Type} [LinearOrder N]

/-- `__zig_zig` — splay_tree.py:215-228 -/
def pZigZig (C : PClass X) (child : Option Addr) : PM N X (Option Addr) := do
  pAssert child
  let parent ← pParent child
  let grand ← pGrandParent child
  pSetParent child (← pParent grand)
  pSetLeft C grand (← pRight parent)
  pSetRight C parent grand
  pSetLeft C parent (← pRight child)
  pSetRight C child parent
  return child

/-- `__zag_zag` — splay_tree.py:230-243 -/
def pZagZag (C : PClass X) (child : Option Addr) : PM N X (Option Addr) := do
  pAssert child
  let parent ← pParent child
  let grand ← pGrandParent child
  pSetParent child (← pParent grand)
  pSetRight C grand (← pLeft parent)
  pSetLeft C parent grand
  pSetRight C parent (← pLeft child)
  pSetLeft C child parent
  return child

/-- `__zig_zag` — splay_tree.py:245-257 -/
def pZigZag (C : PClass X) (child : Option Addr) : PM N X (Option Addr) := do
  pAssert child
  let parent ← pParent child
  let grand ← pGrandParent child
  pSetParent child (← pParent grand)
  pSetLeft C grand (← pRight child)
  pSetRight C parent (← pLeft child)
  pSetRight C child grand
  pSetLeft C child parent
  return child

/-- `__zag_zig` — splay_tree.py:259-271 -/
def pZagZig (C : PClass X) (child : Option Addr) : PM N X (Option Addr) := do
  pAssert child
  let parent ← pParent child
  let grand ← pGrandParent child
  pSetParent child (← pParent grand)
  pSetRight C grand (← pLeft child)
  pSetLeft C parent (← pRight child)
  pSetLeft C child grand
  pSetRight C child parent
  return child

/-- `__zig` — splay_tree.py:273-281 -/
def pZig (C : PClass X) (child : Option Addr) : PM N X (Option Addr) := do
  pAssert child
  let parent ← pParent child
  pSetParent child (← pParent parent)
  pSetLeft C parent (← pRight child)
  pSetRight C child parent
  return child

/-- `__zag` — splay_tree.py:283-291 -/
def pZag (C : PClass X) (child : Option Addr) : PM N X (Option Addr) := do
  pAssert child
  let parent ← pParent child
  pSetParent child (← pParent parent)
  pSetRight C parent (← pLeft child)
  pSetLeft C child parent
  return child

/-- `a() and b()` -/
def pAnd (a b : PM N X Bool) : PM N X Bool := do if ← a then b else return false

/-- `not a()` -/
def pNot (a : PM N X Bool) : PM N X Bool := do return !(← a)

/-- one of the four double steps — splay_tree.py:307-318 -/
def pDouble (C : PClass X) (parent child : Option Addr) : PM N X (Option Addr) := do
  let ll ← pAnd (pIsLeftChild parent) (pIsLeftChild child)
  if ll then pZigZig C child
  else do
    let lr ← pAnd (pIsLeftChild parent) (pNot (pIsLeftChild child))
    if lr then pZigZag C child
    else do
      let rl ← pAnd (pNot (pIsLeftChild parent)) (pIsLeftChild child)
      if rl then pZagZig C child else pZagZag C child

/-- `__splaying` — splay_tree.py:293-323 -/
def pSplaying (C : PClass X) : Nat → Option Addr → PM N X (Option Addr)
  | 0, _ => PM.throw .diverge
  | n + 1, child => do
    pAssert child
    let parent ← pParent child
    if parent.isNone then return child
    else do
      let grand ← pGrandParent child
      if grand.isNone then do
        let b ← pIsLeftChild child
        if b then pZig C child else pZag C child
      else do
        let top ← pDouble C parent child
        let above ← pParent top
        if above.isSome then pSplaying C n top else return top

/-- `_splay` — splay_tree.py:336 -/
def pSplay (C : PClass X) (fuel : Nat) (p : Option Addr) : PM N X Unit := do
  pSetRoot (← pSplaying C fuel p)

/-- `value in tree` — splay_tree.py:393-396 -/
def pSplayContains : NumArg N → PM N Unit (BstVal N)
  | .none => PM.throw .valueError
  | .other => PM.throw .typeError
  | .num v => do
    let node ← pSearch v (← pFuel) (← pRoot)
    pSplay (plainClass Unit) (← pFuel) node
    let d ← pData node
    return .bool (decide (d = v))

/-- `insert` — splay_tree.py:444-450 -/
def pSplayInsert : NumArg N → PM N Unit (BstVal N) :=
  pInsertNum (fun v => do
    let node ← pInsert (plainClass Unit) () (← pFuel) v
    pSplay (plainClass Unit) (← pFuel) node
    return node) ()

/-- `remove` — splay_tree.py:487-502 -/
def pSplayRemove : NumArg N → PM N Unit (BstVal N) :=
  pRemoveNum fun v => do
    let node ← pRemove (plainClass Unit) (← pFuel) v
    pSplay (plainClass Unit) (← pFuel) node

/-- one call on a `SplayTree` — splay_tree.py:130, :152, :182, :212, :523, :927 and the definitions above -/
def pSplayExec (s : PTree N Unit) : SplayOp N → BstRes N × PTree N Unit
  | .insert v => pCall (pSplayInsert v) s
  | .remove v => pCall (pSplayRemove v) s
  | .contains v => pCall (pSplayContains v) s
  | .getMin => pCall pGetMin s
  | .getMax => pCall pGetMax s
  | .len => pCall (fun s => (.ok (.int s.length), s)) s
  | .inorder => pCall (do return .list (← pInorder (← pFuel) (← pRoot))) s
  | .clear => pCall pClear s

/-- a history of calls -/
def pSplayExecs : List (SplayOp N) → PTree N Unit → List (BstRes N) × PTree N Unit
  | [], s => ([], s)
  | op :: ops, s =>
    ((pSplayExec s op).1 :: (pSplayExecs ops (pSplayExec s op).2).1, (pSplayExecs ops (pSplayExec s op).2).2)

end Extra
