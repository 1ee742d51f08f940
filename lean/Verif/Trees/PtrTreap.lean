import Verif.Trees.PtrTree
import Verif.Trees.Treap

/-!
# `Treap` on node objects — /repo/extra/trees/treap.py

The extension of a node is its `_priority`; `minusOne` is the code's `-1` (see Treap.lean).  The assignments to
the links are in the code's order (see PtrTree.lean).
-/

namespace Extra
variable {N P : Type} [LinearOrder N] [LinearOrder P]

/-- `node.get_priority()` — treap.py:90 -/
def pPriority (p : Option Addr) : PM N P P := do return (← pNode p).ext

/-- the loop of `insert` — treap.py:482-493 -/
def pTreapUp : Nat → Option Addr → Option Addr → PM N P Unit
  | 0, _, _ => PM.throw .diverge
  | n + 1, new, parent => do
    if parent.isNone then return ()
    else do
      let grandParent ← pParent parent
      let pp ← pPriority parent
      let np ← pPriority new
      if pp > np then return ()
      else do
        let left ← pIsLeftChild new
        let top ← if left then pRotateRight (plainClass P) parent else pRotateLeft (plainClass P) parent
        pAttach (plainClass P) grandParent top
        pTreapUp n top grandParent

/-- `insert` into a treap that is not empty — treap.py:477-493 -/
def pTreapInsert (x : P) (v : N) : PM N P (Option Addr) := do
  let node ← pInsert (plainClass P) x (← pFuel) v
  let parent ← pParent node
  pTreapUp (← pFuel) node parent
  return node

/-- `insert` — treap.py:470-493 -/
def pTreapInsertNum (v : NumArg N) (p : TreapPrio P) : PM N P (BstVal N) :=
  match validNum v, p.value with
  | .error e, _ => PM.throw e
  | .ok _, .error e => PM.throw e
  | .ok v, .ok x => pInsertNum (pTreapInsert x) x (.num v)

/-- the priority of a child, `-1` if there is none — treap.py:562-567 -/
def pChildPriority (minusOne : P) (p : Option Addr) : PM N P P :=
  if p.isSome then pPriority p else PM.pure minusOne

/-- the loop of `remove`: the variables `parent` and `removed_node` after it — treap.py:558-578 -/
def pTreapDown (minusOne : P) : Nat → Option Addr → Option Addr → PM N P (Option Addr × Option Addr)
  | 0, _, _ => PM.throw .diverge
  | n + 1, parent, removed => do
    if ← pIsLeaf removed then return (parent, removed)
    else do
      let left ← pLeft removed
      let right ← pRight removed
      let lp ← pChildPriority minusOne left
      let rp ← pChildPriority minusOne right
      if lp > rp then do
        let top ← pRotateRight (plainClass P) removed
        pAttach (plainClass P) parent top
        pTreapDown minusOne n top (← pRight top)
      else do
        let top ← pRotateLeft (plainClass P) removed
        pAttach (plainClass P) parent top
        pTreapDown minusOne n top (← pLeft top)

/-- `remove` from a treap with more than one node or another value — treap.py:548-585 -/
def pTreapRemove (minusOne : P) (v : N) : PM N P Unit := do
  let removed ← pSearch v (← pFuel) (← pRoot)
  let d ← pData removed
  if d ≠ v then pWarn
  else do
    let parent ← pParent removed
    let (parent, removed) ← pTreapDown minusOne (← pFuel) parent removed
    if ← pIsLeftChild removed then pSetLeft (plainClass P) parent none
    else pSetRight (plainClass P) parent none
    pAddLength (-1)

/-- one call on a `Treap` — treap.py:276, :330, :361, :396, :533-545, :608, :1015 and the definitions above -/
def pTreapExec (minusOne : P) (s : PTree N P) : TreapOp N P → BstRes N × PTree N P
  | .insert v p => pCall (pTreapInsertNum v p) s
  | .remove v => pCall (pRemoveNum (pTreapRemove minusOne) v) s
  | .contains v => pCall (pContains v) s
  | .getMin => pCall pGetMin s
  | .getMax => pCall pGetMax s
  | .len => pCall (fun s => (.ok (.int s.length), s)) s
  | .inorder => pCall (do return .list (← pInorder (← pFuel) (← pRoot))) s
  | .clear => pCall pClear s

/-- a history of calls; it goes on after an exception, with the objects as they are then -/
def pTreapExecs (minusOne : P) : List (TreapOp N P) → PTree N P → List (BstRes N) × PTree N P
  | [], s => ([], s)
  | op :: ops, s =>
    ((pTreapExec minusOne s op).1 :: (pTreapExecs minusOne ops (pTreapExec minusOne s op).2).1,
      (pTreapExecs minusOne ops (pTreapExec minusOne s op).2).2)

end Extra
