import Verif.Trees.PtrTree
import Verif.Trees.RedBlack

/-!
# `RedBlackTree` on node objects — /repo/extra/trees/red_black_tree.py

The extension of a node is its `_color`.  The assignments to the links are in the code's order (see PtrTree.lean).
-/

namespace Extra
variable {N : Type} [LinearOrder N]

/-- `RedBlackNode`: `swap` exchanges the colours as well — red_black_tree.py:49-203 -/
def rbClass : PClass Color := ⟨fun _ _ x => x, true⟩

/-- `node.get_color()` — red_black_tree.py:95 -/
def pColor (p : Option Addr) : PM N Color Color := do return (← pNode p).ext

/-- `node.set_color(c)` — red_black_tree.py:113 -/
def pSetColor (p : Option Addr) (c : Color) : PM N Color Unit := pSetNode p fun n => { n with ext := c }

/-- `node and node.get_color() == Color.RED` — red_black_tree.py:522, :706, :752 -/
def pIsRed (p : Option Addr) : PM N Color Bool :=
  if p.isSome then do return decide ((← pColor p) = .red) else PM.pure false

/-- `node.get_color() if node else Color.BLACK` — red_black_tree.py:719-724, :765-770 -/
def pColorOrBlack (p : Option Addr) : PM N Color Color :=
  if p.isSome then pColor p else PM.pure .black

/-! ## Insertion -/

/-- `__recolor_case3` — red_black_tree.py:445-478 -/
def pRecolorCase3 (start : Option Addr) : PM N Color (Option Addr) := do
  pAssert start
  let parent ← pParent start
  let grand ← if parent.isSome then pParent parent else PM.pure none
  let parentLeft ← pIsLeftChild parent
  let startLeft ← pIsLeftChild start
  if parentLeft ∧ startLeft then do
    pSetColor grand .red
    pSetColor parent .black
    pRotateRight rbClass grand
  else if parentLeft then do
    let parent ← pRotateLeft rbClass parent
    pSetLeft rbClass grand parent
    pSetColor grand .red
    let grand ← pRotateRight rbClass grand
    pSetColor grand .black
    return grand
  else if startLeft then do
    let parent ← pRotateRight rbClass parent
    pSetRight rbClass grand parent
    pSetColor grand .red
    let grand ← pRotateLeft rbClass grand
    pSetColor grand .black
    return grand
  else do
    pSetColor grand .red
    pSetColor parent .black
    pRotateLeft rbClass grand

/-- cases II and III of `__recolor`: the node from which it goes on — red_black_tree.py:522-538 -/
def pRecolorStep (start parent grand uncle : Option Addr) : PM N Color (Option Addr) := do
  if ← pIsRed uncle then do
    pSetColor parent .black
    pSetColor uncle .black
    pSetColor grand .red
    return grand
  else do
    let great ← pParent grand
    let grand ← pRecolorCase3 start
    if great.isSome then do
      let d ← pData great
      let e ← pData grand
      if d > e then pSetLeft rbClass great grand else pSetRight rbClass great grand
      return grand
    else return grand

/-- `__recolor` — red_black_tree.py:505-540 -/
def pRecolor : Nat → Option Addr → PM N Color (Option Addr)
  | 0, _ => PM.throw .diverge
  | n + 1, start => do
    pAssert start
    let uncle ← pUncle start
    let parent ← pParent start
    let grand ← if parent.isSome then pParent parent else PM.pure none
    if parent.isNone ∨ grand.isNone then return (if parent.isSome then parent else start)
    else do
      let c ← pColor parent
      if c = .black then pRoot
      else do
        let top ← pRecolorStep start parent grand uncle
        pRecolor n top

/-- `insert` — red_black_tree.py:573-584 -/
def pRbInsertNum : NumArg N → PM N Color (BstVal N)
  | .none => PM.throw .valueError
  | .other => PM.throw .typeError
  | .num v => do
    let root ← pRoot
    if root.isNone then do
      pSetRoot (← pNew v .red)
      pSetColor (← pRoot) .black
      pAddLength 1
      return .unit
    else do
      let node ← pInsert rbClass .red (← pFuel) v
      pSetRoot (← pRecolor (← pFuel) node)
      pSetColor (← pRoot) .black
      return .unit

/-! ## Removal -/

/-- `_find_replacement` — red_black_tree.py:633-656 -/
def pRbFindReplacement (fuel : Nat) (p : Option Addr) : PM N Color (Option Addr) := do
  pAssert p
  if ← pIsLeaf p then return none
  else do
    let r ← pRight p
    let successor ← (if r.isSome then pMinNode fuel r else PM.pure none)
    let l ← pLeft p
    let predecessor ← (if l.isSome then pMaxNode fuel l else PM.pure none)
    if ← pIsRed successor then return successor
    else if ← pIsRed predecessor then return predecessor
    else return (if successor.isSome then successor else predecessor)

/-- the left side of the loop of `__handle_double_black`, from the look at the children of the sibling on: the new
`double_black_node` — red_black_tree.py:716-746 -/
def pFixLeft (parent sibling : Option Addr) : PM N Color (Option Addr) := do
  let sl ← pLeft sibling
  let sr ← pRight sibling
  let slc ← pColorOrBlack sl
  let src ← pColorOrBlack sr
  if slc = .black ∧ src = .black then do
    pSetColor sibling .red
    return parent
  else do
    let sibling ← (if src = .black then do
        pSetColor sl .black
        pSetColor sibling .red
        let top ← pRotateRight rbClass sibling
        pAttach rbClass parent top
        pRight parent
      else PM.pure sibling)
    pSetColor sibling (← pColor parent)
    pSetColor parent .black
    let sr ← pRight sibling
    pSetColor sr .black
    let grand ← pParent parent
    let top ← pRotateLeft rbClass parent
    pAttach rbClass grand top
    pRoot

/-- the right side, from the look at the children of the sibling on; the condition of case III looks at the colour
of the right one twice — red_black_tree.py:762-792 -/
def pFixRight (parent sibling : Option Addr) : PM N Color (Option Addr) := do
  let sl ← pLeft sibling
  let sr ← pRight sibling
  let slc ← pColorOrBlack sl
  let src ← pColorOrBlack sr
  if src = .black ∧ src = .black then do
    pSetColor sibling .red
    return parent
  else do
    let sibling ← (if slc = .black then do
        pSetColor sr .black
        pSetColor sibling .red
        let top ← pRotateLeft rbClass sibling
        pAttach rbClass parent top
        pLeft parent
      else PM.pure sibling)
    pSetColor sibling (← pColor parent)
    pSetColor parent .black
    let sl ← pLeft sibling
    pSetColor sl .black
    let grand ← pParent parent
    let top ← pRotateRight rbClass parent
    pAttach rbClass grand top
    pRoot

/-- case IV of the left side: `parent` and `sibling` — red_black_tree.py:704-714 -/
def pSiblingLeft (parent : Option Addr) : PM N Color (Option Addr × Option Addr) := do
  let sibling ← pRight parent
  if ← pIsRed sibling then do
    pSetColor sibling .black
    pSetColor parent .red
    let grand ← pParent parent
    let top ← pRotateLeft rbClass parent
    pAttach rbClass grand top
    let parent ← pLeft top
    let sibling ← pRight parent
    return (parent, sibling)
  else return (parent, sibling)

/-- case IV of the right side — red_black_tree.py:750-760 -/
def pSiblingRight (parent : Option Addr) : PM N Color (Option Addr × Option Addr) := do
  let sibling ← pLeft parent
  if ← pIsRed sibling then do
    pSetColor sibling .black
    pSetColor parent .red
    let grand ← pParent parent
    let top ← pRotateRight rbClass parent
    pAttach rbClass grand top
    let parent ← pRight top
    let sibling ← pLeft parent
    return (parent, sibling)
  else return (parent, sibling)

/-- the condition of the loop does not hold — red_black_tree.py:698-701 -/
def pDbStops (dbn : Option Addr) : PM N Color Bool := do
  let root ← pRoot
  if dbn = root then return true
  else if dbn.isNone then return false
  else return decide ((← pColor dbn) ≠ .black)

/-- the loop of `__handle_double_black` — red_black_tree.py:698-792.  After case II the code leaves `parent` at
the node rotated up; that is not seen, because `double_black_node` is the root then. -/
def pDbLoop : Nat → Option Addr → Option Addr → PM N Color Unit
  | 0, _, _ => PM.throw .diverge
  | n + 1, parent, dbn => do
    if ← pDbStops dbn then return ()
    else do
      let l ← pLeft parent
      if dbn = l then do
        let x ← pSiblingLeft parent
        let dbn ← pFixLeft x.1 x.2
        pDbLoop n x.1 dbn
      else do
        let x ← pSiblingRight parent
        let dbn ← pFixRight x.1 x.2
        pDbLoop n x.1 dbn

/-- `__handle_double_black` — red_black_tree.py:692-794.  For the number of rounds see `rbRounds`. -/
def pHandleDouble (fuel : Nat) (parent dbn : Option Addr) : PM N Color Unit := do
  pAssert parent
  pDbLoop fuel parent dbn
  pSetColor (← pRoot) .black

/-- `double_black_node` after the transplant — red_black_tree.py:898-907 -/
def pDbn (parent replacement : Option Addr) : PM N Color (Option Addr) := do
  if replacement.isNone then do
    let l ← pLeft parent
    if l.isNone then return l else pRight parent
  else do
    let d ← pData replacement
    let e ← pData parent
    if d < e then pLeft parent else pRight parent

/-- `replacement is None or replacement.get_color() == c` — red_black_tree.py:873, :888 -/
def pNoneOr (p : Option Addr) (c : Color) : PM N Color Bool :=
  if p.isSome then do return decide ((← pColor p) = c) else PM.pure true

/-- the case distinction of `remove` — red_black_tree.py:871-919 -/
def pRbReplaceCases (removed replacement : Option Addr) : PM N Color Unit := do
  let c ← pColor removed
  if c = .red then do
    if ← pNoneOr replacement .red then do
      let fuel ← pFuel
      pTransplant rbClass fuel removed replacement
    else PM.throw .valueError
  else do
    if ← pNoneOr replacement .black then do
      let parent ← (if replacement.isSome then pParent replacement else pParent removed)
      let fuel ← pFuel
      pTransplant rbClass fuel removed replacement
      let dbn ← pDbn parent replacement
      pHandleDouble (rbRounds + 1) parent dbn
    else do
      pSetColor replacement .black
      let fuel ← pFuel
      pTransplant rbClass fuel removed replacement

/-- the case distinction and `self._length -= 1` — red_black_tree.py:871-920 -/
def pRbReplace (removed replacement : Option Addr) : PM N Color Unit := do
  pRbReplaceCases removed replacement
  pAddLength (-1)

/-- `remove` from a tree with more than one node or another value — red_black_tree.py:859-920 -/
def pRbRemove (v : N) : PM N Color Unit := do
  let removed ← pSearch v (← pFuel) (← pRoot)
  let d ← pData removed
  if d ≠ v then pWarn
  else do
    let replacement ← pRbFindReplacement (← pFuel) removed
    pRbReplace removed replacement

/-! ## Calls -/

/-- the loop of `get_black_height` — red_black_tree.py:975-978 -/
def pLeftBlacks : Nat → Option Addr → PM N Color Nat
  | 0, _ => PM.throw .diverge
  | n + 1, p => do
    if p.isNone then return 0
    else do
      let c ← pColor p
      let l ← pLeft p
      let k ← pLeftBlacks n l
      return (if c = .black then 1 else 0) + k

/-- `get_black_height` — red_black_tree.py:973-980 -/
def pBlackHeight : PM N Color (BstVal N) := do
  let l ← pLeft (← pRoot)
  let k ← pLeftBlacks (← pFuel) l
  return .int (k + 1)

/-- one call on a `RedBlackTree` — red_black_tree.py:299, :355, :386, :421, :843-856, :944, :1364 and the
definitions above -/
def pRbExec (s : PTree N Color) : RbOp N → BstRes N × PTree N Color
  | .insert v => pCall (pRbInsertNum v) s
  | .remove v => pCall (pRemoveNum pRbRemove v) s
  | .contains v => pCall (pContains v) s
  | .getMin => pCall pGetMin s
  | .getMax => pCall pGetMax s
  | .len => pCall (fun s => (.ok (.int s.length), s)) s
  | .inorder => pCall (do return .list (← pInorder (← pFuel) (← pRoot))) s
  | .blackHeight => pCall pBlackHeight s
  | .clear => pCall pClear s

/-- a history of calls; it goes on after an exception, with the objects as they are then -/
def pRbExecs : List (RbOp N) → PTree N Color → List (BstRes N) × PTree N Color
  | [], s => ([], s)
  | op :: ops, s =>
    ((pRbExec s op).1 :: (pRbExecs ops (pRbExec s op).2).1, (pRbExecs ops (pRbExec s op).2).2)

end Extra
