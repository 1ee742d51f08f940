import Verif.Trees.Zipper

/-!
# `RedBlackTree` — /repo/extra/trees/red_black_tree.py

The extension of a node is its `_color`.  `__recolor` and `__handle_double_black` follow parent links; they
are modelled on a node with the nodes above it (Verif/Trees/Zipper.lean).  `is_left_child`, `_attach` and
the like compare numbers: where the answer is not the side the child is on, the result is
`Err.unmodelled` (in a search tree this does not happen).  An exception in the middle of a call ends the
history: the half-changed object is not modelled.
-/

namespace Extra
variable {N V : Type} [LinearOrder N]

/-- `Color` — red_black_tree.py:44-46 -/
inductive Color
  | black
  | red
  deriving DecidableEq

/-- the node is there and red — red_black_tree.py:522, :706, :719-724 -/
def BTree.isRed : BTree (N × Color) → Bool
  | .node _ (_, .red) _ => true
  | _ => false

/-- `set_color(Color.BLACK)` of the node, if there is one — red_black_tree.py:113 -/
def BTree.blacken : BTree (N × Color) → BTree (N × Color)
  | .nil => .nil
  | .node l w r => .node l (w.1, .black) r

/-- the nearest node above, if any, gets the child back on the side it came from: comparing numbers says
so — bst.py:1262-1265, red_black_tree.py:534-538 -/
def attachOk (fs : List (Above N Color)) (c : N) : Bool :=
  match fs with
  | [] => true
  | f :: _ => sideOk f c

/-! ## Insertion -/

/-- `__recolor` of the node `x` with children `a` and `b`, and `__recolor_case3`; the tree of the node
returned, which is the root — red_black_tree.py:448-478, :508-540, bst.py:162-172 -/
def rbRecolor (a : BTree (N × Color)) (x : N × Color) (b : BTree (N × Color)) :
    List (Above N Color) → Except Err (BTree (N × Color))
  | [] => .ok (.node a x b)
  | [f] => .ok (plug (.node a x b) [f])
  | f :: g :: fs =>
    if f.w.2 = .black then .ok (plug (.node a x b) (f :: g :: fs))
    else if sideOk g f.w.1 = false then .error .unmodelled
    else if g.other.isRed then
      match g.left, f.left with
      | true, true => rbRecolor (.node (.node a x b) (f.w.1, .black) f.other) (g.w.1, .red) g.other.blacken fs
      | true, false => rbRecolor (.node f.other (f.w.1, .black) (.node a x b)) (g.w.1, .red) g.other.blacken fs
      | false, true => rbRecolor g.other.blacken (g.w.1, .red) (.node (.node a x b) (f.w.1, .black) f.other) fs
      | false, false => rbRecolor g.other.blacken (g.w.1, .red) (.node f.other (f.w.1, .black) (.node a x b)) fs
    else if sideOk f x.1 = false then .error .unmodelled
    else
      match g.left, f.left with
      | true, true =>
        if attachOk fs f.w.1 then
          rbRecolor (.node a x b) (f.w.1, .black) (.node f.other (g.w.1, .red) g.other) fs
        else .error .unmodelled
      | true, false =>
        if attachOk fs x.1 then
          rbRecolor (.node f.other f.w a) (x.1, .black) (.node b (g.w.1, .red) g.other) fs
        else .error .unmodelled
      | false, true =>
        if attachOk fs x.1 then
          rbRecolor (.node g.other (g.w.1, .red) a) (x.1, .black) (.node b f.w f.other) fs
        else .error .unmodelled
      | false, false =>
        if attachOk fs f.w.1 then
          rbRecolor (.node g.other (g.w.1, .red) f.other) (f.w.1, .black) (.node a x b) fs
        else .error .unmodelled

/-- `insert` of a number: the object and whether it warns — red_black_tree.py:573-584, bst.py:694-713,
:740-744, :766-774 -/
def rbInsertNum (t : Bst N Color) (v : N) : Except Err (Bst N Color × Bool) :=
  match t.root with
  | .nil => .ok (⟨.node .nil (v, .black) .nil, t.length + 1⟩, false)
  | .node l w r =>
    let res := (BTree.node l w r).insertNode (v, .red)
    match res.1.descend ((BTree.node l w r).insertPath v) [] with
    | (.nil, _) => .error .assertionError
    | (.node a x b, fs) => do
      let s ← rbRecolor a x b fs
      pure (⟨s.blacken, if res.2 then t.length + 1 else t.length⟩, !res.2)

/-! ## Removal -/

/-- `_transplant(node, replacement)` from the second call on, seen from the subtree of `node`:
`RedBlackNode.swap` exchanges numbers and colours — bst.py:887-902, red_black_tree.py:202-203 -/
def BTree.sinkAll : BTree V → BTree V
  | .nil => .nil
  | .node .nil _ .nil => .nil
  | .node (.node ll lv lr) _ r => .node (BTree.node ll lv lr).sinkAll lv r
  | .node .nil _ (.node rl rv rr) => .node .nil rv (BTree.node rl rv rr).sinkAll

/-- the minimum node of a subtree gives its number and colour away and sinks — bst.py:524-527, :894-902 -/
def BTree.takeMinAll : BTree V → Option (V × BTree V)
  | .nil => none
  | .node .nil w r => some (w, (BTree.node .nil w r).sinkAll)
  | .node (.node ll lv lr) w r =>
    match (BTree.node ll lv lr).takeMinAll with
    | none => none
    | some (m, l') => some (m, .node l' w r)

/-- the same for the maximum node — bst.py:455-458, :894-902 -/
def BTree.takeMaxAll : BTree V → Option (V × BTree V)
  | .nil => none
  | .node l w .nil => some (w, (BTree.node l w .nil).sinkAll)
  | .node l w (.node rl rv rr) =>
    match (BTree.node rl rv rr).takeMaxAll with
    | none => none
    | some (m, r') => some (m, .node l w r')

/-- which node `_find_replacement` chooses -/
inductive Choice
  | none
  | successor
  | predecessor
  deriving DecidableEq

/-- `_find_replacement` of a node with the given children — red_black_tree.py:634-656 -/
def rbChoice (l r : BTree (N × Color)) : Choice :=
  match r.minNode, l.maxNode with
  | none, none => .none
  | some (_, .red), _ => .successor
  | _, some (_, .red) => .predecessor
  | some (_, .black), _ => .successor
  | none, some (_, .black) => .predecessor

/-- what `_transplant` of a node and its replacement makes of the subtree, and the colour of the
replacement — bst.py:887-902 -/
def rbTransplant (l r : BTree (N × Color)) : Choice → Option (BTree (N × Color) × Option Color)
  | .none => some (.nil, none)
  | .successor =>
    match r.takeMinAll with
    | none => none
    | some (m, r') => some (.node l m r', some m.2)
  | .predecessor =>
    match l.takeMaxAll with
    | none => none
    | some (m, l') => some (.node l' m r, some m.2)

/-- the way from a node to its replacement -/
def rbReplacementPath (l r : BTree (N × Color)) : Choice → List Bool
  | .none => []
  | .successor => true :: r.minPath
  | .predecessor => false :: l.maxPath

/-- `double_black_node`: `None`, or the left or right child of `parent`, or `parent` itself -/
inductive Dbn
  | none
  | left
  | right
  | parent
  deriving DecidableEq

/-- after one round of the loop: the tree, if `double_black_node` is the root now; otherwise `parent` with
its children and the nodes above it, and `double_black_node` is `parent` -/
inductive DbStep (N : Type)
  | done (t : BTree (N × Color))
  | again (l : BTree (N × Color)) (x : N × Color) (r : BTree (N × Color)) (fs : List (Above N Color))

/-- the left side, from the look at the children of the sibling on — red_black_tree.py:716-746 -/
def rbFixLeft (l : BTree (N × Color)) (x : N × Color) (r : BTree (N × Color)) (fs : List (Above N Color)) :
    Except Err (DbStep N) :=
  match r with
  | .nil => .error .attributeError
  | .node a s b =>
    if a.isRed = false ∧ b.isRed = false then .ok (.again l x (.node a (s.1, .red) b) fs)
    else if b.isRed then
      if attachOk fs s.1 then
        .ok (.done (plug (.node (.node l (x.1, .black) a) (s.1, x.2) b.blacken) fs))
      else .error .unmodelled
    else
      match a with
      | .nil => .error .attributeError
      | .node aa u ab =>
        if sideOk (⟨false, x, l⟩ : Above N Color) u.1 ∧ attachOk fs u.1 then
          .ok (.done (plug (.node (.node l (x.1, .black) aa) (u.1, x.2)
            (.node ab (s.1, .black) b)) fs))
        else .error .unmodelled

/-- the left side — red_black_tree.py:704-746 -/
def rbLeft (l : BTree (N × Color)) (x : N × Color) (r : BTree (N × Color)) (fs : List (Above N Color)) :
    Except Err (DbStep N) :=
  match r with
  | .node sl (s, .red) sr =>
    if attachOk fs s then rbFixLeft l (x.1, .red) sl (⟨true, (s, .black), sr⟩ :: fs)
    else .error .unmodelled
  | r => rbFixLeft l x r fs

/-- the right side, from the look at the children of the sibling on; the condition of case III looks at
the right one only — red_black_tree.py:762-792 -/
def rbFixRight (l : BTree (N × Color)) (x : N × Color) (r : BTree (N × Color)) (fs : List (Above N Color)) :
    Except Err (DbStep N) :=
  match l with
  | .nil => .error .attributeError
  | .node a s b =>
    if b.isRed = false ∧ b.isRed = false then .ok (.again (.node a (s.1, .red) b) x r fs)
    else if a.isRed then
      if attachOk fs s.1 then
        .ok (.done (plug (.node a.blacken (s.1, x.2) (.node b (x.1, .black) r)) fs))
      else .error .unmodelled
    else
      match b with
      | .nil => .error .attributeError
      | .node ba u bb =>
        if sideOk (⟨true, x, r⟩ : Above N Color) u.1 ∧ attachOk fs u.1 then
          .ok (.done (plug (.node (.node a (s.1, .black) ba) (u.1, x.2)
            (.node bb (x.1, .black) r)) fs))
        else .error .unmodelled

/-- the right side — red_black_tree.py:750-792 -/
def rbRight (l : BTree (N × Color)) (x : N × Color) (r : BTree (N × Color)) (fs : List (Above N Color)) :
    Except Err (DbStep N) :=
  match l with
  | .node sl (s, .red) sr =>
    if attachOk fs s then rbFixRight sr (x.1, .red) r (⟨false, (s, .black), sl⟩ :: fs)
    else .error .unmodelled
  | l => rbFixRight l x r fs

/-- the condition of the loop does not hold: `double_black_node` is the root or red —
red_black_tree.py:698-701 -/
def dbStops (l : BTree (N × Color)) (x : N × Color) (r : BTree (N × Color)) (fs : List (Above N Color)) :
    Dbn → Bool
  | .none => false
  | .left => l.isRed
  | .right => r.isRed
  | .parent => fs.isEmpty || decide (x.2 = .red)

/-- `double_black_node == parent.get_left()` — red_black_tree.py:703 -/
def dbIsLeft (l : BTree (N × Color)) : Dbn → Bool
  | .none => match l with | .nil => true | .node _ _ _ => false
  | .left => true
  | .right => false
  | .parent => false

/-- the loop of `__handle_double_black`: `parent` is `x` with children `l` and `r`.  The first argument
bounds the number of rounds — red_black_tree.py:698-792 -/
def rbDouble : Nat → BTree (N × Color) → N × Color → BTree (N × Color) → List (Above N Color) → Dbn →
    Except Err (BTree (N × Color))
  | 0, _, _, _, _, _ => .error .diverge
  | n + 1, l, x, r, fs, d =>
    if dbStops l x r fs d then .ok (plug (.node l x r) fs)
    else do
      match ← (if dbIsLeft l d then rbLeft l x r fs else rbRight l x r fs) with
      | .done t => pure t
      | .again l' x' r' fs' => rbDouble n l' x' r' fs' .parent

/-- enough rounds: after the first one `double_black_node` is `parent`, and then there are at most two -/
def rbRounds : Nat := 5

/-- `double_black_node` after the transplant: the child of `parent` on the side where the number of the
replacement belongs — red_black_tree.py:898-907 -/
def rbDbn (replacement : Option N) (l : BTree (N × Color)) (x : N × Color) (r : BTree (N × Color)) : Dbn :=
  match replacement with
  | none => .none
  | some v =>
    if v < x.1 then (match l with | .nil => .none | .node _ _ _ => .left)
    else (match r with | .nil => .none | .node _ _ _ => .right)

/-- case III of `remove`: the node at the path `p` holds `v`, has children `l` and `r` and is replaced
by `s` — red_black_tree.py:891-909 -/
def rbCase3 (v : N) (t : BTree (N × Color)) (p : List Bool) (l r : BTree (N × Color)) (c : Choice)
    (s : BTree (N × Color)) : Except Err (BTree (N × Color)) :=
  let rpath := p ++ rbReplacementPath l r c
  let t' := t.replace p s
  let number := match c with
    | .none => none
    | _ => some ((t'.dataAt rpath).getD v)
  match t'.descend rpath.dropLast [] with
  | (.nil, _) => .error .attributeError
  | (.node a x b, fs) => do
    let u ← rbDouble rbRounds a x b fs (rbDbn number a x b)
    pure u.blacken

/-- `remove` of a number from a tree that is neither empty nor a leaf with this number: the answer and
the new tree — red_black_tree.py:859-920 -/
def rbRemoveTree (v : N) (t : BTree (N × Color)) : Except Err (BstRes N × BTree (N × Color)) :=
  let p := t.search v
  match t.walk p with
  | .nil => .error .attributeError
  | .node l x r =>
    if x.1 ≠ v then .ok (.ok (.unit, true), t)
    else
      match rbTransplant l r (rbChoice l r), x.2 with
      | none, _ => .error .attributeError
      | some (s, none), .red => .ok (.ok (.unit, false), t.replace p s)
      | some (s, some .red), .red => .ok (.ok (.unit, false), t.replace p s)
      | some (_, some .black), .red => .ok (.error .valueError, t)
      | some (s, some .red), .black => .ok (.ok (.unit, false), t.replace p s.blacken)
      | some (s, none), .black => do
        let u ← rbCase3 v t p l r (rbChoice l r) s
        pure (.ok (.unit, false), u)
      | some (s, some .black), .black => do
        let u ← rbCase3 v t p l r (rbChoice l r) s
        pure (.ok (.unit, false), u)

/-- `remove` — red_black_tree.py:844-920 -/
def rbRemoveNum (t : Bst N Color) : NumArg N → Except Err (BstRes N × Bst N Color)
  | .num v =>
    match t.root with
    | .nil => .ok (.ok (.unit, true), t)
    | .node .nil w .nil =>
      if v = w.1 then .ok (.ok (.unit, false), ⟨.nil, t.length - 1⟩)
      else .ok (.ok (.unit, true), t)
    | .node l w r => do
      let (res, s) ← rbRemoveTree v (.node l w r)
      pure (res, ⟨s, match res with | .ok (_, false) => t.length - 1 | _ => t.length⟩)
  | _ => .ok (.ok (.unit, true), t)

/-! ## Calls -/

/-- the loop of `get_black_height`: black nodes going left — red_black_tree.py:974-978 -/
def BTree.leftBlacks : BTree (N × Color) → Nat
  | .nil => 0
  | .node l w _ => (if w.2 = .black then 1 else 0) + l.leftBlacks

/-- `get_black_height` — red_black_tree.py:973-980 -/
def rbBlackHeight : BTree (N × Color) → Except Err Nat
  | .nil => .error .attributeError
  | .node l _ _ => .ok (l.leftBlacks + 1)

/-- the calls on a `RedBlackTree` -/
inductive RbOp (N : Type)
  | insert (v : NumArg N)
  | remove (v : NumArg N)
  | contains (v : NumArg N)
  | getMin
  | getMax
  | len
  | inorder
  | blackHeight
  | clear
  deriving DecidableEq

/-- one call; the outer `Except` is an exception from the middle of a call — red_black_tree.py:299, :355,
:386, :421, :573, :944, :1364 and the definitions above -/
def rbExec (t : Bst N Color) : RbOp N → Except Err (BstRes N × Bst N Color)
  | .insert v =>
    match validNum v with
    | .error e => .ok (.error e, t)
    | .ok v => do
      let (t', w) ← rbInsertNum t v
      pure (.ok (.unit, w), t')
  | .remove v => rbRemoveNum t v
  | .contains v => .ok (.ok (.bool (t.contains v), false), t)
  | .getMin => .ok (t.getMin.map (fun m => (.num m, false)), t)
  | .getMax => .ok (t.getMax.map (fun m => (.num m, false)), t)
  | .len => .ok (.ok (.int t.length, false), t)
  | .inorder => .ok (.ok (.list t.root.keys, false), t)
  | .blackHeight => .ok ((rbBlackHeight t.root).map (fun h => (.int h, false)), t)
  | .clear => .ok (.ok (.unit, false), Bst.empty)

/-- a history of calls -/
def rbExecs : List (RbOp N) → Bst N Color → Except Err (List (BstRes N) × Bst N Color)
  | [], t => .ok ([], t)
  | op :: ops, t => do
    let (r, t') ← rbExec t op
    let (rs, t'') ← rbExecs ops t'
    pure (r :: rs, t'')

end Extra
