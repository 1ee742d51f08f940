import Verif.Trees.BinHeap
import Verif.Trees.Draw
import Verif.Trees.RedBlack
import Mathlib.Order.WithBot

/-!
# The drawings of heaps, red-black trees and treaps

They are drawn by `BinaryTree.__repr__` (Verif/Trees/Draw.lean); the classes differ in the labels.  `str`
is Python's `str` of a number.
-/

namespace Extra
variable {N P : Type}

/-- Python's `str` of an `int` -/
def intStr : Int → List Char
  | .ofNat n => Nat.toDigits 10 n
  | .negSucc n => '-' :: Nat.toDigits 10 (n + 1)

/-- Python's `str` of an `int`, `-inf` or `inf` -/
def numStr : WithBot (WithTop Int) → List Char
  | none => "-inf".toList
  | some none => "inf".toList
  | some (some n) => intStr n

/-! ## Heaps -/

/-- the tree of a child, if there is one — binary_tree.py:519-520 -/
def heapKid (sub : Nat → Except Err (BTree N)) : Option Nat → Except Err (BTree N)
  | none => .ok .nil
  | some j => sub j

/-- the tree below node `i` of the nodes that `_transform` made, as `_print_subtree` reaches it through
`get_left` and `get_right` — binary_tree.py:171, :191, :519, :528-534; `fuel` bounds the depth -/
def heapSub (nodes : List (HNode N)) : Nat → Nat → Except Err (BTree N)
  | 0, _ => .error .diverge
  | fuel + 1, i =>
    match nodes[i]? with
    | none => .error .attributeError
    | some nd => do
      let l ← heapKid (heapSub nodes fuel) nd.left
      let r ← heapKid (heapSub nodes fuel) nd.right
      .ok (.node l nd.data r)

/-- `__repr__` of a heap — _heap.py:182-185, min_heap.py:172, max_heap.py:173; the label of a node is
`str` of its number — tree.py:249-262 -/
def bhRepr (str : N → List Char) (xs : List N) : Except Err (List Char) :=
  if xs.isEmpty then .ok ['/', ' ', '\\']
  else do
    let nodes ← transform xs
    let t ← heapSub nodes xs.length 0
    .ok (t.repr str)

/-! ## Labels with colours and priorities -/

/-- `RedBlackNode._represent` — red_black_tree.py:164-167 -/
def rbLabel (str : N → List Char) (x : N × Color) : List Char :=
  str x.1 ++ (match x.2 with | .red => ['|', 'R'] | .black => ['|', 'B'])

/-- `TreapNode._represent`; `showPrio` is `Treap.SHOW_PRIORITY` — treap.py:153-156 -/
def treapLabel (showPrio : Bool) (str : N → List Char) (strP : P → List Char) (x : N × P) : List Char :=
  if showPrio then str x.1 ++ ['|', 'P', ':'] ++ strP x.2 else str x.1

end Extra
