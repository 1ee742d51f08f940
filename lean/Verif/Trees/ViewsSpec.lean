import Verif.Trees.BstReads

/-!
# What the read methods of one search tree should say

`Views` says how the answers of one object fit together.  It mentions the answers only: not the tree, not the
way they are found.
-/

namespace Extra
variable {N : Type}

/-- The answers of one object that holds the numbers `ks`, in the order of `inorder_traverse`: `rows` are its
levels, `pre` and `post` two more traversals, `h` the height and `n` the number of leaves. -/
structure Views (read : ReadOp → ReadRes N) (ks : List N) (rows : List (List N)) (pre post : List N)
    (h n : Nat) : Prop where
  isEmpty : read .isEmpty = .ok (.bool (ks.length == 0), false)
  inorder : read .inorder = .ok (.list ks, false)
  levels : read .levels = .ok (.rows rows, false)
  preorder : read .preorder = .ok (.list pre, false)
  postorder : read .postorder = .ok (.list post, false)
  height : read .height = .ok (.int h, false)
  leaves : read .leaves = .ok (.int n, false)
  depth : read .depth = .ok (.int 0, false)
  depthFirst : read .depthFirst = .ok (.list pre, false)
  breadthFirst : read .breadthFirst = .ok (.list rows.flatten, false)
  toList : read .toList = .ok (.list rows.flatten, false)
  iter : read .iter = .ok (.list rows.flatten, false)
  /-- the three other traversals are rearrangements of the first -/
  perms : pre.Perm ks ∧ post.Perm ks ∧ rows.flatten.Perm ks
  /-- the root comes first in preorder and breadth first, and last in postorder -/
  root : pre.head? = rows.flatten.head? ∧ post.getLast? = rows.flatten.head?
  /-- there is one level more than the height says, and none in the empty tree -/
  heights : (ks ≠ [] → rows.length = h + 1) ∧ (ks = [] → rows = [] ∧ h = 0)
  /-- no level is empty, and none has more than twice as many nodes as the one above -/
  widths : (∀ row ∈ rows, row ≠ []) ∧ ∀ (i : Nat) (a b : List N), rows[i]? = some a → rows[i + 1]? = some b → b.length ≤ 2 * a.length
  /-- the side views are the first and the last of each level -/
  views : read .leftView = .ok (.list (rows.filterMap List.head?), false) ∧
    read .rightView = .ok (.list (rows.filterMap List.getLast?), false)
  /-- at most every second node, rounded up, is a leaf, and there is one if there is a node -/
  someLeaves : 2 * n ≤ ks.length + 1 ∧ (ks ≠ [] → 1 ≤ n) ∧ (ks = [] → n = 0)
  /-- the tree is perfect exactly if it has the largest number of nodes for its height -/
  perfect : (ks = [] → read .isPerfect = .ok (.bool true, true)) ∧
    (ks ≠ [] → read .isPerfect = .ok (.bool (decide (ks.length + 1 = 2 ^ (h + 1))), false))
  /-- the tree is strict exactly if it has the largest number of leaves for its nodes -/
  strict : (ks = [] → read .isStrict = .ok (.bool true, true)) ∧
    (ks ≠ [] → read .isStrict = .ok (.bool (decide (2 * n = ks.length + 1)), false))
  /-- `traverse` takes five names in any case, and gives the traversals named -/
  traverse : ∀ s : String, read (.traverse (.str s)) =
    (if s.toLower = "inorder" then read .inorder
    else if s.toLower = "postorder" then read .postorder
    else if s.toLower = "preorder" ∨ s.toLower = "depth-first" then read .preorder
    else if s.toLower = "breadth-first" then read .breadthFirst
    else .error .valueError)
  traverseOther : read (.traverse .other) = .error .typeError

end Extra
