import Verif.Lists.Heap

/-!
# Lists of values that need not be equal to themselves — /repo/extra/lists/linked_list.py

LinkedList.lean takes `==` between values to be equality.  For `nan`, and for objects whose class defines `__eq__`, it is
not: `nan == nan` is false.  Here are the functions of `LinkedList` that compare values (`DoublyLinkedList` and
`CircularLinkedList` take them over, but for `in` of the latter), on the contents of the list, for any
`eq`.  Two values are the same object if they are equal in Lean.  `!=` is taken to be the opposite of `==`.
-/

namespace Extra
variable {V : Type}

/-- `_search`, from a node with value `x` before nodes with values `xs`: the value of the node returned —
linked_list.py:926-931 -/
def objSearch (eq : V → V → Bool) (value : V) : V → List V → V
  | x, [] => x
  | x, y :: ys => if eq x value then x else objSearch eq value y ys

/-- `value in ll`, for a value that is not `None` — linked_list.py:960-965 -/
def objContains (eq : V → V → Bool) (value : V) : List V → Bool
  | [] => false
  | x :: xs => eq (objSearch eq value x xs) value

/-- `value in cll`, for a `CircularLinkedList` — circular_linked_list.py:548-551 -/
def objContainsCll (eq : V → V → Bool) (value : V) : List V → Bool
  | [] => false
  | x :: xs => if eq x value then true else objContainsCll eq value xs

/-- `count`, for a value that is not a node — linked_list.py:2203-2209 -/
def objCount (eq : V → V → Bool) (value : V) : List V → Nat → Nat
  | [], total => total
  | x :: xs, total => objCount eq value xs (if eq x value then total + 1 else total)

/-- `_remove_value`: the values still to look at, and whether one was removed — linked_list.py:1705-1715 -/
def objRemoveLoop (eq : V → V → Bool) (value : V) (all : Bool) : List V → Bool → List V
  | [], _ => []
  | x :: xs, found =>
    if !all && found then x :: xs
    else if eq x value then objRemoveLoop eq value all xs true
    else x :: objRemoveLoop eq value all xs found

/-- `remove(value, all)` — linked_list.py:1758-1761, :1700-1704 -/
def objRemove (eq : V → V → Bool) (value : V) (all : Bool) (xs : List V) : List V :=
  objRemoveLoop eq value all xs false

/-- the loop of `_compare`: how far it comes, and `all_equal` — linked_list.py:518-539 -/
def objCompare (eq op : V → V → Bool) : List V → List V → Nat → Bool → Nat × Bool
  | x :: xs, y :: ys, counter, allEqual =>
    if eq x y then objCompare eq op xs ys (counter + 1) allEqual
    else if op x y then objCompare eq op xs ys (counter + 1) false
    else (counter, false)
  | _, _, counter, allEqual => (counter, allEqual)

/-- `__eq__` — linked_list.py:584-587 -/
def objEq (eq : V → V → Bool) (xs ys : List V) : Bool :=
  if xs.length ≠ ys.length then false
  else decide ((objCompare eq eq xs ys 0 true).1 = xs.length)

/-- `__ne__` — linked_list.py:632-635 -/
def objNe (eq : V → V → Bool) (xs ys : List V) : Bool :=
  if xs.length ≠ ys.length then true
  else !decide ((objCompare eq eq xs ys 0 true).1 = xs.length)

end Extra
