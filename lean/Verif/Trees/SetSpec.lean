import Verif.Trees.Bst

/-!
# Sorted sets: what the calls common to `BST`, `AVL`, `RedBlackTree` and `SplayTree` should answer

A set of numbers is the list of its members in increasing order.  Nothing here mentions trees.
-/

namespace Extra
variable {N : Type} [LinearOrder N]

/-- the calls common to the search trees, with numbers as arguments -/
inductive SetOp (N : Type)
  | insert (v : N)
  | remove (v : N)
  | contains (v : N)
  | getMin
  | getMax
  | len
  | inorder
  | clear
  deriving DecidableEq

/-- the set afterwards -/
def setAfter (m : List N) : SetOp N → List N
  | .insert v => m.filter (fun x => x < v) ++ v :: m.filter (fun x => v < x)
  | .remove v => m.filter (fun x => x ≠ v)
  | .clear => []
  | _ => m

/-- the answer: an insert of a member and a removal of a number that is no member give a warning, and the
smallest and the largest member of the empty set are an `IndexError` -/
def setAnswer (m : List N) : SetOp N → BstRes N
  | .insert v => .ok (.unit, decide (v ∈ m))
  | .remove v => .ok (.unit, decide (v ∉ m))
  | .contains v => .ok (.bool (decide (v ∈ m)), false)
  | .getMin =>
    match m.head? with
    | none => .error .indexError
    | some x => .ok (.num x, false)
  | .getMax =>
    match m.getLast? with
    | none => .error .indexError
    | some x => .ok (.num x, false)
  | .len => .ok (.int m.length, false)
  | .inorder => .ok (.list m, false)
  | .clear => .ok (.unit, false)

/-- an object of some class answers each of the calls as the set does -/
def AnswersAs {S : Type} (exec : S → SetOp N → Except Err (BstRes N × S)) : List (SetOp N) → S → List N → Prop
  | [], _, _ => True
  | op :: ops, t, m => ∃ t', exec t op = .ok (setAnswer m op, t') ∧ AnswersAs exec ops t' (setAfter m op)

/-- no call of the history meets the object in a state for which it is `bad` -/
def Avoids {S : Type} (exec : S → SetOp N → Except Err (BstRes N × S)) (bad : S → SetOp N → Prop) :
    List (SetOp N) → S → Prop
  | [], _ => True
  | op :: ops, t => ¬ bad t op ∧ ∀ r t', exec t op = .ok (r, t') → Avoids exec bad ops t'

/-- the history, with the contents asked for after each call -/
def watched : List (SetOp N) → List (SetOp N)
  | [] => []
  | op :: ops => op :: .inorder :: watched ops

end Extra
