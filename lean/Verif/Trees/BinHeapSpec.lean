import Verif.Trees.BinHeap

/-! # Specification of the binary heaps: order of the array, and histories on bags of numbers -/

namespace Extra
variable {N : Type} [LinearOrder N]

/-- the order wanted between a parent and a child -/
def inOrder (isMin : Bool) (p c : N) : Prop := if isMin then p ≤ c else c ≤ p

instance (isMin : Bool) (p c : N) : Decidable (inOrder isMin p c) := by
  unfold inOrder; infer_instance

/-- heap order: every item but the first is in order with the one at half its position -/
def HeapOrdered (isMin : Bool) (xs : List N) : Prop :=
  ∀ (i : Nat) (h : i < xs.length), i ≠ 0 → inOrder isMin xs[(i - 1) / 2] xs[i]

instance (isMin : Bool) (xs : List N) : Decidable (HeapOrdered isMin xs) := by
  unfold HeapOrdered; infer_instance

/-- calls whose outcome depends only on which numbers are held -/
def BHOp.bagOp : BHOp N → Bool
  | .insert _ | .remove _ | .contains _ | .len | .isEmpty | .clear => true
  | _ => false

/-- one call on a bag of numbers, given as a list in any order -/
def bagStep (op : BHOp N) (xs : List N) : BHRes N × List N :=
  match op with
  | .insert (.num v) => (.ok (.unit, false), v :: xs)
  | .insert .none => (.error .valueError, xs)
  | .insert .other => (.error .typeError, xs)
  | .remove (.num v) => (.ok (.unit, decide (v ∉ xs)), xs.erase v)
  | .remove _ => (.ok (.unit, true), xs)
  | .contains (.num v) => (.ok (.bool (decide (v ∈ xs)), false), xs)
  | .contains _ => (.ok (.bool false, false), xs)
  | .len => (.ok (.nat xs.length, false), xs)
  | .isEmpty => (.ok (.bool xs.isEmpty, false), xs)
  | .clear => (.ok (.unit, false), [])
  | _ => (.error .notImplementedError, xs)

/-- a history of calls on a bag -/
def bagRun : List (BHOp N) → List N → List (BHRes N) × List N
  | [], xs => ([], xs)
  | op :: ops, xs =>
    let (r, ys) := bagStep op xs
    let (rs, zs) := bagRun ops ys
    (r :: rs, zs)

end Extra
