import Verif.Trees.Treap
import Verif.Trees.BstSpec

/-!
# Treaps: the specification

A treap stands for a map from numbers to priorities, here a list of pairs with increasing numbers.
-/

namespace Extra
variable {N P : Type} [LinearOrder N] [LinearOrder P]

/-- no node has a higher priority than the node above it -/
def TreapOrdered (t : BTree (N × P)) : Prop :=
  ∀ p b x y, t.at p = some x → t.at (p ++ [b]) = some y → y.2 ≤ x.2

/-- a pair is put into its place, unless its number is there already -/
def mapInsert (v : N × P) : List (N × P) → List (N × P)
  | [] => [v]
  | w :: ws =>
    if v.1 < w.1 then v :: w :: ws
    else if v.1 = w.1 then w :: ws
    else w :: mapInsert v ws

/-- what a call should answer, and the map afterwards -/
def mapExec (m : List (N × P)) : TreapOp N P → BstRes N × List (N × P)
  | .insert .none _ => (.error .valueError, m)
  | .insert .other _ => (.error .typeError, m)
  | .insert (.num _) .other => (.error .typeError, m)
  | .insert (.num v) (.num p) => (.ok (.unit, decide (v ∈ m.map Prod.fst)), mapInsert (v, p) m)
  | .insert (.num v) (.none p) => (.ok (.unit, decide (v ∈ m.map Prod.fst)), mapInsert (v, p) m)
  | .remove (.num v) => (.ok (.unit, decide (v ∉ m.map Prod.fst)), m.filter (fun w => w.1 ≠ v))
  | .remove _ => (.ok (.unit, true), m)
  | .contains (.num v) => (.ok (.bool (decide (v ∈ m.map Prod.fst)), false), m)
  | .contains _ => (.ok (.bool false, false), m)
  | .getMin =>
    match m.head? with
    | none => (.error .indexError, m)
    | some w => (.ok (.num w.1, false), m)
  | .getMax =>
    match m.getLast? with
    | none => (.error .indexError, m)
    | some w => (.ok (.num w.1, false), m)
  | .len => (.ok (.int m.length, false), m)
  | .inorder => (.ok (.list (m.map Prod.fst), false), m)
  | .clear => (.ok (.unit, false), [])

/-- the answers to a history of calls, and the map afterwards -/
def mapExecs : List (TreapOp N P) → List (N × P) → List (BstRes N) × List (N × P)
  | [], m => ([], m)
  | op :: ops, m =>
    ((mapExec m op).1 :: (mapExecs ops (mapExec m op).2).1, (mapExecs ops (mapExec m op).2).2)

/-- every priority given to or drawn by an insert of the history is higher than `q` -/
def PrioritiesAbove (q : P) (ops : List (TreapOp N P)) : Prop :=
  ∀ v p, (TreapOp.insert v (.num p) ∈ ops ∨ TreapOp.insert v (.none p) ∈ ops) → q < p

end Extra
