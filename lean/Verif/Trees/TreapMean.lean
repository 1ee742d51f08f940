import Verif.Trees.Treap
import Verif.Trees.SearchMean

/-!
# Treaps whose priorities are drawn at random

`TreapNode(data)` draws its priority with `random.randint(0, 100)` (treap.py:75-79), so each of the numbers
0, ..., 100 with the same probability.
-/

namespace Extra
variable {N P : Type} [LinearOrder N] [LinearOrder P]

/-- the calls `insert(v)` in turn, where each draws the priority beside it — treap.py:75-79, :470-493 -/
def drawOps (vs : List (N × P)) : List (TreapOp N P) := vs.map fun v => .insert (.num v.1) (.none v.2)

/-- the treap after these calls on an empty one; empty if one of them raises (which C110 rules out) —
treap.py:470-493 -/
def treapAfter (m1 : P) (vs : List (N × P)) : Bst N P :=
  match treapExecs m1 (drawOps vs) Bst.empty with
  | .ok (_, t) => t
  | .error _ => Bst.empty

/-- all ways `n` numbers below `k` can be drawn; `random.randint(0, 100)` draws one below 101 — treap.py:76 -/
def draws (k : Nat) : Nat → List (List Nat)
  | 0 => [[]]
  | n + 1 => (List.range k).flatMap fun p => (draws k n).map (p :: ·)

/-- how many of the priorities are at least as high as all before them (those in `seen` included) -/
def weakRecords (seen : List P) : List P → Nat
  | [] => 0
  | p :: ps => (if ∀ q ∈ seen, q ≤ p then 1 else 0) + weakRecords (p :: seen) ps

end Extra
