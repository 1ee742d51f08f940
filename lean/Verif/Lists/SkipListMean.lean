import Verif.Lists.SkipListCost
import Mathlib.Analysis.SpecificLimits.Basic

/-!
# Averages over the coin flips of a `SkipList`

`flip_coin` (skip_list.py:52-71) shows head or tail with the same probability, each time anew, so
an insertion draws `h` heads before the first tail with probability `1/2 ^ (h + 1)`.
-/

open scoped ENNReal

namespace Extra
variable {N : Type} [LinearOrder N] [OrderBot N]
attribute [local instance] numData

/-- the mean of `f h`, where `h` is the number of heads before the first tail -/
noncomputable def coinMean (f : Nat → ℝ≥0∞) : ℝ≥0∞ := ∑' h, (2⁻¹ : ℝ≥0∞) ^ (h + 1) * f h

/-- the mean of `f` of the object after a history of calls: each `insert` of the history flips
coins, whatever number of heads stands in the history — skip_list.py:911-920 -/
noncomputable def skMean (f : SkipList N → ℝ≥0∞) : List (SkOp N) → SkipList N → ℝ≥0∞
  | [], s => f s
  | .insert x _ :: ops, s => coinMean (fun h => skMean f ops (skExec (.insert x h) s).2)
  | op :: ops, s => skMean f ops (skExec op s).2

/-- a number of tests as a term of a mean; a call that raises counts as infinitely many -/
noncomputable def asCost : Except Err Nat → ℝ≥0∞
  | .ok c => c
  | .error _ => ∞

/-- the number of nodes of a skip list, all levels together, without the `-inf` at the head of each
level — skip_list.py:292-293, :818-820 -/
def skNodes (s : SkipList N) : Nat := (s.levels.map (fun l => (s.heap.lobj l).length - 1)).sum

end Extra
