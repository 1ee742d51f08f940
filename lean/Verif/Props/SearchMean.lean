import Verif.Trees.SearchMeanProofs
import Mathlib.Order.Fin.Basic

/-!
# Property C109: how many nodes a BST search looks at, on average over the orders of insertion

`BTree.visits x t` counts the nodes `_search` looks at (Verif/Trees/SearchMean.lean).  The averages are
over all orders of the same numbers, each order counted once.
-/

namespace Extra
variable {N : Type} [LinearOrder N]

/-- the BST after these insertions into an empty one -/
def bstAfter (p : List N) : Bst N Unit := (Bst.execs (p.map fun v => .insert (.num v)) Bst.empty).2

private theorem execs_root : ∀ (p : List N) (t : Bst N Unit),
    (Bst.execs (p.map fun v => .insert (.num v)) t).2.root = bstOf (p.map fun v => (v, ())) t.root
  | [], _ => rfl
  | v :: p, t => by
    simp only [List.map_cons, Bst.execs, bstOf, List.foldl_cons]
    rw [execs_root p, bstOf]
    congr 1
    obtain ⟨t, n⟩ := t
    cases t <;> rfl

private theorem bstAfter_root (p : List N) :
    (bstAfter p).root = bstOf (p.map fun v => (v, ())) .nil := execs_root p Bst.empty

private theorem bstAfter_visits (x : N) {p : List N} (hp : p.Nodup) :
    (bstAfter p).root.visits x = (firsts x p).length := by
  have e : (p.map fun v => (v, ())).map Prod.fst = p := by simp [Function.comp_def]
  rw [bstAfter_root, visits_bstOf x _ _ le_rfl (by rw [e]; exact hp), e]

/-- The search for `x` looks at every number that came before all others lying between it and `x`. -/
theorem C109_visited (x : N) {p : List N} (hp : p.Nodup) :
    (bstAfter p).root.visits x =
      (p.filter fun y => p.find? (fun z => (x ≤ z ∧ z ≤ y) ∨ (y ≤ z ∧ z ≤ x)) = some y).length :=
  bstAfter_visits x hp

/-- The mean over all orders of insertion, exactly: `harmonic a + harmonic b - c`, where `c` is 1 if `x` is
one of the numbers and 0 otherwise, `a` counts the numbers below `x`, `b` those above, and `c` is added to
both. -/
theorem C109_mean (x : N) {xs : List N} (hd : xs.Nodup) :
    meanOver xs.permutations (fun p => ((bstAfter p).root.visits x : ℚ)) =
      harmonic ((xs.filter (· < x)).length + if x ∈ xs then 1 else 0) +
      harmonic ((xs.filter (x < ·)).length + if x ∈ xs then 1 else 0) - if x ∈ xs then 1 else 0 := by
  have e : meanOver xs.permutations (fun p => ((bstAfter p).root.visits x : ℚ)) =
      meanOver xs.permutations (fun p => ((firsts x p).length : ℚ)) := by
    rw [meanOver, meanOver]
    congr 2
    refine List.map_congr_left fun p hp => ?_
    rw [bstAfter_visits x ((List.mem_permutations.1 hp).nodup_iff.2 hd)]
  rw [e, mean_firsts x hd, sum_span' x hd]

/-- The mean is at most twice the harmonic number of the size, so at most `2 + 2 log n`. -/
theorem C109_log (x : N) {xs : List N} (hd : xs.Nodup) :
    meanOver xs.permutations (fun p => ((bstAfter p).root.visits x : ℚ)) ≤ 2 * harmonic xs.length ∧
    ((meanOver xs.permutations (fun p => ((bstAfter p).root.visits x : ℚ)) : ℚ) : ℝ) ≤
      2 + 2 * Real.log xs.length := by
  have h : meanOver xs.permutations (fun p => ((bstAfter p).root.visits x : ℚ)) ≤
      2 * harmonic xs.length := by
    rw [C109_mean x hd, ← sum_span' x hd]
    exact sum_span_le x hd
  refine ⟨h, ?_⟩
  have h1 := harmonic_le_one_add_log xs.length
  have h2 : ((meanOver xs.permutations (fun p => ((bstAfter p).root.visits x : ℚ)) : ℚ) : ℝ) ≤
      ((2 * harmonic xs.length : ℚ) : ℝ) := by exact_mod_cast h
  push_cast at h2
  linarith

private theorem firsts_sorted (x : N) {p : List N} (hp : p.Pairwise (· < ·)) (hx : ∀ y ∈ p, y ≤ x) :
    firsts x p = p := by
  rw [firsts, List.filter_eq_self]
  intro y hy
  rw [decide_eq_true_eq]
  induction p with
  | nil => simp at hy
  | cons a p ih =>
    rw [List.pairwise_cons] at hp
    rcases List.mem_cons.1 hy with rfl | hy
    · rw [List.find?_cons_of_pos]; simp [span, hx y]
    · have ha := hp.1 y hy
      rw [List.find?_cons_of_neg]
      · exact ih hp.2 (fun z hz => hx z (List.mem_cons_of_mem _ hz)) hy
      · have := hx y (List.mem_cons_of_mem _ hy)
        simp only [span, decide_eq_true_eq, not_or, not_and, not_le]
        exact ⟨fun h => absurd (lt_of_lt_of_le (lt_of_le_of_lt h ha) this) (lt_irrefl x),
          fun h => absurd (lt_of_le_of_lt h ha) (lt_irrefl _)⟩

/-- In the worst order every node is looked at: numbers inserted in increasing order, and a search for the
greatest or for something greater. -/
theorem C109_worst (x : N) {p : List N} (hp : p.Pairwise (· < ·)) (hx : ∀ y ∈ p, y ≤ x) :
    (bstAfter p).root.visits x = p.length := by
  rw [bstAfter_visits x (hp.imp ne_of_lt), firsts_sorted x hp hx]

/-- and no order makes a search look at more nodes than there are -/
theorem C109_at_most (x : N) {p : List N} (hp : p.Nodup) : (bstAfter p).root.visits x ≤ p.length := by
  rw [bstAfter_visits x hp]; exact List.length_filter_le _ _

/-- five numbers in one order: 2 is found below 4 and 1, and 3 would be below 4, 1 and 2 -/
example : (bstAfter [4, 1, 2, 6, 5]).root.visits (2 : Fin 20) = 3 ∧
    (bstAfter [4, 1, 2, 6, 5]).root.visits (3 : Fin 20) = 3 ∧
    (bstAfter [4, 1, 2, 6, 5]).root.visits (6 : Fin 20) = 2 := by decide +kernel

/-- three numbers, all six orders: the least is found after 1, 1, 2, 2, 2 or 3 nodes, so after 11/6 on
average -/
example : [[1, 2, 3], [1, 3, 2], [2, 1, 3], [2, 3, 1], [3, 1, 2], [3, 2, 1]].map
      (fun p => (bstAfter p).root.visits (1 : Fin 20)) = [1, 1, 2, 2, 2, 3] ∧
    meanOver [1, 2, 3].permutations (fun p => ((bstAfter p).root.visits (1 : Fin 20) : ℚ)) = 11 / 6 := by
  refine ⟨by decide +kernel, ?_⟩
  rw [C109_mean _ (by decide)]
  have h : (([1, 2, 3] : List (Fin 20)).filter (· < 1)).length = 0 ∧
      (([1, 2, 3] : List (Fin 20)).filter (1 < ·)).length = 2 := by decide
  rw [h.1, h.2]
  norm_num [harmonic, Finset.sum_range_succ]

/-- and the least of four in increasing order at once, the greatest after all of them -/
example : (bstAfter [1, 2, 3, 4]).root.visits (1 : Fin 20) = 1 ∧
    (bstAfter [1, 2, 3, 4]).root.visits (4 : Fin 20) = 4 := by decide +kernel

end Extra
