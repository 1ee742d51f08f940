import Verif.Trees.TreapMeanProofs
import Mathlib.Analysis.SpecialFunctions.Log.Basic

/-!
# Property C110: how many nodes a search in a treap looks at, on average over the priorities

`BTree.visits x t` counts the nodes `_search` looks at (Verif/Trees/SearchMean.lean), `treapAfter` is the
treap after calls of `insert` that draw the priorities given beside the numbers, and `draws 101 n` are
the ways `n` calls of `random.randint(0, 100)` can turn out (Verif/Trees/TreapMean.lean).  The number `m1`
stands for the priority `-1` of a missing child, which only `remove` looks at.
-/

namespace Extra
variable {N P : Type} [LinearOrder N] [LinearOrder P]

/-- None of the calls raises. -/
theorem C110_inserts (m1 : P) (vs : List (N × P)) :
    ∃ rs, treapExecs m1 (drawOps vs) Bst.empty = .ok (rs, treapAfter m1 vs) := treapAfter_ok m1 vs

/-- If the priorities are different and each assignment of them to the numbers is equally likely, the mean is
the same for every order of insertion: that of a BST over all orders (C109), so at most
`2 + 2 log n`. -/
theorem C110_different_partial (m1 : P) (x : N) {vs : List N} (hv : vs.Nodup) {ds : List P} (hd : ds.Nodup)
    (hl : vs.length = ds.length) :
    meanOver ds.permutations (fun q => ((treapAfter m1 (vs.zip q)).root.visits x : ℚ)) =
      harmonic ((vs.filter (· < x)).length + if x ∈ vs then 1 else 0) +
      harmonic ((vs.filter (x < ·)).length + if x ∈ vs then 1 else 0) - (if x ∈ vs then 1 else 0) ∧
    ((meanOver ds.permutations (fun q => ((treapAfter m1 (vs.zip q)).root.visits x : ℚ)) : ℚ) : ℝ) ≤
      2 + 2 * Real.log vs.length := by
  obtain ⟨S, pS, sS⟩ := sorted_perm ds hd
  have pr : ds.Perm S.reverse := pS.symm.trans (List.reverse_perm S).symm
  have e : meanOver ds.permutations (fun q => ((treapAfter m1 (vs.zip q)).root.visits x : ℚ)) =
      (vs.map (fun y => ((vs.filter (span x y)).length : ℚ)⁻¹)).sum := by
    have hp := pr.permutations
    rw [← mean_firsts x hv, ← mean_priorities m1 hv (ds := S.reverse) (by rw [hl, pr.length_eq]) x
      (List.pairwise_reverse.2 sS), meanOver, meanOver, hp.length_eq, (hp.map _).sum_eq]
  refine ⟨by rw [e, sum_span' x hv], ?_⟩
  have h1 := harmonic_le_one_add_log vs.length
  have h2 : ((meanOver ds.permutations (fun q => ((treapAfter m1 (vs.zip q)).root.visits x : ℚ)) : ℚ) : ℝ) ≤
      ((2 * harmonic vs.length : ℚ) : ℝ) := by
    rw [e]; exact_mod_cast sum_span_le x hv
  push_cast at h2
  linarith

/-- With the 101 priorities of `randint(0, 100)`, whatever the order of insertion, the mean is at most
`2 + 2 log n + n / 101`. -/
theorem C110_randint_partial (m1 : Nat) (x : N) {vs : List N} (hv : vs.Nodup) :
    meanOver (draws 101 vs.length) (fun q => ((treapAfter m1 (vs.zip q)).root.visits x : ℚ)) ≤
      2 * harmonic vs.length + (vs.length : ℚ) / 101 ∧
    ((meanOver (draws 101 vs.length) (fun q => ((treapAfter m1 (vs.zip q)).root.visits x : ℚ)) : ℚ) : ℝ) ≤
      2 + 2 * Real.log vs.length + (vs.length : ℝ) / 101 := by
  have h : meanOver (draws 101 vs.length) (fun q => ((treapAfter m1 (vs.zip q)).root.visits x : ℚ)) ≤
      2 * harmonic vs.length + (vs.length : ℚ) / 101 := by
    have h1 := mean_visits_le m1 x 101 (by norm_num) hv
    have h2 := sum_span_le x hv
    push_cast at h1
    linarith
  refine ⟨h, ?_⟩
  have h1 := harmonic_le_one_add_log vs.length
  have h2 : ((meanOver (draws 101 vs.length)
      (fun q => ((treapAfter m1 (vs.zip q)).root.visits x : ℚ)) : ℚ) : ℝ) ≤
      ((2 * harmonic vs.length + (vs.length : ℚ) / 101 : ℚ) : ℝ) := by exact_mod_cast h
  push_cast at h2
  linarith

/-- Numbers in increasing order: the search for the least of them looks at those whose priorities were as high
as all before. -/
theorem C110_increasing (m1 : P) (x : N) {vs : List N} (hv : vs.Pairwise (· < ·)) (hx : ∀ v ∈ vs, x ≤ v)
    {q : List P} (hl : vs.length = q.length) :
    (treapAfter m1 (vs.zip q)).root.visits x = weakRecords [] q := by
  rw [visits_increasing m1 x, List.map_snd_zip hl.ge]
  · rwa [List.map_fst_zip hl.le]
  · exact fun u hu => hx _ (List.of_mem_zip hu).1

private theorem increasing_mean (m1 : Nat) (x : N) {vs : List N} (hv : vs.Pairwise (· < ·))
    (hx : ∀ v ∈ vs, x ≤ v) :
    meanOver (draws 101 vs.length) (fun q => ((treapAfter m1 (vs.zip q)).root.visits x : ℚ)) =
      meanOver (draws 101 vs.length) (fun q => (weakRecords [] q : ℚ)) := by
  rw [meanOver, meanOver]
  congr 2
  refine List.map_congr_left fun q hq => ?_
  rw [C110_increasing m1 x hv hx (draws_mem 101 _ q hq).1.symm]

/-- The mean of that over all draws, exactly. -/
theorem C110_increasing_mean (m1 : Nat) (x : N) {vs : List N} (hv : vs.Pairwise (· < ·))
    (hx : ∀ v ∈ vs, x ≤ v) :
    meanOver (draws 101 vs.length) (fun q => ((treapAfter m1 (vs.zip q)).root.visits x : ℚ)) =
      ∑ j ∈ Finset.range vs.length, (∑ i ∈ Finset.range 101, (((i : ℚ) + 1) / 101) ^ j) / 101 := by
  rw [increasing_mean m1 x hv hx, mean_weakRecords 101 _ (by norm_num)]
  norm_num

/-- So it grows in proportion to the number of nodes: at least `1 + (n - 1) / 101`, at most
`1 + log n + n / 101`. -/
theorem C110_linear (m1 : Nat) (x : N) {vs : List N} (hv : vs.Pairwise (· < ·)) (hx : ∀ v ∈ vs, x ≤ v)
    (h0 : vs ≠ []) :
    1 + ((vs.length - 1 : Nat) : ℚ) / 101 ≤
      meanOver (draws 101 vs.length) (fun q => ((treapAfter m1 (vs.zip q)).root.visits x : ℚ)) ∧
    meanOver (draws 101 vs.length) (fun q => ((treapAfter m1 (vs.zip q)).root.visits x : ℚ)) ≤
      harmonic vs.length + (vs.length : ℚ) / 101 := by
  rw [increasing_mean m1 x hv hx]
  have h1 := mean_weakRecords_ge 101 vs.length (by norm_num) (List.length_pos_of_ne_nil h0)
  have h2 := mean_weakRecords_le 101 vs.length (by norm_num)
  push_cast at h1 h2
  exact ⟨h1, h2⟩

/-- C110 fails: no bound of the form `a + b log n` holds for the mean. -/
theorem C110_not_logarithmic (m1 : Nat) : ¬ ∃ a b : ℝ, ∀ n : Nat,
    ((meanOver (draws 101 n)
      (fun q => ((treapAfter m1 ((List.range n).zip q)).root.visits 0 : ℚ)) : ℚ) : ℝ) ≤ a + b * Real.log n := by
  rintro ⟨a, b, h⟩
  have low : ∀ n : Nat, 0 < n → 1 + ((n : ℝ) - 1) / 101 ≤ a + b * Real.log n := by
    intro n hn
    refine le_trans ?_ (h n)
    have h1 := (C110_linear m1 0 (vs := List.range n) List.pairwise_lt_range (by simp)
      (by simp; omega)).1
    rw [List.length_range] at h1
    have h2 : ((1 + ((n - 1 : Nat) : ℚ) / 101 : ℚ) : ℝ) ≤ ((meanOver (draws 101 n)
      (fun q => ((treapAfter m1 ((List.range n).zip q)).root.visits 0 : ℚ)) : ℚ) : ℝ) := by exact_mod_cast h1
    refine le_trans (le_of_eq ?_) h2
    push_cast [Nat.cast_sub (show 1 ≤ n from hn)]
    rfl
  have t := (Real.isLittleO_log_id_atTop.comp_tendsto tendsto_natCast_atTop_atTop).bound
    (show (0 : ℝ) < 1 / (202 * (|b| + 1)) by positivity)
  rw [Filter.eventually_atTop] at t
  obtain ⟨M, t⟩ := t
  obtain ⟨n, hn⟩ := exists_nat_gt (max (M : ℝ) (max 1 (202 * (|a| + 1))))
  simp only [max_lt_iff] at hn
  obtain ⟨n1, n2, n3⟩ := hn
  have hn0 : 0 < n := by exact_mod_cast (lt_trans zero_lt_one n2)
  have hl := low n hn0
  have ht := t n (by exact_mod_cast n1.le)
  simp only [Function.comp_apply, id_eq, Real.norm_eq_abs, Nat.abs_cast] at ht
  have hb : b * Real.log n ≤ (n : ℝ) / 202 := by
    calc b * Real.log n ≤ |b * Real.log n| := le_abs_self _
      _ = |b| * |Real.log n| := abs_mul _ _
      _ ≤ |b| * (1 / (202 * (|b| + 1)) * n) := by gcongr
      _ = (|b| / (|b| + 1)) * (n / 202) := by field_simp
      _ ≤ 1 * (n / 202) := by
        gcongr
        rw [div_le_one (by positivity)]
        linarith
      _ = n / 202 := one_mul _
  have ha := le_abs_self a
  linarith

/-- three numbers in increasing order: with the priorities 4, 4, 4 the least one ends up at the bottom, with
7, 4, 5 at the top -/
example : (treapAfter 0 [(1, 4), (2, 4), (3, 4)]).root.visits (1 : Fin 20) = 3 ∧
    (treapAfter 0 [(1, 7), (2, 4), (3, 5)]).root.visits (1 : Fin 20) = 1 ∧
    weakRecords [] [4, 4, 4] = 3 ∧ weakRecords [] [7, 4, 5] = 1 := by decide +kernel

/-- two numbers: the search for the smaller one looks at two nodes in 51 of 101 cases -/
example : meanOver (draws 101 2) (fun q => ((treapAfter 0 ([3, 8].zip q)).root.visits (3 : Fin 20) : ℚ)) =
    1 + 51 / 101 := by
  have h := C110_increasing_mean 0 (3 : Fin 20) (vs := [3, 8]) (by decide) (by decide)
  rw [show ([3, 8] : List (Fin 20)).length = 2 from rfl] at h
  rw [h]
  norm_num [Finset.sum_range_succ]

/-- the priorities 5, 6 and 7 in any order over three numbers: 11/6 nodes for the greatest, whatever the order
of insertion -/
example : [[5, 6, 7], [5, 7, 6], [6, 5, 7], [6, 7, 5], [7, 5, 6], [7, 6, 5]].map
      (fun q => (treapAfter 0 ([2, 9, 4].zip q)).root.visits (9 : Fin 20)) = [2, 1, 2, 1, 3, 2] ∧
    meanOver [5, 6, 7].permutations (fun q => ((treapAfter 0 ([2, 9, 4].zip q)).root.visits (9 : Fin 20) : ℚ)) =
      11 / 6 := by
  refine ⟨by decide +kernel, ?_⟩
  refine (C110_different_partial (0 : Nat) (9 : Fin 20) (vs := [2, 9, 4]) (ds := [5, 6, 7]) (by decide)
    (by decide) rfl).1.trans ?_
  have h : (([2, 9, 4] : List (Fin 20)).filter (· < 9)).length = 2 ∧
      (([2, 9, 4] : List (Fin 20)).filter (9 < ·)).length = 0 := by decide
  rw [h.1, h.2]
  norm_num [harmonic, Finset.sum_range_succ]

end Extra
