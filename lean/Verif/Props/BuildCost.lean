import Verif.Trees.BuildCost
import Verif.Trees.RedBlackBuild
import Verif.Props.SearchMean
import Verif.Props.Bst
import Verif.Props.Avl
import Mathlib.Tactic.Linarith

/-!
# C113: what it takes to build a search tree

bst.py:301-303, avl.py:202-204 and red_black_tree.py:221-223 promise "time-complexity of O(n)" for `BST(iterable)`,
`AVL(iterable)` and `RedBlackTree(iterable)`.
-/

namespace Extra
variable {N : Type} [LinearOrder N]

/-- the nodes looked at by `BST(iterable)` — bst.py:350-359 -/
def bstCost (ns : List N) : Nat :=
  buildCost (fun p => match bstFrom (p.map .num) with
    | .ok t => t.root
    | .error _ => .nil) ns

/-- the tree after these insertions into an empty `AVL` -/
def avlAfter (p : List N) : BTree (N × Nat) :=
  match avlExecs (p.map fun v => .insert (.num v)) Bst.empty with
  | .ok (_, t) => t.root
  | .error _ => .nil

/-- the nodes looked at by `AVL(iterable)`, before any are rotated — avl.py:252 -/
def avlCost (ns : List N) : Nat := buildCost avlAfter ns

private theorem from_after : ∀ (ns : List N) (t : Bst N Unit),
    bstFromLoop (ns.map .num) t = .ok (Bst.execs (ns.map fun v => .insert (.num v)) t).2
  | [], t => rfl
  | n :: ns, t => by
    simp only [List.map_cons, bstFromLoop, validNum, Bst.execs, Bst.exec]
    exact from_after ns _

private theorem bstCost_eq (ns : List N) : bstCost ns = buildCost (fun p => (bstAfter p).root) ns := by
  rw [bstCost]
  congr 1
  funext p
  rw [bstFrom, from_after]
  rfl

private theorem step_visits {ns : List N} (hd : ns.Nodup) {k : Nat} (hk : k < ns.length) :
    (bstAfter ns).root.visits ns[k] = (bstAfter (ns.take k)).root.visits ns[k] + 1 := by
  have e : ns = ns.take k ++ ns[k] :: ns.drop (k + 1) := by simp
  have h : (ns.take k ++ ns[k] :: ns.drop (k + 1)).Nodup := by rw [← e]; exact hd
  have h1 := C109_visited ns[k] hd
  have h2 := C109_visited ns[k] (hd.sublist (List.take_sublist k ns))
  have h3 := firsts_mid h
  rw [← e] at h3
  rw [h1, h2]
  exact h3

/-- **C113, `BST`, exactly.** Building a `BST` from different numbers looks, for each of them, at one node
less than a search for it in the finished tree does. -/
theorem C113_bst_total {ns : List N} (hd : ns.Nodup) :
    bstCost ns + ns.length = (ns.map (bstAfter ns).root.visits).sum := by
  rw [bstCost_eq, buildCost_eq]
  have e : ns.map (bstAfter ns).root.visits = (List.range ns.length).attach.map (fun k =>
      (bstAfter (ns.take k.1)).root.visits (ns[k.1]'(List.mem_range.1 k.2)) + 1) := by
    apply List.ext_getElem (by simp)
    intro i h1 h2
    have hi : i < ns.length := by simpa using h1
    simp only [List.getElem_map, List.getElem_attach, List.getElem_range]
    exact step_visits hd hi
  rw [e, List.sum_map_add]
  simp

/-- **C113, `BST`, the mean.** Over all orders of `n` different numbers the mean is `2 (n + 1) H(n) - 4 n`,
where `H` is the harmonic number. -/
theorem C113_bst_mean {xs : List N} (hd : xs.Nodup) :
    meanOver xs.permutations (fun p => (bstCost p : ℚ)) =
      2 * (xs.length + 1) * harmonic xs.length - 4 * xs.length := by
  have hne : (xs.permutations.length : ℚ) ≠ 0 := by
    rw [List.length_permutations]; exact_mod_cast Nat.factorial_ne_zero _
  -- exchange the two sums
  have swap : (xs.permutations.map (fun p => (bstCost p : ℚ))).sum + xs.permutations.length * xs.length =
      (xs.map (fun x => (xs.permutations.map (fun p => ((bstAfter p).root.visits x : ℚ))).sum)).sum := by
    have h1 : ∀ p ∈ xs.permutations, (bstCost p : ℚ) + xs.length =
        (xs.map (fun x => ((bstAfter p).root.visits x : ℚ))).sum := by
      intro p hp
      have hp' := List.mem_permutations.1 hp
      have h2 := C113_bst_total (hp'.nodup_iff.2 hd)
      rw [← hp'.length_eq, ← (hp'.map _).sum_eq]
      have h3 : ((bstCost p + p.length : Nat) : ℚ) = (((p.map (bstAfter p).root.visits).sum : Nat) : ℚ) := by rw [h2]
      push_cast at h3
      rw [h3, List.map_map]
      rfl
    have h4 : (xs.permutations.map (fun p => (bstCost p : ℚ) + xs.length)).sum =
        (xs.permutations.map (fun p => (xs.map (fun x => ((bstAfter p).root.visits x : ℚ))).sum)).sum :=
      congrArg List.sum (List.map_congr_left h1)
    rw [List.sum_map_add] at h4
    simp only [List.map_const', List.sum_replicate, nsmul_eq_mul] at h4
    rw [h4]
    generalize xs.permutations = L
    clear h1 h4 hne hd
    induction L with
    | nil => simp
    | cons p L ih =>
      simp only [List.map_cons, List.sum_cons, List.sum_map_add]
      rw [ih]
  have each : ∀ x ∈ xs, (xs.permutations.map (fun p => ((bstAfter p).root.visits x : ℚ))).sum =
      xs.permutations.length * (harmonic ((xs.filter (· < x)).length + 1) +
        harmonic ((xs.filter (x < ·)).length + 1) - 1) := by
    intro x hx
    have h := C109_mean x hd
    simp only [hx, if_true] at h
    rw [← h, meanOver]
    field_simp
  rw [List.map_congr_left each, List.sum_map_mul_left] at swap
  have s1 := rank_sum hd (fun i => harmonic (i + 1))
  have s2 := rank_sum (N := Nᵒᵈ) (xs := xs) hd (fun i => harmonic (i + 1))
  have s2' : (xs.map (fun x => harmonic ((xs.filter (x < ·)).length + 1))).sum =
      ((List.range xs.length).map (fun i => harmonic (i + 1))).sum := by
    exact s2
  have s3 : (xs.map (fun x => harmonic ((xs.filter (· < x)).length + 1) +
        harmonic ((xs.filter (x < ·)).length + 1) - 1)).sum =
      2 * ((xs.length + 1) * harmonic xs.length - xs.length) - xs.length := by
    have : ∀ L : List N, (L.map (fun x => harmonic ((xs.filter (· < x)).length + 1) +
        harmonic ((xs.filter (x < ·)).length + 1) - 1)).sum =
        (L.map (fun x => harmonic ((xs.filter (· < x)).length + 1))).sum +
        (L.map (fun x => harmonic ((xs.filter (x < ·)).length + 1))).sum - L.length := by
      intro L
      induction L with
      | nil => simp
      | cons x L ih => simp only [List.map_cons, List.sum_cons, List.length_cons, ih]; push_cast; ring
    rw [this, s1, s2', harmonic_sum]
    ring
  rw [s3] at swap
  rw [meanOver, div_eq_iff hne]
  linarith

private theorem range_sum : ∀ n, 2 * (List.range n).sum = n * (n - 1)
  | 0 => rfl
  | n + 1 => by
    rw [List.range_succ, List.sum_append, mul_add, range_sum n]
    cases n with
    | zero => rfl
    | succ m => simp; ring

/-- **C113, `BST`, at most** `n (n - 1) / 2` nodes are looked at, -/
theorem C113_bst_at_most {ns : List N} (hd : ns.Nodup) : 2 * bstCost ns ≤ ns.length * (ns.length - 1) := by
  rw [bstCost_eq, buildCost_eq]
  have h : ((List.range ns.length).attach.map (fun k => (bstAfter (ns.take k.1)).root.visits
      (ns[k.1]'(List.mem_range.1 k.2)))).sum ≤ ((List.range ns.length).attach.map (fun k => k.1)).sum := by
    refine List.sum_le_sum fun k _ => ?_
    refine (C109_at_most _ (hd.sublist (List.take_sublist _ _))).trans ?_
    simp
  rw [List.attach_map_subtype_val] at h
  have h2 := range_sum ns.length
  omega

/-- **C113, `BST`, the worst**: and exactly so many for numbers in increasing order. -/
theorem C113_bst_increasing {ns : List N} (h : ns.Pairwise (· < ·)) :
    2 * bstCost ns = ns.length * (ns.length - 1) := by
  rw [bstCost_eq, buildCost_eq]
  have e : (List.range ns.length).attach.map (fun k => (bstAfter (ns.take k.1)).root.visits
      (ns[k.1]'(List.mem_range.1 k.2))) = (List.range ns.length).attach.map (fun k => k.1) := by
    refine List.map_congr_left fun k _ => ?_
    have hk := List.mem_range.1 k.2
    rw [C109_worst _ (h.sublist (List.take_sublist _ _))]
    · simp; omega
    · intro y hy
      obtain ⟨i, hi, rfl⟩ := List.mem_take_iff_getElem.1 hy
      exact (List.pairwise_iff_getElem.1 h i k.1 (by omega) hk (by omega)).le
  rw [e, List.attach_map_subtype_val]
  have h2 := range_sum ns.length
  omega

example : bstCost ([4, 1, 2, 6, 5] : List (Fin 20)) = 0 + 1 + 2 + 1 + 2 ∧
    bstCost ([1, 2, 4, 5, 6] : List (Fin 20)) = 10 ∧
    [[1, 2, 3], [1, 3, 2], [2, 1, 3], [2, 3, 1], [3, 1, 2], [3, 2, 1]].map (bstCost (N := Fin 20)) = [3, 3, 2, 2, 3, 3] ∧
    (2 * (3 + 1) * (1 + 1 / 2 + 1 / 3) - 4 * 3 : ℚ) = (3 + 3 + 2 + 2 + 3 + 3) / 6 := by
  refine ⟨by decide +kernel, by decide +kernel, by decide +kernel, by norm_num⟩

private theorem avlAfter_spec {p : List N} (hd : p.Nodup) :
    avlOk (avlAfter p) ∧ (avlAfter p).size = p.length ∧ ∀ x, x ∈ (avlAfter p).keys ↔ x ∈ p := by
  obtain ⟨rs, t, e, hs, hm, hb, hh, hn⟩ := C43_inserts (p.map .num)
  have e2 : avlAfter p = t.root := by
    rw [avlAfter]
    rw [List.map_map] at e
    rw [show (p.map fun v => AvlOp.insert (NumArg.num v)) = p.map (AvlOp.insert ∘ NumArg.num) from rfl, e]
  have hm' : ∀ x, x ∈ t.root.keys ↔ x ∈ p := fun x => by rw [← holds_iff, hm]; simp
  rw [e2]
  refine ⟨(avlOk_iff _).2 ⟨hh, hb⟩, ?_, hm'⟩
  rw [← BTree.keys_length_size]
  exact ((List.perm_ext_iff_of_nodup ((show t.root.keys.Pairwise (· < ·) from hs).imp ne_of_lt) hd).2 hm').length_eq

private theorem avl_step {ns : List N} (hd : ns.Nodup) {k : Nat} (hk : k < ns.length) :
    Nat.log 2 (k + 1) ≤ 2 * (avlAfter (ns.take k)).visits ns[k] ∧
    (avlAfter (ns.take k)).visits ns[k] ≤ 2 * Nat.log 2 (k + 1) + 1 := by
  obtain ⟨h1, h2, h3⟩ := avlAfter_spec (hd.sublist (List.take_sublist k ns))
  have hl : (ns.take k).length = k := by simp; omega
  rw [hl] at h2
  have hv : ns[k] ∉ (avlAfter (ns.take k)).keys := by
    rw [h3]
    intro hm
    obtain ⟨i, hi, e⟩ := List.mem_take_iff_getElem.1 hm
    have := hd.getElem_inj_iff.1 e
    omega
  constructor
  · refine le_trans ?_ (avl_visits _ _ h1 hv)
    have h4 := size_lt_pow_nlev (avlAfter (ns.take k))
    rw [h2] at h4
    calc Nat.log 2 (k + 1) ≤ Nat.log 2 (2 ^ (avlAfter (ns.take k)).nlev) := Nat.log_mono_right h4
      _ = _ := Nat.log_pow (by omega) _
  · refine (visits_le_nlev _ _).trans ?_
    have h5 := fib_le _ h1
    rw [h1.hOk.nlev, BTree.keys_length_size, h2] at h5
    have h6 := Nat.le_log_of_pow_le (by omega) ((two_pow_le_fib _).trans h5)
    omega

/-- **C113, `AVL`, at least and at most.** In whatever order different numbers come, building an `AVL` looks at
half of `log2 1 + ... + log2 n` nodes or more, and at not more than `n (2 log2 n + 1)`. -/
theorem C113_avl {ns : List N} (hd : ns.Nodup) :
    ((List.range ns.length).map (fun k => Nat.log 2 (k + 1))).sum ≤ 2 * avlCost ns ∧
    avlCost ns ≤ ns.length * (2 * Nat.log 2 ns.length + 1) := by
  rw [avlCost, buildCost_eq]
  constructor
  · rw [← List.sum_map_mul_left]
    conv_lhs => rw [← List.attach_map_subtype_val (List.range ns.length), List.map_map]
    exact List.sum_le_sum fun k _ => (avl_step hd (List.mem_range.1 k.2)).1
  · refine (List.sum_le_card_nsmul _ (2 * Nat.log 2 ns.length + 1) ?_).trans (by simp)
    intro x hx
    obtain ⟨k, -, rfl⟩ := List.mem_map.1 hx
    have hk := List.mem_range.1 k.2
    refine (avl_step hd hk).2.trans ?_
    have := Nat.log_mono_right (b := 2) (show k.1 + 1 ≤ ns.length by omega)
    omega

example : avlCost ([1, 2, 3, 4, 5, 6, 7] : List (Fin 20)) = 0 + 1 + 2 + 2 + 3 + 3 + 3 := by decide +kernel

/-- **C113 fails.** No factor `c` makes `c * n` a bound on the nodes looked at: not for `BST`, -/
theorem C113_bst_not_linear (c : Nat) : ∃ ns : List Int, ns ≠ [] ∧ c * ns.length < bstCost ns := by
  refine ⟨(List.range (2 * c + 2)).map Int.ofNat, by simp [List.range_succ], ?_⟩
  have h : ((List.range (2 * c + 2)).map Int.ofNat).Pairwise (· < ·) := by
    rw [List.pairwise_map]
    exact List.pairwise_lt_range.imp Int.ofNat_lt.2
  have h2 := C113_bst_increasing h
  rw [List.length_map, List.length_range] at h2 ⊢
  rw [show 2 * c + 2 - 1 = 2 * c + 1 by omega] at h2
  nlinarith

/-- and not for `AVL`, whatever the order of the numbers. -/
theorem C113_avl_not_linear (c : Nat) : ∃ n, 0 < n ∧ ∀ ns : List N, ns.Nodup → ns.length = n →
    c * n < avlCost ns := by
  obtain ⟨n, hn, h⟩ := log_sum_gt (2 * c)
  refine ⟨n, hn, fun ns hd hl => ?_⟩
  have h1 := (C113_avl hd).1
  rw [hl] at h1
  have : 2 * c * n = 2 * (c * n) := by ring
  omega

/-- the tree after these insertions into an empty `RedBlackTree` -/
def rbAfter (p : List N) : BTree (N × Color) :=
  match rbExecs (p.map fun v => .insert (.num v)) Bst.empty with
  | .ok (_, t) => t.root
  | .error _ => .nil

/-- the nodes looked at by `RedBlackTree(iterable)`, before any are rotated — red_black_tree.py:272 -/
def rbCost (ns : List N) : Nat := buildCost rbAfter ns

/-- **C113, `RedBlackTree`.** For every `k` there are `7 k + 11` numbers for which it looks at `4 k²` nodes or more:
the deep tree of C111, then one of its numbers again and again. -/
theorem C113_redblack (k : Nat) : ∃ ns : List Int, ns.length = 7 * k + 11 ∧ 4 * k * k ≤ rbCost ns := by
  refine ⟨deepOrder (k + 1) ++ List.replicate k 5, by simp [deepOrder_length]; omega, ?_⟩
  have hl : (deepOrder (k + 1) ++ List.replicate k (5 : Int)).length = 6 * (k + 1) + 5 + k := by simp [deepOrder_length]
  have after : ∀ j, j < k → rbAfter (deepOrder (k + 1) ++ List.replicate j 5) = deepTop (-6 * (k + 1)) (deepR (k + 1)) := by
    intro j _
    have h1 := deepR_exec (k + 1)
    push_cast at h1
    rw [rbAfter, List.map_append, rbExecs_append _ _ _ _ _ _ _ h1 (deep_agains k _ j)]
  have each : ∀ j, j < k →
      (((deepOrder (k + 1) ++ List.replicate k (5 : Int))[6 * (k + 1) + 5 + j]?.map
        (rbAfter ((deepOrder (k + 1) ++ List.replicate k 5).take (6 * (k + 1) + 5 + j))).insertLooks).getD 0) = 4 * k + 5 := by
    intro j hj
    have e1 : (deepOrder (k + 1) ++ List.replicate k (5 : Int))[6 * (k + 1) + 5 + j]? = some 5 := by
      rw [List.getElem?_append_right (by rw [deepOrder_length]; omega), deepOrder_length,
        List.getElem?_replicate, if_pos (by omega)]
    have e2 : (deepOrder (k + 1) ++ List.replicate k (5 : Int)).take (6 * (k + 1) + 5 + j) =
        deepOrder (k + 1) ++ List.replicate j 5 := by
      rw [List.take_append, deepOrder_length, List.take_of_length_le (by rw [deepOrder_length]; omega),
        List.take_replicate]
      congr 2
      omega
    rw [e1, e2, after j hj]
    simp only [Option.map_some, Option.getD_some]
    rw [insertLooks_eq, deepTop, visits_node, if_neg (by show ¬ _; omega), if_neg (by show ¬ _; omega), deepR_visits]
    omega
  rw [rbCost, buildCost, hl, List.range_add, List.map_append, List.sum_append, List.map_map]
  refine le_trans ?_ (Nat.le_add_left _ _)
  rw [List.map_congr_left (g := fun _ => 4 * k + 5) (fun j hj => by
    simp only [Function.comp]; exact each j (List.mem_range.1 hj))]
  rw [List.map_const', List.length_range, List.sum_replicate, smul_eq_mul]
  nlinarith

example : rbCost (deepOrder 1 ++ [5, 5, 5] : List Int) =
    0 + 1 + 1 + 2 + 2 + 3 + 4 + 3 + 3 + 4 + 3 + 5 + 5 + 5 := by decide +kernel

/-- So it fails for `RedBlackTree` as well. -/
theorem C113_redblack_not_linear (c : Nat) : ∃ ns : List Int, ns ≠ [] ∧ c * ns.length < rbCost ns := by
  obtain ⟨ns, h1, h2⟩ := C113_redblack (18 * c + 1)
  refine ⟨ns, by rintro rfl; simp at h1, ?_⟩
  rw [h1]
  nlinarith

end Extra
