import Verif.Trees.SearchMeanProofs
import Verif.Trees.AvlProofs
import Mathlib.Algebra.Order.BigOperators.Group.List
import Mathlib.Data.List.Sort
import Mathlib.Data.Nat.Log
import Mathlib.Tactic.FieldSimp

/-!
# How many nodes are looked at while a search tree is built
-/

set_option linter.unusedSectionVars false

namespace Extra
variable {N X : Type} [LinearOrder N]

/-- the number of nodes `_insert_node` looks at — bst.py:694-713; without a root it is not called
(bst.py:806-811) -/
def BTree.insertLooks (v : N) : BTree (N × X) → Nat
  | .nil => 0
  | .node l w r => 1 + if v = w.1 then 0 else if v < w.1 then l.insertLooks v else r.insertLooks v

/-- the nodes looked at while the numbers are inserted one after the other; `tree` gives the tree after some
insertions -/
def buildCost (tree : List N → BTree (N × X)) (ns : List N) : Nat :=
  ((List.range ns.length).map (fun k => (ns[k]?.map (tree (ns.take k)).insertLooks).getD 0)).sum

/-! ## Helper lemmas -/

theorem insertLooks_eq (v : N) : ∀ t : BTree (N × X), t.insertLooks v = t.visits v
  | .nil => rfl
  | .node l w r => by rw [BTree.insertLooks, visits_node, insertLooks_eq v l, insertLooks_eq v r]

theorem buildCost_eq (tree : List N → BTree (N × X)) : ∀ (ns : List N), buildCost tree ns =
    ((List.range ns.length).attach.map (fun k => (tree (ns.take k.1)).visits
      (ns[k.1]'(List.mem_range.1 k.2)))).sum := by
  intro ns
  rw [buildCost]
  congr 1
  conv_lhs => rw [← List.attach_map_subtype_val (List.range ns.length), List.map_map]
  refine List.map_congr_left fun k _ => ?_
  simp only [Function.comp]
  rw [List.getElem?_eq_getElem (List.mem_range.1 k.2)]
  simp [insertLooks_eq]

theorem firsts_mid {x : N} {p q : List N} (hd : (p ++ x :: q).Nodup) :
    (firsts x (p ++ x :: q)).length = (firsts x p).length + 1 := by
  obtain ⟨hd1, hd2, hd3⟩ := List.nodup_append.1 hd
  obtain ⟨hd4, hd5⟩ := List.nodup_cons.1 hd2
  have hp : x ∉ p := fun h => hd3 x h x List.mem_cons_self rfl
  have hs : ∀ y, span x y x = true := fun y => by
    rcases le_total x y with h | h <;> simp [span, h]
  rw [firsts, List.filter_append, List.length_append, List.filter_cons_of_pos, List.length_cons]
  · have h1 : p.filter (fun y => (p ++ x :: q).find? (span x y) = some y) = firsts x p := by
      rw [firsts]
      apply List.filter_congr
      intro y hy
      rw [List.find?_append]
      cases e : p.find? (span x y) with
      | some z => simp
      | none =>
        rw [List.find?_cons_of_pos (hs y)]
        have : x ≠ y := by rintro rfl; exact hp hy
        simp [this]
    have h2 : q.filter (fun y => (p ++ x :: q).find? (span x y) = some y) = [] := by
      rw [List.filter_eq_nil_iff]
      intro y hy
      rw [List.find?_append]
      cases e : p.find? (span x y) with
      | some z =>
        have hz := List.mem_of_find?_eq_some e
        have : z ≠ y := hd3 z hz y (List.mem_cons_of_mem _ hy)
        simp [this]
      | none =>
        rw [List.find?_cons_of_pos (hs y)]
        have : x ≠ y := by rintro rfl; exact hd4 hy
        simp [this]
    rw [h1, h2]
    simp
  · rw [List.find?_append, List.find?_eq_none.2, List.find?_cons_of_pos (hs x)]
    · simp
    · intro z hz
      simp only [span, decide_eq_true_eq]
      rintro (⟨h1, h2⟩ | ⟨h1, h2⟩) <;> exact hp (le_antisymm h1 h2 ▸ hz)

theorem rank_sorted {ys : List N} (h : ys.Pairwise (· < ·)) :
    ys.map (fun x => (ys.filter (· < x)).length) = List.range ys.length := by
  induction ys with
  | nil => rfl
  | cons y ys ih =>
    obtain ⟨h1, h2⟩ := List.pairwise_cons.1 h
    rw [List.length_cons, List.range_succ_eq_map, List.map_cons, ← ih h2, List.map_map]
    congr 1
    · rw [List.length_eq_zero_iff, List.filter_eq_nil_iff]
      intro a ha
      rcases List.mem_cons.1 ha with rfl | ha
      · simp
      · simpa using (h1 a ha).le
    · refine List.map_congr_left fun x hx => ?_
      rw [List.filter_cons_of_pos (by simpa using h1 x hx)]
      rfl

theorem rank_sum {xs : List N} (hd : xs.Nodup) (f : Nat → ℚ) :
    (xs.map (fun x => f (xs.filter (· < x)).length)).sum = ((List.range xs.length).map f).sum := by
  have hp := xs.mergeSort_perm (fun a b => decide (a ≤ b))
  have hs : (xs.mergeSort (fun a b => decide (a ≤ b))).Pairwise (· < ·) := by
    have h1 := List.pairwise_mergeSort (le := fun a b : N => decide (a ≤ b)) (by simpa using fun a b c => le_trans)
      (by simpa using fun a b => le_total a b) xs
    have h2 : (xs.mergeSort (fun a b => decide (a ≤ b))).Nodup := hp.nodup_iff.2 hd
    exact (h1.and h2).imp fun h => lt_of_le_of_ne (by simpa using h.1) h.2
  generalize xs.mergeSort (fun a b => decide (a ≤ b)) = ys at hp hs
  rw [← hp.length_eq, ← rank_sorted hs, List.map_map, ← (hp.map _).sum_eq]
  congr 1
  refine List.map_congr_left fun x _ => ?_
  simp only [Function.comp]
  rw [(hp.filter _).length_eq]

theorem harmonic_sum (n : Nat) : ((List.range n).map (fun i => harmonic (i + 1))).sum = (n + 1) * harmonic n - n := by
  induction n with
  | zero => simp
  | succ n ih =>
    rw [List.range_succ, List.map_append, List.sum_append, ih, List.map_singleton, List.sum_singleton, harmonic_succ]
    push_cast
    have : (n : ℚ) + 1 ≠ 0 := by positivity
    field_simp
    ring

theorem visits_le_nlev (v : N) : ∀ t : BTree (N × X), t.visits v ≤ t.nlev
  | .nil => le_rfl
  | .node l w r => by
    rw [visits_node, BTree.nlev]
    have h1 := visits_le_nlev v l
    have h2 := visits_le_nlev v r
    split_ifs <;> omega

theorem size_lt_pow_nlev : ∀ t : BTree X, t.size + 1 ≤ 2 ^ t.nlev
  | .nil => le_rfl
  | .node l w r => by
    have h1 := size_lt_pow_nlev l
    have h2 := size_lt_pow_nlev r
    have h3 : 2 ^ l.nlev ≤ 2 ^ max l.nlev r.nlev := Nat.pow_le_pow_right (by omega) (le_max_left _ _)
    have h4 : 2 ^ r.nlev ≤ 2 ^ max l.nlev r.nlev := Nat.pow_le_pow_right (by omega) (le_max_right _ _)
    rw [BTree.size, BTree.nlev, Nat.pow_succ]
    omega

theorem avl_visits (v : N) : ∀ t : BTree (N × Nat), avlOk t → v ∉ t.keys → t.nlev ≤ 2 * t.visits v
  | .nil, _, _ => by simp [BTree.nlev]
  | .node l w r, h, hv => by
    obtain ⟨o1, o2, o3, o4, o5⟩ := h
    rw [BTree.keys_node, List.mem_append, List.mem_cons, not_or, not_or] at hv
    have h1 := avl_visits v l o1 hv.1
    have h2 := avl_visits v r o2 hv.2.2
    rw [o1.hOk.nlev, o2.hOk.nlev] at o4 o5
    rw [visits_node, BTree.nlev, if_neg hv.2.1]
    split_ifs <;> omega

theorem two_pow_le_fib : ∀ m : Nat, 2 ^ (m / 2) ≤ Nat.fib (m + 2)
  | 0 => by decide
  | 1 => by decide
  | m + 2 => by
    have h := two_pow_le_fib m
    rw [show (m + 2) / 2 = m / 2 + 1 by omega, Nat.pow_succ, Nat.fib_add_two (n := m + 2)]
    have := Nat.fib_mono (show m + 2 ≤ m + 2 + 1 by omega)
    omega

theorem log_sum_gt (c : Nat) : ∃ n, 0 < n ∧ c * n < ((List.range n).map (fun k => Nat.log 2 (k + 1))).sum := by
  refine ⟨2 * 2 ^ (2 * c + 1), by positivity, ?_⟩
  rw [two_mul, List.range_add, List.map_append, List.sum_append, List.map_map]
  have h1 : 2 ^ (2 * c + 1) * (2 * c + 1) ≤ ((List.range (2 ^ (2 * c + 1))).map
      ((fun k => Nat.log 2 (k + 1)) ∘ (fun x => 2 ^ (2 * c + 1) + x))).sum := by
    refine le_trans ?_ (List.card_nsmul_le_sum _ (2 * c + 1) ?_)
    · simp
    · intro x hx
      obtain ⟨k, -, rfl⟩ := List.mem_map.1 hx
      exact Nat.le_log_of_pow_le (by omega) (by simp; omega)
  have h2 : 0 < 2 ^ (2 * c + 1) := by positivity
  refine lt_of_lt_of_le ?_ (Nat.le_add_left _ _)
  refine lt_of_lt_of_le ?_ h1
  generalize 2 ^ (2 * c + 1) = m at h2
  nlinarith

end Extra
