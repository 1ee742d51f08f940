import Verif.Trees.AvlNanLast
import Mathlib.Order.Fin.Basic
import Batteries.Lean.Except

/-!
# `nan` in an `AVL`: C125

Numbers are inserted one after the other into an empty tree, as `AVL(iterable)` does.
-/

namespace Extra
variable {N : Type} [LinearOrder N]

/-! ## C125

Full statement: `nan` can be inserted into an `AVL` beside other numbers: no call raises, the numbers inserted are found and
the tree is balanced. -/

/-- C125, in part: without `nan` no call raises, the tree is a balanced search tree, and what was inserted is found and
nothing else. -/
theorem C125_without_nan_partial (vs : List N) :
    ∃ s ws, naInserts (vs.map .num) .nil = .ok (naOf s, ws) ∧ SearchTree s ∧ Balanced s ∧
      ∀ v, naContains (.num v) (naOf s) = decide (v ∈ vs) := by
  obtain ⟨s, ws, e, h1, h2, h3⟩ := naInserts_num vs .nil (by simp) trivial
  refine ⟨s, ws, e, h1, ((avlOk_iff s).1 h2).2, fun v => ?_⟩
  rw [naContains_num s h1]
  simp [h3]

example : ∃ t : BTree (PyNum (Fin 20) × Nat), naInserts ([3, 1, 2, 3].map .num) .nil = .ok (t, [false, false, false, true]) ∧
    naKeys t = [.num 1, .num 2, .num 3] :=
  ⟨.node (.node .nil (.num 1, 0) .nil) (.num 2, 1) (.node .nil (.num 3, 0) .nil), by decide +kernel⟩

/-- C125, in part: one `nan` inserted after any numbers does no harm. No call raises, the tree is balanced, `nan` is the last
in order, and what was inserted is found and nothing else. -/
theorem C125_nan_last_partial (vs : List N) :
    ∃ (t : BTree (PyNum N × Nat)) (ws : List Bool) (xs : List N), naInserts (vs.map .num ++ [.nan]) .nil = .ok (t, ws) ∧ Balanced t ∧
      naKeys t = xs.map .num ++ [.nan] ∧ xs.Pairwise (· < ·) ∧ (∀ v, v ∈ xs ↔ v ∈ vs) ∧
      ∀ v, naContains (.num v) t = decide (v ∈ vs) := by
  obtain ⟨s, ws, e, h1, h2, h3, h4⟩ := ntOf_inserts vs .nil (by simp) trivial (by simp)
  have hm : ∀ v : N, (v : WithTop N) ∈ s.keys ↔ v ∈ vs := fun v => by
    rw [h4]
    simp
  obtain ⟨xs, hx⟩ := keys_top h1 ((h4 ⊤).2 (.inl rfl))
  refine ⟨ntOf s, ws, xs, e, ntOf_balanced ((avlOk_iff s).1 h2).2, ?_, ?_, fun v => ?_, fun v => ?_⟩
  · rw [ntOf_keys, hx]
    simp [topNum, Function.comp_def]
  · rw [hx, List.pairwise_append] at h1
    exact (List.pairwise_map.1 h1.1).imp fun h => WithTop.coe_lt_coe.1 h
  · rw [← hm v, hx]
    simp
  · rw [ntOf_contains s h1 h3, decide_eq_decide]
    exact hm v

example : ∃ t : BTree (PyNum (Fin 20) × Nat), naInserts ([3, 1, 2].map .num ++ [.nan]) .nil =
    .ok (t, [false, false, false, false]) ∧ naKeys t = [.num 1, .num 2, .num 3, .nan] :=
  ⟨.node (.node .nil (.num 1, 0) .nil) (.num 2, 2) (.node .nil (.num 3, 1) (.node .nil (.nan, 0) .nil)), by decide +kernel⟩

/-- C125, in part: a call that does not raise keeps all numbers, `nan` or not, in their order.  It adds the new one among them,
unless there is one that equals it. -/
theorem C125_kept_partial (v : PyNum N) {t t' : BTree (PyNum N × Nat)} {rot new : Bool}
    (h : naInsert v t = .ok (t', rot, new)) :
    (new = true → ∃ a b, naKeys t = a ++ b ∧ naKeys t' = a ++ v :: b) ∧
    (new = false → naKeys t' = naKeys t ∧ ∃ x ∈ naKeys t, v.eq x = true) :=
  naInsert_keys v h

example : (naInsert (.num 2) (.node .nil (.num 1, 1) (.node .nil (.nan, 0) .nil) : BTree (PyNum (Fin 20) × Nat))).toBool = true ∧
    (naInsert .nan (.node .nil (.num 1, 1) (.node .nil (.nan, 0) .nil) : BTree (PyNum (Fin 20) × Nat))).toBool = true := by
  decide +kernel

/-- C125 fails: `nan` always makes the tree longer by one, and it is not found. -/
theorem C125_nan {t t' : BTree (PyNum N × Nat)} {rot new : Bool} (h : naInsert .nan t = .ok (t', rot, new)) :
    new = true ∧ (naKeys t').length = (naKeys t).length + 1 ∧ naContains .nan t' = false := by
  obtain ⟨h1, h2⟩ := naInsert_keys _ h
  cases new with
  | false =>
    obtain ⟨-, x, -, hx⟩ := h2 rfl
    rw [PyNum.eq_nan] at hx
    cases hx
  | true =>
    obtain ⟨a, b, k1, k2⟩ := h1 rfl
    exact ⟨rfl, by rw [k1, k2]; simp; omega, naContains_nan _⟩

/-- C125 fails: `AVL([1, nan, 2])` has `1` at the left of `nan`, where it is not found; in a `BST` it is (C116). -/
theorem C125_lost : ∃ t : BTree (PyNum (Fin 20) × Nat),
    naInserts [.num 1, .nan, .num 2] .nil = .ok (t, [false, false, false]) ∧
    naKeys t = [.num 1, .nan, .num 2] ∧ naContains (.num 1) t = false ∧ naContains (.num 2) t = true :=
  ⟨.node (.node .nil (.num 1, 0) .nil) (.nan, 1) (.node .nil (.num 2, 0) .nil), by decide +kernel⟩

/-- C125 fails: and then `1` can be inserted again. -/
theorem C125_twice : ∃ t : BTree (PyNum (Fin 20) × Nat),
    naInserts [.num 1, .nan, .num 2, .num 1] .nil = .ok (t, [false, false, false, false]) ∧
    naKeys t = [.num 1, .nan, .num 1, .num 2] :=
  ⟨.node (.node .nil (.num 1, 0) .nil) (.nan, 2) (.node (.node .nil (.num 1, 0) .nil) (.num 2, 1) .nil), by decide +kernel⟩

/-- C125 fails: `AVL([nan, 6, 14, 11, 17, 13, 3])` raises an `AttributeError`. -/
theorem C125_raises : (naInserts [.nan, .num 6, .num 14, .num 11, .num 17, .num 13, .num 3]
    (.nil : BTree (PyNum (Fin 20) × Nat))) = .error .attributeError := by decide +kernel

/-- C125 fails: `AVL([6, 4, nan, 16, 17, 7])` raises nothing and is not balanced. -/
theorem C125_unbalanced : ∃ t : BTree (PyNum (Fin 20) × Nat), ∃ ws,
    naInserts [.num 6, .num 4, .nan, .num 16, .num 17, .num 7] .nil = .ok (t, ws) ∧ ¬Balanced t := by
  refine ⟨.node (.node (.node .nil (.num 4, 0) .nil) (.num 6, 2) (.node .nil (.nan, 1) (.node .nil (.num 7, 0) .nil)))
    (.num 16, 3) (.node .nil (.num 17, 0) .nil), List.replicate 6 false, by decide +kernel, fun h => ?_⟩
  have := (h [] _ _ _ rfl).1
  revert this
  decide +kernel

end Extra
