import Verif.Trees.BstNanProofs
import Mathlib.Order.Fin.Basic
import Batteries.Lean.Except

/-!
# `nan` in a `BST`: C116

The specification keeps the numbers in the order of `inorder_traverse`.
-/

set_option linter.unusedSectionVars false

namespace Extra
variable {N : Type} [LinearOrder N]

/-! ## C116

Full statement: `nan` can be kept in a `BST` beside other numbers: it is found and can be removed, and the other
numbers are held as without it. -/

/-- C116 fails: whatever the tree, `nan` is not found, `remove(nan)` changes nothing and warns, and `insert(nan)` never
warns but makes the tree longer by one, even if there is a `nan` already. -/
theorem C116_nan_not_found (t : NanBst N) :
    t.exec (.contains (.num .nan)) = (.ok (.bool false, false), t) ∧
    t.exec (.remove (.num .nan)) = (.ok (.unit, true), t) ∧
    (t.exec (.insert (.num .nan))).1 = .ok (.unit, false) ∧
    (t.exec (.insert (.num .nan))).2.length = t.length + 1 ∧
    (t.exec (.insert (.num .nan))).2.root.inorder = t.root.inorder ++ [.nan] := by
  obtain ⟨h1, h2⟩ := nanInsert_nan t.root
  refine ⟨?_, ?_, ?_, ?_, ?_⟩
  · simp only [NanBst.exec, nanContains_nan]
  · simp only [NanBst.exec, nanRemove_nan, Bool.not_false, Bool.false_eq_true, if_false]
  · simp only [NanBst.exec, h2, Bool.not_true]
  · simp only [NanBst.exec, h2, if_true]
  · simp only [NanBst.exec, h1]

/-- C116, in part: in a history without removals of numbers (and without `invert`) the other numbers are held as
without `nan`: every call returns what a list of the numbers in the order of `inorder_traverse` would, to which `nan` is
added at the end and any other new number before the first greater one.  `get_min` and `get_max` are the first and the
last of it, `nan` or not. -/
theorem C116_no_removals_partial (ops : List (BstOp (PyNum N))) (h : ∀ op ∈ ops, Keeping op) :
    (NanBst.execs ops NanBst.empty).1 = (nanSpecs ops []).1 :=
  nanExecs_spec ops h _ ⟨trivial, rfl, rfl⟩

/-- C116, in part: so a number is found exactly if it was inserted since the last `clear`. -/
theorem C116_found_partial (ops : List (BstOp (PyNum N))) (h : ∀ op ∈ ops, Keeping op) (v : N) :
    ((NanBst.execs ops NanBst.empty).2.exec (.contains (.num (.num v)))).1 =
      .ok (.bool (decide (.insert (.num (.num v)) ∈ sinceClear ops)), false) := by
  have I := nanExecs_inv ops h (NanBst.empty : NanBst N) (xs := []) ⟨trivial, rfl, rfl⟩
  simp only [NanBst.exec, nanContains_num I.1, I.2.1, nanSpecs_mem]

/-- three `nan`s among numbers -/
def nanSample : List (BstOp (PyNum (Fin 20))) :=
  [.insert (.num .nan), .insert (.num (.num 5)), .insert (.num (.num 3)), .insert (.num .nan), .insert (.num (.num 5)),
   .getMin, .getMax, .insert (.num (.num 9)), .insert (.num .nan), .insert (.num (.num 7)), .contains (.num (.num 3)),
   .contains (.num .nan), .remove (.num .nan), .len, .inorder, .getMax]

example : (∀ op ∈ nanSample, Keeping op) ∧ (nanSpecs nanSample []).1.drop 5 =
    [.ok (.num .nan, false), .ok (.num .nan, false), .ok (.unit, false), .ok (.unit, false), .ok (.unit, false),
     .ok (.bool true, false), .ok (.bool false, false), .ok (.unit, true), .ok (.int 7, false),
     .ok (.list [.nan, .num 3, .num 5, .nan, .num 7, .num 9, .nan], false), .ok (.num .nan, false)] := by
  constructor
  · intro op hop
    simp only [nanSample, List.mem_cons, List.not_mem_nil, or_false] at hop
    rcases hop with rfl | rfl | rfl | rfl | rfl | rfl | rfl | rfl | rfl | rfl | rfl | rfl | rfl | rfl | rfl | rfl <;> trivial
  · decide +kernel

/-- C116 fails with removals: after `remove(5)` on `BST([5, 3, nan])`, where without `nan` it would be right, `3` is
still there but is not found. -/
theorem C116_lost :
    (NanBst.execs [.insert (.num (.num 5)), .insert (.num (.num 3)), .insert (.num .nan), .remove (.num (.num 5)),
      .inorder, .len, .contains (.num (.num 3))] (NanBst.empty : NanBst (Fin 20))).1.drop 4 =
    [.ok (.list [.num 3, .nan], false), .ok (.int 2, false), .ok (.bool false, false)] ∧
    (Bst.execs [.insert (.num 5), .insert (.num 3), .remove (.num 5), .inorder, .len, .contains (.num 3)]
      (Bst.empty : Bst (Fin 20) Unit)).1.drop 3 =
    [.ok (.list [3], false), .ok (.int 1, false), .ok (.bool true, false)] := by
  constructor <;> decide +kernel

/-- C116, in part: without `nan` every history gives what the model of numbers only (Bst.lean) gives. -/
theorem C116_without_nan_partial (ops : List (BstOp N)) :
    (NanBst.execs (ops.map numOp) NanBst.empty).1 = (Bst.execs ops Bst.empty).1.map numRes :=
  nan_same ops Bst.empty

example : (NanBst.execs ([BstOp.insert (.num 5), .insert (.num 3), .insert (.num 7), .remove (.num 5), .inorder].map numOp)
    (NanBst.empty : NanBst (Fin 20))).1 = [.ok (.unit, false), .ok (.unit, false), .ok (.unit, false), .ok (.unit, false),
      .ok (.list [.num 3, .num 7], false)] := by decide +kernel

end Extra
