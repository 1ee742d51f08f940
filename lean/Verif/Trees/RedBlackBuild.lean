import Verif.Trees.RedBlackDeep
import Verif.Trees.BuildCost

/-!
# Inserts that make building a `RedBlackTree` take quadratic time: helper lemmas for C113
-/

namespace Extra

/-- the lower right part of the deep tree after `k` rounds -/
def deepR : Nat → BTree (Int × Color)
  | 0 => .node .nil (8, .black) .nil
  | k + 1 => deepRight (-6 * k) (deepR k)

theorem deepR_black : ∀ k, (deepR k).isRed = false
  | 0 => rfl
  | _ + 1 => rfl

theorem deepR_exec (k : Nat) : rbExecs ((deepOrder k).map (fun v => .insert (.num v))) Bst.empty =
    .ok (List.replicate (6 * k + 5) (.ok (.unit, false)), ⟨deepTop (-6 * k) (deepR k), 6 * k + 5⟩) := by
  induction k with
  | zero => decide +kernel
  | succ k ih =>
    have h5 := deep_round (-6 * k - 6) (deepR k) (deepR_black k) (6 * k + 5)
    rw [show (-6 * (k : Int) - 6 + 6) = -6 * k by ring] at h5
    rw [deepOrder, List.map_append, rbExecs_append _ _ _ _ _ _ _ ih h5, List.replicate_append_replicate]
    push_cast
    rw [show -6 * ((k : Int) + 1) = -6 * k - 6 by ring, show 6 * ((k : Int) + 1) + 5 = 6 * k + 5 + 6 by ring,
      show 6 * (k + 1) + 5 = 6 * k + 5 + 6 by ring]
    rfl

/-- the node with the number is there, and below a black one -/
def Below (v : Int) (t : BTree (Int × Color)) : Prop :=
  ∀ fs, ∃ a x b f gs, t.descend (t.insertPath v) fs = (.node a x b, f :: gs) ∧ f.w.2 = .black ∧
    plug (.node a x b) (f :: gs) = plug t fs

theorem Below.right {v x : Int} {c : Color} {l r : BTree (Int × Color)} (h : Below v r) (hx : x < v) :
    Below v (.node l (x, c) r) := by
  intro fs
  obtain ⟨a, y, b, f, gs, h1, h2, h3⟩ := h (⟨false, (x, c), l⟩ :: fs)
  refine ⟨a, y, b, f, gs, ?_, h2, h3⟩
  rw [BTree.insertPath, if_neg hx.ne', if_neg (not_lt.2 hx.le)]
  exact h1

theorem deepR_below (k : Nat) : Below 5 (deepR (k + 1)) := by
  induction k with
  | zero =>
    intro fs
    exact ⟨.nil, (5, .red), .nil, ⟨true, (6, .black), _⟩, _, rfl, rfl, rfl⟩
  | succ k ih =>
    show Below 5 (deepRight (-6 * ((k + 1 : Nat) : Int)) (deepR (k + 1)))
    push_cast
    exact (((ih.right (by omega)).right (by omega)).right (by omega)).right (by omega)

theorem deepR_flag (k : Nat) : (deepR (k + 1)).insertNode (5, .red) = (deepR (k + 1), false) := by
  have right : ∀ (x : Int) (c : Color) (l r : BTree (Int × Color)), x < 5 → r.insertNode (5, .red) = (r, false) →
      (BTree.node l (x, c) r).insertNode (5, .red) = (.node l (x, c) r, false) := by
    intro x c l r hx h
    rw [insertNode_node, if_neg hx.ne', if_neg (not_lt.2 hx.le), h]
  induction k with
  | zero => decide +kernel
  | succ k ih =>
    show (deepRight (-6 * ((k + 1 : Nat) : Int)) (deepR (k + 1))).insertNode (5, .red) =
      (deepRight (-6 * ((k + 1 : Nat) : Int)) (deepR (k + 1)), false)
    push_cast
    exact right _ _ _ _ (by omega) (right _ _ _ _ (by omega) (right _ _ _ _ (by omega) (right _ _ _ _ (by omega) ih)))

theorem deepR_visits (k : Nat) : (deepR (k + 1)).visits 5 = 4 * (k + 1) := by
  have right : ∀ (x : Int) (c : Color) (l r : BTree (Int × Color)), x < 5 →
      (BTree.node l (x, c) r).visits 5 = r.visits 5 + 1 := by
    intro x c l r h
    rw [visits_node, if_neg h.ne', if_neg (not_lt.2 h.le), Nat.add_comm]
  induction k with
  | zero => decide +kernel
  | succ k ih =>
    show (deepRight (-6 * ((k + 1 : Nat) : Int)) (deepR (k + 1))).visits 5 = _
    push_cast
    rw [deepRight, right _ _ _ _ (by omega), right _ _ _ _ (by omega), right _ _ _ _ (by omega), right _ _ _ _ (by omega), ih]
    omega

/-- inserting the number once more changes nothing -/
theorem deep_again (k : Nat) (n : Int) :
    rbExec ⟨deepTop (-6 * (k + 1)) (deepR (k + 1)), n⟩ (.insert (.num 5)) =
      .ok (.ok (.unit, true), ⟨deepTop (-6 * (k + 1)) (deepR (k + 1)), n⟩) := by
  have hb : Below 5 (deepTop (-6 * ((k : Int) + 1)) (deepR (k + 1))) := (deepR_below k).right (by omega)
  have hf : (deepTop (-6 * ((k : Int) + 1)) (deepR (k + 1))).insertNode (5, .red) =
      (deepTop (-6 * ((k : Int) + 1)) (deepR (k + 1)), false) := by
    rw [deepTop, insertNode_node, if_neg (by show ¬ _ ; omega), if_neg (by show ¬ _; omega), deepR_flag]
  obtain ⟨a, x, b, f, gs, h1, h2, h3⟩ := hb []
  have hr : rbRecolor a x b (f :: gs) = .ok (plug (.node a x b) (f :: gs)) := by
    cases gs with
    | nil => rfl
    | cons g gs => rw [rbRecolor, if_pos h2]
  simp only [rbExec, validNum, rbInsertNum]
  rw [deepTop] at hf h1 h3 ⊢
  rw [show plug _ [] = _ from rfl] at h3
  simp only [hf, h1, hr, h3, bind, Except.bind, pure, Except.pure]
  rfl

theorem deep_agains (k : Nat) (n : Int) : ∀ j, rbExecs ((List.replicate j (5 : Int)).map (fun v => .insert (.num v)))
    ⟨deepTop (-6 * (k + 1)) (deepR (k + 1)), n⟩ =
      .ok (List.replicate j (.ok (.unit, true)), ⟨deepTop (-6 * (k + 1)) (deepR (k + 1)), n⟩)
  | 0 => rfl
  | j + 1 => by
    rw [List.replicate_succ, List.map_cons, rbExecs, deep_again]
    simp only [bind, Except.bind, deep_agains k n j, pure, Except.pure]
    rfl

theorem deepOrder_length (k : Nat) : (deepOrder k).length = 6 * k + 5 := by
  induction k with
  | zero => rfl
  | succ k ih => simp only [deepOrder, List.length_append, ih, deepRound, List.length_cons, List.length_nil]; omega

end Extra
