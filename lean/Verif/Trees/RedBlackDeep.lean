import Verif.Trees.RedBlackProofs
import Verif.Trees.SearchMeanProofs
import Mathlib.Algebra.Order.Ring.Int
import Mathlib.Tactic.Ring
import Mathlib.Tactic.Linarith

/-!
# Deep red-black trees: inserts that make a `RedBlackTree` as deep as a list
-/

namespace Extra

/-- the numbers a deep tree is started with -/
def deepStart : List Int := [7, 1, 8, 0, 6]

/-- six numbers to insert when the smallest one held is `x` -/
def deepRound (x : Int) : List Int := [x + 4, x + 3, x + 5, x - 5, x - 6, x + 2]

/-- the start and `k` rounds after it -/
def deepOrder : Nat → List Int
  | 0 => deepStart
  | k + 1 => deepOrder k ++ deepRound (-6 * k)

/-- the upper left part of the tree before a round -/
def deepTop (x : Int) (R : BTree (Int × Color)) : BTree (Int × Color) :=
  .node (.node (.node .nil (x, .red) .nil) (x + 1, .black) (.node .nil (x + 6, .red) .nil)) (x + 7, .black) R

/-- what a round makes of the right part -/
def deepRight (x : Int) (R : BTree (Int × Color)) : BTree (Int × Color) :=
  .node (.node .nil (x + 2, .red) .nil) (x + 3, .black) (.node .nil (x + 4, .red)
    (.node (.node .nil (x + 5, .red) .nil) (x + 6, .black) (.node .nil (x + 7, .red) R)))

theorem deep_round (y : Int) (R : BTree (Int × Color)) (hR : R.isRed = false) (n : Int) :
    rbExecs ((deepRound (y + 6)).map (fun v => .insert (.num v))) ⟨deepTop (y + 6) R, n⟩ =
      .ok (List.replicate 6 (.ok (.unit, false)), ⟨deepTop y (deepRight (y + 6) R), n + 6⟩) := by
  have e1 : y + 6 + 1 = y + 7 := by ring
  have e2 : y + 6 + 2 = y + 8 := by ring
  have e3 : y + 6 + 3 = y + 9 := by ring
  have e4 : y + 6 + 4 = y + 10 := by ring
  have e5 : y + 6 + 5 = y + 11 := by ring
  have e6 : y + 6 + 6 = y + 12 := by ring
  have e7 : y + 6 + 7 = y + 13 := by ring
  have e8 : y + 6 - 5 = y + 1 := by ring
  have e9 : y + 6 - 6 = y := by ring
  simp only [deepRound, deepTop, deepRight, e1, e2, e3, e4, e5, e6, e7, e8, e9, List.map_cons, List.map_nil]
  have hn : ∀ v : Int × Color, (BTree.nil : BTree (Int × Color)).insertNode v = (.node .nil v .nil, true) := fun _ => rfl
  have hr : ∀ (l r : BTree (Int × Color)) v, (BTree.node l (v, Color.red) r).isRed = true := fun _ _ _ => rfl
  have hb : ∀ (l r : BTree (Int × Color)) v, (BTree.node l (v, Color.black) r).isRed = false := fun _ _ _ => rfl
  have hk : ∀ (l r : BTree (Int × Color)) w, (BTree.node l w r).blacken = .node l (w.1, .black) r := fun _ _ _ => rfl
  simp [rbExecs, rbExec, validNum, rbInsertNum, insertNode_node, hn, hr, hb, hk, BTree.insertPath, BTree.descend, rbRecolor, plug,
    sideOk, attachOk, isRed_nil, hR, bind, Except.bind, pure, Except.pure, List.replicate]
  ring

theorem rbExecs_append {N : Type} [LinearOrder N] (ops ops' : List (RbOp N)) : ∀ (t : Bst N Color) rs t' rs' t'',
    rbExecs ops t = .ok (rs, t') → rbExecs ops' t' = .ok (rs', t'') → rbExecs (ops ++ ops') t = .ok (rs ++ rs', t'') := by
  induction ops with
  | nil =>
    intro t rs t' rs' t'' h h'
    cases h
    exact h'
  | cons op ops ih =>
    intro t rs t' rs' t'' h h'
    rw [rbExecs] at h
    cases h1 : rbExec t op with
    | error e => simp [h1, bind, Except.bind] at h
    | ok x =>
      obtain ⟨r, u⟩ := x
      cases h2 : rbExecs ops u with
      | error e => simp [h1, h2, bind, Except.bind] at h
      | ok y =>
        obtain ⟨rs1, u1⟩ := y
        simp only [h1, h2, bind, Except.bind, pure, Except.pure, Except.ok.injEq, Prod.mk.injEq] at h
        obtain ⟨rfl, rfl⟩ := h
        simp only [List.cons_append, rbExecs, h1, ih u _ _ _ _ h2 h', bind, Except.bind, pure, Except.pure]

theorem deep_exec (k : Nat) : ∃ R : BTree (Int × Color), R.isRed = false ∧ R.nlev = 4 * k + 1 ∧
    R.visits 8 = 4 * k + 1 ∧
    rbExecs ((deepOrder k).map (fun v => .insert (.num v))) Bst.empty =
      .ok (List.replicate (6 * k + 5) (.ok (.unit, false)), ⟨deepTop (-6 * k) R, 6 * k + 5⟩) := by
  induction k with
  | zero => exact ⟨.node .nil (8, .black) .nil, by decide +kernel⟩
  | succ k ih =>
    obtain ⟨R, h1, h2, h3, h4⟩ := ih
    refine ⟨deepRight (-6 * k) R, rfl, ?_, ?_, ?_⟩
    · simp only [deepRight, BTree.nlev, h2]; omega
    · have : ∀ (x : Int) (_ : x < 8) (c : Color) (l r : BTree (Int × Color)),
          (BTree.node l (x, c) r).visits 8 = r.visits 8 + 1 := by
        intro x h c l r
        rw [visits_node, if_neg h.ne', if_neg (not_lt.2 h.le), Nat.add_comm]
      rw [deepRight, this _ (by omega), this _ (by omega), this _ (by omega), this _ (by omega), h3]
      omega
    · have h5 := deep_round (-6 * k - 6) R h1 (6 * k + 5)
      rw [show (-6 * (k : Int) - 6 + 6) = -6 * k by ring] at h5
      rw [deepOrder, List.map_append, rbExecs_append _ _ _ _ _ _ _ h4 h5, List.replicate_append_replicate]
      push_cast
      rw [show -6 * ((k : Int) + 1) = -6 * k - 6 by ring, show 6 * ((k : Int) + 1) + 5 = 6 * k + 5 + 6 by ring,
        show 6 * (k + 1) + 5 = 6 * k + 5 + 6 by ring]

end Extra
