import Verif.Trees.AvlExact
import Verif.Props.Avl

/-!
# `AVL.remove`: C44, the exact condition

`C44_remove_partial` gives a condition under which the balance is kept.  Here is the exact one, which
depends on the number removed: `goneWay`, `LosesLevel` and `Unbalances` (Verif/Trees/AvlExact.lean) are
said with subtrees, ways and numbers of levels only.
-/

namespace Extra
variable {N : Type} [LinearOrder N]

/-- a balanced search tree with true heights and the right length -/
structure AvlGood (t : Bst N Nat) : Prop where
  search : SearchTree t.root
  balanced : Balanced t.root
  heights : HeightsTrue t.root
  len : t.length = t.root.size

/-- the call removes a number held, in a way that loses the balance -/
def LosesBalance (t : Bst N Nat) (op : AvlOp N) : Prop :=
  ∃ v, op = .remove (.num v) ∧ Holds t.root v ∧ Unbalances t.root (goneWay v t.root)

/-- C44, exactly: a removal from a balanced search tree leaves a balanced tree if and only if it is not
one of those described by `Unbalances`.

Missing: the property wants the balance kept always (`C44_unbalanced`). -/
theorem C44_remove_exact_partial (t : Bst N Nat) (hs : SearchTree t.root) (hb : Balanced t.root)
    (hh : HeightsTrue t.root) {v : N} (hv : Holds t.root v) :
    ∃ w t', avlExec t (.remove (.num v)) = .ok (.ok (.unit, w), t') ∧
      (Balanced t'.root ↔ ¬ Unbalances t.root (goneWay v t.root)) := by
  have ho := (avlOk_iff _).2 ⟨hh, hb⟩
  obtain ⟨w, t', e, hh', -⟩ := C44_remove_partial t hs hb hh v
  refine ⟨w, t', e, ?_⟩
  have hbal : Balanced t'.root ↔ avlOk t'.root := by rw [avlOk_iff]; simp [hh']
  rw [hbal]
  rw [holds_iff] at hv
  obtain ⟨t, n⟩ := t
  simp only at hs hb hh ho hv ⊢
  by_cases c : ∃ w : N × Nat, t = .node .nil w .nil
  · obtain ⟨w, rfl⟩ := c
    have hw : v = w.1 := by simpa using hv
    subst hw
    simp only [avlExec, avlRemoveNum, if_true, bind, Except.bind] at e
    cases e
    rw [goneWay, if_neg (lt_irrefl _), if_neg (lt_irrefl _)]
    exact iff_of_true trivial id
  · have key : avlRemoveNum ⟨t, n⟩ v = (do
        match ← t.avlRemove v with
        | none => pure (⟨t, n⟩, true)
        | some (s, _) => pure (⟨s, n - 1⟩, false)) := by
      rcases t with _ | ⟨_ | _, w, _ | _⟩
      · simp at hv
      · exact absurd ⟨w, rfl⟩ c
      · rfl
      · rfl
      · rfl
    obtain ⟨s, rot, A, B, a, -⟩ := (avlRemove_spec v t hs ho).2 hv
    simp only [avlExec, key, a, bind, Except.bind] at e
    cases e
    exact (avlRemove_exact v t hs ho a).2

/-- C44: one call on a balanced search tree: everything but the balance is always kept, and the balance is
lost exactly by the removals described -/
theorem C44_step (t : Bst N Nat) (h : AvlGood t) (op : AvlOp N) :
    ∃ r t', avlExec t op = .ok (r, t') ∧ SearchTree t'.root ∧ HeightsTrue t'.root ∧
      t'.length = t'.root.size ∧ (Balanced t'.root ↔ ¬ LosesBalance t op) := by
  obtain ⟨h1, h2, h3, h4⟩ := h
  have same : ∀ r, avlExec t op = .ok (r, t) → ¬ LosesBalance t op →
      ∃ r t', avlExec t op = .ok (r, t') ∧ SearchTree t'.root ∧ HeightsTrue t'.root ∧
        t'.length = t'.root.size ∧ (Balanced t'.root ↔ ¬ LosesBalance t op) :=
    fun r e k => ⟨r, t, e, h1, h3, h4, iff_of_true h2 k⟩
  cases op with
  | insert v =>
    cases v with
    | num v =>
      obtain ⟨k1, k2⟩ := C43_insert t h1 h2 h3 h4 v
      by_cases hv : Holds t.root v
      · exact same _ (k1 hv) (by rintro ⟨_, k, -⟩; cases k)
      · obtain ⟨t', e, a, b, c, d, f⟩ := k2 hv
        refine ⟨_, t', e, a, c, ?_, iff_of_true b (by rintro ⟨_, k, -⟩; cases k)⟩
        have hp : t'.root.keys.Perm (v :: t.root.keys) := by
          have hd : ∀ s : BTree (N × Nat), SearchTree s → s.keys.Nodup := fun s hs =>
            (show s.keys.Pairwise (· < ·) from hs).imp (fun {a b} k => ne_of_lt k)
          rw [holds_iff] at hv
          rw [List.perm_ext_iff_of_nodup (hd _ a) (List.nodup_cons.2 ⟨hv, hd _ h1⟩)]
          intro x; rw [← holds_iff, f, List.mem_cons, holds_iff]
        have := hp.length_eq
        rw [List.length_cons, BTree.keys_length_size, BTree.keys_length_size] at this
        rw [d, h4, this]; simp
    | none => exact same _ rfl (by rintro ⟨_, k, -⟩; cases k)
    | other => exact same _ rfl (by rintro ⟨_, k, -⟩; cases k)
  | remove v =>
    cases v with
    | num v =>
      obtain ⟨k1, k2⟩ := C46_remove t h1 h2 h3 v
      by_cases hv : Holds t.root v
      · obtain ⟨t', A, B, e, l, i1, i2, s⟩ := k2 hv
        obtain ⟨w, t2, e2, hb⟩ := C44_remove_exact_partial t h1 h2 h3 hv
        obtain ⟨w3, t3, e3, hh, -⟩ := C44_remove_partial t h1 h2 h3 v
        rw [e] at e2 e3
        cases e2; cases e3
        refine ⟨_, t', e, s, hh, ?_, hb.trans (not_congr ?_)⟩
        · simp only [avlExec, Except.ok.injEq, Prod.mk.injEq, BstVal.list.injEq, and_true] at i1 i2
          rw [l, h4, ← BTree.keys_length_size, ← BTree.keys_length_size, i1, i2]
          simp only [List.length_append, List.length_cons]
          push_cast
          ring
        · constructor
          · exact fun k => ⟨v, rfl, hv, k⟩
          · rintro ⟨v', k, -, k'⟩
            cases k
            exact k'
      · refine same _ (k1 hv) ?_
        rintro ⟨v', k, k', -⟩
        cases k
        exact hv k'
    | none => exact same _ rfl (by rintro ⟨_, k, -⟩; cases k)
    | other => exact same _ rfl (by rintro ⟨_, k, -⟩; cases k)
  | clear =>
    refine ⟨_, Bst.empty, rfl, by simp [Bst.empty, SearchTree, BTree.inorder], ?_, rfl, iff_of_true ?_ ?_⟩
    · exact ((avlOk_iff (.nil : BTree (N × Nat))).1 trivial).1
    · exact ((avlOk_iff (.nil : BTree (N × Nat))).1 trivial).2
    · rintro ⟨_, k, -⟩; cases k
  | contains v => exact same _ rfl (by rintro ⟨_, k, -⟩; cases k)
  | getMin => exact same _ rfl (by rintro ⟨_, k, -⟩; cases k)
  | getMax => exact same _ rfl (by rintro ⟨_, k, -⟩; cases k)
  | len => exact same _ rfl (by rintro ⟨_, k, -⟩; cases k)
  | getHeight => exact same _ rfl (by rintro ⟨_, k, -⟩; cases k)
  | isBalanced => exact same _ rfl (by rintro ⟨_, k, -⟩; cases k)
  | inorder => exact same _ rfl (by rintro ⟨_, k, -⟩; cases k)

/-- the tree is balanced after each of the calls -/
def BalancedThroughout : List (AvlOp N) → Bst N Nat → Prop
  | [], _ => True
  | op :: ops, t => ∃ r t', avlExec t op = .ok (r, t') ∧ Balanced t'.root ∧ BalancedThroughout ops t'

/-- no call is a removal that loses the balance -/
def NeverUnbalances : List (AvlOp N) → Bst N Nat → Prop
  | [], _ => True
  | op :: ops, t => ¬ LosesBalance t op ∧ ∀ r t', avlExec t op = .ok (r, t') → NeverUnbalances ops t'

/-- C44 for histories: the tree is balanced after each call exactly if no call is one of the removals
described -/
theorem C44_history_exact (ops : List (AvlOp N)) :
    BalancedThroughout ops Bst.empty ↔ NeverUnbalances ops Bst.empty := by
  suffices H : ∀ (ops : List (AvlOp N)) (t : Bst N Nat), AvlGood t →
      (BalancedThroughout ops t ↔ NeverUnbalances ops t) by
    have := (avlOk_iff (.nil : BTree (N × Nat))).1 trivial
    exact H ops Bst.empty ⟨by simp [Bst.empty, SearchTree, BTree.inorder], this.2, this.1, rfl⟩
  intro ops
  induction ops with
  | nil => exact fun t _ => Iff.rfl
  | cons op ops ih =>
    intro t h
    obtain ⟨r, t', e, k1, k2, k3, k4⟩ := C44_step t h op
    rw [BalancedThroughout, NeverUnbalances, ← k4]
    constructor
    · rintro ⟨r2, t2, e2, h1, h2⟩
      rw [e] at e2
      cases e2
      refine ⟨h1, fun r3 t3 e3 => ?_⟩
      rw [e] at e3
      cases e3
      exact (ih t' ⟨k1, h1, k2, k3⟩).1 h2
    · rintro ⟨h1, h2⟩
      exact ⟨r, t', e, h1, (ih t' ⟨k1, h1, k2, k3⟩).2 (h2 _ _ e)⟩

/-! A case of each kind: in the tree of `C44_unbalanced` before the removal, taking out 7 unbalances, taking
out 0 does not. -/

private def before7 : Bst (Fin 20) Nat :=
  match avlExecs ((([6, 7, 5, 1, 2, 3, 4, 0] : List (Fin 20)).map NumArg.num).map .insert) Bst.empty with
  | .ok (_, t) => t
  | .error _ => Bst.empty

example : Unbalances before7.root (goneWay 7 before7.root) ∧ ¬ Unbalances before7.root (goneWay 0 before7.root) ∧
    Holds before7.root 7 := by
  have e : before7.root = .node (.node (.node (.node .nil (0, 0) .nil) (1, 1) .nil) (2, 2)
      (.node .nil (3, 1) (.node .nil (4, 0) .nil))) (5, 3) (.node .nil (6, 1) (.node .nil (7, 0) .nil)) := by
    decide +kernel
  have w1 : goneWay 7 before7.root = [true, true] := by rw [e]; decide +kernel
  have w2 : goneWay 0 before7.root = [false, false, false] := by rw [e]; decide +kernel
  refine ⟨?_, ?_, ?_⟩
  · rw [w1, e]
    simp [Unbalances, LosesLevel, Tie, BTree.nlev]
  · rw [w2, e]
    simp [Unbalances]
  · rw [e, holds_iff]
    decide +kernel

/-! ## C45 after a removal -/

/-- twelve insertions and one removal -/
def tallAvl : List (AvlOp (Fin 20)) :=
  ([7, 10, 6, 2, 0, 3, 1, 5] : List (Fin 20)).map (fun v => .insert (.num v)) ++
    .remove (.num 6) :: ([9, 4, 8, 11] : List (Fin 20)).map (fun v => .insert (.num v))

/-- **C45 needs that nothing is removed.** One removal among the insertions, and the tree, with 11 numbers still
in order, has height 4, more than C45 allows for 11. -/
theorem C45_removal : ∃ rs t, avlExecs tallAvl Bst.empty = .ok (rs, t) ∧ SearchTree t.root ∧
    avlExec t .len = .ok (.ok (.int 11, false), t) ∧ avlExec t .getHeight = .ok (.ok (.int 4, false), t) ∧
    ¬ Nat.fib (4 + 3) ≤ 11 + 1 := by
  have h : (match avlExecs tallAvl Bst.empty with
    | .ok (_, t) => decide (t.root.inorder.map Prod.fst = [0, 1, 2, 3, 4, 5, 7, 8, 9, 10, 11] ∧
        avlExec t .len = .ok (.ok (.int 11, false), t) ∧ avlExec t .getHeight = .ok (.ok (.int 4, false), t))
    | .error _ => false) = true := by decide +kernel
  revert h
  rcases avlExecs tallAvl Bst.empty with _ | ⟨rs, t⟩
  · exact fun h => absurd h (by simp)
  · intro h
    obtain ⟨h1, h2, h3⟩ := of_decide_eq_true h
    refine ⟨rs, t, rfl, ?_, h2, h3, by decide⟩
    rw [SearchTree, h1]
    decide

end Extra
