import Verif.Trees.PtrSpec
import Verif.Trees.PtrRbCalls
import Verif.Props.RedBlack
import Batteries.Lean.Except

/-!
# Property C78: the links of RedBlackTree

The model is the one with node objects (Verif/Trees/PtrRb.lean).  `WellLinked` and `Shows` (Verif/Trees/PtrSpec.lean)
are the specification; `rbExecs` (Verif/Trees/RedBlack.lean) is the model with trees as values, which C54-C56 are
about.  A history of calls on node objects goes on after an exception.
-/

set_option linter.unusedSectionVars false

namespace Extra
variable {N : Type} [LinearOrder N]

/-- the objects are linked as this tree of numbers and colours, and `_length` is this -/
structure RbAt (s : PTree N Color) (t : BTree (N × Color)) (n : Int) : Prop where
  links : WellLinked s
  tree : Shows s.node s.root t
  len : s.length = n

private theorem RbAt.of {s : PTree N Color} {t : Bst N Color} (h : PtrHolds s t) : RbAt s t.root t.length :=
  ⟨h.wellLinked, h.shows, h.length⟩

private theorem agree (ops : List (RbOp N)) {s : PTree N Color} {t t' : Bst N Color} {rs : List (BstRes N)}
    (h : PtrHolds s t) (e : rbExecs ops t = .ok (rs, t')) :
    (pRbExecs ops s).1 = rs ∧ PtrHolds (pRbExecs ops s).2 t' := by
  induction ops generalizing s t rs with
  | nil =>
    simp only [rbExecs, Except.ok.injEq, Prod.mk.injEq] at e
    obtain ⟨rfl, rfl⟩ := e
    exact ⟨rfl, h⟩
  | cons op ops ih =>
    cases e1 : rbExec t op with
    | error x => simp [rbExecs, e1, bind, Except.bind] at e
    | ok y =>
      obtain ⟨r, t1⟩ := y
      obtain ⟨s1, h1, h2⟩ := rb_exec h op e1
      cases e2 : rbExecs ops t1 with
      | error x => simp [rbExecs, e1, e2, bind, Except.bind] at e
      | ok y =>
        obtain ⟨rs2, t2⟩ := y
        simp only [rbExecs, e1, e2, bind, Except.bind, pure, Except.pure, Except.ok.injEq, Prod.mk.injEq] at e
        obtain ⟨rfl, rfl⟩ := e
        obtain ⟨h3, h4⟩ := ih h2 e2
        exact ⟨by simp only [pRbExecs, h1, h3], by simp only [pRbExecs, h1]; exact h4⟩

/-- C78 for histories for which the tree as a value has an answer to every call: the node objects give the same
answers, and at the end they are linked as that tree.

Missing: histories in which a removal raises AttributeError (`C78_attribute_error` says what this leaves), and
histories that go on with a tree that is no search tree any more (`C56_order_lost`). -/
theorem C78_answers_partial (ops : List (RbOp N)) (rs : List (BstRes N)) (t : Bst N Color)
    (e : rbExecs ops Bst.empty = .ok (rs, t)) :
    (pRbExecs ops PTree.empty).1 = rs ∧ RbAt (pRbExecs ops PTree.empty).2 t.root t.length := by
  obtain ⟨h1, h2⟩ := agree ops (holds_empty (N := N) (X := Color)) e
  exact ⟨h1, .of h2⟩

/-! ## Without removals -/

private theorem calm (ops : List (RbOp N)) (hr : ∀ v, RbOp.remove v ∉ ops) : ∀ (t : Bst N Color), SearchTree t.root →
    t.length = (t.root.keys.length : Int) → ∃ rs t', rbExecs ops t = .ok (rs, t') ∧ SearchTree t'.root ∧
      t'.length = (t'.root.keys.length : Int) := by
  induction ops with
  | nil => exact fun t h hl => ⟨[], t, rfl, h, hl⟩
  | cons op ops ih =>
    intro t hs hl
    obtain ⟨r, t1, e1, hs1, hl1⟩ : ∃ r t1, rbExec t op = .ok (r, t1) ∧ SearchTree t1.root ∧
        t1.length = (t1.root.keys.length : Int) := by
      cases op with
      | insert v =>
        cases v with
        | none => exact ⟨_, _, rfl, hs, hl⟩
        | other => exact ⟨_, _, rfl, hs, hl⟩
        | num v =>
          obtain ⟨t1, e, hk, -, hlen, -⟩ := rbInsert_ok t v hs
          refine ⟨_, t1, by simp only [rbExec, validNum, e, bind, Except.bind]; rfl, ?_, ?_⟩
          · rw [searchTree_iff, hk]; exact insertNode_sorted (v, Color.red) _ hs
          · rw [hk, insertNode_length, hlen, hl]
            cases (t.root.insertNode (v, Color.red)).2 <;> simp
      | remove v => exact absurd (List.mem_cons_self) (hr v)
      | contains v => exact ⟨_, _, rfl, hs, hl⟩
      | getMin => exact ⟨_, _, rfl, hs, hl⟩
      | getMax => exact ⟨_, _, rfl, hs, hl⟩
      | len => exact ⟨_, _, rfl, hs, hl⟩
      | inorder => exact ⟨_, _, rfl, hs, hl⟩
      | blackHeight => exact ⟨_, _, rfl, hs, hl⟩
      | clear => exact ⟨_, _, rfl, by simp [Bst.empty, SearchTree, BTree.inorder], by simp [Bst.empty]⟩
    obtain ⟨rs, t2, e2, hs2, hl2⟩ := ih (fun v hv => hr v (List.mem_cons_of_mem _ hv)) t1 hs1 hl1
    refine ⟨r :: rs, t2, ?_, hs2, hl2⟩
    simp only [rbExecs, e1, e2, bind, Except.bind, pure, Except.pure]

/-- C78 for histories without removals: the node objects give the answers of the tree as a value, and they are
linked as a search tree with as many nodes as `_length` says. -/
theorem C78_no_removals (ops : List (RbOp N)) (hr : ∀ v, RbOp.remove v ∉ ops) :
    ∃ rs t, rbExecs ops Bst.empty = .ok (rs, t) ∧ (pRbExecs ops PTree.empty).1 = rs ∧
      RbAt (pRbExecs ops PTree.empty).2 t.root (t.root.keys.length : Int) ∧ SearchTree t.root := by
  obtain ⟨rs, t, e, hs, hl⟩ := calm ops hr Bst.empty (by simp [Bst.empty, SearchTree, BTree.inorder])
    (by simp [Bst.empty])
  obtain ⟨h1, h2⟩ := C78_answers_partial ops rs t e
  exact ⟨rs, t, e, h1, hl ▸ h2, hs⟩

/-! ## Removals -/

private theorem one_more (ops : List (RbOp N)) (op : RbOp N) (s : PTree N Color) :
    pRbExecs (ops ++ [op]) s =
      ((pRbExecs ops s).1 ++ [(pRbExec (pRbExecs ops s).2 op).1], (pRbExec (pRbExecs ops s).2 op).2) := by
  induction ops generalizing s with
  | nil => rfl
  | cons o ops ih =>
    simp only [List.cons_append, pRbExecs, ih]

private theorem recolor_error {a b : BTree (N × Color)} {x : N × Color} {fs : List (Above N Color)} {e : Err}
    (h : rbRecolor a x b fs = .error e) : e = .unmodelled := by
  fun_induction rbRecolor a x b fs <;> first | (cases h; done) | (cases h; rfl) | (rename_i ih; exact ih h)

/-- C78: when a call raises AttributeError from its middle, it was a removal; the objects are linked as a tree
without the number, each other number as often as before; `_length` is as before, one too many. -/
theorem C78_attribute_error (ops : List (RbOp N)) (op : RbOp N) (rs : List (BstRes N)) (t : Bst N Color)
    (e : rbExecs ops Bst.empty = .ok (rs, t)) (e2 : rbExec t op = .error .attributeError) :
    (pRbExecs (ops ++ [op]) PTree.empty).1 = rs ++ [.error .attributeError] ∧
    ∃ v t', op = .remove (.num v) ∧ t.root.keys.Perm (v :: BTree.keys t') ∧
      RbAt (pRbExecs (ops ++ [op]) PTree.empty).2 t' t.length := by
  obtain ⟨h1, h2⟩ := agree ops (holds_empty (N := N) (X := Color)) e
  rw [one_more]
  cases op with
  | remove v =>
    obtain ⟨s', t', k1, k2, k3, n, k4, k5⟩ := (rb_remove h2 v).2 e2
    have k1' : pRbExec (pRbExecs ops PTree.empty).2 (.remove v) = (.error .attributeError, s') := k1
    rw [k1', h1]
    have := RbAt.of k2
    rw [k3] at this
    exact ⟨rfl, n, t'.root, by rw [k4], k5, this⟩
  | insert v =>
    exfalso
    simp only [rbExec] at e2
    cases hv : validNum v with
    | error y => rw [hv] at e2; cases e2
    | ok v =>
      rw [hv] at e2
      simp only [rbInsertNum] at e2
      cases ht : t.root with
      | nil => rw [ht] at e2; cases e2
      | node l w r =>
        rw [ht] at e2
        simp only at e2
        rcases hd : ((BTree.node l w r).insertNode (v, Color.red)).1.descend ((BTree.node l w r).insertPath v) [] with
          ⟨_ | ⟨a, x, b⟩, fs⟩
        · rw [hd] at e2; cases e2
        · rw [hd] at e2
          simp only at e2
          cases hx : rbRecolor a x b fs with
          | ok u => rw [hx] at e2; cases e2
          | error y =>
            rw [hx, recolor_error hx] at e2
            cases e2
  | contains v => cases e2
  | getMin => cases e2
  | getMax => cases e2
  | len => cases e2
  | inorder => cases e2
  | blackHeight => cases e2
  | clear => cases e2

/-- C78, the next call: if the objects are linked as a search tree with the colour invariants, then after any one
call they are linked as a search tree, with `_length` changed by as much as there are more or fewer nodes — or the
call was a removal that raised AttributeError, the number is gone, and `_length` is one too many.

Missing: trees without the colour invariants, which insertions and removals can leave (`C55_invariants_lost`,
`C56_invariants_lost`). -/
theorem C78_next_call_partial (ops : List (RbOp N)) (op : RbOp N) (rs : List (BstRes N)) (t : Bst N Color)
    (e : rbExecs ops Bst.empty = .ok (rs, t)) (hs : SearchTree t.root) (hc : RedBlackOk t.root) :
    (∃ r t', rbExec t op = .ok (r, t') ∧ (pRbExecs (ops ++ [op]) PTree.empty).1 = rs ++ [r] ∧
      RbAt (pRbExecs (ops ++ [op]) PTree.empty).2 t'.root t'.length ∧ SearchTree t'.root ∧
      (op = .clear ∨ t'.length - (t'.root.keys.length : Int) = t.length - (t.root.keys.length : Int))) ∨
    ∃ v t', op = .remove (.num v) ∧ Holds t.root v ∧
      (pRbExecs (ops ++ [op]) PTree.empty).1 = rs ++ [.error .attributeError] ∧
      RbAt (pRbExecs (ops ++ [op]) PTree.empty).2 t' t.length ∧ t.root.keys.Perm (v :: BTree.keys t') := by
  obtain ⟨h1, h2⟩ := agree ops (holds_empty (N := N) (X := Color)) e
  have fine : ∀ {r t'}, rbExec t op = .ok (r, t') → (pRbExecs (ops ++ [op]) PTree.empty).1 = rs ++ [r] ∧
      RbAt (pRbExecs (ops ++ [op]) PTree.empty).2 t'.root t'.length := by
    intro r t' e'
    obtain ⟨s1, k1, k2⟩ := rb_exec h2 op e'
    rw [one_more, k1, h1]
    exact ⟨rfl, .of k2⟩
  have same : ∀ {r}, rbExec t op = .ok (r, t) → ∃ r t', rbExec t op = .ok (r, t') ∧
      (pRbExecs (ops ++ [op]) PTree.empty).1 = rs ++ [r] ∧
      RbAt (pRbExecs (ops ++ [op]) PTree.empty).2 t'.root t'.length ∧ SearchTree t'.root ∧
      (op = .clear ∨ t'.length - (t'.root.keys.length : Int) = t.length - (t.root.keys.length : Int)) :=
    fun e' => ⟨_, _, e', (fine e').1, (fine e').2, hs, .inr rfl⟩
  cases op with
  | insert v =>
    left
    cases v with
    | none => exact same rfl
    | other => exact same rfl
    | num v =>
      obtain ⟨t1, e1, hk, -, hlen, -⟩ := rbInsert_ok t v hs
      have e' : rbExec t (.insert (.num v)) = .ok (.ok (.unit, !(t.root.insertNode (v, Color.red)).2), t1) := by
        simp only [rbExec, validNum, e1, bind, Except.bind]; rfl
      refine ⟨_, t1, e', (fine e').1, (fine e').2, ?_, .inr ?_⟩
      · rw [searchTree_iff, hk]; exact insertNode_sorted (v, Color.red) _ hs
      · rw [hk, insertNode_length, hlen]
        cases (t.root.insertNode (v, Color.red)).2 <;> simp
  | remove v =>
    cases v with
    | none => exact .inl (same rfl)
    | other => exact .inl (same rfl)
    | num v =>
      obtain ⟨c1, c2⟩ := C56_remove_partial t hs hc v
      by_cases hv : Holds t.root v
      · have done : ∀ t', rbExec t (.remove (.num v)) = .ok (.ok (.unit, false), t') → RemovedFrom t v t' →
            ∃ r t', rbExec t (.remove (.num v)) = .ok (r, t') ∧
            (pRbExecs (ops ++ [.remove (.num v)]) PTree.empty).1 = rs ++ [r] ∧
            RbAt (pRbExecs (ops ++ [.remove (.num v)]) PTree.empty).2 t'.root t'.length ∧ SearchTree t'.root ∧
            ((RbOp.remove (.num v) : RbOp N) = .clear ∨
              t'.length - (t'.root.keys.length : Int) = t.length - (t.root.keys.length : Int)) := by
          intro t' e' hr
          refine ⟨_, t', e', (fine e').1, (fine e').2, hr.search, .inr ?_⟩
          have hnd : t.root.keys.Nodup := (show t.root.keys.Pairwise (· < ·) from hs).imp ne_of_lt
          have hmem : v ∈ t.root.keys := (holds_iff _ _).1 hv
          have hl : (t.root.keys.filter (fun x => x ≠ v)).length + 1 = t.root.keys.length := by
            have := List.length_eq_length_filter_add (l := t.root.keys) (fun x => decide (x ≠ v))
            have h3 : (t.root.keys.filter (fun x => !decide (x ≠ v))).length = 1 := by
              have h4 := List.count_eq_one_of_mem hnd hmem
              rw [List.count_eq_length_filter] at h4
              rw [← h4]
              congr 2
              funext y
              by_cases hy : y = v <;> simp [hy]
            omega
          rw [hr.len, hr.keys]
          omega
        have broken : rbExec t (.remove (.num v)) = .error .attributeError →
            ∃ v' t', (RbOp.remove (.num v) : RbOp N) = .remove (.num v') ∧ Holds t.root v' ∧
            (pRbExecs (ops ++ [.remove (.num v)]) PTree.empty).1 = rs ++ [.error .attributeError] ∧
            RbAt (pRbExecs (ops ++ [.remove (.num v)]) PTree.empty).2 t' t.length ∧
            t.root.keys.Perm (v' :: BTree.keys t') := by
          intro e2
          obtain ⟨k1, v', t', k2, k3, k4⟩ := C78_attribute_error ops _ rs t e e2
          simp only [RbOp.remove.injEq, NumArg.num.injEq] at k2
          subst k2
          exact ⟨v, t', rfl, hv, k1, k4, k3⟩
        obtain ⟨p, c, hp⟩ := hv
        obtain ⟨l, r, hsub⟩ : ∃ l r, t.root.sub p = .node l (v, c) r := by
          unfold BTree.at at hp
          cases hsub : t.root.sub p with
          | nil => rw [hsub] at hp; cases hp
          | node l x r =>
            rw [hsub] at hp
            simp only [BTree.root?, Option.some.injEq] at hp
            exact ⟨l, r, by rw [hp]⟩
        obtain ⟨d1, d2, d3⟩ := c2 p l c r hsub
        by_cases hn : (c = .red ∧ l = .nil ∧ r = .nil) ∨ RedNeighbour l r
        · obtain ⟨t', e', hr, -⟩ := d1 hn
          exact .inl (done t' e' hr)
        · cases c with
          | red => exact .inl (same (d2 rfl (fun h => hn (.inl ⟨rfl, h⟩)) (fun h => hn (.inr h))))
          | black =>
            rcases d3 rfl (fun h => hn (.inr h)) with e2 | ⟨t', e', hr⟩
            · exact .inr (broken e2)
            · exact .inl (done t' e' hr)
      · exact .inl (same (c1 hv))
  | contains v => exact .inl (same rfl)
  | getMin => exact .inl (same rfl)
  | getMax => exact .inl (same rfl)
  | len => exact .inl (same rfl)
  | inorder => exact .inl (same rfl)
  | blackHeight => exact .inl (same rfl)
  | clear => exact .inl ⟨_, _, rfl, (fine rfl).1, (fine rfl).2, by simp [Bst.empty, SearchTree, BTree.inorder], .inl rfl⟩

/-- 4, 2, 6, 1, 3, 5, 7 inserted, then 4 and 2 removed -/
def rbLinked : PTree (Fin 20) Color :=
  (pRbExecs (rbInserts [4, 2, 6, 1, 3, 5, 7] ++ [.remove (.num 4), .remove (.num 2)]) PTree.empty).2

example : (rbExecs (rbInserts [4, 2, 6, 1, 3, 5, 7] ++ [.remove (.num 4), .remove (.num 2)])
    (Bst.empty : Bst (Fin 20) Color)).map (fun x => x.2.root.keys) = .ok [1, 3, 5, 6, 7] := by decide +kernel
example : rbLinked.root = some 0 ∧ rbLinked.length = 5 := by decide +kernel
example : rbLinked.node 0 = some ⟨5, .black, some 1, some 2, none⟩ := by decide +kernel
example : rbLinked.node 3 = some ⟨1, .red, none, none, some 1⟩ := by decide +kernel
example : rbLinked.reach [true, true] = some 6 ∧ rbLinked.reach [true, false] = none := by decide +kernel

/-- the hypotheses of `C78_next_call_partial` hold after four insertions, and the next removal raises -/
example : SearchTree (.node (.node (.node .nil (0, .red) .nil) (1, .black) .nil) (2, .black)
      (.node .nil (3, .black) .nil) : BTree (Fin 20 × Color)) ∧
    RedBlackOk (.node (.node (.node .nil (0, .red) .nil) (1, .black) .nil) (2, .black)
      (.node .nil (3, .black) .nil) : BTree (Fin 20 × Color)) ∧
    (rbExecs (rbInserts [1, 2, 3, 0]) (Bst.empty : Bst (Fin 20) Color)).map (fun x => x.2.root) =
      .ok (.node (.node (.node .nil (0, .red) .nil) (1, .black) .nil) (2, .black) (.node .nil (3, .black) .nil)) := by
  refine ⟨by unfold SearchTree; decide +kernel, ?_, by decide +kernel⟩
  exact (redBlackOk_iff _).2 ⟨⟨2, by simp [rbI, Color.bl, BTree.isRed]⟩, rfl⟩

/-- 1, 2, 3, 0 inserted; then 2 removed, which raises; then some more calls -/
def rbBroken (k : Nat) : List (BstRes (Fin 20)) × PTree (Fin 20) Color :=
  pRbExecs ((rbInserts [1, 2, 3, 0] ++
    ([.remove (.num 2), .inorder, .len, .remove (.num 2)] : List (RbOp (Fin 20)))).take k) PTree.empty

/-- C78: the exception leaves 0, 1 and 3 linked, `len` says 4, and a second try only warns. -/
theorem C78_length_wrong :
    (rbBroken 8).1.drop 4 = [.error .attributeError, .ok (.list [0, 1, 3], false), .ok (.int 4, false),
      .ok (.unit, true)] ∧ (rbBroken 5).2.length = 4 := by
  decide +kernel

/-- eight numbers inserted, one of them twice, and three removed -/
def rbTwice : PTree (Fin 20) Color :=
  (pRbExecs (rbInserts [1, 2, 7, 11, 4, 5, 4, 10] ++ [.remove (.num 4)] ++ rbInserts [9, 8] ++
    [.remove (.num 5), .remove (.num 11)]) PTree.empty).2

/-- C78 fails without the condition on the tree: after thirteen calls, of which the last one raises AttributeError,
the node object of 9 is reached in two ways. -/
theorem C78_links_broken : ¬ WellLinked rbTwice ∧
    (pRbExec rbTwice .inorder).1 = .ok (.list [1, 2, 7, 8, 9, 10, 9], false) := by
  have e1 : rbTwice.reach [true, true] = some 7 := by decide +kernel
  have e2 : rbTwice.reach [true, false, true] = some 7 := by decide +kernel
  exact ⟨fun h => absurd ((h _ _ e1).2 _ e2) (by decide), by decide +kernel⟩

end Extra
