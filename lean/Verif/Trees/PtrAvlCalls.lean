import Verif.Trees.PtrAvlProofs

/-!
# `AVL` on node objects: the calls agree with the model on trees as values
-/

set_option linter.unusedSimpArgs false
set_option linter.unusedSectionVars false

namespace Extra
variable {N : Type} [LinearOrder N]

theorem avlClimb_append (t : BTree (N × Nat)) (rot : Bool) (fs gs : List (Above N Nat)) :
    avlClimb t rot (fs ++ gs) = (avlClimb t rot fs).bind fun x => avlClimb x.1 x.2 gs := by
  induction fs generalizing t rot with
  | nil => rfl
  | cons f fs ih =>
    simp only [List.cons_append, avlClimb, bind, Except.bind]
    cases avlLink f.left t rot f.w.1 f.other with
    | error y => rfl
    | ok x => simp only [ih]; rfl

theorem avlClimb_snoc {t T1 : BTree (N × Nat)} {rot rot1 : Bool} {fs : List (Above N Nat)} {f : Above N Nat}
    {x : BTree (N × Nat) × Bool}
    (h : avlClimb t rot fs = .ok (T1, rot1)) (h1 : avlLink f.left T1 rot1 f.w.1 f.other = .ok x) :
    avlClimb t rot (fs ++ [f]) = .ok x := by
  rw [avlClimb_append, h]
  simp only [Except.bind, avlClimb, h1, bind]

/-- `_insert` of the value model is a climb -/
theorem avlInsert_climb (v : N) (t : BTree (N × Nat)) {T : BTree (N × Nat)} {rot new : Bool}
    (h : t.avlInsert v = .ok (T, rot, new)) :
    (new = true ↔ t.walk (t.insertPath v) = .nil) ∧
    avlClimb (if new then .node .nil (v, 0) .nil else t.walk (t.insertPath v)) false (t.above (t.insertPath v)) =
      .ok (T, rot) := by
  induction t generalizing T rot with
  | nil =>
    simp only [BTree.avlInsert, Except.ok.injEq, Prod.mk.injEq] at h
    obtain ⟨rfl, rfl, rfl⟩ := h
    exact ⟨by simp [BTree.insertPath, BTree.walk], rfl⟩
  | node l w r ihl ihr =>
    simp only [BTree.avlInsert] at h
    split_ifs at h with h1 h2
    · simp only [Except.ok.injEq, Prod.mk.injEq] at h
      obtain ⟨rfl, rfl, rfl⟩ := h
      simp [BTree.insertPath, h1, BTree.walk, BTree.above, avlClimb]
    · simp only [bind, Except.bind] at h
      cases hl : l.avlInsert v with
      | error y => rw [hl] at h; cases h
      | ok x =>
        obtain ⟨l', rl, nl⟩ := x
        rw [hl] at h
        simp only at h
        cases hx : avlLink true l' rl w.1 r with
        | error y => rw [hx] at h; cases h
        | ok x =>
          rw [hx] at h
          simp only [pure, Except.pure, Except.ok.injEq, Prod.mk.injEq] at h
          obtain ⟨h3, h4, rfl⟩ := h
          obtain ⟨i1, i2⟩ := ihl hl
          simp only [BTree.insertPath, h1, h2, if_false, if_true, BTree.walk, BTree.above]
          refine ⟨i1, avlClimb_snoc i2 (hx.trans ?_)⟩
          rw [← h3, ← h4]
    · simp only [bind, Except.bind] at h
      cases hl : r.avlInsert v with
      | error y => rw [hl] at h; cases h
      | ok x =>
        obtain ⟨l', rl, nl⟩ := x
        rw [hl] at h
        simp only at h
        cases hx : avlLink false l' rl w.1 l with
        | error y => rw [hx] at h; cases h
        | ok x =>
          rw [hx] at h
          simp only [pure, Except.pure, Except.ok.injEq, Prod.mk.injEq] at h
          obtain ⟨h3, h4, rfl⟩ := h
          obtain ⟨i1, i2⟩ := ihr hl
          simp only [BTree.insertPath, h1, h2, if_false, if_true, BTree.walk, BTree.above]
          refine ⟨i1, avlClimb_snoc i2 (hx.trans ?_)⟩
          rw [← h3, ← h4]

theorem takeMin_climb (t : BTree (N × Nat)) {m : N} {T : BTree (N × Nat)} {rot : Bool}
    (h : t.avlTakeMin = .ok (m, T, rot)) :
    ∃ a u b, t.walk t.minPath = .node a u b ∧ m = u.1 ∧
      avlClimb (BTree.node a u b).avlSink false (t.above t.minPath) = .ok (T, rot) := by
  induction t generalizing m T rot with
  | nil => cases h
  | node l w r ihl ihr =>
    cases l with
    | nil =>
      simp only [BTree.avlTakeMin, Except.ok.injEq, Prod.mk.injEq] at h
      obtain ⟨rfl, rfl, rfl⟩ := h
      exact ⟨.nil, w, r, rfl, rfl, rfl⟩
    | node a u b =>
      simp only [BTree.avlTakeMin, bind, Except.bind] at h
      cases hl : (BTree.node a u b).avlTakeMin with
      | error y => rw [hl] at h; cases h
      | ok x =>
        obtain ⟨m', l', rl⟩ := x
        rw [hl] at h
        simp only at h
        cases hx : avlLink true l' rl w.1 r with
        | error y => rw [hx] at h; cases h
        | ok x =>
          rw [hx] at h
          simp only [pure, Except.pure, Except.ok.injEq, Prod.mk.injEq] at h
          obtain ⟨rfl, h3, h4⟩ := h
          obtain ⟨a', u', b', i1, i2, i3⟩ := ihl hl
          refine ⟨a', u', b', i1, i2, ?_⟩
          simp only [BTree.minPath, BTree.above]
          refine avlClimb_snoc i3 (hx.trans ?_)
          rw [← h3, ← h4]

theorem takeMax_climb (t : BTree (N × Nat)) {m : N} {T : BTree (N × Nat)} {rot : Bool}
    (h : t.avlTakeMax = .ok (m, T, rot)) :
    ∃ a u b, t.walk t.maxPath = .node a u b ∧ m = u.1 ∧
      avlClimb (BTree.node a u b).avlSink false (t.above t.maxPath) = .ok (T, rot) := by
  induction t generalizing m T rot with
  | nil => cases h
  | node l w r ihl ihr =>
    cases r with
    | nil =>
      simp only [BTree.avlTakeMax, Except.ok.injEq, Prod.mk.injEq] at h
      obtain ⟨rfl, rfl, rfl⟩ := h
      exact ⟨l, w, .nil, rfl, rfl, rfl⟩
    | node a u b =>
      simp only [BTree.avlTakeMax, bind, Except.bind] at h
      cases hl : (BTree.node a u b).avlTakeMax with
      | error y => rw [hl] at h; cases h
      | ok x =>
        obtain ⟨m', l', rl⟩ := x
        rw [hl] at h
        simp only at h
        cases hx : avlLink false l' rl w.1 l with
        | error y => rw [hx] at h; cases h
        | ok x =>
          rw [hx] at h
          simp only [pure, Except.pure, Except.ok.injEq, Prod.mk.injEq] at h
          obtain ⟨rfl, h3, h4⟩ := h
          obtain ⟨a', u', b', i1, i2, i3⟩ := ihr hl
          refine ⟨a', u', b', i1, i2, ?_⟩
          simp only [BTree.maxPath, BTree.above]
          refine avlClimb_snoc i3 (hx.trans ?_)
          rw [← h3, ← h4]

theorem removeRoot_climb (l r : BTree (N × Nat)) (w : N × Nat) (y : Nat) {T : BTree (N × Nat)} {rot : Bool}
    (h : (BTree.node l w r).avlRemoveRoot = .ok (T, rot)) (hl : (BTree.node l w r).isLeaf = false) :
    ∃ a u b, (BTree.node l w r).walk (BTree.node l w r).replacementPath = .node a u b ∧
      avlClimb (BTree.node a u b).avlSink false
        ((BTree.node l (u.1, y) r).above (BTree.node l w r).replacementPath) = .ok (T, rot) := by
  cases r with
  | node rl rv rr =>
    simp only [BTree.avlRemoveRoot, bind, Except.bind] at h
    cases hx : (BTree.node rl rv rr).avlTakeMin with
    | error y => rw [hx] at h; cases h
    | ok x =>
      obtain ⟨m, r', rot'⟩ := x
      rw [hx] at h
      simp only at h
      obtain ⟨a, u, b, i1, rfl, i3⟩ := takeMin_climb _ hx
      refine ⟨a, u, b, i1, ?_⟩
      simp only [BTree.replacementPath, BTree.above]
      exact avlClimb_snoc i3 h
  | nil =>
    cases l with
    | nil => simp [BTree.isLeaf] at hl
    | node rl rv rr =>
      simp only [BTree.avlRemoveRoot, bind, Except.bind] at h
      cases hx : (BTree.node rl rv rr).avlTakeMax with
      | error y => rw [hx] at h; cases h
      | ok x =>
        obtain ⟨m, r', rot'⟩ := x
        rw [hx] at h
        simp only at h
        obtain ⟨a, u, b, i1, rfl, i3⟩ := takeMax_climb _ hx
        refine ⟨a, u, b, i1, ?_⟩
        simp only [BTree.replacementPath, BTree.above]
        exact avlClimb_snoc i3 h

theorem avlRemove_climb (v : N) (t : BTree (N × Nat)) :
    (∀ {T rot}, t.avlRemove v = .ok (some (T, rot)) → ∃ a u b T1 rot1, t.walk (t.search v) = .node a u b ∧ u.1 = v ∧
      (BTree.node a u b).avlRemoveRoot = .ok (T1, rot1) ∧
      avlClimb T1 rot1 (t.above (t.search v)) = .ok (T, rot)) ∧
    (t.avlRemove v = .ok none → t.dataAt (t.search v) ≠ some v) := by
  induction t with
  | nil =>
    constructor
    · intro T rot h; simp [BTree.avlRemove] at h
    · intro _; simp [BTree.search, BTree.dataAt, BTree.walk]
  | node l w r ihl ihr =>
    by_cases h1 : v = w.1
    · constructor
      · intro T rot h
        simp only [BTree.avlRemove, if_pos h1, bind, Except.bind] at h
        cases hx : (BTree.node l w r).avlRemoveRoot with
        | error y => rw [hx] at h; cases h
        | ok x =>
          rw [hx] at h
          simp only [pure, Except.pure, Except.ok.injEq, Option.some.injEq] at h
          subst h
          refine ⟨l, w, r, T, rot, ?_, h1.symm, hx, ?_⟩
          · rw [search_node, if_pos h1]; rfl
          · rw [search_node, if_pos h1]; rfl
      · intro h
        simp only [BTree.avlRemove, if_pos h1, bind, Except.bind] at h
        cases hx : (BTree.node l w r).avlRemoveRoot with
        | error y => rw [hx] at h; cases h
        | ok x => rw [hx] at h; simp [pure, Except.pure] at h
    · by_cases h2 : v < w.1
      · cases l with
        | nil =>
          constructor
          · intro T rot h
            simp [BTree.avlRemove, h1, h2, bind, Except.bind, pure, Except.pure] at h
          · intro _
            have hs : (BTree.node .nil w r).search v = [] := by
              rw [search_node, if_neg h1, if_pos h2, if_pos rfl]
            rw [hs]
            simp only [BTree.dataAt, BTree.walk, ne_eq, Option.some.injEq]
            exact fun hc => h1 hc.symm
        | node ll lv lr =>
          have hs : (BTree.node (.node ll lv lr) w r).search v = false :: (BTree.node ll lv lr).search v := by
            rw [search_node, if_neg h1, if_pos h2, if_neg (by simp)]
          have hr : (BTree.node (.node ll lv lr) w r).avlRemove v = ((BTree.node ll lv lr).avlRemove v).bind fun
              | none => .ok none
              | some (l', rot) => (avlLink true l' rot w.1 r).bind fun res => .ok (some res) := by
            rw [BTree.avlRemove, if_neg h1, if_pos h2]; rfl
          rw [hs, hr]
          constructor
          · intro T rot h
            cases hx : (BTree.node ll lv lr).avlRemove v with
            | error y => rw [hx] at h; cases h
            | ok x =>
              rw [hx] at h
              cases x with
              | none => simp [Except.bind] at h
              | some x =>
                obtain ⟨l', rot'⟩ := x
                simp only [Except.bind] at h
                cases hy : avlLink true l' rot' w.1 r with
                | error y => rw [hy] at h; cases h
                | ok y =>
                  rw [hy] at h
                  simp only [Except.ok.injEq, Option.some.injEq] at h
                  subst h
                  obtain ⟨a, u, b, T1, rot1, i1, i2, i3, i4⟩ := ihl.1 hx
                  refine ⟨a, u, b, T1, rot1, i1, i2, i3, ?_⟩
                  rw [BTree.above]
                  exact avlClimb_snoc i4 hy
          · intro h
            cases hx : (BTree.node ll lv lr).avlRemove v with
            | error y => rw [hx] at h; cases h
            | ok x =>
              rw [hx] at h
              cases x with
              | none => exact ihl.2 hx
              | some x =>
                obtain ⟨l', rot'⟩ := x
                simp only [Except.bind] at h
                cases hy : avlLink true l' rot' w.1 r with
                | error y => rw [hy] at h; cases h
                | ok y => rw [hy] at h; simp at h
      · cases r with
        | nil =>
          constructor
          · intro T rot h
            simp [BTree.avlRemove, h1, h2, bind, Except.bind, pure, Except.pure] at h
          · intro _
            have hs : (BTree.node l w .nil).search v = [] := by
              rw [search_node, if_neg h1, if_neg h2, if_pos rfl]
            rw [hs]
            simp only [BTree.dataAt, BTree.walk, ne_eq, Option.some.injEq]
            exact fun hc => h1 hc.symm
        | node ll lv lr =>
          have hs : (BTree.node l w (.node ll lv lr)).search v = true :: (BTree.node ll lv lr).search v := by
            rw [search_node, if_neg h1, if_neg h2, if_neg (by simp)]
          have hr : (BTree.node l w (.node ll lv lr)).avlRemove v = ((BTree.node ll lv lr).avlRemove v).bind fun
              | none => .ok none
              | some (l', rot) => (avlLink false l' rot w.1 l).bind fun res => .ok (some res) := by
            rw [BTree.avlRemove, if_neg h1, if_neg h2]; rfl
          rw [hs, hr]
          constructor
          · intro T rot h
            cases hx : (BTree.node ll lv lr).avlRemove v with
            | error y => rw [hx] at h; cases h
            | ok x =>
              rw [hx] at h
              cases x with
              | none => simp [Except.bind] at h
              | some x =>
                obtain ⟨l', rot'⟩ := x
                simp only [Except.bind] at h
                cases hy : avlLink false l' rot' w.1 l with
                | error y => rw [hy] at h; cases h
                | ok y =>
                  rw [hy] at h
                  simp only [Except.ok.injEq, Option.some.injEq] at h
                  subst h
                  obtain ⟨a, u, b, T1, rot1, i1, i2, i3, i4⟩ := ihr.1 hx
                  refine ⟨a, u, b, T1, rot1, i1, i2, i3, ?_⟩
                  rw [BTree.above]
                  exact avlClimb_snoc i4 hy
          · intro h
            cases hx : (BTree.node ll lv lr).avlRemove v with
            | error y => rw [hx] at h; cases h
            | ok x =>
              rw [hx] at h
              cases x with
              | none => exact ihr.2 hx
              | some x =>
                obtain ⟨l', rot'⟩ := x
                simp only [Except.bind] at h
                cases hy : avlLink false l' rot' w.1 l with
                | error y => rw [hy] at h; cases h
                | ok y => rw [hy] at h; simp at h

/-! ## Names of the same things with addresses -/

theorem forget_sinkC (t : ATree N Nat) : (sinkC avlClass t).forget = t.forget.avlSink := by
  fun_induction sinkC avlClass t <;>
    simp_all [BTree.forget, mapExt_nil, mapExt_node, BTree.avlSink, relinked, avlNode, moved, avlClass]
  · exact congrArg (max 0) (sideHeight_ext _)
  · rfl

theorem forgetAll_above {X : Type} (t : ATree N X) (p : List Bool) : forgetAll (t.above p) = t.forget.above p :=
  (mapExt_above _ t p).symm

theorem forget_walk {X : Type} (t : ATree N X) (p : List Bool) : t.forget.walk p = (t.walk p).forget := mapExt_walk _ t p

theorem forget_search {X : Type} (v : N) (t : ATree N X) : t.forget.search v = t.search v := mapExt_search _ v t

theorem forget_insertPath {X : Type} (v : N) (t : ATree N X) : t.forget.insertPath v = t.insertPath v := mapExt_insertPath _ v t

theorem forget_isLeaf {X : Type} (t : ATree N X) : t.forget.isLeaf = t.isLeaf := by
  rcases t with _ | ⟨_ | _, w, _ | _⟩ <;> rfl

theorem removeZ_climb (v : N) (t : ATree N Nat) {T : BTree (N × Nat)} {rot : Bool}
    (h : t.forget.avlRemove v = .ok (some (T, rot))) :
    t.dataAt (t.search v) = some v ∧
    avlClimb (removeZ avlClass (t.search v) t).1.forget false (forgetAll (removeZ avlClass (t.search v) t).2) =
      .ok (T, rot) := by
  obtain ⟨a, u, b, T1, rot1, i1, i2, i3, i4⟩ := (avlRemove_climb v t.forget).1 h
  rw [forget_search, forget_walk] at i1
  rw [forget_search, ← forgetAll_above] at i4
  obtain ⟨A, U, B, hw, rfl, hU, rfl⟩ := forget_node i1
  have hu : U.1 = v := by rw [← i2, ← hU]
  refine ⟨by simp only [BTree.dataAt, hw, hu], ?_⟩
  have hd := descend_eq t (t.search v) []
  rw [List.append_nil, hw] at hd
  simp only [removeZ, hd]
  have e0 : (BTree.node A U B).forget = .node A.forget u B.forget := by rw [← hU]; rfl
  rw [← e0] at i3
  cases hl : (BTree.node A U B).isLeaf with
  | true =>
    obtain ⟨rfl, rfl⟩ := isLeaf_iff.mp hl
    simp only [if_true, avlClimb_attached]
    have : T1 = .nil ∧ rot1 = false := by
      simp only [BTree.forget, mapExt_node, mapExt_nil, BTree.avlRemoveRoot, Except.ok.injEq, Prod.mk.injEq] at i3
      exact ⟨i3.1.symm, i3.2.symm⟩
    obtain ⟨rfl, rfl⟩ := this
    exact i4
  | false =>
    have hl' : (BTree.node A U B).forget.isLeaf = false := by rw [forget_isLeaf, hl]
    obtain ⟨a, w, b, j1, j2⟩ := removeRoot_climb A.forget B.forget (U.1, U.2.1) U.2.1 i3 hl'
    have er : (BTree.node A.forget (U.1, U.2.1) B.forget).replacementPath = (BTree.node A U B).replacementPath :=
      mapExt_replacementPath (Prod.fst : Nat × Addr → Nat) (.node A U B)
    rw [er] at j1 j2
    rw [show BTree.node A.forget (U.1, U.2.1) B.forget = (BTree.node A U B).forget from rfl, forget_walk] at j1
    obtain ⟨A', W, B', hw', rfl, hW, rfl⟩ := forget_node j1
    have hnl : ¬(A = .nil ∧ B = .nil) := fun hc => by rw [isLeaf_iff.mpr hc] at hl; cases hl
    obtain ⟨d, q, _, _, _, hq, hq'⟩ := replacementPath_walk A B U hnl
    rw [hq] at hw' j2
    simp only [Bool.false_eq_true, if_false, hq, swapAt_descend avlClass hw']
    rw [descend_eq]
    have efs : forgetAll ((BTree.node A (moved avlClass U W) B).above (d :: q) ++ t.above (t.search v)) =
        (BTree.node A.forget (w.1, U.2.1) B.forget).above (d :: q) ++ forgetAll (t.above (t.search v)) := by
      rw [forgetAll, List.map_append, ← forgetAll, ← forgetAll, forgetAll_above, ← hW]; rfl
    have e2 : (BTree.node A' (moved avlClass W U) B').isLeaf = (BTree.node A' W B').isLeaf := by
      cases A' <;> cases B' <;> rfl
    have e3 : (BTree.node A' W B').forget = .node A'.forget w B'.forget := by rw [← hW]; rfl
    cases hl2 : (BTree.node A' W B').isLeaf with
    | true =>
      simp only [e2, hl2, if_true]
      rw [avlClimb_attached, efs, avlClimb_append]
      obtain ⟨rfl, rfl⟩ := isLeaf_iff.mp hl2
      rw [show (BTree.node (BTree.nil : ATree N Nat).forget w (BTree.nil : ATree N Nat).forget).avlSink = .nil from rfl] at j2
      rw [show (BTree.nil : ATree N Nat).forget = .nil from rfl, j2]
      exact i4
    | false =>
      simp only [e2, hl2, Bool.false_eq_true, if_false]
      rw [efs, avlClimb_append]
      rw [sinkC_root A' B' (moved avlClass W U) W (by rw [e2, hl2]) rfl (Or.inr rfl), forget_sinkC, e3, j2]
      exact i4

/-! ## The calls -/

section
variable {s : PTree N Nat} {t : Bst N Nat}

theorem avl_insert (h : PtrHolds s t) (v : NumArg N) {r : BstRes N} {t' : Bst N Nat}
    (e : avlExec t (.insert v) = .ok (r, t')) : Gives (pInsertNum pAvlInsert 0 v) s r t' := by
  have h' : PtrHolds { s with warned := false } t := holds_warned h false
  cases v with
  | none => cases e; exact gives_error rfl h'
  | other => cases e; exact gives_error rfl h'
  | num v =>
    obtain ⟨T, Z, h1, h2⟩ := h'
    cases T with
    | nil =>
      have ht : t.root = .nil := h1.symm
      simp only [avlExec, validNum, avlInsertNum, ht, bind, Except.bind, pure, Except.pure, Except.ok.injEq,
        Prod.mk.injEq] at e
      obtain ⟨rfl, rfl⟩ := e
      obtain ⟨s', e', Z', hl, hwn⟩ := pm_insertNum_empty pAvlInsert 0 v (Z.root rfl)
      refine gives_ok e' (by rw [hwn]) ⟨_, Z', rfl, ?_⟩
      rw [hl, h2]
    | node l w r' =>
      have ht : t.root = .node l.forget (w.1, w.2.1) r'.forget := h1.symm
      have ht' : t.root = (BTree.node l w r').forget := h1.symm
      have e0 : pRoot { s with warned := false } = (.ok (some w.2.2), { s with warned := false }) := by
        rw [pm_root, Z.root rfl]; rfl
      simp only [avlExec, validNum, avlInsertNum, ht, bind, Except.bind, pure, Except.pure] at e
      rw [← ht, ht'] at e
      cases hS : (BTree.node l w r').forget.avlInsert v with
      | error y => rw [hS] at e; cases e
      | ok x =>
        obtain ⟨S, rot, new⟩ := x
        rw [hS] at e
        simp only [Except.ok.injEq, Prod.mk.injEq] at e
        obtain ⟨rfl, rfl⟩ := e
        obtain ⟨i1, i2⟩ := avlInsert_climb v _ hS
        rw [forget_insertPath, forget_walk] at i1 i2
        rw [← forgetAll_above] at i2
        have hfin : ∀ (a : Addr) (q : Option Addr) (s1 s2 : PTree N Nat),
            pInsert avlClass 0 (s.next + 1) v { s with warned := false } = (.ok (some a), s1) →
            pParent (some a) s1 = (.ok q, s1) →
            pAvlLoop (s1.next + 1) q s1 = (.ok (), s2) →
            pInsertNum pAvlInsert 0 (.num v) { s with warned := false } = (.ok .unit, s2) := by
          intro a q s1 s2 e1 e2 e3
          refine (pm_bind_ok e0).trans ?_
          exact (pm_bind_ok ((pm_bind_ok (pm_fuel _)).trans <| (pm_bind_ok e1).trans <|
            (pm_bind_ok e2).trans <| (pm_bind_ok (pm_fuel _)).trans <| (pm_bind_ok e3).trans rfl)).trans rfl
        by_cases h0 : (BTree.node l w r').walk ((BTree.node l w r').insertPath v) = .nil
        · have hnew : new = true := i1.mpr (by rw [h0]; rfl)
          subst hnew
          obtain ⟨s1, e1, Z1, hl, hwn, _⟩ := pm_insert_new (C := avlClass) (x := 0) Z (by simp) h0 (s.next + 1)
            (Nat.le_succ _)
          rw [if_pos rfl, ← avlClimb_attached _ _ (leafAt v 0 s.next)] at i2
          have hc := ctx_length_le Z1
          obtain ⟨s2, U, a1, a2, a3, a4, a5, a6⟩ := pm_avlLoop _ (t := leafAt v 0 s.next) Z1 i2 (s1.next + 1) (by omega)
          refine gives_ok (hfin _ _ _ _ e1 (pm_parent Z1.rep.1) a1) (by rw [a5, hwn]; rfl) ⟨U, a2, a3, ?_⟩
          rw [a4, hl]; simp [← h2]
        · have hnew : new = false := by
            cases new with
            | false => rfl
            | true => exact absurd (forget_nil (i1.mp rfl)) h0
          subst hnew
          obtain ⟨s1, e1, Z1, hl, hwn, _⟩ := pm_insert_found (C := avlClass) (x := 0) Z (by simp) h0 (s.next + 1)
            (Nat.le_succ _)
          rw [if_neg (by simp)] at i2
          cases hw : (BTree.node l w r').walk ((BTree.node l w r').insertPath v) with
          | nil => exact absurd hw h0
          | node a x b =>
            rw [hw] at e1 i2
            have Z1' := Z1.descend (q := (BTree.node l w r').insertPath v)
            rw [descend_eq, hw, List.append_nil] at Z1'
            have hc := ctx_length_le Z1'
            obtain ⟨s2, U, a1, a2, a3, a4, a5, a6⟩ := pm_avlLoop _ Z1' i2 (s1.next + 1) (by omega)
            refine gives_ok (hfin _ _ _ _ e1 (pm_parent Z1'.rep.1) a1) (by rw [a5, hwn]; rfl) ⟨U, a2, a3, ?_⟩
            rw [a4, hl]; simp [← h2]

theorem avlRemoveNum_inner (t : Bst N Nat) (v : N) (hl : t.root.isLeaf = false) (h0 : t.root ≠ .nil) :
    avlRemoveNum t v = (t.root.avlRemove v).bind fun
      | none => .ok (t, true)
      | some x => .ok (⟨x.1, t.length - 1⟩, false) := by
  obtain ⟨root, len⟩ := t
  have fin : ∀ x : Except Err (Option (BTree (N × Nat) × Bool)), (do
      match ← x with
      | none => pure ((⟨root, len⟩ : Bst N Nat), true)
      | some (s, _) => pure (⟨s, len - 1⟩, false)) = x.bind fun
      | none => .ok (⟨root, len⟩, true)
      | some x => .ok (⟨x.1, len - 1⟩, false) := by
    intro x
    rcases x with y | _ | ⟨a, b⟩ <;> rfl
  rcases root with _ | ⟨_ | ⟨a, u, b⟩, w, _ | ⟨c, x, d⟩⟩
  · exact absurd rfl h0
  · simp [BTree.isLeaf] at hl
  all_goals exact fin _

theorem avl_remove (h : PtrHolds s t) (v : NumArg N) {r : BstRes N} {t' : Bst N Nat}
    (e : avlExec t (.remove v) = .ok (r, t')) : Gives (pRemoveNum pAvlRemove v) s r t' := by
  have h' : PtrHolds { s with warned := false } t := holds_warned h false
  cases v with
  | none => cases e; exact gives_ok rfl rfl (holds_warned h true)
  | other => cases e; exact gives_ok rfl rfl (holds_warned h true)
  | num v =>
    have hh := h'
    obtain ⟨T, Z, h1, h2⟩ := h'
    cases T with
    | nil =>
      have ht : t.root = .nil := h1.symm
      have e0 : pRoot { s with warned := false } = (.ok none, { s with warned := false }) := by
        rw [pm_root, Z.root rfl]; rfl
      simp only [avlExec, avlRemoveNum, ht, bind, Except.bind, pure, Except.pure, Except.ok.injEq, Prod.mk.injEq] at e
      obtain ⟨rfl, rfl⟩ := e
      exact gives_ok ((pm_bind_ok e0).trans rfl) rfl (holds_warned h true)
    | node l w r' =>
      have ht : t.root = .node l.forget (w.1, w.2.1) r'.forget := h1.symm
      have ht' : t.root = (BTree.node l w r').forget := h1.symm
      have e0 : pRoot { s with warned := false } = (.ok (some w.2.2), { s with warned := false }) := by
        rw [pm_root, Z.root rfl]; rfl
      have start : ∀ {k : PM N Nat (BstVal N)}, k = (do
            if ((l.ptr.isNone && r'.ptr.isNone) = true ∧ v = w.1) then do
              pSetRoot none
              pAddLength (-1)
              return .unit
            else do
              pAvlRemove v
              return .unit) →
          pRemoveNum pAvlRemove (.num v) { s with warned := false } = k { s with warned := false } := by
        rintro k rfl
        exact (pm_bind_ok e0).trans <| (pm_bind_ok (pm_isLeaf Z.rep.1)).trans <| (pm_bind_ok (pm_data Z.rep.1)).trans rfl
      -- the value is not there
      have missing : ¬((l.ptr.isNone && r'.ptr.isNone) = true ∧ v = w.1) →
          (BTree.node l w r').dataAt ((BTree.node l w r').search v) ≠ some v →
          Gives (pRemoveNum pAvlRemove (.num v)) s (.ok (.unit, true)) t := by
        intro hc hd
        have e1 := pm_remove_missing (C := avlClass) Z (by simp) hd (search_walk_ne _ _ (by simp)) (s.next + 1)
          (Nat.le_succ _)
        refine gives_ok (s' := { s with warned := true }) ((start rfl).trans ?_) rfl (holds_warned h true)
        rw [if_neg hc]
        refine (pm_bind_ok (a := ()) ?_).trans rfl
        refine (pm_bind_ok (s' := { s with warned := false }) rfl).trans <| (pm_bind_ok (pm_fuel _)).trans <|
          (pm_bind_ok e1).trans <| (pm_bind_ok (s' := { s with warned := true }) rfl).trans ?_
        rw [if_neg (by simp)]; rfl
      by_cases hlf : (BTree.node l w r').isLeaf = true
      · obtain ⟨rfl, rfl⟩ := isLeaf_iff.mp hlf
        have htl : t.root = .node .nil (w.1, w.2.1) .nil := ht
        by_cases hv : v = w.1
        · simp only [avlExec, avlRemoveNum, htl, if_pos hv, bind, Except.bind, pure, Except.pure, Except.ok.injEq,
            Prod.mk.injEq] at e
          obtain ⟨rfl, rfl⟩ := e
          refine gives_ok (s' := { s with warned := false, root := none, length := s.length - 1 }) ((start rfl).trans ?_)
            rfl ⟨.nil, ⟨?_, trivial, ?_, ?_⟩, rfl, ?_⟩
          · rw [if_pos ⟨rfl, hv⟩]; rfl
          · rfl
          · simp [BTree.addrs, ctxAddrs]
          · simp [BTree.addrs, ctxAddrs]
          · simpa using h2
        · simp only [avlExec, avlRemoveNum, htl, if_neg hv, bind, Except.bind, pure, Except.pure, Except.ok.injEq,
            Prod.mk.injEq] at e
          obtain ⟨rfl, rfl⟩ := e
          have hs : (BTree.node .nil w .nil : ATree N Nat).search v = [] := by
            simp [BTree.search, hv]
          have hd : (BTree.node .nil w .nil : ATree N Nat).dataAt ((BTree.node .nil w .nil).search v) ≠ some v := by
            rw [hs]
            simp only [BTree.dataAt, BTree.walk, ne_eq, Option.some.injEq]
            exact fun hc => hv hc.symm
          exact missing (fun hc => hv hc.2) hd
      · have hlf' : (BTree.node l w r').isLeaf = false := by simpa using hlf
        have hnl : ¬(l = .nil ∧ r' = .nil) := fun hc => hlf (isLeaf_iff.mpr hc)
        have hcond : ¬((l.ptr.isNone && r'.ptr.isNone) = true ∧ v = w.1) := by
          rintro ⟨hc, -⟩
          cases l <;> cases r' <;> first | exact hnl ⟨rfl, rfl⟩ | simp [BTree.ptr] at hc
        have hval : avlExec t (.remove (.num v)) = (t.root.avlRemove v).bind fun
            | none => .ok (.ok (.unit, true), t)
            | some x => .ok (.ok (.unit, false), ⟨x.1, t.length - 1⟩) := by
          have key := avlRemoveNum_inner t v (by rw [ht', forget_isLeaf, hlf']) (by rw [ht]; simp)
          simp only [avlExec, key, bind, pure, Except.pure]
          cases t.root.avlRemove v with
          | error y => rfl
          | ok x => cases x <;> rfl
        rw [hval, ht'] at e
        cases hS : (BTree.node l w r').forget.avlRemove v with
        | error y => rw [hS] at e; cases e
        | ok x =>
          rw [hS] at e
          cases x with
          | none =>
            simp only [Except.bind, Except.ok.injEq, Prod.mk.injEq] at e
            obtain ⟨rfl, rfl⟩ := e
            have hd := (avlRemove_climb v _).2 hS
            rw [forget_search] at hd
            refine missing hcond ?_
            intro hc; exact hd ((mapExt_dataAt (Prod.fst : Nat × Addr → Nat) _ _).trans hc)
          | some x =>
            obtain ⟨S, rot⟩ := x
            simp only [Except.bind, Except.ok.injEq, Prod.mk.injEq] at e
            obtain ⟨rfl, rfl⟩ := e
            obtain ⟨hd, hcl⟩ := removeZ_climb v _ hS
            obtain ⟨nd', e1, Z1⟩ := pm_remove_found (C := avlClass) Z hlf' hd (s.next + 1) (Nat.le_refl _)
            have hc := ctx_length_le Z1
            have hc' : (removeZ avlClass ((BTree.node l w r').search v) (.node l w r')).2.length < s.next + 1 := by
              have : ({ s with warned := false }.put nd').next = s.next := rfl
              omega
            obtain ⟨s2, U, a1, a2, a3, a4, a5, a6⟩ := pm_avlLoop _
              (s := { (({ s with warned := false } : PTree N Nat).put nd') with length := s.length - 1 })
              (Z1.congr rfl rfl rfl) hcl (s.next + 1) hc'
            refine gives_ok (s' := s2) ((start rfl).trans ?_) (by rw [a5]; rfl) ⟨U, a2, a3, ?_⟩
            · rw [if_neg hcond]
              refine (pm_bind_ok (a := ()) ?_).trans rfl
              refine (pm_bind_ok (s' := { s with warned := false }) rfl).trans <| (pm_bind_ok (pm_fuel _)).trans <|
                (pm_bind_ok e1).trans <| (pm_bind_ok (s' := { (({ s with warned := false } : PTree N Nat).put nd') with length := s.length - 1 }) rfl).trans ?_
              rw [if_pos (by simp)]
              exact (pm_bind_ok (pm_fuel _)).trans a1
            · rw [a4]; simpa using h2

theorem gives_contains {X : Type} {s : PTree N X} {t : Bst N X} (h : PtrHolds s t) (v : NumArg N) :
    Gives (pContains v) s (.ok (.bool (t.contains v), false)) t := by
  have h' : PtrHolds { s with warned := false } t := holds_warned h false
  have hh := h'
  obtain ⟨T, Z, h1, h2⟩ := h'
  have k : (⟨T, 0⟩ : Bst N (X × Addr)).contains v = t.contains v := by
    cases v with
    | none => rfl
    | other => rfl
    | num v =>
      simp only [Bst.contains, ← h1]
      cases T with
      | nil => rfl
      | node l w r =>
        have k1 := mapExt_search (Prod.fst : X × Addr → X) v (.node l w r)
        have k2 := mapExt_dataAt (Prod.fst : X × Addr → X) (.node l w r) ((BTree.node l w r).search v)
        simp only [mapExt_node] at k1 k2
        simp only [BTree.forget, mapExt_node, k1, k2]
  have e := pm_contains Z v
  rw [k] at e
  exact gives_ok e rfl hh

theorem avl_getHeight (h : PtrHolds s t) : Gives pAvlHeight s (.ok (.int t.root.avlHeight, false)) t := by
  have h' : PtrHolds { s with warned := false } t := holds_warned h false
  have hh := h'
  obtain ⟨T, Z, h1, h2⟩ := h'
  have hr : pRoot { s with warned := false } = (.ok T.ptr, { s with warned := false }) := by
    rw [pm_root, Z.root rfl]
  rw [← h1]
  cases T with
  | nil => exact gives_ok ((pm_bind_ok hr).trans rfl) rfl hh
  | node l w r => exact gives_ok ((pm_bind_ok hr).trans <| (pm_bind_ok (pm_node Z.rep.1)).trans rfl) rfl hh

theorem avl_isBalanced (h : PtrHolds s t) :
    Gives pAvlIsBalanced s (.ok (.bool t.root.avlIsBalanced.1, t.root.avlIsBalanced.2)) t := by
  have h' : PtrHolds { s with warned := false } t := holds_warned h false
  have hh := h'
  obtain ⟨T, Z, h1, h2⟩ := h'
  have hr : pRoot { s with warned := false } = (.ok T.ptr, { s with warned := false }) := by
    rw [pm_root, Z.root rfl]
  cases T with
  | nil =>
    rw [← h1]
    exact gives_ok ((pm_bind_ok hr).trans rfl) rfl (holds_warned h true)
  | node l w r =>
    rw [← h1]
    exact gives_ok ((pm_bind_ok hr).trans <| (pm_bind_ok (pm_balanced Z.rep)).trans rfl) rfl hh

/-- one call -/
theorem avl_exec (h : PtrHolds s t) (op : AvlOp N) {r : BstRes N} {t' : Bst N Nat}
    (e : avlExec t op = .ok (r, t')) : (pAvlExec s op).1 = r ∧ PtrHolds (pAvlExec s op).2 t' := by
  have fin : ∀ {m : PM N Nat (BstVal N)} {r : BstRes N} {t' : Bst N Nat}, Gives m s r t' →
      (pCall m s).1 = r ∧ PtrHolds (pCall m s).2 t' := by
    rintro m r t' ⟨s', e, H⟩
    rw [e]; exact ⟨rfl, H⟩
  cases op with
  | insert v => exact fin (avl_insert h v e)
  | remove v => exact fin (avl_remove h v e)
  | contains v => cases e; exact fin (gives_contains h v)
  | getMin => cases e; exact fin (gives_getMin h)
  | getMax => cases e; exact fin (gives_getMax h)
  | len => cases e; exact fin (gives_len h)
  | getHeight => cases e; exact fin (avl_getHeight h)
  | isBalanced => cases e; exact fin (avl_isBalanced h)
  | inorder => cases e; exact fin (gives_inorder h)
  | clear => cases e; exact fin gives_clear

/-- a history -/
theorem avl_execs (ops : List (AvlOp N)) {s : PTree N Nat} {t : Bst N Nat} (h : PtrHolds s t)
    {rs : List (BstRes N)} {t' : Bst N Nat} (e : avlExecs ops t = .ok (rs, t')) :
    (pAvlExecs ops s).1 = rs ∧ PtrHolds (pAvlExecs ops s).2 t' := by
  induction ops generalizing s t rs with
  | nil => cases e; exact ⟨rfl, h⟩
  | cons op ops ih =>
    simp only [avlExecs, bind, Except.bind] at e
    split at e
    · simp at e
    next x hx =>
      obtain ⟨r, t1⟩ := x
      simp only at e
      split at e
      · simp at e
      next y hy =>
        obtain ⟨rs', t2⟩ := y
        simp only [pure, Except.pure, Except.ok.injEq, Prod.mk.injEq] at e
        obtain ⟨rfl, rfl⟩ := e
        have h1 := avl_exec h op hx
        have h2 := ih h1.2 hy
        exact ⟨by rw [pAvlExecs, h1.1, h2.1], h2.2⟩

end

end Extra
