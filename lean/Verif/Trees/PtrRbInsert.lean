import Verif.Trees.PtrRbProofs

/-!
# `RedBlackTree` on node objects: `insert`
-/

set_option linter.unusedSimpArgs false
set_option linter.unusedSectionVars false

namespace Extra
variable {N : Type} [LinearOrder N]

theorem insertNode_descend {X : Type} (v : N × X) (t : BTree (N × X)) (fs : List (Above N X)) :
    ((t.insertNode v).2 = true ↔ t.walk (t.insertPath v.1) = .nil) ∧
    (t.insertNode v).1.descend (t.insertPath v.1) fs =
      (if (t.insertNode v).2 then .node .nil v .nil else t.walk (t.insertPath v.1), t.above (t.insertPath v.1) ++ fs) := by
  induction t generalizing fs with
  | nil => simp [BTree.insertNode, BTree.insertPath, BTree.walk, BTree.above, BTree.descend]
  | node l w r ihl ihr =>
    rw [insertNode_node]
    simp only [BTree.insertPath]
    by_cases h1 : v.1 = w.1
    · simp [h1, BTree.walk, BTree.above, BTree.descend]
    · by_cases h2 : v.1 < w.1
      · simp only [if_neg h1, if_pos h2, BTree.walk, BTree.above, BTree.descend]
        refine ⟨(ihl []).1, ?_⟩
        rw [(ihl _).2]; simp
      · simp only [if_neg h1, if_neg h2, BTree.walk, BTree.above, BTree.descend]
        refine ⟨(ihr []).1, ?_⟩
        rw [(ihr _).2]; simp

/-- the end of `insert`: the root is set and blackened -/
theorem pm_rootBlack {s : PTree N Color} {U : ATree N Color} {hole : Option Addr} (Z : ZRep s U [] hole) (hU : U ≠ .nil) :
    ∃ nd' U', (do pSetRoot U.ptr; pSetColor (← pRoot) .black; return (.unit : BstVal N)) s =
        (.ok .unit, { s.put nd' with root := U.ptr }) ∧
      ZRep { s.put nd' with root := U.ptr } U' [] U'.ptr ∧ U'.forget = U.forget.blacken := by
  cases U with
  | nil => exact absurd rfl hU
  | node l w r =>
    have Z' : ZRep { s with root := some w.2.2 } (.node l w r) [] (some w.2.2) := ⟨rfl, Z.rep, Z.nodup, Z.bound⟩
    obtain ⟨nd', e, Z2⟩ := Z'.setColor .black
    refine ⟨nd', .node l (w.1, (.black, w.2.2)) r, ?_, Z2, rfl⟩
    refine (pm_bind_ok (pm_setRoot _ _)).trans <| (pm_bind_ok (pm_root _)).trans <| (pm_bind_ok e).trans rfl

theorem rb_insert {s : PTree N Color} {t : Bst N Color} (h : PtrHolds s t) (v : NumArg N) {r : BstRes N} {t' : Bst N Color}
    (e : rbExec t (.insert v) = .ok (r, t')) : Gives (pRbInsertNum v) s r t' := by
  have h' : PtrHolds { s with warned := false } t := holds_warned h false
  cases v with
  | none => cases e; exact gives_error rfl h'
  | other => cases e; exact gives_error rfl h'
  | num v =>
    obtain ⟨T, Z, h1, h2⟩ := h'
    cases T with
    | nil =>
      have ht : t.root = .nil := h1.symm
      simp only [rbExec, validNum, rbInsertNum, ht, bind, Except.bind, pure, Except.pure, Except.ok.injEq,
        Prod.mk.injEq] at e
      obtain ⟨rfl, rfl⟩ := e
      have e0 : pRoot { s with warned := false } = (.ok none, { s with warned := false }) := by
        rw [pm_root, Z.root rfl]; rfl
      refine gives_ok ((pm_bind_ok e0).trans <| (pm_bind_ok (pm_new _ _ _)).trans <|
        (pm_bind_ok (pm_setRoot _ _)).trans <| (pm_bind_ok (pm_root _)).trans <|
        (pm_bind_ok (pm_setNode _ (upd_eq _ _ _))).trans <| (pm_bind_ok (pm_addLength _ _)).trans rfl) rfl
        ⟨leafAt v .black s.next, ⟨rfl, ⟨?_, trivial, trivial⟩, ?_, ?_⟩, rfl, ?_⟩
      · exact upd_eq _ _ _
      · simp [leafAt, BTree.addrs, ctxAddrs]
      · simp [leafAt, BTree.addrs, ctxAddrs]
      · simp [← h2]
    | node l w r' =>
      have ht : t.root = .node l.forget (w.1, w.2.1) r'.forget := h1.symm
      have ht' : t.root = (BTree.node l w r').forget := h1.symm
      have e0 : pRoot { s with warned := false } = (.ok (some w.2.2), { s with warned := false }) := by
        rw [pm_root, Z.root rfl]; rfl
      obtain ⟨i1, i2⟩ := insertNode_descend (v, Color.red) (BTree.node l w r').forget []
      rw [forget_insertPath, forget_walk] at i1 i2
      rw [← forgetAll_above, List.append_nil] at i2
      simp only [rbExec, validNum, rbInsertNum, ht, bind, Except.bind, pure, Except.pure] at e
      rw [← ht, ht', forget_insertPath, i2] at e
      have hfin : ∀ (a : Addr) (U : ATree N Color) (s1 s2 s3 : PTree N Color),
          pInsert rbClass .red (s.next + 1) v { s with warned := false } = (.ok (some a), s1) →
          pRecolor (s1.next + 1) (some a) s1 = (.ok U.ptr, s2) →
          (do pSetRoot U.ptr; pSetColor (← pRoot) .black; return (.unit : BstVal N)) s2 = (.ok .unit, s3) →
          pRbInsertNum (.num v) { s with warned := false } = (.ok .unit, s3) := by
        intro a U s1 s2 s3 e1 e2 e3
        refine (pm_bind_ok e0).trans ?_
        exact (pm_bind_ok (pm_fuel _)).trans <| (pm_bind_ok e1).trans <| (pm_bind_ok (pm_fuel _)).trans <|
          (pm_bind_ok e2).trans e3
      by_cases h0 : (BTree.node l w r').walk ((BTree.node l w r').insertPath v) = .nil
      · have hnew := i1.mpr (by rw [h0]; rfl)
        rw [if_pos hnew] at e
        simp only at e
        cases hT : rbRecolor .nil (v, Color.red) .nil
          (forgetAll ((BTree.node l w r').above ((BTree.node l w r').insertPath v))) with
        | error y => rw [hT] at e; cases e
        | ok T =>
          rw [hT] at e
          simp only [hnew, Except.ok.injEq, Prod.mk.injEq] at e
          obtain ⟨rfl, rfl⟩ := e
          obtain ⟨s1, e1, Z1, hl, hwn, _⟩ := pm_insert_new (C := rbClass) (x := Color.red) Z (by simp) h0 (s.next + 1)
            (Nat.le_succ _)
          rw [attached_rb] at Z1
          have hc := ctx_length_le Z1
          obtain ⟨nd, U, hole', a1, a2, a3, a4⟩ := pm_recolor (s1.next + 1) (x := (v, (Color.red, s.next))) Z1
            (fun _ => rfl) (by omega) hT
          obtain ⟨nd2, U', b1, b2, b3⟩ := pm_rootBlack a2 a4
          refine gives_ok (hfin _ _ _ _ _ e1 a1 b1) (by simp [PTree.put, hwn]) ⟨U', b2, by rw [b3, a3], ?_⟩
          simp [PTree.put, hl, ← h2]
      · have hnew : ((BTree.node l w r').forget.insertNode (v, Color.red)).2 = false := by
          cases hb : ((BTree.node l w r').forget.insertNode (v, Color.red)).2 with
          | false => rfl
          | true => exact absurd (forget_nil (i1.mp hb)) h0
        rw [if_neg (by simp [hnew])] at e
        obtain ⟨s1, e1, Z1, hl, hwn, _⟩ := pm_insert_found (C := rbClass) (x := Color.red) Z (by simp) h0 (s.next + 1)
          (Nat.le_succ _)
        cases hw : (BTree.node l w r').walk ((BTree.node l w r').insertPath v) with
        | nil => exact absurd hw h0
        | node a x b =>
          rw [hw] at e1 e
          simp only [show (BTree.node a x b).forget = .node a.forget (x.1, x.2.1) b.forget from rfl] at e
          cases hT : rbRecolor a.forget (x.1, x.2.1) b.forget
            (forgetAll ((BTree.node l w r').above ((BTree.node l w r').insertPath v))) with
          | error y => rw [hT] at e; cases e
          | ok T =>
            rw [hT] at e
            simp only [hnew, Except.ok.injEq, Prod.mk.injEq] at e
            obtain ⟨rfl, rfl⟩ := e
            have Z1' := Z1.descend (q := (BTree.node l w r').insertPath v)
            rw [descend_eq, hw, List.append_nil] at Z1'
            have hc := ctx_length_le Z1'
            obtain ⟨nd, U, hole', a1, a2, a3, a4⟩ := pm_recolor (s1.next + 1) Z1' (fun _ => rfl) (by omega) hT
            obtain ⟨nd2, U', b1, b2, b3⟩ := pm_rootBlack a2 a4
            refine gives_ok (hfin _ _ _ _ _ e1 a1 b1) (by simp [PTree.put, hwn]) ⟨U', b2, by rw [b3, a3], ?_⟩
            simp [PTree.put, hl, ← h2]

end Extra
