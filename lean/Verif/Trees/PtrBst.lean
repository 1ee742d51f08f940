import Verif.Trees.PtrPlain

/-!
# `BST` on node objects: each call does what the value model says (no property content)
-/

set_option linter.unusedSimpArgs false
set_option linter.unusedSectionVars false

namespace Extra
variable {N X : Type} [LinearOrder N]

/-- forgetting the addresses -/
def BTree.forget (t : ATree N X) : BTree (N × X) := t.mapExt Prod.fst

/-- the node objects hold the tree of a `BST` value -/
def PtrHolds (s : PTree N X) (t : Bst N X) : Prop :=
  ∃ T : ATree N X, ZRep s T [] T.ptr ∧ T.forget = t.root ∧ s.length = t.length

theorem holds_empty : PtrHolds (PTree.empty : PTree N X) Bst.empty :=
  ⟨.nil, ⟨rfl, trivial, by simp [BTree.addrs, ctxAddrs], by simp [BTree.addrs, ctxAddrs]⟩, rfl, rfl⟩

section
variable {s : PTree N X} {t : ATree N X}

theorem ZRep.root {fs : List (AFrame N X)} {hole : Option Addr} (h : ZRep s t fs hole) (he : fs = []) :
    s.root = hole := by subst he; exact h.ctx

/-- `inorder_traverse` -/
theorem pm_inorder {p : Option Addr} (h : PRep s.node p t) (fuel : Nat) (hf : t.addrs.length < fuel) :
    pInorder fuel t.ptr s = (.ok t.keys, s) := by
  induction t generalizing p fuel with
  | nil =>
    obtain ⟨m, rfl⟩ : ∃ m, fuel = m + 1 := ⟨fuel - 1, by omega⟩
    rfl
  | node l w r ihl ihr =>
    obtain ⟨m, rfl⟩ : ∃ m, fuel = m + 1 := ⟨fuel - 1, by omega⟩
    simp only [BTree.addrs, List.length_cons, List.length_append] at hf
    have el : (if l.ptr.isSome then pInorder m l.ptr else PM.pure []) s = (.ok l.keys, s) := by
      cases l with
      | nil => rfl
      | node a u b => exact ihl h.2.1 m (by omega)
    have er : (if r.ptr.isSome then pInorder m r.ptr else PM.pure []) s = (.ok r.keys, s) := by
      cases r with
      | nil => rfl
      | node a u b => exact ihr h.2.2 m (by omega)
    rw [pInorder, BTree.keys_node]
    exact (pm_bind_ok (pm_left h.1)).trans <| (pm_bind_ok el).trans <| (pm_bind_ok (pm_data h.1)).trans <|
      (pm_bind_ok (pm_right h.1)).trans <| (pm_bind_ok er).trans rfl

theorem invert_addrs (t : ATree N X) : t.invert.addrs.Perm t.addrs := by
  induction t with
  | nil => exact List.Perm.refl _
  | node l w r ihl ihr =>
    exact List.Perm.cons _ (((ihr.append ihl)).trans List.perm_append_comm)

theorem invert_ptr (t : ATree N X) : t.invert.ptr = t.ptr := by cases t <;> rfl

/-- `_invert_subtree` -/
theorem pm_invert (t : ATree N X) {s : PTree N X} {p : Option Addr} (h : PRep s.node p t) (hn : t.addrs.Nodup)
    (fuel : Nat) (hf : t.addrs.length < fuel) :
    ∃ nd', pInvert fuel t.ptr s = (.ok t.ptr, s.put nd') ∧ PRep nd' p t.invert ∧
      ∀ b, b ∉ t.addrs → nd' b = s.node b := by
  induction t generalizing s p fuel with
  | nil =>
    obtain ⟨m, rfl⟩ : ∃ m, fuel = m + 1 := ⟨fuel - 1, by omega⟩
    exact ⟨s.node, rfl, trivial, fun _ _ => rfl⟩
  | node l w r ihl ihr =>
    obtain ⟨m, rfl⟩ : ∃ m, fuel = m + 1 := ⟨fuel - 1, by omega⟩
    simp only [BTree.addrs, List.length_cons, List.length_append] at hf
    simp only [BTree.addrs, List.nodup_cons, List.nodup_append, List.mem_append, ne_eq] at hn
    obtain ⟨nd1, e1, R1, F1⟩ := ihr h.2.2 (by grind) m (by omega)
    have Hl : PRep (s.put nd1).node (some w.2.2) l := h.2.1.frame fun b hb => F1 b (by grind)
    have hw1 : (s.put nd1).node w.2.2 = some ⟨w.1, w.2.1, l.ptr, r.ptr, p⟩ := by
      rw [put_node, F1 _ (by grind)]; exact h.1
    obtain ⟨nd2, e2, R2, F2⟩ := ihl Hl (by grind) m (by omega)
    have hw2 : (s.put nd2).node w.2.2 = some ⟨w.1, w.2.1, l.ptr, r.ptr, p⟩ := by
      rw [put_node, F2 _ (by grind), hw1]
    refine ⟨upd nd2 w.2.2 (some ⟨w.1, w.2.1, r.ptr, l.ptr, p⟩), ?_, ⟨?_, ?_, ?_⟩, ?_⟩
    · rw [pInvert]
      exact (pm_bind_ok (pm_right h.1)).trans <| (pm_bind_ok e1).trans <| (pm_bind_ok (pm_left hw1)).trans <|
        (pm_bind_ok e2).trans <| (pm_bind_ok (pm_setNode _ hw2)).trans rfl
    · simp [invert_ptr]
    · refine R1.frame fun b hb => ?_
      have hb' := (invert_addrs r).mem_iff.mp hb
      rw [upd_other _ _ (by grind), F2 b (by grind)]; rfl
    · refine R2.frame fun b hb => ?_
      have hb' := (invert_addrs l).mem_iff.mp hb
      rw [upd_other _ _ (by grind)]
    · intro b hb
      simp only [BTree.addrs, List.mem_cons, List.mem_append, not_or] at hb
      rw [upd_other _ _ hb.1, F2 b hb.2.1, put_node, F1 b hb.2.2]

theorem minNode_walk (t : BTree (N × X)) {a b : BTree (N × X)} {u : N × X} (h : t.walk t.minPath = .node a u b) :
    t.minNode = some u := by
  induction t with
  | nil => simp [BTree.walk, BTree.minPath] at h
  | node l w r ihl ihr =>
    cases l with
    | nil =>
      simp only [BTree.minPath, BTree.walk, BTree.node.injEq] at h
      simp [BTree.minNode, h.2.1]
    | node ll lv lr => exact ihl h

theorem maxNode_walk (t : BTree (N × X)) {a b : BTree (N × X)} {u : N × X} (h : t.walk t.maxPath = .node a u b) :
    t.maxNode = some u := by
  induction t with
  | nil => simp [BTree.walk, BTree.maxPath] at h
  | node l w r ihl ihr =>
    cases r with
    | nil =>
      simp only [BTree.maxPath, BTree.walk, BTree.node.injEq] at h
      simp [BTree.maxNode, h.2.1]
    | node rl rv rr => exact ihr h

theorem search_walk_ne (v : N) (t : BTree (N × X)) (h : t ≠ .nil) : t.walk (t.search v) ≠ .nil := by
  induction t with
  | nil => exact absurd rfl h
  | node l w r ihl ihr =>
    cases l <;> cases r <;> simp only [BTree.search] <;> split_ifs <;>
      first
        | (simp [BTree.walk]; done)
        | exact ihl (by simp)
        | exact ihr (by simp)

/-- a node at the end of a walk -/
theorem ZRep.walk {a b : ATree N X} {u : N × (X × Addr)} {q : List Bool} (h : ZRep s t [] t.ptr)
    (he : t.walk q = .node a u b) : ∃ fs, ZRep s (.node a u b) fs (some u.2.2) := by
  have := h.descend (q := q)
  rw [descend_fst, he] at this
  exact ⟨_, this⟩

/-- `value in tree` -/
theorem pm_contains (h : ZRep s t [] t.ptr) (v : NumArg N) :
    pContains v s = (.ok (.bool ((⟨t, 0⟩ : Bst N (X × Addr)).contains v)), s) := by
  cases v with
  | none => rfl
  | other => rfl
  | num v =>
    have e0 : pRoot s = (.ok t.ptr, s) := by rw [pm_root, h.root rfl]
    refine (pm_bind_ok e0).trans ?_
    cases t with
    | nil => rfl
    | node l w r =>
      have h1 := pm_search v h.rep (by simp) (s.next + 1) (h.length_le.trans (by omega))
      have hne := search_walk_ne v (.node l w r) (by simp)
      cases he : (BTree.node l w r).walk ((BTree.node l w r).search v) with
      | nil => exact absurd he hne
      | node a u b =>
        rw [he] at h1
        obtain ⟨fs, Z⟩ := h.walk he
        refine (pm_bind_ok (pm_fuel s)).trans <| (pm_bind_ok h1).trans <| (pm_bind_ok (pm_data Z.rep.1)).trans ?_
        simp only [Bst.contains, BTree.dataAt, he, Option.some.injEq]; rfl

/-- `get_min` -/
theorem pm_getMin (h : ZRep s t [] t.ptr) :
    pGetMin s = ((⟨t, 0⟩ : Bst N (X × Addr)).getMin.map BstVal.num, s) := by
  have e0 : pRoot s = (.ok t.ptr, s) := by rw [pm_root, h.root rfl]
  refine (pm_bind_ok e0).trans ?_
  cases t with
  | nil => rfl
  | node l w r =>
    have h1 := pm_minNode h.rep (by simp) (s.next + 1) (h.length_le.trans (by omega))
    cases he : (BTree.node l w r).walk (BTree.node l w r).minPath with
    | nil => exact absurd he (minPath_walk _ (by simp))
    | node a u b =>
      rw [he] at h1
      obtain ⟨fs, Z⟩ := h.walk he
      refine (pm_bind_ok (pm_fuel s)).trans <| (pm_bind_ok h1).trans <| (pm_bind_ok (pm_data Z.rep.1)).trans ?_
      simp only [Bst.getMin, minNode_walk _ he]; rfl

/-- `get_max` -/
theorem pm_getMax (h : ZRep s t [] t.ptr) :
    pGetMax s = ((⟨t, 0⟩ : Bst N (X × Addr)).getMax.map BstVal.num, s) := by
  have e0 : pRoot s = (.ok t.ptr, s) := by rw [pm_root, h.root rfl]
  refine (pm_bind_ok e0).trans ?_
  cases t with
  | nil => rfl
  | node l w r =>
    have h1 := pm_maxNode h.rep (by simp) (s.next + 1) (h.length_le.trans (by omega))
    cases he : (BTree.node l w r).walk (BTree.node l w r).maxPath with
    | nil => exact absurd he (maxPath_walk _ (by simp))
    | node a u b =>
      rw [he] at h1
      obtain ⟨fs, Z⟩ := h.walk he
      refine (pm_bind_ok (pm_fuel s)).trans <| (pm_bind_ok h1).trans <| (pm_bind_ok (pm_data Z.rep.1)).trans ?_
      simp only [Bst.getMax, maxNode_walk _ he]; rfl

/-- `_insert` on a tree that is not empty: the value is there -/
theorem pm_insert_found {C : PClass X} {v : N} {x : X} (h : ZRep s t [] t.ptr) (hn : t ≠ .nil)
    (h0 : t.walk (t.insertPath v) ≠ .nil) (fuel : Nat) (hf : s.next ≤ fuel) :
    ∃ s', pInsert C x fuel v s = (.ok (t.walk (t.insertPath v)).ptr, s') ∧ ZRep s' t [] t.ptr ∧
      s'.length = s.length ∧ s'.warned = true ∧ s'.next = s.next + 1 := by
  have e0 : pRoot s = (.ok t.ptr, s) := by rw [pm_root, h.root rfl]
  obtain ⟨l, w, r, rfl⟩ : ∃ l w r, t = .node l w r := by
    cases t with
    | nil => exact absurd rfl hn
    | node l w r => exact ⟨_, _, _, rfl⟩
  have hb : ∀ a ∈ (BTree.node l w r).addrs, a ≠ s.next := fun a ha => by
    have := h.bound a (by simp [ha]); omega
  have R : PRep (upd s.node s.next (some ⟨v, x, none, none, none⟩)) none (.node l w r) :=
    h.rep.frame fun a ha => upd_other _ _ (hb a ha)
  have e1 := pm_insertNode_found (C := C) (b := s.next) (n := ⟨v, x, none, none, none⟩) (p := none)
    (s := { s with node := upd s.node s.next (some ⟨v, x, none, none, none⟩), next := s.next + 1 })
    R (by simp) h0 fuel (h.length_le.trans hf)
  refine ⟨_, (pm_bind_ok e0).trans <| (pm_bind_ok (pm_assert _ _)).trans <| (pm_bind_ok (pm_new _ _ _)).trans e1,
    ⟨h.ctx, R, h.nodup, fun a ha => Nat.lt_succ_of_lt (h.bound a ha)⟩, rfl, rfl, rfl⟩

/-- `_insert` on a tree that is not empty: the value is new -/
theorem pm_insert_new {C : PClass X} {v : N} {x : X} (h : ZRep s t [] t.ptr) (hn : t ≠ .nil)
    (h0 : t.walk (t.insertPath v) = .nil) (fuel : Nat) (hf : s.next ≤ fuel) :
    ∃ s', pInsert C x fuel v s = (.ok (some s.next), s') ∧
      ZRep s' (leafAt v x s.next) (attached C (leafAt v x s.next) (t.above (t.insertPath v))) (some s.next) ∧
      s'.length = s.length + 1 ∧ s'.warned = s.warned ∧ s'.next = s.next + 1 := by
  have e0 : pRoot s = (.ok t.ptr, s) := by rw [pm_root, h.root rfl]
  have hb : ∀ a ∈ t.addrs ++ ctxAddrs [], a ≠ s.next := fun a ha => by
    have := h.bound a ha; omega
  have Z : ZRep { s with node := upd s.node s.next (some ⟨v, x, none, none, none⟩), next := s.next + 1 } t [] t.ptr :=
    ⟨h.ctx, h.rep.frame fun a ha => upd_other _ _ (hb a (by simp [ha])), h.nodup,
      fun a ha => Nat.lt_succ_of_lt (h.bound a ha)⟩
  obtain ⟨nd', e1, Z1⟩ := pm_insertNode_new (C := C) (b := s.next) (v := v) (x := x)
    (s := { s with node := upd s.node s.next (some ⟨v, x, none, none, none⟩), next := s.next + 1 })
    Z (by simp) (Nat.lt_succ_self _) (fun hc => hb _ hc rfl) hn h0 fuel (h.length_le.trans hf)
  rw [descend_eq, List.append_nil] at Z1
  obtain ⟨l, w, r, rfl⟩ : ∃ l w r, t = .node l w r := by
    cases t with
    | nil => exact absurd rfl hn
    | node l w r => exact ⟨_, _, _, rfl⟩
  refine ⟨_, (pm_bind_ok e0).trans <| (pm_bind_ok (pm_assert _ _)).trans <| (pm_bind_ok (pm_new _ _ _)).trans e1,
    Z1.congr rfl rfl rfl, rfl, rfl, rfl⟩

end

/-! ## The calls -/

/-- the first insertion -/
theorem pm_insertNum_empty {s : PTree N X} (insert : N → PM N X (Option Addr)) (x : X) (v : N) (h : s.root = none) :
    ∃ s', pInsertNum insert x (.num v) s = (.ok .unit, s') ∧
      ZRep s' (leafAt v x s.next) [] (some s.next) ∧ s'.length = s.length + 1 ∧ s'.warned = s.warned := by
  have e0 : pRoot s = (.ok none, s) := by rw [pm_root, h]
  refine ⟨_, (pm_bind_ok e0).trans <| (pm_bind_ok (pm_new _ _ _)).trans <| (pm_bind_ok (pm_setRoot _ _)).trans <|
    (pm_bind_ok (pm_addLength _ _)).trans rfl, ⟨rfl, ⟨?_, trivial, trivial⟩, ?_, ?_⟩, rfl, rfl⟩
  · exact upd_eq _ _ _
  · simp [leafAt, BTree.addrs, ctxAddrs]
  · simp [leafAt, BTree.addrs, ctxAddrs]

theorem holds_warned {s : PTree N X} {t : Bst N X} (h : PtrHolds s t) (b : Bool) : PtrHolds { s with warned := b } t := by
  obtain ⟨T, Z, h1, h2⟩ := h
  exact ⟨T, Z.congr rfl rfl rfl, h1, h2⟩

theorem forget_nil {T : ATree N X} (h : T.forget = .nil) : T = .nil := by
  cases T with
  | nil => rfl
  | node l w r => simp [BTree.forget, mapExt_node] at h

theorem forget_node {T : ATree N X} {l r : BTree (N × X)} {w : N × X} (h : T.forget = .node l w r) :
    ∃ L W R, T = .node L W R ∧ L.forget = l ∧ (W.1, W.2.1) = w ∧ R.forget = r := by
  cases T with
  | nil => simp [BTree.forget, mapExt_nil] at h
  | node L W R =>
    simp only [BTree.forget, mapExt_node, BTree.node.injEq] at h
    exact ⟨L, W, R, rfl, h.1, h.2.1, h.2.2⟩

/-- `insert` of a `BST` -/
theorem bst_insert {s : PTree N Unit} {t : Bst N Unit} (h : PtrHolds s t) (v : N) (hw : s.warned = false) :
    ∃ s', pInsertNum (fun v => do pInsert (plainClass Unit) () (← pFuel) v) () (.num v) s = (.ok .unit, s') ∧
      PtrHolds s' (t.insertNum v ()).1 ∧ s'.warned = (t.insertNum v ()).2 := by
  obtain ⟨T, Z, h1, h2⟩ := h
  cases T with
  | nil =>
    obtain ⟨s', e, Z', hl, hwn⟩ := pm_insertNum_empty (fun v => do pInsert (plainClass Unit) () (← pFuel) v) () v
      (Z.root rfl)
    have ht : t.root = .nil := h1.symm
    refine ⟨s', e, ⟨_, Z', ?_, ?_⟩, ?_⟩
    · simp only [Bst.insertNum, ht]; rfl
    · simp only [Bst.insertNum, ht, hl, h2]
    · simp only [Bst.insertNum, ht, hwn, hw]
  | node l w r =>
    have ht : t.root = .node l.forget (w.1, w.2.1) r.forget := h1.symm
    have e0 : pRoot s = (.ok (some w.2.2), s) := by rw [pm_root, Z.root rfl]; rfl
    have hm := mapExt_insertNode (Prod.fst : Unit × Addr → Unit) (v, ((), s.next)) (.node l w r)
    have hfin : ∀ (a : Option Addr) (s' : PTree N Unit),
        pInsert (plainClass Unit) () (s.next + 1) v s = (.ok a, s') →
        pInsertNum (fun v => do pInsert (plainClass Unit) () (← pFuel) v) () (.num v) s = (.ok .unit, s') := by
      intro a s' e
      refine (pm_bind_ok e0).trans ?_
      exact (pm_bind_ok ((pm_bind_ok (pm_fuel s)).trans e)).trans rfl
    by_cases h0 : (BTree.node l w r).walk ((BTree.node l w r).insertPath v) = .nil
    · obtain ⟨s', e, Z', hl, hwn, _⟩ := pm_insert_new (C := plainClass Unit) (x := ()) Z (by simp) h0 (s.next + 1)
        (by omega)
      have hi := insert_above_new (v, ((), s.next)) (.node l w r) h0
      rw [attached_plain] at Z'
      have Z2 := Z'.plug
      rw [show plug (leafAt v () s.next) _ = _ from hi.1] at Z2
      have hm' : t.root.insertNode (v, ()) = (((BTree.node l w r).insertNode (v, ((), s.next))).1.mapExt Prod.fst,
          ((BTree.node l w r).insertNode (v, ((), s.next))).2) := by rw [ht]; exact hm
      refine ⟨s', hfin _ _ e, ⟨_, Z2, ?_, ?_⟩, ?_⟩
      · simp only [Bst.insertNum, ht] at hm' ⊢
        rw [hm']; rfl
      · simp only [Bst.insertNum, ht] at hm' ⊢
        rw [hm', hi.2, hl, h2]; rfl
      · simp only [Bst.insertNum, ht] at hm' ⊢
        rw [hm', hi.2, hwn, hw]; rfl
    · obtain ⟨s', e, Z', hl, hwn, _⟩ := pm_insert_found (C := plainClass Unit) (x := ()) Z (by simp) h0 (s.next + 1)
        (by omega)
      have hi := insert_above_found (v, ((), s.next)) (.node l w r) h0
      rw [hi] at hm
      have hm' : t.root.insertNode (v, ()) = ((BTree.node l w r).mapExt Prod.fst, false) := by rw [ht]; exact hm
      refine ⟨s', hfin _ _ e, ⟨_, Z', ?_, ?_⟩, ?_⟩
      · simp only [Bst.insertNum, ht] at hm' ⊢
        rw [hm']; rfl
      · simp only [Bst.insertNum, ht] at hm' ⊢
        rw [hm', hl, h2]; rfl
      · simp only [Bst.insertNum, ht] at hm' ⊢
        rw [hm', hwn]; rfl

/-- `remove` of a `BST` -/
theorem bst_remove {s : PTree N Unit} {t : Bst N Unit} (h : PtrHolds s t) (v : NumArg N) (hw : s.warned = false) :
    ∃ s', pRemoveNum (fun v => do let _ ← pRemove (plainClass Unit) (← pFuel) v) v s = (.ok .unit, s') ∧
      PtrHolds s' (t.remove v).1 ∧ s'.warned = (t.remove v).2 := by
  cases v with
  | none => exact ⟨_, rfl, holds_warned h true, rfl⟩
  | other => exact ⟨_, rfl, holds_warned h true, rfl⟩
  | num v =>
    have hh := h
    obtain ⟨T, Z, h1, h2⟩ := h
    cases T with
    | nil =>
      have ht : t.root = .nil := h1.symm
      have e0 : pRoot s = (.ok none, s) := by rw [pm_root, Z.root rfl]; rfl
      refine ⟨_, (pm_bind_ok e0).trans rfl, ?_, ?_⟩
      · simp only [Bst.remove, ht]; exact holds_warned hh true
      · simp only [Bst.remove, ht]
    | node l w r =>
      have ht : t.root = .node l.forget (w.1, w.2.1) r.forget := h1.symm
      have e0 : pRoot s = (.ok (some w.2.2), s) := by rw [pm_root, Z.root rfl]; rfl
      have start : ∀ {k : PM N Unit (BstVal N)}, k = (do
            if ((l.ptr.isNone && r.ptr.isNone) = true ∧ v = w.1) then do
              pSetRoot none
              pAddLength (-1)
              return .unit
            else do
              (fun v => do let _ ← pRemove (plainClass Unit) (← pFuel) v) v
              return .unit) →
          pRemoveNum (fun v => do let _ ← pRemove (plainClass Unit) (← pFuel) v) (.num v) s = k s := by
        rintro k rfl
        exact (pm_bind_ok e0).trans <| (pm_bind_ok (pm_isLeaf Z.rep.1)).trans <| (pm_bind_ok (pm_data Z.rep.1)).trans rfl
      by_cases hlf : (BTree.node l w r).isLeaf = true
      · obtain ⟨rfl, rfl⟩ := isLeaf_iff.mp hlf
        have ht' : t.root = .node .nil (w.1, w.2.1) .nil := ht
        by_cases hv : v = w.1
        · refine ⟨{ s with root := none, length := s.length - 1 }, (start rfl).trans ?_,
            ⟨.nil, ⟨?_, trivial, ?_, ?_⟩, ?_, ?_⟩, ?_⟩
          · rw [if_pos ⟨rfl, hv⟩]; rfl
          · rfl
          · simp [BTree.addrs, ctxAddrs]
          · simp [BTree.addrs, ctxAddrs]
          · simp only [Bst.remove, ht', if_pos hv]; rfl
          · simp only [Bst.remove, ht', if_pos hv, h2]
          · simp only [Bst.remove, ht', if_pos hv, hw]
        · have hd : (BTree.node .nil w .nil : ATree N Unit).dataAt ((BTree.node .nil w .nil).search v) ≠ some v := by
            simp [BTree.search, hv, BTree.dataAt, BTree.walk]
            exact fun hc => hv hc.symm
          have e1 := pm_remove_missing (C := plainClass Unit) Z (by simp) hd (search_walk_ne v _ (by simp)) (s.next + 1)
            (by omega)
          refine ⟨{ s with warned := true }, (start rfl).trans ?_, ?_, ?_⟩
          · rw [if_neg (fun hc => hv hc.2)]
            exact (pm_bind_ok ((pm_bind_ok (pm_fuel s)).trans <| (pm_bind_ok e1).trans rfl)).trans rfl
          · simp only [Bst.remove, ht', if_neg hv]; exact holds_warned hh true
          · simp only [Bst.remove, ht', if_neg hv]
      · have hlf' : (BTree.node l w r).isLeaf = false := by simpa using hlf
        have hnl : ¬(l = .nil ∧ r = .nil) := fun hc => hlf (isLeaf_iff.mpr hc)
        have hm := mapExt_remove (Prod.fst : Unit × Addr → Unit) v (.node l w r)
        have hm' : t.root.remove v = (((BTree.node l w r).remove v).1.mapExt Prod.fst, ((BTree.node l w r).remove v).2) := by
          rw [ht]; exact hm
        have hrm : t.remove (.num v) =
            (⟨(t.root.remove v).1, if (t.root.remove v).2 then t.length - 1 else t.length⟩, !(t.root.remove v).2) := by
          rw [ht]
          cases l with
          | nil =>
            cases r with
            | nil => exact absurd ⟨rfl, rfl⟩ hnl
            | node a u b => simp only [Bst.remove, ht]; rfl
          | node a u b => simp only [Bst.remove, ht]; rfl
        have hcond : ¬((l.ptr.isNone && r.ptr.isNone) = true ∧ v = w.1) := by
          rintro ⟨hc, -⟩
          cases l <;> cases r <;> first | exact hnl ⟨rfl, rfl⟩ | simp [BTree.ptr] at hc
        by_cases hd : (BTree.node l w r).dataAt ((BTree.node l w r).search v) = some v
        · obtain ⟨nd', e1, Z1⟩ := pm_remove_found (C := plainClass Unit) Z hlf' hd (s.next + 1) (by omega)
          have Z2 := Z1.plug
          rw [removeZ_plain v _ hd] at Z2
          have hr2 : ((BTree.node l w r).remove v).2 = true := by simp [BTree.remove, hd]
          refine ⟨{ (s.put nd') with length := s.length - 1 }, (start rfl).trans ?_, ⟨_, Z2.congr rfl rfl rfl, ?_, ?_⟩, ?_⟩
          · rw [if_neg hcond]
            exact (pm_bind_ok ((pm_bind_ok (pm_fuel s)).trans <| (pm_bind_ok e1).trans rfl)).trans rfl
          · rw [hrm, hm']; rfl
          · rw [hrm, hm', hr2, ← h2]; rfl
          · rw [hrm, hm', hr2]; exact hw
        · have e1 := pm_remove_missing (C := plainClass Unit) Z (by simp) hd (search_walk_ne v _ (by simp)) (s.next + 1)
            (by omega)
          have hr2 : (BTree.node l w r).remove v = (.node l w r, false) := by simp [BTree.remove, hd]
          refine ⟨{ s with warned := true }, (start rfl).trans ?_, ⟨_, Z.congr rfl rfl rfl, ?_, ?_⟩, ?_⟩
          · rw [if_neg hcond]
            exact (pm_bind_ok ((pm_bind_ok (pm_fuel s)).trans <| (pm_bind_ok e1).trans rfl)).trans rfl
          · rw [hrm, hm', hr2]; rfl
          · rw [hrm, hm', hr2]; exact h2
          · rw [hrm, hm', hr2]; rfl

/-- one call -/
theorem bst_exec {s : PTree N Unit} {t : Bst N Unit} (h : PtrHolds s t) (op : BstOp N) :
    (pBstExec s op).1 = (t.exec op).1 ∧ PtrHolds (pBstExec s op).2 (t.exec op).2 := by
  have h' : PtrHolds { s with warned := false } t := holds_warned h false
  have hcon := h'
  obtain ⟨T, Z, h1, h2⟩ := hcon
  have hl : T.forget.minNode = _ := mapExt_minNode (Prod.fst : Unit × Addr → Unit) T
  have hx : T.forget.maxNode = _ := mapExt_maxNode (Prod.fst : Unit × Addr → Unit) T
  have call : ∀ {m : PM N Unit (BstVal N)} {v : BstVal N} {s' : PTree N Unit} ,
      m { s with warned := false } = (.ok v, s') → pCall m s = (.ok (v, s'.warned), s') := by
    intro m v s' e; simp only [pCall, e]
  have callE : ∀ {m : PM N Unit (BstVal N)} {x : Err} {s' : PTree N Unit} ,
      m { s with warned := false } = (.error x, s') → pCall m s = (.error x, s') := by
    intro m v s' e; simp only [pCall, e]
  cases op with
  | insert v =>
    cases v with
    | none => exact ⟨rfl, h'⟩
    | other => exact ⟨rfl, h'⟩
    | num v =>
      obtain ⟨s', e, H, hw⟩ := bst_insert h' v rfl
      rw [pBstExec, call e, hw]
      exact ⟨rfl, H⟩
  | remove v =>
    obtain ⟨s', e, H, hw⟩ := bst_remove h' v rfl
    rw [pBstExec, call e, hw]
    exact ⟨rfl, H⟩
  | contains v =>
    rw [pBstExec, call (pm_contains Z v)]
    refine ⟨?_, h'⟩
    have : (⟨T, 0⟩ : Bst N (Unit × Addr)).contains v = t.contains v := by
      cases v with
      | none => rfl
      | other => rfl
      | num v =>
        cases T with
        | nil => simp only [Bst.contains, ← h1]; rfl
        | node l w r =>
          have k1 := mapExt_dataAt (Prod.fst : Unit × Addr → Unit) (.node l w r) ((BTree.node l w r).search v)
          have k2 := mapExt_search (Prod.fst : Unit × Addr → Unit) v (.node l w r)
          rw [← k2] at k1
          rw [mapExt_node] at k1
          simp only [Bst.contains, ← h1, BTree.forget, mapExt_node, k1]
          rw [← mapExt_node, k2]
    rw [this]; rfl
  | getMin =>
    have k : (⟨T, 0⟩ : Bst N (Unit × Addr)).getMin = t.getMin := by
      simp only [Bst.getMin, ← h1, hl]
      cases T.minNode <;> rfl
    have e := pm_getMin Z
    rw [k] at e
    cases hg : t.getMin with
    | error x =>
      rw [hg] at e
      rw [pBstExec, callE e]
      exact ⟨by simp only [Bst.exec, hg]; rfl, h'⟩
    | ok v =>
      rw [hg] at e
      rw [pBstExec, call e]
      exact ⟨by simp only [Bst.exec, hg]; rfl, h'⟩
  | getMax =>
    have k : (⟨T, 0⟩ : Bst N (Unit × Addr)).getMax = t.getMax := by
      simp only [Bst.getMax, ← h1, hx]
      cases T.maxNode <;> rfl
    have e := pm_getMax Z
    rw [k] at e
    cases hg : t.getMax with
    | error x =>
      rw [hg] at e
      rw [pBstExec, callE e]
      exact ⟨by simp only [Bst.exec, hg]; rfl, h'⟩
    | ok v =>
      rw [hg] at e
      rw [pBstExec, call e]
      exact ⟨by simp only [Bst.exec, hg]; rfl, h'⟩
  | len =>
    refine ⟨?_, h'⟩
    simp only [pBstExec, pCall, Bst.exec]
    rw [show s.length = t.length from h2]
  | isEmpty =>
    refine ⟨?_, h'⟩
    have hr : s.root = T.ptr := Z.root rfl
    simp only [pBstExec, pCall, Bst.exec, hr, ← h1]
    cases T <;> rfl
  | clear =>
    refine ⟨rfl, .nil, ⟨rfl, trivial, ?_, ?_⟩, rfl, rfl⟩
    · simp [BTree.addrs, ctxAddrs]
    · simp [BTree.addrs, ctxAddrs]
  | inorder =>
    have hr : pRoot { s with warned := false } = (.ok T.ptr, { s with warned := false }) := by
      rw [pm_root, Z.root rfl]
    have e := pm_inorder Z.rep (s.next + 1) (Nat.lt_succ_of_le Z.length_le)
    rw [pBstExec, call ((pm_bind_ok (pm_fuel _)).trans <| (pm_bind_ok hr).trans <| (pm_bind_ok e).trans rfl)]
    refine ⟨?_, h'⟩
    simp only [Bst.exec, ← h1, BTree.forget, mapExt_keys]
  | invert =>
    have hr : pRoot { s with warned := false } = (.ok T.ptr, { s with warned := false }) := by
      rw [pm_root, Z.root rfl]
    obtain ⟨nd', e, R, F⟩ := pm_invert T Z.rep (List.nodup_append.mp Z.nodup).1 (s.next + 1)
      (Nat.lt_succ_of_le Z.length_le)
    rw [pBstExec, call ((pm_bind_ok (pm_fuel _)).trans <| (pm_bind_ok hr).trans <| (pm_bind_ok e).trans <|
      (pm_bind_ok (pm_setRoot _ _)).trans rfl)]
    have Z' := Z.change (nd' := nd') R (invert_addrs T).subperm F
    refine ⟨rfl, T.invert, ⟨?_, Z'.rep, Z'.nodup, Z'.bound⟩, ?_, h2⟩
    · rw [invert_ptr]; rfl
    · simp only [Bst.exec, ← h1, BTree.forget, mapExt_invert]

/-- a history -/
theorem bst_execs (ops : List (BstOp N)) {s : PTree N Unit} {t : Bst N Unit} (h : PtrHolds s t) :
    (pBstExecs ops s).1 = (Bst.execs ops t).1 ∧ PtrHolds (pBstExecs ops s).2 (Bst.execs ops t).2 := by
  induction ops generalizing s t with
  | nil => exact ⟨rfl, h⟩
  | cons op ops ih =>
    obtain ⟨h1, h2⟩ := bst_exec h op
    obtain ⟨h3, h4⟩ := ih h2
    exact ⟨by rw [pBstExecs, Bst.execs, h1, h3], h4⟩

end Extra
