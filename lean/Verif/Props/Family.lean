import Verif.Trees.FamilyProofs
import Verif.Props.Bst
import Verif.Props.Links
import Verif.Props.LinksTreap
import Verif.Props.LinksRb

/-!
# The relatives of a node of a search tree: C91

The place of a node is the way to it from the root (`PTree.reach`, Verif/Trees/PtrSpec.lean).
-/

namespace Extra
variable {N X : Type} [LinearOrder N]

/-! ## C91

Full statement: at every node of a search tree, after any calls, `get_left`, `get_right`, `get_parent`,
`get_grand_parent`, `is_left_child`, `get_sibling` and `get_uncle` give the nodes at the places of these
relatives.  The code decides by comparing numbers whether a node is a left child; this is right where left
children have smaller numbers and right children do not (`SidesTrue`), so in every search tree, and in
`Treap` objects after any calls.  It is wrong after `invert`, and where `remove` loses the order. -/

/-- C91: children, parent, grandparent and `is_leaf`, in any well linked tree -/
theorem C91_links {s : PTree N X} (hl : WellLinked s) {q : List Bool} {a : Addr}
    (h : s.reach q = some a) :
    pLeft (some a) s = (.ok (s.reach (q ++ [false])), s) ∧
    pRight (some a) s = (.ok (s.reach (q ++ [true])), s) ∧
    pIsLeaf (some a) s = (.ok (decide (s.reach (q ++ [false]) = none ∧ s.reach (q ++ [true]) = none)), s) ∧
    pParent (some a) s = (.ok (if q = [] then none else s.reach q.dropLast), s) ∧
    pGrandParent (some a) s =
      (.ok (if q.length < 2 then none else s.reach q.dropLast.dropLast), s) := by
  obtain ⟨n, hn, hp⟩ := (hl _ _ h).1
  refine ⟨?_, ?_, ?_, ?_, ?_⟩
  · rw [pm_left hn, reach_step h hn]; simp
  · rw [pm_right hn, reach_step h hn]; simp
  · rw [pm_isLeaf hn, reach_step h hn, reach_step h hn]
    cases n.left <;> cases n.right <;> simp
  · rw [pm_parent hn, hp]
  · rw [pGrandParent, pm_bind_ok (pm_parent hn), hp]
    rcases List.eq_nil_or_concat q with rfl | ⟨q, d, rfl⟩
    · simp
    · rw [List.concat_eq_append] at h ⊢
      obtain ⟨b, m, _, hb, hm, _, _⟩ := reach_above hl h
      obtain ⟨m', hm', hp'⟩ := (hl _ _ hb).1
      simp only [List.dropLast_concat, List.append_eq_nil_iff, List.cons_ne_self, and_false, if_false, hb,
        Option.isSome_some, if_true]
      rw [pm_parent hm', hp']
      cases q with
      | nil => simp
      | cons e q => simp

/-- C91: which side a node is on, its sibling and its uncle -/
theorem C91_sides_partial {s : PTree N X} (hl : WellLinked s) (ho : SidesTrue s) {q : List Bool} {a : Addr}
    (h : s.reach q = some a) :
    pIsLeftChild (some a) s = (match q.getLast? with
      | none => .error .attributeError
      | some d => .ok (!d), s) ∧
    pSibling (some a) s = (.ok (match q.getLast? with
      | none => none
      | some d => s.reach (q.dropLast ++ [!d])), s) ∧
    pUncle (some a) s = (.ok (match q.dropLast.getLast? with
      | none => none
      | some d => s.reach (q.dropLast.dropLast ++ [!d])), s) := by
  obtain ⟨n, hn, hp⟩ := (hl _ _ h).1
  have left : ∀ {q d a}, s.reach (q ++ [d]) = some a → pIsLeftChild (some a) s = (.ok (!d), s) := by
    intro q d a h
    obtain ⟨b, m, n, hb, hm, hn, hp⟩ := reach_above hl h
    rw [pm_isLeftChild hn hp hm]
    have := ho q d b a m n hb h hm hn
    cases d <;> simp_all
  rcases List.eq_nil_or_concat q with rfl | ⟨q, d, rfl⟩
  · rw [if_pos rfl] at hp
    refine ⟨?_, ?_, ?_⟩
    · rw [pIsLeftChild, pm_bind_ok (pm_parent hn), hp]
      rfl
    · rw [pSibling, pm_bind_ok (pm_parent hn), hp]; rfl
    · rw [pUncle, pm_bind_ok (pm_parent hn), hp]; rfl
  · rw [List.concat_eq_append] at h hp ⊢
    rw [if_neg (by simp), List.dropLast_concat] at hp
    rw [List.getLast?_concat, List.dropLast_concat]
    obtain ⟨b, m, n', hb, hm, hn', hp'⟩ := reach_above hl h
    rw [hn] at hn'
    cases hn'
    refine ⟨left h, ?_, ?_⟩
    · rw [pSibling, pm_bind_ok (pm_parent hn), hp']
      simp only [Option.isNone_some, Bool.false_eq_true, if_false]
      rw [pm_bind_ok (left h)]
      simp only [reach_step hb hm]
      cases d
      · simpa using pm_right hm
      · simpa using pm_left hm
    · rw [pUncle, pm_bind_ok (pm_parent hn), hp']
      simp only [Option.isNone_some, Bool.false_eq_true, if_false]
      rw [pm_bind_ok (pm_parent hm)]
      rcases List.eq_nil_or_concat q with rfl | ⟨q, e, rfl⟩
      · obtain ⟨m', hm', k⟩ := (hl _ _ hb).1
        rw [hm] at hm'
        cases hm'
        rw [k]
        rfl
      · rw [List.concat_eq_append] at hb ⊢
        rw [List.getLast?_concat, List.dropLast_concat]
        obtain ⟨g, k, m', hg, hk, hm', hpm⟩ := reach_above hl hb
        rw [hm] at hm'
        cases hm'
        rw [hpm]
        simp only [Option.isNone_some, Bool.false_eq_true, if_false]
        rw [pm_bind_ok (left hb)]
        simp only [reach_step hg hk]
        cases e
        · simpa using pm_right hk
        · simpa using pm_left hk

/-- C91: the condition holds in every search tree, so wherever C39, C43, C47, C54 say there is one -/
theorem C91_search_tree {s : PTree N X} {t : BTree (N × X)} (h : Shows s.node s.root t)
    (hs : SearchTree t) : SidesTrue s := sidesTrue_of h hs

/-- C91 in full for `Treap`: the condition holds after any calls, those that raise included -/
theorem C91_treap {P : Type} [LinearOrder P] (m1 : P) (ops : List (TreapOp N P)) :
    WellLinked (pTreapExecs m1 ops PTree.empty).2 ∧ SidesTrue (pTreapExecs m1 ops PTree.empty).2 := by
  obtain ⟨m, h, _⟩ := C77_treap_links m1 ops
  obtain ⟨t, h1, h2, _⟩ := h.tree
  exact ⟨h.links, sidesTrue_of h1 h2⟩

/-- C91: the histories of `BST` whose removals keep the order (C41), and those of `AVL` and `RedBlackTree`
without removals -/
theorem C91_histories_partial :
    (∀ ops : List (BstOp N), SafeRun ops Bst.empty →
      WellLinked (pBstExecs ops PTree.empty).2 ∧ SidesTrue (pBstExecs ops PTree.empty).2) ∧
    (∀ ops : List (AvlOp N), (∀ v, .remove v ∉ ops) →
      WellLinked (pAvlExecs ops PTree.empty).2 ∧ SidesTrue (pAvlExecs ops PTree.empty).2) ∧
    (∀ ops : List (RbOp N), (∀ v, .remove v ∉ ops) →
      WellLinked (pRbExecs ops PTree.empty).2 ∧ SidesTrue (pRbExecs ops PTree.empty).2) := by
  refine ⟨fun ops h => ?_, fun ops h => ?_, fun ops h => ?_⟩
  · obtain ⟨_, h1, _⟩ := C74_bst_answers ops
    exact ⟨C74_bst_links ops, sidesTrue_of h1 (C41_history_partial ops h).1⟩
  · obtain ⟨h1, t, _, h2, h3, _⟩ := C76_avl_no_removals ops h
    exact ⟨h1, sidesTrue_of h2 h3⟩
  · obtain ⟨rs, t, _, _, h1, h2⟩ := C78_no_removals ops h
    exact ⟨h1.links, sidesTrue_of h1.tree h2⟩

/-- four numbers inserted into a `BST`: the way to 5 is right, left -/
example : let s := (pBstExecs [.insert (.num 4), .insert (.num 2), .insert (.num 7), .insert (.num 5),
      .insert (.num 9)] (PTree.empty : PTree (Fin 20) Unit)).2
    s.reach [true, false] = some 3 ∧ s.reach [false] = some 1 ∧
    (pSibling (some 3) s).1 = .ok (some 4) ∧ (pUncle (some 3) s).1 = .ok (some 1) ∧
    (pGrandParent (some 3) s).1 = .ok (some 0) ∧ (pIsLeftChild (some 3) s).1 = .ok true := by decide +kernel

/-- C91, the negation: after `invert` a node is its own sibling, and its nephew takes its parent for its
uncle. -/
theorem C91_inverted :
    let s := (pBstExecs [.insert (.num 4), .insert (.num 2), .insert (.num 7), .insert (.num 5), .invert]
      (PTree.empty : PTree (Fin 20) Unit)).2
    s.reach [false] = some 2 ∧ s.reach [true] = some 1 ∧ s.reach [false, true] = some 3 ∧
    (pSibling (some 2) s).1 = .ok (some 2) ∧ (pUncle (some 3) s).1 = .ok (some 2) ∧
    (pIsLeftChild (some 2) s).1 = .ok false := by decide +kernel

/-- C91, the negation after a removal: 3 is the right child of 5, and its own sibling -/
theorem C91_removed :
    let s := (pBstExecs [.insert (.num 1), .insert (.num 2), .insert (.num 5), .insert (.num 3),
      .remove (.num 1)] (PTree.empty : PTree (Fin 20) Unit)).2
    s.reach [true, true] = some 2 ∧ s.reach [true, false] = none ∧
    (pSibling (some 2) s).1 = .ok (some 2) ∧ (pIsLeftChild (some 2) s).1 = .ok true := by decide +kernel

end Extra
