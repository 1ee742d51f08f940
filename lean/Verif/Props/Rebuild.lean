import Verif.Trees.Rebuild
import Verif.Props.Avl
import Batteries.Lean.Except

/-!
# Property C79: trees built again from their traversals

`bstFrom` is `BST(iterable)` (Verif/Trees/Bst.lean), `avlExecs` runs calls on an `AVL`
(Verif/Trees/Avl.lean), `treeIter` is `breadth_first_traverse` (Verif/Trees/Tree.lean).  `SearchTree`,
`Holds`, `Balanced` and `HeightsTrue` are the specification (BstSpec.lean, AvlSpec.lean).
-/

set_option linter.unusedSectionVars false

namespace Extra
variable {N X : Type} [LinearOrder N]

private theorem keyAt_unit (t : BTree (N × Unit)) (p x) : t.keyAt p = some x ↔ t.at p = some (x, ()) := by
  rw [BTree.keyAt, Option.map_eq_some_iff]
  exact ⟨fun ⟨a, h, e⟩ => h.trans (by rw [← e]), fun h => ⟨_, h, rfl⟩⟩

/-- C79: `BST(iterable)` is a given tree exactly when that is a search tree of the numbers of the
iterable, in which every number comes after the number above it -/
theorem C79_exact (t : Bst N Unit) (vs : List N) :
    bstFrom (vs.map .num) = .ok t ↔
      SearchTree t.root ∧ t.length = t.root.size ∧ (∀ x, x ∈ vs ↔ Holds t.root x) ∧
      ∀ p b x y, t.root.at p = some (x, ()) → t.root.at (p ++ [b]) = some (y, ()) →
        vs.idxOf x < vs.idxOf y := by
  obtain ⟨t, n⟩ := t
  rw [bstFrom_planted, Except.ok.injEq, Bst.mk.injEq, planted_iff]
  simp only [searchTree_iff, holds_iff]
  constructor
  · rintro ⟨⟨a, b, c⟩, rfl⟩
    have e := (planted_iff t vs).2 ⟨a, b, c⟩
    refine ⟨a, by rw [e], b, fun p d x y h1 h2 => ?_⟩
    rw [← keyAt_unit] at h1 h2
    exact c p d x y h1 h2 ((b y).2 (keyAt_keys h2))
  · rintro ⟨a, rfl, b, c⟩
    have d : Downward t vs := fun p d x y h1 h2 _ =>
      c p d x y ((keyAt_unit ..).1 h1) ((keyAt_unit ..).1 h2)
    exact ⟨⟨a, b, d⟩, by rw [(planted_iff t vs).2 ⟨a, b, d⟩]⟩

private theorem C79_of_downward (t : Bst N Unit) (hs : SearchTree t.root) (hn : t.length = t.root.size)
    (vs : List N) (h : Downward t.root vs ∧ ∀ x, x ∈ vs ↔ x ∈ t.root.keys) :
    bstFrom (vs.map .num) = .ok t := by
  obtain ⟨t, n⟩ := t
  rw [bstFrom_planted, (planted_iff t vs).2 ⟨hs, h.2, h.1⟩]
  simp only at hn
  rw [hn]

/-- C79: a `BST` is built again, the same in every node, from its own `preorder_traverse()` -/
theorem C79_preorder (t : Bst N Unit) (hs : SearchTree t.root) (hn : t.length = t.root.size) :
    bstFrom (t.root.preorder.map (fun v => .num v.1)) = .ok t := by
  have := C79_of_downward t hs hn _ (visits_downward t.root hs preLt_up t.root.preorder_visits)
  rwa [List.map_map] at this

/-- C79: and from its own `breadth_first_traverse()` -/
theorem C79_breadth_first (t : Bst N Unit) (hs : SearchTree t.root) (hn : t.length = t.root.size) :
    ∃ vs, treeIter t.root.rose = .ok vs ∧ bstFrom (vs.map (fun v => .num v.1)) = .ok t := by
  refine ⟨_, t.root.treeIter_rose, ?_⟩
  have := C79_of_downward t hs hn _ (visits_downward t.root hs breadthLt_up t.root.breadth_visits)
  rwa [List.map_map] at this

/-- the numbers 5 2 8 1 3 9 in that order -/
def rebuildSample : Bst Nat Unit := ⟨planted [5, 2, 8, 1, 3, 9], 6⟩

example : SearchTree rebuildSample.root ∧ rebuildSample.length = rebuildSample.root.size ∧
    rebuildSample.root.preorder.map Prod.fst = [5, 2, 1, 3, 8, 9] ∧
    treeIter rebuildSample.root.rose = .ok [(5, ()), (2, ()), (8, ()), (1, ()), (3, ()), (9, ())] :=
  ⟨planted_sorted _, by decide +kernel, by decide +kernel, by decide +kernel⟩

/-- C79: `BST(bst.inorder_traverse())`, or of any increasing numbers, is a chain: it is as high as can be -/
theorem C79_increasing (vs : List N) (h : vs.Pairwise (· < ·)) :
    ∃ t, bstFrom (vs.map .num) = .ok t ∧ t.length = vs.length ∧
      treeHeight t.root.rose = vs.length - 1 := by
  refine ⟨_, bstFrom_planted vs, ?_, ?_⟩
  · have e : (planted vs).keys = vs := by
      refine List.Perm.eq_of_pairwise (le := (· ≤ ·)) (fun a b _ _ => le_antisymm)
        ((planted_sorted vs).imp le_of_lt) (h.imp le_of_lt) ?_
      exact (List.perm_ext_iff_of_nodup ((planted_sorted vs).imp ne_of_lt) (h.imp ne_of_lt)).2
        (fun x => planted_mem vs x)
    show ((planted vs).size : Int) = vs.length
    rw [← BTree.keys_length_size, e]
  · have h1 := planted_increasing vs h
    rw [BTree.nlev_rose] at h1
    show treeHeight (planted vs).rose = _
    rw [← h1]
    cases (planted vs).rose with
    | none => rfl
    | some c => simp [treeHeight]

example : (bstFrom ([2, 3, 5, 7].map .num : List (NumArg Nat))).map (fun t => treeHeight t.root.rose) =
    .ok 3 := by decide +kernel

/-- the postorder does not build the tree again -/
theorem C79_postorder_wrong :
    bstFrom ((planted [2, 1, 3]).postorder.map (fun v => .num v.1) : List (NumArg Nat)) ≠
      .ok ⟨planted [2, 1, 3], 3⟩ := by decide +kernel

/-- C79: an `AVL` is built again, heights included and without a rotation on the way, from its own
`breadth_first_traverse()` -/
theorem C79_avl_breadth_first (t : Bst N Nat) (hs : SearchTree t.root) (hb : Balanced t.root)
    (hh : HeightsTrue t.root) (hn : t.length = t.root.size) :
    ∃ vs, treeIter t.root.rose = .ok vs ∧
      avlExecs (vs.map (fun v => .insert (.num v.1))) Bst.empty =
        .ok (vs.map (fun _ => .ok (.unit, false)), t) := by
  obtain ⟨t, n⟩ := t
  simp only at hs hb hh hn ⊢
  have hv := t.breadth_visits
  obtain ⟨hd, hm⟩ := visits_downward t hs breadthLt_up hv
  refine ⟨_, t.treeIter_rose, ?_⟩
  generalize t.levels.flatten = vs at *
  have hnd := visits_nodup t hs (fun p => by
    have : ∀ p, preLt p p = false := by
      intro p
      induction p with
      | nil => rfl
      | cons a p ih => simp [preLt, ih]
    simp [breadthLt, this]) hv
  have top : ∀ a b, vs.map Prod.fst = a ++ b → Balanced (planted a) ∧
      ∀ p x, (planted a).keyAt p = some x ↔ t.keyAt p = some x ∧ x ∈ a := by
    intro a b e
    have hda : Downward t a := by
      intro p c x y hx hy hya
      have h1 := hd p c x y hx hy (by rw [e]; simp [hya])
      have hxa : x ∈ a := breadth_prefix t hs hv e hy hx hya (by simp)
      rwa [e, List.idxOf_append_of_mem hxa, List.idxOf_append_of_mem hya] at h1
    have hat := planted_at t a hs (fun x hx => (hm x).1 (by rw [e]; simp [hx])) hda
    refine ⟨balanced_top hb (fun p x h => ((hat p x).1 h).1) ?_, hat⟩
    intro p x q y hx hy hl
    exact (hat q y).2 ⟨hy, breadth_prefix t hs hv e ((hat p x).1 hx).1 hy ((hat p x).1 hx).2 hl⟩
  have run := avlExecs_plain (vs.map Prod.fst) [] (fun a b e => (top a b e).1) (by simpa using hnd)
  have he : withHeights (planted (vs.map Prod.fst)) = t := by
    refine withHeights_eq _ t ((heightsTrue_iff t).1 hh) fun p => Option.ext fun x => ?_
    rw [(top (vs.map Prod.fst) [] (by simp)).2 p x]
    exact ⟨fun h => h.1, fun h => ⟨h, (hm x).2 (keyAt_keys h)⟩⟩
  have hz : (planted (vs.map Prod.fst)).size = t.size := by
    have : ∀ s : BTree (N × Unit), (withHeights s).keys.length = s.keys.length := by
      intro s
      induction s with
      | nil => rfl
      | node l w r ihl ihr => simp [withHeights, ihl, ihr]
    rw [← BTree.keys_length_size, ← BTree.keys_length_size, ← this, he]
  rw [List.nil_append, he, hz, ← hn, List.map_map, List.map_map] at run
  exact run

/-- C79: in particular an `AVL` made by inserting -/
theorem C79_avl_inserts (ns : List (NumArg N)) :
    ∃ rs t vs rs', avlExecs (ns.map .insert) Bst.empty = .ok (rs, t) ∧ treeIter t.root.rose = .ok vs ∧
      avlExecs (vs.map (fun v => .insert (.num v.1))) Bst.empty = .ok (rs', t) := by
  obtain ⟨rs, t, e, hs, _, hb, hh, hn⟩ := C43_inserts ns
  obtain ⟨vs, e1, e2⟩ := C79_avl_breadth_first t hs hb hh hn
  exact ⟨rs, t, vs, _, e, e1, e2⟩

/-- the `AVL` with 5 on top, 2 and 8 below, and 1 below 2 -/
def rebuildAvl : Bst Nat Nat := ⟨withHeights (planted [5, 2, 8, 1]), 4⟩

example : SearchTree rebuildAvl.root ∧ Balanced rebuildAvl.root ∧ HeightsTrue rebuildAvl.root ∧
    rebuildAvl.length = rebuildAvl.root.size ∧
    treeIter rebuildAvl.root.rose = .ok [(5, 2), (2, 1), (8, 0), (1, 0)] := by
  have h : avlOk rebuildAvl.root := by
    simp [rebuildAvl, planted, ins, BTree.insertNode, withHeights, avlNode, avlOk, hl_nil, hl_node]
  exact ⟨by unfold SearchTree; decide +kernel, ((avlOk_iff _).1 h).2, ((avlOk_iff _).1 h).1, by decide +kernel,
    by decide +kernel⟩

/-- the preorder does not build an `AVL` again: 5 2 1 are rotated before 8 comes -/
theorem C79_avl_preorder_wrong :
    (avlExecs ((rebuildAvl.root.preorder.map (fun v => .insert (.num v.1))) : List (AvlOp Nat))
      Bst.empty).map (·.2.root.at []) = .ok (some (2, 2)) ∧
    rebuildAvl.root.at [] = some (5, 2) := by decide +kernel

end Extra
