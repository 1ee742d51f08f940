import Verif.Trees.BinTreeProofs

/-!
# Properties C30-C38: Tree and BinaryTree

The specification is in terms of paths from the root, see Verif/Trees/TreeSpec.lean.  A `BinaryTree`
is given to the methods it inherits from `Tree` as `t.rose`.
-/

set_option linter.unusedSectionVars false

namespace Extra
variable {V : Type}

/-- a small `Tree` for the examples: `1` with children `2` and `3`, and `4`, `5` below `3` -/
def exTree : RTree Nat := .node 1 [.node 2 [], .node 3 [.node 4 [], .node 5 []]]

/-- a small `BinaryTree` for the examples -/
def exBin : BTree Nat := .node (.node .nil 2 (.node .nil 3 .nil)) 1 (.node (.node .nil 5 .nil) 4 (.node .nil 6 .nil))

/-! ## C30 -/

/-- C30: `len(tree)` is the number of nodes, `count_leaf_nodes()` the number of nodes without
children. -/
theorem C30_counts (t : Option (RTree V)) :
    CountIs (fun p => (treeAt t p).isSome) (treeLen t) ∧
    CountIs (fun p => ∃ n, treeSub t p = some n ∧ n.children = []) (treeLeaves t) := by
  cases t with
  | none =>
    exact ⟨⟨[], List.nodup_nil, fun p => by simp [treeAt, treeSub], rfl⟩,
      ⟨[], List.nodup_nil, fun p => by simp [treeSub], rfl⟩⟩
  | some t =>
    refine ⟨⟨t.paths, t.paths_nodup, fun p => ?_, (t.count_eq).symm⟩,
      ⟨t.paths.filter t.isLeafB, t.paths_nodup.filter _, fun p => ?_, t.leaves_eq.symm⟩⟩
    · rw [RTree.mem_paths]; simp [treeAt, treeSub]
    · rw [List.mem_filter, RTree.mem_paths, RTree.isLeafB]
      simp only [treeSub]
      cases t.sub p <;> simp

/-- C30: `get_height()` is the length of the longest path; `get_depth()` is 0. -/
theorem C30_height (t : RTree V) :
    (∃ p, (treeAt (some t) p).isSome ∧ p.length = treeHeight (some t)) ∧
    (∀ p, (treeAt (some t) p).isSome → p.length ≤ treeHeight (some t)) ∧
    treeDepth (some t) = 0 ∧ treeHeight (none : Option (RTree V)) = 0 ∧
    treeDepth (none : Option (RTree V)) = 0 := by
  simp only [treeAt, treeSub, Option.isSome_map, treeHeight, treeDepth, RTree.depthOf, sub_self,
    and_self, and_true]
  exact ⟨t.sub_height, t.sub_length_le⟩

/-- C30 for `BinaryTree`, in terms of its own paths. -/
theorem C30_binary_counts (t : BTree V) :
    CountIs (fun p => (t.at p).isSome) (treeLen t.rose) ∧
    (∀ p, (t.at p).isSome → p.length ≤ treeHeight t.rose) ∧
    (t ≠ .nil → ∃ p, (t.at p).isSome ∧ p.length = treeHeight t.rose) := by
  have hh : t ≠ .nil → treeHeight t.rose + 1 = t.nlev := by
    intro hne
    rw [BTree.nlev_rose]
    cases t with
    | nil => exact absurd rfl hne
    | node l v r => rfl
  refine ⟨⟨t.dfPaths 0, ?_, t.mem_dfPaths 0, ?_⟩, ?_, ?_⟩
  · obtain ⟨ps, h1, h2, h3⟩ := t.preorder_visits
    have hirr : ∀ p, preLt p p = false := by
      intro p; induction p with
      | nil => rfl
      | cons b p ih => simpa [preLt] using ih
    have : ∀ t : BTree V, (t.dfPaths 0).Nodup := by
      intro t
      induction t with
      | nil => simp [BTree.dfPaths]
      | node l v r ihl ihr =>
        simp only [BTree.dfPaths, List.nodup_cons, List.nodup_append, List.mem_append, List.mem_map]
        refine ⟨by simp, ihl.map (fun a b h => (List.cons.inj h).2),
          ihr.map (fun a b h => (List.cons.inj h).2), ?_⟩
        rintro a ⟨p, _, rfl⟩ b ⟨q, _, rfl⟩
        simp
    exact this t
  · rw [BTree.size_rose]
    induction t with
    | nil => rfl
    | node l v r ihl ihr => 
      simp only [BTree.dfPaths, List.length_cons, List.length_append, List.length_map, BTree.size]
      rw [ihl, ihr]
      · intro hne; rw [BTree.nlev_rose]; cases r with
        | nil => exact absurd rfl hne
        | node => rfl
      · intro hne; rw [BTree.nlev_rose]; cases l with
        | nil => exact absurd rfl hne
        | node => rfl
  · intro p hp
    have := BTree.at_length_lt t p hp
    have hne : t ≠ .nil := by rintro rfl; simp at hp
    have := hh hne
    omega
  · intro hne
    cases t with
    | nil => exact absurd rfl hne
    | node l v r =>
      have h1 := RTree.nodesAt_nil_iff (.node v (l.rose.toList ++ r.rose.toList))
        (treeHeight (BTree.node l v r).rose)
      have h2 := BTree.lev_rose (treeHeight (BTree.node l v r).rose) (.node l v r)
      have h3 := BTree.levPaths_map (treeHeight (BTree.node l v r).rose) (.node l v r)
      cases h4 : (BTree.node l v r).levPaths (treeHeight (BTree.node l v r).rose) with
      | nil =>
        rw [h4] at h3
        rw [List.map_nil, eq_comm, List.map_eq_nil_iff] at h3
        rw [h3] at h2
        simp only [BTree.rose, Option.toList_some, List.flatMap_cons, List.flatMap_nil,
          List.append_nil] at h2 h1
        have := h1.1 (List.map_eq_nil_iff.1 h2.symm)
        simp [treeHeight] at this
      | cons p ps =>
        obtain ⟨h5, h6⟩ := (BTree.mem_levPaths _ _ p).1 (by rw [h4]; simp)
        exact ⟨p, h6, h5⟩

example : treeLen (some exTree) = 5 ∧ treeLeaves (some exTree) = 3 ∧ treeHeight (some exTree) = 2 ∧
    treeAt (some exTree) [1, 0] = some 4 ∧ treeLen exBin.rose = 6 ∧
    exBin.at [true, false] = some 5 := by decide +kernel

/-! ## C31 -/

/-- C31: iterating over a tree visits every node once, level by level from left to right. -/
theorem C31_iteration (t : Option (RTree V)) :
    ∃ vs, treeIter t = .ok vs ∧ Visits levelLt (treeAt t) vs := by
  cases t with
  | none => exact ⟨[], rfl, [], List.Pairwise.nil, fun p => by simp [treeAt, treeSub], rfl⟩
  | some t => exact ⟨_, treeIter_some t, t.levels_visits⟩

/-- C31: `get_nodes_per_level()` has `height + 1` entries, the `i`-th being the nodes at depth `i`
from left to right, and its concatenation is what iteration yields. -/
theorem C31_levels (t : RTree V) : ∃ rows, treeLevels (some t) = .ok rows ∧
    treeIter (some t) = .ok rows.flatten ∧ rows.length = treeHeight (some t) + 1 ∧
    ∀ i row, rows[i]? = some row →
      ∃ ps : List (List Nat), ps.Pairwise (fun p q => lexLt p q = true) ∧
        (∀ p, p ∈ ps ↔ p.length = i ∧ (treeAt (some t) p).isSome) ∧
        row.map some = ps.map (treeAt (some t)) := by
  refine ⟨t.levels, treeLevels_some t, treeIter_some t, by simp [RTree.levels, treeHeight], ?_⟩
  intro i row hrow
  refine ⟨t.pathsAt i, t.pathsAt_pairwise i, fun p => ?_, ?_⟩
  · rw [RTree.mem_pathsAt]; simp [treeAt, treeSub]
  · have : row = (t.nodesAt i).map RTree.data := by
      obtain ⟨hlt, hrow⟩ := List.getElem?_eq_some_iff.1 hrow
      rw [← hrow]; simp [RTree.levels]
    have h2 := congrArg (List.map (Option.map RTree.data)) (RTree.pathsAt_map_sub i t)
    rw [List.map_map, List.map_map] at h2
    rw [this, List.map_map]
    exact h2.symm

/-- C31: an empty tree has no levels. -/
theorem C31_levels_empty : treeLevels (none : Option (RTree V)) = .ok [] := rfl

example : treeLevels (some exTree) = .ok [[1], [2, 3], [4, 5]] ∧
    treeIter (some exTree) = .ok [1, 2, 3, 4, 5] := by decide +kernel

/-! ## C32 -/

/-- C32, partial: on a non-empty tree `value in tree` is `True` iff some node holds the value.
Missing: the empty tree, where the call raises, see `C32_empty_raises`. -/
theorem C32_contains_partial [DecidableEq V] (t : RTree V) (value : V) :
    ∃ b, treeContains value (some t) = .ok b ∧
      (b = true ↔ ∃ p, treeAt (some t) p = some value) := by
  obtain ⟨b, e, h⟩ := treeSearchLoop_spec value (t.count + 1) [t] (by rw [stackCount_cons]; simp [stackCount, RTree.countAll])
  exact ⟨b, e, h.trans (by simp [RTree.Holds, treeAt, treeSub])⟩

/-- C32 fails for the empty tree: `value in tree` raises `AttributeError` instead of being `False`. -/
theorem C32_empty_raises [DecidableEq V] (value : V) :
    treeContains value (none : Option (RTree V)) = .error .attributeError := rfl

/-- C32, partial, for `BinaryTree`: as for `Tree`. -/
theorem C32_binary_contains_partial [DecidableEq V] (t : BTree V) (hne : t ≠ .nil) (value : V) :
    ∃ b, treeContains value t.rose = .ok b ∧ (b = true ↔ ∃ p, t.at p = some value) := by
  have hmem : ∀ t : BTree V, (∃ c ∈ t.rose, c.Holds value) ↔ ∃ p, t.at p = some value := by
    intro t
    induction t with
    | nil => simp [BTree.rose]
    | node l v r ihl ihr =>
      simp only [BTree.rose, Option.mem_def, Option.some.injEq, exists_eq_left', RTree.holds_node,
        List.mem_append, Option.mem_toList] at ihl ihr ⊢
      constructor
      · rintro (h | ⟨c, h | h, hc⟩)
        · exact ⟨[], by simp [h]⟩
        · obtain ⟨p, hp⟩ := ihl.1 ⟨c, h, hc⟩
          exact ⟨false :: p, hp⟩
        · obtain ⟨p, hp⟩ := ihr.1 ⟨c, h, hc⟩
          exact ⟨true :: p, hp⟩
      · rintro ⟨p, hp⟩
        rcases p with _ | ⟨_ | _, p⟩
        · left; simpa using hp
        · obtain ⟨c, h, hc⟩ := ihl.2 ⟨p, hp⟩
          exact Or.inr ⟨c, Or.inl h, hc⟩
        · obtain ⟨c, h, hc⟩ := ihr.2 ⟨p, hp⟩
          exact Or.inr ⟨c, Or.inr h, hc⟩
  rw [← hmem]
  cases t with
  | nil => exact absurd rfl hne
  | node l v r =>
    obtain ⟨b, e, h⟩ := C32_contains_partial (.node v (l.rose.toList ++ r.rose.toList)) value
    refine ⟨b, e, h.trans ?_⟩
    simp [BTree.rose, RTree.Holds, treeAt, treeSub]

example : treeContains 5 (some exTree) = .ok true ∧ treeContains 7 (some exTree) = .ok false := by
  decide +kernel

/-! ## C33 -/

/-- C33: the traversals visit every node exactly once, in their documented order. -/
theorem C33_traversals (t : BTree V) :
    Visits preLt t.at t.preorder ∧ Visits inLt t.at t.inorder ∧ Visits postLt t.at t.postorder ∧
    ∃ vs, treeIter t.rose = .ok vs ∧ Visits breadthLt t.at vs :=
  ⟨t.preorder_visits, t.inorder_visits, t.postorder_visits, _, t.treeIter_rose, t.breadth_visits⟩

/-- C33: `traverse(method)` accepts exactly the five names, in upper or lower case, and dispatches to
the traversal named. -/
theorem C33_traverse (t : BTree V) (s : String) :
    (s.toLower = "inorder" → t.traverse (.str s) = .ok t.inorder) ∧
    (s.toLower = "postorder" → t.traverse (.str s) = .ok t.postorder) ∧
    (s.toLower = "preorder" → t.traverse (.str s) = .ok t.preorder) ∧
    (s.toLower = "depth-first" → t.traverse (.str s) = .ok t.preorder) ∧
    (s.toLower = "breadth-first" → t.traverse (.str s) = treeIter t.rose) ∧
    (s.toLower ∉ ["inorder", "postorder", "preorder", "depth-first", "breadth-first"] →
      t.traverse (.str s) = .error .valueError) ∧
    t.traverse .other = .error .typeError := by
  refine ⟨fun h => ?_, fun h => ?_, fun h => ?_, fun h => ?_, fun h => ?_, fun h => ?_, rfl⟩
  · simp [BTree.traverse, h]
  · simp [BTree.traverse, h]
  · simp [BTree.traverse, h]
  · simp [BTree.traverse, h]
  · simp [BTree.traverse, h]
  · simp only [List.mem_cons, List.not_mem_nil, or_false, not_or] at h
    obtain ⟨h1, h2, h3, h4, h5⟩ := h
    rw [BTree.traverse, if_neg h1, if_neg h2, if_neg (by simp [h3, h4]), if_neg h5]

example : exBin.preorder = [1, 2, 3, 4, 5, 6] ∧ exBin.inorder = [2, 3, 1, 5, 4, 6] ∧
    exBin.postorder = [3, 2, 5, 6, 4, 1] ∧ treeIter exBin.rose = .ok [1, 2, 4, 3, 5, 6] ∧
    exBin.traverse (.str "InOrder") = .ok [2, 3, 1, 5, 4, 6] := by decide +kernel

/-! ## C34 -/

/-- C34: `invert()` mirrors the tree: the node at a path goes to the mirrored path. -/
theorem C34_mirror (t : BTree V) (p : List Bool) : t.invert.at p = t.at (p.map not) :=
  t.invert_at p

/-- C34: it reverses the inorder traversal and every level; twice it restores the tree. -/
theorem C34_reverses (t : BTree V) :
    t.invert.inorder = t.inorder.reverse ∧ t.invert.invert = t ∧
    ∃ rows, treeLevels t.rose = .ok rows ∧
      treeLevels t.invert.rose = .ok (rows.map List.reverse) :=
  ⟨t.invert_inorder, t.invert_invert, t.levels, t.treeLevels_rose, by
    rw [BTree.treeLevels_rose, BTree.invert_levels]⟩

example : exBin.invert.inorder = [6, 4, 5, 1, 3, 2] ∧ exBin.invert ≠ exBin := by decide +kernel

/-! ## C35 -/

private theorem preLt_mirror : ∀ p q : List Bool, p.length = q.length →
    preLt (p.map not) (q.map not) = preLt q p
  | [], [], _ => rfl
  | a :: p, b :: q, h => by
    have ih := preLt_mirror p q (by simpa using h)
    cases a <;> cases b <;> simp [preLt, ih]

private theorem view_aux (t : BTree V) : ∃ vs, t.sideView true = .ok vs ∧ ∀ i : Nat, ∀ v,
    vs[i]? = some v ↔ ∃ p, p.length = i ∧ t.at p = some v ∧
      ∀ q, q.length = i → (t.at q).isSome → q = p ∨ preLt p q = true := by
  obtain ⟨vs, e, _, h⟩ := t.sideView_left
  refine ⟨vs, e, fun i v => ?_⟩
  rw [h i]
  have hm := t.levPaths_map i
  have hp := t.levPaths_pairwise i
  have hmem := BTree.mem_levPaths i t
  have hirr : ∀ p q, preLt p q = true → preLt q p = true → False := by
    intro p
    induction p with
    | nil => intro q h1 h2; cases q <;> simp [preLt] at h1 h2
    | cons a p ih =>
      intro q h1 h2
      cases q with
      | nil => simp [preLt] at h1
      | cons b q =>
        cases a <;> cases b <;> simp [preLt] at h1 h2
        · exact ih q h1 h2
        · exact ih q h1 h2
  cases hl : t.levPaths i with
  | nil =>
    rw [hl, List.map_nil, eq_comm, List.map_eq_nil_iff] at hm
    rw [hm]
    simp only [List.head?_nil, reduceCtorEq, false_iff]
    rintro ⟨p, h1, h2, _⟩
    have := (hmem p).2 ⟨h1, by simp [h2]⟩
    rw [hl] at this; simp at this
  | cons p0 ps =>
    rw [hl] at hm hp hmem
    obtain ⟨v0, vs0, hv0⟩ : ∃ v0 vs0, t.lev i = v0 :: vs0 := by
      cases hx : t.lev i with
      | nil => rw [hx] at hm; simp at hm
      | cons a b => exact ⟨a, b, rfl⟩
    rw [hv0] at hm
    simp only [List.map_cons, List.cons.injEq] at hm
    rw [List.pairwise_cons] at hp
    have hp0 := (hmem p0).1 (by simp)
    rw [hv0]
    simp only [List.head?_cons, Option.some.injEq]
    constructor
    · rintro rfl
      refine ⟨p0, hp0.1, hm.1, fun q h1 h2 => ?_⟩
      rcases List.mem_cons.1 ((hmem q).2 ⟨h1, h2⟩) with h | h
      · exact Or.inl h
      · exact Or.inr (hp.1 q h)
    · rintro ⟨p, h1, h2, h3⟩
      rcases List.mem_cons.1 ((hmem p).2 ⟨h1, by simp [h2]⟩) with rfl | h
      · rw [hm.1] at h2; exact Option.some.inj h2
      · rcases h3 p0 hp0.1 hp0.2 with rfl | h4
        · rw [hm.1] at h2; exact Option.some.inj h2
        · exact absurd h4 (fun h4 => hirr _ _ h4 (hp.1 p h))

/-- C35: the `i`-th entry of `get_leftside_view()` is the leftmost node at depth `i`. -/
theorem C35_leftside_view (t : BTree V) : ∃ vs, t.sideView true = .ok vs ∧ ∀ i : Nat, ∀ v,
    vs[i]? = some v ↔ ∃ p, p.length = i ∧ t.at p = some v ∧
      ∀ q, q.length = i → (t.at q).isSome → q = p ∨ preLt p q = true := view_aux t

/-- C35: the `i`-th entry of `get_rightside_view()` is the rightmost node at depth `i`. -/
theorem C35_rightside_view (t : BTree V) : ∃ vs, t.sideView false = .ok vs ∧ ∀ i : Nat, ∀ v,
    vs[i]? = some v ↔ ∃ p, p.length = i ∧ t.at p = some v ∧
      ∀ q, q.length = i → (t.at q).isSome → q = p ∨ preLt q p = true := by
  obtain ⟨vs, e, h⟩ := view_aux t.invert
  have hmm : ∀ p : List Bool, (p.map not).map not = p := by intro p; simp [Function.comp_def]
  refine ⟨vs, by rw [t.sideView_right, e], fun i v => (h i v).trans ?_⟩
  constructor
  · rintro ⟨p, h1, h2, h3⟩
    refine ⟨p.map not, by simpa using h1, by rw [← t.invert_at]; exact h2, fun q hq hs => ?_⟩
    rcases h3 (q.map not) (by simpa using hq) (by rw [t.invert_at, hmm]; exact hs) with h4 | h4
    · left; rw [← h4, hmm]
    · right
      rw [← preLt_mirror _ _ (by simp [h1, hq]), hmm]; exact h4
  · rintro ⟨p, h1, h2, h3⟩
    refine ⟨p.map not, by simpa using h1, by rw [t.invert_at, hmm]; exact h2, fun q hq hs => ?_⟩
    rw [t.invert_at] at hs
    rcases h3 (q.map not) (by simpa using hq) hs with h4 | h4
    · left; rw [← h4, hmm]
    · right
      rw [← preLt_mirror _ _ (by simp [h1, hq]), hmm]; exact h4

/-- C35: both views have one entry per level. -/
theorem C35_lengths (t : BTree V) : ∃ l r rows, t.sideView true = .ok l ∧ t.sideView false = .ok r ∧
    treeLevels t.rose = .ok rows ∧ l.length = rows.length ∧ r.length = rows.length := by
  obtain ⟨l, e1, h1, _⟩ := t.sideView_left
  obtain ⟨r, e2, h2, _⟩ := t.invert.sideView_left
  exact ⟨l, r, t.levels, e1, by rw [t.sideView_right, e2], t.treeLevels_rose,
    by simp [BTree.levels, h1], by simp [BTree.levels, h2, BTree.invert_nlev]⟩

example : exBin.sideView true = .ok [1, 2, 3] ∧ exBin.sideView false = .ok [1, 4, 6] := by
  decide +kernel

/-! ## C36 -/

/-- C36: `is_perfect()` on a non-empty tree is `True` iff all leaves are at one depth and every other
node has two children; on an empty one it is `True` with a warning. -/
theorem C36_is_perfect (t : BTree V) (hne : t ≠ .nil) :
    (∃ b, t.isPerfect = .ok (b, false) ∧ (b = true ↔ t.Perfect)) ∧
    (BTree.nil : BTree V).isPerfect = .ok (true, true) :=
  ⟨t.isPerfect_spec hne, rfl⟩

/-- C36: `is_strict()` on a non-empty tree is `True` iff every node has no child or two; on an empty
one it is `True` with a warning. -/
theorem C36_is_strict (t : BTree V) (hne : t ≠ .nil) :
    (∃ b, t.isStrict = .ok (b, false) ∧ (b = true ↔ t.Strict)) ∧
    (BTree.nil : BTree V).isStrict = .ok (true, true) := by
  refine ⟨?_, rfl⟩
  obtain ⟨b, e, h⟩ := t.subtreeStrict_spec hne
  refine ⟨b, ?_, h⟩
  cases t with
  | nil => exact absurd rfl hne
  | node l v r => rw [BTree.isStrict, e]; rfl

example : exBin.isPerfect = .ok (false, false) ∧ exBin.isStrict = .ok (false, false) ∧
    (BTree.node (.node .nil 2 .nil) 1 (.node .nil 3 .nil)).isPerfect = .ok (true, false) ∧
    (BTree.node (.node (.node .nil 4 .nil) 2 (.node .nil 5 .nil)) 1 (.node .nil 3 .nil)).isStrict =
      .ok (true, false) := by decide +kernel

/-! ## C37 -/

/-- C37, partial: what `is_balanced()` computes.  A root without children is balanced, a root with
one child never is, and with two children only their heights are compared.  Missing: the documented
definition, which disagrees in both directions, see `C37_false_alarm` and `C37_missed`. -/
theorem C37_is_balanced_partial (l r : BTree V) (v : V) :
    ((BTree.node l v r).isBalanced = (true, false) ∨ (BTree.node l v r).isBalanced = (false, false)) ∧
    ((BTree.node l v r).isBalanced.1 = true ↔
      (l = .nil ∧ r = .nil) ∨ (l ≠ .nil ∧ r ≠ .nil ∧
        treeHeight l.rose ≤ treeHeight r.rose + 1 ∧ treeHeight r.rose ≤ treeHeight l.rose + 1)) := by
  constructor
  · unfold BTree.isBalanced
    simp only [Prod.mk.injEq, and_true]
    exact (Bool.eq_false_or_eq_true _)
  · have hdec : (BTree.node l v r).isBalanced.1 = true ↔
        (BTree.childDepth (.node v (l.rose.toList ++ r.rose.toList)) l -
          BTree.childDepth (.node v (l.rose.toList ++ r.rose.toList)) r).natAbs ≤ 1 := by
      unfold BTree.isBalanced; exact decide_eq_true_iff
    have hnil : ∀ t : BTree V, t = .nil ↔ t.rose = none := by intro t; cases t <;> simp [BTree.rose]
    rw [hdec]
    simp only [ne_eq, hnil, BTree.childDepth, RTree.depthOf]
    generalize l.rose = a
    generalize r.rose = b
    cases a <;> cases b <;>
      simp only [Option.toList_none, Option.toList_some, List.nil_append, List.append_nil,
        List.singleton_append, RTree.height, RTree.heightAll, treeHeight, reduceCtorEq, not_false_eq_true,
        not_true_eq_false, true_and, and_true, false_and, and_false, or_false, false_or, and_self, iff_true,
        iff_false] <;> omega

private theorem leaf_at_height (t : BTree V) (hne : t ≠ .nil) :
    ∃ p, t.leafAt p ∧ p.length = treeHeight t.rose := by
  obtain ⟨_, hle, hex⟩ := C30_binary_counts t
  obtain ⟨p, h1, h2⟩ := hex hne
  have hnone : ∀ b, t.at (p ++ [b]) = none := by
    intro b
    cases hb : t.at (p ++ [b]) with
    | none => rfl
    | some w =>
      have := hle (p ++ [b]) (by simp [hb])
      simp at this; omega
  exact ⟨p, ⟨h1, hnone _, hnone _⟩, h2⟩

/-- C37, partial: a tree whose root has no child or two and that is balanced as documented is
reported as balanced. -/
theorem C37_balanced_reported_partial (l r : BTree V) (v : V) (hlr : l = .nil ↔ r = .nil)
    (hb : (BTree.node l v r).Balanced) : (BTree.node l v r).isBalanced = (true, false) := by
  obtain ⟨h1, h2⟩ := C37_is_balanced_partial l r v
  have : (BTree.node l v r).isBalanced.1 = true := by
    rw [h2]
    by_cases hl : l = .nil
    · exact Or.inl ⟨hl, hlr.1 hl⟩
    · have hr : r ≠ .nil := fun h => hl (hlr.2 h)
      obtain ⟨p, hp, e1⟩ := leaf_at_height l hl
      obtain ⟨q, hq, e2⟩ := leaf_at_height r hr
      have h3 := hb (false :: p) (true :: q) hp hq
      have h4 := hb (true :: q) (false :: p) hq hp
      simp only [List.length_cons] at h3 h4
      exact Or.inr ⟨hl, hr, by omega, by omega⟩
  rcases h1 with h | h
  · exact h
  · rw [h] at this; simp at this

/-- C37 fails: a tree of two nodes, which is balanced, is reported as not balanced. -/
theorem C37_false_alarm : (BTree.node (.node .nil 2 .nil) 1 .nil).isBalanced = (false, false) ∧
    (BTree.node (.node .nil 2 .nil) 1 .nil).Balanced := by
  refine ⟨by decide +kernel, ?_⟩
  have hone : ∀ p, (BTree.node (.node .nil 2 .nil) 1 .nil).leafAt p → p = [false] := by
    rintro p ⟨h1, h2, h3⟩
    rcases p with _ | ⟨_ | _, _ | ⟨_ | _, p⟩⟩
    · exact absurd h2 (by simp)
    · rfl
    all_goals simp at h1
  intro p q hp hq
  rw [hone p hp, hone q hq]; simp

/-- C37 fails: a tree with leaves at depths 2 and 4 is reported as balanced. -/
theorem C37_missed :
    ∃ t : BTree Nat, t.isBalanced = (true, false) ∧ ¬ t.Balanced := by
  refine ⟨.node (.node (.node .nil 3 .nil) 2 (.node (.node (.node .nil 6 .nil) 5 .nil) 4 .nil)) 1
    (.node (.node (.node .nil 9 .nil) 8 .nil) 7 .nil), by decide +kernel, ?_⟩
  intro h
  have := h [false, true, false, false] [false, false] (by refine ⟨?_, ?_, ?_⟩ <;> decide +kernel)
    (by refine ⟨?_, ?_, ?_⟩ <;> decide +kernel)
  exact absurd this (by decide)

/-! ## C38 -/

private theorem parseValue_ok [PyData V] (x y : Nested V) : parseValue x = .ok y ↔ Stored x y := by
  constructor
  · intro h
    cases x with
    | atom x =>
      cases x with
      | none => simp [parseValue] at h
      | extra => simp [parseValue] at h
      | val v => simp only [parseValue, Except.ok.injEq] at h; rw [← h]; exact .val v
    | seq xs => simp only [parseValue, Except.ok.injEq] at h; rw [← h]; exact .seq xs
  · intro h
    cases h <;> rfl

private theorem parseValue_err [PyData V] (x : Nested V) :
    (∃ y, parseValue x = .ok y ∧ ¬ BadValue x) ∨
    (∃ e, parseValue x = .error e ∧ BadValue x ∧ (x.noExtra = true → e = .valueError)) := by
  cases x with
  | atom x =>
    cases x with
    | none => exact Or.inr ⟨_, rfl, .none, fun _ => rfl⟩
    | extra => exact Or.inr ⟨_, rfl, .extra, fun h => by simp [Nested.noExtra] at h⟩
    | val v => exact Or.inl ⟨_, rfl, by intro h; cases h⟩
  | seq xs => exact Or.inl ⟨_, rfl, by intro h; cases h⟩

private theorem createSubtree_ok [PyData V] : ∀ (n : Nested V) (t : BTree (Nested V)),
    createSubtree n = .ok t ↔ Describes n t
  | .atom x, t => by
    rcases parseValue_err (.atom x) with ⟨y, h, _⟩ | ⟨e, h, hb, _⟩
    · rw [createSubtree, h]
      simp only [bind, Except.bind, pure, Except.pure, Except.ok.injEq]
      constructor
      · rintro rfl; exact .atom ((parseValue_ok _ _).1 h)
      · intro hd; cases hd with | atom hv => rw [← parseValue_ok, h] at hv; rw [Except.ok.inj hv]
    · rw [createSubtree, h]
      simp only [bind, Except.bind, reduceCtorEq, false_iff]
      intro hd; cases hd with | atom hv => rw [← parseValue_ok, h] at hv; cases hv
  | .seq [], t => by
    rw [createSubtree]; simp only [reduceCtorEq, false_iff]; intro hd; cases hd
  | .seq [x], t => by
    rcases parseValue_err x with ⟨y, h, _⟩ | ⟨e, h, hb, _⟩
    · rw [createSubtree, h]
      simp only [bind, Except.bind, pure, Except.pure, Except.ok.injEq]
      constructor
      · rintro rfl; exact .one ((parseValue_ok _ _).1 h)
      · intro hd; cases hd with | one hv => rw [← parseValue_ok, h] at hv; rw [Except.ok.inj hv]
    · rw [createSubtree, h]
      simp only [bind, Except.bind, reduceCtorEq, false_iff]
      intro hd; cases hd with | one hv => rw [← parseValue_ok, h] at hv; cases hv
  | .seq [x, a], t => by
    have ih := createSubtree_ok a
    rcases parseValue_err x with ⟨y, h, _⟩ | ⟨e, h, hb, _⟩
    · rw [createSubtree, h]
      cases ha : createSubtree a with
      | error e =>
        simp only [bind, Except.bind, reduceCtorEq, false_iff]
        intro hd; cases hd with | two _ hl => rw [← ih, ha] at hl; cases hl
      | ok l =>
        simp only [bind, Except.bind, pure, Except.pure, Except.ok.injEq]
        constructor
        · rintro rfl; exact .two ((parseValue_ok _ _).1 h) ((ih l).1 ha)
        · intro hd
          cases hd with
          | two hv hl => rw [← parseValue_ok, h] at hv; rw [← ih, ha] at hl; cases hv; cases hl; rfl
    · rw [createSubtree, h]
      simp only [bind, Except.bind, reduceCtorEq, false_iff]
      intro hd; cases hd with | two hv _ => rw [← parseValue_ok, h] at hv; cases hv
  | .seq [x, a, b], t => by
    have iha := createSubtree_ok a
    have ihb := createSubtree_ok b
    rcases parseValue_err x with ⟨y, h, _⟩ | ⟨e, h, hb, _⟩
    · rw [createSubtree, h]
      cases ha : createSubtree a with
      | error e =>
        simp only [bind, Except.bind, reduceCtorEq, false_iff]
        intro hd; cases hd with | three _ hl _ => rw [← iha, ha] at hl; cases hl
      | ok l =>
        cases hb : createSubtree b with
        | error e =>
          simp only [bind, Except.bind, reduceCtorEq, false_iff]
          intro hd; cases hd with | three _ _ hr => rw [← ihb, hb] at hr; cases hr
        | ok r =>
          simp only [bind, Except.bind, pure, Except.pure, Except.ok.injEq]
          constructor
          · rintro rfl; exact .three ((parseValue_ok _ _).1 h) ((iha l).1 ha) ((ihb r).1 hb)
          · intro hd
            cases hd with
            | three hv hl hr =>
              rw [← parseValue_ok, h] at hv; rw [← iha, ha] at hl; rw [← ihb, hb] at hr
              cases hv; cases hl; cases hr; rfl
    · rw [createSubtree, h]
      simp only [bind, Except.bind, reduceCtorEq, false_iff]
      intro hd; cases hd with | three hv _ _ => rw [← parseValue_ok, h] at hv; cases hv
  | .seq (_ :: _ :: _ :: _ :: _), t => by
    rw [createSubtree]; simp only [reduceCtorEq, false_iff]; intro hd; cases hd

private theorem createSubtree_err [PyData V] : ∀ (n : Nested V),
    (∃ t, createSubtree n = .ok t ∧ ¬ Malformed n) ∨
    (∃ e, createSubtree n = .error e ∧ Malformed n ∧ (n.noExtra = true → e = .valueError))
  | .atom x => by
    rcases parseValue_err (.atom x) with ⟨y, h, hn⟩ | ⟨e, h, hb, he⟩
    · left; exact ⟨_, by rw [createSubtree, h]; rfl, by intro hm; cases hm; contradiction⟩
    · right; exact ⟨e, by rw [createSubtree, h]; rfl, .atom hb, he⟩
  | .seq [] => Or.inr ⟨_, by rw [createSubtree], .empty, fun _ => rfl⟩
  | .seq [x] => by
    rcases parseValue_err x with ⟨y, h, hn⟩ | ⟨e, h, hb, he⟩
    · left; exact ⟨_, by rw [createSubtree, h]; rfl, by intro hm; cases hm; contradiction⟩
    · right
      exact ⟨e, by rw [createSubtree, h]; rfl, .value hb, fun hne => he (by
        simp only [Nested.noExtra, Nested.noExtraAll, Bool.and_eq_true] at hne; exact hne.1)⟩
  | .seq [x, a] => by
    rcases parseValue_err x with ⟨y, h, hn⟩ | ⟨e, h, hb, he⟩
    · rcases createSubtree_err a with ⟨l, ha, hna⟩ | ⟨e, ha, hba, hea⟩
      · left; exact ⟨_, by rw [createSubtree, h, ha]; rfl, by intro hm; cases hm <;> contradiction⟩
      · right
        exact ⟨e, by rw [createSubtree, h, ha]; rfl, .left hba, fun hne => hea (by
          simp only [Nested.noExtra, Nested.noExtraAll, Bool.and_eq_true] at hne; exact hne.2.1)⟩
    · right
      exact ⟨e, by rw [createSubtree, h]; rfl, .value hb, fun hne => he (by
        simp only [Nested.noExtra, Nested.noExtraAll, Bool.and_eq_true] at hne; exact hne.1)⟩
  | .seq [x, a, b] => by
    rcases parseValue_err x with ⟨y, h, hn⟩ | ⟨e, h, hb, he⟩
    · rcases createSubtree_err a with ⟨l, ha, hna⟩ | ⟨e, ha, hba, hea⟩
      · rcases createSubtree_err b with ⟨r, hb, hnb⟩ | ⟨e, hb, hbb, heb⟩
        · left
          exact ⟨_, by rw [createSubtree, h, ha, hb]; rfl, by intro hm; cases hm <;> contradiction⟩
        · right
          exact ⟨e, by rw [createSubtree, h, ha, hb]; rfl, .right hbb, fun hne => heb (by
            simp only [Nested.noExtra, Nested.noExtraAll, Bool.and_eq_true] at hne; exact hne.2.2.1)⟩
      · right
        exact ⟨e, by rw [createSubtree, h, ha]; rfl, .left hba, fun hne => hea (by
          simp only [Nested.noExtra, Nested.noExtraAll, Bool.and_eq_true] at hne; exact hne.2.1)⟩
    · right
      exact ⟨e, by rw [createSubtree, h]; rfl, .value hb, fun hne => he (by
        simp only [Nested.noExtra, Nested.noExtraAll, Bool.and_eq_true] at hne; exact hne.1)⟩
  | .seq (x :: y :: z :: w :: xs) =>
    Or.inr ⟨_, by rw [createSubtree], .long x y z w xs, fun _ => rfl⟩

/-- C38: `BinaryTree.parse(lst)` returns a tree iff the list describes one, and returns that tree. -/
theorem C38_parse [PyData V] (xs : List (Nested V)) (t : BTree (Nested V)) :
    parse (.seq xs) = .ok t ↔ Describes (.seq xs) t := createSubtree_ok _ _

/-- C38: it raises exactly on malformed lists, with `ValueError` unless a container of the library
is used as a value; anything but a list or tuple raises `TypeError`. -/
theorem C38_parse_raises [PyData V] (xs : List (Nested V)) (x : Item V) :
    ((∃ e, parse (.seq xs) = .error e) ↔ Malformed (.seq xs)) ∧
    ((Nested.seq xs).noExtra = true → Malformed (.seq xs) → parse (.seq xs) = .error .valueError) ∧
    parse (.atom x) = .error .typeError := by
  refine ⟨?_, ?_, rfl⟩
  · rcases createSubtree_err (.seq xs) with ⟨t, h, hn⟩ | ⟨e, h, hb, _⟩
    · rw [parse, h]; simp [hn]
    · rw [parse, h]; simp [hb]
  · intro h1 h2
    rcases createSubtree_err (.seq xs) with ⟨t, h, hn⟩ | ⟨e, h, hb, he⟩
    · exact absurd h2 hn
    · rw [parse, h, he h1]

/-- the numbers of a tree built from numbers, for the example -/
def exNums : Nested Val → Int
  | .atom (.val (.int n)) => n
  | _ => -1

private def num (n : Int) : Nested Val := .atom (.val (.int n))

example : (parse (.seq [num 1, .seq [num 2, num 3], .seq [num 4, num 5, num 6]])).map
      (fun t => t.preorder.map exNums) = .ok [1, 2, 3, 4, 5, 6] ∧
    (parse (.seq [num 1, .seq [num 2, .seq []]])).map (fun t => t.preorder.map exNums) =
      .error .valueError ∧
    (parse (.seq [num 1, .atom .none, num 3])).map (fun t => t.preorder.map exNums) =
      .error .valueError := by decide +kernel

end Extra
