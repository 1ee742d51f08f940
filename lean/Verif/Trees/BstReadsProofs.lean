import Verif.Trees.ViewsSpec
import Verif.Trees.BinTreeProofs
import Verif.Trees.AvlProofs
import Verif.Trees.RedBlackProofs

/-!
# Helper lemmas for the read methods of the search trees
-/

namespace Extra
variable {N X V : Type}

/-! ## Rearrangements -/

theorem visits_perm {P : Type} {lt lt' : P → P → Bool} {at' : P → Option V} {vs ws : List V}
    (hl : ∀ p, lt p p = false) (hl' : ∀ p, lt' p p = false)
    (h : Visits lt at' vs) (h' : Visits lt' at' ws) : vs.Perm ws := by
  obtain ⟨ps, h1, h2, h3⟩ := h
  obtain ⟨qs, k1, k2, k3⟩ := h'
  have n1 : ps.Nodup := h1.imp (fun {a b} h e => by subst e; rw [hl] at h; cases h)
  have n2 : qs.Nodup := k1.imp (fun {a b} h e => by subst e; rw [hl'] at h; cases h)
  have hp : ps.Perm qs := (List.perm_ext_iff_of_nodup n1 n2).2 (fun p => by rw [h2, k2])
  have := hp.map at'
  rw [← h3, ← k3] at this
  have h4 := this.filterMap id
  simpa using h4

theorem preLt_self : ∀ p : List Bool, preLt p p = false
  | [] => rfl
  | a :: p => by simp [preLt, preLt_self p]

theorem inLt_self : ∀ p : List Bool, inLt p p = false
  | [] => rfl
  | a :: p => by simp [inLt, inLt_self p]

theorem postLt_self : ∀ p : List Bool, postLt p p = false
  | [] => rfl
  | a :: p => by simp [postLt, postLt_self p]

theorem breadthLt_self (p : List Bool) : breadthLt p p = false := by simp [breadthLt, preLt_self]

/-! ## Leaves -/

/-- the number of leaves -/
def BTree.nleaves : BTree V → Nat
  | .nil => 0
  | .node .nil _ .nil => 1
  | .node l _ r => l.nleaves + r.nleaves

theorem BTree.nleaves_rose : ∀ t : BTree V, treeLeaves t.rose = t.nleaves
  | .nil => rfl
  | .node l v r => by
    have hl := BTree.nleaves_rose l
    have hr := BTree.nleaves_rose r
    cases l with
    | nil =>
      cases r with
      | nil => rfl
      | node a b c =>
        simp only [BTree.rose, treeLeaves, BTree.nleaves, Option.toList, List.nil_append, RTree.leaves,
          RTree.leavesAll, Nat.zero_add] at hr ⊢
        exact hr
    | node a b c =>
      cases r with
      | nil =>
        simp only [BTree.rose, treeLeaves, BTree.nleaves, Option.toList, List.append_nil, RTree.leaves,
          RTree.leavesAll, Nat.zero_add, Nat.add_zero] at hl ⊢
        exact hl
      | node d e f =>
        simp only [BTree.rose, treeLeaves, BTree.nleaves, Option.toList, List.cons_append, List.nil_append,
          RTree.leaves, RTree.leavesAll, Nat.zero_add] at hl hr ⊢
        rw [← hl, ← hr]

theorem BTree.nleaves_le : ∀ t : BTree V, 2 * t.nleaves ≤ t.size + 1 ∧ (t ≠ .nil → 1 ≤ t.nleaves) ∧
    (t ≠ .nil → (t.Strict ↔ 2 * t.nleaves = t.size + 1))
  | .nil => by simp [BTree.nleaves]
  | .node l v r => by
    obtain ⟨l1, l2, l3⟩ := BTree.nleaves_le l
    obtain ⟨r1, r2, r3⟩ := BTree.nleaves_le r
    rw [BTree.strict_node]
    cases l with
    | nil =>
      cases r with
      | nil => simp [BTree.nleaves, BTree.size, BTree.strict_nil]
      | node a b c =>
        have := r2 (by simp)
        simp only [BTree.nleaves, BTree.size] at *
        refine ⟨by omega, fun _ => by omega, fun _ => ⟨fun h => by simp at h, fun h => by omega⟩⟩
    | node a b c =>
      cases r with
      | nil =>
        have := l2 (by simp)
        simp only [BTree.nleaves, BTree.size] at *
        refine ⟨by omega, fun _ => by omega, fun _ => ⟨fun h => by simp at h, fun h => by omega⟩⟩
      | node d e f =>
        have h1 := l3 (by simp)
        have h2 := r3 (by simp)
        have h3 := l2 (by simp)
        rw [h1, h2]
        rw [show (BTree.node (.node a b c) v (.node d e f)).nleaves =
          (BTree.node a b c).nleaves + (BTree.node d e f).nleaves from rfl,
          show (BTree.node (.node a b c) v (.node d e f)).size =
          (BTree.node a b c).size + (BTree.node d e f).size + 1 from rfl]
        refine ⟨by omega, fun _ => by omega, fun _ => ⟨fun h => by omega, fun h => ⟨by simp, by omega, by omega⟩⟩⟩

/-! ## Levels -/

theorem perfectLoop_sum : ∀ (rows : List (List V)) (k : Nat),
    (∀ i row, rows[i]? = some row → row.length ≤ 2 ^ (k + i)) →
    rows.flatten.length + 2 ^ k ≤ 2 ^ (k + rows.length) ∧
    (perfectLoop k rows = true ↔ rows.flatten.length + 2 ^ k = 2 ^ (k + rows.length))
  | [], k, _ => by simp [perfectLoop]
  | row :: rows, k, h => by
    obtain ⟨h1, h2⟩ := perfectLoop_sum rows (k + 1) (fun i x hx => by
      have := h (i + 1) x (by simpa using hx)
      rwa [show k + (i + 1) = k + 1 + i by omega] at this)
    have h3 := h 0 row rfl
    have e : k + (row :: rows).length = k + 1 + rows.length := by simp; omega
    have e2 : 2 ^ (k + 1) = 2 * 2 ^ k := by rw [pow_succ]; omega
    rw [e, perfectLoop, List.flatten_cons, List.length_append]
    simp only [Nat.add_zero] at h3
    by_cases hc : 2 ^ k = row.length
    · rw [if_neg (by simpa using hc), h2]
      constructor
      · omega
      · omega
    · rw [if_pos (by simpa using hc)]
      refine ⟨by omega, ⟨fun h => by simp at h, fun h => ?_⟩⟩
      omega

theorem BTree.lev_ne : ∀ (n : Nat) (t : BTree V), n < t.nlev → t.lev n ≠ []
  | _, .nil, h => by simp [BTree.nlev] at h
  | 0, .node l v r, _ => by simp [BTree.lev]
  | n + 1, .node l v r, h => by
    rw [BTree.nlev] at h
    rw [BTree.lev]
    intro e
    obtain ⟨e1, e2⟩ := List.append_eq_nil_iff.1 e
    by_cases hl : n < l.nlev
    · exact BTree.lev_ne n l hl e1
    · exact BTree.lev_ne n r (by omega) e2

theorem BTree.lev_double : ∀ (n : Nat) (t : BTree V), (t.lev (n + 1)).length ≤ 2 * (t.lev n).length
  | n, .nil => by simp [BTree.lev]
  | 0, .node l v r => by
    simp only [BTree.lev, List.length_append, List.length_singleton]
    have := BTree.lev_le 0 l
    have := BTree.lev_le 0 r
    omega
  | n + 1, .node l v r => by
    have h1 := BTree.lev_double n l
    have h2 := BTree.lev_double n r
    simp only [BTree.lev, List.length_append] at h1 h2 ⊢
    omega

theorem BTree.levels_get (t : BTree V) (i : Nat) (row : List V) :
    t.levels[i]? = some row ↔ i < t.nlev ∧ row = t.lev i := by
  unfold BTree.levels
  rw [List.getElem?_map]
  by_cases h : i < t.nlev
  · rw [List.getElem?_range h]
    simp [h, eq_comm]
  · rw [List.getElem?_eq_none (by simpa using h)]
    simp [h]

theorem filterMap_of_get {W : Type} {f : List V → Option W} {rows : List (List V)} {vs : List W}
    (hf : ∀ row ∈ rows, (f row).isSome) (hl : vs.length = rows.length)
    (h : ∀ (i : Nat) (row : List V), rows[i]? = some row → vs[i]? = f row) : vs = rows.filterMap f := by
  induction rows generalizing vs with
  | nil => simpa using hl
  | cons row rows ih =>
    cases vs with
    | nil => simp at hl
    | cons v vs =>
      have h0 := h 0 row rfl
      simp only [List.getElem?_cons_zero] at h0
      rw [List.filterMap_cons_some h0.symm]
      congr 1
      exact ih (fun r hr => hf r (by simp [hr])) (by simpa using hl) (fun i r hr => by
        have := h (i + 1) r (by simpa using hr)
        simpa using this)

/-! ## The numbers of a tree -/

theorem BTree.nums_inorder : ∀ t : BTree (N × X), t.nums.inorder = t.inorder.map Prod.fst
  | .nil => by simp [BTree.nums, BTree.inorder]
  | .node l w r => by
    rw [BTree.nums, BTree.inorder, BTree.nums_inorder l, BTree.nums_inorder r, BTree.inorder]
    simp

theorem BTree.nums_nlev : ∀ t : BTree (N × X), t.nums.nlev = t.nlev
  | .nil => rfl
  | .node l w r => by rw [BTree.nums, BTree.nlev, BTree.nums_nlev l, BTree.nums_nlev r, BTree.nlev]

theorem BTree.inorder_size : ∀ t : BTree V, t.inorder.length = t.size
  | .nil => by simp [BTree.inorder, BTree.size]
  | .node l v r => by
    rw [BTree.inorder, BTree.size]
    simp only [List.length_append, List.length_cons, BTree.inorder_size l, BTree.inorder_size r]
    simp
    try omega

theorem BTree.nums_size : ∀ t : BTree (N × X), t.nums.size = t.size
  | .nil => rfl
  | .node l w r => by rw [BTree.nums, BTree.size, BTree.nums_size l, BTree.nums_size r, BTree.size]

theorem BTree.levels_ne (t : BTree V) : ∀ row ∈ t.levels, row ≠ [] := by
  intro row h
  obtain ⟨i, hi⟩ := List.mem_iff_getElem?.1 h
  obtain ⟨h1, rfl⟩ := (t.levels_get i row).1 hi
  exact t.lev_ne i h1

theorem BTree.levels_head : ∀ t : BTree V, t.levels.flatten.head? = t.root?
  | .nil => rfl
  | .node l v r => by
    rw [BTree.levels, show (BTree.node l v r).nlev = max l.nlev r.nlev + 1 by rw [BTree.nlev],
      List.range_succ_eq_map]
    simp [BTree.lev, BTree.root?]

theorem BTree.view_left (t : BTree V) : t.sideView true = .ok (t.levels.filterMap List.head?) := by
  obtain ⟨vs, h1, h2, h3⟩ := t.sideView_left
  rw [h1]
  congr 1
  refine filterMap_of_get ?_ (by simp [h2, BTree.levels]) ?_
  · intro row h
    have := t.levels_ne row h
    cases row <;> simp at this ⊢
  · intro i row h
    rw [h3, ((t.levels_get i row).1 h).2]

theorem BTree.view_right (t : BTree V) : t.sideView false = .ok (t.levels.filterMap List.getLast?) := by
  rw [t.sideView_right, BTree.view_left, BTree.invert_levels, List.filterMap_map]
  congr 2
  funext row
  simp

theorem BTree.levels_length (t : BTree V) : t.levels.flatten.length = t.size := by
  have := (visits_perm breadthLt_self inLt_self t.breadth_visits t.inorder_visits).length_eq
  rw [this, t.inorder_size]

theorem read_views [LinearOrder N] (t : BTree (N × X)) :
    Views (bstRead t) t.keys t.nums.levels t.nums.preorder t.nums.postorder (t.nlev - 1) t.nums.nleaves := by
  have hk : t.nums.inorder = t.keys := by rw [t.nums_inorder, BTree.keys]
  have hl : t.keys.length = t.nums.size := by rw [t.keys_length_size, t.nums_size]
  have hnil : t.keys = [] ↔ t = .nil := by
    rw [← List.length_eq_zero_iff, t.keys_length_size]
    cases t <;> simp [BTree.size]
  have hnn : t.nums = .nil ↔ t = .nil := by cases t <;> simp [BTree.nums]
  have hh : treeHeight t.nums.rose = t.nlev - 1 := by
    have := t.nums.nlev_rose
    rw [t.nums_nlev] at this
    rw [this]
    cases t.nums.rose <;> rfl
  have hlen : t.nums.levels.length = t.nlev := by simp [BTree.levels, t.nums_nlev]
  have p1 := visits_perm preLt_self inLt_self t.nums.preorder_visits t.nums.inorder_visits
  have p2 := visits_perm postLt_self inLt_self t.nums.postorder_visits t.nums.inorder_visits
  have p3 := visits_perm breadthLt_self inLt_self t.nums.breadth_visits t.nums.inorder_visits
  rw [hk] at p1 p2 p3
  obtain ⟨n1, n2, n3⟩ := t.nums.nleaves_le
  refine ⟨?_, ?_, ?_, rfl, rfl, ?_, ?_, ?_, rfl, ?_, ?_, ?_, ⟨p1, p2, p3⟩, ?_, ⟨?_, ?_⟩, ⟨?_, ?_⟩, ⟨?_, ?_⟩,
    ⟨?_, ?_, ?_⟩, ⟨?_, ?_⟩, ⟨?_, ?_⟩, ?_, rfl⟩
  · cases t with
    | nil => rfl
    | node l w r => simp [bstRead]
  · rw [bstRead, hk]
  · rw [bstRead, BTree.treeLevels_rose]; rfl
  · rw [bstRead, hh]
  · rw [bstRead, BTree.nleaves_rose]
  · rw [bstRead]
    cases t.nums.rose with
    | none => rfl
    | some c => simp [treeDepth, RTree.depthOf]
  · rw [bstRead, BTree.treeIter_rose]; rfl
  · rw [bstRead, BTree.treeIter_rose]; rfl
  · rw [bstRead, BTree.treeIter_rose]; rfl
  · rw [BTree.levels_head]
    cases t <;> simp [BTree.nums, BTree.preorder, BTree.postorder, BTree.root?]
  · intro h
    rw [hlen]
    cases t with
    | nil => exact absurd (hnil.2 rfl) h
    | node l w r => rw [BTree.nlev]; omega
  · intro h
    rw [hnil] at h
    subst h
    exact ⟨rfl, rfl⟩
  · exact t.nums.levels_ne
  · intro i a b ha hb
    rw [((t.nums.levels_get i a).1 ha).2, ((t.nums.levels_get _ b).1 hb).2]
    exact BTree.lev_double i _
  · rw [bstRead, BTree.view_left]; rfl
  · rw [bstRead, BTree.view_right]; rfl
  · rw [hl]; exact n1
  · intro h
    exact n2 (fun k => h (hnil.2 (hnn.1 k)))
  · intro h
    rw [hnil] at h; subst h; rfl
  · intro h
    rw [hnil] at h; subst h; rfl
  · intro h
    have hs := perfectLoop_sum t.nums.levels 0 (fun i row hr => by
      rw [((t.nums.levels_get i row).1 hr).2, Nat.zero_add]
      exact BTree.lev_le i _)
    rw [t.nums.levels_length, hlen, Nat.zero_add, pow_zero] at hs
    have hb := t.nums.treeLevels_rose
    cases t with
    | nil => exact absurd (hnil.2 rfl) h
    | node l w r =>
      rw [bstRead, BTree.nums, BTree.isPerfect]
      rw [BTree.nums] at hb
      rw [hb, hl]
      simp only [bind, Except.bind, pure, Except.pure, Except.map]
      rw [show (BTree.node l w r).nlev - 1 + 1 = (BTree.node l w r).nlev by rw [BTree.nlev]; omega]
      congr 3
      rw [Bool.eq_iff_iff, decide_eq_true_eq]
      exact hs.2
  · intro h
    rw [hnil] at h; subst h; rfl
  · intro h
    obtain ⟨b, e, hb⟩ := t.nums.subtreeStrict_spec (fun k => h (hnil.2 (hnn.1 k)))
    have h3 := n3 (fun k => h (hnil.2 (hnn.1 k)))
    cases t with
    | nil => exact absurd (hnil.2 rfl) h
    | node l w r =>
      rw [bstRead, BTree.nums, BTree.isStrict]
      rw [BTree.nums] at e
      rw [e]
      simp only [bind, Except.bind, pure, Except.pure, Except.map]
      congr 3
      rw [Bool.eq_iff_iff, decide_eq_true_eq, hb, hl]
      exact h3
  · intro s
    simp only [bstRead, BTree.traverse]
    split_ifs <;> rfl

theorem avl_views [LinearOrder N] (t : BTree (N × Nat)) (h : HeightsTrue t) :
    Views (avlRead t) t.keys t.nums.levels t.nums.preorder t.nums.postorder (t.nlev - 1) t.nums.nleaves := by
  have v := read_views t
  have hh : t.avlHeight = t.nlev - 1 := by
    cases t with
    | nil => rfl
    | node l w r =>
      have := h [] l w r rfl
      simp only [BTree.avlHeight]
      omega
  refine { v with height := ?_, depth := ?_, traverse := v.traverse }
  · rw [avlRead, hh]
  · rw [avlRead]; simp

/-! ## Heights of red-black trees -/

theorem rbI.bounds [LinearOrder N] : ∀ {t : BTree (N × Color)} {n : Nat}, rbI t n →
    2 ^ n ≤ t.size + 1 ∧ t.nlev ≤ 2 * n + (if t.isRed then 1 else 0)
  | .nil, n, h => by
    have : n = 0 := h
    subst this; simp [BTree.size, BTree.nlev]
  | .node l w r, n, h => by
    obtain ⟨m, rfl, hl, hr, hc⟩ := h
    obtain ⟨a1, a2⟩ := rbI.bounds hl
    obtain ⟨b1, b2⟩ := rbI.bounds hr
    obtain ⟨x, c⟩ := w
    rw [BTree.nlev, BTree.size]
    cases c with
    | red =>
      obtain ⟨c1, c2⟩ := hc rfl
      rw [c1] at a2
      rw [c2] at b2
      rw [if_pos ((isRed_node l (x, .red) r).2 rfl)]
      simp only [Color.bl, Nat.add_zero] at *
      constructor
      · omega
      · simp at a2 b2; omega
    | black =>
      rw [if_neg (by rw [isRed_node]; simp)]
      simp only [Color.bl]
      rw [pow_succ]
      constructor
      · omega
      · split_ifs at a2 b2 <;> omega

end Extra
