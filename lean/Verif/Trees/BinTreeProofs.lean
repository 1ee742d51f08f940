import Verif.Trees.TreeProofs
import Mathlib.Tactic.ByContra
import Mathlib.Tactic.Tauto

/-!
# Helper lemmas for `BinaryTree`
-/

set_option linter.unusedSectionVars false

namespace Extra
variable {V : Type}

@[simp] theorem BTree.at_nil (p : List Bool) : (BTree.nil : BTree V).at p = none := by
  cases p <;> rfl
@[simp] theorem BTree.at_root (l : BTree V) (v : V) (r : BTree V) :
    (BTree.node l v r).at [] = some v := rfl
@[simp] theorem BTree.at_left (l : BTree V) (v : V) (r : BTree V) (p : List Bool) :
    (BTree.node l v r).at (false :: p) = l.at p := rfl
@[simp] theorem BTree.at_right (l : BTree V) (v : V) (r : BTree V) (p : List Bool) :
    (BTree.node l v r).at (true :: p) = r.at p := rfl

/-! ## Depth-first orders -/

/-- paths in the order left, node, right, with the node's place given by the position `k` -/
def BTree.dfPaths (k : Nat) : BTree V → List (List Bool)
  | .nil => []
  | .node l _ r =>
    match k with
    | 0 => [] :: ((l.dfPaths k).map (false :: ·) ++ (r.dfPaths k).map (true :: ·))
    | 1 => (l.dfPaths k).map (false :: ·) ++ [] :: (r.dfPaths k).map (true :: ·)
    | _ => (l.dfPaths k).map (false :: ·) ++ ((r.dfPaths k).map (true :: ·) ++ [[]])

theorem BTree.mem_dfPaths (k : Nat) : ∀ (t : BTree V) (p : List Bool),
    p ∈ t.dfPaths k ↔ (t.at p).isSome
  | .nil, p => by simp [BTree.dfPaths]
  | .node l v r, p => by
    have hl := BTree.mem_dfPaths k l
    have hr := BTree.mem_dfPaths k r
    have key : p ∈ (BTree.node l v r).dfPaths k ↔
        p = [] ∨ p ∈ (l.dfPaths k).map (false :: ·) ∨ p ∈ (r.dfPaths k).map (true :: ·) := by
      rcases k with _ | _ | k <;> simp only [BTree.dfPaths, List.mem_cons, List.mem_append,
        List.not_mem_nil] <;> tauto
    rw [key]
    cases p with
    | nil => simp
    | cons b p => cases b <;> simp [hl, hr]

theorem BTree.preorder_visits : ∀ t : BTree V, Visits preLt t.at t.preorder := by
  intro t
  refine ⟨t.dfPaths 0, ?_, t.mem_dfPaths 0, ?_⟩
  · induction t with
    | nil => simp [BTree.dfPaths]
    | node l v r ihl ihr =>
      simp only [BTree.dfPaths, List.pairwise_cons, List.pairwise_append, List.pairwise_map]
      refine ⟨fun p hp => ?_, ?_, ?_, fun p hp q hq => ?_⟩
      · rcases List.mem_append.1 hp with h | h <;> obtain ⟨q, _, rfl⟩ := List.mem_map.1 h <;> rfl
      · exact ihl.imp (fun h => by simpa [preLt] using h)
      · exact ihr.imp (fun h => by simpa [preLt] using h)
      · obtain ⟨p, _, rfl⟩ := List.mem_map.1 hp
        obtain ⟨q, _, rfl⟩ := List.mem_map.1 hq
        rfl
  · induction t with
    | nil => rfl
    | node l v r ihl ihr =>
      simp only [BTree.dfPaths, BTree.preorder, List.map_append, List.map_cons,
        List.map_map, Function.comp_def, BTree.at_left, BTree.at_right, BTree.at_root, ihl, ihr,
        List.nil_append, List.cons_append]

theorem BTree.inorder_visits : ∀ t : BTree V, Visits inLt t.at t.inorder := by
  intro t
  refine ⟨t.dfPaths 1, ?_, t.mem_dfPaths 1, ?_⟩
  · induction t with
    | nil => simp [BTree.dfPaths]
    | node l v r ihl ihr =>
      simp only [BTree.dfPaths, List.pairwise_cons, List.pairwise_append, List.pairwise_map]
      refine ⟨?_, ⟨fun p hp => ?_, ?_⟩, fun p hp q hq => ?_⟩
      · exact ihl.imp (fun h => by simpa [inLt] using h)
      · obtain ⟨p, _, rfl⟩ := List.mem_map.1 hp
        rfl
      · exact ihr.imp (fun h => by simpa [inLt] using h)
      · obtain ⟨p, _, rfl⟩ := List.mem_map.1 hp
        rcases List.mem_cons.1 hq with rfl | hq
        · rfl
        · obtain ⟨q, _, rfl⟩ := List.mem_map.1 hq
          rfl
  · induction t with
    | nil => rfl
    | node l v r ihl ihr =>
      simp only [BTree.dfPaths, BTree.inorder, List.map_append, List.map_cons,
        List.map_map, Function.comp_def, BTree.at_left, BTree.at_right, BTree.at_root, ihl, ihr,
        List.append_assoc, List.singleton_append]

theorem BTree.postorder_visits : ∀ t : BTree V, Visits postLt t.at t.postorder := by
  intro t
  refine ⟨t.dfPaths 2, ?_, t.mem_dfPaths 2, ?_⟩
  · induction t with
    | nil => simp [BTree.dfPaths]
    | node l v r ihl ihr =>
      simp only [BTree.dfPaths, List.pairwise_append, List.pairwise_map,
        List.pairwise_singleton, true_and]
      refine ⟨?_, ⟨?_, fun p hp q hq => ?_⟩, fun p hp q hq => ?_⟩
      · exact ihl.imp (fun h => by simpa [postLt] using h)
      · exact ihr.imp (fun h => by simpa [postLt] using h)
      · obtain ⟨p, _, rfl⟩ := List.mem_map.1 hp
        rw [List.mem_singleton.1 hq]; rfl
      · obtain ⟨p, _, rfl⟩ := List.mem_map.1 hp
        rcases List.mem_append.1 hq with hq | hq
        · obtain ⟨q, _, rfl⟩ := List.mem_map.1 hq
          rfl
        · rw [List.mem_singleton.1 hq]; rfl
  · induction t with
    | nil => rfl
    | node l v r ihl ihr =>
      simp only [BTree.dfPaths, BTree.postorder, List.map_append, List.map_cons, List.map_nil,
        List.map_map, Function.comp_def, BTree.at_left, BTree.at_right, BTree.at_root, ihl, ihr,
        List.append_assoc]

/-! ## Levels -/

/-- the values of one level -/
def BTree.lev : Nat → BTree V → List V
  | _, .nil => []
  | 0, .node _ v _ => [v]
  | n + 1, .node l _ r => l.lev n ++ r.lev n

/-- the paths of one level -/
def BTree.levPaths : Nat → BTree V → List (List Bool)
  | _, .nil => []
  | 0, .node _ _ _ => [[]]
  | n + 1, .node l _ r => (l.levPaths n).map (false :: ·) ++ (r.levPaths n).map (true :: ·)


theorem BTree.mem_levPaths : ∀ (n : Nat) (t : BTree V) (p : List Bool),
    p ∈ t.levPaths n ↔ p.length = n ∧ (t.at p).isSome
  | n, .nil, p => by cases n <;> simp [BTree.levPaths]
  | 0, .node l v r, p => by
    simp only [BTree.levPaths, List.mem_singleton, List.length_eq_zero_iff]
    exact ⟨fun h => by subst h; simp, fun h => h.1⟩
  | n + 1, .node l v r, p => by
    simp only [BTree.levPaths, List.mem_append, List.mem_map]
    cases p with
    | nil => simp
    | cons b p =>
      have h1 := BTree.mem_levPaths n l p
      have h2 := BTree.mem_levPaths n r p
      cases b <;> simp [h1, h2]

theorem BTree.levPaths_pairwise : ∀ (n : Nat) (t : BTree V),
    (t.levPaths n).Pairwise (fun p q => preLt p q = true)
  | n, .nil => by cases n <;> simp [BTree.levPaths]
  | 0, .node l v r => by simp [BTree.levPaths]
  | n + 1, .node l v r => by
    rw [BTree.levPaths, List.pairwise_append, List.pairwise_map, List.pairwise_map]
    refine ⟨(BTree.levPaths_pairwise n l).imp (fun h => by simpa [preLt] using h),
      (BTree.levPaths_pairwise n r).imp (fun h => by simpa [preLt] using h), fun p hp q hq => ?_⟩
    obtain ⟨p, _, rfl⟩ := List.mem_map.1 hp
    obtain ⟨q, _, rfl⟩ := List.mem_map.1 hq
    rfl

theorem BTree.levPaths_map : ∀ (n : Nat) (t : BTree V), (t.levPaths n).map t.at = (t.lev n).map some
  | n, .nil => by cases n <;> rfl
  | 0, .node l v r => rfl
  | n + 1, .node l v r => by
    simp only [BTree.levPaths, BTree.lev, List.map_append, List.map_map, Function.comp_def,
      BTree.at_left, BTree.at_right]
    rw [← BTree.levPaths_map n l, ← BTree.levPaths_map n r]

theorem BTree.lev_rose : ∀ (n : Nat) (t : BTree V),
    t.lev n = t.rose.toList.flatMap (fun c => (c.nodesAt n).map RTree.data)
  | n, .nil => by cases n <;> rfl
  | 0, .node l v r => rfl
  | n + 1, .node l v r => by
    rw [BTree.lev, BTree.lev_rose n l, BTree.lev_rose n r]
    simp [BTree.rose, RTree.nodesAt, RTree.children, List.map_flatMap]

theorem BTree.nlev_rose : ∀ t : BTree V,
    t.nlev = match t.rose with | none => 0 | some c => c.height + 1
  | .nil => rfl
  | .node l v r => by
    have hl := BTree.nlev_rose l
    have hr := BTree.nlev_rose r
    rw [BTree.nlev, hl, hr]
    simp only [BTree.rose, RTree.height]
    cases l.rose <;> cases r.rose <;> simp [RTree.heightAll] <;> omega

/-- the levels of a tree -/
def BTree.levels (t : BTree V) : List (List V) := (List.range t.nlev).map (fun i => t.lev i)

theorem BTree.treeLevels_rose (t : BTree V) : treeLevels t.rose = .ok t.levels := by
  cases t with
  | nil => rfl
  | node l v r =>
    have h1 := BTree.nlev_rose (.node l v r)
    have h2 := fun n => BTree.lev_rose n (.node l v r)
    simp only [BTree.rose] at h1 h2 ⊢
    rw [treeLevels_some, RTree.levels, BTree.levels, h1]
    simp [h2]

theorem BTree.treeIter_rose (t : BTree V) : treeIter t.rose = .ok t.levels.flatten := by
  cases t with
  | nil => rfl
  | node l v r =>
    have h1 := BTree.treeLevels_rose (.node l v r)
    simp only [BTree.rose] at h1 ⊢
    rw [treeLevels_some] at h1
    rw [treeIter_some, Except.ok.inj h1]

theorem BTree.at_length_lt : ∀ (t : BTree V) (p : List Bool), (t.at p).isSome → p.length < t.nlev
  | .nil, p, h => by simp at h
  | .node l v r, [], _ => by simp [BTree.nlev]
  | .node l v r, false :: p, h => by
    have := BTree.at_length_lt l p (by simpa using h)
    simp only [List.length_cons, BTree.nlev]; omega
  | .node l v r, true :: p, h => by
    have := BTree.at_length_lt r p (by simpa using h)
    simp only [List.length_cons, BTree.nlev]; omega

theorem BTree.breadth_visits (t : BTree V) : Visits breadthLt t.at t.levels.flatten := by
  refine ⟨((List.range t.nlev).map (fun i => t.levPaths i)).flatten, ?_, ?_, ?_⟩
  · rw [List.pairwise_flatten]
    constructor
    · intro l hl
      obtain ⟨i, _, rfl⟩ := List.mem_map.1 hl
      refine (t.levPaths_pairwise i).imp_of_mem ?_
      intro a b ha hb hab
      have h1 := ((BTree.mem_levPaths i t a).1 ha).1
      have h2 := ((BTree.mem_levPaths i t b).1 hb).1
      simp [breadthLt, h1, h2, hab]
    · rw [List.pairwise_map]
      refine List.pairwise_lt_range.imp ?_
      intro i j hij p hp q hq
      have h1 := ((BTree.mem_levPaths i t p).1 hp).1
      have h2 := ((BTree.mem_levPaths j t q).1 hq).1
      simp [breadthLt, h1, h2, hij]
  · intro p
    simp only [List.mem_flatten, List.mem_map, List.mem_range, exists_exists_and_eq_and,
      BTree.mem_levPaths]
    constructor
    · rintro ⟨i, _, _, h⟩; exact h
    · intro h
      exact ⟨p.length, BTree.at_length_lt t p h, rfl, h⟩
  · rw [BTree.levels, List.map_flatten, List.map_flatten, List.map_map, List.map_map]
    congr 1
    apply List.map_congr_left
    intro i _
    exact (BTree.levPaths_map i t).symm

/-! ## Inversion -/

theorem BTree.invert_at : ∀ (t : BTree V) (p : List Bool), t.invert.at p = t.at (p.map not)
  | .nil, p => by simp [BTree.invert]
  | .node l v r, [] => rfl
  | .node l v r, false :: p => by
    simp only [BTree.invert, BTree.at_left, List.map_cons, Bool.not_false, BTree.at_right]
    exact BTree.invert_at r p
  | .node l v r, true :: p => by
    simp only [BTree.invert, BTree.at_right, List.map_cons, Bool.not_true, BTree.at_left]
    exact BTree.invert_at l p

theorem BTree.invert_invert : ∀ t : BTree V, t.invert.invert = t
  | .nil => rfl
  | .node l v r => by rw [BTree.invert, BTree.invert, BTree.invert_invert l, BTree.invert_invert r]

theorem BTree.invert_inorder : ∀ t : BTree V, t.invert.inorder = t.inorder.reverse
  | .nil => rfl
  | .node l v r => by
    simp [BTree.invert, BTree.inorder, BTree.invert_inorder l, BTree.invert_inorder r]

theorem BTree.invert_lev : ∀ (n : Nat) (t : BTree V), t.invert.lev n = (t.lev n).reverse
  | n, .nil => by cases n <;> rfl
  | 0, .node l v r => rfl
  | n + 1, .node l v r => by
    simp [BTree.invert, BTree.lev, BTree.invert_lev n l, BTree.invert_lev n r]

theorem BTree.invert_nlev : ∀ t : BTree V, t.invert.nlev = t.nlev
  | .nil => rfl
  | .node l v r => by
    simp only [BTree.invert, BTree.nlev, BTree.invert_nlev l, BTree.invert_nlev r]; omega

theorem BTree.invert_levels (t : BTree V) : t.invert.levels = t.levels.map List.reverse := by
  simp [BTree.levels, BTree.invert_nlev, BTree.invert_lev]

/-! ## Side views -/

/-- number of nodes -/
def BTree.size : BTree V → Nat
  | .nil => 0
  | .node l _ r => l.size + r.size + 1

theorem BTree.size_rose : ∀ t : BTree V, treeLen t.rose = t.size
  | .nil => rfl
  | .node l v r => by
    have hl := BTree.size_rose l
    have hr := BTree.size_rose r
    rw [BTree.size, ← hl, ← hr]
    simp only [BTree.rose, treeLen, RTree.count]
    cases l.rose <;> cases r.rose <;> simp [RTree.countAll] <;> omega

/-- what the loop for the left view does with the dictionary when it works off one subtree -/
def BTree.over : BTree V → Nat → List (Nat × V) → List (Nat × V)
  | .nil, _, D => D
  | .node l v r, d, D => l.over (d + 1) (r.over (d + 1) (dictSet D d v))

theorem viewLoop_push : ∀ (t : BTree V) (d fuel : Nat) (st : List (BTree V × Nat)) (D : List (Nat × V)),
    viewLoop true (fuel + t.size) (pushNode t d st) D = viewLoop true fuel st (t.over d D)
  | .nil, d, fuel, st, D => rfl
  | .node l v r, d, fuel, st, D => by
    rw [pushNode, BTree.size, show fuel + (l.size + r.size + 1) = ((fuel + l.size) + r.size) + 1 by omega,
      viewLoop, if_pos rfl, viewLoop_push r, viewLoop_push l, BTree.over]

theorem pushNode_invert (t : BTree V) (d : Nat) (st : List (BTree V × Nat)) :
    (pushNode t d st).map (fun x => (x.1.invert, x.2)) =
      pushNode t.invert d (st.map (fun x => (x.1.invert, x.2))) := by
  cases t <;> rfl

theorem viewLoop_invert : ∀ (fuel : Nat) (st : List (BTree V × Nat)) (D : List (Nat × V)),
    viewLoop false fuel st D = viewLoop true fuel (st.map (fun x => (x.1.invert, x.2))) D
  | fuel, [], D => by cases fuel <;> rfl
  | 0, _ :: _, D => rfl
  | fuel + 1, (.nil, d) :: st, D => rfl
  | fuel + 1, (.node l v r, d) :: st, D => by
    rw [viewLoop, if_neg (by simp), viewLoop_invert fuel, pushNode_invert, pushNode_invert]
    rfl

/-- a dictionary whose keys are `0, 1, …` in this order -/
theorem dictSet_keys (D : List (Nat × V)) (d : Nat) (v : V) (h : D.map Prod.fst = List.range' 0 D.length)
    (hd : d ≤ D.length) :
    (dictSet D d v).map Prod.fst = List.range' 0 (dictSet D d v).length ∧
    (dictSet D d v).length = max D.length (d + 1) ∧
    ∀ j : Nat, ((dictSet D d v).map Prod.snd)[j]? = if j = d then some v else (D.map Prod.snd)[j]? := by
  suffices H : ∀ (D : List (Nat × V)) (k : Nat), D.map Prod.fst = List.range' k D.length → k ≤ d →
      d ≤ k + D.length →
      (dictSet D d v).map Prod.fst = List.range' k (dictSet D d v).length ∧
      (dictSet D d v).length = max D.length (d - k + 1) ∧
      ∀ j : Nat, ((dictSet D d v).map Prod.snd)[j]? =
        if j + k = d then some v else (D.map Prod.snd)[j]? by
    simpa using H D 0 h (Nat.zero_le _) (by omega)
  clear h hd
  intro D
  induction D with
  | nil =>
    intro k _ h1 h2
    have : d = k := by simp at h2; omega
    subst this
    refine ⟨rfl, by simp [dictSet], fun j => ?_⟩
    cases j <;> simp [dictSet]
  | cons x D ih =>
    obtain ⟨k', v'⟩ := x
    intro k hk h1 h2
    rw [List.map_cons, List.length_cons, List.range'_succ] at hk
    obtain ⟨rfl, hk⟩ := List.cons.inj hk
    rw [dictSet]
    by_cases hd : k' = d
    · subst hd
      rw [if_pos rfl]
      refine ⟨by simp [List.range'_succ, hk], by simp, fun j => ?_⟩
      cases j <;> simp
    · rw [if_neg hd]
      obtain ⟨i1, i2, i3⟩ := ih (k' + 1) hk (by omega) (by rw [List.length_cons] at h2; omega)
      refine ⟨by simp [List.range'_succ, i1], by simp only [List.length_cons, i2]; omega, fun j => ?_⟩
      cases j with
      | zero => simp [hd]
      | succ j =>
        simp only [List.map_cons, List.getElem?_cons_succ, i3]
        congr 1
        rw [eq_iff_iff]; omega

theorem BTree.over_spec : ∀ (t : BTree V) (d : Nat) (D : List (Nat × V)),
    D.map Prod.fst = List.range' 0 D.length → d ≤ D.length →
    (t.over d D).map Prod.fst = List.range' 0 (t.over d D).length ∧
    (t.over d D).length = max D.length (d + t.nlev) ∧
    ∀ j : Nat, ((t.over d D).map Prod.snd)[j]? =
      if d ≤ j ∧ j < d + t.nlev then (t.lev (j - d)).head? else (D.map Prod.snd)[j]?
  | .nil, d, D, h, hd => by
    refine ⟨h, by simp [BTree.over, BTree.nlev]; omega, fun j => ?_⟩
    have : ¬ (d ≤ j ∧ j < d + (BTree.nil : BTree V).nlev) := by simp [BTree.nlev]
    rw [if_neg this]; rfl
  | .node l v r, d, D, h, hd => by
    obtain ⟨a1, a2, a3⟩ := dictSet_keys D d v h hd
    obtain ⟨b1, b2, b3⟩ := BTree.over_spec r (d + 1) (dictSet D d v) a1 (by omega)
    obtain ⟨c1, c2, c3⟩ := BTree.over_spec l (d + 1) (r.over (d + 1) (dictSet D d v)) b1 (by omega)
    rw [BTree.over]
    refine ⟨c1, by rw [c2, b2, a2, BTree.nlev]; omega, fun j => ?_⟩
    rw [c3, b3, a3, BTree.nlev]
    by_cases hj : j = d
    · subst hj
      rw [if_neg (by omega), if_neg (by omega), if_pos rfl, if_pos (by omega), Nat.sub_self]
      rfl
    · rw [if_neg hj]
      by_cases hlt : d + 1 ≤ j
      · obtain ⟨n, rfl⟩ : ∃ n, j = d + 1 + n := ⟨j - (d + 1), by omega⟩
        rw [show d + 1 + n - (d + 1) = n by omega, show d + 1 + n - d = n + 1 by omega, BTree.lev,
          List.head?_append]
        have hnil : ∀ t : BTree V, t.nlev ≤ n → t.lev n = [] := by
          intro t ht
          apply (List.map_eq_nil_iff (f := some)).1
          rw [← BTree.levPaths_map, List.map_eq_nil_iff]
          apply List.eq_nil_iff_forall_not_mem.2
          intro p hp
          obtain ⟨h1, h2⟩ := (BTree.mem_levPaths n t p).1 hp
          have := BTree.at_length_lt t p h2
          omega
        have hpos : ∀ t : BTree V, n < t.nlev → ∃ y ys, t.lev n = y :: ys := by
          intro t ht
          have : ∀ (n : Nat) (t : BTree V), n < t.nlev → t.lev n ≠ [] := by
            intro n
            induction n with
            | zero => intro t ht; cases t with
              | nil => simp [BTree.nlev] at ht
              | node => simp [BTree.lev]
            | succ n ih => intro t ht; cases t with
              | nil => simp [BTree.nlev] at ht
              | node l v r =>
                simp only [BTree.nlev] at ht
                intro hc
                rw [BTree.lev, List.append_eq_nil_iff] at hc
                by_cases h : n < l.nlev
                · exact ih l h hc.1
                · exact ih r (by omega) hc.2
          exact List.exists_cons_of_ne_nil (this n t ht)
        by_cases h1 : n < l.nlev
        · obtain ⟨y, ys, e⟩ := hpos l h1
          rw [if_pos (by omega), if_pos (by omega), e]; rfl
        · rw [if_neg (by omega), hnil l (by omega)]
          by_cases h2 : n < r.nlev
          · rw [if_pos (by omega), if_pos (by omega)]; rfl
          · rw [if_neg (by omega), if_neg (by omega)]
      · rw [if_neg (by omega), if_neg (by omega), if_neg (by omega)]

theorem BTree.sideView_left (t : BTree V) : ∃ vs, t.sideView true = .ok vs ∧ vs.length = t.nlev ∧
    ∀ j : Nat, vs[j]? = (t.lev j).head? := by
  cases t with
  | nil => exact ⟨[], rfl, rfl, fun j => by cases j <;> rfl⟩
  | node l v r =>
    have hp := viewLoop_push (.node l v r) 0 1 [] [(0, v)]
    rw [pushNode] at hp
    obtain ⟨h1, h2, h3⟩ := BTree.over_spec (.node l v r) 0 [(0, v)] rfl (by simp)
    refine ⟨((BTree.node l v r).over 0 [(0, v)]).map Prod.snd, ?_, ?_, fun j => ?_⟩
    · rw [BTree.sideView, BTree.size_rose, Nat.add_comm, hp, viewLoop]; rfl
    · rw [List.length_map, h2, BTree.nlev]; simp
    · rw [h3]
      split
      · rw [Nat.sub_zero]
      · rename_i h
        rw [List.getElem?_eq_none (by simp [BTree.nlev] at h ⊢; omega)]
        cases hl : (BTree.node l v r).lev j with
        | nil => rfl
        | cons y ys =>
          exfalso
          have h5 := BTree.levPaths_map j (.node l v r)
          rw [hl] at h5
          cases h6 : (BTree.node l v r).levPaths j with
          | nil => rw [h6] at h5; simp at h5
          | cons p ps =>
            have := (BTree.mem_levPaths j _ p).1 (by rw [h6]; simp)
            have := BTree.at_length_lt _ p this.2
            omega

theorem BTree.sideView_right (t : BTree V) : t.sideView false = t.invert.sideView true := by
  cases t with
  | nil => rfl
  | node l v r =>
    have hs : treeLen (BTree.node l v r).rose = treeLen (BTree.node l v r).invert.rose := by
      rw [BTree.size_rose, BTree.size_rose]
      have : ∀ t : BTree V, t.invert.size = t.size := by
        intro t
        induction t with
        | nil => rfl
        | node l v r ihl ihr => simp only [BTree.invert, BTree.size, ihl, ihr]; omega
      rw [this]
    rw [BTree.sideView, hs, viewLoop_invert]
    rfl

/-! ## Perfect and strict trees -/

theorem BTree.lev_le : ∀ (n : Nat) (t : BTree V), (t.lev n).length ≤ 2 ^ n
  | n, .nil => by cases n <;> simp [BTree.lev]
  | 0, .node _ _ _ => by simp [BTree.lev]
  | n + 1, .node l v r => by
    have h1 := BTree.lev_le n l
    have h2 := BTree.lev_le n r
    rw [BTree.lev, List.length_append, Nat.pow_succ]; omega

theorem BTree.lev_full : ∀ (n : Nat) (t : BTree V),
    (t.lev n).length = 2 ^ n ↔ ∀ p : List Bool, p.length = n → (t.at p).isSome
  | n, .nil => by
    have h2 : ¬ (0 = 2 ^ n) := by have := Nat.two_pow_pos n; omega
    have h3 : (BTree.nil : BTree V).lev n = [] := by cases n <;> rfl
    rw [h3]
    constructor
    · intro h; exact absurd h h2
    · intro h; have := h (List.replicate n true) (by simp); simp at this
  | 0, .node l v r => by
    simp only [BTree.lev, List.length_singleton, Nat.pow_zero, true_iff]
    intro p hp
    rw [List.length_eq_zero_iff.1 hp]; rfl
  | n + 1, .node l v r => by
    have h1 := BTree.lev_le n l
    have h2 := BTree.lev_le n r
    have hl := BTree.lev_full n l
    have hr := BTree.lev_full n r
    rw [BTree.lev, List.length_append, Nat.pow_succ]
    constructor
    · intro h p hp
      cases p with
      | nil => simp at hp
      | cons b p =>
        have hpn : p.length = n := by simpa using hp
        cases b
        · exact hl.1 (by omega) p hpn
        · exact hr.1 (by omega) p hpn
    · intro h
      have h3 := hl.2 (fun p hp => h (false :: p) (by simp [hp]))
      have h4 := hr.2 (fun p hp => h (true :: p) (by simp [hp]))
      omega

theorem perfectLoop_iff : ∀ (rows : List (List V)) (k : Nat), perfectLoop k rows = true ↔
    ∀ i row, rows[i]? = some row → row.length = 2 ^ (k + i)
  | [], k => by simp [perfectLoop]
  | row :: rows, k => by
    rw [perfectLoop]
    by_cases h : 2 ^ k = row.length
    · rw [if_neg (by simpa using h), perfectLoop_iff rows (k + 1)]
      constructor
      · intro hh i x hx
        cases i with
        | zero => simp only [List.getElem?_cons_zero, Option.some.injEq] at hx; rw [← hx, ← h]; rfl
        | succ i =>
          have := hh i x (by simpa using hx)
          rw [this]; congr 1; omega
      · intro hh i x hx
        have := hh (i + 1) x (by simpa using hx)
        rw [this]; congr 1; omega
    · rw [if_pos (by simpa using h)]
      simp only [Bool.false_eq_true, false_iff]
      intro hh
      exact h (hh 0 row (by simp)).symm

theorem BTree.at_prefix : ∀ (t : BTree V) (p q : List Bool), (t.at (p ++ q)).isSome → (t.at p).isSome
  | .nil, p, q, h => by simp at h
  | .node l v r, [], q, _ => by simp
  | .node l v r, false :: p, q, h => BTree.at_prefix l p q h
  | .node l v r, true :: p, q, h => BTree.at_prefix r p q h

/-- every node has a leaf below it -/
theorem BTree.leaf_below : ∀ (t : BTree V) (p : List Bool), (t.at p).isSome →
    ∃ q, t.leafAt (p ++ q)
  | .nil, p, h => by simp at h
  | .node l v r, false :: p, h => BTree.leaf_below l p h
  | .node l v r, true :: p, h => BTree.leaf_below r p h
  | .node l v r, [], _ => by
    cases l with
    | node ll lv lr =>
      obtain ⟨q, hq⟩ := BTree.leaf_below (.node ll lv lr) [] (by simp)
      exact ⟨false :: q, hq⟩
    | nil =>
      cases r with
      | node rl rv rr =>
        obtain ⟨q, hq⟩ := BTree.leaf_below (.node rl rv rr) [] (by simp)
        exact ⟨true :: q, hq⟩
      | nil => exact ⟨[], by simp [BTree.leafAt]⟩

theorem BTree.perfect_iff (t : BTree V) (hne : t ≠ .nil) :
    t.Perfect ↔ ∀ i < t.nlev, ∀ p : List Bool, p.length = i → (t.at p).isSome := by
  constructor
  · rintro ⟨h1, h2⟩
    have hroot : (t.at []).isSome := by cases t with
      | nil => exact absurd rfl hne
      | node => rfl
    obtain ⟨q0, hq0⟩ := BTree.leaf_below t [] hroot
    rw [List.nil_append] at hq0
    have hlong : ∀ p, (t.at p).isSome → p.length ≤ q0.length := by
      intro p hp
      obtain ⟨q, hq⟩ := BTree.leaf_below t p hp
      have := h1 _ _ hq hq0
      rw [List.length_append] at this; omega
    have hall : ∀ n ≤ q0.length, ∀ p : List Bool, p.length = n → (t.at p).isSome := by
      intro n
      induction n with
      | zero => intro _ p hp; rw [List.length_eq_zero_iff.1 hp]; exact hroot
      | succ n ih =>
        intro hn p hp
        rcases List.eq_nil_or_concat p with rfl | ⟨p', b, rfl⟩
        · simp at hp
        · rw [List.concat_eq_append] at hp ⊢
          have hp' : p'.length = n := by simpa using hp
          have hs := ih (by omega) p' hp'
          rcases h2 p' hs with hl | hf
          · have := h1 _ _ hl hq0; omega
          · cases b
            · exact hf.2.1
            · exact hf.2.2
    intro i hi p hp
    apply hall i _ p hp
    have hne2 : (t.lev (t.nlev - 1)) ≠ [] := by
      have : ∀ (t : BTree V), t ≠ .nil → ∃ p, (t.at p).isSome ∧ p.length + 1 = t.nlev := by
        intro t
        induction t with
        | nil => intro h; exact absurd rfl h
        | node l v r ihl ihr =>
          intro _
          by_cases hle : r.nlev ≤ l.nlev
          · cases hl : l with
            | nil =>
              rw [hl, BTree.nlev] at hle
              exact ⟨[], rfl, by rw [BTree.nlev, BTree.nlev, List.length_nil]; omega⟩
            | node a b c =>
              obtain ⟨p, h1, h2⟩ := ihl (by rw [hl]; simp)
              rw [← hl]
              exact ⟨false :: p, h1, by rw [BTree.nlev, List.length_cons, h2]; omega⟩
          · cases hr : r with
            | nil => rw [hr, BTree.nlev] at hle; omega
            | node a b c =>
              obtain ⟨p, h1, h2⟩ := ihr (by rw [hr]; simp)
              rw [← hr]
              exact ⟨true :: p, h1, by rw [BTree.nlev, List.length_cons, h2]; omega⟩
      obtain ⟨p, h1, h2⟩ := this t hne
      intro hc
      have h3 := BTree.levPaths_map (t.nlev - 1) t
      rw [hc, List.map_nil, List.map_eq_nil_iff] at h3
      have : p ∈ t.levPaths (t.nlev - 1) := (BTree.mem_levPaths _ _ _).2 ⟨by omega, h1⟩
      rw [h3] at this; simp at this
    have h3 := BTree.levPaths_map (t.nlev - 1) t
    cases h4 : t.levPaths (t.nlev - 1) with
    | nil => rw [h4] at h3; exact absurd (List.map_eq_nil_iff.1 h3.symm) hne2
    | cons p ps =>
      obtain ⟨h5, h6⟩ := (BTree.mem_levPaths _ _ p).1 (by rw [h4]; simp)
      have := hlong p h6
      omega
  · intro h
    have hleaf : ∀ p, t.leafAt p → p.length + 1 = t.nlev := by
      rintro p ⟨h1, h2, h3⟩
      have := BTree.at_length_lt t p h1
      by_contra hc
      have := h (p.length + 1) (by omega) (p ++ [false]) (by simp)
      rw [h2] at this; simp at this
    refine ⟨fun p q hp hq => ?_, fun p hp => ?_⟩
    · have := hleaf p hp; have := hleaf q hq; omega
    · have hlt := BTree.at_length_lt t p hp
      by_cases hl : p.length + 1 < t.nlev
      · right
        exact ⟨hp, h _ hl _ (by simp), h _ hl _ (by simp)⟩
      · left
        have : ∀ b, t.at (p ++ [b]) = none := by
          intro b
          cases hb : t.at (p ++ [b]) with
          | none => rfl
          | some w =>
            have := BTree.at_length_lt t (p ++ [b]) (by simp [hb])
            simp at this; omega
        exact ⟨hp, this _, this _⟩

theorem BTree.isPerfect_spec (t : BTree V) (hne : t ≠ .nil) :
    ∃ b, t.isPerfect = .ok (b, false) ∧ (b = true ↔ t.Perfect) := by
  refine ⟨perfectLoop 0 t.levels, ?_, ?_⟩
  · cases t with
    | nil => exact absurd rfl hne
    | node l v r => rw [BTree.isPerfect, BTree.treeLevels_rose]; rfl
  · rw [perfectLoop_iff, BTree.perfect_iff t hne]
    constructor
    · intro h i hi
      rw [← BTree.lev_full]
      have := h i (t.lev i) (by simp [BTree.levels, hi])
      simpa using this
    · intro h i row hrow
      have hi : i < t.nlev := by
        have := List.getElem?_eq_some_iff.1 hrow
        obtain ⟨hlt, _⟩ := this
        simpa [BTree.levels] using hlt
      have : row = t.lev i := by
        simp [BTree.levels, hi] at hrow; exact hrow.symm
      rw [this, Nat.zero_add, BTree.lev_full]
      exact h i hi

theorem BTree.strict_node (l : BTree V) (v : V) (r : BTree V) : (BTree.node l v r).Strict ↔
    ((l = .nil ∧ r = .nil) ∨ (l ≠ .nil ∧ r ≠ .nil)) ∧ l.Strict ∧ r.Strict := by
  have hsome : ∀ t : BTree V, (t.at []).isSome ↔ t ≠ .nil := by intro t; cases t <;> simp
  have hnone : ∀ t : BTree V, t.at [] = none ↔ t = .nil := by intro t; cases t <;> simp
  constructor
  · intro h
    refine ⟨?_, fun p hp => h (false :: p) hp, fun p hp => h (true :: p) hp⟩
    rcases h [] (by simp) with h | h
    · left; exact ⟨(hnone l).1 h.2.1, (hnone r).1 h.2.2⟩
    · right; exact ⟨(hsome l).1 h.2.1, (hsome r).1 h.2.2⟩
  · rintro ⟨h, hl, hr⟩ p hp
    cases p with
    | nil =>
      rcases h with ⟨h1, h2⟩ | ⟨h1, h2⟩
      · left; exact ⟨hp, (hnone l).2 h1, (hnone r).2 h2⟩
      · right; exact ⟨hp, (hsome l).2 h1, (hsome r).2 h2⟩
    | cons b p =>
      cases b
      · exact hl p hp
      · exact hr p hp

theorem BTree.strict_nil : (BTree.nil : BTree V).Strict := fun p hp => by simp at hp

theorem BTree.subtreeStrict_spec : ∀ t : BTree V, t ≠ .nil →
    ∃ b, t.subtreeStrict = .ok b ∧ (b = true ↔ t.Strict)
  | .nil, h => absurd rfl h
  | .node .nil v .nil, _ => ⟨true, by rw [BTree.subtreeStrict], by
      simp [BTree.strict_node, BTree.strict_nil]⟩
  | .node (.node a b c) v .nil, _ => ⟨false, by rw [BTree.subtreeStrict], by
      rw [BTree.strict_node]; simp⟩
  | .node .nil v (.node a b c), _ => ⟨false, by rw [BTree.subtreeStrict], by
      rw [BTree.strict_node]; simp⟩
  | .node (.node a b c) v (.node d e f), _ => by
    obtain ⟨x, h1, h2⟩ := BTree.subtreeStrict_spec (.node a b c) (by simp)
    obtain ⟨y, h3, h4⟩ := BTree.subtreeStrict_spec (.node d e f) (by simp)
    rw [BTree.subtreeStrict, h1, BTree.strict_node, ← h2, ← h4]
    cases x
    · exact ⟨false, rfl, by simp⟩
    · exact ⟨y, h3, by simp⟩

end Extra
