import Verif.Trees.Splay
import Verif.Trees.BstProofs

/-!
# Helper lemmas about `SplayTree`
-/

set_option linter.unusedSectionVars false
set_option linter.unusedSimpArgs false

namespace Extra
variable {N X : Type} [LinearOrder N]

/-- the numbers of the nodes on the way, and below them the given ones, lie on the right sides -/
def framesOk : List N → List (Above N X) → Prop
  | _, [] => True
  | ys, f :: fs => (∀ y ∈ ys, sideOk f y = true) ∧ framesOk (f.w.1 :: ys) fs

theorem framesOk_mono {ys zs : List N} {fs : List (Above N X)} (h : ∀ y ∈ zs, y ∈ ys)
    (k : framesOk ys fs) : framesOk zs fs := by
  induction fs generalizing ys zs with
  | nil => trivial
  | cons f fs ih =>
    refine ⟨fun y hy => k.1 y (h y hy), ih (fun y hy => ?_) k.2⟩
    rcases List.mem_cons.1 hy with rfl | hy
    · exact List.mem_cons_self ..
    · exact List.mem_cons_of_mem _ (h y hy)

/-- the list of all entries, with those of the subtree in the middle -/
theorem plug_inorder (fs : List (Above N X)) : ∃ A B : List (N × X),
    ∀ t, (plug t fs).inorder = A ++ t.inorder ++ B := by
  induction fs with
  | nil => exact ⟨[], [], fun t => by simp [plug]⟩
  | cons f fs ih =>
    obtain ⟨A, B, h⟩ := ih
    cases hf : f.left with
    | true =>
      exact ⟨A, f.w :: (f.other.inorder ++ B), fun t => by simp [plug, hf, h, BTree.inorder]⟩
    | false =>
      exact ⟨A ++ f.other.inorder ++ [f.w], B, fun t => by simp [plug, hf, h, BTree.inorder]⟩

theorem plug_congr (fs : List (Above N X)) {s t : BTree (N × X)} (h : s.inorder = t.inorder) :
    (plug s fs).inorder = (plug t fs).inorder := by
  obtain ⟨A, B, k⟩ := plug_inorder fs
  rw [k, k, h]

/-- splaying brings the node to the root and keeps the inorder sequence -/
theorem splaying_spec (x : N × X) : ∀ (fs : List (Above N X)) (a b : BTree (N × X)), framesOk [x.1] fs →
    ∃ a' b', splaying a x b fs = .ok (.node a' x b') ∧
      (BTree.node a' x b').inorder = (plug (.node a x b) fs).inorder
  | [], a, b, _ => ⟨a, b, rfl, rfl⟩
  | [f], a, b, h => by
    have hs := h.1 x.1 (by simp)
    cases hf : f.left with
    | true =>
      exact ⟨a, .node b f.w f.other, by simp only [splaying, hs, hf, if_true], by simp [plug, hf, BTree.inorder]⟩
    | false =>
      exact ⟨.node f.other f.w a, b, by simp only [splaying, hs, hf, if_true, if_false, Bool.false_eq_true],
        by simp [plug, hf, BTree.inorder]⟩
  | f :: g :: fs, a, b, h => by
    have hs := h.1 x.1 (by simp)
    have hs' := h.2.1 f.w.1 (by simp)
    have hr : framesOk [x.1] fs := framesOk_mono (by simp) h.2.2
    cases hg : g.left <;> cases hf : f.left
    · obtain ⟨a', b', e, k⟩ := splaying_spec x fs (.node (.node g.other g.w f.other) f.w a) b hr
      refine ⟨a', b', by rw [splaying, if_pos ⟨hs, hs'⟩]; simp only [hg, hf]; exact e, k.trans ?_⟩
      simp only [plug, hf, hg, if_false, Bool.false_eq_true]
      exact plug_congr fs (by simp [BTree.inorder])
    · obtain ⟨a', b', e, k⟩ := splaying_spec x fs (.node g.other g.w a) (.node b f.w f.other) hr
      refine ⟨a', b', by rw [splaying, if_pos ⟨hs, hs'⟩]; simp only [hg, hf]; exact e, k.trans ?_⟩
      simp only [plug, hf, hg, if_true, if_false, Bool.false_eq_true]
      exact plug_congr fs (by simp [BTree.inorder])
    · obtain ⟨a', b', e, k⟩ := splaying_spec x fs (.node f.other f.w a) (.node b g.w g.other) hr
      refine ⟨a', b', by rw [splaying, if_pos ⟨hs, hs'⟩]; simp only [hg, hf]; exact e, k.trans ?_⟩
      simp only [plug, hf, hg, if_true, if_false, Bool.false_eq_true]
      exact plug_congr fs (by simp [BTree.inorder])
    · obtain ⟨a', b', e, k⟩ := splaying_spec x fs a (.node b f.w (.node f.other g.w g.other)) hr
      refine ⟨a', b', by rw [splaying, if_pos ⟨hs, hs'⟩]; simp only [hg, hf]; exact e, k.trans ?_⟩
      simp only [plug, hf, hg, if_true]
      exact plug_congr fs (by simp [BTree.inorder])

/-! ## Walks -/

/-- the numbers on a walk -/
def BTree.onPath : BTree (N × X) → List Bool → List N
  | .nil, _ => []
  | .node _ w _, [] => [w.1]
  | .node l w _, false :: p => w.1 :: l.onPath p
  | .node _ w r, true :: p => w.1 :: r.onPath p

/-- the numbers on a walk lie on the right sides of each other -/
def BTree.pathOk : BTree (N × X) → List Bool → Prop
  | .nil, _ => True
  | .node _ _ _, [] => True
  | .node l w _, false :: p => (∀ y ∈ l.onPath p, y < w.1) ∧ l.pathOk p
  | .node _ w r, true :: p => (∀ y ∈ r.onPath p, w.1 < y) ∧ r.pathOk p

theorem onPath_mem (t : BTree (N × X)) (p : List Bool) : ∀ y ∈ t.onPath p, y ∈ t.keys := by
  induction t generalizing p with
  | nil => cases p <;> simp [BTree.onPath]
  | node l w r ihl ihr =>
    intro y hy
    rw [BTree.keys_node]
    rcases p with _ | ⟨_ | _, p⟩
    · simp [BTree.onPath] at hy; simp [hy]
    · rcases List.mem_cons.1 hy with rfl | hy
      · simp
      · exact List.mem_append_left _ (ihl p y hy)
    · rcases List.mem_cons.1 hy with rfl | hy
      · simp
      · exact List.mem_append_right _ (List.mem_cons_of_mem _ (ihr p y hy))

theorem pathOk_of_sorted (t : BTree (N × X)) (p : List Bool) (h : t.keys.Pairwise (· < ·)) :
    t.pathOk p := by
  induction t generalizing p with
  | nil => cases p <;> simp [BTree.pathOk]
  | node l w r ihl ihr =>
    obtain ⟨hl, hr, h1, h2⟩ := sorted_node.1 h
    rcases p with _ | ⟨_ | _, p⟩
    · simp [BTree.pathOk]
    · exact ⟨fun y hy => h1 y (onPath_mem l p y hy), ihl p hl⟩
    · exact ⟨fun y hy => h2 y (onPath_mem r p y hy), ihr p hr⟩

/-- the nodes above the end of a walk -/
def BTree.above : BTree (N × X) → List Bool → List (Above N X)
  | .nil, _ => []
  | .node _ _ _, [] => []
  | .node l w r, false :: p => l.above p ++ [⟨true, w, r⟩]
  | .node l w r, true :: p => r.above p ++ [⟨false, w, l⟩]

theorem descend_eq (t : BTree (N × X)) (p : List Bool) (fs : List (Above N X)) :
    t.descend p fs = (t.walk p, t.above p ++ fs) := by
  induction t generalizing p fs with
  | nil => rcases p with _ | ⟨_, p⟩ <;> simp [BTree.descend, BTree.walk, BTree.above]
  | node l w r ihl ihr =>
    rcases p with _ | ⟨_ | _, p⟩ <;>
      simp [BTree.descend, BTree.walk, BTree.above, ihl, ihr]

theorem plug_append (t : BTree (N × X)) (fs gs : List (Above N X)) :
    plug t (fs ++ gs) = plug (plug t fs) gs := by
  induction fs generalizing t with
  | nil => rfl
  | cons f fs ih => simp only [List.cons_append, plug]; exact ih _

theorem plug_above (t : BTree (N × X)) (p : List Bool) (h : t.walk p ≠ .nil) :
    plug (t.walk p) (t.above p) = t := by
  induction t generalizing p with
  | nil => rcases p with _ | ⟨_, p⟩ <;> exact absurd rfl h
  | node l w r ihl ihr =>
    rcases p with _ | ⟨_ | _, p⟩
    · rfl
    · simp only [BTree.walk, BTree.above] at h ⊢
      rw [plug_append, ihl p h]; simp [plug]
    · simp only [BTree.walk, BTree.above] at h ⊢
      rw [plug_append, ihr p h]; simp [plug]

theorem framesOk_append (ys : List N) (fs gs : List (Above N X)) :
    framesOk ys (fs ++ gs) ↔ framesOk ys fs ∧ framesOk ((fs.map (·.w.1)).reverse ++ ys) gs := by
  induction fs generalizing ys with
  | nil => simp [framesOk]
  | cons f fs ih =>
    simp only [List.cons_append, framesOk, ih, List.map_cons, List.reverse_cons, List.append_assoc,
      List.nil_append, and_assoc]

theorem above_onPath (t : BTree (N × X)) (p : List Bool) (a x b) (h : t.walk p = .node a x b) :
    ∀ y, y ∈ (t.above p).map (·.w.1) ++ [x.1] ↔ y ∈ t.onPath p := by
  induction t generalizing p with
  | nil => rcases p with _ | ⟨_, p⟩ <;> simp [BTree.walk] at h
  | node l w r ihl ihr =>
    rcases p with _ | ⟨_ | _, p⟩
    · simp only [BTree.walk, BTree.node.injEq] at h
      simp [BTree.above, BTree.onPath, h.2.1]
    · intro y
      simp only [BTree.walk] at h
      rw [BTree.onPath, List.mem_cons, ← ihl p h y]
      simp only [BTree.above, List.map_append, List.map_cons, List.map_nil, List.mem_append,
        List.mem_singleton]
      tauto
    · intro y
      simp only [BTree.walk] at h
      rw [BTree.onPath, List.mem_cons, ← ihr p h y]
      simp only [BTree.above, List.map_append, List.map_cons, List.map_nil, List.mem_append,
        List.mem_singleton]
      tauto

theorem framesOk_above (t : BTree (N × X)) (p : List Bool) (a x b) (h : t.walk p = .node a x b)
    (k : t.pathOk p) : framesOk [x.1] (t.above p) := by
  induction t generalizing p with
  | nil => rcases p with _ | ⟨_, p⟩ <;> simp [BTree.walk] at h
  | node l w r ihl ihr =>
    rcases p with _ | ⟨_ | _, p⟩
    · exact trivial
    · simp only [BTree.walk] at h
      rw [BTree.above, framesOk_append]
      refine ⟨ihl p h k.2, fun y hy => ?_, trivial⟩
      have hy' : y ∈ l.onPath p := by
        rw [← above_onPath l p a x b h]
        simpa using hy
      simp [sideOk, k.1 y hy']
    · simp only [BTree.walk] at h
      rw [BTree.above, framesOk_append]
      refine ⟨ihr p h k.2, fun y hy => ?_, trivial⟩
      have hy' : y ∈ r.onPath p := by
        rw [← above_onPath r p a x b h]
        simpa using hy
      simp [sideOk, (k.1 y hy').le]

/-- `_splay` of a node brings it to the root and keeps the inorder sequence -/
theorem splay_spec (t : BTree (N × X)) (p : List Bool) (a x b) (h : t.walk p = .node a x b)
    (k : t.pathOk p) : ∃ a' b', t.splay p = .ok (.node a' x b') ∧
      (BTree.node a' x b').inorder = t.inorder := by
  obtain ⟨a', b', e, i⟩ := splaying_spec x (t.above p) a b (framesOk_above t p a x b h k)
  refine ⟨a', b', ?_, ?_⟩
  · simp only [BTree.splay, descend_eq, h, List.append_nil]; exact e
  · rw [i, ← h, plug_above t p (by simp [h])]

theorem search_walk (v : N) (t : BTree (N × X)) (h : t ≠ .nil) : ∃ a x b, t.walk (t.search v) = .node a x b := by
  induction t with
  | nil => exact absurd rfl h
  | node l w r ihl ihr =>
    rw [search_node]
    split_ifs with e1 e2 e3 e3
    · exact ⟨l, w, r, rfl⟩
    · exact ⟨l, w, r, rfl⟩
    · simpa [BTree.walk] using ihl e3
    · exact ⟨l, w, r, rfl⟩
    · simpa [BTree.walk] using ihr e3

theorem insertPath_walk (v : N) (x : X) (t : BTree (N × X)) :
    ∃ a y b, (t.insertNode (v, x)).1.walk (t.insertPath v) = .node a (v, y) b := by
  induction t with
  | nil => exact ⟨_, _, _, rfl⟩
  | node l w r ihl ihr =>
    rw [insertNode_node, BTree.insertPath]
    split_ifs with e1 e2
    · exact ⟨l, w.2, r, by simp only [BTree.walk]; simp only at e1; rw [e1]⟩
    · simpa [BTree.walk] using ihl
    · simpa [BTree.walk] using ihr

/-! ## The node `_remove` returns -/

theorem walk_append (t : BTree (N × X)) (p q : List Bool) : t.walk (p ++ q) = (t.walk p).walk q := by
  induction p generalizing t with
  | nil => cases t <;> rfl
  | cons b p ih =>
    cases t with
    | nil => cases q <;> simp [BTree.walk]
    | node l w r => cases b <;> simp [BTree.walk, ih]

theorem replace_walk (t : BTree (N × X)) (p : List Bool) (s : BTree (N × X)) (h : t.walk p ≠ .nil) :
    (t.replace p s).walk p = s := by
  induction p generalizing t with
  | nil => cases t <;> cases s <;> rfl
  | cons b p ih =>
    cases t with
    | nil => exact absurd rfl h
    | node l w r => cases b <;> simp only [BTree.replace, BTree.walk] at h ⊢ <;> exact ih _ h

theorem takeMin_path (t : BTree (N × X)) {m t'} (e : t.takeMin = some (m, t')) (hm : t.minPath ≠ []) :
    ∃ a x b, t'.walk t.minPath.dropLast = .node a x b ∧
      (∀ y ∈ t'.onPath t.minPath.dropLast, y ∈ t.onPath t.minPath.dropLast) ∧
      (t.keys.Pairwise (· < ·) → t'.pathOk t.minPath.dropLast) := by
  induction t generalizing m t' with
  | nil => simp [BTree.takeMin] at e
  | node l w r ihl ihr =>
    cases l with
    | nil => simp [BTree.minPath] at hm
    | node ll lv lr =>
      obtain ⟨m', l', e', _, _⟩ := takeMin_spec (BTree.node ll lv lr) (by simp)
      simp only [BTree.takeMin, e', Option.some.injEq, Prod.mk.injEq] at e
      obtain ⟨rfl, rfl⟩ := e
      rw [BTree.minPath]
      by_cases hq : (BTree.node ll lv lr).minPath = []
      · rw [hq]
        exact ⟨_, _, _, rfl, by simp [BTree.onPath], fun _ => by simp [BTree.pathOk]⟩
      · obtain ⟨a, x, b, i1, i2, i3⟩ := ihl e' hq
        rw [List.dropLast_cons_of_ne_nil hq]
        refine ⟨a, x, b, i1, fun y hy => ?_, fun hs => ?_⟩
        · rw [BTree.onPath] at hy ⊢
          rcases List.mem_cons.1 hy with rfl | hy
          · simp
          · exact List.mem_cons_of_mem _ (i2 y hy)
        · obtain ⟨s1, s2, s3, s4⟩ := sorted_node.1 hs
          exact ⟨fun y hy => s3 y (onPath_mem _ _ y (i2 y hy)), i3 s1⟩

theorem takeMax_path (t : BTree (N × X)) {m t'} (e : t.takeMax = some (m, t')) (hm : t.maxPath ≠ []) :
    ∃ a x b, t'.walk t.maxPath.dropLast = .node a x b ∧
      (∀ y ∈ t'.onPath t.maxPath.dropLast, y ∈ t.onPath t.maxPath.dropLast) ∧
      (t.keys.Pairwise (· < ·) → t'.pathOk t.maxPath.dropLast) := by
  induction t generalizing m t' with
  | nil => simp [BTree.takeMax] at e
  | node l w r ihl ihr =>
    cases r with
    | nil => simp [BTree.maxPath] at hm
    | node rl rv rr =>
      obtain ⟨m', r', e', _, _⟩ := takeMax_spec (BTree.node rl rv rr) (by simp)
      simp only [BTree.takeMax, e', Option.some.injEq, Prod.mk.injEq] at e
      obtain ⟨rfl, rfl⟩ := e
      rw [BTree.maxPath]
      by_cases hq : (BTree.node rl rv rr).maxPath = []
      · rw [hq]
        exact ⟨_, _, _, rfl, by simp [BTree.onPath], fun _ => by simp [BTree.pathOk]⟩
      · obtain ⟨a, x, b, i1, i2, i3⟩ := ihr e' hq
        rw [List.dropLast_cons_of_ne_nil hq]
        refine ⟨a, x, b, i1, fun y hy => ?_, fun hs => ?_⟩
        · rw [BTree.onPath] at hy ⊢
          rcases List.mem_cons.1 hy with rfl | hy
          · simp
          · exact List.mem_cons_of_mem _ (i2 y hy)
        · obtain ⟨s1, s2, s3, s4⟩ := sorted_node.1 hs
          exact ⟨fun y hy => s4 y (onPath_mem _ _ y (i2 y hy)), i3 s2⟩

/-- on a walk through a subtree that was exchanged the sides stay right, if the new numbers on it are
among the old ones of the subtree -/
theorem replace_pathOk (t : BTree (N × X)) (p q : List Bool) (s : BTree (N × X)) (hw : t.walk p ≠ .nil)
    (hs : t.keys.Pairwise (· < ·)) (h1 : ∀ y ∈ s.onPath q, y ∈ (t.walk p).keys) (h2 : s.pathOk q) :
    (t.replace p s).pathOk (p ++ q) ∧ ∀ y ∈ (t.replace p s).onPath (p ++ q), y ∈ t.keys := by
  induction p generalizing t with
  | nil =>
    have e1 : t.replace [] s = s := by cases t <;> rfl
    have e2 : t.walk [] = t := by cases t <;> rfl
    rw [e1]; rw [e2] at h1
    exact ⟨h2, h1⟩
  | cons b p ih =>
    cases t with
    | nil => exact absurd rfl hw
    | node l w r =>
      obtain ⟨s1, s2, s3, s4⟩ := sorted_node.1 hs
      cases b with
      | false =>
        obtain ⟨i1, i2⟩ := ih l hw s1 h1
        refine ⟨⟨fun y hy => s3 y (i2 y hy), i1⟩, fun y hy => ?_⟩
        rw [BTree.keys_node]
        simp only [BTree.replace, List.cons_append, BTree.onPath] at hy
        rcases List.mem_cons.1 hy with rfl | hy
        · simp
        · exact List.mem_append_left _ (i2 y hy)
      | true =>
        obtain ⟨i1, i2⟩ := ih r hw s2 h1
        refine ⟨⟨fun y hy => s4 y (i2 y hy), i1⟩, fun y hy => ?_⟩
        rw [BTree.keys_node]
        simp only [BTree.replace, List.cons_append, BTree.onPath] at hy
        rcases List.mem_cons.1 hy with rfl | hy
        · simp
        · exact List.mem_append_right _ (List.mem_cons_of_mem _ (i2 y hy))

/-- with a replacement: the way from the removed node to the replacement's parent -/
theorem removeRoot_path (l : BTree (N × X)) (w r) (hs : (BTree.node l w r).keys.Pairwise (· < ·))
    (hne : (BTree.node l w r).replacementPath ≠ []) :
    ∃ a x b, (BTree.node l w r).removeRoot.walk (BTree.node l w r).replacementPath.dropLast = .node a x b ∧
      (∀ y ∈ (BTree.node l w r).removeRoot.onPath (BTree.node l w r).replacementPath.dropLast,
        y ∈ (BTree.node l w r).keys) ∧
      (BTree.node l w r).removeRoot.pathOk (BTree.node l w r).replacementPath.dropLast := by
  obtain ⟨s1, s2, s3, s4⟩ := sorted_node.1 hs
  have hperm := removeRoot_perm l w r
  have hmem : ∀ q, ∀ y ∈ (BTree.node l w r).removeRoot.onPath q, y ∈ (BTree.node l w r).keys :=
    fun q y hy => hperm.mem_iff.2 (List.mem_cons_of_mem _ (onPath_mem _ q y hy))
  have key : (∃ a x b, (BTree.node l w r).removeRoot.walk
      (BTree.node l w r).replacementPath.dropLast = .node a x b) ∧
      (BTree.node l w r).removeRoot.pathOk (BTree.node l w r).replacementPath.dropLast := by
    cases r with
    | node rl rv rr =>
      obtain ⟨m, r', e, pm, _⟩ := takeMin_spec (BTree.node rl rv rr) (by simp)
      simp only [BTree.removeRoot, e, BTree.replacementPath]
      by_cases hq : (BTree.node rl rv rr).minPath = []
      · rw [hq]
        exact ⟨⟨_, _, _, rfl⟩, by simp [BTree.pathOk]⟩
      · rw [List.dropLast_cons_of_ne_nil hq]
        obtain ⟨a, x, b, i1, i2, i3⟩ := takeMin_path (BTree.node rl rv rr) e hq
        refine ⟨⟨a, x, b, i1⟩, fun y hy => ?_, i3 s2⟩
        obtain ⟨z, hz, rfl⟩ := takeMin_least e
        have hy' := onPath_mem _ _ y hy
        have hle := ((minNode_spec _ s2).2 z hz).2 y (pm.mem_iff.2 (List.mem_cons_of_mem _ hy'))
        refine lt_of_le_of_ne hle ?_
        rintro rfl
        have hn : (BTree.node rl rv rr).keys.Nodup := s2.imp (fun {a b} k => ne_of_lt k)
        exact (List.nodup_cons.1 (pm.nodup_iff.1 hn)).1 hy'
    | nil =>
      cases l with
      | nil => simp [BTree.replacementPath] at hne
      | node ll lv lr =>
        obtain ⟨m, l', e, pm, _⟩ := takeMax_spec (BTree.node ll lv lr) (by simp)
        simp only [BTree.removeRoot, e, BTree.replacementPath]
        by_cases hq : (BTree.node ll lv lr).maxPath = []
        · rw [hq]
          exact ⟨⟨_, _, _, rfl⟩, by simp [BTree.pathOk]⟩
        · rw [List.dropLast_cons_of_ne_nil hq]
          obtain ⟨a, x, b, i1, i2, i3⟩ := takeMax_path (BTree.node ll lv lr) e hq
          refine ⟨⟨a, x, b, i1⟩, fun y hy => ?_, i3 s1⟩
          obtain ⟨z, hz, rfl⟩ := takeMax_greatest e
          have hy' := onPath_mem _ _ y hy
          have hle := ((maxNode_spec _ s1).2 z hz).2 y (pm.mem_iff.2 (List.mem_cons_of_mem _ hy'))
          refine lt_of_le_of_ne hle ?_
          rintro rfl
          have hn : (BTree.node ll lv lr).keys.Nodup := s1.imp (fun {a b} k => ne_of_lt k)
          exact (List.nodup_cons.1 (pm.nodup_iff.1 hn)).1 hy'
  obtain ⟨⟨a, x, b, k1⟩, k2⟩ := key
  exact ⟨a, x, b, k1, hmem _, k2⟩

theorem replacementPath_nil (l : BTree (N × X)) (w r) (h : (BTree.node l w r).replacementPath = []) :
    l = .nil ∧ r = .nil := by
  cases r with
  | node _ _ _ => simp [BTree.replacementPath] at h
  | nil =>
    cases l with
    | nil => exact ⟨rfl, rfl⟩
    | node _ _ _ => simp [BTree.replacementPath] at h

/-- a leaf is taken off: the walk to its parent -/
theorem leaf_path (t : BTree (N × X)) (p : List Bool) (w) (hp : p ≠ []) (h : t.walk p = .node .nil w .nil)
    (hs : t.keys.Pairwise (· < ·)) :
    (∃ a x b, (t.replace p .nil).walk p.dropLast = .node a x b) ∧ (t.replace p .nil).pathOk p.dropLast := by
  refine ⟨?_, ?_⟩
  · clear hs
    induction p generalizing t with
    | nil => exact absurd rfl hp
    | cons b p ih =>
      cases t with
      | nil => simp [BTree.walk] at h
      | node l v r =>
        by_cases hq : p = []
        · subst hq
          cases b <;> exact ⟨_, _, _, rfl⟩
        · rw [List.dropLast_cons_of_ne_nil hq]
          cases b <;> simp only [BTree.replace, BTree.walk] at h ⊢ <;> exact ih _ hq h
  · refine pathOk_of_sorted _ _ ?_
    obtain ⟨A, B, e1, e2⟩ := replace_keys t p (by simp [h])
    rw [e2]
    rw [e1, h] at hs
    refine hs.sublist (List.Sublist.append_right (List.Sublist.append_left ?_ _) _)
    simp

/-- whatever `_remove` does to the order, the node it returns can be splayed -/
theorem lastAccessed_spec (v : N) (t : BTree (N × X)) (hne : t ≠ .nil)
    (hroot : ∀ w, t = .node .nil w .nil → w.1 ≠ v) (hs : t.keys.Pairwise (· < ·)) :
    (∃ a x b, (t.remove v).1.walk (t.lastAccessed v) = .node a x b) ∧
      (t.remove v).1.pathOk (t.lastAccessed v) := by
  by_cases hf : t.dataAt (t.search v) = some v
  · rw [BTree.remove, if_pos hf, BTree.lastAccessed, if_pos hf]
    simp only
    obtain ⟨l, w, r, hw⟩ := search_walk v t hne
    obtain ⟨A, B, e1, e2⟩ := replace_keys t (t.search v) (by simp [hw])
    have hsub : (BTree.node l w r).keys.Pairwise (· < ·) := by
      rw [e1, hw] at hs
      exact (List.pairwise_append.1 (List.pairwise_append.1 hs).1).2.1
    rw [hw]
    by_cases hq : (BTree.node l w r).replacementPath = []
    · obtain ⟨rfl, rfl⟩ := replacementPath_nil l w r hq
      rw [hq, List.append_nil]
      refine leaf_path t _ w ?_ hw hs
      intro h0
      rw [h0] at hw
      have e : t = .node .nil w .nil := by cases t with
        | nil => simp [BTree.walk] at hw
        | node _ _ _ => exact hw
      have hv : w.1 = v := by
        rw [BTree.dataAt, h0, hw] at hf
        simpa using hf
      exact hroot w e hv
    · rw [List.dropLast_append_of_ne_nil hq]
      obtain ⟨a, x, b, k1, k2, k3⟩ := removeRoot_path l w r hsub hq
      refine ⟨⟨a, x, b, ?_⟩, ?_⟩
      · rw [walk_append, replace_walk t _ _ (by simp [hw])]; exact k1
      · exact (replace_pathOk t _ _ _ (by simp [hw]) hs (by rw [hw]; exact k2) k3).1
  · rw [remove_missing v t hf, BTree.lastAccessed, if_neg hf]
    exact ⟨search_walk v t hne, pathOk_of_sorted t _ hs⟩

end Extra
