import Verif.Trees.BstSpec
import Verif.Trees.BinTreeProofs
import Mathlib.Data.List.Sort
import Mathlib.Data.List.Perm.Basic
import Mathlib.Data.List.Nodup
import Mathlib.Tactic.Linarith
import Mathlib.Tactic.Tauto
import Mathlib.Tactic.ByContra

/-!
# Helper lemmas about `BST`
-/

set_option linter.unusedSectionVars false
set_option linter.unusedSimpArgs false

namespace Extra
variable {N X : Type} [LinearOrder N]

@[simp] theorem BTree.keys_nil : (BTree.nil : BTree (N × X)).keys = [] := rfl

@[simp] theorem BTree.keys_node (l : BTree (N × X)) (w r) :
    (BTree.node l w r).keys = l.keys ++ w.1 :: r.keys := by
  simp [BTree.keys, BTree.inorder]

theorem searchTree_iff (t : BTree (N × X)) : SearchTree t ↔ t.keys.Pairwise (· < ·) := Iff.rfl

theorem sorted_node {l r : BTree (N × X)} {w} :
    (BTree.node l w r).keys.Pairwise (· < ·) ↔
      l.keys.Pairwise (· < ·) ∧ r.keys.Pairwise (· < ·) ∧ (∀ x ∈ l.keys, x < w.1) ∧
        (∀ x ∈ r.keys, w.1 < x) := by
  rw [BTree.keys_node, List.pairwise_append]
  constructor
  · rintro ⟨h1, h2, h3⟩
    rw [List.pairwise_cons] at h2
    exact ⟨h1, h2.2, fun x hx => h3 x hx _ (by simp), h2.1⟩
  · rintro ⟨h1, h2, h3, h4⟩
    refine ⟨h1, List.pairwise_cons.2 ⟨h4, h2⟩, fun x hx y hy => ?_⟩
    rcases List.mem_cons.1 hy with rfl | hy
    · exact h3 x hx
    · exact lt_trans (h3 x hx) (h4 y hy)

theorem BTree.keys_length_size (t : BTree (N × X)) : t.keys.length = t.size := by
  induction t with
  | nil => rfl
  | node l w r ihl ihr => simp [BTree.size, ihl, ihr]; omega

/-! ## Insertion -/

theorem insertNode_node (v : N × X) (l : BTree (N × X)) (w r) :
    (BTree.node l w r).insertNode v =
      if v.1 = w.1 then (.node l w r, false)
      else if v.1 < w.1 then (.node (l.insertNode v).1 w r, (l.insertNode v).2)
      else (.node l w (r.insertNode v).1, (r.insertNode v).2) := by
  cases l <;> cases r <;> simp [BTree.insertNode]

theorem insertNode_length (v : N × X) (t : BTree (N × X)) :
    (t.insertNode v).1.keys.length = t.keys.length + (if (t.insertNode v).2 then 1 else 0) := by
  induction t with
  | nil => simp [BTree.insertNode]
  | node l w r ihl ihr =>
    rw [insertNode_node]
    split_ifs <;> simp_all <;> omega

theorem insertNode_mem (v : N × X) (t : BTree (N × X)) (x : N) :
    x ∈ (t.insertNode v).1.keys ↔ x = v.1 ∨ x ∈ t.keys := by
  induction t with
  | nil => simp [BTree.insertNode]
  | node l w r ihl ihr =>
    rw [insertNode_node]
    split_ifs with h1 h2
    · simp only [BTree.keys_node, List.mem_append, List.mem_cons, h1]; tauto
    · simp only [BTree.keys_node, List.mem_append, List.mem_cons, ihl]; tauto
    · simp only [BTree.keys_node, List.mem_append, List.mem_cons, ihr]; tauto

theorem insertNode_sorted (v : N × X) (t : BTree (N × X)) (h : t.keys.Pairwise (· < ·)) :
    (t.insertNode v).1.keys.Pairwise (· < ·) := by
  induction t with
  | nil => simp [BTree.insertNode]
  | node l w r ihl ihr =>
    rw [insertNode_node]
    obtain ⟨hl, hr, h1, h2⟩ := sorted_node.1 h
    split_ifs with e e'
    · exact h
    · refine sorted_node.2 ⟨ihl hl, hr, fun x hx => ?_, h2⟩
      rcases (insertNode_mem v l x).1 hx with rfl | hx
      · exact e'
      · exact h1 x hx
    · refine sorted_node.2 ⟨hl, ihr hr, h1, fun x hx => ?_⟩
      rcases (insertNode_mem v r x).1 hx with rfl | hx
      · exact lt_of_le_of_ne (not_lt.1 e') (Ne.symm e)
      · exact h2 x hx

theorem insertNode_flag (v : N × X) (t : BTree (N × X)) (h : t.keys.Pairwise (· < ·)) :
    (t.insertNode v).2 = true ↔ v.1 ∉ t.keys := by
  induction t with
  | nil => simp [BTree.insertNode]
  | node l w r ihl ihr =>
    obtain ⟨hl, hr, h1, h2⟩ := sorted_node.1 h
    rw [insertNode_node]
    split_ifs with e e'
    · simp [e]
    · simp only [ihl hl, BTree.keys_node, List.mem_append, List.mem_cons, not_or]
      exact ⟨fun k => ⟨k, e, fun k' => absurd (h2 _ k') (not_lt.2 e'.le)⟩, fun k => k.1⟩
    · simp only [ihr hr, BTree.keys_node, List.mem_append, List.mem_cons, not_or]
      exact ⟨fun k => ⟨fun k' => e' (h1 _ k'), e, k⟩, fun k => k.2.2⟩

theorem insertNode_present (v : N × X) (t : BTree (N × X)) (h : (t.insertNode v).2 = false) :
    (t.insertNode v).1 = t := by
  induction t with
  | nil => simp [BTree.insertNode] at h
  | node l w r ihl ihr =>
    rw [insertNode_node] at h ⊢
    split_ifs at h ⊢ with e e'
    · rfl
    · simp only at h ⊢; rw [ihl h]
    · simp only at h ⊢; rw [ihr h]

/-! ## Search -/

open Classical in
theorem search_node (v : N) (l : BTree (N × X)) (w r) :
    (BTree.node l w r).search v =
      if v = w.1 then []
      else if v < w.1 then (if l = .nil then [] else false :: l.search v)
      else (if r = .nil then [] else true :: r.search v) := by
  cases l <;> cases r <;> simp [BTree.search]

theorem dataAt_search (v : N) (t : BTree (N × X)) (h : t.keys.Pairwise (· < ·)) :
    t.dataAt (t.search v) = some v ↔ v ∈ t.keys := by
  induction t with
  | nil => simp [BTree.search, BTree.dataAt, BTree.walk]
  | node l w r ihl ihr =>
    obtain ⟨hl, hr, h1, h2⟩ := sorted_node.1 h
    rw [search_node]
    split_ifs with e e' e'' e''
    · simp [BTree.dataAt, BTree.walk, e]
    · subst e''
      simp only [BTree.dataAt, BTree.walk, Option.some.injEq, BTree.keys_node, BTree.keys_nil,
        List.nil_append, List.mem_cons]
      exact ⟨fun k => absurd k.symm e, fun k => k.elim (fun k => absurd k e)
        (fun k => absurd (h2 _ k) (not_lt.2 e'.le))⟩
    · have : (BTree.node l w r).dataAt (false :: l.search v) = l.dataAt (l.search v) := by
        simp [BTree.dataAt, BTree.walk]
      rw [this, ihl hl]
      simp only [BTree.keys_node, List.mem_append, List.mem_cons]
      exact ⟨Or.inl, fun k => k.elim id (fun k => k.elim (fun k => absurd k e)
        (fun k => absurd (h2 _ k) (not_lt.2 e'.le)))⟩
    · subst e''
      simp only [BTree.dataAt, BTree.walk, Option.some.injEq, BTree.keys_node, BTree.keys_nil,
        List.mem_append, List.mem_cons, List.not_mem_nil, or_false]
      exact ⟨fun k => absurd k.symm e, fun k => k.elim (fun k => absurd (h1 _ k) e')
        (fun k => absurd k e)⟩
    · have : (BTree.node l w r).dataAt (true :: r.search v) = r.dataAt (r.search v) := by
        simp [BTree.dataAt, BTree.walk]
      rw [this, ihr hr]
      simp only [BTree.keys_node, List.mem_append, List.mem_cons]
      exact ⟨fun k => Or.inr (Or.inr k), fun k => k.elim (fun k => absurd (h1 _ k) e')
        (fun k => k.elim (fun k => absurd k e) id)⟩

theorem walk_eq_sub (t : BTree (N × X)) (p : List Bool) : t.walk p = t.sub p := by
  induction p generalizing t with
  | nil => cases t <;> rfl
  | cons b p ih => cases t <;> cases b <;> simp [BTree.walk, BTree.sub, ih]

/-- the numbers around a subtree stay when the subtree is exchanged -/
theorem replace_keys (t : BTree (N × X)) (p : List Bool) (h : t.walk p ≠ .nil) :
    ∃ A B, t.keys = A ++ (t.walk p).keys ++ B ∧ ∀ s, (t.replace p s).keys = A ++ s.keys ++ B := by
  induction p generalizing t with
  | nil => exact ⟨[], [], by cases t <;> simp [BTree.walk], fun s => by cases t <;> simp [BTree.replace]⟩
  | cons b p ih =>
    cases t with
    | nil => exact absurd rfl h
    | node l w r =>
      cases b with
      | true =>
        obtain ⟨A, B, e, k⟩ := ih r h
        refine ⟨l.keys ++ w.1 :: A, B, ?_, fun s => ?_⟩
        · simp only [BTree.keys_node, BTree.walk, e]; simp
        · simp only [BTree.replace, BTree.keys_node, k]; simp
      | false =>
        obtain ⟨A, B, e, k⟩ := ih l h
        refine ⟨A, B ++ w.1 :: r.keys, ?_, fun s => ?_⟩
        · simp only [BTree.keys_node, BTree.walk, e]; simp
        · simp only [BTree.replace, BTree.keys_node, k]; simp

/-! ## Minimum and maximum -/

theorem minNode_spec (t : BTree (N × X)) (h : t.keys.Pairwise (· < ·)) :
    (t.minNode = none ↔ t = .nil) ∧ ∀ m, t.minNode = some m → m.1 ∈ t.keys ∧ ∀ x ∈ t.keys, m.1 ≤ x := by
  induction t with
  | nil => simp [BTree.minNode]
  | node l w r ihl ihr =>
    obtain ⟨hl, hr, h1, h2⟩ := sorted_node.1 h
    cases l with
    | nil =>
      simp only [BTree.minNode, reduceCtorEq, Option.some.injEq, true_and]
      rintro m rfl
      simp only [BTree.keys_node, BTree.keys_nil, List.nil_append, List.mem_cons, true_or, true_and]
      rintro x (rfl | hx)
      · exact le_refl _
      · exact (h2 x hx).le
    | node ll lv lr =>
      obtain ⟨i1, i2⟩ := ihl hl
      rw [BTree.minNode]
      refine ⟨by simp [i1], fun m hm => ?_⟩
      obtain ⟨j1, j2⟩ := i2 m hm
      refine ⟨by rw [BTree.keys_node]; exact List.mem_append_left _ j1, fun x hx => ?_⟩
      rw [BTree.keys_node] at hx
      rcases List.mem_append.1 hx with hx | hx
      · exact j2 x hx
      · rcases List.mem_cons.1 hx with rfl | hx
        · exact (h1 _ j1).le
        · exact ((h1 _ j1).trans (h2 x hx)).le

theorem maxNode_spec (t : BTree (N × X)) (h : t.keys.Pairwise (· < ·)) :
    (t.maxNode = none ↔ t = .nil) ∧ ∀ m, t.maxNode = some m → m.1 ∈ t.keys ∧ ∀ x ∈ t.keys, x ≤ m.1 := by
  induction t with
  | nil => simp [BTree.maxNode]
  | node l w r ihl ihr =>
    obtain ⟨hl, hr, h1, h2⟩ := sorted_node.1 h
    cases r with
    | nil =>
      simp only [BTree.maxNode, reduceCtorEq, Option.some.injEq, true_and]
      rintro m rfl
      simp only [BTree.keys_node, BTree.keys_nil, List.mem_append, List.mem_cons, List.not_mem_nil,
        or_false, or_true, true_and]
      rintro x (hx | rfl)
      · exact (h1 x hx).le
      · exact le_refl _
    | node rl rv rr =>
      obtain ⟨i1, i2⟩ := ihr hr
      rw [BTree.maxNode]
      refine ⟨by simp [i1], fun m hm => ?_⟩
      obtain ⟨j1, j2⟩ := i2 m hm
      refine ⟨by rw [BTree.keys_node]; exact List.mem_append_right _ (List.mem_cons_of_mem _ j1),
        fun x hx => ?_⟩
      rw [BTree.keys_node] at hx
      rcases List.mem_append.1 hx with hx | hx
      · exact ((h1 x hx).trans (h2 _ j1)).le
      · rcases List.mem_cons.1 hx with rfl | hx
        · exact (h2 _ j1).le
        · exact j2 x hx

/-! ## Removal -/

theorem sink_perm (t : BTree (N × X)) (l w r) (e : t = .node l w r) :
    t.keys.Perm (w.1 :: t.sink.keys) := by
  induction t generalizing l w r with
  | nil => cases e
  | node l' w' r' ihl ihr =>
    obtain ⟨rfl, rfl, rfl⟩ := BTree.node.inj e
    cases l' with
    | node ll lv lr =>
      have := ihl ll lv lr rfl
      simp only [BTree.sink, BTree.keys_node (BTree.sink _)]
      rw [BTree.keys_node]
      refine (List.perm_middle).trans (List.Perm.cons _ ?_)
      refine (this.append_right _).trans ?_
      simp only [List.cons_append]
      exact (List.perm_middle).symm
    | nil =>
      cases r' with
      | nil => simp [BTree.sink]
      | node rl rv rr =>
        have := ihr rl rv rr rfl
        simp only [BTree.sink]
        rw [BTree.keys_node, BTree.keys_node (BTree.nil)]
        simpa using this

theorem sink_right (w : N × X) (r : BTree (N × X)) (h : r.keys.Pairwise (· < ·)) :
    (BTree.node .nil w r).sink.keys.Pairwise (· < ·) ↔ r.rightSpine := by
  induction r generalizing w with
  | nil => simp [BTree.sink, BTree.rightSpine]
  | node rl rv rr ihl ihr =>
    obtain ⟨hl, hr, h1, h2⟩ := sorted_node.1 h
    have hp := sink_perm (.node rl rv rr) rl rv rr rfl
    simp only [BTree.sink, BTree.keys_node BTree.nil, BTree.keys_nil, List.nil_append,
      List.pairwise_cons, BTree.rightSpine]
    cases rl with
    | nil =>
      simp only [true_and]
      rw [ihr rv hr]
      refine ⟨fun k => k.2, fun k => ⟨fun x hx => ?_, k⟩⟩
      have hx' := (hp.mem_iff (a := x)).2 (List.mem_cons_of_mem _ hx)
      simp only [BTree.keys_node, BTree.keys_nil, List.nil_append, List.mem_cons] at hx'
      rcases hx' with rfl | hx'
      · exfalso
        have hn : (BTree.node .nil rv rr).keys.Nodup := h.imp (fun {a b} k => ne_of_lt k)
        exact (List.nodup_cons.1 (hp.nodup_iff.1 hn)).1 hx
      · exact h2 x hx'
    | node a b c =>
      simp only [reduceCtorEq, false_and, iff_false, not_and]
      intro k
      exfalso
      have hb : b.1 < rv.1 := h1 _ (by simp)
      have : b.1 ∈ (BTree.node (.node a b c) rv rr).sink.keys := by simp [BTree.sink]
      exact absurd (k _ this) (not_lt.2 hb.le)

theorem sink_left (w : N × X) (l : BTree (N × X)) (h : l.keys.Pairwise (· < ·)) :
    (BTree.node l w .nil).sink.keys.Pairwise (· < ·) ↔ l.leftSpine := by
  induction l generalizing w with
  | nil => simp [BTree.sink, BTree.leftSpine]
  | node ll lv lr ihl ihr =>
    obtain ⟨hl, hr, h1, h2⟩ := sorted_node.1 h
    have hp := sink_perm (.node ll lv lr) ll lv lr rfl
    rw [BTree.sink, sorted_node, BTree.leftSpine]
    simp only [BTree.keys_nil, List.Pairwise.nil, List.not_mem_nil, false_implies, implies_true,
      and_true, true_and]
    cases lr with
    | nil =>
      simp only [true_and]
      rw [ihl lv hl]
      refine ⟨fun k => k.1, fun k => ⟨k, fun x hx => ?_⟩⟩
      have hx' := (hp.mem_iff (a := x)).2 (List.mem_cons_of_mem _ hx)
      simp only [BTree.keys_node, BTree.keys_nil, List.mem_append, List.mem_cons,
        List.not_mem_nil, or_false] at hx'
      rcases hx' with hx' | rfl
      · exact h1 x hx'
      · exfalso
        have hn : (BTree.node ll lv .nil).keys.Nodup := h.imp (fun {a b} k => ne_of_lt k)
        exact (List.nodup_cons.1 (hp.nodup_iff.1 hn)).1 hx
    | node a b c =>
      simp only [reduceCtorEq, false_and, iff_false, not_and]
      intro _ k
      have hb : lv.1 < b.1 := h2 _ (by simp)
      have : b.1 ∈ (BTree.node ll lv (.node a b c)).sink.keys := by
        have := (hp.mem_iff (a := b.1)).1 (by simp)
        rcases List.mem_cons.1 this with e | e
        · exact absurd e (ne_of_gt hb)
        · exact e
      exact absurd (k _ this) (not_lt.2 hb.le)

theorem takeMin_spec (t : BTree (N × X)) (h : t ≠ .nil) :
    ∃ m t', t.takeMin = some (m, t') ∧ t.keys.Perm (m :: t'.keys) ∧
      (t.keys.Pairwise (· < ·) → (t'.keys.Pairwise (· < ·) ↔ t.belowMin.rightSpine)) := by
  induction t with
  | nil => exact absurd rfl h
  | node l w r ihl ihr =>
    cases l with
    | nil =>
      refine ⟨w.1, _, rfl, sink_perm _ _ _ _ rfl, fun hs => ?_⟩
      exact sink_right w r (sorted_node.1 hs).2.1
    | node ll lv lr =>
      obtain ⟨m, t', e, p, k⟩ := ihl (by simp)
      refine ⟨m, .node t' w r, by simp [BTree.takeMin, e], ?_, fun hs => ?_⟩
      · rw [BTree.keys_node, BTree.keys_node t']
        exact p.append_right _
      · obtain ⟨hl, hr, h1, h2⟩ := sorted_node.1 hs
        rw [BTree.belowMin, ← k hl, sorted_node]
        exact ⟨fun q => q.1, fun q => ⟨q, hr, fun x hx => h1 x (p.mem_iff.2 (List.mem_cons_of_mem _ hx)), h2⟩⟩

theorem takeMax_spec (t : BTree (N × X)) (h : t ≠ .nil) :
    ∃ m t', t.takeMax = some (m, t') ∧ t.keys.Perm (m :: t'.keys) ∧
      (t.keys.Pairwise (· < ·) → (t'.keys.Pairwise (· < ·) ↔ t.belowMax.leftSpine)) := by
  induction t with
  | nil => exact absurd rfl h
  | node l w r ihl ihr =>
    cases r with
    | nil =>
      refine ⟨w.1, _, rfl, sink_perm _ _ _ _ rfl, fun hs => ?_⟩
      exact sink_left w l (sorted_node.1 hs).1
    | node rl rv rr =>
      obtain ⟨m, t', e, p, k⟩ := ihr (by simp)
      refine ⟨m, .node l w t', by simp [BTree.takeMax, e], ?_, fun hs => ?_⟩
      · rw [BTree.keys_node l, BTree.keys_node l]
        refine ((p.cons w.1).append_left l.keys).trans ?_
        refine ((List.Perm.swap m w.1 t'.keys).append_left l.keys).trans ?_
        exact List.perm_middle
      · obtain ⟨hl, hr, h1, h2⟩ := sorted_node.1 hs
        rw [BTree.belowMax, ← k hr, sorted_node]
        exact ⟨fun q => q.2.1, fun q => ⟨hl, q, h1, fun x hx => h2 x (p.mem_iff.2 (List.mem_cons_of_mem _ hx))⟩⟩

theorem takeMin_least {t t' : BTree (N × X)} {m} (e : t.takeMin = some (m, t')) :
    ∃ x, t.minNode = some x ∧ x.1 = m := by
  induction t generalizing t' m with
  | nil => simp [BTree.takeMin] at e
  | node l w r ihl ihr =>
    cases l with
    | nil =>
      simp only [BTree.takeMin, Option.some.injEq, Prod.mk.injEq] at e
      exact ⟨w, rfl, e.1⟩
    | node ll lv lr =>
      obtain ⟨m', l', e', _, _⟩ := takeMin_spec (BTree.node ll lv lr) (by simp)
      simp only [BTree.takeMin, e', Option.some.injEq, Prod.mk.injEq] at e
      obtain ⟨x, hx, hm⟩ := ihl e'
      exact ⟨x, by rw [BTree.minNode]; exact hx, by rw [hm]; exact e.1⟩

theorem takeMax_greatest {t t' : BTree (N × X)} {m} (e : t.takeMax = some (m, t')) :
    ∃ x, t.maxNode = some x ∧ x.1 = m := by
  induction t generalizing t' m with
  | nil => simp [BTree.takeMax] at e
  | node l w r ihl ihr =>
    cases r with
    | nil =>
      simp only [BTree.takeMax, Option.some.injEq, Prod.mk.injEq] at e
      exact ⟨w, rfl, e.1⟩
    | node rl rv rr =>
      obtain ⟨m', l', e', _, _⟩ := takeMax_spec (BTree.node rl rv rr) (by simp)
      simp only [BTree.takeMax, e', Option.some.injEq, Prod.mk.injEq] at e
      obtain ⟨x, hx, hm⟩ := ihr e'
      exact ⟨x, by rw [BTree.maxNode]; exact hx, by rw [hm]; exact e.1⟩

theorem removeRoot_perm (l : BTree (N × X)) (w r) :
    (BTree.node l w r).keys.Perm (w.1 :: (BTree.node l w r).removeRoot.keys) := by
  cases r with
  | node rl rv rr =>
    obtain ⟨m, t', e, p, _⟩ := takeMin_spec (BTree.node rl rv rr) (by simp)
    simp only [BTree.removeRoot, e]
    rw [BTree.keys_node l, BTree.keys_node l]
    exact ((p.cons w.1).append_left _).trans List.perm_middle
  | nil =>
    cases l with
    | nil => simp [BTree.removeRoot]
    | node ll lv lr =>
      obtain ⟨m, t', e, p, _⟩ := takeMax_spec (BTree.node ll lv lr) (by simp)
      simp only [BTree.removeRoot, e]
      rw [BTree.keys_node _ w, BTree.keys_node t']
      refine (List.perm_middle).trans (List.Perm.cons _ ?_)
      simp only [BTree.keys_nil, List.append_nil]
      refine p.trans ?_
      exact (List.perm_append_singleton m t'.keys).symm

theorem removeRoot_sorted (l : BTree (N × X)) (w r)
    (h : (BTree.node l w r).keys.Pairwise (· < ·)) :
    (BTree.node l w r).removeRoot.keys.Pairwise (· < ·) ↔ RemovalSafe (.node l w r) := by
  obtain ⟨hl, hr, h1, h2⟩ := sorted_node.1 h
  cases r with
  | node rl rv rr =>
    obtain ⟨m, t', e, p, k⟩ := takeMin_spec (BTree.node rl rv rr) (by simp)
    simp only [BTree.removeRoot, e, RemovalSafe]
    rw [← k hr, sorted_node]
    refine ⟨fun q => q.2.1, fun q => ⟨hl, q, fun x hx => ?_, fun x hx => ?_⟩⟩
    · exact (h1 x hx).trans (h2 m (p.mem_iff.2 (by simp)))
    · obtain ⟨y, hy, rfl⟩ := takeMin_least e
      have hle := ((minNode_spec _ hr).2 y hy).2 x (p.mem_iff.2 (List.mem_cons_of_mem _ hx))
      refine lt_of_le_of_ne hle ?_
      rintro rfl
      have hn : (BTree.node rl rv rr).keys.Nodup := hr.imp (fun {a b} k => ne_of_lt k)
      exact (List.nodup_cons.1 (p.nodup_iff.1 hn)).1 hx
  | nil =>
    cases l with
    | nil => simp [BTree.removeRoot, RemovalSafe, BTree.belowMax, BTree.leftSpine]
    | node ll lv lr =>
      obtain ⟨m, t', e, p, k⟩ := takeMax_spec (BTree.node ll lv lr) (by simp)
      simp only [BTree.removeRoot, e, RemovalSafe]
      rw [← k hl, sorted_node]
      refine ⟨fun q => q.1, fun q => ⟨q, List.Pairwise.nil, fun x hx => ?_, by simp⟩⟩
      obtain ⟨y, hy, rfl⟩ := takeMax_greatest e
      have hle := ((maxNode_spec _ hl).2 y hy).2 x (p.mem_iff.2 (List.mem_cons_of_mem _ hx))
      refine lt_of_le_of_ne hle ?_
      rintro rfl
      have hn : (BTree.node ll lv lr).keys.Nodup := hl.imp (fun {a b} k => ne_of_lt k)
      exact (List.nodup_cons.1 (p.nodup_iff.1 hn)).1 hx

/-- what `_remove` does when the value is found: it goes, and nothing else -/
theorem remove_found (v : N) (t : BTree (N × X)) (h : t.dataAt (t.search v) = some v) :
    (t.remove v).2 = true ∧ t.keys.Perm (v :: (t.remove v).1.keys) := by
  rw [BTree.remove, if_pos h]
  refine ⟨rfl, ?_⟩
  simp only
  cases e : t.walk (t.search v) with
  | nil => simp [BTree.dataAt, e] at h
  | node l w r =>
    obtain ⟨A, B, e1, e2⟩ := replace_keys t (t.search v) (by simp [e])
    have hv : w.1 = v := by simpa [BTree.dataAt, e] using h
    rw [e2, e1, e]
    subst hv
    refine (((removeRoot_perm l w r).append_left A).append_right B).trans ?_
    refine (List.perm_middle.append_right B).trans ?_
    simp

theorem remove_missing (v : N) (t : BTree (N × X)) (h : t.dataAt (t.search v) ≠ some v) :
    t.remove v = (t, false) := by
  rw [BTree.remove, if_neg h]

/-- the order is kept exactly for the safe shapes -/
theorem remove_sorted (v : N) (t : BTree (N × X)) (hs : t.keys.Pairwise (· < ·))
    (h : t.dataAt (t.search v) = some v) :
    (t.remove v).1.keys.Pairwise (· < ·) ↔ RemovalSafe (t.sub (t.search v)) := by
  rw [BTree.remove, if_pos h, ← walk_eq_sub]
  simp only
  cases e : t.walk (t.search v) with
  | nil => simp [BTree.dataAt, e] at h
  | node l w r =>
    obtain ⟨A, B, e1, e2⟩ := replace_keys t (t.search v) (by simp [e])
    rw [e1, e] at hs
    have hp := removeRoot_perm l w r
    have hs' := hs
    rw [List.append_assoc, List.pairwise_append, List.pairwise_append] at hs'
    obtain ⟨a1, ⟨a2, a3, a4⟩, a5⟩ := hs'
    rw [e2, ← removeRoot_sorted l w r a2, List.append_assoc, List.pairwise_append,
      List.pairwise_append]
    refine ⟨fun k => k.2.1.1, fun k => ⟨a1, ⟨k, a3, fun x hx y hy => ?_⟩, fun x hx y hy => ?_⟩⟩
    · exact a4 x (hp.mem_iff.2 (List.mem_cons_of_mem _ hx)) y hy
    · rcases List.mem_append.1 hy with hy | hy
      · exact a5 x hx y (List.mem_append_left _ (hp.mem_iff.2 (List.mem_cons_of_mem _ hy)))
      · exact a5 x hx y (List.mem_append_right _ hy)

/-! ## Paths -/

theorem holds_iff (t : BTree (N × X)) (v : N) : Holds t v ↔ v ∈ t.keys := by
  induction t with
  | nil => simp [Holds]
  | node l w r ihl ihr =>
    rw [BTree.keys_node, List.mem_append, List.mem_cons, ← ihl, ← ihr]
    constructor
    · rintro ⟨p, x, h⟩
      cases p with
      | nil => right; left; simp [BTree.at, BTree.sub, BTree.root?] at h; simp [h]
      | cons b p =>
        cases b with
        | false => left; exact ⟨p, x, by simpa using h⟩
        | true => right; right; exact ⟨p, x, by simpa using h⟩
    · rintro (⟨p, x, h⟩ | rfl | ⟨p, x, h⟩)
      · exact ⟨false :: p, x, by simpa using h⟩
      · exact ⟨[], w.2, by simp [BTree.at, BTree.sub, BTree.root?]⟩
      · exact ⟨true :: p, x, by simpa using h⟩

/-- in a search tree a number is at one place only, the one `_search` finds -/
theorem search_unique (v : N) (t : BTree (N × X)) (hs : t.keys.Pairwise (· < ·)) (p : List Bool)
    (l x r) (h : t.sub p = .node l (v, x) r) : t.search v = p := by
  induction t generalizing p with
  | nil => cases p <;> simp [BTree.sub] at h
  | node tl w tr ihl ihr =>
    obtain ⟨hl, hr, h1, h2⟩ := sorted_node.1 hs
    rw [search_node]
    cases p with
    | nil => simp only [BTree.sub, BTree.node.injEq] at h; simp [h.2.1]
    | cons b p =>
      cases b with
      | false =>
        simp only [BTree.sub, Bool.false_eq_true, if_false] at h
        have hv : v < w.1 := h1 v ((holds_iff tl v).1 ⟨p, x, by simp [BTree.at, h, BTree.root?]⟩)
        rw [if_neg (ne_of_lt hv), if_pos hv, if_neg, ihl hl p h]
        rintro rfl
        cases p <;> simp [BTree.sub] at h
      | true =>
        simp only [BTree.sub, if_true] at h
        have hv : w.1 < v := h2 v ((holds_iff tr v).1 ⟨p, x, by simp [BTree.at, h, BTree.root?]⟩)
        rw [if_neg (ne_of_gt hv), if_neg (not_lt.2 hv.le), if_neg, ihr hr p h]
        rintro rfl
        cases p <;> simp [BTree.sub] at h

end Extra
