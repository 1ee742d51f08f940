import Verif.Trees.TreapProofs

/-!
# A treap as a map, without the heap order

An exception inside `remove` can leave a tree whose priorities are not in heap order (C52).  What a further call
answers does not depend on that order.
-/

set_option linter.unusedSectionVars false
set_option linter.unusedSimpArgs false

namespace Extra
variable {N P : Type} [LinearOrder N] [LinearOrder P]

/-- a tree that stands for a map: a search tree with these pairs from left to right, whatever the order of the
priorities -/
structure TreapPairs (t : Bst N P) (m : List (N × P)) : Prop where
  search : SearchTree t.root
  pairs : t.root.inorder = m
  len : t.length = (m.length : Int)

private theorem contains_iff (t : Bst N P) (hs : SearchTree t.root) (v : N) :
    t.contains (.num v) = decide (v ∈ t.root.keys) := by
  obtain ⟨t, n⟩ := t
  have h := dataAt_search v t hs
  cases t with
  | nil => simp [Bst.contains]
  | node l w r => simp only [Bst.contains]; exact decide_eq_decide.2 h

private theorem insert_step (t : Bst N P) (m : List (N × P)) (h : TreapPairs t m) (v : N) (p : P) :
    ∀ q : TreapPrio P, q.value = .ok p → ∃ t',
      treapInsertNum t (.num v) q = .ok (.ok (.unit, decide (v ∈ m.map Prod.fst)), t') ∧
        TreapPairs t' (mapInsert (v, p) m) := by
  intro q hq
  obtain ⟨hs, rfl, hl⟩ := h
  obtain ⟨t, n⟩ := t
  cases t with
  | nil =>
    refine ⟨⟨.node .nil (v, p) .nil, n + 1⟩, ?_, ?_, ?_, ?_⟩
    · simp [treapInsertNum, validNum, hq]
    · simp [SearchTree]
    · simp [mapInsert]
    · simp only at hl ⊢; rw [hl]; simp [mapInsert]
  | node l w r =>
    obtain ⟨t', on, e, ok⟩ := treapInsert_ok (v, p) (.node l w r)
    have hf := insertNode_flag (v, p) (.node l w r) hs
    have hlen := insertNode_length (v, p) (.node l w r)
    have hi := insertNode_inorder (v, p) (.node l w r) hs
    have hk : (BTree.node l w r).inorder.map Prod.fst = (BTree.node l w r).keys := rfl
    refine ⟨⟨t', if ((BTree.node l w r).insertNode (v, p)).2 then n + 1 else n⟩, ?_, ?_, ?_, ?_⟩
    · simp only [treapInsertNum, validNum, hq, e, bind, Except.bind, pure, Except.pure]
      rw [hk]
      cases hb : ((BTree.node l w r).insertNode (v, p)).2 with
      | true => rw [decide_eq_false (hf.1 hb)]; rfl
      | false =>
        have : v ∈ (BTree.node l w r).keys := by
          by_contra hc; rw [hf.2 hc] at hb; cases hb
        rw [decide_eq_true this]; rfl
    · unfold SearchTree; rw [ok.inorder]; exact insertNode_sorted (v, p) _ hs
    · rw [ok.inorder, hi]
    · simp only at hl ⊢
      rw [hl, ← hi, ← List.length_map (f := Prod.fst), ← List.length_map (f := Prod.fst)]
      change _ = (((BTree.node l w r).insertNode (v, p)).1.keys.length : Int)
      rw [hlen, hk]
      cases ((BTree.node l w r).insertNode (v, p)).2 <;> simp

private theorem filter_length (m : List (N × P)) (v : N) (hs : (m.map Prod.fst).Pairwise (· < ·))
    (hv : v ∈ m.map Prod.fst) : (m.filter (fun w => w.1 ≠ v)).length + 1 = m.length := by
  induction m with
  | nil => simp at hv
  | cons w m ih =>
    simp only [List.map_cons, List.pairwise_cons] at hs
    by_cases e : w.1 = v
    · have : m.filter (fun w => w.1 ≠ v) = m := by
        rw [List.filter_eq_self]
        intro x hx
        have := hs.1 x.1 (List.mem_map_of_mem hx)
        simp only [ne_eq, decide_not, Bool.not_eq_true', decide_eq_false_iff_not]
        rw [← e]; exact this.ne'
      rw [List.filter_cons_of_neg (by simp [e]), this]; simp
    · rw [List.filter_cons_of_pos (by simp [e])]
      simp only [List.map_cons, List.mem_cons] at hv
      have := ih hs.2 (hv.resolve_left (Ne.symm e))
      simp only [List.length_cons]; omega

private theorem remove_step (m1 : P) (t : Bst N P) (m : List (N × P)) (h : TreapPairs t m) (v : N) :
    (∃ t', treapRemoveNum m1 t (.num v) = .ok (.ok (.unit, decide (v ∉ m.map Prod.fst)), t') ∧
        TreapPairs t' (m.filter (fun w => w.1 ≠ v))) ∨
      (treapRemoveNum m1 t (.num v) = .error .attributeError ∧ v ∈ m.map Prod.fst ∧
        ∃ x ∈ m, x.2 ≤ m1) := by
  obtain ⟨hs, rfl, hl⟩ := h
  obtain ⟨t, n⟩ := t
  simp only at hs hl ⊢
  have hk : t.inorder.map Prod.fst = t.keys := rfl
  have same : v ∉ t.keys → TreapPairs ⟨t, n⟩ (t.inorder.filter (fun w => w.1 ≠ v)) := by
    intro hv
    have : t.inorder.filter (fun w => w.1 ≠ v) = t.inorder := by
      rw [List.filter_eq_self]
      intro x hx
      simp only [ne_eq, decide_not, Bool.not_eq_true', decide_eq_false_iff_not]
      rintro rfl
      exact hv (List.mem_map_of_mem hx)
    rw [this]
    exact ⟨hs, rfl, hl⟩
  have general : (∀ w, t ≠ .node .nil w .nil) → t ≠ .nil → (∃ t',
      treapRemoveNum m1 ⟨t, n⟩ (.num v) = .ok (.ok (.unit, decide (v ∉ t.keys)), t') ∧
        TreapPairs t' (t.inorder.filter (fun w => w.1 ≠ v))) ∨
      (treapRemoveNum m1 ⟨t, n⟩ (.num v) = .error .attributeError ∧ v ∈ t.keys ∧
        ∃ x ∈ t.inorder, x.2 ≤ m1) := by
    intro h1 h2
    have hex : treapRemoveNum m1 ⟨t, n⟩ (.num v) = (do
        match ← t.treapRemove m1 v with
        | none => pure (.ok (.unit, true), ⟨t, n⟩)
        | some (s, _) => pure (.ok (.unit, false), ⟨s, n - 1⟩)) := by
      rcases t with _ | ⟨_ | _, w, _ | _⟩
      · exact absurd rfl h2
      · exact absurd rfl (h1 w)
      all_goals rfl
    rw [hex]
    rcases treapRemove_out m1 v t hs with ⟨hv, e⟩ | ⟨hv, t', c, e, i, sd, hp⟩ | ⟨hv, e, low⟩
    · exact .inl ⟨⟨t, n⟩, by simp [e, bind, Except.bind, hv, pure, Except.pure], same hv⟩
    · refine .inl ⟨⟨t', n - 1⟩, by simp [e, bind, Except.bind, hv, pure, Except.pure], ?_, i, ?_⟩
      · unfold SearchTree
        rw [i]
        exact List.Pairwise.sublist (List.filter_sublist.map _) hs
      · have := filter_length t.inorder v hs hv
        simp only
        omega
    · exact .inr ⟨by simp [e, bind, Except.bind], hv, low⟩
  rcases t with _ | ⟨_ | ⟨a, b, c⟩, w, _ | ⟨a', b', c'⟩⟩
  · exact .inl ⟨⟨.nil, n⟩, by simp [treapRemoveNum], same (by simp)⟩
  · left
    by_cases e : v = w.1
    · refine ⟨⟨.nil, n - 1⟩, by simp [treapRemoveNum, e], ?_, ?_, ?_⟩
      · simp [SearchTree]
      · simp [e]
      · simp at hl
        simp [e, hl]
    · exact ⟨⟨.node .nil w .nil, n⟩, by simp [treapRemoveNum, e], same (by simp [e])⟩
  · exact general (by simp) (by simp)
  · exact general (by simp) (by simp)
  · exact general (by simp) (by simp)

theorem treapPairs_step (m1 : P) (t : Bst N P) (m : List (N × P)) (h : TreapPairs t m) (op : TreapOp N P) :
    (∃ t', treapExec m1 t op = .ok ((mapExec m op).1, t') ∧ TreapPairs t' (mapExec m op).2) ∨
      (treapExec m1 t op = .error .attributeError ∧ ∃ v, op = .remove (.num v) ∧ v ∈ m.map Prod.fst ∧
        ∃ x ∈ m, x.2 ≤ m1) := by
  cases op with
  | insert v p =>
    left
    rcases v with v | _ | _
    · rcases p with p | p | _
      · exact insert_step t m h v p (.num p) rfl
      · exact insert_step t m h v p (.none p) rfl
      · exact ⟨t, rfl, h⟩
    · exact ⟨t, rfl, h⟩
    · exact ⟨t, rfl, h⟩
  | remove v =>
    rcases v with v | _ | _
    · rcases remove_step m1 t m h v with h | ⟨e, hv, low⟩
      · exact .inl h
      · exact .inr ⟨e, v, rfl, hv, low⟩
    · exact .inl ⟨t, rfl, h⟩
    · exact .inl ⟨t, rfl, h⟩
  | contains v =>
    left
    rcases v with v | _ | _
    · refine ⟨t, ?_, h⟩
      simp only [treapExec, mapExec, contains_iff t h.search, BTree.keys, h.pairs]
    · exact ⟨t, rfl, h⟩
    · exact ⟨t, rfl, h⟩
  | getMin =>
    refine .inl ⟨t, ?_, ?_⟩
    · simp only [treapExec, mapExec, Bst.getMin, minNode_head, h.pairs]
      cases m.head? <;> rfl
    · simp only [mapExec]
      cases m.head? <;> exact h
  | getMax =>
    refine .inl ⟨t, ?_, ?_⟩
    · simp only [treapExec, mapExec, Bst.getMax, maxNode_last, h.pairs]
      cases m.getLast? <;> rfl
    · simp only [mapExec]
      cases m.getLast? <;> exact h
  | len => exact .inl ⟨t, by simp [treapExec, mapExec, h.len], h⟩
  | inorder => exact .inl ⟨t, by simp [treapExec, mapExec, BTree.keys, h.pairs], h⟩
  | clear =>
    refine .inl ⟨Bst.empty, rfl, ?_, rfl, rfl⟩
    · simp [SearchTree, Bst.empty]

theorem treapPairs_empty : TreapPairs (Bst.empty : Bst N P) [] := by
  refine ⟨?_, rfl, rfl⟩
  · simp [SearchTree, Bst.empty]

end Extra
