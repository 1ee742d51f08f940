import Verif.Trees.BstProofs
import Verif.Trees.SetSpec
import Verif.Trees.BinTreeProofs
import Verif.Trees.AvlProofs
import Verif.Trees.RedBlackProofs
import Verif.Trees.TreapProofs
import Verif.Trees.PtrSpec

/-!
# `invert` of search trees: lemmas

`graftL m s` is `m` with `s` in place of the child missing at its left end.
-/

set_option linter.unusedSectionVars false

namespace Extra
variable {N X : Type} [LinearOrder N]

/-- `s` hung at the left end of `m` -/
def BTree.graftL : BTree (N × X) → BTree (N × X) → BTree (N × X)
  | .nil, s => s
  | .node l w r, s => .node (l.graftL s) w r

/-- `s` hung at the right end of `m` -/
def BTree.graftR : BTree (N × X) → BTree (N × X) → BTree (N × X)
  | .nil, s => s
  | .node l w r, s => .node l w (r.graftR s)

theorem graftL_nil (m : BTree (N × X)) : m.graftL .nil = m := by
  induction m with
  | nil => rfl
  | node l w r ihl _ => rw [BTree.graftL, ihl]

theorem graftR_nil (m : BTree (N × X)) : m.graftR .nil = m := by
  induction m with
  | nil => rfl
  | node l w r _ ihr => rw [BTree.graftR, ihr]

theorem graftL_keys (m s : BTree (N × X)) : (m.graftL s).keys = s.keys ++ m.keys := by
  induction m with
  | nil => simp [BTree.graftL]
  | node l w r ihl _ => simp [BTree.graftL, ihl]

theorem graftR_keys (m s : BTree (N × X)) : (m.graftR s).keys = m.keys ++ s.keys := by
  induction m with
  | nil => simp [BTree.graftR]
  | node l w r _ ihr => simp [BTree.graftR, ihr]

/-- a number smaller than all of `m` goes to the left end -/
theorem graftL_insert (m s : BTree (N × X)) (v : N × X) (h : ∀ x ∈ m.keys, v.1 < x) :
    (m.graftL s).insertNode v = (m.graftL (s.insertNode v).1, (s.insertNode v).2) := by
  induction m with
  | nil => rfl
  | node l w r ihl _ =>
    have hw : v.1 < w.1 := h _ (by simp)
    rw [BTree.graftL, insertNode_node, if_neg hw.ne, if_pos hw, ihl (fun x hx => h x (by simp [hx]))]
    rfl

theorem graftR_insert (m s : BTree (N × X)) (v : N × X) (h : ∀ x ∈ m.keys, x < v.1) :
    (m.graftR s).insertNode v = (m.graftR (s.insertNode v).1, (s.insertNode v).2) := by
  induction m with
  | nil => rfl
  | node l w r _ ihr =>
    have hw : w.1 < v.1 := h _ (by simp)
    rw [BTree.graftR, insertNode_node, if_neg hw.ne', if_neg hw.asymm, ihr (fun x hx => h x (by simp [hx]))]
    rfl

/-- whether `_search` ends at the number, one step at a time -/
def BTree.found (v : N) (t : BTree (N × X)) : Prop := t.dataAt (t.search v) = some v

theorem found_nil (v : N) : ¬ (BTree.nil : BTree (N × X)).found v := by
  simp [BTree.found, BTree.search, BTree.dataAt, BTree.walk]

theorem found_node (v : N) (l : BTree (N × X)) (w r) :
    (BTree.node l w r).found v ↔ v = w.1 ∨ (v < w.1 ∧ l.found v) ∨ (w.1 < v ∧ r.found v) := by
  rw [BTree.found, search_node]
  split_ifs with e e' e'' e''
  · simp [BTree.dataAt, BTree.walk, e]
  · subst e''
    simp [BTree.dataAt, BTree.walk, Ne.symm e, e, found_nil, e'.asymm]
  · have : (BTree.node l w r).dataAt (false :: l.search v) = l.dataAt (l.search v) := by
      simp [BTree.dataAt, BTree.walk]
    rw [this]
    simp [e, e', e'.asymm, BTree.found]
  · subst e''
    simp [BTree.dataAt, BTree.walk, Ne.symm e, e, found_nil, e']
  · have : (BTree.node l w r).dataAt (true :: r.search v) = r.dataAt (r.search v) := by
      simp [BTree.dataAt, BTree.walk]
    rw [this]
    simp [e, e', lt_of_le_of_ne (not_lt.1 e') (Ne.symm e), BTree.found]

theorem graftL_found (m s : BTree (N × X)) (v : N) (h : ∀ x ∈ m.keys, v < x) :
    (m.graftL s).found v ↔ s.found v := by
  induction m with
  | nil => rfl
  | node l w r ihl _ =>
    have hw : v < w.1 := h _ (by simp)
    rw [BTree.graftL, found_node, ihl (fun x hx => h x (by simp [hx]))]
    simp [hw, hw.ne, hw.asymm]

theorem graftR_found (m s : BTree (N × X)) (v : N) (h : ∀ x ∈ m.keys, x < v) :
    (m.graftR s).found v ↔ s.found v := by
  induction m with
  | nil => rfl
  | node l w r _ ihr =>
    have hw : w.1 < v := h _ (by simp)
    rw [BTree.graftR, found_node, ihr (fun x hx => h x (by simp [hx]))]
    simp [hw, hw.ne', hw.asymm]

theorem invert_keys (t : BTree (N × X)) : t.invert.keys = t.keys.reverse := by
  simp [BTree.keys, BTree.invert_inorder]

theorem contains_found (t : Bst N X) (v : N) : t.contains (.num v) = true ↔ t.root.found v := by
  obtain ⟨t, n⟩ := t
  cases t with
  | nil => simp [Bst.contains, found_nil]
  | node l w r => simp [Bst.contains, BTree.found]

theorem minNode_first (t : BTree (N × X)) : t.minNode = t.inorder.head? := by
  induction t with
  | nil => rfl
  | node l w r ihl _ =>
    cases l with
    | nil => simp [BTree.minNode, BTree.inorder]
    | node a b c => rw [BTree.minNode, ihl]; simp [BTree.inorder]

theorem maxNode_final (t : BTree (N × X)) : t.maxNode = t.inorder.getLast? := by
  induction t with
  | nil => rfl
  | node l w r _ ihr =>
    cases r with
    | nil => simp [BTree.maxNode, BTree.inorder]
    | node a b c =>
      rw [BTree.maxNode, ihr]
      simp [BTree.inorder, List.getLast?_append, List.getLast?_cons]

theorem invert_minNode (t : BTree (N × X)) : t.invert.minNode = t.maxNode := by
  rw [minNode_first, maxNode_final, BTree.invert_inorder, List.head?_reverse]

theorem invert_maxNode (t : BTree (N × X)) : t.invert.maxNode = t.minNode := by
  rw [minNode_first, maxNode_final, BTree.invert_inorder, List.getLast?_reverse]

/-! ## The invariants of the subclasses -/

theorem invert_isRed (t : BTree (N × Color)) : t.invert.isRed = t.isRed := by
  cases t with
  | nil => rfl
  | node l w r => obtain ⟨x, c⟩ := w; cases c <;> rfl

theorem invert_rbI (t : BTree (N × Color)) (n : Nat) : rbI t n → rbI t.invert n := by
  induction t generalizing n with
  | nil => exact id
  | node l w r ihl ihr =>
    rintro ⟨m, e, h1, h2, h3⟩
    exact ⟨m, e, ihr m h2, ihl m h1, fun c => by rw [invert_isRed, invert_isRed]; exact (h3 c).symm⟩

theorem invert_redBlack (t : BTree (N × Color)) (h : RedBlackOk t) : RedBlackOk t.invert := by
  obtain ⟨⟨n, hn⟩, hr⟩ := (redBlackOk_iff _).1 h
  exact (redBlackOk_iff _).2 ⟨⟨n, invert_rbI t n hn⟩, by rw [invert_isRed]; exact hr⟩

theorem invert_sub (t : BTree (N × X)) (p : List Bool) : t.invert.sub p = (t.sub (p.map not)).invert := by
  induction p generalizing t with
  | nil => cases t <;> rfl
  | cons b p ih =>
    cases t with
    | nil => cases b <;> simp [BTree.invert, BTree.sub]
    | node l w r => cases b <;> simp [BTree.invert, BTree.sub, ih]

theorem invert_node {t : BTree (N × X)} {l w r} (h : t.invert = .node l w r) :
    t = .node r.invert w l.invert ∧ l.nlev = l.invert.nlev ∧ r.nlev = r.invert.nlev := by
  refine ⟨?_, (BTree.invert_nlev l).symm, (BTree.invert_nlev r).symm⟩
  rw [← BTree.invert_invert t, h]
  rfl

theorem invert_balanced (t : BTree (N × X)) (h : Balanced t) : Balanced t.invert := by
  intro p l w r e
  rw [invert_sub] at e
  obtain ⟨e', h1, h2⟩ := invert_node e
  have := h _ _ _ _ e'
  omega

theorem invert_heights (t : BTree (N × Nat)) (h : HeightsTrue t) : HeightsTrue t.invert := by
  intro p l w r e
  rw [invert_sub] at e
  obtain ⟨e', h1, h2⟩ := invert_node e
  have := h _ _ _ _ e'
  simp only [BTree.nlev] at this ⊢
  omega

theorem invert_ordered {P : Type} [LinearOrder P] (t : BTree (N × P)) (h : TreapOrdered t) :
    TreapOrdered t.invert := by
  intro p b x y hx hy
  rw [BTree.invert_at] at hx hy
  rw [List.map_append] at hy
  exact h _ _ _ _ hx hy

/-! ## Node objects -/

/-- `invert` of the node objects of any of the classes -/
theorem pInvert_holds {s : PTree N X} {t : Bst N X} (h : PtrHolds s t) :
    ∃ s', (do pSetRoot (← pInvert (← pFuel) (← pRoot)) : PM N X Unit) s = (.ok (), s') ∧
      PtrHolds s' ⟨t.root.invert, t.length⟩ := by
  obtain ⟨T, Z, h1, h2⟩ := h
  have hr : pRoot s = (.ok T.ptr, s) := by rw [pm_root, Z.root rfl]
  obtain ⟨nd', e, R, F⟩ := pm_invert T Z.rep (List.nodup_append.mp Z.nodup).1 (s.next + 1)
    (Nat.lt_succ_of_le Z.length_le)
  have Z' := Z.change (nd' := nd') R (invert_addrs T).subperm F
  refine ⟨_, (pm_bind_ok (pm_fuel _)).trans <| (pm_bind_ok hr).trans <| (pm_bind_ok e).trans <|
    (pm_setRoot _ _), T.invert, ⟨?_, Z'.rep, Z'.nodup, Z'.bound⟩, ?_, h2⟩
  · rw [invert_ptr]; rfl
  · simp only [← h1, BTree.forget, mapExt_invert]

end Extra
