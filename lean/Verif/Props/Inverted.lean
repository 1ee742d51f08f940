import Verif.Trees.InvertProofs
import Verif.Trees.PtrAvl
import Verif.Trees.PtrSplay
import Verif.Props.RedBlack
import Mathlib.Order.Fin.Basic
import Batteries.Lean.Except

/-!
# `invert` on the search trees: C101

`BST`, and with it `AVL`, `RedBlackTree`, `SplayTree` and `Treap`, inherit `invert` from `BinaryTree`.  The
specification (`sinceCall`) knows the numbers that were in the tree, the number at its root, and the numbers put in
since, those below the root number and those above it.  It mentions no trees.
-/

set_option linter.unusedSectionVars false

namespace Extra
variable {N X : Type} [LinearOrder N]

/-- `invert` on an object of any of the classes — binary_tree.py:1359 -/
def Bst.inverted (t : Bst N X) : Bst N X := ⟨t.root.invert, t.length⟩

/-- what a call on an inverted `BST` answers: `old` are the numbers it held, in increasing order, `w` is the number
at its root, `c` are the numbers inserted since, below `w` and above it.  Nothing is said of `clear`, of another
`invert`, and of the removal of a number that is found. -/
def sinceCall (w : N) (old : List N) (c : List N × List N) : BstOp N → Option (BstRes N × (List N × List N))
  | .insert .none => some (.error .valueError, c)
  | .insert .other => some (.error .typeError, c)
  | .insert (.num v) =>
    if v = w then some (.ok (.unit, true), c)
    else if v < w then some (.ok (.unit, decide (v ∈ c.1)), (setAfter c.1 (.insert v), c.2))
    else some (.ok (.unit, decide (v ∈ c.2)), (c.1, setAfter c.2 (.insert v)))
  | .remove (.num v) => if v = w ∨ v ∈ c.1 ∨ v ∈ c.2 then none else some (.ok (.unit, true), c)
  | .remove _ => some (.ok (.unit, true), c)
  | .contains (.num v) => some (.ok (.bool (decide (v = w ∨ v ∈ c.1 ∨ v ∈ c.2)), false), c)
  | .contains _ => some (.ok (.bool false, false), c)
  | .getMin => (c.1 ++ old.reverse).head?.map fun x => (.ok (.num x, false), c)
  | .getMax => (old.reverse ++ c.2).getLast?.map fun x => (.ok (.num x, false), c)
  | .len => some (.ok (.int (c.1.length + old.length + c.2.length : Nat), false), c)
  | .isEmpty => some (.ok (.bool false, false), c)
  | .inorder => some (.ok (.list (c.1 ++ old.reverse ++ c.2), false), c)
  | .clear => none
  | .invert => none

/-- a history of such calls -/
def sinceCalls (w : N) (old : List N) : List (BstOp N) → List N × List N → Option (List (BstRes N) × (List N × List N))
  | [], c => some ([], c)
  | op :: ops, c =>
    match sinceCall w old c op with
    | none => none
    | some (r, c') => (sinceCalls w old ops c').map fun x => (r :: x.1, x.2)

/-! ## One call -/

/-- C101: `invert` mirrors the tree and inverting again restores it, for every class. -/
theorem C101_twice (t : Bst N X) : t.inverted.inverted = t ∧ t.inverted.root.keys = t.root.keys.reverse ∧
    t.inverted.length = t.length :=
  ⟨by simp [Bst.inverted, BTree.invert_invert], invert_keys t.root, rfl⟩

/-- C101: in an inverted search tree, of whatever class without a search of its own, `in` finds the number at the
root and no other. -/
theorem C101_search_exact (t : Bst N X) (hs : SearchTree t.root) (v : N) :
    t.inverted.contains (.num v) = true ↔ ∃ x, t.root.at [] = some (v, x) := by
  rw [contains_found]
  obtain ⟨t, n⟩ := t
  cases t with
  | nil => simp [Bst.inverted, BTree.invert, found_nil, BTree.at, BTree.sub, BTree.root?]
  | node l w r =>
    obtain ⟨-, -, h1, h2⟩ := sorted_node.1 hs
    simp only [Bst.inverted, BTree.invert]
    have e : (∃ x, (BTree.node l w r).at [] = some (v, x)) ↔ v = w.1 := by
      simp only [BTree.at, BTree.sub, BTree.root?, Option.some.injEq]
      exact ⟨fun ⟨x, h⟩ => by rw [h], fun h => ⟨w.2, by rw [h]⟩⟩
    rw [e, found_node]
    refine ⟨fun h => ?_, Or.inl⟩
    rcases h with h | ⟨h, h'⟩ | ⟨h, h'⟩
    · exact h
    · rw [← graftL_nil r.invert, graftL_found _ _ _ (fun x hx => ?_)] at h'
      · exact absurd h' (found_nil v)
      · rw [invert_keys, List.mem_reverse] at hx; exact h.trans (h2 x hx)
    · rw [← graftR_nil l.invert, graftR_found _ _ _ (fun x hx => ?_)] at h'
      · exact absurd h' (found_nil v)
      · rw [invert_keys, List.mem_reverse] at hx; exact (h1 x hx).trans h

/-- C101: `get_min` and `get_max` change places, for every tree of every class. -/
theorem C101_min_max (t : Bst N X) : t.inverted.getMin = t.getMax ∧ t.inverted.getMax = t.getMin := by
  simp only [Bst.getMin, Bst.getMax, Bst.inverted, invert_minNode, invert_maxNode, and_self]

/-- C101: the invariants of the subclasses are kept: the colours, the heights and the balance, and the order of
the priorities; `get_black_height` answers as before. -/
theorem C101_invariants {P : Type} [LinearOrder P] :
    (∀ t : Bst N Color, RedBlackOk t.root → RedBlackOk t.inverted.root ∧
      (rbExec t.inverted .blackHeight).map (·.1) = (rbExec t .blackHeight).map (·.1)) ∧
    (∀ t : Bst N Nat, HeightsTrue t.root → HeightsTrue t.inverted.root) ∧
    (∀ t : Bst N Nat, Balanced t.root → Balanced t.inverted.root) ∧
    (∀ t : Bst N P, TreapOrdered t.root → TreapOrdered t.inverted.root) := by
  refine ⟨fun t h => ⟨invert_redBlack _ h, ?_⟩, fun t h => invert_heights _ h, fun t h => invert_balanced _ h,
    fun t h => invert_ordered _ h⟩
  have left : ∀ (t : BTree (N × Color)) n, rbI t n → t.leftBlacks = n := by
    intro t
    induction t with
    | nil => exact fun n h => h.symm
    | node l w r ihl _ =>
      rintro n ⟨m, e, h1, -, -⟩
      rw [BTree.leftBlacks, ihl m h1, e]
      obtain ⟨x, c⟩ := w
      cases c <;> simp [Color.bl]
      omega
  obtain ⟨⟨n, hn⟩, -⟩ := (redBlackOk_iff _).1 h
  obtain ⟨t, k⟩ := t
  cases t with
  | nil => rfl
  | node l w r =>
    obtain ⟨m, -, h1, h2, -⟩ := hn
    simp only [rbExec, Bst.inverted, BTree.invert, rbBlackHeight, left l m h1, left r.invert m (invert_rbI r m h2)]
    rfl

/-- C101: node objects of any class: `invert` raises nothing, leaves every link and every parent link right, and the
objects then spell out the mirrored tree. -/
theorem C101_objects {s : PTree N X} {t : Bst N X} (h : PtrHolds s t) :
    ∃ s', (do pSetRoot (← pInvert (← pFuel) (← pRoot)) : PM N X Unit) s = (.ok (), s') ∧ WellLinked s' ∧
      Shows s'.node s'.root t.inverted.root ∧ s'.length = t.length := by
  obtain ⟨s', e, h'⟩ := pInvert_holds h
  exact ⟨s', e, h'.wellLinked, h'.shows, h'.length⟩

/-- the objects of a `BST` after any calls stand for a tree, as `C101_objects` asks -/
example (ops : List (BstOp N)) : PtrHolds (pBstExecs ops PTree.empty).2 (Bst.execs ops Bst.empty).2 :=
  (bst_execs ops holds_empty).2

/-! ## Histories -/

/-- the state of an inverted `BST` after inserts -/
structure Since (w : N) (old : List N) (c : List N × List N) (t : Bst N Unit) : Prop where
  shape : ∃ ml mr sl sr, t.root = .node (BTree.graftL ml sl) (w, ()) (BTree.graftR mr sr) ∧
    (∀ x ∈ ml.keys, w < x) ∧ (∀ x ∈ mr.keys, x < w) ∧ sl.keys = c.1 ∧ sr.keys = c.2 ∧
    old.reverse = ml.keys ++ w :: mr.keys
  lo : c.1.Pairwise (· < ·)
  hi : c.2.Pairwise (· < ·)
  loBelow : ∀ x ∈ c.1, x < w
  hiAbove : ∀ x ∈ c.2, w < x
  len : t.length = (c.1.length + old.length + c.2.length : Nat)

private theorem insert_keys (v : N) (t : BTree (N × Unit)) (h : t.keys.Pairwise (· < ·)) :
    (t.insertNode (v, ())).1.keys = setAfter t.keys (.insert v) ∧
    (t.insertNode (v, ())).2 = !decide (v ∈ t.keys) ∧
    (setAfter t.keys (.insert v)).Pairwise (· < ·) := by
  have hs : (setAfter t.keys (.insert v)).Pairwise (· < ·) := by
    simp only [setAfter]
    rw [List.pairwise_append]
    refine ⟨h.filter _, List.pairwise_cons.2 ⟨fun x hx => by simpa using (List.mem_filter.1 hx).2, h.filter _⟩, ?_⟩
    intro a ha b hb
    have h1 : a < v := by simpa using (List.mem_filter.1 ha).2
    rcases List.mem_cons.1 hb with rfl | hb
    · exact h1
    · exact h1.trans (by simpa using (List.mem_filter.1 hb).2)
  have hi := insertNode_sorted (v, ()) t h
  refine ⟨?_, ?_, hs⟩
  · refine List.Perm.eq_of_pairwise (le := (· < ·)) ?_ hi hs ?_
    · intro x y _ _ h1 h2; exact absurd h1 (not_lt_of_gt h2)
    · refine (List.perm_ext_iff_of_nodup (hi.imp (fun k => ne_of_lt k)) (hs.imp (fun k => ne_of_lt k))).2 fun x => ?_
      rw [insertNode_mem]
      simp only [setAfter, List.mem_append, List.mem_filter, List.mem_cons, decide_eq_true_eq]
      rcases lt_trichotomy x v with h | h | h
      · simp [h, h.ne, not_lt_of_gt h]
      · simp [h]
      · simp [h, h.ne', not_lt_of_gt h]
  · have := insertNode_flag (v, ()) t h
    rw [Bool.eq_iff_iff, this]; simp

private theorem mem_after (m : List N) (v x : N) (h : x ∈ setAfter m (.insert v)) : x = v ∨ x ∈ m := by
  simp only [setAfter, List.mem_append, List.mem_filter, List.mem_cons] at h
  tauto

private theorem found_since {w : N} {old : List N} {c : List N × List N} {t : Bst N Unit} (h : Since w old c t) (v : N) :
    t.root.found v ↔ v = w ∨ v ∈ c.1 ∨ v ∈ c.2 := by
  obtain ⟨ml, mr, sl, sr, e, h1, h2, e1, e2, -⟩ := h.shape
  have k1 : sl.found v ↔ v ∈ c.1 := by rw [← e1]; exact dataAt_search v sl (by rw [e1]; exact h.lo)
  have k2 : sr.found v ↔ v ∈ c.2 := by rw [← e2]; exact dataAt_search v sr (by rw [e2]; exact h.hi)
  rw [e, found_node]
  rcases lt_trichotomy v w with hv | hv | hv
  · rw [graftL_found _ _ _ (fun x hx => hv.trans (h1 x hx)), k1]
    have : v ∉ c.2 := fun k => absurd (h.hiAbove _ k) hv.asymm
    simp [hv, hv.ne, hv.asymm, this]
  · simp [hv]
  · rw [graftR_found _ _ _ (fun x hx => (h2 x hx).trans hv), k2]
    have : v ∉ c.1 := fun k => absurd (h.loBelow _ k) hv.asymm
    simp [hv, hv.ne', hv.asymm, this]

private theorem keys_since {w : N} {old : List N} {c : List N × List N} {t : Bst N Unit} (h : Since w old c t) :
    t.root.keys = c.1 ++ old.reverse ++ c.2 := by
  obtain ⟨ml, mr, sl, sr, e, -, -, e1, e2, e3⟩ := h.shape
  rw [e, BTree.keys_node, graftL_keys, graftR_keys, e1, e2, e3]
  simp

private theorem old_ne {w : N} {old : List N} {c : List N × List N} {t : Bst N Unit} (h : Since w old c t) : old ≠ [] := by
  obtain ⟨ml, mr, sl, sr, -, -, -, -, -, e3⟩ := h.shape
  rintro rfl
  simp at e3

private theorem removal_missing {t : Bst N Unit} {v : N} (h : ¬ t.root.found v) : t.remove (.num v) = (t, true) := by
  obtain ⟨t, n⟩ := t
  rcases t with _ | ⟨_ | ⟨a, u, b⟩, w, _ | ⟨c, d, e⟩⟩
  · rfl
  · have : v ≠ w.1 := fun k => h ((found_node _ _ _ _).2 (Or.inl k))
    simp [Bst.remove, this]
  all_goals
    simp only [BTree.found] at h
    simp [Bst.remove, BTree.remove, h]

private theorem since_call {w : N} {old : List N} {c c' : List N × List N} {t : Bst N Unit} {op : BstOp N} {r : BstRes N}
    (h : Since w old c t) (e : sinceCall w old c op = some (r, c')) :
    (t.exec op).1 = r ∧ Since w old c' (t.exec op).2 := by
  have hf := found_since h
  have hk := keys_since h
  cases op with
  | insert v =>
    cases v with
    | none => simp only [sinceCall, Option.some.injEq, Prod.mk.injEq] at e; obtain ⟨rfl, rfl⟩ := e; exact ⟨rfl, h⟩
    | other => simp only [sinceCall, Option.some.injEq, Prod.mk.injEq] at e; obtain ⟨rfl, rfl⟩ := e; exact ⟨rfl, h⟩
    | num v =>
      obtain ⟨ml, mr, sl, sr, et, h1, h2, e1, e2, e3⟩ := h.shape
      obtain ⟨t, n⟩ := t
      simp only at et
      subst et
      have hl : n = (c.1.length + old.length + c.2.length : Nat) := h.len
      rw [sinceCall] at e
      simp only [Bst.exec, validNum, Bst.insertNum]
      rw [insertNode_node]
      split_ifs at e with c1 c2
      · simp only [Option.some.injEq, Prod.mk.injEq] at e
        obtain ⟨rfl, rfl⟩ := e
        simp only [if_pos c1]
        exact ⟨rfl, h⟩
      · simp only [Option.some.injEq, Prod.mk.injEq] at e
        obtain ⟨rfl, rfl⟩ := e
        obtain ⟨k1, k2, k3⟩ := insert_keys v sl (by rw [e1]; exact h.lo)
        have kl := insertNode_length (v, ()) sl
        rw [k1, k2, e1] at kl
        rw [e1] at k1 k3
        simp only [if_neg c1, if_pos c2]
        rw [graftL_insert ml sl (v, ()) (fun x hx => c2.trans (h1 x hx))]
        rw [k2]
        refine ⟨by simp [e1], ⟨ml, mr, _, sr, rfl, h1, h2, k1, e2, e3⟩, k3, h.hi, fun x hx => ?_, h.hiAbove, ?_⟩
        · rcases mem_after _ _ _ hx with rfl | hx
          · exact c2
          · exact h.loBelow x hx
        · simp only [e1]
          by_cases hv : v ∈ c.1 <;> simp [hv] at kl ⊢ <;> omega
      · simp only [Option.some.injEq, Prod.mk.injEq] at e
        obtain ⟨rfl, rfl⟩ := e
        have c3 : w < v := lt_of_le_of_ne (not_lt.1 c2) (Ne.symm c1)
        obtain ⟨k1, k2, k3⟩ := insert_keys v sr (by rw [e2]; exact h.hi)
        have kl := insertNode_length (v, ()) sr
        rw [k1, k2, e2] at kl
        rw [e2] at k1 k3
        simp only [if_neg c1, if_neg c2]
        rw [graftR_insert mr sr (v, ()) (fun x hx => (h2 x hx).trans c3)]
        rw [k2]
        refine ⟨by simp [e2], ⟨ml, mr, sl, _, rfl, h1, h2, e1, k1, e3⟩, h.lo, k3, h.loBelow, fun x hx => ?_, ?_⟩
        · rcases mem_after _ _ _ hx with rfl | hx
          · exact c3
          · exact h.hiAbove x hx
        · simp only [e2]
          by_cases hv : v ∈ c.2 <;> simp [hv] at kl ⊢ <;> omega
  | remove v =>
    cases v with
    | none => simp only [sinceCall, Option.some.injEq, Prod.mk.injEq] at e; obtain ⟨rfl, rfl⟩ := e; exact ⟨rfl, h⟩
    | other => simp only [sinceCall, Option.some.injEq, Prod.mk.injEq] at e; obtain ⟨rfl, rfl⟩ := e; exact ⟨rfl, h⟩
    | num v =>
      rw [sinceCall] at e
      split_ifs at e with k
      simp only [Option.some.injEq, Prod.mk.injEq] at e
      obtain ⟨rfl, rfl⟩ := e
      have := removal_missing (t := t) (v := v) (by rw [hf]; exact k)
      simp only [Bst.exec, this]
      exact ⟨trivial, h⟩
  | contains v =>
    cases v with
    | none => simp only [sinceCall, Option.some.injEq, Prod.mk.injEq] at e; obtain ⟨rfl, rfl⟩ := e; exact ⟨rfl, h⟩
    | other => simp only [sinceCall, Option.some.injEq, Prod.mk.injEq] at e; obtain ⟨rfl, rfl⟩ := e; exact ⟨rfl, h⟩
    | num v =>
      simp only [sinceCall, Option.some.injEq, Prod.mk.injEq] at e
      obtain ⟨rfl, rfl⟩ := e
      refine ⟨?_, h⟩
      have : t.contains (.num v) = decide (v = w ∨ v ∈ c.1 ∨ v ∈ c.2) := by
        rw [Bool.eq_iff_iff, contains_found, hf]; simp
      simp only [Bst.exec, this]
  | getMin =>
    have hm : t.root.minNode.map Prod.fst = (c.1 ++ old.reverse).head? := by
      rw [minNode_first, ← List.head?_map]
      change t.root.keys.head? = _
      rw [hk, List.head?_append_of_ne_nil]
      simp [old_ne h]
    rw [sinceCall, ← hm] at e
    simp only [Bst.exec, Bst.getMin]
    cases hn : t.root.minNode with
    | none => rw [hn] at e; simp at e
    | some m =>
      rw [hn] at e
      simp only [Option.map_some, Option.some.injEq, Prod.mk.injEq] at e
      obtain ⟨rfl, rfl⟩ := e
      exact ⟨rfl, h⟩
  | getMax =>
    have hm : t.root.maxNode.map Prod.fst = (old.reverse ++ c.2).getLast? := by
      rw [maxNode_final, ← List.getLast?_map]
      change t.root.keys.getLast? = _
      rw [hk, List.append_assoc, List.getLast?_append_of_ne_nil]
      simp [old_ne h]
    rw [sinceCall, ← hm] at e
    simp only [Bst.exec, Bst.getMax]
    cases hn : t.root.maxNode with
    | none => rw [hn] at e; simp at e
    | some m =>
      rw [hn] at e
      simp only [Option.map_some, Option.some.injEq, Prod.mk.injEq] at e
      obtain ⟨rfl, rfl⟩ := e
      exact ⟨rfl, h⟩
  | len =>
    simp only [sinceCall, Option.some.injEq, Prod.mk.injEq] at e
    obtain ⟨rfl, rfl⟩ := e
    exact ⟨by simp only [Bst.exec, h.len], h⟩
  | isEmpty =>
    simp only [sinceCall, Option.some.injEq, Prod.mk.injEq] at e
    obtain ⟨rfl, rfl⟩ := e
    refine ⟨?_, h⟩
    obtain ⟨ml, mr, sl, sr, et, -⟩ := h.shape
    simp only [Bst.exec, et]
  | inorder =>
    simp only [sinceCall, Option.some.injEq, Prod.mk.injEq] at e
    obtain ⟨rfl, rfl⟩ := e
    exact ⟨by simp only [Bst.exec, hk], h⟩
  | clear => simp [sinceCall] at e
  | invert => simp [sinceCall] at e

/-- C101: after `invert` a `BST` has forgotten every number but the one at its root: it takes numbers it holds a
second time, and answers as the set of the root number and the numbers inserted since, with the old numbers still
counted and listed between them, in decreasing order. -/
theorem C101_history (t : Bst N Unit) (hs : SearchTree t.root) (hl : t.length = t.root.keys.length) (w : N)
    (hw : t.root.at [] = some (w, ())) (ops : List (BstOp N)) (rs : List (BstRes N)) (c : List N × List N)
    (h : sinceCalls w t.root.keys ops ([], []) = some (rs, c)) :
    (Bst.execs (.invert :: ops) t).1 = .ok (.unit, false) :: rs ∧
    (Bst.execs (.invert :: ops) t).2.root.keys = c.1 ++ t.root.keys.reverse ++ c.2 ∧
    (Bst.execs (.invert :: ops) t).2.length = (c.1.length + t.root.keys.length + c.2.length : Nat) := by
  have H : ∀ (ops : List (BstOp N)) (rs : List (BstRes N)) (a c : List N × List N) (s : Bst N Unit),
      Since w t.root.keys a s → sinceCalls w t.root.keys ops a = some (rs, c) →
      (Bst.execs ops s).1 = rs ∧ Since w t.root.keys c (Bst.execs ops s).2 := by
    intro ops
    induction ops with
    | nil =>
      intro rs a c s hS e
      simp only [sinceCalls, Option.some.injEq, Prod.mk.injEq] at e
      obtain ⟨rfl, rfl⟩ := e
      exact ⟨rfl, hS⟩
    | cons op ops ih =>
      intro rs a c s hS e
      rw [sinceCalls] at e
      cases ec : sinceCall w t.root.keys a op with
      | none => rw [ec] at e; simp at e
      | some x =>
        obtain ⟨r, a'⟩ := x
        rw [ec] at e
        simp only [Option.map_eq_some_iff, Prod.mk.injEq] at e
        obtain ⟨⟨rs', c'⟩, e', rfl, rfl⟩ := e
        obtain ⟨k1, k2⟩ := since_call hS ec
        obtain ⟨k3, k4⟩ := ih _ _ _ _ k2 e'
        exact ⟨by rw [Bst.execs, k1, k3], k4⟩
  have start : Since w t.root.keys ([], []) (t.exec .invert).2 := by
    obtain ⟨t, n⟩ := t
    cases t with
    | nil => simp [BTree.at, BTree.sub, BTree.root?] at hw
    | node l u r =>
      obtain ⟨-, -, h1, h2⟩ := sorted_node.1 hs
      have hu : u = (w, ()) := by simpa [BTree.at, BTree.sub, BTree.root?] using hw
      subst hu
      refine ⟨⟨r.invert, l.invert, .nil, .nil, ?_, fun x hx => ?_, fun x hx => ?_, rfl, rfl, ?_⟩, .nil, .nil, by simp,
        by simp, ?_⟩
      · simp [Bst.exec, BTree.invert, graftL_nil, graftR_nil]
      · rw [invert_keys, List.mem_reverse] at hx; exact h2 x hx
      · rw [invert_keys, List.mem_reverse] at hx; exact h1 x hx
      · simp [invert_keys]
      · simp only [Bst.exec]; simpa using hl
  obtain ⟨k1, k2⟩ := H ops rs _ c _ start h
  exact ⟨by rw [Bst.execs, k1]; rfl, keys_since k2, k2.len⟩

/-- C101: of an inverted `BST`, `remove` takes out the number at the root and finds no other. -/
theorem C101_remove_exact (t : Bst N Unit) (hs : SearchTree t.root) (v : N) :
    ((∀ x, t.root.at [] ≠ some (v, x)) → t.inverted.remove (.num v) = (t.inverted, true)) ∧
    (∀ x, t.root.at [] = some (v, x) → (t.inverted.remove (.num v)).2 = false ∧
      (t.inverted.remove (.num v)).1.length = t.length - 1 ∧
      (v :: (t.inverted.remove (.num v)).1.root.keys).Perm t.root.keys) := by
  refine ⟨fun h => removal_missing fun k => ?_, fun x h => ?_⟩
  · obtain ⟨x, e⟩ := (C101_search_exact t hs v).1 ((contains_found _ _).2 k)
    exact h x e
  · obtain ⟨t, n⟩ := t
    cases t with
    | nil => simp [BTree.at, BTree.sub, BTree.root?] at h
    | node l w r =>
      have hw : w = (v, x) := by simpa [BTree.at, BTree.sub, BTree.root?] using h
      subst hw
      have hp := removeRoot_perm r.invert (v, x) l.invert
      have hk : (BTree.node r.invert (v, x) l.invert).keys = (BTree.node l (v, x) r).keys.reverse := by
        simp [invert_keys]
      rw [hk] at hp
      have hd := hp.symm.trans (List.reverse_perm _)
      have key : ∀ a b : BTree (N × Unit), ¬ (a = .nil ∧ b = .nil) →
          (⟨.node a (v, x) b, n⟩ : Bst N Unit).remove (.num v) = (⟨(BTree.node a (v, x) b).removeRoot, n - 1⟩, false) := by
        intro a b hab
        have e : (BTree.node a (v, x) b).remove v = ((BTree.node a (v, x) b).removeRoot, true) := by
          have : (BTree.node a (v, x) b).search v = [] := by rw [search_node, if_pos rfl]
          simp [BTree.remove, this, BTree.dataAt, BTree.walk, BTree.replace]
        rcases a with _ | ⟨_, _, _⟩ <;> rcases b with _ | ⟨_, _, _⟩
        · exact absurd ⟨rfl, rfl⟩ hab
        all_goals simp only [Bst.remove, e]; simp
      by_cases hn : r = .nil ∧ l = .nil
      · obtain ⟨rfl, rfl⟩ := hn
        simp [Bst.inverted, BTree.invert, Bst.remove]
      · have := key r.invert l.invert (fun k => hn (by
          refine ⟨?_, ?_⟩
          · rw [← BTree.invert_invert r, k.1]; rfl
          · rw [← BTree.invert_invert l, k.2]; rfl))
        simp only [Bst.inverted, BTree.invert, this]
        exact ⟨trivial, trivial, hd⟩

/-- five numbers, inverted: 4 and 7 are no longer found, 4 goes in again and is found, and the order is lost -/
example : let ops : List (BstOp (Fin 20)) := [.contains (.num 4), .contains (.num 5), .insert (.num 4), .insert (.num 9),
      .insert (.num 9), .contains (.num 4), .getMin, .getMax, .len, .inorder, .remove (.num 7)]
    let t := (Bst.execs ([5, 2, 7, 4, 8].map (fun v => BstOp.insert (.num v))) Bst.empty : _ × Bst (Fin 20) Unit).2
    t.root.at [] = some (5, ()) ∧ t.length = t.root.keys.length ∧
    sinceCalls 5 t.root.keys ops ([], []) =
      some ([.ok (.bool false, false), .ok (.bool true, false), .ok (.unit, false), .ok (.unit, false),
        .ok (.unit, true), .ok (.bool true, false), .ok (.num 4, false), .ok (.num 9, false), .ok (.int 7, false),
        .ok (.list [4, 8, 7, 5, 4, 2, 9], false), .ok (.unit, true)], ([4], [9])) := by decide +kernel

/-- C101, the negation: after `invert` a number that is there is not found, goes in a second time, and cannot be
removed. -/
theorem C101_fails :
    (Bst.execs [.insert (.num 5), .insert (.num 2), .insert (.num 7), .invert, .contains (.num 2), .remove (.num 2),
      .insert (.num 2), .inorder, .getMin, .getMax, .invert, .getMin] (Bst.empty : Bst (Fin 20) Unit)).1.drop 4 =
    [.ok (.bool false, false), .ok (.unit, true), .ok (.unit, false), .ok (.list [2, 7, 5, 2], false),
      .ok (.num 2, false), .ok (.num 2, false), .ok (.unit, false), .ok (.num 2, false)] := by decide +kernel

/-- C101, the negation for `AVL`: after `invert`, numbers go in twice, and then `insert` raises `AttributeError`
with the node linked in all the same. -/
theorem C101_avl_fails :
    let s := (pAvlExecs [.insert (.num 5), .insert (.num 2), .insert (.num 8), .insert (.num 1)]
      (PTree.empty : PTree (Fin 20) Nat)).2
    let s' := ((do pSetRoot (← pInvert (← pFuel) (← pRoot)) : PM (Fin 20) Nat Unit) s).2
    (pAvlExecs [.inorder, .insert (.num 1), .insert (.num 0), .inorder, .insert (.num 9), .inorder, .len] s').1 =
    [.ok (.list [8, 5, 2, 1], false), .ok (.unit, false), .ok (.unit, false), .ok (.list [0, 1, 8, 5, 2, 1], false),
      .error .attributeError, .ok (.list [0, 1, 8, 5, 2, 1, 9], false), .ok (.int 7, false)] := by decide +kernel

/-- C101, the negation for `SplayTree`: after `invert` a number that is there is not found. -/
theorem C101_splay_fails :
    let s := (pSplayExecs [.insert (.num 5), .insert (.num 2), .insert (.num 8), .insert (.num 1)]
      (PTree.empty : PTree (Fin 20) Unit)).2
    let s' := ((do pSetRoot (← pInvert (← pFuel) (← pRoot)) : PM (Fin 20) Unit Unit) s).2
    (pSplayExecs [.inorder, .contains (.num 2), .inorder] s').1 =
    [.ok (.list [8, 5, 2, 1], false), .ok (.bool false, false), .ok (.list [8, 5, 2, 1], false)] := by decide +kernel

/-- the invariants hold of a red-black tree before and after `invert` -/
example : RedBlackOk rbSample.root ∧ rbSample.inverted.root.keys = [7, 6, 5, 4, 3, 2, 1] ∧
    rbSample.inverted.getMin = .ok 7 ∧ rbSample.inverted.contains (.num 4) = true ∧
    rbSample.inverted.contains (.num 7) = false := by
  refine ⟨?_, by decide +kernel⟩
  rw [rbSample_eq, redBlackOk_iff]
  exact ⟨⟨2, 1, rfl, ⟨0, rfl, ⟨0, rfl, rfl, rfl, by simp⟩, ⟨0, rfl, rfl, rfl, by simp⟩, by simp⟩,
    ⟨0, rfl, ⟨0, rfl, rfl, rfl, by simp⟩, ⟨0, rfl, rfl, rfl, by simp⟩, by simp⟩, by simp⟩, rfl⟩

end Extra
