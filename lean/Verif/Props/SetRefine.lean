import Verif.Trees.SetSpec
import Verif.Props.Bst
import Verif.Props.AvlExact
import Verif.Props.RedBlackFate
import Verif.Props.Splay

/-!
# The search trees as sorted sets: C93
-/

namespace Extra
variable {N X : Type} [LinearOrder N]

/-- the call on a `BST` -/
def SetOp.onBst : SetOp N → BstOp N
  | .insert v => .insert (.num v)
  | .remove v => .remove (.num v)
  | .contains v => .contains (.num v)
  | .getMin => .getMin
  | .getMax => .getMax
  | .len => .len
  | .inorder => .inorder
  | .clear => .clear

/-- the call on an `AVL` -/
def SetOp.onAvl : SetOp N → AvlOp N
  | .insert v => .insert (.num v)
  | .remove v => .remove (.num v)
  | .contains v => .contains (.num v)
  | .getMin => .getMin
  | .getMax => .getMax
  | .len => .len
  | .inorder => .inorder
  | .clear => .clear

/-- the call on a `RedBlackTree` -/
def SetOp.onRb : SetOp N → RbOp N
  | .insert v => .insert (.num v)
  | .remove v => .remove (.num v)
  | .contains v => .contains (.num v)
  | .getMin => .getMin
  | .getMax => .getMax
  | .len => .len
  | .inorder => .inorder
  | .clear => .clear

/-- the call on a `SplayTree` -/
def SetOp.onSplay : SetOp N → SplayOp N
  | .insert v => .insert (.num v)
  | .remove v => .remove (.num v)
  | .contains v => .contains (.num v)
  | .getMin => .getMin
  | .getMax => .getMax
  | .len => .len
  | .inorder => .inorder
  | .clear => .clear

/-- a `BST` answering -/
def bstCall (t : Bst N Unit) (op : SetOp N) : Except Err (BstRes N × Bst N Unit) := .ok (t.exec op.onBst)

/-- an `AVL` answering -/
def avlCall (t : Bst N Nat) (op : SetOp N) : Except Err (BstRes N × Bst N Nat) := avlExec t op.onAvl

/-- a `RedBlackTree` answering -/
def rbCall (t : Bst N Color) (op : SetOp N) : Except Err (BstRes N × Bst N Color) := rbExec t op.onRb

/-- a `SplayTree` answering -/
def splayCall (t : Bst N Unit) (op : SetOp N) : Except Err (BstRes N × Bst N Unit) := splayExec t op.onSplay

/-- the call removes a number from a node whose subtree has an unsafe shape -/
def UnsafeRemoval (t : Bst N Unit) (op : SetOp N) : Prop :=
  ∃ v p l r, op = .remove v ∧ t.root.sub p = .node l (v, ()) r ∧ ¬ RemovalSafe (.node l (v, ()) r)

/-- the call is such a removal, or asks an empty tree whether a number is in it -/
def SplayFails (t : Bst N Unit) (op : SetOp N) : Prop :=
  UnsafeRemoval t op ∨ ∃ v, op = .contains v ∧ t.root = .nil

/-- the call removes the number of a red node with children, and neither the number before nor the number
after it in its subtree is that of a red node -/
def Refused (t : Bst N Color) (op : SetOp N) : Prop :=
  ∃ v p l r, op = .remove v ∧ t.root.sub p = .node l (v, .red) r ∧ ¬ (l = .nil ∧ r = .nil) ∧ ¬ RedNeighbour l r

/-! ## Helpers -/

/-- the tree stands for the set -/
private structure StandsFor (t : Bst N X) (m : List N) : Prop where
  keys : t.root.keys = m
  sorted : m.Pairwise (· < ·)
  len : t.length = m.length

private theorem sorted_ext {a b : List N} (ha : a.Pairwise (· < ·)) (hb : b.Pairwise (· < ·))
    (h : ∀ x, x ∈ a ↔ x ∈ b) : a = b := by
  refine List.Perm.eq_of_pairwise (le := (· < ·)) ?_ ha hb ?_
  · intro x y _ _ h1 h2; exact absurd h1 (not_lt_of_gt h2)
  · exact (List.perm_ext_iff_of_nodup (ha.imp (fun k => ne_of_lt k)) (hb.imp (fun k => ne_of_lt k))).2 h

private theorem sorted_after {m : List N} (h : m.Pairwise (· < ·)) (op : SetOp N) :
    (setAfter m op).Pairwise (· < ·) := by
  cases op <;> simp only [setAfter] <;> first | exact h | skip
  · rename_i v
    rw [List.pairwise_append]
    refine ⟨h.filter _, List.pairwise_cons.2 ⟨fun x hx => by simpa using (List.mem_filter.1 hx).2, h.filter _⟩, ?_⟩
    intro a ha b hb
    have h1 : a < v := by simpa using (List.mem_filter.1 ha).2
    rcases List.mem_cons.1 hb with rfl | hb
    · exact h1
    · exact h1.trans (by simpa using (List.mem_filter.1 hb).2)
  · exact h.filter _
  · exact .nil

private theorem mem_insert {m : List N} (v x : N) : x ∈ setAfter m (.insert v) ↔ x = v ∨ x ∈ m := by
  simp only [setAfter, List.mem_append, List.mem_filter, List.mem_cons, decide_eq_true_eq]
  rcases lt_trichotomy x v with h | h | h
  · simp [h, h.ne, not_lt_of_gt h]
  · simp [h]
  · simp [h, h.ne', not_lt_of_gt h]

private theorem length_of {m m' : List N} {v : N} (h : m.Pairwise (· < ·)) (h' : m'.Pairwise (· < ·)) (hv : v ∉ m)
    (hm : ∀ x, x ∈ m' ↔ x = v ∨ x ∈ m) : m'.length = m.length + 1 := by
  have : m'.Perm (v :: m) := by
    rw [List.perm_ext_iff_of_nodup (h'.imp (fun k => ne_of_lt k))
      (List.nodup_cons.2 ⟨hv, h.imp (fun k => ne_of_lt k)⟩)]
    intro x; rw [hm, List.mem_cons]
  simpa using this.length_eq

private theorem length_filter_ne {m : List N} {v : N} (h : m.Pairwise (· < ·)) (hv : v ∈ m) :
    m.length = (m.filter (fun x => x ≠ v)).length + 1 := by
  refine length_of (v := v) (h.filter _) h (by simp) (fun x => ?_)
  simp only [List.mem_filter, decide_eq_true_eq, ne_eq]
  by_cases hx : x = v
  · subst hx; simp [hv]
  · simp [hx]

private theorem minNode_keys (t : BTree (N × X)) : t.minNode.map Prod.fst = t.keys.head? := by
  induction t with
  | nil => rfl
  | node l w r ihl _ =>
    cases l with
    | nil => simp [BTree.minNode]
    | node a b c => rw [BTree.minNode, ihl]; simp

private theorem maxNode_keys (t : BTree (N × X)) : t.maxNode.map Prod.fst = t.keys.getLast? := by
  induction t with
  | nil => rfl
  | node l w r _ ihr =>
    cases r with
    | nil => simp [BTree.maxNode]
    | node a b c => rw [BTree.maxNode, ihr]; simp [List.getLast?_append, List.getLast?_cons]

private theorem min_reads {t : Bst N X} {m : List N} (h : StandsFor t m) :
    t.getMin.map (fun x => (BstVal.num x, false)) = setAnswer m .getMin := by
  have := minNode_keys t.root
  rw [h.keys] at this
  unfold Bst.getMin setAnswer
  simp only
  rw [← this]
  cases t.root.minNode <;> rfl

private theorem max_reads {t : Bst N X} {m : List N} (h : StandsFor t m) :
    t.getMax.map (fun x => (BstVal.num x, false)) = setAnswer m .getMax := by
  have := maxNode_keys t.root
  rw [h.keys] at this
  unfold Bst.getMax setAnswer
  simp only
  rw [← this]
  cases t.root.maxNode <;> rfl

private theorem contains_reads {t : Bst N X} {m : List N} (h : StandsFor t m) (v : N) :
    t.contains (.num v) = decide (v ∈ m) := by
  have hk : t.root.keys.Pairwise (· < ·) := by rw [h.keys]; exact h.sorted
  have := dataAt_search v t.root hk
  rw [h.keys] at this
  obtain ⟨t, n⟩ := t
  cases t with
  | nil =>
    have := h.keys
    simp only [BTree.keys_nil] at this
    subst this
    rfl
  | node l w r => exact decide_eq_decide.2 this

private theorem search_of {t : Bst N X} {m : List N} (h : StandsFor t m) : SearchTree t.root := by
  rw [searchTree_iff, h.keys]; exact h.sorted

private theorem insert_stands {t t' : Bst N X} {m : List N} (h : StandsFor t m) {v : N} {w : Bool}
    (hs : SearchTree t'.root) (hm : ∀ x, Holds t'.root x ↔ x = v ∨ Holds t.root x)
    (hw : w = true ↔ Holds t.root v) (hl : t'.length = if w then t.length else t.length + 1) :
    w = decide (v ∈ m) ∧ StandsFor t' (setAfter m (.insert v)) := by
  simp only [holds_iff, h.keys] at hm hw
  have hk : t'.root.keys = setAfter m (.insert v) :=
    sorted_ext hs (sorted_after h.sorted _) (fun x => by rw [hm, mem_insert])
  refine ⟨?_, hk, sorted_after h.sorted _, ?_⟩
  · rw [Bool.eq_iff_iff, hw, decide_eq_true_eq]
  · rw [hl, h.len]
    by_cases hv : v ∈ m
    · have : setAfter m (.insert v) = m := sorted_ext (sorted_after h.sorted _) h.sorted
        (fun x => by rw [mem_insert]; constructor
                     · rintro (rfl | h) <;> assumption
                     · exact .inr)
      rw [this, if_pos (hw.2 hv)]
    · rw [if_neg (fun k => hv (hw.1 k)), length_of h.sorted (sorted_after h.sorted (.insert v)) hv
        (fun x => mem_insert v x)]
      rfl

private theorem remove_stands {t t' : Bst N X} {m : List N} (h : StandsFor t m) {v : N} (hv : v ∈ m)
    (hk : t'.root.keys = m.filter (fun x => x ≠ v)) (hl : t'.length = t.length - 1) :
    StandsFor t' (setAfter m (.remove v)) := by
  refine ⟨hk, sorted_after h.sorted _, ?_⟩
  rw [hl, h.len, length_filter_ne h.sorted hv]
  simp [setAfter]

private theorem filter_id {m : List N} {v : N} (hv : v ∉ m) : setAfter m (.remove v) = m := by
  rw [setAfter, List.filter_eq_self]
  intro x hx
  simp only [ne_eq, decide_eq_true_eq]
  rintro rfl; exact hv hx

private theorem empty_stands : StandsFor (Bst.empty : Bst N X) [] := ⟨rfl, .nil, rfl⟩

private theorem of_avoids {S : Type} {exec : S → SetOp N → Except Err (BstRes N × S)} {bad : S → SetOp N → Prop}
    {ok : S → List N → Prop}
    (step : ∀ t m op, ok t m → ¬ bad t op → ∃ t', exec t op = .ok (setAnswer m op, t') ∧ ok t' (setAfter m op)) :
    ∀ ops t m, ok t m → Avoids exec bad ops t → AnswersAs exec ops t m := by
  intro ops
  induction ops with
  | nil => exact fun _ _ _ _ => trivial
  | cons op ops ih =>
    rintro t m h ⟨h1, h2⟩
    obtain ⟨t', e, h3⟩ := step t m op h h1
    exact ⟨t', e, ih t' _ h3 (h2 _ _ e)⟩

private theorem watched_iff {S : Type} {exec : S → SetOp N → Except Err (BstRes N × S)} {bad : S → SetOp N → Prop}
    {ok : S → List N → Prop}
    (step : ∀ t m op, ok t m → ¬ bad t op → ∃ t', exec t op = .ok (setAnswer m op, t') ∧ ok t' (setAfter m op))
    (look : ∀ t m, ok t m → exec t .inorder = .ok (.ok (.list m, false), t))
    (fails : ∀ t m op, ok t m → bad t op → ¬ AnswersAs exec [op, .inorder] t m) :
    ∀ ops t m, ok t m → (AnswersAs exec (watched ops) t m ↔ Avoids exec bad ops t) := by
  intro ops
  induction ops with
  | nil => exact fun _ _ _ => Iff.rfl
  | cons op ops ih =>
    intro t m h
    constructor
    · rintro ⟨t', e, t2, e2, k⟩
      have hb : ¬ bad t op := fun hb => fails t m op h hb ⟨t', e, t2, e2, trivial⟩
      obtain ⟨t3, e3, h3⟩ := step t m op h hb
      rw [e] at e3; cases e3
      rw [look _ _ h3] at e2; cases e2
      refine ⟨hb, fun r t4 e4 => ?_⟩
      rw [e] at e4; cases e4
      exact (ih _ _ h3).1 k
    · rintro ⟨h1, h2⟩
      obtain ⟨t', e, h3⟩ := step t m op h h1
      exact ⟨t', e, t', look _ _ h3, (ih _ _ h3).2 (h2 _ _ e)⟩

/-! ## `BST` -/

private theorem bst_step (t : Bst N Unit) (m : List N) (op : SetOp N) (h : StandsFor t m)
    (hb : ¬ UnsafeRemoval t op) :
    ∃ t', bstCall t op = .ok (setAnswer m op, t') ∧ StandsFor t' (setAfter m op) := by
  have hs := search_of h
  cases op with
  | insert v =>
    obtain ⟨a1, a2, a3, a4, a5⟩ := insertNum_spec t v () hs
    have hl : (t.insertNum v ()).1.length = if (t.insertNum v ()).2 then t.length else t.length + 1 := by
      by_cases hv : v ∈ t.root.keys
      · rw [a4 hv, if_pos (a3.2 hv)]
      · rw [if_neg (fun k => hv (a3.1 k)), a5 (by rw [h.len, h.keys]), h.len,
          length_of (m' := (t.insertNum v ()).1.root.keys) (v := v) h.sorted a1 (by rwa [h.keys] at hv)
            (fun x => by rw [a2, h.keys])]
        rfl
    obtain ⟨k1, k2⟩ := insert_stands h a1 (by simpa only [holds_iff] using a2) (by rw [a3, holds_iff]) hl
    refine ⟨_, ?_, k2⟩
    simp only [bstCall, SetOp.onBst, Bst.exec, validNum, setAnswer, k1]
  | remove v =>
    obtain ⟨k1, k2⟩ := C41_remove_partial t hs v
    by_cases hv : Holds t.root v
    · obtain ⟨p, x, hp⟩ := hv
      obtain ⟨l, r, hp'⟩ : ∃ l r, t.root.sub p = .node l (v, ()) r := by
        unfold BTree.at at hp
        rcases h' : t.root.sub p with _ | ⟨l, w, r⟩
        · rw [h'] at hp; cases hp
        · rw [h'] at hp
          simp only [BTree.root?, Option.some.injEq] at hp
          subst hp
          exact ⟨l, r, rfl⟩
      obtain ⟨a1, a2, a3, a4⟩ := k2 p l r hp'
      have hsafe : RemovalSafe (.node l (v, ()) r) := by
        by_contra hn; exact hb ⟨v, p, l, r, rfl, hp', hn⟩
      have hvm : v ∈ m := by rw [← h.keys, ← holds_iff]; exact ⟨p, x, hp⟩
      rw [h.keys] at a3
      have hd := a3.nodup_iff.1 (h.sorted.imp (fun k => ne_of_lt k))
      refine ⟨_, ?_, remove_stands h hvm (t' := (t.exec (.remove (.num v))).2) ?_ a2⟩
      · rw [bstCall, SetOp.onBst, setAnswer]
        simp only [hvm, not_true_eq_false, decide_false, ← a1]
      · refine sorted_ext (a4.2 hsafe) (h.sorted.filter _) (fun x => ?_)
        simp only [List.mem_filter, a3.mem_iff, List.mem_cons, ne_eq, decide_eq_true_eq]
        constructor
        · intro hx
          refine ⟨.inr hx, ?_⟩
          rintro rfl
          exact (List.nodup_cons.1 hd).1 hx
        · rintro ⟨rfl | hx, hn⟩
          · exact absurd rfl hn
          · exact hx
    · refine ⟨t, ?_, ?_⟩
      · rw [bstCall, SetOp.onBst, k1 hv, setAnswer]
        rw [holds_iff, h.keys] at hv
        simp [hv]
      · rw [holds_iff, h.keys] at hv
        rw [filter_id hv]; exact h
  | contains v => exact ⟨t, by simp only [bstCall, SetOp.onBst, Bst.exec, setAnswer, contains_reads h], h⟩
  | getMin => exact ⟨t, by simp only [bstCall, SetOp.onBst, Bst.exec, min_reads h], h⟩
  | getMax => exact ⟨t, by simp only [bstCall, SetOp.onBst, Bst.exec, max_reads h], h⟩
  | len => exact ⟨t, by simp only [bstCall, SetOp.onBst, Bst.exec, setAnswer, h.len], h⟩
  | inorder => exact ⟨t, by simp only [bstCall, SetOp.onBst, Bst.exec, setAnswer, h.keys], h⟩
  | clear => exact ⟨_, rfl, empty_stands⟩

/-- C93, in part: a new `BST` answers every call of a history as the set does, as long as no removal meets
an unsafe shape.

Missing: histories with such a removal (`C93_bst_exact`). -/
theorem C93_bst_partial (ops : List (SetOp N)) (h : Avoids bstCall UnsafeRemoval ops Bst.empty) :
    AnswersAs bstCall ops Bst.empty [] :=
  of_avoids bst_step ops _ _ empty_stands h

/-- C93, exactly: with the contents asked for after each call a new `BST` answers every call as the set
does if and only if no removal meets an unsafe shape. -/
theorem C93_bst_exact (ops : List (SetOp N)) :
    AnswersAs bstCall (watched ops) Bst.empty [] ↔ Avoids bstCall UnsafeRemoval ops Bst.empty := by
  refine watched_iff (ok := StandsFor) bst_step ?_ ?_ ops _ _ empty_stands
  · intro t m h
    simp only [bstCall, SetOp.onBst, Bst.exec, h.keys]
  · rintro t m op h ⟨v, p, l, r, rfl, hp, hn⟩ ⟨t', e, t2, e2, -⟩
    obtain ⟨-, -, -, a4⟩ := (C41_remove_partial t (search_of h) v).2 p l r hp
    apply hn
    rw [← a4, searchTree_iff]
    simp only [bstCall, SetOp.onBst, Except.ok.injEq] at e
    rw [e]
    simp only [bstCall, SetOp.onBst, Bst.exec, setAnswer, Except.ok.injEq, Prod.mk.injEq, BstVal.list.injEq] at e2
    rw [e2.1.1]
    exact sorted_after h.sorted _

/-! ## `SplayTree` -/

private theorem splay_step (t : Bst N Unit) (m : List N) (op : SetOp N) (h : StandsFor t m)
    (hb : ¬ SplayFails t op) :
    ∃ t', splayCall t op = .ok (setAnswer m op, t') ∧ StandsFor t' (setAfter m op) := by
  have hs := search_of h
  have keep : ∀ t' : Bst N Unit, t'.root.inorder = t.root.inorder → t'.length = t.length → StandsFor t' m :=
    fun t' e1 e2 => ⟨by rw [BTree.keys, e1]; exact h.keys, h.sorted, by rw [e2, h.len]⟩
  cases op with
  | insert v =>
    obtain ⟨w, t', e, a1, -, a2, a3, a4⟩ := C47_insert t hs v
    obtain ⟨rfl, k2⟩ := insert_stands h a1 a2 a3 a4
    exact ⟨t', e, k2⟩
  | remove v =>
    obtain ⟨k1, k2⟩ := C49_remove_partial t hs v
    by_cases hv : Holds t.root v
    · obtain ⟨p, x, hp⟩ := hv
      obtain ⟨l, r, hp'⟩ : ∃ l r, t.root.sub p = .node l (v, ()) r := by
        unfold BTree.at at hp
        rcases h' : t.root.sub p with _ | ⟨l, w, r⟩
        · rw [h'] at hp; cases hp
        · rw [h'] at hp
          simp only [BTree.root?, Option.some.injEq] at hp
          subst hp
          exact ⟨l, r, rfl⟩
      obtain ⟨t', e, a2, a3, a4⟩ := k2 p l r hp'
      have hsafe : RemovalSafe (.node l (v, ()) r) := by
        by_contra hn; exact hb (.inl ⟨v, p, l, r, rfl, hp', hn⟩)
      have hvm : v ∈ m := by rw [← h.keys, ← holds_iff]; exact ⟨p, x, hp⟩
      rw [h.keys] at a3
      have hd := a3.nodup_iff.1 (h.sorted.imp (fun k => ne_of_lt k))
      refine ⟨t', ?_, remove_stands h hvm ?_ a2⟩
      · rw [splayCall, SetOp.onSplay, setAnswer, e]
        simp only [hvm, not_true_eq_false, decide_false]
      · refine sorted_ext (a4.2 hsafe) (h.sorted.filter _) (fun x => ?_)
        simp only [List.mem_filter, a3.mem_iff, List.mem_cons, ne_eq, decide_eq_true_eq]
        constructor
        · intro hx
          refine ⟨.inr hx, ?_⟩
          rintro rfl
          exact (List.nodup_cons.1 hd).1 hx
        · rintro ⟨rfl | hx, hn⟩
          · exact absurd rfl hn
          · exact hx
    · obtain ⟨t', e, e1, e2⟩ := k1 hv
      rw [holds_iff, h.keys] at hv
      refine ⟨t', ?_, ?_⟩
      · rw [splayCall, SetOp.onSplay, e, setAnswer]
        simp [hv]
      · rw [filter_id hv]; exact keep t' e1 e2
  | contains v =>
    obtain ⟨b, t', -, e, a1, a2, a3, -⟩ := C47_contains t hs (fun k => hb (.inr ⟨v, rfl, k⟩)) v
    refine ⟨t', ?_, keep t' a2 a3⟩
    have : b = decide (v ∈ m) := by rw [Bool.eq_iff_iff, a1, decide_eq_true_eq, holds_iff, h.keys]
    rw [splayCall, SetOp.onSplay, e, setAnswer, this]
  | getMin => exact ⟨t, by simp only [splayCall, SetOp.onSplay, splayExec, min_reads h], h⟩
  | getMax => exact ⟨t, by simp only [splayCall, SetOp.onSplay, splayExec, max_reads h], h⟩
  | len => exact ⟨t, by simp only [splayCall, SetOp.onSplay, splayExec, setAnswer, h.len], h⟩
  | inorder => exact ⟨t, by simp only [splayCall, SetOp.onSplay, splayExec, setAnswer, h.keys], h⟩
  | clear => exact ⟨_, rfl, empty_stands⟩

/-- C93, in part: a new `SplayTree` answers every call of a history as the set does, as long as no removal
meets an unsafe shape and an empty tree is not asked for a number.

Missing: histories with such a call (`C93_splay_exact`). -/
theorem C93_splay_partial (ops : List (SetOp N)) (h : Avoids splayCall SplayFails ops Bst.empty) :
    AnswersAs splayCall ops Bst.empty [] :=
  of_avoids splay_step ops _ _ empty_stands h

/-- C93, exactly: with the contents asked for after each call a new `SplayTree` answers every call as the
set does if and only if no removal meets an unsafe shape and an empty tree is not asked for a number. -/
theorem C93_splay_exact (ops : List (SetOp N)) :
    AnswersAs splayCall (watched ops) Bst.empty [] ↔ Avoids splayCall SplayFails ops Bst.empty := by
  refine watched_iff (ok := StandsFor) splay_step ?_ ?_ ops _ _ empty_stands
  · intro t m h
    simp only [splayCall, SetOp.onSplay, splayExec, h.keys]
  · rintro t m op h (⟨v, p, l, r, rfl, hp, hn⟩ | ⟨v, rfl, hn⟩) ⟨t', e, t2, e2, -⟩
    · obtain ⟨t3, e3, -, -, a4⟩ := (C49_remove_partial t (search_of h) v).2 p l r hp
      apply hn
      rw [← a4, searchTree_iff]
      simp only [splayCall, SetOp.onSplay, e3, Except.ok.injEq, Prod.mk.injEq] at e
      rw [e.2]
      simp only [splayCall, SetOp.onSplay, splayExec, setAnswer, Except.ok.injEq, Prod.mk.injEq,
        BstVal.list.injEq] at e2
      rw [e2.1.1]
      exact sorted_after h.sorted _
    · simp only [splayCall, SetOp.onSplay, (C48_raises t v).1 hn, setAnswer, Except.ok.injEq, Prod.mk.injEq] at e
      cases e.1

/-! ## `AVL` -/

private theorem avl_step (t : Bst N Nat) (m : List N) (op : SetOp N) (h : StandsFor t m ∧ AvlGood t)
    (hb : ¬ LosesBalance t op.onAvl) :
    ∃ t', avlCall t op = .ok (setAnswer m op, t') ∧ StandsFor t' (setAfter m op) ∧ AvlGood t' := by
  obtain ⟨h, hg⟩ := h
  have fin : ∀ t', avlCall t op = .ok (setAnswer m op, t') → StandsFor t' (setAfter m op) →
      ∃ t', avlCall t op = .ok (setAnswer m op, t') ∧ StandsFor t' (setAfter m op) ∧ AvlGood t' := by
    intro t' e k
    obtain ⟨r, t2, e2, a1, a2, a3, a4⟩ := C44_step t hg op.onAvl
    rw [avlCall, e2] at e
    cases e
    exact ⟨t', by rw [avlCall, e2], k, a1, a4.2 hb, a2, a3⟩
  cases op with
  | insert v =>
    obtain ⟨k1, k2⟩ := C43_insert t hg.search hg.balanced hg.heights hg.len v
    by_cases hv : Holds t.root v
    · obtain ⟨w, k⟩ := insert_stands h (t' := t) (w := true) hg.search (v := v)
        (fun x => ⟨.inr, by rintro (rfl | k) <;> assumption⟩) (by simp [hv]) (by simp)
      refine fin t ?_ k
      rw [avlCall, SetOp.onAvl, k1 hv, setAnswer, ← w]
    · obtain ⟨t', e, a1, -, -, a2, a3⟩ := k2 hv
      obtain ⟨w, k⟩ := insert_stands h (w := false) a1 a3 (by simp [hv]) (by simp [a2])
      refine fin t' ?_ k
      rw [avlCall, SetOp.onAvl, e, setAnswer, ← w]
  | remove v =>
    obtain ⟨k1, k2⟩ := C46_remove t hg.search hg.balanced hg.heights v
    by_cases hv : Holds t.root v
    · obtain ⟨t', A, B, e, a1, a2, a3, a4⟩ := k2 hv
      simp only [avlExec, Except.ok.injEq, Prod.mk.injEq, BstVal.list.injEq, and_true] at a2 a3
      have hd : (A ++ v :: B).Nodup := by
        rw [← a2, h.keys]; exact h.sorted.imp (fun k => ne_of_lt k)
      rw [holds_iff, h.keys] at hv
      refine fin t' ?_ (remove_stands h hv ?_ a1)
      · rw [avlCall, SetOp.onAvl, e, setAnswer]; simp [hv]
      · rw [a3, ← h.keys, a2, List.filter_append, List.filter_cons_of_neg (by simp)]
        rw [List.nodup_append, List.nodup_cons] at hd
        rw [List.filter_eq_self.2, List.filter_eq_self.2]
        · intro x hx
          simp only [ne_eq, decide_eq_true_eq]
          rintro rfl; exact hd.2.1.1 hx
        · intro x hx
          simp only [ne_eq, decide_eq_true_eq]
          rintro rfl; exact hd.2.2 x hx x (by simp) rfl
    · refine fin t ?_ ?_
      · rw [holds_iff, h.keys] at hv
        rw [avlCall, SetOp.onAvl, k1 (by rwa [holds_iff, h.keys]), setAnswer]; simp [hv]
      · rw [holds_iff, h.keys] at hv
        rw [filter_id hv]; exact h
  | contains v => exact fin t (by simp only [avlCall, SetOp.onAvl, avlExec, setAnswer, contains_reads h]) h
  | getMin => exact fin t (by simp only [avlCall, SetOp.onAvl, avlExec, min_reads h]) h
  | getMax => exact fin t (by simp only [avlCall, SetOp.onAvl, avlExec, max_reads h]) h
  | len => exact fin t (by simp only [avlCall, SetOp.onAvl, avlExec, setAnswer, h.len]) h
  | inorder => exact fin t (by simp only [avlCall, SetOp.onAvl, avlExec, setAnswer, h.keys]) h
  | clear => exact fin _ rfl empty_stands

/-- C93, in part: a new `AVL` answers every call of a history as the set does, as long as no removal loses
the balance (`LosesBalance`).

Missing: what follows such a removal; a later call may lose numbers (`C46_order_lost`). -/
theorem C93_avl_partial (ops : List (SetOp N))
    (h : Avoids avlCall (fun t op => LosesBalance t op.onAvl) ops Bst.empty) :
    AnswersAs avlCall ops Bst.empty [] := by
  refine of_avoids (ok := fun t m => StandsFor t m ∧ AvlGood t) avl_step ops _ _ ⟨empty_stands, ?_⟩ h
  have := (avlOk_iff (.nil : BTree (N × Nat))).1 trivial
  exact ⟨by simp [Bst.empty, SearchTree], this.2, this.1, rfl⟩

/-- C93 for `AVL`: without removals no condition is needed. -/
theorem C93_avl_inserts (ops : List (SetOp N)) (h : ∀ v, SetOp.remove v ∉ ops) :
    AnswersAs avlCall ops Bst.empty [] := by
  refine C93_avl_partial ops ?_
  suffices H : ∀ (ops : List (SetOp N)) (t : Bst N Nat), (∀ v, SetOp.remove v ∉ ops) →
      Avoids avlCall (fun t op => LosesBalance t op.onAvl) ops t from H ops _ h
  intro ops
  induction ops with
  | nil => exact fun _ _ => trivial
  | cons op ops ih =>
    refine fun t h => ⟨?_, fun r t' _ => ih t' (fun v k => h v (List.mem_cons_of_mem _ k))⟩
    rintro ⟨v, k, -⟩
    cases op <;> cases k
    exact h v (by simp)

/-! ## `RedBlackTree` -/

private theorem rb_step (t : Bst N Color) (m : List N) (op : SetOp N) (h : StandsFor t m ∧ RedBlackOk t.root)
    (hb : ¬ (Spoils t.root op.onRb ∨ Refused t op)) :
    ∃ t', rbCall t op = .ok (setAnswer m op, t') ∧ StandsFor t' (setAfter m op) ∧ RedBlackOk t'.root := by
  obtain ⟨h, hc⟩ := h
  obtain ⟨hb1, hb2⟩ := not_or.1 hb
  have hs := search_of h
  have fin : ∀ t', rbCall t op = .ok (setAnswer m op, t') → StandsFor t' (setAfter m op) →
      ∃ t', rbCall t op = .ok (setAnswer m op, t') ∧ StandsFor t' (setAfter m op) ∧ RedBlackOk t'.root := by
    intro t' e k
    obtain ⟨r, t2, e2, a⟩ := (C56_call_exact t hs hc op.onRb).1.2 hb1
    rw [rbCall, e2] at e
    cases e
    exact ⟨t', by rw [rbCall, e2], k, a⟩
  cases op with
  | insert v =>
    obtain ⟨w, t', e, a1, -, a2, a3, a4⟩ := C54_insert t hs v
    obtain ⟨rfl, k2⟩ := insert_stands h a1 a2 a3 a4
    exact fin t' e k2
  | remove v =>
    obtain ⟨k1, k2⟩ := C56_remove_partial t hs hc v
    by_cases hv : Holds t.root v
    · obtain ⟨p, x, hp⟩ := hv
      obtain ⟨l, r, hp'⟩ : ∃ l r, t.root.sub p = .node l (v, x) r := by
        unfold BTree.at at hp
        rcases h' : t.root.sub p with _ | ⟨l, w, r⟩
        · rw [h'] at hp; cases hp
        · rw [h'] at hp
          simp only [BTree.root?, Option.some.injEq] at hp
          subst hp
          exact ⟨l, r, rfl⟩
      have hvm : v ∈ m := by rw [← h.keys, ← holds_iff]; exact ⟨p, x, hp⟩
      have done : ∀ t', rbExec t (.remove (.num v)) = .ok (.ok (.unit, false), t') → RemovedFrom t v t' →
          ∃ t', rbCall t (.remove v) = .ok (setAnswer m (.remove v), t') ∧
            StandsFor t' (setAfter m (.remove v)) ∧ RedBlackOk t'.root := by
        intro t' e k
        refine fin t' ?_ (remove_stands h hvm (by rw [k.keys, h.keys]) k.len)
        rw [rbCall, SetOp.onRb, e, setAnswer]; simp [hvm]
      obtain ⟨a1, -, a3⟩ := k2 p l x r hp'
      by_cases hrn : (x = .red ∧ l = .nil ∧ r = .nil) ∨ RedNeighbour l r
      · obtain ⟨t', e, k, -⟩ := a1 hrn
        exact done t' e k
      · obtain ⟨hrn1, hrn2⟩ := not_or.1 hrn
        cases x with
        | red => exact absurd ⟨v, p, l, r, rfl, hp', fun k => hrn1 ⟨rfl, k⟩, hrn2⟩ hb2
        | black =>
          rcases a3 rfl hrn2 with e | ⟨t', e, k⟩
          · obtain ⟨r, t2, e2, -⟩ := (C56_call_exact t hs hc (.remove (.num v))).1.2 hb1
            rw [e] at e2; cases e2
          · exact done t' e k
    · refine fin t ?_ ?_
      · rw [rbCall, SetOp.onRb, k1 hv, setAnswer]
        rw [holds_iff, h.keys] at hv
        simp [hv]
      · rw [holds_iff, h.keys] at hv
        rw [filter_id hv]; exact h
  | contains v => exact fin t (by simp only [rbCall, SetOp.onRb, rbExec, setAnswer, contains_reads h]) h
  | getMin => exact fin t (by simp only [rbCall, SetOp.onRb, rbExec, min_reads h]) h
  | getMax => exact fin t (by simp only [rbCall, SetOp.onRb, rbExec, max_reads h]) h
  | len => exact fin t (by simp only [rbCall, SetOp.onRb, rbExec, setAnswer, h.len]) h
  | inorder => exact fin t (by simp only [rbCall, SetOp.onRb, rbExec, setAnswer, h.keys]) h
  | clear => exact fin _ rfl empty_stands

/-- C93, in part: a new `RedBlackTree` answers every call of a history as the set does, as long as no call
is one of those of `Spoils` or `Refused`.

Missing: what follows such a call: a removal may raise (`C56_attribute_error`, `C93_rb_refused`) or lose
numbers (`C56_order_lost`). -/
theorem C93_rb_partial (ops : List (SetOp N))
    (h : Avoids rbCall (fun t op => Spoils t.root op.onRb ∨ Refused t op) ops Bst.empty) :
    AnswersAs rbCall ops Bst.empty [] := by
  refine of_avoids (ok := fun t m => StandsFor t m ∧ RedBlackOk t.root) rb_step ops _ _ ⟨empty_stands, ?_⟩ h
  exact (redBlackOk_iff _).2 ⟨⟨0, rfl⟩, rfl⟩

/-- C93 for `RedBlackTree`: a removal described by `Refused` raises `ValueError` and changes nothing. -/
theorem C93_rb_refused (t : Bst N Color) (hs : SearchTree t.root) (hc : RedBlackOk t.root) (op : SetOp N)
    (h : Refused t op) : rbCall t op = .ok (.error .valueError, t) := by
  obtain ⟨v, p, l, r, rfl, hp, h1, h2⟩ := h
  exact ((C56_remove_partial t hs hc v).2 p l .red r hp).2.1 rfl h1 h2

/-- C93 for `RedBlackTree`: without removals no condition is needed. -/
theorem C93_rb_inserts (ops : List (SetOp N)) (h : ∀ v, SetOp.remove v ∉ ops) :
    AnswersAs rbCall ops Bst.empty [] := by
  suffices H : ∀ (ops : List (SetOp N)) (t : Bst N Color) (m : List N), (∀ v, SetOp.remove v ∉ ops) →
      StandsFor t m → AnswersAs rbCall ops t m from H ops _ _ h empty_stands
  intro ops
  induction ops with
  | nil => exact fun _ _ _ _ => trivial
  | cons op ops ih =>
    intro t m hops h
    have fin : ∀ t', rbCall t op = .ok (setAnswer m op, t') → StandsFor t' (setAfter m op) →
        AnswersAs rbCall (op :: ops) t m :=
      fun t' e k => ⟨t', e, ih t' _ (fun v k => hops v (List.mem_cons_of_mem _ k)) k⟩
    cases op with
    | insert v =>
      obtain ⟨w, t', e, a1, -, a2, a3, a4⟩ := C54_insert t (search_of h) v
      obtain ⟨rfl, k2⟩ := insert_stands h a1 a2 a3 a4
      exact fin t' e k2
    | remove v => exact absurd (by simp) (hops v)
    | contains v => exact fin t (by simp only [rbCall, SetOp.onRb, rbExec, setAnswer, contains_reads h]) h
    | getMin => exact fin t (by simp only [rbCall, SetOp.onRb, rbExec, min_reads h]) h
    | getMax => exact fin t (by simp only [rbCall, SetOp.onRb, rbExec, max_reads h]) h
    | len => exact fin t (by simp only [rbCall, SetOp.onRb, rbExec, setAnswer, h.len]) h
    | inorder => exact fin t (by simp only [rbCall, SetOp.onRb, rbExec, setAnswer, h.keys]) h
    | clear => exact fin _ rfl empty_stands

/-! ## Where the classes differ from the set -/

/-- the answers to a history, up to an exception from the middle of a call -/
def answers {S : Type} (exec : S → SetOp N → Except Err (BstRes N × S)) : List (SetOp N) → S → List (BstRes N)
  | [], _ => []
  | op :: ops, t =>
    match exec t op with
    | .error e => [.error e]
    | .ok (r, t') => r :: answers exec ops t'

/-- the answers of the set -/
def setAnswers : List (SetOp N) → List N → List (BstRes N)
  | [], _ => []
  | op :: ops, m => setAnswer m op :: setAnswers ops (setAfter m op)

private theorem answers_eq {S : Type} {exec : S → SetOp N → Except Err (BstRes N × S)} :
    ∀ ops t m, AnswersAs exec ops t m → answers exec ops t = setAnswers ops m := by
  intro ops
  induction ops with
  | nil => exact fun _ _ _ => rfl
  | cons op ops ih =>
    rintro t m ⟨t', e, k⟩
    rw [answers, e, setAnswers, ← ih _ _ k]

private def inserts (vs : List (Fin 20)) : List (SetOp (Fin 20)) := vs.map .insert

private def removes (vs : List (Fin 20)) : List (SetOp (Fin 20)) := vs.map .remove

/-- C93 fails for each of the classes: after these inserts and removals the contents are not the numbers
inserted and not removed in increasing order, or a call raises. -/
theorem C93_fails :
    ¬ AnswersAs bstCall (inserts [1, 2, 5, 3] ++ removes [1] ++ [.inorder]) Bst.empty [] ∧
    ¬ AnswersAs splayCall [.contains (1 : Fin 20)] Bst.empty [] ∧
    ¬ AnswersAs splayCall (inserts [3, 2, 4, 0, 1] ++ removes [1] ++ [.inorder]) Bst.empty [] ∧
    ¬ AnswersAs avlCall (inserts [13, 0, 4, 11, 5, 9, 8, 12, 1, 3, 7, 10, 2, 6] ++ removes [11, 1, 2, 8] ++
      [.inorder]) Bst.empty [] ∧
    ¬ AnswersAs rbCall (inserts [1, 2, 3, 0] ++ removes [2]) Bst.empty [] ∧
    ¬ AnswersAs rbCall (inserts [0, 6, 1, 2, 4, 3, 5] ++ removes [1, 2, 3] ++ [.inorder]) Bst.empty [] := by
  refine ⟨fun h => ?_, fun h => ?_, fun h => ?_, fun h => ?_, fun h => ?_, fun h => ?_⟩ <;>
    exact absurd (answers_eq _ _ _ h) (by decide +kernel)

/-! ## Cases with removals -/

example : Avoids bstCall UnsafeRemoval (inserts [5, 2, 9] ++ [.remove 5, .getMin, .inorder, .remove 5]) Bst.empty :=
  (C93_bst_exact _).1 ⟨_, rfl, _, rfl, _, rfl, _, rfl, _, rfl, _, rfl, _, rfl, _, rfl, _, rfl, _, rfl, _, rfl, _, rfl,
    _, rfl, _, rfl, trivial⟩

example : Avoids splayCall SplayFails (inserts [5, 2, 9] ++ [.remove 5, .contains 5, .inorder, .remove 5]) Bst.empty :=
  (C93_splay_exact _).1 ⟨_, rfl, _, rfl, _, rfl, _, rfl, _, rfl, _, rfl, _, rfl, _, rfl, _, rfl, _, rfl, _, rfl, _, rfl,
    _, rfl, _, rfl, trivial⟩

private theorem avl_avoids : ∀ (ops : List (SetOp N)) (t : Bst N Nat), NeverUnbalances (ops.map SetOp.onAvl) t →
    Avoids avlCall (fun t op => LosesBalance t op.onAvl) ops t
  | [], _, _ => trivial
  | _ :: ops, _, h => ⟨h.1, fun r t' e => avl_avoids ops t' (h.2 r t' e)⟩

example : Avoids avlCall (fun t op => LosesBalance t op.onAvl) (inserts [5, 2, 9, 7] ++ [.remove 2, .inorder]) Bst.empty := by
  refine avl_avoids _ _ ((C44_history_exact _).1 ?_)
  have h : ∀ t : BTree (Fin 20 × Nat), avlOk t → Balanced t := fun t k => ((avlOk_iff t).1 k).2
  refine ⟨_, _, rfl, h _ ?_, _, _, rfl, h _ ?_, _, _, rfl, h _ ?_, _, _, rfl, h _ ?_, _, _, rfl, h _ ?_,
    _, _, rfl, h _ ?_, trivial⟩ <;> simp [avlOk, avlNode, BTree.hl]

private theorem rb_avoids : ∀ (ops : List (SetOp N)) (t : Bst N Color), SearchTree t.root → RedBlackOk t.root →
    SoundThroughout (ops.map SetOp.onRb) t → (.error .valueError ∉ answers rbCall ops t) →
    Avoids rbCall (fun t op => Spoils t.root op.onRb ∨ Refused t op) ops t
  | [], _, _, _, _, _ => trivial
  | op :: ops, t, hs, hc, ⟨r, t1, e1, h1, h2⟩, ha => by
    have e1' : rbCall t op = .ok (r, t1) := e1
    rw [answers, e1', List.mem_cons, not_or] at ha
    obtain ⟨k1, k2⟩ := C56_call_exact t hs hc op.onRb
    refine ⟨?_, fun r t' e => ?_⟩
    · rintro (k | k)
      · exact k1.1 ⟨r, t1, e1, h1⟩ k
      · rw [C93_rb_refused t hs hc op k] at e1'
        cases e1'
        exact ha.1 rfl
    · rw [e1'] at e
      cases e
      exact rb_avoids ops _ (k2 _ _ e1) h1 h2 ha.2

private def after : Bst (Fin 20) Color :=
  ⟨.node (.node .nil (1, .black) .nil) (2, .black) (.node .nil (3, .black) .nil), 3⟩

example : Avoids rbCall (fun t op => Spoils t.root op.onRb ∨ Refused t op)
    (inserts [0, 1, 2, 3] ++ [.remove 0, .inorder, .getMax]) Bst.empty := by
  have h : ∀ t : BTree (Fin 20 × Color), (∃ n, rbI t n) → t.isRed = false → RedBlackOk t :=
    fun t k1 k2 => (redBlackOk_iff t).2 ⟨k1, k2⟩
  refine rb_avoids _ _ (by simp [Bst.empty, SearchTree, BTree.inorder]) (h _ ⟨0, rfl⟩ rfl) ?_ (by decide +kernel)
  refine ⟨.ok (.unit, false), ⟨.node .nil (0, .black) .nil, 1⟩, by decide +kernel, h _ ⟨1, ?_⟩ rfl,
    .ok (.unit, false), ⟨.node .nil (0, .black) (.node .nil (1, .red) .nil), 2⟩, by decide +kernel, h _ ⟨1, ?_⟩ rfl,
    .ok (.unit, false), ⟨.node (.node .nil (0, .red) .nil) (1, .black) (.node .nil (2, .red) .nil), 3⟩, by decide +kernel, h _ ⟨1, ?_⟩ rfl,
    .ok (.unit, false), ⟨.node (.node .nil (0, .black) .nil) (1, .black) (.node .nil (2, .black) (.node .nil (3, .red) .nil)), 4⟩,
      by decide +kernel, h _ ⟨2, ?_⟩ rfl,
    .ok (.unit, false), after, by decide +kernel, h _ ⟨2, ?_⟩ rfl, .ok (.list [1, 2, 3], false), after, by decide +kernel, h _ ⟨2, ?_⟩ rfl,
    .ok (.num 3, false), after, by decide +kernel, h _ ⟨2, ?_⟩ rfl, trivial⟩ <;> simp [rbI, Color.bl, BTree.isRed, after]

end Extra
