import Verif.Trees.PtrSpec
import Verif.Trees.PtrSplayCalls
import Verif.Trees.PtrAvlCalls
import Verif.Props.Splay
import Verif.Props.Avl
import Mathlib.Data.List.Induction
import Mathlib.Order.Fin.Basic
import Batteries.Lean.Except

/-!
# Properties C74-C76: the links of the search trees

The model here is the one with node objects (Verif/Trees/PtrTree.lean).  `follow`, `WellLinked` and `Shows` are
the specification (Verif/Trees/PtrSpec.lean).
-/

namespace Extra
variable {N : Type} [LinearOrder N]

/-! ## C74: BST -/

/-- After any calls on a new `BST`, every node that can be reached has the node above as its parent, the root has
none, and no node is reached in two ways. -/
theorem C74_bst_links (ops : List (BstOp N)) : WellLinked (pBstExecs ops PTree.empty).2 :=
  (bst_execs ops holds_empty).2.wellLinked

/-- The answers are those of the model on trees as values, so what is proved there (C39-C42) holds of the objects
with links. -/
theorem C74_bst_answers (ops : List (BstOp N)) :
    (pBstExecs ops PTree.empty).1 = (Bst.execs ops Bst.empty).1 ∧
    Shows (pBstExecs ops PTree.empty).2.node (pBstExecs ops PTree.empty).2.root (Bst.execs ops Bst.empty).2.root ∧
    (pBstExecs ops PTree.empty).2.length = (Bst.execs ops Bst.empty).2.length :=
  ⟨(bst_execs ops holds_empty).1, (bst_execs ops holds_empty).2.shows, (bst_execs ops holds_empty).2.length⟩

/-- five insertions and the removal of the root: its successor's number takes its place -/
example : let s := (pBstExecs [.insert (.num 4), .insert (.num 2), .insert (.num 7), .insert (.num 5),
      .insert (.num 6), .remove (.num 4)] (PTree.empty : PTree Nat Unit)).2
    s.root = some 0 ∧ s.node 0 = some ⟨5, (), some 1, some 2, none⟩ ∧
    s.node 2 = some ⟨7, (), some 3, none, some 0⟩ ∧ s.node 3 = some ⟨6, (), none, none, some 2⟩ ∧
    s.reach [true, false] = some 3 := by decide +kernel

/-! ## C75: SplayTree -/

/-- the inorder traversal of the objects answers an increasing list -/
def InOrderNow (s : PTree N Unit) : Prop :=
  ∃ l, (pSplayExec s .inorder).1 = .ok (.list l, false) ∧ l.Pairwise (· < ·)

/-- on a search tree every call of the value model ends -/
private theorem splayExec_ok (t : Bst N Unit) (hs : SearchTree t.root) (op : SplayOp N) :
    ∃ r t', splayExec t op = .ok (r, t') := by
  cases op with
  | insert v =>
    cases v with
    | num v => obtain ⟨_, _, e, _⟩ := C47_insert t hs v; exact ⟨_, _, e⟩
    | none => exact ⟨_, _, rfl⟩
    | other => exact ⟨_, _, rfl⟩
  | contains v =>
    cases v with
    | num v =>
      by_cases hr : t.root = .nil
      · exact ⟨_, _, (C48_raises t v).1 hr⟩
      · obtain ⟨_, _, _, e, _⟩ := C47_contains t hs hr v; exact ⟨_, _, e⟩
    | none => exact ⟨_, _, rfl⟩
    | other => exact ⟨_, _, rfl⟩
  | remove v =>
    cases v with
    | num v =>
      obtain ⟨h1, h2⟩ := C49_remove_partial t hs v
      by_cases hv : Holds t.root v
      · obtain ⟨p, x, hp⟩ := hv
        obtain ⟨l, r, hl⟩ : ∃ l r, t.root.sub p = .node l (v, ()) r := by
          simp only [BTree.at] at hp
          cases hh : t.root.sub p with
          | nil => rw [hh] at hp; simp [BTree.root?] at hp
          | node l w r =>
            rw [hh] at hp
            simp only [BTree.root?, Option.some.injEq] at hp
            subst hp
            exact ⟨l, r, rfl⟩
        obtain ⟨_, e, _⟩ := h2 p l r hl
        exact ⟨_, _, e⟩
      · obtain ⟨_, e, _⟩ := h1 hv; exact ⟨_, _, e⟩
    | none => exact ⟨_, _, rfl⟩
    | other => exact ⟨_, _, rfl⟩
  | _ => exact ⟨_, _, rfl⟩

private theorem pSplayExecs_append (p q : List (SplayOp N)) (s : PTree N Unit) :
    (pSplayExecs (p ++ q) s).1 = (pSplayExecs p s).1 ++ (pSplayExecs q (pSplayExecs p s).2).1 ∧
    (pSplayExecs (p ++ q) s).2 = (pSplayExecs q (pSplayExecs p s).2).2 := by
  induction p generalizing s with
  | nil => exact ⟨rfl, rfl⟩
  | cons o p ih => simp [pSplayExecs, ih]

private theorem splayExecs_append {p : List (SplayOp N)} {o : SplayOp N} {t t1 t2 : Bst N Unit} {rs : List (BstRes N)}
    {r : BstRes N} (h1 : splayExecs p t = .ok (rs, t1)) (h2 : splayExec t1 o = .ok (r, t2)) :
    splayExecs (p ++ [o]) t = .ok (rs ++ [r], t2) := by
  induction p generalizing t rs with
  | nil =>
    cases h1
    simp only [List.nil_append, splayExecs, h2, bind, Except.bind, pure, Except.pure]
  | cons a p ih =>
    simp only [splayExecs, bind, Except.bind] at h1
    split at h1
    · simp at h1
    next x hx =>
      obtain ⟨r1, t3⟩ := x
      simp only at h1
      split at h1
      · simp at h1
      next y hy =>
        obtain ⟨rs', t4⟩ := y
        simp only [pure, Except.pure, Except.ok.injEq, Prod.mk.injEq] at h1
        obtain ⟨rfl, rfl⟩ := h1
        simp only [List.cons_append, splayExecs, hx, ih hy, bind, Except.bind, pure, Except.pure]

/-- C75: a history of calls on a new `SplayTree` in which the order was not lost before the last call leaves
well-linked objects; the answers, the tree and the length are those of the model on trees as values.  (Without
the condition it is false, see `C75_splay_broken`.) -/
theorem C75_splay_links_partial (ops : List (SplayOp N))
    (h : ∀ p q, ops = p ++ q → q ≠ [] → InOrderNow (pSplayExecs p (PTree.empty : PTree N Unit)).2) :
    WellLinked (pSplayExecs ops PTree.empty).2 ∧
    ∃ t, splayExecs ops Bst.empty = .ok ((pSplayExecs ops PTree.empty).1, t) ∧
      Shows (pSplayExecs ops PTree.empty).2.node (pSplayExecs ops PTree.empty).2.root t.root ∧
      (pSplayExecs ops PTree.empty).2.length = t.length := by
  suffices H : ∃ t, splayExecs ops Bst.empty = .ok ((pSplayExecs ops PTree.empty).1, t) ∧
      PtrHolds (pSplayExecs ops PTree.empty).2 t by
    obtain ⟨t, e, H⟩ := H
    exact ⟨H.wellLinked, t, e, H.shows, H.length⟩
  induction ops using List.reverseRecOn with
  | nil => exact ⟨Bst.empty, rfl, holds_empty⟩
  | append_singleton ops o ih =>
    obtain ⟨t, e, H⟩ := ih fun p q hpq hq => h p (q ++ [o]) (by rw [hpq, List.append_assoc]) (by simp)
    obtain ⟨l, hl, hs⟩ := h ops [o] rfl (by simp)
    have hin : splayExec t .inorder = .ok (.ok (.list t.root.keys, false), t) := rfl
    have hk := (splay_exec H .inorder hin).1
    rw [hl] at hk
    simp only [Except.ok.injEq, Prod.mk.injEq, BstVal.list.injEq, and_true] at hk
    rw [hk] at hs
    obtain ⟨r, t', e'⟩ := splayExec_ok t hs o
    obtain ⟨k1, k2⟩ := splay_exec H o e'
    obtain ⟨a1, a2⟩ := pSplayExecs_append ops [o] (PTree.empty : PTree N Unit)
    refine ⟨t', ?_, ?_⟩
    · rw [splayExecs_append e e', a1]; simp only [pSplayExecs, k1]
    · rw [a2]; exact k2

/-- twelve calls that meet the condition, removals included -/
example : let ops := [.insert (.num 5), .insert (.num 2), .insert (.num 7), .remove (.num 7), .insert (.num 3),
      .contains (.num 2), .remove (.num 9), .insert (.num 8), .insert (.num 6), .remove (.num 5), .clear, .insert (.num 1)]
    (ops.inits.all fun p =>
      match (pSplayExec (pSplayExecs p (PTree.empty : PTree Nat Unit)).2 .inorder).1 with
      | .ok (.list l, false) => decide (l.Pairwise (· < ·))
      | _ => false) = true := by decide +kernel

/-- C75 fails without the condition: after eight insertions and removals one node object is reached in two ways;
6 was inserted and not removed and is gone, and 2 and 5 are there twice. -/
theorem C75_splay_broken :
    let s := (pSplayExecs [.insert (.num 5), .insert (.num 4), .insert (.num 6), .insert (.num 2), .insert (.num 0),
      .remove (.num 0), .insert (.num 7), .insert (.num 9)] (PTree.empty : PTree Nat Unit)).2
    ¬ WellLinked s ∧ (pSplayExec s .inorder).1 = .ok (.list [2, 5, 7, 2, 5, 4, 9], false) := by
  refine ⟨fun h => ?_, by decide +kernel⟩
  have h1 := (h [false, false] 4 (by decide +kernel)).2 [false, true, false] (by decide +kernel)
  exact absurd h1 (by decide)

/-- After ten calls the root is its own grandchild, so a traversal never ends. -/
theorem C75_splay_cycle :
    let s := (pSplayExecs [.insert (.num 3), .remove (.num 6), .remove (.num 4), .insert (.num 5), .remove (.num 1),
      .insert (.num 2), .insert (.num 4), .insert (.num 0), .remove (.num 0), .remove (.num 5)]
      (PTree.empty : PTree Nat Unit)).2
    s.reach [] = some 3 ∧ s.reach [true, true] = some 3 ∧ (pSplayExec s .inorder).1 = .error .diverge := by
  decide +kernel

/-! ## C76: AVL -/

omit [LinearOrder N] in
/-- the child links from a node spell out at most one tree -/
private theorem Shows.unique {X : Type} {nd : Addr → Option (PNode N X)} {p : Option Addr} {t u : BTree (N × X)}
    (h : Shows nd p t) (k : Shows nd p u) : t = u := by
  induction t generalizing p u with
  | nil =>
    cases p with
    | none => cases u with
      | nil => rfl
      | node => exact absurd k (by simp [Shows])
    | some => exact absurd h (by simp [Shows])
  | node l w r ihl ihr =>
    cases p with
    | none => exact absurd h (by simp [Shows])
    | some a =>
      cases u with
      | nil => exact absurd k (by simp [Shows])
      | node l' w' r' =>
        obtain ⟨n, e, h1, h2, h3, h4⟩ := h
        obtain ⟨m, e', k1, k2, k3, k4⟩ := k
        rw [e, Option.some.injEq] at e'
        subst e'
        rw [ihl h3 k3, ihr h4 k4, show w = w' from Prod.ext (h1.symm.trans k1) (h2.symm.trans k2)]

/-- what a call keeps as long as the tree is balanced -/
private def AvlKeeps (t : Bst N Nat) : Prop :=
  SearchTree t.root ∧ HeightsTrue t.root ∧ t.length = t.root.size

private theorem avlKeeps_empty : AvlKeeps (Bst.empty : Bst N Nat) := by
  refine ⟨by simp [SearchTree, Bst.empty, BTree.inorder], ?_, rfl⟩
  intro p l w r h
  cases p <;> simp [Bst.empty, BTree.sub] at h

/-- a call on a balanced tree ends and keeps order and heights -/
private theorem avlExec_ok (t : Bst N Nat) (hk : AvlKeeps t) (hb : Balanced t.root) (op : AvlOp N) :
    ∃ r t', avlExec t op = .ok (r, t') ∧ AvlKeeps t' := by
  have hk' := hk
  obtain ⟨hs, hh, hn⟩ := hk'
  cases op with
  | insert v =>
    cases v with
    | num v =>
      obtain ⟨h1, h2⟩ := C43_insert t hs hb hh hn v
      by_cases hv : Holds t.root v
      · exact ⟨_, _, h1 hv, hk⟩
      · obtain ⟨t', e, a1, a2, a3, a4, a5⟩ := h2 hv
        refine ⟨_, _, e, a1, a3, ?_⟩
        have hd : ∀ s : BTree (N × Nat), SearchTree s → s.keys.Nodup := fun s hs =>
          (show s.keys.Pairwise (· < ·) from hs).imp (fun {a b} k => ne_of_lt k)
        have hp : t'.root.keys.Perm (v :: t.root.keys) := by
          rw [List.perm_ext_iff_of_nodup (hd _ a1) (List.nodup_cons.2 ⟨fun h => hv ((holds_iff _ _).2 h), hd _ hs⟩)]
          intro x; rw [← holds_iff, a5, List.mem_cons, holds_iff]
        have := hp.length_eq
        rw [List.length_cons, BTree.keys_length_size, BTree.keys_length_size] at this
        rw [a4, hn, this]; rfl
    | none => exact ⟨_, _, rfl, hk⟩
    | other => exact ⟨_, _, rfl, hk⟩
  | remove v =>
    cases v with
    | num v =>
      obtain ⟨w, t', e, h1, _⟩ := C44_remove_partial t hs hb hh v
      obtain ⟨k1, k2⟩ := C46_remove t hs hb hh v
      by_cases hv : Holds t.root v
      · obtain ⟨t2, A, B, e2, n2, i1, i2, h2⟩ := k2 hv
        rw [e] at e2
        simp only [Except.ok.injEq, Prod.mk.injEq, true_and] at e2
        obtain ⟨-, rfl⟩ := e2
        refine ⟨_, _, e, h2, h1, ?_⟩
        simp only [avlExec, Except.ok.injEq, Prod.mk.injEq, BstVal.list.injEq, and_true] at i1 i2
        have l1 := BTree.keys_length_size t.root
        have l2 := BTree.keys_length_size t'.root
        rw [i1] at l1
        rw [i2] at l2
        simp only [List.length_append, List.length_cons] at l1 l2
        rw [n2, hn, ← l1, ← l2]; push_cast; omega
      · exact ⟨_, _, k1 hv, hk⟩
    | none => exact ⟨_, _, rfl, hk⟩
    | other => exact ⟨_, _, rfl, hk⟩
  | clear => exact ⟨_, _, rfl, avlKeeps_empty⟩
  | _ => exact ⟨_, _, rfl, hk⟩

private theorem pAvlExecs_append (p q : List (AvlOp N)) (s : PTree N Nat) :
    (pAvlExecs (p ++ q) s).1 = (pAvlExecs p s).1 ++ (pAvlExecs q (pAvlExecs p s).2).1 ∧
    (pAvlExecs (p ++ q) s).2 = (pAvlExecs q (pAvlExecs p s).2).2 := by
  induction p generalizing s with
  | nil => exact ⟨rfl, rfl⟩
  | cons o p ih => simp [pAvlExecs, ih]

private theorem avlExecs_append {p : List (AvlOp N)} {o : AvlOp N} {t t1 t2 : Bst N Nat} {rs : List (BstRes N)}
    {r : BstRes N} (h1 : avlExecs p t = .ok (rs, t1)) (h2 : avlExec t1 o = .ok (r, t2)) :
    avlExecs (p ++ [o]) t = .ok (rs ++ [r], t2) := by
  induction p generalizing t rs with
  | nil =>
    cases h1
    simp only [List.nil_append, avlExecs, h2, bind, Except.bind, pure, Except.pure]
  | cons a p ih =>
    simp only [avlExecs, bind, Except.bind] at h1
    split at h1
    · simp at h1
    next x hx =>
      obtain ⟨r1, t3⟩ := x
      simp only at h1
      split at h1
      · simp at h1
      next y hy =>
        obtain ⟨rs', t4⟩ := y
        simp only [pure, Except.pure, Except.ok.injEq, Prod.mk.injEq] at h1
        obtain ⟨rfl, rfl⟩ := h1
        simp only [List.cons_append, avlExecs, hx, ih hy, bind, Except.bind, pure, Except.pure]

/-- C76: a history of calls on a new `AVL` in which every node was balanced before each call leaves well-linked
objects; the answers, the tree with its heights, and the length are those of the model on trees as values.
(Without the condition it is false, see `C76_avl_broken`.) -/
theorem C76_avl_links_partial (ops : List (AvlOp N))
    (h : ∀ p q, ops = p ++ q → q ≠ [] → ∃ t, Balanced t ∧
      Shows (pAvlExecs p (PTree.empty : PTree N Nat)).2.node (pAvlExecs p (PTree.empty : PTree N Nat)).2.root t) :
    WellLinked (pAvlExecs ops PTree.empty).2 ∧
    ∃ t, avlExecs ops Bst.empty = .ok ((pAvlExecs ops PTree.empty).1, t) ∧
      Shows (pAvlExecs ops PTree.empty).2.node (pAvlExecs ops PTree.empty).2.root t.root ∧
      (pAvlExecs ops PTree.empty).2.length = t.length ∧ SearchTree t.root ∧ HeightsTrue t.root := by
  suffices H : ∃ t, avlExecs ops Bst.empty = .ok ((pAvlExecs ops PTree.empty).1, t) ∧
      PtrHolds (pAvlExecs ops PTree.empty).2 t ∧ AvlKeeps t by
    obtain ⟨t, e, H, k⟩ := H
    exact ⟨H.wellLinked, t, e, H.shows, H.length, k.1, k.2.1⟩
  induction ops using List.reverseRecOn with
  | nil => exact ⟨Bst.empty, rfl, holds_empty, avlKeeps_empty⟩
  | append_singleton ops o ih =>
    obtain ⟨t, e, H, k⟩ := ih fun p q hpq hq => h p (q ++ [o]) (by rw [hpq, List.append_assoc]) (by simp)
    obtain ⟨u, hb, hu⟩ := h ops [o] rfl (by simp)
    rw [Shows.unique hu H.shows] at hb
    obtain ⟨r, t', e', k'⟩ := avlExec_ok t k hb o
    obtain ⟨k1, k2⟩ := avl_exec H o e'
    obtain ⟨a1, a2⟩ := pAvlExecs_append ops [o] (PTree.empty : PTree N Nat)
    refine ⟨t', ?_, ?_, k'⟩
    · rw [avlExecs_append e e', a1]; simp only [pAvlExecs, k1]
    · rw [a2]; exact k2

/-- C76 without removals: no condition. -/
theorem C76_avl_no_removals (ops : List (AvlOp N)) (h : ∀ v, .remove v ∉ ops) :
    WellLinked (pAvlExecs ops PTree.empty).2 ∧
    ∃ t, avlExecs ops Bst.empty = .ok ((pAvlExecs ops PTree.empty).1, t) ∧
      Shows (pAvlExecs ops PTree.empty).2.node (pAvlExecs ops PTree.empty).2.root t.root ∧
      SearchTree t.root ∧ Balanced t.root ∧ HeightsTrue t.root := by
  suffices H : ∃ t, avlExecs ops Bst.empty = .ok ((pAvlExecs ops PTree.empty).1, t) ∧
      PtrHolds (pAvlExecs ops PTree.empty).2 t ∧ AvlKeeps t ∧ Balanced t.root by
    obtain ⟨t, e, H, k, b⟩ := H
    exact ⟨H.wellLinked, t, e, H.shows, k.1, b, k.2.1⟩
  have hempty : Balanced (Bst.empty : Bst N Nat).root := by
    intro p l w r h
    cases p <;> simp [Bst.empty, BTree.sub] at h
  induction ops using List.reverseRecOn with
  | nil => exact ⟨Bst.empty, rfl, holds_empty, avlKeeps_empty, hempty⟩
  | append_singleton ops o ih =>
    obtain ⟨t, e, H, k, hb⟩ := ih fun v hv => h v (by simp [hv])
    obtain ⟨r, t', e', k'⟩ := avlExec_ok t k hb o
    have hb' : Balanced t'.root := by
      cases o with
      | remove v => exact absurd (by simp) (h v)
      | insert v =>
        cases v with
        | num v =>
          obtain ⟨h1, h2⟩ := C43_insert t k.1 hb k.2.1 k.2.2 v
          by_cases hv : Holds t.root v
          · rw [h1 hv] at e'; cases e'; exact hb
          · obtain ⟨t2, e2, a1, a2, a3, a4, a5⟩ := h2 hv
            rw [e2] at e'; cases e'; exact a2
        | none => cases e'; exact hb
        | other => cases e'; exact hb
      | clear => cases e'; exact hempty
      | _ => cases e'; exact hb
    obtain ⟨k1, k2⟩ := avl_exec H o e'
    obtain ⟨a1, a2⟩ := pAvlExecs_append ops [o] (PTree.empty : PTree N Nat)
    refine ⟨t', ?_, ?_, k', hb'⟩
    · rw [avlExecs_append e e', a1]; simp only [pAvlExecs, k1]
    · rw [a2]; exact k2

/-- seven insertions with rotations, and a removal -/
def avlLinked : PTree (Fin 20) Nat :=
  (pAvlExecs [.insert (.num 5), .insert (.num 1), .insert (.num 3), .insert (.num 8),
    .insert (.num 9), .insert (.num 0), .insert (.num 7), .remove (.num 3)] PTree.empty).2

example : avlLinked.root = some 2 := by decide +kernel
example : avlLinked.reach [true, false] = some 0 := by decide +kernel
example : (avlLinked.node 0).map (·.parent) = some (some 3) := by decide +kernel
example : (pAvlExec avlLinked .inorder).1 = .ok (.list [0, 1, 5, 7, 8, 9], false) := by decide +kernel

/-- the condition of `C76_avl_links_partial` is met by insertions followed by one removal -/
example (ops : List (AvlOp N)) (h : ∀ v, .remove v ∉ ops) (v : NumArg N) :
    WellLinked (pAvlExecs (ops ++ [.remove v]) PTree.empty).2 := by
  refine (C76_avl_links_partial _ fun p q e hq => ?_).1
  have hp : ∀ v, .remove v ∉ p := by
    intro w hw
    obtain ⟨q', x, rfl⟩ : ∃ q' x, q = q' ++ [x] := ⟨_, _, (List.dropLast_append_getLast hq).symm⟩
    rw [← List.append_assoc] at e
    have e' := (List.append_inj' e rfl).1
    exact h w (e' ▸ List.mem_append_left _ hw)
  obtain ⟨-, t, -, h1, -, h2, -⟩ := C76_avl_no_removals p hp
  exact ⟨t.root, h2, h1⟩

/-- the objects four calls after the history of `C46_order_lost` -/
def avlBroken : PTree (Fin 20) Nat :=
  (pAvlExecs (avlOrderWitness ++ [.insert (.num 15), .insert (.num 11), .remove (.num 15), .remove (.num 9)])
    PTree.empty).2

/-- C76 fails without the condition: four calls after the history of `C46_order_lost` one node object is reached in
two ways; 0, 3, 4, 5, 6 and 7 were inserted and not removed and are gone, and 12 is there twice. -/
theorem C76_avl_broken : ¬ WellLinked avlBroken ∧
    (pAvlExec avlBroken .inorder).1 = .ok (.list [12, 10, 13, 11, 12], false) ∧ avlBroken.length = 10 := by
  have e1 : avlBroken.reach [true] = some 5 := by decide +kernel
  have e2 : avlBroken.reach [false, false] = some 5 := by decide +kernel
  exact ⟨fun h => absurd ((h _ _ e1).2 _ e2) (by decide), by decide +kernel, by decide +kernel⟩

/-- And `insert` raises `AttributeError` after the history of `C46_order_lost`. -/
theorem C76_avl_raises :
    (pAvlExec (pAvlExecs avlOrderWitness (PTree.empty : PTree (Fin 20) Nat)).2 (.insert (.num 13))).1 =
      .error .attributeError := by decide +kernel

end Extra
