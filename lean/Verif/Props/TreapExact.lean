import Verif.Props.Treap
import Verif.Trees.TreapExact

/-!
# C52, exactly: which removals from a treap raise
-/

set_option linter.unusedSectionVars false

namespace Extra
variable {N P : Type} [LinearOrder N] [LinearOrder P]

private theorem remove_call (m1 : P) (t : Bst N P) (m : List (N × P)) (h : TreapOf t m) (v : N)
    (hv : v ∈ m.map Prod.fst) : ∃ pre l w r post, TreapAround t.root pre l w r post ∧ w.1 = v ∧
      (treapExec m1 t (.remove (.num v)) = .error .attributeError ↔ stuckAt m1 l.lastPrio r.firstPrio) := by
  obtain ⟨hs, hh, rfl, -⟩ := h
  obtain ⟨t, n⟩ := t
  simp only at hs hh hv ⊢
  obtain ⟨pre, l, w, r, post, A, hw, hr⟩ := treapRemove_raises m1 v t hs ((heapI_iff t).2 hh) hv
  refine ⟨pre, l, w, r, post, A, hw, ?_⟩
  rw [← hr]
  have general : treapRemoveNum m1 ⟨t, n⟩ (.num v) = (do
        match ← t.treapRemove m1 v with
        | none => pure (.ok (.unit, true), ⟨t, n⟩)
        | some (s, _) => pure (.ok (.unit, false), ⟨s, n - 1⟩)) →
      (treapRemoveNum m1 ⟨t, n⟩ (.num v) = .error .attributeError ↔
        t.treapRemove m1 v = .error .attributeError) := by
    intro e
    rw [e]
    cases t.treapRemove m1 v with
    | error e => simp [bind, Except.bind]
    | ok x => rcases x with _ | ⟨s, c⟩ <;> simp [bind, Except.bind, pure, Except.pure]
  rcases t with _ | ⟨_ | ⟨a, b, c⟩, u, _ | ⟨a', b', c'⟩⟩
  · simp at hv
  · have hu : v = u.1 := by simpa using hv
    simp [treapExec, treapRemoveNum, hu, BTree.treapRemove, treapDown, bind, Except.bind, pure, Except.pure]
  · exact general rfl
  · exact general rfl
  · exact general rfl

/-- C52, exactly: removing a number that is held from a treap raises `AttributeError` if and only if the
lower one of two priorities is too low: that of the last number of the left subtree of its node (it must be
higher than -1) and that of the first number of the right subtree (it must be at least -1). -/
theorem C52_exact (m1 : P) (t : Bst N P) (m : List (N × P)) (h : TreapOf t m) (v : N) (p : P)
    (q : List Bool) (l r : BTree (N × P)) (hq : t.root.sub q = .node l (v, p) r) :
    treapExec m1 t (.remove (.num v)) = .error .attributeError ↔
      stuckAt m1 (l.inorder.getLast?.map Prod.snd) (r.inorder.head?.map Prod.snd) := by
  have hs : t.root.keys.Pairwise (· < ·) := h.search
  have hv : v ∈ m.map Prod.fst := by
    rw [← h.pairs]
    exact (holds_iff t.root v).1 ⟨q, p, by simp [BTree.at, hq, BTree.root?]⟩
  obtain ⟨pre, l', ⟨v', p'⟩, r', post, A, hw, hr⟩ := remove_call m1 t m h v hv
  obtain ⟨q', hq'⟩ := A.sub
  cases hw
  have e := (search_unique v' t.root hs q' l' p' r' hq').symm.trans (search_unique v' t.root hs q l p r hq)
  rw [e, hq] at hq'
  cases hq'
  exact hr

/-- C52, exactly, in terms of the map, for different priorities: the neighbours of the number in the map that
have a lower priority than it decide. -/
theorem C52_map_exact (m1 : P) (t : Bst N P) (m : List (N × P)) (h : TreapOf t m)
    (hp : (m.map Prod.snd).Nodup) (v : N) :
    treapExec m1 t (.remove (.num v)) = .error .attributeError ↔ raisesIn m1 m v := by
  by_cases hv : v ∈ m.map Prod.fst
  · obtain ⟨pre, l, ⟨v', p⟩, r, post, A, hw, hr⟩ := remove_call m1 t m h v hv
    cases hw
    rw [hr]
    obtain ⟨b1, b2⟩ := A.below (by rw [h.pairs]; exact hp)
    have hi := A.inorder
    rw [h.pairs] at hi
    constructor
    · intro k
      exact ⟨_, p, _, hi, by rw [b1, b2]; exact k⟩
    · rintro ⟨pre', p', post', e, k⟩
      have hn : (m.map Prod.fst).Nodup := by
        have hs := h.search
        unfold SearchTree at hs
        rw [h.pairs] at hs
        exact hs.imp (fun {a b} h => ne_of_lt h)
      have key : ∀ {A B A' B' : List (N × P)} {p p' : P},
          A ++ (v', p) :: B = A' ++ (v', p') :: B' → v' ∉ A.map Prod.fst → v' ∉ A'.map Prod.fst →
          A = A' ∧ p = p' ∧ B = B' := by
        intro A
        induction A with
        | nil =>
          intro B A' B' p p' e _ h2
          cases A' with
          | nil => simp at e; exact ⟨rfl, e.1, e.2⟩
          | cons x A' => simp at e; exact absurd (by simp [← e.1]) h2
        | cons y A ih =>
          intro B A' B' p p' e h1 h2
          cases A' with
          | nil => simp at e; exact absurd (by simp [e.1]) h1
          | cons x A' =>
            simp only [List.cons_append, List.cons.injEq] at e
            simp only [List.map_cons, List.mem_cons, not_or] at h1 h2
            obtain ⟨i1, i2⟩ := ih e.2 h1.2 h2.2
            exact ⟨by rw [e.1, i1], i2⟩
      have notin : ∀ {A B : List (N × P)} {p : P}, m = A ++ (v', p) :: B → v' ∉ A.map Prod.fst := by
        intro A B p e hm
        rw [e, List.map_append, List.map_cons, List.nodup_append] at hn
        exact hn.2.2 v' hm v' (by simp) rfl
      obtain ⟨e1, e2, e3⟩ := key (hi.symm.trans e) (notin hi) (notin e)
      rw [← e1, ← e2, ← e3, b1, b2] at k
      exact k
  · constructor
    · intro k
      rcases treapOf_step m1 t m h (.remove (.num v)) with ⟨t', e, -⟩ | ⟨-, u, hu, hv', -⟩
      · rw [e] at k; cases k
      · cases hu; exact absurd hv' hv
    · rintro ⟨pre, p, post, rfl, -⟩
      exact absurd (by simp) hv

private theorem mapInsert_snd (v : N) (p : P) : ∀ (m : List (N × P)) (qs : List P),
    (m.map Prod.snd ++ p :: qs).Nodup → ((mapInsert (v, p) m).map Prod.snd ++ qs).Nodup := by
  intro m qs h
  have : (mapInsert (v, p) m = m) ∨ ((mapInsert (v, p) m).Perm ((v, p) :: m)) := by
    clear h
    induction m with
    | nil => right; exact List.Perm.refl _
    | cons w m ih =>
      simp only [mapInsert]
      split_ifs with h1 h2
      · right; exact List.Perm.refl _
      · left; rfl
      · rcases ih with e | e
        · left; rw [e]
        · right; exact (e.cons w).trans (List.Perm.swap _ _ _)
  rcases this with e | e
  · rw [e]
    refine List.Nodup.sublist ?_ h
    exact List.Sublist.append (List.Sublist.refl _) (List.sublist_cons_self _ _)
  · have e' : ((mapInsert (v, p) m).map Prod.snd ++ qs).Perm (m.map Prod.snd ++ p :: qs) := by
      refine ((e.map Prod.snd).append_right qs).trans ?_
      simp only [List.map_cons, List.cons_append]
      exact List.perm_middle.symm
    exact e'.nodup_iff.2 h

/-- the priorities in the map and those still to come are different after each call -/
private theorem fresh_step (m : List (N × P)) (op : TreapOp N P) (ops : List (TreapOp N P))
    (h : (m.map Prod.snd ++ priosOf (op :: ops)).Nodup) :
    ((mapExec m op).2.map Prod.snd ++ priosOf ops).Nodup := by
  cases op with
  | insert v p =>
    have weaken : ∀ q : P, (m.map Prod.snd ++ q :: priosOf ops).Nodup →
        (m.map Prod.snd ++ priosOf ops).Nodup := fun q h =>
      List.Nodup.sublist (List.Sublist.append (List.Sublist.refl _) (List.sublist_cons_self _ _)) h
    rcases v with v | _ | _ <;> rcases p with p | p | _
    · exact mapInsert_snd v p m _ h
    · exact mapInsert_snd v p m _ h
    · exact h
    · exact weaken p h
    · exact weaken p h
    · exact h
    · exact weaken p h
    · exact weaken p h
    · exact h
  | remove v =>
    rcases v with v | _ | _
    · exact List.Nodup.sublist (List.Sublist.append (List.filter_sublist.map _) (List.Sublist.refl _)) h
    · exact h
    · exact h
  | contains v => rcases v with v | _ | _ <;> exact h
  | getMin => simp only [mapExec]; cases m.head? <;> exact h
  | getMax => simp only [mapExec]; cases m.getLast? <;> exact h
  | len => exact h
  | inorder => exact h
  | clear => exact List.Nodup.sublist (List.sublist_append_right _ _) h

private theorem run_exact (m1 : P) (ops : List (TreapOp N P)) : ∀ (t : Bst N P) (m : List (N × P)),
    TreapOf t m → (m.map Prod.snd ++ priosOf ops).Nodup →
    (treapExecs m1 ops t = .error .attributeError ↔
      ∃ pre v post, ops = pre ++ .remove (.num v) :: post ∧ raisesIn m1 (mapExecs pre m).2 v) := by
  induction ops with
  | nil =>
    intro t m _ _
    simp only [treapExecs, reduceCtorEq, false_iff]
    rintro ⟨pre, v, post, e, -⟩
    cases pre <;> simp at e
  | cons op ops ih =>
    intro t m h hn
    have hm : (m.map Prod.snd).Nodup := List.Nodup.sublist (List.sublist_append_left _ _) hn
    rcases treapOf_step m1 t m h op with ⟨t', e, h'⟩ | ⟨e, v, rfl, hv, -⟩
    · have := ih t' _ h' (fresh_step m op ops hn)
      have hl : treapExecs m1 (op :: ops) t = .error .attributeError ↔
          treapExecs m1 ops t' = .error .attributeError := by
        cases e' : treapExecs m1 ops t' <;>
          simp [treapExecs, e, e', bind, Except.bind, pure, Except.pure]
      rw [hl, this]
      constructor
      · rintro ⟨pre, v, post, rfl, hr⟩
        exact ⟨op :: pre, v, post, rfl, hr⟩
      · rintro ⟨pre, v, post, e2, hr⟩
        cases pre with
        | nil =>
          simp only [List.nil_append, List.cons.injEq] at e2
          obtain ⟨rfl, rfl⟩ := e2
          rw [(C52_map_exact m1 t m h hm v).2 hr] at e
          cases e
        | cons o pre =>
          simp only [List.cons_append, List.cons.injEq] at e2
          obtain ⟨rfl, rfl⟩ := e2
          exact ⟨pre, v, post, rfl, hr⟩
    · refine iff_of_true (by simp [treapExecs, e, bind, Except.bind]) ⟨[], v, ops, rfl, ?_⟩
      exact (C52_map_exact m1 t m h hm v).1 e

/-- C52, exactly, for histories on a new treap in which no priority is used twice: a call raises from its
middle if and only if the history has a removal that `raisesIn` describes. -/
theorem C52_history_exact (m1 : P) (ops : List (TreapOp N P)) (hp : (priosOf ops).Nodup) :
    (∃ e, treapExecs m1 ops Bst.empty = .error e) ↔
      ∃ pre v post, ops = pre ++ .remove (.num v) :: post ∧ raisesIn m1 (mapExecs pre []).2 v := by
  rw [← run_exact m1 ops Bst.empty [] treapOf_empty (by simpa using hp)]
  constructor
  · rintro ⟨e, he⟩
    rw [he, (C52_only_attribute_error m1 ops e he).1]
  · exact fun h => ⟨_, h⟩

/-- the priority -1 is too low for the left neighbour 6 and not for the right neighbour 8; the priority -5 of 3
does not matter -/
example : (treapExecs (-1) ([.insert (.num 5) (.num 3), .insert (.num 3) (.num (-5)), .insert (.num 7) (.num 0),
      .insert (.num 6) (.num (-1)), .remove (.num 7), .inorder] : List (TreapOp (Fin 20) Int))
      Bst.empty).map (·.1.getLast?) = .error .attributeError ∧
    (treapExecs (-1) ([.insert (.num 5) (.num 3), .insert (.num 3) (.num (-5)), .insert (.num 7) (.num 0),
      .insert (.num 8) (.num (-1)), .remove (.num 7), .inorder] : List (TreapOp (Fin 20) Int))
      Bst.empty).map (·.1.getLast?) = .ok (some (.ok (.list [3, 5, 8], false))) := by decide +kernel

/-- the removal of 7 in the first history: its neighbour 6 has the priority -1 -/
example : raisesIn (-1 : Int) [((3 : Fin 20), -5), (5, 3), (6, -1), (7, 0)] 7 :=
  ⟨[(3, -5), (5, 3), (6, -1)], 0, [], rfl, by decide⟩

example : ¬ stuckAt (-1 : Int) (below 0 ([((3 : Fin 20), -5), (5, 3)] : List (Fin 20 × Int)).getLast?)
    (below 0 ([(8, -1)] : List (Fin 20 × Int)).head?) := by decide

end Extra
