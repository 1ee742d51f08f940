import Verif.Trees.RedBlackFate
import Verif.Props.RedBlackExact

/-!
# `RedBlackTree.remove`: C56, the exact condition

`C56_remove_partial` leaves open what becomes of the invariants, and when `AttributeError` is raised, if
the number of a black node is removed and neither the number before nor the number after it is that of a
red node.  `removalFate` (Verif/Trees/RedBlackFate.lean), a table over the colours around the place which
becomes empty, says it exactly.
-/

namespace Extra
variable {N : Type} [LinearOrder N]

private theorem sub_snoc (t : BTree (N × Color)) (p u : List Bool) : t.at (p ++ u) = ((t.sub p).sub u).root? := by
  rw [at_walk, walk_append, walk_eq_sub, walk_eq_sub]

private theorem givesWay_leaf {t : BTree (N × Color)} {p g : List Bool} {w : N × Color}
    (hp : t.sub p = .node .nil w .nil) (h : GivesWay t p g) : g = p := by
  rcases h with ⟨h, -⟩ | ⟨k, rfl, h, -⟩
  · exact h
  · rw [sub_snoc, hp] at h
    exfalso
    cases k <;> exact h rfl

private theorem givesWay_inner {t : BTree (N × Color)} {p g : List Bool} {l r} {w : N × Color}
    (hp : t.sub p = .node l w r) (hr : r ≠ .nil) (h : GivesWay t p g) : g = p ++ true :: r.minPath := by
  rcases h with ⟨-, -, h⟩ | ⟨k, rfl, h1, h2⟩
  · rw [sub_snoc, hp] at h
    cases r
    · exact absurd rfl hr
    · cases h
  · rw [sub_snoc, hp] at h1
    rw [List.append_assoc, sub_snoc, hp] at h2
    rw [minPath_unique r k]
    · intro h
      refine h1 ?_
      show (r.sub _).root? = none
      rw [h]; rfl
    · have h3 : (r.sub (List.replicate k false ++ [false])).root? = none := h2
      cases h : r.sub (List.replicate k false ++ [false])
      · rfl
      · rw [h] at h3; cases h3

private theorem givesWay_exists (t : BTree (N × Color)) {p : List Bool} {l r} {w : N × Color}
    (hp : t.sub p = .node l w r) (hr : r ≠ .nil) : GivesWay t p (p ++ true :: r.minPath) := by
  obtain ⟨k, e, h1, h2⟩ : ∃ k, r.minPath = List.replicate k false ∧ (r.sub (List.replicate k false)).root? ≠ none ∧
      (r.sub (List.replicate k false ++ [false])).root? = none := by
    rcases r with _ | ⟨_ | ⟨a, b, c⟩, w, rr⟩
    · exact absurd rfl hr
    · exact ⟨0, rfl, by simp [BTree.sub, BTree.root?], by simp [BTree.sub, BTree.root?]⟩
    · obtain ⟨k, m, d, x, R, r', h1, h2, -⟩ := takeMin_walk _ a b c w rr rfl
      have h3 : ∀ u, (BTree.node (.node a b c) w rr).sub (List.replicate k false ++ u) =
          (BTree.node (.node .nil m d) x R).sub u := by
        intro u
        rw [← walk_eq_sub, walk_append, h2, walk_eq_sub]
      refine ⟨k + 1, by rw [h1, List.replicate_succ'], ?_, ?_⟩
      · rw [List.replicate_succ', h3]; simp [BTree.sub, BTree.root?]
      · rw [List.replicate_succ', List.append_assoc, h3]; simp [BTree.sub, BTree.root?]
  refine .inr ⟨k, by rw [e], ?_, ?_⟩
  · rw [sub_snoc, hp, e]; exact h1
  · rw [List.append_assoc, sub_snoc, hp, e]; exact h2

/-- C56, exactly, in the case `C56_remove_partial` leaves open: `v` is removed from a black node and
neither the number before nor the number after it in its subtree is that of a red node.  Then `remove(v)`
does what `removalFate` says, where `g` is the place which becomes empty: it keeps the invariants, or loses
them, or raises `AttributeError`; when it does not raise, exactly `v` is removed.

Missing: the property wants the invariants kept always, without exceptions (`C56_attribute_error`,
`C56_invariants_lost`). -/
theorem C56_black_exact_partial (t : Bst N Color) (hs : SearchTree t.root) (hc : RedBlackOk t.root)
    (v : N) (p : List Bool) (l r : BTree (N × Color)) (hp : t.root.sub p = .node l (v, .black) r)
    (hn : ¬ RedNeighbour l r) (g : List Bool) (hg : GivesWay t.root p g) :
    match removalFate t.root p g with
    | .keeps => ∃ t', rbExec t (.remove (.num v)) = .ok (.ok (.unit, false), t') ∧ RemovedFrom t v t' ∧
        RedBlackOk t'.root
    | .loses => ∃ t', rbExec t (.remove (.num v)) = .ok (.ok (.unit, false), t') ∧ RemovedFrom t v t' ∧
        ¬ RedBlackOk t'.root
    | .raises => rbExec t (.remove (.num v)) = .error .attributeError := by
  have hpart := ((C56_remove_partial t hs hc v).2 p l .black r hp).2.2 rfl hn
  obtain ⟨t, k⟩ := t
  obtain ⟨⟨n, hb⟩, hroot⟩ := (redBlackOk_iff _).1 hc
  simp only at hs hc hb hroot hp hg ⊢
  have hk : t.keys.Pairwise (· < ·) := hs
  have hsearch := search_unique v t hk p l .black r hp
  have hwalk : t.walk p = .node l (v, .black) r := by rw [walk_eq_sub, hp]
  by_cases hleaf : ∃ w, t = .node .nil w .nil
  · obtain ⟨w, rfl⟩ := hleaf
    have hpp : p = [] := by
      rcases p with _ | ⟨_ | _, _ | ⟨_, p⟩⟩ <;> simp [BTree.sub] at hp ⊢
    subst hpp
    simp only [BTree.sub, BTree.node.injEq] at hp
    obtain ⟨rfl, rfl, rfl⟩ := hp
    obtain rfl := givesWay_leaf rfl hg
    have e : rbExec ⟨.node .nil (v, .black) .nil, k⟩ (.remove (.num v)) =
        .ok (.ok (.unit, false), ⟨.nil, k - 1⟩) := by simp [rbExec, rbRemoveNum]
    have : removalFate (.node .nil (v, .black) .nil) [] [] = .keeps := by
      simp [removalFate, leafFate, helps, redAt, BTree.at, BTree.sub, BTree.root?]
    rw [this]
    exact ⟨_, e, ⟨by simp [SearchTree, BTree.inorder], by simp, rfl⟩, (redBlackOk_iff _).2 ⟨⟨0, rfl⟩, rfl⟩⟩
  · have h1 : t ≠ .nil := by rintro rfl; cases p <;> simp [BTree.sub] at hp
    have hex : rbExec ⟨t, k⟩ (.remove (.num v)) = (do
        let (res, s) ← rbRemoveTree v t
        pure (res, (⟨s, match res with | .ok (_, false) => k - 1 | _ => k⟩ : Bst N Color))) := by
      simp only [rbExec]
      rcases t with _ | ⟨_ | ⟨a, b, c⟩, w, _ | ⟨a', b', c'⟩⟩
      · exact absurd rfl h1
      · exact absurd ⟨w, rfl⟩ hleaf
      · rfl
      · rfl
      · rfl
    have fin : ∀ e : Except Err (BTree (N × Color)), rbRemoveTree v t = (do
        let u ← e
        pure (.ok (.unit, false), u)) → Final e (removalFate t p g) → match removalFate t p g with
        | .keeps => ∃ t', rbExec ⟨t, k⟩ (.remove (.num v)) = .ok (.ok (.unit, false), t') ∧
            RemovedFrom ⟨t, k⟩ v t' ∧ RedBlackOk t'.root
        | .loses => ∃ t', rbExec ⟨t, k⟩ (.remove (.num v)) = .ok (.ok (.unit, false), t') ∧
            RemovedFrom ⟨t, k⟩ v t' ∧ ¬ RedBlackOk t'.root
        | .raises => rbExec ⟨t, k⟩ (.remove (.num v)) = .error .attributeError := by
      intro e he hf
      rw [hex, he] at hpart ⊢
      cases hfate : removalFate t p g <;> rw [hfate] at hf
      · obtain ⟨u, rfl, hu⟩ := hf
        rcases hpart with hpart | ⟨t', h2, h3⟩
        · cases hpart
        · cases h2; exact ⟨_, rfl, h3, hu⟩
      · obtain ⟨u, rfl, hu⟩ := hf
        rcases hpart with hpart | ⟨t', h2, h3⟩
        · cases hpart
        · cases h2; exact ⟨_, rfl, h3, hu⟩
      · cases hf; rfl
    by_cases hr : r = .nil
    · subst hr
      have hl : l = .nil := by
        obtain ⟨m, hm, -⟩ := descend_rb t p [] n hb trivial (by simp [hroot])
        rw [hwalk] at hm
        obtain ⟨j, -, h2, h3, -⟩ := hm
        have : j = 0 := h3
        subst this
        rcases rbI_zero h2 with rfl | ⟨x, rfl⟩
        · rfl
        · exact absurd (.inr ⟨x, rfl⟩) hn
      subst hl
      obtain rfl := givesWay_leaf hp hg
      obtain ⟨q, b, rfl⟩ : ∃ q b, g = q ++ [b] := by
        rcases List.eq_nil_or_concat g with rfl | ⟨q, b, rfl⟩
        · exact absurd ⟨_, by simpa [BTree.sub] using hp⟩ hleaf
        · exact ⟨q, b, by simp⟩
      have hf := case3_leaf t n hb hroot hk v q b hwalk
      refine fin (rbCase3 v t (q ++ [b]) .nil .nil .none .nil) ?_ ?_
      · simp only [rbRemoveTree, hsearch, hwalk, ne_eq, not_true_eq_false, if_false]; rfl
      · have : removalFate t (q ++ [b]) (q ++ [b]) = leafFate t q b := by
          unfold removalFate
          rw [sub_snoc, hp]
          simp only [BTree.sub, BTree.root?, ne_eq, not_true_eq_false, if_false, if_true]
          rw [if_neg (by simp), List.dropLast_concat, List.getLastD_concat]
        rw [this]; exact hf
    · obtain rfl := givesWay_inner hp hr hg
      obtain ⟨s, e, hf⟩ := case3_inner t n hb hroot hk v p l r hwalk hn hr
      refine fin _ ?_ hf
      simp only [rbRemoveTree, hsearch, hwalk, e, ne_eq, not_true_eq_false, if_false]

/-- the call inserts a number with the loss of `LosesAt`, or removes the number of a black node without a
neighbour that is red, and `removalFate` does not say `keeps` -/
def Spoils (t : BTree (N × Color)) (op : RbOp N) : Prop :=
  (∃ v, op = .insert (.num v) ∧ LosesAt v t) ∨
  ∃ v p l r g, op = .remove (.num v) ∧ t.sub p = .node l (v, .black) r ∧ ¬ RedNeighbour l r ∧
    GivesWay t p g ∧ removalFate t p g ≠ .keeps

/-- C55 and C56, exactly, for every call: on a search tree with the colour invariants a call comes to an
end and leaves a tree with the invariants if and only if it is not one of those of `Spoils`; when it comes
to an end the tree is a search tree. -/
theorem C56_call_exact (t : Bst N Color) (hs : SearchTree t.root) (hc : RedBlackOk t.root) (op : RbOp N) :
    ((∃ r t', rbExec t op = .ok (r, t') ∧ RedBlackOk t'.root) ↔ ¬ Spoils t.root op) ∧
    ∀ r t', rbExec t op = .ok (r, t') → SearchTree t'.root := by
  have same : ∀ r, rbExec t op = .ok (r, t) → ¬ Spoils t.root op →
      ((∃ r t', rbExec t op = .ok (r, t') ∧ RedBlackOk t'.root) ↔ ¬ Spoils t.root op) ∧
      ∀ r t', rbExec t op = .ok (r, t') → SearchTree t'.root := by
    intro r e k
    refine ⟨iff_of_true ⟨r, t, e, hc⟩ k, fun r' t' e' => ?_⟩
    rw [e] at e'; cases e'; exact hs
  have plain : (∀ v, op ≠ .insert (.num v)) → (∀ v, op ≠ .remove (.num v)) → ¬ Spoils t.root op := by
    rintro k1 k2 (⟨v, h, -⟩ | ⟨v, _, _, _, _, h, -⟩)
    · exact k1 v h
    · exact k2 v h
  have done : ∀ r t', rbExec t op = .ok (r, t') → SearchTree t'.root → RedBlackOk t'.root → ¬ Spoils t.root op →
      ((∃ r t', rbExec t op = .ok (r, t') ∧ RedBlackOk t'.root) ↔ ¬ Spoils t.root op) ∧
      ∀ r t', rbExec t op = .ok (r, t') → SearchTree t'.root := by
    intro r t' e h1 h2 k
    refine ⟨iff_of_true ⟨r, t', e, h2⟩ k, fun r' t'' e' => ?_⟩
    rw [e] at e'; cases e'; exact h1
  cases op with
  | insert v =>
    cases v with
    | num v =>
      obtain ⟨w, t', e, hiff, -⟩ := C55_insert_exact_partial t hs hc v
      obtain ⟨w2, t2, e2, hs', -⟩ := C54_insert t hs v
      rw [e] at e2
      cases e2
      refine ⟨?_, fun r t2 e2 => ?_⟩
      · have h1 : Spoils t.root (.insert (.num v)) ↔ LosesAt v t.root := by
          constructor
          · rintro (⟨v', h, h'⟩ | ⟨v', _, _, _, _, h, -⟩)
            · cases h; exact h'
            · cases h
          · exact fun h => .inl ⟨v, rfl, h⟩
        rw [h1, ← hiff]
        constructor
        · rintro ⟨r, t2, e2, h⟩
          rw [e] at e2; cases e2; exact h
        · exact fun h => ⟨_, _, e, h⟩
      · rw [e] at e2; cases e2; exact hs'
    | none => exact same _ rfl (plain (by simp) (by simp))
    | other => exact same _ rfl (plain (by simp) (by simp))
  | remove v =>
    cases v with
    | num v =>
      obtain ⟨k1, k2⟩ := C56_remove_partial t hs hc v
      by_cases hv : Holds t.root v
      · obtain ⟨p, l, c, r, hp⟩ : ∃ p l c r, t.root.sub p = .node l (v, c) r := by
          obtain ⟨p, x, hp⟩ := hv
          unfold BTree.at at hp
          rcases h : t.root.sub p with _ | ⟨l, w, r⟩
          · rw [h] at hp; cases hp
          · rw [h] at hp
            simp only [BTree.root?, Option.some.injEq] at hp
            subst hp
            exact ⟨p, l, x, r, h⟩
        have hk : t.root.keys.Pairwise (· < ·) := hs
        have uniq : ∀ p' l' r', t.root.sub p' = .node l' (v, .black) r' → p' = p ∧ l' = l ∧ c = .black ∧ r' = r := by
          intro p' l' r' h
          have e1 := search_unique v t.root hk p l c r hp
          have e2 := search_unique v t.root hk p' l' .black r' h
          rw [e1] at e2
          subst e2
          rw [hp] at h
          simp only [BTree.node.injEq, Prod.mk.injEq, true_and] at h
          exact ⟨rfl, h.1.symm, h.2.1, h.2.2.symm⟩
        obtain ⟨a1, a2, a3⟩ := k2 p l c r hp
        by_cases hrn : (c = .red ∧ l = .nil ∧ r = .nil) ∨ RedNeighbour l r
        · obtain ⟨t', e, b1, b2⟩ := a1 hrn
          refine done _ _ e b1.search b2 ?_
          rintro (⟨_, h, -⟩ | ⟨v', p', l', r', g, h, h', h'', -⟩)
          · cases h
          · cases h
            obtain ⟨rfl, rfl, rfl, rfl⟩ := uniq _ _ _ h'
            rcases hrn with ⟨h, -⟩ | h
            · cases h
            · exact h'' h
        · obtain ⟨hrn1, hrn2⟩ := not_or.1 hrn
          cases c with
          | red =>
            refine same _ (a2 rfl (fun h => hrn1 ⟨rfl, h⟩) hrn2) ?_
            rintro (⟨_, h, -⟩ | ⟨v', p', l', r', g, h, h', -⟩)
            · cases h
            · cases h
              obtain ⟨-, -, h, -⟩ := uniq _ _ _ h'
              cases h
          | black =>
            obtain ⟨g, hg⟩ : ∃ g, GivesWay t.root p g := by
              by_cases hr : r = .nil
              · subst hr
                refine ⟨p, .inl ⟨rfl, ?_, ?_⟩⟩
                · rw [sub_snoc, hp]
                  obtain ⟨⟨n, hb⟩, hroot⟩ := (redBlackOk_iff _).1 hc
                  obtain ⟨m, hm, -⟩ := descend_rb t.root p [] n hb trivial (by simp [hroot])
                  rw [walk_eq_sub, hp] at hm
                  obtain ⟨j, -, h2, h3, -⟩ := hm
                  have : j = 0 := h3
                  subst this
                  rcases rbI_zero h2 with rfl | ⟨x, rfl⟩
                  · rfl
                  · exact absurd (.inr ⟨x, rfl⟩) hrn2
                · rw [sub_snoc, hp]; rfl
              · exact ⟨_, givesWay_exists t.root hp hr⟩
            have hfate := C56_black_exact_partial t hs hc v p l r hp hrn2 g hg
            have h1 : Spoils t.root (.remove (.num v)) ↔ removalFate t.root p g ≠ .keeps := by
              constructor
              · rintro (⟨_, h, -⟩ | ⟨v', p', l', r', g', h, h', -, hg', h''⟩)
                · cases h
                · cases h
                  obtain ⟨rfl, rfl, -, rfl⟩ := uniq _ _ _ h'
                  have : g' = g := by
                    by_cases hr : r' = .nil
                    · subst hr
                      have hl : l' = .nil := by
                        rcases hg with ⟨-, h, -⟩ | ⟨k, e, h, -⟩
                        · rw [sub_snoc, hp] at h
                          cases l'
                          · rfl
                          · cases h
                        · rw [e, sub_snoc, hp] at h
                          exfalso
                          cases k <;> exact h rfl
                      subst hl
                      rw [givesWay_leaf hp hg, givesWay_leaf hp hg']
                    · rw [givesWay_inner hp hr hg, givesWay_inner hp hr hg']
                  rw [this] at h''
                  exact h''
              · exact fun h => .inr ⟨v, p, l, r, g, rfl, hp, hrn2, hg, h⟩
            rw [h1]
            cases hf : removalFate t.root p g <;> rw [hf] at hfate
            · obtain ⟨t', e, b1, b2⟩ := hfate
              refine ⟨iff_of_true ⟨_, t', e, b2⟩ (by simp), fun r t2 e2 => ?_⟩
              rw [e] at e2; cases e2; exact b1.search
            · obtain ⟨t', e, b1, b2⟩ := hfate
              refine ⟨iff_of_false ?_ (by simp), fun r t2 e2 => ?_⟩
              · rintro ⟨r, t2, e2, h⟩
                rw [e] at e2; cases e2; exact b2 h
              · rw [e] at e2; cases e2; exact b1.search
            · refine ⟨iff_of_false ?_ (by simp), fun r t2 e2 => ?_⟩
              · rintro ⟨r, t2, e2, h⟩
                rw [hfate] at e2; cases e2
              · rw [hfate] at e2; cases e2
      · refine same _ (k1 hv) ?_
        rintro (⟨_, h, -⟩ | ⟨v', p', l', r', g, h, h', -⟩)
        · cases h
        · cases h
          exact hv ⟨p', .black, by rw [BTree.at, h']; rfl⟩
    | none => exact same _ rfl (plain (by simp) (by simp))
    | other => exact same _ rfl (plain (by simp) (by simp))
  | clear =>
    refine done _ Bst.empty rfl (by simp [Bst.empty, SearchTree, BTree.inorder]) ?_ (plain (by simp) (by simp))
    exact (redBlackOk_iff _).2 ⟨⟨0, rfl⟩, rfl⟩
  | contains v => exact same _ rfl (plain (by simp) (by simp))
  | getMin => exact same _ rfl (plain (by simp) (by simp))
  | getMax => exact same _ rfl (plain (by simp) (by simp))
  | len => exact same _ rfl (plain (by simp) (by simp))
  | inorder => exact same _ rfl (plain (by simp) (by simp))
  | blackHeight => exact same _ rfl (plain (by simp) (by simp))

/-- each call comes to an end and leaves a tree with the invariants -/
def SoundThroughout : List (RbOp N) → Bst N Color → Prop
  | [], _ => True
  | op :: ops, t => ∃ r t', rbExec t op = .ok (r, t') ∧ RedBlackOk t'.root ∧ SoundThroughout ops t'

/-- no call is one of those described by `Spoils` -/
def NeverSpoils : List (RbOp N) → Bst N Color → Prop
  | [], _ => True
  | op :: ops, t => ¬ Spoils t.root op ∧ ∀ r t', rbExec t op = .ok (r, t') → NeverSpoils ops t'

/-- C55 and C56 for histories: each call comes to an end and leaves a tree with the invariants exactly if
no call is one of those described by `Spoils` -/
theorem C56_history_exact (ops : List (RbOp N)) : SoundThroughout ops Bst.empty ↔ NeverSpoils ops Bst.empty := by
  suffices H : ∀ (ops : List (RbOp N)) (t : Bst N Color), SearchTree t.root → RedBlackOk t.root →
      (SoundThroughout ops t ↔ NeverSpoils ops t) by
    refine H ops Bst.empty (by simp [Bst.empty, SearchTree, BTree.inorder]) ?_
    exact (redBlackOk_iff _).2 ⟨⟨0, rfl⟩, rfl⟩
  intro ops
  induction ops with
  | nil => exact fun t _ _ => Iff.rfl
  | cons op ops ih =>
    intro t hs hc
    obtain ⟨h1, h2⟩ := C56_call_exact t hs hc op
    rw [SoundThroughout, NeverSpoils, ← h1]
    constructor
    · rintro ⟨r, t', e, h3, h4⟩
      refine ⟨⟨r, t', e, h3⟩, fun r2 t2 e2 => ?_⟩
      rw [e] at e2
      cases e2
      exact (ih t' (h2 _ _ e) h3).1 h4
    · rintro ⟨⟨r, t', e, h3⟩, h4⟩
      exact ⟨r, t', e, h3, (ih t' (h2 _ _ e) h3).2 (h4 _ _ e)⟩

/-! A case of each kind: from the tree after 0, 1, 2, 3 with black 0, 1, 2 and red 3, taking out 0 keeps the
invariants (2 has a red child), taking out 1 loses them (the place of 2 is filled with the red 3); from
the tree after 1, 2, 3, 0, taking out 2 raises. -/

example : removalFate (.node (.node .nil (0, .black) .nil) (1, .black)
      (.node .nil (2, .black) (.node .nil (3, .red) .nil)) : BTree (Fin 20 × Color)) [false] [false] = .keeps ∧
    removalFate (.node (.node .nil (0, .black) .nil) (1, .black)
      (.node .nil (2, .black) (.node .nil (3, .red) .nil)) : BTree (Fin 20 × Color)) [] [true] = .loses ∧
    removalFate (.node (.node (.node .nil (0, .red) .nil) (1, .black) .nil) (2, .black)
      (.node .nil (3, .black) .nil) : BTree (Fin 20 × Color)) [] [true] = .raises := by decide +kernel

example : rbExecs (rbInserts [0, 1, 2, 3]) (Bst.empty : Bst (Fin 20) Color) =
    .ok (List.replicate 4 (.ok (.unit, false)), ⟨.node (.node .nil (0, .black) .nil) (1, .black)
      (.node .nil (2, .black) (.node .nil (3, .red) .nil)), 4⟩) := by decide +kernel

example : GivesWay (.node (.node .nil (0, .black) .nil) (1, .black)
    (.node .nil (2, .black) (.node .nil (3, .red) .nil)) : BTree (Fin 20 × Color)) [] [true] :=
  .inr ⟨0, rfl, by decide +kernel, by decide +kernel⟩

end Extra
