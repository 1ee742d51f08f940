import Verif.Trees.PtrSpec
import Verif.Trees.PtrTreapCalls
import Verif.Trees.TreapPairs
import Verif.Props.Treap
import Mathlib.Data.List.Induction
import Batteries.Lean.Except

/-!
# Property C77: the links of Treap

The model is the one with node objects (Verif/Trees/PtrTreap.lean).  `WellLinked` and `Shows` (Verif/Trees/PtrSpec.lean)
and `mapExec` (Verif/Trees/TreapSpec.lean) are the specification.  A history goes on after an exception.
-/

set_option linter.unusedSectionVars false

namespace Extra
variable {N P : Type} [LinearOrder N] [LinearOrder P]

/-- the objects are linked as a search tree with these numbers and priorities from left to right, and the length
is right -/
structure TreapAt (s : PTree N P) (m : List (N × P)) : Prop where
  links : WellLinked s
  tree : ∃ t, Shows s.node s.root t ∧ SearchTree t ∧ t.inorder = m
  len : s.length = (m.length : Int)

private theorem TreapAt.of {s : PTree N P} {t : Bst N P} {m : List (N × P)} (h : PtrHolds s t) (ht : TreapPairs t m) :
    TreapAt s m :=
  ⟨h.wellLinked, ⟨t.root, h.shows, ht.search, ht.pairs⟩, by rw [h.length, ht.len]⟩

/-- what one call answers, and what it leaves -/
def TreapAnswers (m1 : P) (s : PTree N P) (m : List (N × P)) (op : TreapOp N P) : Prop :=
  ((pTreapExec m1 s op).1 = (mapExec m op).1 ∧ TreapAt (pTreapExec m1 s op).2 (mapExec m op).2) ∨
  ((∃ v, op = .remove (.num v) ∧ v ∈ m.map Prod.fst) ∧ (∃ x ∈ m, x.2 ≤ m1) ∧
    (pTreapExec m1 s op).1 = .error .attributeError ∧ TreapAt (pTreapExec m1 s op).2 m)

private theorem call (m1 : P) {s : PTree N P} {t : Bst N P} {m : List (N × P)} (h : PtrHolds s t)
    (ht : TreapPairs t m) (op : TreapOp N P) :
    TreapAnswers m1 s m op ∧ ∃ t' m', PtrHolds (pTreapExec m1 s op).2 t' ∧ TreapPairs t' m' := by
  obtain ⟨ok, bad⟩ := treap_exec m1 h ht.search op
  rcases treapPairs_step m1 t m ht op with ⟨t', e, ht'⟩ | ⟨e, v, ho, hv, low⟩
  · obtain ⟨h1, h2⟩ := ok _ _ e
    exact ⟨.inl ⟨h1, .of h2 ht'⟩, t', _, h2, ht'⟩
  · obtain ⟨t', h1, h2, h3, h4⟩ := bad _ e
    have ht' : TreapPairs t' m :=
      ⟨by unfold SearchTree; rw [h3]; exact ht.search, h3.trans ht.pairs, h4.trans ht.len⟩
    exact ⟨.inr ⟨⟨v, ho, hv⟩, low, h1, .of h2 ht'⟩, t', _, h2, ht'⟩

private theorem run (m1 : P) (ops : List (TreapOp N P)) {s : PTree N P} {t : Bst N P} {m : List (N × P)}
    (h : PtrHolds s t) (ht : TreapPairs t m) :
    ∃ t' m', PtrHolds (pTreapExecs m1 ops s).2 t' ∧ TreapPairs t' m' := by
  induction ops generalizing s t m with
  | nil => exact ⟨t, m, h, ht⟩
  | cons op ops ih =>
    obtain ⟨-, t', m', h', ht'⟩ := call m1 h ht op
    exact ih h' ht'

/-- C77: after any calls on a new `Treap`, with any priorities and with calls that raise among them, the objects
are linked as a search tree; and every further call answers what the map answers and leaves the objects linked
with the pairs of the map, except that a `remove` of a number that is there can raise AttributeError — then the
objects are still linked with the same pairs, and some priority is not above −1. -/
theorem C77_treap_links (m1 : P) (ops : List (TreapOp N P)) :
    ∃ m, TreapAt (pTreapExecs m1 ops PTree.empty).2 m ∧
      ∀ op, TreapAnswers m1 (pTreapExecs m1 ops PTree.empty).2 m op := by
  obtain ⟨t, m, h, ht⟩ := run m1 ops (holds_empty (N := N) (X := P)) treapPairs_empty
  exact ⟨m, .of h ht, fun op => (call m1 h ht op).1⟩

private theorem agree (m1 : P) (ops : List (TreapOp N P)) {s : PTree N P} {t t' : Bst N P} {m : List (N × P)}
    {rs : List (BstRes N)} (h : PtrHolds s t) (ht : TreapPairs t m) (e : treapExecs m1 ops t = .ok (rs, t')) :
    (pTreapExecs m1 ops s).1 = rs ∧ PtrHolds (pTreapExecs m1 ops s).2 t' := by
  induction ops generalizing s t m rs with
  | nil =>
    simp only [treapExecs, Except.ok.injEq, Prod.mk.injEq] at e
    obtain ⟨rfl, rfl⟩ := e
    exact ⟨rfl, h⟩
  | cons op ops ih =>
    rcases treapPairs_step m1 t m ht op with ⟨t1, e1, ht1⟩ | ⟨e1, -⟩
    · obtain ⟨h1, h2⟩ := (treap_exec m1 h ht.search op).1 _ _ e1
      cases e2 : treapExecs m1 ops t1 with
      | error x => simp [treapExecs, e1, e2, bind, Except.bind] at e
      | ok y =>
        obtain ⟨rs2, t2⟩ := y
        simp only [treapExecs, e1, e2, bind, Except.bind, pure, Except.pure, Except.ok.injEq, Prod.mk.injEq] at e
        obtain ⟨rfl, rfl⟩ := e
        obtain ⟨h3, h4⟩ := ih h2 ht1 e2
        exact ⟨by simp only [pTreapExecs, h1, h3], h4⟩
    · simp [treapExecs, e1, bind, Except.bind] at e

/-- C77: when every priority is above −1, or nothing is removed, the calls answer what the map answers, and at the
end the objects are linked as a search tree in heap order with the pairs of the map. -/
theorem C77_treap_answers (m1 : P) (ops : List (TreapOp N P))
    (hops : PrioritiesAbove m1 ops ∨ ∀ v, TreapOp.remove v ∉ ops) :
    (pTreapExecs m1 ops PTree.empty).1 = (mapExecs ops []).1 ∧
    TreapAt (pTreapExecs m1 ops PTree.empty).2 (mapExecs ops []).2 ∧
    ∃ t, Shows (pTreapExecs m1 ops PTree.empty).2.node (pTreapExecs m1 ops PTree.empty).2.root t ∧
      TreapOrdered t := by
  have : ∃ t, treapExecs m1 ops Bst.empty = .ok ((mapExecs ops []).1, t) ∧ TreapOf t (mapExecs ops []).2 := by
    rcases hops with h | h
    · obtain ⟨t, e⟩ := C52_total_partial m1 ops h
      exact ⟨t, e, (C51_history m1 ops _ t e).2⟩
    · exact C50_inserts m1 ops h
  obtain ⟨t, e, ht⟩ := this
  obtain ⟨h1, h2⟩ := agree m1 ops (holds_empty (N := N) (X := P)) treapPairs_empty e
  exact ⟨h1, .of h2 ⟨ht.search, ht.pairs, ht.len⟩, t.root, h2.shows, ht.heap⟩

/-- six calls, with a removal -/
def treapLinked : PTree (Fin 20) Int :=
  (pTreapExecs (-1) [.insert (.num 5) (.num 3), .insert (.num 2) (.num 8), .insert (.num 7) (.num 5),
    .insert (.num 6) (.num 9), .remove (.num 6), .insert (.num 3) (.num 4)] PTree.empty).2

example : treapLinked.root = some 1 := by decide +kernel
example : treapLinked.node 4 = some ⟨3, 4, none, some 0, some 2⟩ := by decide +kernel
example : treapLinked.reach [true, false] = some 4 := by decide +kernel
example : (pTreapExec (-1) treapLinked .inorder).1 = .ok (.list [2, 3, 5, 7], false) := by decide +kernel

/-- the hypothesis of `C77_treap_answers` holds of these calls -/
example : PrioritiesAbove (-1) ([.insert (.num 5) (.num 3), .insert (.num 2) (.num 8), .remove (.num 5)] :
    List (TreapOp (Fin 20) Int)) := by
  intro v p h
  simp at h
  omega

/-- Three inserts, and a removal that raises after the first rotation. -/
def treapUnheaped (k : Nat) : List (BstRes (Fin 20)) × PTree (Fin 20) Int :=
  pTreapExecs (-1) ([.insert (.num 5) (.num 3), .insert (.num 2) (.num (-2)), .insert (.num 7) (.num 0),
    .remove (.num 5), .remove (.num 7), .len, .inorder].take k) PTree.empty

/-- C77: what the exception leaves is not in heap order: the node 7 with the priority 0 is above the node 5 with the
priority 3.  The calls after it answer what the map answers. -/
theorem C77_treap_unheaped :
    (treapUnheaped 4).1.getLast? = some (.error .attributeError) ∧
    (treapUnheaped 4).2.root = some 2 ∧
    (treapUnheaped 4).2.node 2 = some ⟨7, 0, some 0, none, none⟩ ∧
    (treapUnheaped 4).2.node 0 = some ⟨5, 3, some 1, none, some 2⟩ ∧
    (treapUnheaped 7).1.drop 4 = [.ok (.unit, false), .ok (.int 2, false), .ok (.list [2, 5], false)] := by
  decide +kernel

end Extra
