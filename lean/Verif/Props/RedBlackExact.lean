import Verif.Trees.RedBlackExact
import Verif.Props.RedBlack

/-!
# `RedBlackTree.insert`: C55, the exact condition

`C55_insert_partial` gives a condition under which the invariants are kept.  Here is the exact one:
`LosesAt` (Verif/Trees/RedBlackExact.lean) is said with places, the way to `v` and colours only.
-/

namespace Extra
variable {N : Type} [LinearOrder N]

/-- C55, exactly: inserting `v` into a search tree with the colour invariants keeps them if and only if
there is no place on the way to `v` described by `LosesAt`; if there is one, the paths to the missing
children differ in the number of black nodes.

Missing: the property wants the invariants kept always (`C55_invariants_lost`). -/
theorem C55_insert_exact_partial (t : Bst N Color) (hs : SearchTree t.root) (hc : RedBlackOk t.root) (v : N) :
    ∃ w t', rbExec t (.insert (.num v)) = .ok (.ok (.unit, w), t') ∧
      (RedBlackOk t'.root ↔ ¬ LosesAt v t.root) ∧ (LosesAt v t.root → ¬ EqualBlacks t'.root) := by
  obtain ⟨hn, hr⟩ := (redBlackOk_iff _).1 hc
  obtain ⟨t', e, hr', h1, h2⟩ := rbInsert_iff t v hs hr hn
  refine ⟨_, t', by simp only [rbExec, validNum, e, bind, Except.bind]; rfl, ?_, ?_⟩
  · rw [redBlackOk_iff]
    constructor
    · rintro ⟨⟨n, h⟩, -⟩ hl
      exact h2 hl n (rbI_blI h)
    · exact fun h => ⟨h1 h, hr'⟩
  · rintro hl ⟨n, h⟩
    exact h2 hl n (blI_blacks _ n h)

/-- the invariants hold after each of the inserts -/
def KeptThroughout : List N → Bst N Color → Prop
  | [], _ => True
  | v :: vs, t => ∃ r t', rbExec t (.insert (.num v)) = .ok (r, t') ∧ RedBlackOk t'.root ∧ KeptThroughout vs t'

/-- no insert of the sequence meets such a place -/
def NeverLoses : List N → Bst N Color → Prop
  | [], _ => True
  | v :: vs, t => ¬ LosesAt v t.root ∧
      ∀ r t', rbExec t (.insert (.num v)) = .ok (r, t') → NeverLoses vs t'

/-- C55 for sequences of inserts: the invariants hold after each of them exactly if none meets a place
described by `LosesAt` -/
theorem C55_inserts_exact (vs : List N) : KeptThroughout vs Bst.empty ↔ NeverLoses vs Bst.empty := by
  suffices H : ∀ (vs : List N) (t : Bst N Color), SearchTree t.root → RedBlackOk t.root →
      (KeptThroughout vs t ↔ NeverLoses vs t) by
    refine H vs Bst.empty (by simp [Bst.empty, SearchTree, BTree.inorder]) ?_
    exact (redBlackOk_iff _).2 ⟨⟨0, rfl⟩, rfl⟩
  intro vs
  induction vs with
  | nil => exact fun t _ _ => Iff.rfl
  | cons v vs ih =>
    intro t hs hc
    obtain ⟨w, t', e, hiff, -⟩ := C55_insert_exact_partial t hs hc v
    obtain ⟨w2, t2, e2, hs', -⟩ := C54_insert t hs v
    rw [e] at e2
    cases e2
    rw [KeptThroughout, NeverLoses, ← hiff]
    constructor
    · rintro ⟨r, t2, e2, h1, h2⟩
      rw [e] at e2
      cases e2
      refine ⟨h1, fun r t3 e3 => ?_⟩
      rw [e] at e3
      cases e3
      exact (ih t' hs' h1).1 h2
    · rintro ⟨h1, h2⟩
      exact ⟨_, t', e, h1, (ih t' hs' h1).2 (h2 _ _ e)⟩

/-- the tree after 10, 4, 12, 2, 6, 7, and the way to 8: left, right, right, right.  The red node 4 is
where the way turns, its sibling is black, and 7 below is red without a red sibling -/
private def before8 : Bst (Fin 20) Color :=
  match rbExecs (rbInserts [10, 4, 12, 2, 6, 7]) Bst.empty with
  | .ok (_, t) => t
  | .error _ => Bst.empty

instance (t : BTree (Fin 20 × Color)) (p : List Bool) : Decidable (RedAt t p) :=
  decidable_of_iff ((t.sub p).isRed = true) redAt_iff.symm

example : LosesAt 8 before8.root ∧ ¬ LosesAt 1 before8.root ∧ ¬ LosesAt 9 rbSample.root ∧
    RedBlackOk before8.root := by
  have e : before8.root = .node (.node (.node .nil (2, .black) .nil) (4, .red)
      (.node .nil (6, .black) (.node .nil (7, .red) .nil))) (10, .black) (.node .nil (12, .black) .nil) := by
    decide +kernel
  refine ⟨⟨0, 1, ?_⟩, ?_, ?_, ?_⟩
  · rw [e]; decide +kernel
  · rintro ⟨k, m, h1, -, -, -, ⟨-, h⟩ | ⟨h, -⟩⟩
    · revert h; rw [e]; decide +kernel
    · have : (wayTo 1 before8.root).length = 3 := by rw [e]; decide +kernel
      omega
  · rintro ⟨k, m, h1, -, -, -, ⟨-, h⟩ | ⟨h, -⟩⟩
    · revert h; rw [rbSample_eq]; decide +kernel
    · have : (wayTo 9 rbSample.root).length = 3 := by rw [rbSample_eq]; decide +kernel
      omega
  · rw [e, redBlackOk_iff]
    exact ⟨⟨2, by simp [rbI, Color.bl, BTree.isRed]⟩, rfl⟩

end Extra
