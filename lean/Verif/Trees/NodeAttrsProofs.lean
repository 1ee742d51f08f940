import Verif.Trees.NodeAttrs
import Verif.Trees.NodeSetProofs

/-!
# Heights of node objects

For C99.
-/

set_option linter.unusedSectionVars false

namespace Extra
variable {N : Type} [LinearOrder N]

/-! ## Specification -/

/-- `Levels nd p h`: the subtree a link leads to has `h` levels -/
inductive Levels (nd : Addr → Option (PNode N Nat)) : Option Addr → Nat → Prop
  | none : Levels nd none 0
  | node {a : Addr} {n : PNode N Nat} {l r : Nat} (h : nd a = some n) (hl : Levels nd n.left l)
      (hr : Levels nd n.right r) : Levels nd (some a) (max l r + 1)

/-- the levels that a link leads to, going by the stored height of the node there -/
def storedLevels (nd : Addr → Option (PNode N Nat)) (p : Option Addr) : Nat :=
  ((p.bind nd).map fun m => m.ext + 1).getD 0

/-- every stored height is that of the node's children, as far as they go by their stored heights -/
def HeightsFit (nd : Addr → Option (PNode N Nat)) : Prop :=
  ∀ a n, nd a = some n → n.ext = max (storedLevels nd n.left) (storedLevels nd n.right)

/-- the other child of `m`, which has the child `a` -/
def otherChild (a : Addr) (m : PNode N Nat) : Option Addr := if m.left = some a then m.right else m.left

/-! ## Lemmas -/

theorem sideHeight_stored (nd : Addr → Option (PNode N Nat)) (p : Option Addr) :
    sideHeight (extAt nd p) = storedLevels nd p := by
  cases p with
  | none => rfl
  | some x => cases hx : nd x <;> simp [extAt, storedLevels, hx, sideHeight, Nat.add_comm]

/-- where heights fit, the stored height of a node is the height of its subtree -/
theorem stored_levels {nd : Addr → Option (PNode N Nat)} (H : HeightsFit nd) {p : Option Addr} {h : Nat}
    (hp : Levels nd p h) : storedLevels nd p = h := by
  induction hp with
  | none => rfl
  | node h _ _ ihl ihr =>
    have := H _ _ h
    rw [ihl, ihr] at this
    simp [storedLevels, h, this]

theorem levels_unique {nd : Addr → Option (PNode N Nat)} {p : Option Addr} {h h' : Nat}
    (hp : Levels nd p h) (hp' : Levels nd p h') : h = h' := by
  induction hp generalizing h' with
  | none => cases hp'; rfl
  | node e _ _ ihl ihr =>
    cases hp' with
    | node e' hl hr =>
      rw [e] at e'
      cases e'
      rw [ihl hl, ihr hr]

/-- no node is its own child -/
theorem HeightsFit.child_ne {nd : Addr → Option (PNode N Nat)} (H : HeightsFit nd) {a : Addr}
    {n : PNode N Nat} (h : nd a = some n) : n.left ≠ some a ∧ n.right ≠ some a := by
  have e := H a n h
  constructor
  · intro k
    have : storedLevels nd n.left = n.ext + 1 := by simp [storedLevels, k, h]
    omega
  · intro k
    have : storedLevels nd n.right = n.ext + 1 := by simp [storedLevels, k, h]
    omega

/-- Changing children and height of one node: when heights still fit. -/
theorem fit_iff {nd nd' : Addr → Option (PNode N Nat)} (A : LinksAgree nd) (H : HeightsFit nd) {a : Addr}
    {n n' : PNode N Nat} (h : nd a = some n) (h' : nd' a = some n')
    (other : ∀ x, x ≠ a → (nd' x).map (fun m => (m.ext, m.left, m.right)) =
      (nd x).map (fun m => (m.ext, m.left, m.right))) (hl : n'.left ≠ some a) (hr : n'.right ≠ some a) :
    HeightsFit nd' ↔ n'.ext = max (storedLevels nd n'.left) (storedLevels nd n'.right) ∧
      ∀ p m, n.parent = some p → nd p = some m →
        m.ext = max (n'.ext + 1) (storedLevels nd (otherChild a m)) := by
  have st : ∀ p, p ≠ some a → storedLevels nd' p = storedLevels nd p := by
    intro p hp
    cases p with
    | none => rfl
    | some x =>
      have hx : x ≠ a := fun e => hp (by rw [e])
      have := other x hx
      cases e : nd x <;> cases e' : nd' x <;> simp_all [storedLevels]
  have sa : storedLevels nd' (some a) = n'.ext + 1 := by simp [storedLevels, h']
  -- the node above
  have above : ∀ p m m', nd p = some m → nd' p = some m' → p ≠ a → (m.left = some a ∨ m.right = some a) →
      ((m'.ext = max (storedLevels nd' m'.left) (storedLevels nd' m'.right)) ↔
        m.ext = max (n'.ext + 1) (storedLevels nd (otherChild a m))) := by
    intro p m m' hm hm' hp hc
    have o := other p hp
    rw [hm, hm'] at o
    simp only [Option.map_some, Option.some.injEq, Prod.mk.injEq] at o
    obtain ⟨o1, o2, o3⟩ := o
    rw [o1, o2, o3]
    obtain ⟨-, -, -, A4⟩ := A p m hm
    by_cases hml : m.left = some a
    · have hmr : m.right ≠ some a := A4 a hml
      rw [otherChild, if_pos hml, hml, sa, st _ hmr]
    · have hmr : m.right = some a := hc.resolve_left hml
      rw [otherChild, if_neg hml, hmr, sa, st _ hml, max_comm]
  constructor
  · intro F
    refine ⟨?_, ?_⟩
    · rw [← st _ hl, ← st _ hr]
      exact F a n' h'
    · intro p m hp hm
      obtain ⟨-, -, A3, -⟩ := A a n h
      obtain ⟨m₂, hm₂, hc⟩ := A3 p hp
      rw [hm] at hm₂
      cases hm₂
      have hpa : p ≠ a := by
        rintro rfl
        rw [h] at hm
        cases hm
        exact hc.elim (H.child_ne h).1 (H.child_ne h).2
      have o := other p hpa
      rw [hm] at o
      cases e' : nd' p with
      | none => simp [e'] at o
      | some m' => exact (above p m m' hm e' hpa hc).1 (F p m' e')
  · rintro ⟨F, Q⟩ x m' hx
    by_cases hxa : x = a
    · subst hxa
      rw [h'] at hx
      cases hx
      rw [st _ hl, st _ hr]
      exact F
    · have o := other x hxa
      rw [hx] at o
      cases e : nd x with
      | none => simp [e] at o
      | some m =>
        obtain ⟨A1, A2, -, -⟩ := A x m e
        by_cases hc : m.left = some a ∨ m.right = some a
        · refine (above x m m' e hx hxa hc).2 (Q x m ?_ e)
          rcases hc with hc | hc
          · obtain ⟨k, hk, hk'⟩ := A1 a hc
            rw [h] at hk
            cases hk
            exact hk'
          · obtain ⟨k, hk, hk'⟩ := A2 a hc
            rw [h] at hk
            cases hk
            exact hk'
        · rw [e] at o
          simp only [Option.map_some, Option.some.injEq, Prod.mk.injEq] at o
          obtain ⟨o1, o2, o3⟩ := o
          simp only [not_or] at hc
          rw [o1, o2, o3, st _ hc.1, st _ hc.2]
          exact H x m e

end Extra
