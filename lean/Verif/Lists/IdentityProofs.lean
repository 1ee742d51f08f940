import Verif.Lists.Identity
import Mathlib.Data.List.Forall2

/-!
# Python's list, and what the functions of Identity.lean do (helper lemmas)
-/

namespace Extra
variable {V : Type} [DecidableEq V]

/-- what Python's list takes to be a match: the same object, or equal -/
def pyMatch (eq : V → V → Bool) (value x : V) : Bool := decide (x = value) || eq x value

/-- `==` of two Python lists: as long as each other, and a match at each place -/
def PyListEq (eq : V → V → Bool) (xs ys : List V) : Prop :=
  List.Forall₂ (fun x y => x = y ∨ eq x y = true) xs ys

omit [DecidableEq V] in
theorem objContains_any (eq : V → V → Bool) (value : V) : ∀ xs, objContains eq value xs = xs.any fun x => eq x value
  | [] => rfl
  | x :: xs => by
    have key : ∀ (xs : List V) (x : V), eq (objSearch eq value x xs) value = (x :: xs).any fun x => eq x value := by
      intro xs
      induction xs with
      | nil => intro x; simp [objSearch]
      | cons y ys ih =>
        intro x
        rw [objSearch]
        by_cases h : eq x value = true
        · rw [if_pos h, List.any_cons, h, Bool.true_or]
        · rw [if_neg h, ih y, List.any_cons (a := x)]
          simp [Bool.eq_false_iff.2 h]
    exact key xs x

omit [DecidableEq V] in
theorem objContainsCll_any (eq : V → V → Bool) (value : V) : ∀ xs,
    objContainsCll eq value xs = xs.any fun x => eq x value
  | [] => rfl
  | x :: xs => by
    rw [objContainsCll, objContainsCll_any eq value xs, List.any_cons]
    cases eq x value <;> rfl

omit [DecidableEq V] in
theorem objCount_countP (eq : V → V → Bool) (value : V) : ∀ xs total,
    objCount eq value xs total = total + xs.countP fun x => eq x value
  | [], total => rfl
  | x :: xs, total => by
    rw [objCount, objCount_countP eq value xs, List.countP_cons]
    split <;> omega

omit [DecidableEq V] in
theorem objRemove_all (eq : V → V → Bool) (value : V) : ∀ xs b,
    objRemoveLoop eq value true xs b = xs.filter fun x => !eq x value
  | [], _ => rfl
  | x :: xs, b => by
    rw [objRemoveLoop]
    by_cases h : eq x value = true
    · simp [h, objRemove_all eq value xs]
    · simp [h, objRemove_all eq value xs]

omit [DecidableEq V] in
theorem objRemove_first (eq : V → V → Bool) (value : V) : ∀ xs,
    objRemoveLoop eq value false xs false = xs.eraseP fun x => eq x value
  | [] => rfl
  | x :: xs => by
    rw [objRemoveLoop]
    by_cases h : eq x value = true
    · simp only [h, Bool.not_false, Bool.true_and, Bool.false_eq_true, if_false, if_true, List.eraseP_cons_of_pos]
      cases xs <;> simp [objRemoveLoop]
    · simp [h, objRemove_first eq value xs]

omit [DecidableEq V] in
theorem objCompare_le (eq : V → V → Bool) : ∀ (xs ys : List V) (k : Nat) (b : Bool), xs.length = ys.length →
    ((objCompare eq eq xs ys k b).1 = k + xs.length ↔ List.Forall₂ (fun x y => eq x y = true) xs ys) ∧
    (objCompare eq eq xs ys k b).1 ≤ k + xs.length
  | [], [], k, b, _ => by simp [objCompare]
  | [], _ :: _, _, _, h => by simp at h
  | _ :: _, [], _, _, h => by simp at h
  | x :: xs, y :: ys, k, b, h => by
    have hl : xs.length = ys.length := by simpa using h
    rw [objCompare]
    by_cases e : eq x y = true
    · rw [if_pos e]
      have := objCompare_le eq xs ys (k + 1) b hl
      rw [List.forall₂_cons, List.length_cons, show k + (xs.length + 1) = k + 1 + xs.length by omega]
      simp only [e, true_and]
      exact this
    · rw [if_neg e, if_neg e, List.forall₂_cons]
      simp [e]

end Extra
