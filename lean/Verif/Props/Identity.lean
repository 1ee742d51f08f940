import Verif.Lists.IdentityProofs

/-!
# C120: lists of values that need not be equal to themselves

Full statement: `in`, `count`, `remove`, `==` and `!=` of a `LinkedList` give what they give for Python's list of the same
values, whatever the values.  It is false: Python's list looks first whether a value is the same object, and the
code does not, so with `nan` the two differ (`C120_nan`).
-/

namespace Extra
variable {V : Type} [DecidableEq V]

omit [DecidableEq V] in
/-- Exactly what the calls do: they go by `==` alone. -/
theorem C120_exact (eq : V → V → Bool) (value : V) (xs ys : List V) :
    (objContains eq value xs = true ↔ ∃ x ∈ xs, eq x value = true) ∧
    objContainsCll eq value xs = objContains eq value xs ∧
    objCount eq value xs 0 = (xs.filter fun x => eq x value).length ∧
    objRemove eq value true xs = xs.filter (fun x => !eq x value) ∧
    objRemove eq value false xs = xs.eraseP (fun x => eq x value) ∧
    (objEq eq xs ys = true ↔ List.Forall₂ (fun x y => eq x y = true) xs ys) ∧
    objNe eq xs ys = !objEq eq xs ys := by
  refine ⟨by rw [objContains_any]; simp, by rw [objContains_any, objContainsCll_any], ?_, objRemove_all eq value xs false, objRemove_first eq value xs, ?_, ?_⟩
  · rw [objCount_countP, Nat.zero_add, List.countP_eq_length_filter]
  · rw [objEq]
    by_cases h : xs.length = ys.length
    · rw [if_neg (by simpa using h), decide_eq_true_eq, ← (objCompare_le eq xs ys 0 true h).1, Nat.zero_add]
    · rw [if_pos (by simpa using h)]
      simp only [Bool.false_eq_true, false_iff]
      exact fun hf => h hf.length_eq
  · rw [objEq, objNe]
    split <;> simp

/-- So `in` agrees with Python's list if and only if the value, should it be in the list itself, is equal to something
there; `count` and `remove` if and only if it is equal to itself or not there; and `==` if and only if it does not
happen that the lists have a match everywhere but at some place have the same object that is not equal to itself. -/
theorem C120_agree_partial (eq : V → V → Bool) (value : V) (xs ys : List V) :
    (objContains eq value xs = xs.any (pyMatch eq value) ↔ (value ∈ xs → ∃ x ∈ xs, eq x value = true)) ∧
    (objCount eq value xs 0 = xs.countP (pyMatch eq value) ↔ (value ∈ xs → eq value value = true)) ∧
    (objRemove eq value true xs = xs.filter (fun x => !pyMatch eq value x) ↔ (value ∈ xs → eq value value = true)) ∧
    ((objEq eq xs ys = true ↔ PyListEq eq xs ys) ↔
      (PyListEq eq xs ys → List.Forall₂ (fun x y => eq x y = true) xs ys)) := by
  have hsub : ∀ x, eq x value = true → pyMatch eq value x = true := fun x h => by simp [pyMatch, h]
  have hiff : ∀ x, pyMatch eq value x = true ↔ x = value ∨ eq x value = true := fun x => by simp [pyMatch]
  have same : (value ∈ xs → eq value value = true) → ∀ x ∈ xs, pyMatch eq value x = eq x value := by
    intro h x hx
    by_cases e : eq x value = true
    · rw [e, hsub x e]
    · have : ¬ pyMatch eq value x = true := by
        rw [hiff]
        rintro (rfl | h')
        · exact e (h hx)
        · exact e h'
      rw [Bool.eq_false_iff.2 e, Bool.eq_false_iff.2 this]
  obtain ⟨h1, _, h2, h3, _, h5, _⟩ := C120_exact eq value xs ys
  refine ⟨?_, ?_, ?_, ?_⟩
  · rw [Bool.eq_iff_iff, h1, List.any_eq_true]
    constructor
    · intro h hv
      exact h.2 ⟨value, hv, (hiff value).2 (.inl rfl)⟩
    · intro h
      constructor
      · rintro ⟨x, hx, e⟩; exact ⟨x, hx, hsub x e⟩
      · rintro ⟨x, hx, e⟩
        rcases (hiff x).1 e with rfl | e
        · exact h hx
        · exact ⟨x, hx, e⟩
  · rw [h2, ← List.countP_eq_length_filter]
    constructor
    · intro h hv
      by_contra hn
      have hsplit : ∀ l : List V, l.countP (fun x => eq x value) ≤ l.countP (pyMatch eq value) ∧
          (value ∈ l → l.countP (fun x => eq x value) < l.countP (pyMatch eq value)) := by
        intro l
        induction l with
        | nil => simp
        | cons x l ih =>
          rw [List.countP_cons, List.countP_cons]
          constructor
          · by_cases e : eq x value = true
            · rw [if_pos e, if_pos (hsub x e)]; omega
            · rw [if_neg e]; split <;> omega
          · intro hx
            by_cases e : eq x value = true
            · rw [if_pos e, if_pos (hsub x e)]
              rcases List.mem_cons.1 hx with rfl | hx
              · exact absurd e hn
              · have := ih.2 hx; omega
            · rw [if_neg e]
              rcases List.mem_cons.1 hx with rfl | hx
              · rw [if_pos ((hiff value).2 (.inl rfl))]; omega
              · have := ih.2 hx; split <;> omega
      have := (hsplit xs).2 hv
      omega
    · intro h
      exact List.countP_congr fun x hx => by rw [same h x hx]
  · rw [h3]
    constructor
    · intro h hv
      by_contra hn
      have : value ∈ xs.filter fun x => !eq x value := List.mem_filter.2 ⟨hv, by simp [hn]⟩
      rw [h] at this
      simp [pyMatch] at this
    · intro h
      exact List.filter_congr fun x hx => by rw [same h x hx]
  · rw [h5]
    constructor
    · intro h hp; exact h.2 hp
    · intro h
      exact ⟨fun hf => hf.imp fun _ _ e => .inr e, h⟩

/-- For values all of which are equal to themselves there is no difference. -/
theorem C120_reflexive_partial (eq : V → V → Bool) (hr : ∀ x, eq x x = true) (value : V) (xs ys : List V) :
    objContains eq value xs = xs.any (pyMatch eq value) ∧
    objCount eq value xs 0 = xs.countP (pyMatch eq value) ∧
    objRemove eq value true xs = xs.filter (fun x => !pyMatch eq value x) ∧
    objRemove eq value false xs = xs.eraseP (pyMatch eq value) ∧
    (objEq eq xs ys = true ↔ PyListEq eq xs ys) := by
  obtain ⟨h1, h2, h3, h4⟩ := C120_agree_partial eq value xs ys
  have hm : pyMatch eq value = fun x => eq x value := by
    funext x
    by_cases e : x = value
    · simp [pyMatch, e, hr]
    · simp [pyMatch, e]
  exact ⟨h1.2 fun hv => ⟨value, hv, hr value⟩, h2.2 fun _ => hr value, h3.2 fun _ => hr value,
    hm ▸ (C120_exact eq value xs ys).2.2.2.2.1,
    h4.2 fun hp => hp.imp fun x y e => e.elim (fun e => e ▸ hr x) id⟩

/-! ## Examples -/

/-- an `eq` that is reflexive but is not equality -/
example : objRemove (fun a b : Nat => a % 10 == b % 10) 3 false [1, 13, 3] = [1, 3] := by decide +kernel

/-- objects numbered from 0; object 0 is `nan`, objects 1 and 2 are `1` and `1.0` -/
def nanEq (a b : Nat) : Bool := decide (a ≠ 0 ∧ (a = b ∨ (a = 1 ∧ b = 2) ∨ (a = 2 ∧ b = 1)))

example : objContains nanEq 1 [3, 2, 4] = true ∧ objCount nanEq 1 [2, 3, 1] 0 = 2 ∧ objRemove nanEq 1 true [2, 3, 1] = [3] ∧
    objRemove nanEq 1 false [2, 3, 1] = [3, 1] ∧ objEq nanEq [1, 3] [2, 3] = true ∧ objEq nanEq [1] [1, 3] = false := by
  decide +kernel

/-- With `ll = LinkedList([nan])`: `nan in ll` is false, `ll.count(nan)` is 0, `ll.remove(nan)` removes nothing and
`ll == ll` is false; for Python's list `[nan]` they are true, 1, nothing left, and true. -/
theorem C120_nan : objContains nanEq 0 [0] = false ∧ objCount nanEq 0 [0] 0 = 0 ∧ objRemove nanEq 0 true [0] = [0] ∧
    objRemove nanEq 0 false [0] = [0] ∧ objEq nanEq [0] [0] = false ∧ objNe nanEq [0] [0] = true ∧
    [0].any (pyMatch nanEq 0) = true ∧ [0].countP (pyMatch nanEq 0) = 1 ∧
    [0].filter (fun x => !pyMatch nanEq 0 x) = [] ∧ PyListEq nanEq [0] [0] := by
  refine ⟨by decide, by decide, by decide, by decide, by decide, by decide, by decide, by decide, by decide, ?_⟩
  exact .cons (.inl rfl) .nil

end Extra
