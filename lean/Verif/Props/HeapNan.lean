import Verif.Trees.HeapNanProofs
import Batteries.Lean.Except
import Mathlib.Order.Fin.Basic

/-!
# C118: `nan` in a heap

The full claim is that a heap gives the smallest (greatest) of the numbers it holds also if `nan` is among them.
It is false: `C118_min_lost`, `C118_max_lost`, and removals can undo even the order between neighbours
(`C118_remove_lost`).  What holds is below: the heap is still a bag of its numbers, whatever is called; `heapify` leaves
each `nan` at the position it had in the list; and the item at the root is the best of the numbers that reach the
root without passing a `nan`.
-/

namespace Extra
variable {N : Type} [LinearOrder N] [BoundedOrder N]

/-- Whatever is inserted and removed, `nan` objects or numbers, no call raises, and `in`, `len` and the warnings of
`remove` are those of a bag in which each `nan` object is an item of its own. -/
theorem C118_bag (isMin : Bool) (ops : List (NanHeapOp N)) :
    ∃ xs, nhExecs isMin ops [] = .ok ((nanBag ops []).1, xs) ∧ xs.Perm (nanBag ops []).2 :=
  nhExecs_bag isMin ops [] [] (List.Perm.refl _)

example : nhExecs (N := Fin 20) true [.insert (.num 5), .insert (.nan 1), .insert (.num 3), .contains (.nan 1), .contains (.nan 2),
    .remove (.nan 2), .remove (.nan 1), .len] [] =
    .ok ([.inl false, .inl false, .inl false, .inl true, .inl false, .inl true, .inl false, .inr 2], [.num 3, .num 5]) := by
  decide +kernel

/-- `heapify` leaves each `nan` at the position it has in the list given, and no number is out of order with its
parent, if that is a number. -/
theorem C118_positions (isMin : Bool) (vs : List (IdNum N)) :
    ∃ xs, nhHeapify isMin vs = .ok xs ∧ xs.Perm vs ∧ NanOrdered isMin xs ∧
      ∀ i k : Nat, xs[i]? = some (IdNum.nan k) ↔ vs[i]? = some (IdNum.nan k) := by
  obtain ⟨xs, e, h, p, o⟩ := nhHeapify_spec isMin vs
  exact ⟨xs, e, p, o, h.nan⟩

example : nhHeapify (N := Fin 20) true [.num 5, .nan 0, .num 6, .num 1, .num 2, .num 4] =
    .ok [.num 4, .nan 0, .num 5, .num 1, .num 2, .num 6] := by decide +kernel

/-- `get_min` of `MinHeap.heapify(vs)` (`get_max` of `MaxHeap.heapify(vs)`): if the list starts with a `nan` that
`nan`; otherwise the smallest (greatest) of the numbers at joined positions of the list, which are those with no
`nan` on the way to the first position. -/
theorem C118_root_partial (isMin : Bool) (v : IdNum N) (vs : List (IdNum N)) :
    ∃ xs, nhHeapify isMin (v :: vs) = .ok xs ∧
      match v with
      | .nan k => nhFirst xs = .ok (.nan k)
      | .num _ => ∃ m j, nhFirst xs = .ok (.num m) ∧ Joined (v :: vs) j ∧ (v :: vs)[j]? = some (.num m) ∧
          ∀ i x, Joined (v :: vs) i → (v :: vs)[i]? = some (.num x) → inOrder isMin m x := by
  obtain ⟨xs, e, h, p, o⟩ := nhHeapify_spec isMin (v :: vs)
  refine ⟨xs, e, ?_⟩
  have hlen : xs.length ≠ 0 := by rw [h.len]; simp
  have hget : nhFirst xs = .ok (nv xs 0) := by rw [nhFirst, if_neg hlen, nhGet_eq (by omega)]
  have hs : xs[0]? = some (nv xs 0) := nv_some (by omega)
  cases v with
  | nan k =>
    have := (h.nan 0 k).2 rfl
    rw [hs] at this
    simp only [hget, Option.some.inj this]
  | num a =>
    cases hm : nv xs 0 with
    | nan k =>
      have := (h.nan 0 k).1 (by rw [hs, hm])
      cases this
    | num m =>
      rw [hm] at hs hget
      obtain ⟨j, hj, ej⟩ := h.sub 0 m (.first a rfl) hs
      refine ⟨m, j, hget, hj, ej, ?_⟩
      intro i x hi hx
      obtain ⟨i', hi', e'⟩ := h.sup i x hi hx
      exact first_before h o hs hi' x e'

example : Joined (N := Fin 20) [.num 5, .nan 0, .num 6, .num 1, .num 2, .num 4] 5 :=
  .next 2 5 4 (.next 0 2 6 (.first 5 rfl) (.inr rfl) rfl) (.inl rfl) rfl

/-- A `MinHeap` made from `[5, nan, 6, 1]` says that its minimum is 5. -/
theorem C118_min_lost : ∃ xs, nhHeapify (N := Fin 20) true [.num 5, .nan 0, .num 6, .num 1] = .ok xs ∧
    nhFirst xs = .ok (.num 5) ∧ IdNum.num 1 ∈ xs :=
  ⟨[.num 5, .nan 0, .num 6, .num 1], by decide +kernel⟩

/-- A `MinHeap` made from `[5, 9, 6, nan, nan]` says that its maximum is 6; one made from `[1, nan]` that it is
`nan`. -/
theorem C118_max_lost : (∃ xs, nhHeapify (N := Fin 20) true [.num 5, .num 9, .num 6, .nan 0, .nan 1] = .ok xs ∧
    nhFarthest true xs = .ok (.num 6) ∧ IdNum.num 9 ∈ xs) ∧
    ∃ xs, nhHeapify (N := Fin 20) true [.num 1, .nan 0] = .ok xs ∧ nhFarthest true xs = .ok (.nan 0) :=
  ⟨⟨[.num 5, .num 9, .num 6, .nan 0, .nan 1], by decide +kernel⟩, ⟨[.num 1, .nan 0], by decide +kernel⟩⟩

/-- `remove_min()` on the `MinHeap` made from `[1, 2, nan, 3]` leaves 3 above 2: the code goes on with the right child
if the left one is not smaller, and stops because 3 is not greater than `nan`. -/
theorem C118_remove_lost : ∃ xs ys, nhHeapify (N := Fin 20) true [.num 1, .num 2, .nan 0, .num 3] = .ok xs ∧
    nhRemoveFirst true xs = .ok (ys, false) ∧ nhFirst ys = .ok (.num 3) ∧ IdNum.num 2 ∈ ys ∧ ¬ NanOrdered true ys :=
  ⟨[.num 1, .num 2, .nan 0, .num 3], [.num 3, .num 2, .nan 0], by decide +kernel, by decide +kernel, by decide +kernel,
    by decide +kernel, fun h => absurd (h 1 3 2 (by decide) rfl rfl) (by decide +kernel)⟩

/-- Without `nan` these functions are those for which C24 to C28 are proved. -/
theorem C118_without_nan_partial (isMin : Bool) (xs : List N) (v : N) :
    nhInsert isMin (xs.map .num) (.num v) = (bhInsert isMin xs (.num v)).map (List.map .num) ∧
    nhRemove isMin (xs.map .num) (.num v) = (bhRemove isMin xs (.num v)).map (fun p => (p.1.map .num, p.2)) ∧
    nhFirst (xs.map .num) = (bhFirst xs).map .num ∧
    nhFarthest isMin (xs.map .num) = (bhFarthest isMin xs).map .num :=
  ⟨nhInsert_map isMin xs v, nhRemove_map isMin xs v, nhFirst_map xs, nhFarthest_map isMin xs⟩

example : (bhRemove (N := Fin 20) true [1, 2, 3] (.num 1)) = .ok ([2, 3], false) := by decide +kernel

end Extra
