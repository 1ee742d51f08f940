import Verif.Trees.HeapMirror
import Mathlib.Order.Fin.Basic
import Batteries.Lean.Except

/-!
# C106: `MinHeap` and `MaxHeap` are mirror images

`f` stands for a map that turns the order round, such as negation with `-inf` and `inf` exchanged.
-/

set_option linter.unusedSectionVars false

namespace Extra
variable {N M : Type} [LinearOrder N] [BoundedOrder N] [LinearOrder M] [BoundedOrder M]

/-- **C106.** Take any heap of either class with any items, in any order, and any history of calls.  In
a heap of the other class whose list holds the replaced numbers, the mirrored calls have the mirrored
outcomes, exception by exception and warning by warning, and leave the replaced numbers at the same
places. -/
theorem C106_history {f : N → M} (hf : StrictAnti f) (hb : f ⊥ = ⊤) (ht : f ⊤ = ⊥)
    (ops : List (BHOp N)) (h : BinHeap N) :
    (h.mirror f).execs (ops.map (BHOp.mirror f)) =
      ((h.execs ops).1.map (mirrorRes f), (h.execs ops).2.mirror f) := by
  induction ops generalizing h with
  | nil => rfl
  | cons op ops ih =>
    simp only [List.map_cons, BinHeap.execs, exec_mirror hf hb ht]
    rw [ih]

/-- **C106, `heapify`** -/
theorem C106_heapify {f : N → M} (hf : StrictAnti f) (m : Bool) (items : List (NumArg N)) :
    heapify (!m) (items.map (NumArg.mirror f)) = (heapify m items).map (BinHeap.mirror f) := by
  have key : ∀ (items : List (NumArg N)) (xs : List N),
      heapifyLoop (!m) (items.map (NumArg.mirror f)) (xs.map f) =
        (heapifyLoop m items xs).map (List.map f) := by
    intro items
    induction items with
    | nil => intro xs; rfl
    | cons v items ih =>
      intro xs
      simp only [List.map_cons, heapifyLoop, bhInsert_map hf]
      cases bhInsert m xs v with
      | error e => rfl
      | ok ys => exact ih ys
  have := key items []
  rw [List.map_nil] at this
  simp only [heapify, this]
  cases heapifyLoop m items [] <;> rfl

/-- turning the numbers round meets the hypotheses; a history with removals at both ends, on a
`MinHeap` and, mirrored, on a `MaxHeap` -/
example : StrictAnti (Fin.rev : Fin 20 → Fin 20) ∧ Fin.rev (⊥ : Fin 20) = ⊤ ∧ Fin.rev (⊤ : Fin 20) = ⊥ ∧
    (BinHeap.execs [.insert (.num 5), .insert (.num 3), .insert .none, .insert (.num 8), .removeMin,
      .getMin, .getMax, .remove (.num 4)] (⟨true, []⟩ : BinHeap (Fin 20))).1 =
      [.ok (.unit, false), .ok (.unit, false), .error .valueError, .ok (.unit, false),
       .ok (.unit, false), .ok (.num 5, false), .ok (.num 8, false), .ok (.unit, true)] ∧
    (BinHeap.execs [.insert (.num 14), .insert (.num 16), .insert .none, .insert (.num 11), .removeMax,
      .getMax, .getMin, .remove (.num 15)] (⟨false, []⟩ : BinHeap (Fin 20))).1 =
      [.ok (.unit, false), .ok (.unit, false), .error .valueError, .ok (.unit, false),
       .ok (.unit, false), .ok (.num 14, false), .ok (.num 11, false), .ok (.unit, true)] := by
  refine ⟨fun a b h => Fin.rev_lt_rev.2 h, by decide +kernel, by decide +kernel, by decide +kernel,
    by decide +kernel⟩

end Extra
