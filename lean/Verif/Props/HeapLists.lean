import Verif.Trees.HeapListsLemmas
import Batteries.Lean.Except
import Mathlib.Order.Fin.Basic

/-!
# What changing the list from `to_list()` of a heap does: C97
-/

set_option linter.unusedSectionVars false

namespace Extra
variable {N : Type} [LinearOrder N] [BoundedOrder N]

/-! ## C97

Full statement: the list returned by `to_list()` is the caller's own: changing it does not change the heap,
and later calls on the heap do not change it.  The code returns the list the heap works on, so this is false
until the heap is cleared. -/

/-- C97 fails: from `to_list()` until the heap is cleared, the list received and the heap have the same
items whatever is done with either, and changing the list changes the heap. -/
theorem C97_shared {w : HeapWorld N} {i : Nat} {xs : List N} (hi : w.items i = some xs) :
    ∃ w1, w.step (.call i .toList) = (.handle w.held.length, w1) ∧ w1.items i = some xs ∧
      ∀ ops, keeps i ops →
        let w2 := (HeapWorld.steps ops w1).2
        ∃ ys, w2.items i = some ys ∧ w2.received w.held.length = some ys ∧
          ∀ f, (w2.step (.edit w.held.length f)).2.items i = some (f ys) := by
  simp only [HeapWorld.items, Option.map_eq_some_iff] at hi
  obtain ⟨⟨k, a⟩, hi, rfl⟩ := hi
  refine ⟨{ w with held := w.held ++ [a] }, by simp only [HeapWorld.step, hi],
    by simp only [HeapWorld.items, hi, Option.map_some], fun ops ho => ?_⟩
  obtain ⟨h1, h2⟩ := hw_stay (w := { w with held := w.held ++ [a] }) (j := w.held.length) (b := a) hi
    (by simp) ops ho
  refine ⟨(HeapWorld.steps ops { w with held := w.held ++ [a] }).2.lists a,
    by simp only [HeapWorld.items, h1, Option.map_some],
    by simp only [HeapWorld.received, h2, Option.map_some], fun f => ?_⟩
  simp only [HeapWorld.step, h2, HeapWorld.items, HeapWorld.put, h1, Option.map_some, if_true]

/-- C97, in part: once the heap has been cleared, the lists received before are the caller's own: changing
one does not change the heap, and calls on the heap do not change it. -/
theorem C97_cleared_partial {w : HeapWorld N} (hw : Made w) {i j : Nat} (hj : j < w.held.length)
    (ops : List (HWOp N)) :
    let w2 := (HeapWorld.steps (.call i .clear :: ops) w).2
    (∀ f, (w2.step (.edit j f)).2.items i = w2.items i) ∧
    ∀ op, (w2.step (.call i op)).2.received j = w2.received j := by
  have I := hw.inv
  obtain ⟨b, hb⟩ : ∃ b, w.held[j]? = some b := ⟨w.held[j], List.getElem?_eq_getElem hj⟩
  have I1 := I.step (.call i .clear)
  have hb1 : (w.step (.call i .clear)).2.held[j]? = some b := hw_held_stay hb [.call i .clear]
  have hbl := I.heldLt j b hb
  have hne1 : ∀ h, (w.step (.call i .clear)).2.heaps[i]? = some h → h.2 ≠ b := by
    intro h hh
    cases hi : w.heaps[i]? with
    | none => simp only [HeapWorld.step, hi] at hh; cases hh
    | some x =>
      obtain ⟨k, a⟩ := x
      simp only [HeapWorld.step, hi, List.getElem?_set] at hh
      simp only [if_true] at hh
      split at hh
      · cases hh; simp only; omega
      · cases hh
  intro w2
  have hw2 : w2 = (HeapWorld.steps ops (w.step (.call i .clear)).2).2 := rfl
  have I2 : HWInv w2 := by rw [hw2]; exact I1.steps ops
  have hb2 : w2.held[j]? = some b := by rw [hw2]; exact hw_held_stay hb1 ops
  have hne2 : ∀ h, w2.heaps[i]? = some h → h.2 ≠ b := by rw [hw2]; exact hw_apart I1 hb1 hne1 ops
  have hbl2 := I2.heldLt j b hb2
  have jl2 : j < w2.held.length := by
    by_contra hc; rw [List.getElem?_eq_none (by omega)] at hb2; cases hb2
  refine ⟨fun f => ?_, fun op => ?_⟩
  · cases hi : w2.heaps[i]? with
    | none => simp only [HeapWorld.step, hb2, HeapWorld.items, HeapWorld.put, hi, Option.map_none]
    | some h =>
      simp only [HeapWorld.step, hb2, HeapWorld.items, HeapWorld.put, hi, Option.map_some, if_neg (hne2 h hi)]
  · cases hi : w2.heaps[i]? with
    | none => simp only [HeapWorld.step, hi]
    | some h =>
      obtain ⟨k, a⟩ := h
      have hab : a ≠ b := hne2 (k, a) hi
      by_cases h1 : op = .toList
      · subst h1
        simp only [HeapWorld.step, hi, HeapWorld.received, hb2, List.getElem?_append, jl2, if_true]
      by_cases h2 : op = .clear
      · subst h2
        simp only [HeapWorld.step, hi, HeapWorld.received, HeapWorld.put, hb2, Option.map_some,
          if_neg (show b ≠ w2.nLists by omega)]
      rw [hw_step_call hi h1 h2]
      simp only [HeapWorld.received, HeapWorld.put, hb2, Option.map_some, if_neg hab.symm]

/-- C97, in part: the list of one heap is not the list of another. -/
theorem C97_others_partial {w : HeapWorld N} (hw : Made w) {i i' : Nat} (hne : i ≠ i') {xs : List N}
    (hi : w.items i = some xs) (ops : List (HWOp N)) (f : List N → List N) :
    let w2 := (HeapWorld.steps (.call i .toList :: ops) w).2
    (w2.step (.edit w.held.length f)).2.items i' = w2.items i' := by
  have I := hw.inv
  simp only [HeapWorld.items, Option.map_eq_some_iff] at hi
  obtain ⟨⟨k, a⟩, hi, rfl⟩ := hi
  have e : (w.step (.call i .toList)).2 = { w with held := w.held ++ [a] } := by
    simp only [HeapWorld.step, hi]
  have I1 := I.step (.call i .toList)
  have hb1 : (w.step (.call i .toList)).2.held[w.held.length]? = some a := by rw [e]; simp
  have hne1 : ∀ h, (w.step (.call i .toList)).2.heaps[i']? = some h → h.2 ≠ a := by
    rw [e]
    intro h hh e2
    exact hne (I.own i i' (k, a) h hi hh e2.symm)
  intro w2
  have hw2 : w2 = (HeapWorld.steps ops (w.step (.call i .toList)).2).2 := rfl
  have hb2 : w2.held[w.held.length]? = some a := by rw [hw2]; exact hw_held_stay hb1 ops
  have hne2 : ∀ h, w2.heaps[i']? = some h → h.2 ≠ a := by rw [hw2]; exact hw_apart I1 hb1 hne1 ops
  cases hi' : w2.heaps[i']? with
  | none => simp only [HeapWorld.step, hb2, HeapWorld.items, HeapWorld.put, hi', Option.map_none]
  | some h =>
    simp only [HeapWorld.step, hb2, HeapWorld.items, HeapWorld.put, hi', Option.map_some, if_neg (hne2 h hi')]

/-- C97 fails: writing into the list makes `get_min` wrong. -/
theorem C97_order_lost :
    (HeapWorld.steps [.new true, .call 0 (.insert (.num 1)), .call 0 (.insert (.num 2)), .call 0 .toList,
      .edit 0 (fun xs => xs.set 0 9), .call 0 .getMin, .call 0 (.contains (.num 2))]
      (HeapWorld.init : HeapWorld (Fin 20))).1.drop 5 =
    [.res (.ok (.num 9, false)), .res (.ok (.bool true, false))] := by decide +kernel

/-- a list received, a removal that shows in it, a `clear()` and then changes on both sides -/
example : (HeapWorld.steps [.new false, .call 0 (.insert (.num 1)), .call 0 (.insert (.num 2)), .call 0 .toList,
      .call 0 .removeMax, .read 0, .call 0 .clear, .edit 0 (fun xs => xs ++ [7]), .call 0 (.insert (.num 3)),
      .read 0, .call 0 .getMax] (HeapWorld.init : HeapWorld (Fin 20))).1.drop 3 =
    [.handle 0, .res (.ok (.unit, false)), .list [1], .res (.ok (.unit, false)), .unit,
      .res (.ok (.unit, false)), .list [1, 7], .res (.ok (.num 3, false))] := by decide +kernel

example : Made (HeapWorld.steps [.new true, .call 0 (.insert (.num 1))] (HeapWorld.init : HeapWorld (Fin 20))).2 ∧
    (HeapWorld.steps [.new true, .call 0 (.insert (.num 1))] (HeapWorld.init : HeapWorld (Fin 20))).2.items 0 =
      some [1] := ⟨⟨_, rfl⟩, by decide +kernel⟩

end Extra
