import Verif.Trees.HeapPath
import Mathlib.Order.Fin.Basic

/-!
# C107: how much of a heap a call changes

The heap need not be ordered, so the bounds hold in every state a history can lead to, also after
removals that break the order (C26) or changes to the list from `to_list()` (C97).
-/

set_option linter.unusedSectionVars false

namespace Extra
variable {N : Type} [LinearOrder N] [BoundedOrder N]

theorem mem_changedAt {xs ys : List N} {k : Nat} : k ∈ changedAt xs ys ↔ xs[k]? ≠ ys[k]? := by
  simp only [changedAt, List.mem_filter, List.mem_range, decide_eq_true_iff]
  constructor
  · exact fun h => h.2
  · intro h
    refine ⟨?_, h⟩
    by_contra hl
    apply h
    rw [List.getElem?_eq_none (by omega), List.getElem?_eq_none (by omega)]

theorem changedAt_length {xs ys : List N} {l : List Nat} (h : ∀ k ∈ changedAt xs ys, k ∈ l) :
    (changedAt xs ys).length ≤ l.length := by
  have hn : (changedAt xs ys).Nodup := List.nodup_range.filter _
  exact (List.subperm_of_subset hn h).length_le

theorem changedAt_self (xs : List N) : changedAt xs xs = [] := by
  simp [changedAt]

/-- **C107, `insert`.** Inserting a number changes the list only on the way from its new last place
up to the root: at most `log2 (n + 1) + 1` entries. -/
theorem C107_insert (h : BinHeap N) (v : N) :
    (∀ k ∈ changedAt h.arr (h.exec (.insert (.num v))).2.arr, k ∈ wayUp h.arr.length) ∧
    (changedAt h.arr (h.exec (.insert (.num v))).2.arr).length ≤ Nat.log 2 (h.arr.length + 1) + 1 := by
  have key : ∀ k ∈ changedAt h.arr (h.exec (.insert (.num v))).2.arr, k ∈ wayUp h.arr.length := by
    intro k hk
    rw [mem_changedAt] at hk
    by_contra hn
    apply hk
    cases e : bhInsert h.isMin h.arr (.num v) with
    | error er => simp [BinHeap.exec, e, Except.map, BinHeap.upd]
    | ok ys =>
      simp only [BinHeap.exec, e, Except.map, BinHeap.upd]
      simp only [bhInsert, numArg, bind, Except.bind] at e
      rw [siftUp_path _ _ e k hn]
      have hne : k ≠ h.arr.length := by rintro rfl; exact hn (self_mem_wayUp _)
      rcases Nat.lt_or_ge k h.arr.length with hl | hl
      · rw [List.getElem?_append_left hl]
      · rw [List.getElem?_eq_none hl, List.getElem?_eq_none (by simp; omega)]
  refine ⟨key, (changedAt_length key).trans ?_⟩
  rw [wayUp_length _ le_rfl]

/-- **C107, `remove`.** Removing a number that is there changes the list only at the last place, which
goes, and on one way down from the place where the number was: at most `log2 n + 2` entries. -/
theorem C107_remove (h : BinHeap N) {v : N} (hv : v ∈ h.arr) :
    (∃ q, h.arr.idxOf v ∈ wayUp q ∧ q < h.arr.length ∧
      ∀ k ∈ changedAt h.arr (h.exec (.remove (.num v))).2.arr,
        k = h.arr.length - 1 ∨ (k ∈ wayUp q ∧ h.arr.idxOf v ≤ k)) ∧
    (changedAt h.arr (h.exec (.remove (.num v))).2.arr).length ≤ Nat.log 2 h.arr.length + 2 := by
  have hne : h.arr ≠ [] := List.ne_nil_of_mem hv
  have hpos := List.length_pos_of_ne_nil hne
  have hlt := List.idxOf_lt_length_of_mem hv
  have key : ∃ q, h.arr.idxOf v ∈ wayUp q ∧ q < h.arr.length ∧
      ∀ k ∈ changedAt h.arr (h.exec (.remove (.num v))).2.arr,
        k = h.arr.length - 1 ∨ (k ∈ wayUp q ∧ h.arr.idxOf v ≤ k) := by
    cases e : bhRemove h.isMin h.arr (.num v) with
    | error er =>
      refine ⟨h.arr.idxOf v, self_mem_wayUp _, hlt, ?_⟩
      simp [BinHeap.exec, e, BinHeap.upd, changedAt_self]
    | ok r =>
      simp only [BinHeap.exec, e, BinHeap.upd]
      simp only [bhRemove, if_neg hne, if_pos hv, bind, Except.bind] at e
      cases h1 : bhGet h.arr (h.arr.length - 1) with
      | error er => rw [h1] at e; cases e
      | ok l =>
        rw [h1] at e
        simp only [] at e
        split at e
        · cases e
        · rename_i ws hws
          cases e
          obtain ⟨q, q1, q2, q3⟩ := siftDown_path _ _ _ hws
          refine ⟨q, q1, by omega, ?_⟩
          intro k hk
          rw [mem_changedAt] at hk
          by_contra hn
          push Not at hn
          obtain ⟨hn1, hn2⟩ := hn
          apply hk
          have hlen : ws.length = h.arr.length := by
            have := siftDown_length _ _ _ hws
            simpa [bhSwap] using this
          rcases Nat.lt_or_ge k (h.arr.length - 1) with hl | hl
          · rw [List.getElem?_dropLast, if_pos (by omega), q3 k ?_,
              List.getElem?_set_ne (by omega), bhSwap_other]
            · omega
            · rintro rfl
              have := hn2 q1
              omega
            · by_cases hm : k ∈ wayUp q
              · exact Or.inr (hn2 hm)
              · exact Or.inl hm
          · rw [List.getElem?_eq_none (by omega), List.getElem?_eq_none (by simp; omega)]
  refine ⟨key, ?_⟩
  obtain ⟨q, _, hq, hk⟩ := key
  have := changedAt_length (l := (h.arr.length - 1) :: wayUp q) (fun k hm => by
    rcases hk k hm with h | h
    · rw [h]; exact List.mem_cons_self
    · exact List.mem_cons_of_mem _ h.1)
  rw [List.length_cons, wayUp_length _ le_rfl] at this
  have hlog : Nat.log 2 (q + 1) ≤ Nat.log 2 h.arr.length := Nat.log_mono_right (by omega)
  omega

/-- **C107, other calls.** A call other than `insert`, `remove`, `remove_min`, `remove_max` and `clear`
changes nothing, and neither does an `insert` of something that is not a number or a `remove` of
something that is not there. -/
theorem C107_others (h : BinHeap N) :
    (∀ op, (op = .getMin ∨ op = .getMax ∨ op = .len ∨ op = .isEmpty ∨ op = .iter ∨ op = .toList ∨
      (∃ v, op = .contains v)) → (h.exec op).2 = h) ∧
    (∀ v, (∀ n, v ≠ .num n) → (h.exec (.insert v)).2 = h ∧ (h.exec (.remove v)).2 = h) ∧
    ∀ n, n ∉ h.arr → (h.exec (.remove (.num n))).2 = h := by
  refine ⟨?_, ?_, ?_⟩
  · rintro op (rfl | rfl | rfl | rfl | rfl | rfl | ⟨v, rfl⟩) <;> rfl
  · intro v hv
    cases v with
    | num n => exact absurd rfl (hv n)
    | none =>
      refine ⟨rfl, ?_⟩
      simp only [BinHeap.exec, bhRemove]
      split <;> rfl
    | other =>
      refine ⟨rfl, ?_⟩
      simp only [BinHeap.exec, bhRemove]
      split <;> rfl
  · intro n hn
    simp only [BinHeap.exec, bhRemove, if_neg hn]
    split <;> rfl

/-- **C107, every call.** On a heap with `n` items a call other than `clear` changes at most
`log2 (n + 1) + 2` entries of the list. -/
theorem C107_every_call (h : BinHeap N) (op : BHOp N) (hop : op ≠ .clear) :
    (changedAt h.arr (h.exec op).2.arr).length ≤ Nat.log 2 (h.arr.length + 1) + 2 := by
  have same : (h.exec op).2 = h → (changedAt h.arr (h.exec op).2.arr).length ≤
      Nat.log 2 (h.arr.length + 1) + 2 := by
    intro e; rw [e, changedAt_self]; simp
  have rem : ∀ v : NumArg N, (changedAt h.arr (h.exec (.remove v)).2.arr).length ≤
      Nat.log 2 (h.arr.length + 1) + 2 := by
    intro v
    have nul : (h.exec (.remove v)).2 = h → (changedAt h.arr (h.exec (.remove v)).2.arr).length ≤
        Nat.log 2 (h.arr.length + 1) + 2 := by
      intro e; rw [e, changedAt_self]; simp
    cases v with
    | none => exact nul ((C107_others h).2.1 _ (by simp)).2
    | other => exact nul ((C107_others h).2.1 _ (by simp)).2
    | num n =>
      by_cases hn : n ∈ h.arr
      · have h1 := (C107_remove h hn).2
        have h2 : Nat.log 2 h.arr.length ≤ Nat.log 2 (h.arr.length + 1) := Nat.log_mono_right (by omega)
        omega
      · exact nul ((C107_others h).2.2 n hn)
  cases op with
  | clear => exact absurd rfl hop
  | insert v =>
    cases v with
    | none => exact same rfl
    | other => exact same rfl
    | num v => have := (C107_insert h v).2; omega
  | remove v => exact rem v
  | removeMin =>
    cases e : bhMin h with
    | error er => exact same (by simp [BinHeap.exec, e, bind, Except.bind, BinHeap.upd])
    | ok m =>
      have : h.exec .removeMin = h.exec (.remove (.num m)) := by
        simp [BinHeap.exec, e, bind, Except.bind]
      rw [this]; exact rem _
  | removeMax =>
    cases e : bhMax h with
    | error er => exact same (by simp [BinHeap.exec, e, bind, Except.bind, BinHeap.upd])
    | ok m =>
      have : h.exec .removeMax = h.exec (.remove (.num m)) := by
        simp [BinHeap.exec, e, bind, Except.bind]
      rw [this]; exact rem _
  | getMin => exact same rfl
  | getMax => exact same rfl
  | contains v => exact same rfl
  | len => exact same rfl
  | isEmpty => exact same rfl
  | iter => exact same rfl
  | toList => exact same rfl

/-- an insertion that goes up to the root of seven items, and a removal that goes down again: three of
the seven other items stay where they are -/
example : (BinHeap.exec (.insert (.num 1)) (⟨true, [2, 5, 3, 9, 8, 6, 7]⟩ : BinHeap (Fin 20))).2.arr =
      [1, 2, 3, 5, 8, 6, 7, 9] ∧
    changedAt ([2, 5, 3, 9, 8, 6, 7] : List (Fin 20)) [1, 2, 3, 5, 8, 6, 7, 9] = [0, 1, 3, 7] ∧
    wayUp 7 = [7, 3, 1, 0] ∧
    (BinHeap.exec (.remove (.num 1)) (⟨true, [1, 2, 3, 5, 8, 6, 7, 9]⟩ : BinHeap (Fin 20))).2.arr =
      [2, 5, 3, 9, 8, 6, 7] ∧
    changedAt ([1, 2, 3, 5, 8, 6, 7, 9] : List (Fin 20)) [2, 5, 3, 9, 8, 6, 7] = [0, 1, 3, 7] := by
  decide +kernel

end Extra
