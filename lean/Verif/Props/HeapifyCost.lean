import Verif.Trees.HeapifyCost
import Verif.Props.HeapPath
import Verif.Props.Heaps
import Mathlib.Algebra.Order.BigOperators.Group.List
import Mathlib.Order.WithBot
import Mathlib.Algebra.Order.Ring.Int
import Mathlib.Tactic.Linarith

/-!
# C112: how much `heapify` changes

_heap.py:88-90 promises "time-complexity of O(n)".
-/

set_option linter.unusedSectionVars false

namespace Extra
variable {N : Type} [LinearOrder N] [BoundedOrder N]

private theorem heapList_spec (m : Bool) (ns : List N) :
    heapifyLoop m (ns.map .num) [] = .ok (heapList m ns) ∧ (heapList m ns).Perm ns := by
  obtain ⟨h, e, -, -, p⟩ := C24_heapify m ns
  have e' : heapList m ns = h.arr := by rw [heapList, e]
  rw [e']
  refine ⟨?_, p⟩
  simp only [heapify, bind, Except.bind] at e
  cases e2 : heapifyLoop m (ns.map .num) ([] : List N) with
  | error x => rw [e2] at e; cases e
  | ok y => rw [e2] at e; cases e; rfl

private theorem heapList_take (m : Bool) (ns : List N) (k : Nat) (hk : k < ns.length) :
    bhInsert m (heapList m (ns.take k)) (.num ns[k]) = .ok (heapList m (ns.take (k + 1))) := by
  have h1 := (heapList_spec m (ns.take k)).1
  have h2 := (heapList_spec m (ns.take (k + 1))).1
  rw [List.take_succ_eq_append_getElem hk] at h2 ⊢
  rw [List.map_append, List.map_singleton, heapifyLoop_snoc, h1] at h2
  exact h2

private theorem heapList_take_length (m : Bool) (ns : List N) (k : Nat) (hk : k < ns.length) :
    (heapList m (ns.take k)).length = k := by
  rw [(heapList_spec m _).2.length_eq, List.length_take]; omega

/-- **C112, at most.** On the way to a heap of `n` numbers `heapify` changes at most
`(log2 1 + 1) + ... + (log2 n + 1)` entries, and so at most `n * (log2 n + 1)`. -/
theorem C112_at_most (isMin : Bool) (ns : List N) :
    heapifyChanges isMin ns ≤ ((List.range ns.length).map (fun k => Nat.log 2 (k + 1) + 1)).sum ∧
    heapifyChanges isMin ns ≤ ns.length * (Nat.log 2 ns.length + 1) := by
  have h1 : heapifyChanges isMin ns ≤ ((List.range ns.length).map (fun k => Nat.log 2 (k + 1) + 1)).sum := by
    refine List.sum_le_sum fun k hk => ?_
    rw [List.mem_range] at hk
    have h := (C107_insert ⟨isMin, heapList isMin (ns.take k)⟩ ns[k]).2
    simp only [BinHeap.exec, heapList_take isMin ns k hk, Except.map, BinHeap.upd,
      heapList_take_length isMin ns k hk] at h
    exact h
  refine ⟨h1, h1.trans ?_⟩
  refine (List.sum_le_card_nsmul _ (Nat.log 2 ns.length + 1) ?_).trans ?_
  · intro x hx
    obtain ⟨k, hk, rfl⟩ := List.mem_map.1 hx
    rw [List.mem_range] at hk
    have := Nat.log_mono_right (b := 2) (show k + 1 ≤ ns.length by omega)
    omega
  · simp

/-- **C112, exactly.** For numbers in decreasing order in a `MinHeap`, or in increasing order in a `MaxHeap`,
`heapify` changes `(log2 1 + 1) + ... + (log2 n + 1)` entries, the most possible. -/
theorem C112_each_to_root (isMin : Bool) (ns : List N) (h : EachToRoot isMin ns) :
    heapifyChanges isMin ns = ((List.range ns.length).map (fun k => Nat.log 2 (k + 1) + 1)).sum := by
  refine le_antisymm (C112_at_most isMin ns).1 (List.sum_le_sum fun k hk => ?_)
  rw [List.mem_range] at hk
  have e := heapList_take isMin ns k hk
  have hl := heapList_take_length isMin ns k hk
  have hp := (heapList_spec isMin (ns.take k)).2
  have hw : ∀ x ∈ ns.take k, bhWrong isMin x ns[k] = true := by
    intro x hx
    obtain ⟨i, hi, rfl⟩ := List.mem_take_iff_getElem.1 hx
    have := List.pairwise_iff_getElem.1 h i k (by omega) hk (by omega)
    unfold bhWrong
    cases isMin <;> simpa using this
  have hd : (ns.take k).Nodup := by
    refine List.Nodup.sublist (List.take_sublist _ _) (h.imp ?_)
    rintro a b hab rfl
    cases isMin <;> simp at hab
  have hx : ∀ j x, (heapList isMin (ns.take k))[j]? = some x → bhWrong isMin x ns[k] = true := fun j x hj =>
    hw x (hp.subset (List.mem_of_getElem? hj))
  simp only [bhInsert, numArg, bind, Except.bind] at e
  generalize heapList isMin (ns.take k) = xs at *
  generalize heapList isMin (ns.take (k + 1)) = ys at *
  obtain ⟨s1, s2⟩ := siftUp_shift isMin _ e (v := ns[k]) (by simp) (fun j x hj hxj => by
    rcases Nat.lt_or_ge j xs.length with hlt | hge
    · rw [List.getElem?_append_left hlt] at hxj
      exact hx j x hxj
    · rw [List.getElem?_eq_none (by simp; omega)] at hxj
      cases hxj)
  have sub : ∀ j ∈ wayUp xs.length, j ∈ changedAt xs ys := by
    intro j hj
    rw [mem_changedAt]
    have hjl := wayUp_le _ le_rfl hj
    by_cases hj0 : j = 0
    · subst hj0
      rw [s1]
      intro hc
      have := hx 0 _ hc
      simp [bhWrong] at this
    · rw [s2 j hj hj0, List.getElem?_append_left (by omega)]
      intro hc
      have hpar : (j - 1) / 2 < xs.length := by omega
      rw [List.getElem?_eq_getElem hpar] at hc
      obtain ⟨hjx, hc⟩ := List.getElem?_eq_some_iff.1 hc
      have := (List.Nodup.getElem_inj_iff (hp.nodup_iff.2 hd)).1 hc
      omega
  have := (List.subperm_of_subset (wayUp_nodup _ le_rfl) sub).length_le
  rwa [wayUp_length _ le_rfl, hl] at this

example : EachToRoot true ([6, 5, 4, 3, 2, 1, 0] : List (Fin 20)) ∧
    heapifyChanges true ([6, 5, 4, 3, 2, 1, 0] : List (Fin 20)) = 1 + 2 + 2 + 3 + 3 + 3 + 3 ∧
    heapifyChanges true ([0, 1, 2, 3, 4, 5, 6] : List (Fin 20)) = 7 ∧
    heapifyChanges false ([0, 1, 2, 3, 4, 5, 6] : List (Fin 20)) = 17 := by decide +kernel

private theorem log_sum (c : Nat) : ∃ n, 0 < n ∧
    c * n < ((List.range n).map (fun k => Nat.log 2 (k + 1) + 1)).sum := by
  refine ⟨2 * 2 ^ (2 * c), by positivity, ?_⟩
  rw [two_mul, List.range_add, List.map_append, List.sum_append, List.map_map]
  have h1 : 2 ^ (2 * c) * (2 * c + 1) ≤ ((List.range (2 ^ (2 * c))).map
      ((fun k => Nat.log 2 (k + 1) + 1) ∘ (fun x => 2 ^ (2 * c) + x))).sum := by
    refine le_trans ?_ (List.card_nsmul_le_sum _ (2 * c + 1) ?_)
    · simp
    · intro x hx
      obtain ⟨k, -, rfl⟩ := List.mem_map.1 hx
      have : 2 * c ≤ Nat.log 2 (2 ^ (2 * c) + k + 1) :=
        Nat.le_log_of_pow_le (by omega) (by omega)
      simpa using this
  have h2 : 0 < 2 ^ (2 * c) := by positivity
  nlinarith

/-- **C112 fails.** No factor `c` makes `c * n` a bound on the entries changed, neither for `MinHeap` nor for
`MaxHeap`; the numbers can be integers. -/
theorem C112_not_linear (isMin : Bool) (c : Nat) :
    ∃ ns : List (WithBot (WithTop Int)), (∀ x ∈ ns, ∃ z : Int, x = ((z : WithTop Int) : WithBot (WithTop Int))) ∧
      ns ≠ [] ∧ c * ns.length < heapifyChanges isMin ns := by
  obtain ⟨n, hn, h⟩ := log_sum c
  let f : Nat → Int := fun k => if isMin then -(k : Int) else k
  refine ⟨(List.range n).map (fun k => (((f k : Int) : WithTop Int) : WithBot (WithTop Int))), ?_, ?_, ?_⟩
  · intro x hx
    obtain ⟨k, -, rfl⟩ := List.mem_map.1 hx
    exact ⟨_, rfl⟩
  · simp; omega
  · rw [C112_each_to_root]
    · simpa using h
    · rw [EachToRoot, List.pairwise_map]
      refine List.pairwise_lt_range.imp ?_
      intro a b hab
      cases isMin
      · simp only [f, Bool.false_eq_true, if_false, WithBot.coe_lt_coe, WithTop.coe_lt_coe]; omega
      · simp only [f, if_true, WithBot.coe_lt_coe, WithTop.coe_lt_coe]; omega

end Extra
