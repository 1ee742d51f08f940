import Verif.Trees.HeapPath
import Mathlib.Algebra.BigOperators.Group.List.Basic

/-!
# Specification: how many entries of its list `heapify` changes on the way
-/

set_option linter.unusedSectionVars false

namespace Extra
variable {N : Type} [LinearOrder N] [BoundedOrder N]

/-- the list of the heap made from some numbers — _heap.py:110-115 -/
def heapList (isMin : Bool) (ns : List N) : List N :=
  match heapify isMin (ns.map .num) with
  | .ok h => h.arr
  | .error _ => []

/-- the entries that change from one number to the next, all together; at least as many entries are written -/
def heapifyChanges (isMin : Bool) (ns : List N) : Nat :=
  ((List.range ns.length).map (fun k =>
    (changedAt (heapList isMin (ns.take k)) (heapList isMin (ns.take (k + 1)))).length)).sum

/-- each number goes to the root: decreasing ones for a `MinHeap`, increasing ones for a `MaxHeap` -/
def EachToRoot (isMin : Bool) (ns : List N) : Prop :=
  ns.Pairwise (fun a b => if isMin then b < a else a < b)

instance (isMin : Bool) (ns : List N) : Decidable (EachToRoot isMin ns) := by
  unfold EachToRoot; infer_instance

/-! ## Helper lemmas -/

theorem wayUp_le : ∀ (n : Nat) {i j : Nat}, i ≤ n → j ∈ wayUp i → j ≤ i := by
  intro n
  induction n with
  | zero =>
    intro i j hi hj
    have : i = 0 := by omega
    subst this
    rw [wayUp] at hj
    simp at hj
    omega
  | succ n ih =>
    intro i j hi hj
    rw [wayUp] at hj
    rcases List.mem_cons.1 hj with rfl | hj
    · exact le_rfl
    · split at hj
      · simp at hj
      · have := ih (by omega) hj
        omega

theorem wayUp_nodup : ∀ (n : Nat) {i : Nat}, i ≤ n → (wayUp i).Nodup := by
  intro n
  induction n with
  | zero =>
    intro i hi
    have : i = 0 := by omega
    subst this
    rw [wayUp]; simp
  | succ n ih =>
    intro i hi
    rw [wayUp]
    split
    · simp
    · refine List.nodup_cons.2 ⟨fun h => ?_, ih (by omega)⟩
      have := wayUp_le _ le_rfl h
      omega

theorem siftUp_shift (m : Bool) : ∀ (fuel : Nat) {xs ys : List N} {i : Nat} {v : N},
    siftUp m fuel xs i = .ok ys → xs[i]? = some v → (∀ j x, j ≠ i → xs[j]? = some x → bhWrong m x v = true) →
    ys[0]? = some v ∧ ∀ k ∈ wayUp i, k ≠ 0 → ys[k]? = xs[(k - 1) / 2]?
  | fuel, xs, ys, i, v, h, hv, hw => by
    unfold siftUp at h
    by_cases h0 : i = 0
    · rw [if_pos h0] at h; cases h
      subst h0
      refine ⟨hv, fun k hk hk0 => ?_⟩
      have := wayUp_le _ le_rfl hk
      omega
    · rw [if_neg h0] at h
      cases fuel with
      | zero => cases h
      | succ fuel =>
        simp only [bind, Except.bind] at h
        have hil : i < xs.length := by
          by_contra hl
          rw [List.getElem?_eq_none (by omega)] at hv
          cases hv
        have hp : (i - 1) / 2 < i := by omega
        have hb : xs[(i - 1) / 2]? = some xs[(i - 1) / 2] := List.getElem?_eq_getElem (by omega)
        rw [show bhGet xs i = .ok v by simp [bhGet, hv], show bhGet xs ((i - 1) / 2) = .ok xs[(i - 1) / 2] by
          simp [bhGet, hb]] at h
        simp only [hw _ _ (by omega) hb, if_true] at h
        have hv' : (bhSwap xs ((i - 1) / 2) i xs[(i - 1) / 2] v)[(i - 1) / 2]? = some v := by
          rw [bhSwap, List.getElem?_set_ne (by omega), List.getElem?_set_self (by omega)]
        have hi' : (bhSwap xs ((i - 1) / 2) i xs[(i - 1) / 2] v)[i]? = some xs[(i - 1) / 2] := by
          rw [bhSwap, List.getElem?_set_self (by simp; omega)]
        obtain ⟨r1, r2⟩ := siftUp_shift m fuel h hv' (fun j x hj hx => by
          by_cases hji : j = i
          · subst hji
            rw [hi'] at hx
            cases hx
            exact hw _ _ (by omega) hb
          · rw [bhSwap_other _ _ _ hj hji] at hx
            exact hw _ _ hji hx)
        refine ⟨r1, fun k hk hk0 => ?_⟩
        rw [wayUp, dif_neg h0] at hk
        rcases List.mem_cons.1 hk with rfl | hk
        · rw [siftUp_path m fuel h k (fun hm => by have := wayUp_le _ le_rfl hm; omega), hi', hb]
        · have := wayUp_le _ le_rfl hk
          rw [r2 k hk hk0, bhSwap_other _ _ _ (by omega) (by omega)]

theorem heapifyLoop_snoc (m : Bool) (v : NumArg N) : ∀ (vs : List (NumArg N)) (xs : List N),
    heapifyLoop m (vs ++ [v]) xs = heapifyLoop m vs xs >>= fun ys => bhInsert m ys v
  | [], xs => by
    simp only [List.nil_append, heapifyLoop, bind, Except.bind]
    cases bhInsert m xs v <;> rfl
  | w :: vs, xs => by
    simp only [List.cons_append, heapifyLoop, bind, Except.bind]
    cases bhInsert m xs w with
    | error e => rfl
    | ok ys => exact heapifyLoop_snoc m v vs ys

end Extra
