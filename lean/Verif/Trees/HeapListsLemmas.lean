import Verif.Trees.HeapLists
import Mathlib.Data.List.Basic

/-!
# What is seen of heaps and of the lists they hand out (specification), and lemmas about it

`Made` are the worlds any history of the caller leads to.  `items` and `received` are what is seen: the
items of a heap and the contents of a list received.
-/

set_option linter.unusedSectionVars false

namespace Extra
variable {N : Type} [LinearOrder N] [BoundedOrder N]

/-- a world made by a history -/
def Made (w : HeapWorld N) : Prop := ∃ ops, w = (HeapWorld.steps ops HeapWorld.init).2

/-- the items of the `i`-th heap -/
def HeapWorld.items (w : HeapWorld N) (i : Nat) : Option (List N) := w.heaps[i]?.map (fun h => w.lists h.2)

/-- the contents of the `j`-th list received -/
def HeapWorld.received (w : HeapWorld N) (j : Nat) : Option (List N) := w.held[j]?.map w.lists

/-- the heap is not cleared in this history -/
def keeps (i : Nat) (ops : List (HWOp N)) : Prop := HWOp.call i BHOp.clear ∉ ops

/-- the objects of a world: every heap has a list object of its own -/
structure HWInv (w : HeapWorld N) : Prop where
  heapLt : ∀ (i : Nat) (h : Bool × Nat), w.heaps[i]? = some h → h.2 < w.nLists
  heldLt : ∀ (j a : Nat), w.held[j]? = some a → a < w.nLists
  own : ∀ (i i' : Nat) (h h' : Bool × Nat), w.heaps[i]? = some h → w.heaps[i']? = some h' → h.2 = h'.2 → i = i'

theorem HWInv.put {w : HeapWorld N} (I : HWInv w) (a : Nat) (xs : List N) : HWInv (w.put a xs) :=
  ⟨I.heapLt, I.heldLt, I.own⟩

/-- the methods that neither hand out nor replace the list object -/
theorem hw_step_call {w : HeapWorld N} {i : Nat} {op : BHOp N} {k : Bool} {a : Nat}
    (hi : w.heaps[i]? = some (k, a)) (h1 : op ≠ .toList) (h2 : op ≠ .clear) :
    w.step (.call i op) = (.res ((⟨k, w.lists a⟩ : BinHeap N).exec op).1,
      w.put a ((⟨k, w.lists a⟩ : BinHeap N).exec op).2.arr) := by
  cases op <;> first | exact absurd rfl h1 | exact absurd rfl h2 | simp [HeapWorld.step, hi]

theorem HWInv.step {w : HeapWorld N} (I : HWInv w) (op : HWOp N) : HWInv (w.step op).2 := by
  cases op with
  | new isMin =>
    refine ⟨fun i h hi => ?_, fun j a hj => ?_, fun i i' h h' hi hi' e => ?_⟩
    · simp only [HeapWorld.step, HeapWorld.put] at hi ⊢
      rw [List.getElem?_append] at hi
      split at hi
      · have := I.heapLt i h hi; omega
      · cases hk : i - w.heaps.length with
        | zero => rw [hk] at hi; simp at hi; rw [← hi]; simp
        | succ n => rw [hk] at hi; simp at hi
    · have := I.heldLt j a hj
      simp only [HeapWorld.step]; omega
    · simp only [HeapWorld.step, HeapWorld.put] at hi hi'
      rw [List.getElem?_append] at hi hi'
      split at hi <;> split at hi'
      · exact I.own i i' h h' hi hi' e
      · have := I.heapLt i h hi
        have : h'.2 = w.nLists := by
          cases hk : i' - w.heaps.length with
          | zero => rw [hk] at hi'; simp at hi'; rw [← hi']
          | succ n => rw [hk] at hi'; simp at hi'
        omega
      · have := I.heapLt i' h' hi'
        have : h.2 = w.nLists := by
          cases hk : i - w.heaps.length with
          | zero => rw [hk] at hi; simp at hi; rw [← hi]
          | succ n => rw [hk] at hi; simp at hi
        omega
      · have e1 : i - w.heaps.length = 0 := by
          cases hk : i - w.heaps.length with
          | zero => rfl
          | succ n => rw [hk] at hi; simp at hi
        have e2 : i' - w.heaps.length = 0 := by
          cases hk : i' - w.heaps.length with
          | zero => rfl
          | succ n => rw [hk] at hi'; simp at hi'
        omega
  | call i op =>
    cases hi : w.heaps[i]? with
    | none => simp only [HeapWorld.step, hi]; exact I
    | some h =>
      obtain ⟨k, a⟩ := h
      by_cases h1 : op = .toList
      · subst h1
        simp only [HeapWorld.step, hi]
        refine ⟨I.heapLt, fun j b hj => ?_, I.own⟩
        simp only at hj ⊢
        rw [List.getElem?_append] at hj
        split at hj
        · exact I.heldLt j b hj
        · cases hk : j - w.held.length with
          | zero => rw [hk] at hj; simp at hj; rw [← hj]; exact I.heapLt i _ hi
          | succ n => rw [hk] at hj; simp at hj
      by_cases h2 : op = .clear
      · subst h2
        simp only [HeapWorld.step, hi]
        refine ⟨fun j h hj => ?_, fun j b hj => ?_, fun j j' h h' hj hj' e => ?_⟩
        · simp only [List.getElem?_set] at hj
          split at hj
          · split at hj
            · cases hj; simp
            · cases hj
          · have := I.heapLt j h hj; simp only; omega
        · have := I.heldLt j b hj; simp only; omega
        · simp only [List.getElem?_set] at hj hj'
          split at hj <;> split at hj'
          · omega
          · split at hj
            · cases hj
              have := I.heapLt j' h' hj'
              simp only at e
              omega
            · cases hj
          · split at hj'
            · cases hj'
              have := I.heapLt j h hj
              simp only at e
              omega
            · cases hj'
          · exact I.own j j' h h' hj hj' e
      rw [hw_step_call hi h1 h2]
      exact I.put _ _
  | edit j f =>
    simp only [HeapWorld.step]
    cases w.held[j]? with
    | none => exact I
    | some a => exact I.put _ _
  | read j =>
    simp only [HeapWorld.step]
    cases w.held[j]? <;> exact I

theorem HWInv.steps {w : HeapWorld N} (I : HWInv w) : ∀ ops, HWInv (HeapWorld.steps ops w).2
  | [] => I
  | op :: ops => (I.step op).steps ops

theorem Made.inv {w : HeapWorld N} (h : Made w) : HWInv w := by
  obtain ⟨ops, rfl⟩ := h
  refine HWInv.steps ⟨?_, ?_, ?_⟩ ops <;> simp [HeapWorld.init]

/-- addresses of the heap and of the list received stay, unless the heap is cleared -/
theorem hw_stay {w : HeapWorld N} {i j : Nat} {a : Nat} {b : Nat} {k : Bool}
    (hi : w.heaps[i]? = some (k, a)) (hj : w.held[j]? = some b) :
    ∀ (ops : List (HWOp N)), keeps i ops →
      (HeapWorld.steps ops w).2.heaps[i]? = some (k, a) ∧ (HeapWorld.steps ops w).2.held[j]? = some b := by
  intro ops
  induction ops generalizing w with
  | nil => exact fun _ => ⟨hi, hj⟩
  | cons op ops ih =>
    intro h
    have h1 : op ≠ .call i .clear := fun e => h (by simp [e])
    have h2 : keeps i ops := fun e => h (by simp [e])
    have il : i < w.heaps.length := by
      by_contra hc; rw [List.getElem?_eq_none (by omega)] at hi; cases hi
    have jl : j < w.held.length := by
      by_contra hc; rw [List.getElem?_eq_none (by omega)] at hj; cases hj
    suffices hs : (w.step op).2.heaps[i]? = some (k, a) ∧ (w.step op).2.held[j]? = some b from ih hs.1 hs.2 h2
    cases op with
    | new isMin => exact ⟨by simp only [HeapWorld.step, List.getElem?_append, il, if_true, hi], hj⟩
    | call i' op =>
      cases hi' : w.heaps[i']? with
      | none => simp only [HeapWorld.step, hi']; exact ⟨hi, hj⟩
      | some x =>
        obtain ⟨k', a'⟩ := x
        by_cases h1' : op = .toList
        · subst h1'
          simp only [HeapWorld.step, hi']
          exact ⟨hi, by simp only [List.getElem?_append, jl, if_true, hj]⟩
        by_cases h2' : op = .clear
        · subst h2'
          have hne : i' ≠ i := fun e => h1 (by rw [e])
          simp only [HeapWorld.step, hi']
          exact ⟨by simp [hne, hi], hj⟩
        rw [hw_step_call hi' h1' h2']
        exact ⟨hi, hj⟩
    | edit j' f => simp only [HeapWorld.step]; cases w.held[j']? <;> exact ⟨hi, hj⟩
    | read j' => simp only [HeapWorld.step]; cases w.held[j']? <;> exact ⟨hi, hj⟩

/-- a list received stays the same object -/
theorem hw_held_stay {w : HeapWorld N} {j b : Nat} (hj : w.held[j]? = some b) :
    ∀ (ops : List (HWOp N)), (HeapWorld.steps ops w).2.held[j]? = some b := by
  intro ops
  induction ops generalizing w with
  | nil => exact hj
  | cons op ops ih =>
    have jl : j < w.held.length := by
      by_contra hc; rw [List.getElem?_eq_none (by omega)] at hj; cases hj
    refine ih (w := (w.step op).2) ?_
    cases op with
    | new isMin => exact hj
    | call i op =>
      cases hi : w.heaps[i]? with
      | none => simp only [HeapWorld.step, hi]; exact hj
      | some x =>
        obtain ⟨k, a⟩ := x
        by_cases h1 : op = .toList
        · subst h1; simp only [HeapWorld.step, hi]; simp only [List.getElem?_append, jl, if_true, hj]
        by_cases h2 : op = .clear
        · subst h2; simp only [HeapWorld.step, hi]; exact hj
        rw [hw_step_call hi h1 h2]; exact hj
    | edit j' f => simp only [HeapWorld.step]; cases w.held[j']? <;> exact hj
    | read j' => simp only [HeapWorld.step]; cases w.held[j']? <;> exact hj

/-- once the list of a heap differs from a list received, it stays so -/
theorem hw_apart {w : HeapWorld N} (I : HWInv w) {i j b : Nat} (hj : w.held[j]? = some b)
    (hne : ∀ h : Bool × Nat, w.heaps[i]? = some h → h.2 ≠ b) (ops : List (HWOp N)) :
    ∀ h : Bool × Nat, (HeapWorld.steps ops w).2.heaps[i]? = some h → h.2 ≠ b := by
  induction ops generalizing w with
  | nil => exact hne
  | cons op ops ih =>
    have hb := I.heldLt j b hj
    refine ih (w := (w.step op).2) (I.step op) (hw_held_stay hj [op]) ?_
    cases op with
    | new isMin =>
      intro h hi
      simp only [HeapWorld.step, HeapWorld.put] at hi
      rw [List.getElem?_append] at hi
      split at hi
      · exact hne h hi
      · cases hk : i - w.heaps.length with
        | zero => rw [hk] at hi; simp at hi; rw [← hi]; simp only; omega
        | succ n => rw [hk] at hi; simp at hi
    | call i' op =>
      cases hi' : w.heaps[i']? with
      | none => simp only [HeapWorld.step, hi']; exact hne
      | some x =>
        obtain ⟨k', a'⟩ := x
        by_cases h1' : op = .toList
        · subst h1'; simp only [HeapWorld.step, hi']; exact hne
        by_cases h2' : op = .clear
        · subst h2'
          simp only [HeapWorld.step, hi']
          intro h hi
          simp only [List.getElem?_set] at hi
          split at hi
          · split at hi
            · cases hi; simp only; omega
            · cases hi
          · exact hne h hi
        rw [hw_step_call hi' h1' h2']
        exact hne
    | edit j' f => simp only [HeapWorld.step]; cases w.held[j']? <;> exact hne
    | read j' => simp only [HeapWorld.step]; cases w.held[j']? <;> exact hne

end Extra
