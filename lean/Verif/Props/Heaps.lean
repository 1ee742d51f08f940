import Verif.Trees.BinHeapProofs
import Mathlib.Data.List.Sort
import Mathlib.Order.Fin.Basic
import Batteries.Lean.Except

/-!
# Properties C24-C29: MinHeap and MaxHeap

`exec`/`execs` run API calls on the array model (Verif/Trees/BinHeap.lean); `HeapOrdered`, `bagRun`
are the specification (Verif/Trees/BinHeapSpec.lean).  `isMin` selects the class.
-/

set_option linter.unusedSectionVars false

namespace Extra
variable {N : Type} [LinearOrder N] [BoundedOrder N]

/-! ## C24 -/

/-- C24: inserting a number into a heap-ordered heap succeeds and leaves it heap-ordered; a value
that is not a number raises and changes nothing. -/
theorem C24_insert (h : BinHeap N) (ho : HeapOrdered h.isMin h.arr) (v : NumArg N) :
    HeapOrdered h.isMin (h.exec (.insert v)).2.arr ∧
    (h.exec (.insert v)).1 = (match v with
      | .num _ => .ok (.unit, false)
      | .none => .error .valueError
      | .other => .error .typeError) := by
  cases v with
  | num v =>
    obtain ⟨ys, e, _, o⟩ := bhInsert_num h.isMin h.arr v
    simp only [BinHeap.exec, e, Except.map, BinHeap.upd, and_true]
    exact o ho
  | none => exact ⟨ho, rfl⟩
  | other => exact ⟨ho, rfl⟩

private theorem heapifyLoop_spec (b : Bool) : ∀ (ns : List N) (xs : List N), HeapOrdered b xs →
    ∃ ys, heapifyLoop b (ns.map .num) xs = .ok ys ∧ HeapOrdered b ys ∧ ys.Perm (ns ++ xs)
  | [], xs, h => ⟨xs, rfl, h, List.Perm.refl _⟩
  | n :: ns, xs, h => by
    obtain ⟨ys, e, p, o⟩ := bhInsert_num b xs n
    obtain ⟨zs, e2, o2, p2⟩ := heapifyLoop_spec b ns ys (o h)
    refine ⟨zs, ?_, o2, p2.trans ?_⟩
    · simp only [List.map_cons, heapifyLoop, e, bind, Except.bind, e2]
    · exact (List.Perm.append_left ns p).trans List.perm_middle

private theorem heapOrdered_nil (b : Bool) : HeapOrdered b ([] : List N) := by
  intro i hi; simp at hi

/-- C24: `heapify` of any numbers gives a heap-ordered heap holding exactly those numbers. -/
theorem C24_heapify (isMin : Bool) (ns : List N) :
    ∃ h : BinHeap N, heapify isMin (ns.map .num) = .ok h ∧ h.isMin = isMin ∧
      HeapOrdered isMin h.arr ∧ h.arr.Perm ns := by
  obtain ⟨ys, e, o, p⟩ := heapifyLoop_spec isMin ns [] (heapOrdered_nil _)
  exact ⟨⟨isMin, ys⟩, by simp [heapify, e, bind, Except.bind], rfl, o, by simpa using p⟩

example : heapify true ([9, 3, 7, 1, 3].map (NumArg.num (N := Fin 20))) = .ok ⟨true, [1, 3, 7, 9, 3]⟩ ∧
    HeapOrdered true ([1, 3, 7, 9, 3] : List (Fin 20)) := by decide +kernel

/-- C24: `heapify` of items one of which is not a number raises; the first such item says what. -/
theorem C24_heapify_invalid (isMin : Bool) (ns : List N) (bad : NumArg N) (rest : List (NumArg N))
    (hb : ∀ n, bad ≠ .num n) :
    heapify isMin (ns.map .num ++ bad :: rest) =
      (.error (if bad = .none then .valueError else .typeError) : Except Err (BinHeap N)) := by
  have loop : ∀ xs : List N, HeapOrdered isMin xs → heapifyLoop isMin (ns.map .num ++ bad :: rest) xs =
      .error (if bad = .none then .valueError else .typeError) := by
    induction ns with
    | nil =>
      intro xs _
      cases bad with
      | num n => exact absurd rfl (hb n)
      | none => rfl
      | other => rfl
    | cons n ns ih =>
      intro xs hx
      obtain ⟨ys, e, _, o⟩ := bhInsert_num isMin xs n
      simp only [List.map_cons, List.cons_append, heapifyLoop, e, bind, Except.bind]
      exact ih ys (o hx)
  simp only [heapify, loop [] (heapOrdered_nil _), bind, Except.bind]

example : heapify true [.num (3 : Fin 20), .num 1, .other, .none] = .error .typeError := by decide +kernel

/-! ## C26: removing any value -/

/-- C26, partial: for a heap-ordered heap, removing a value it holds leaves it heap-ordered exactly
if the value (its first occurrence) is the first or the last item, or the last item goes after the
parent of the removed one.  The full property would not need the condition; it fails otherwise, see
`C26_order_broken`. -/
theorem C26_remove_partial {isMin : Bool} {init : List N} {last v : N}
    (ho : HeapOrdered isMin (init ++ [last])) (hv : v ∈ init ++ [last]) :
    let h : BinHeap N := ⟨isMin, init ++ [last]⟩
    let d := (init ++ [last]).idxOf v
    (h.exec (.remove (.num v))).1 = .ok (.unit, false) ∧
    (HeapOrdered isMin (h.exec (.remove (.num v))).2.arr ↔
      d = 0 ∨ d = init.length ∨ ∃ p, init[(d - 1) / 2]? = some p ∧ inOrder isMin p last) := by
  intro h d
  obtain ⟨ys, e, o⟩ := bhRemove_ordered_iff isMin hv ho
  have hex : h.exec (.remove (.num v)) = (.ok (.unit, false), ⟨isMin, ys⟩) := by
    simp only [BinHeap.exec, h, e, BinHeap.upd]
  rw [hex]
  refine ⟨rfl, ?_⟩
  rw [o]
  have hd : d < (init ++ [last]).length := List.idxOf_lt_length_iff.2 hv
  simp only [List.length_append, List.length_singleton] at hd
  constructor
  · rintro (h | h | h)
    · exact Or.inl h
    · exact Or.inr (Or.inl h)
    · by_cases h0 : d = 0
      · exact Or.inl h0
      · have hlt : (d - 1) / 2 < init.length := by omega
        refine Or.inr (Or.inr ⟨_, List.getElem?_eq_getElem hlt, ?_⟩)
        rwa [Extra.hv_eq hlt] at h
  · rintro (h | h | ⟨p, hp, h⟩)
    · exact Or.inl h
    · exact Or.inr (Or.inl h)
    · refine Or.inr (Or.inr ?_)
      obtain ⟨hlt, rfl⟩ := List.getElem?_eq_some_iff.1 hp
      rwa [Extra.hv_eq hlt]

/-- C26 fails: removing 11 from this MinHeap moves 3 below 10. -/
theorem C26_order_broken : ¬ ∀ (xs : List (Fin 20)) (v : Fin 20), HeapOrdered true xs → v ∈ xs →
    HeapOrdered true ((⟨true, xs⟩ : BinHeap (Fin 20)).exec (.remove (.num v))).2.arr := by
  intro h
  exact absurd (h [0, 10, 1, 11, 12, 2, 3] 11 (by decide +kernel) (by decide +kernel))
    (by decide +kernel)

/-! ## C25, C28 -/

/-- the call that removes the item at the root: `remove_min` of a MinHeap, `remove_max` of a
MaxHeap -/
def rootRemove (isMin : Bool) : BHOp N := if isMin then .removeMin else .removeMax

/-- the call that reads the item at the root -/
def rootGet (isMin : Bool) : BHOp N := if isMin then .getMin else .getMax

private theorem exec_rootGet (h : BinHeap N) : h.exec (rootGet h.isMin) =
    ((bhFirst h.arr).map (fun m => (.num m, false)), h) := by
  obtain ⟨b, xs⟩ := h
  cases b <;> simp [rootGet, BinHeap.exec, bhMin, bhMax]

private theorem exec_rootRemove (h : BinHeap N) : h.exec (rootRemove h.isMin) =
    h.upd (bhFirst h.arr >>= fun m => bhRemove h.isMin h.arr (.num m)) := by
  obtain ⟨b, xs⟩ := h
  cases b <;> simp [rootRemove, BinHeap.exec, bhMin, bhMax]

private theorem rootRemove_aux {b : Bool} {xs : List N} (ho : HeapOrdered b xs) (hne : xs ≠ []) :
    ∃ m ys, bhFirst xs = .ok m ∧ m ∈ xs ∧ (∀ y ∈ xs, inOrder b m y) ∧
      bhRemove b xs (.num m) = .ok (ys, false) ∧ ys.Perm (xs.erase m) ∧ HeapOrdered b ys := by
  obtain ⟨m, e, hm, hall⟩ := bhFirst_spec ho hne
  obtain ⟨ys, e2, p⟩ := bhRemove_mem b hm
  refine ⟨m, ys, e, hm, hall, e2, p, ?_⟩
  have hidx : xs.idxOf m = 0 := by
    cases xs with
    | nil => exact absurd rfl hne
    | cons x xs =>
      have : m = x := by simpa [bhFirst, bhGet] using e.symm
      rw [this]; simp
  rcases List.eq_nil_or_concat xs with rfl | ⟨init, last, rfl⟩
  · exact absurd rfl hne
  · rw [List.concat_eq_append] at *
    obtain ⟨ys', e3, o⟩ := bhRemove_ordered_iff b hm ho
    rw [e2] at e3
    obtain ⟨rfl, _⟩ := Prod.mk.inj (Except.ok.inj e3)
    exact o.2 (Or.inl hidx)

/-- C25: on a heap-ordered non-empty heap, removing at the root (`MinHeap.remove_min`,
`MaxHeap.remove_max`) removes one occurrence of the extreme element, which `get_min` (`get_max`)
returned, and leaves a heap-ordered heap. -/
theorem C25_remove_root (h : BinHeap N) (ho : HeapOrdered h.isMin h.arr) (hne : h.arr ≠ []) :
    ∃ m ∈ h.arr, (∀ y ∈ h.arr, inOrder h.isMin m y) ∧
      (h.exec (rootGet h.isMin)).1 = .ok (.num m, false) ∧
      (h.exec (rootRemove h.isMin)).1 = .ok (.unit, false) ∧
      (h.exec (rootRemove h.isMin)).2.isMin = h.isMin ∧
      HeapOrdered h.isMin (h.exec (rootRemove h.isMin)).2.arr ∧
      (h.exec (rootRemove h.isMin)).2.arr.Perm (h.arr.erase m) := by
  obtain ⟨m, ys, e, hm, hall, e2, p, o⟩ := rootRemove_aux ho hne
  refine ⟨m, hm, hall, ?_⟩
  rw [exec_rootGet, exec_rootRemove, e]
  simp only [Except.map, bind, Except.bind, e2, BinHeap.upd, true_and]
  exact ⟨o, p⟩

/-- `get` and `remove` at the root, `n` times -/
def drainOps (isMin : Bool) : Nat → List (BHOp N)
  | 0 => []
  | n + 1 => rootGet isMin :: rootRemove isMin :: drainOps isMin n

/-- the numbers among the results -/
def shown : List (BHRes N) → List N
  | [] => []
  | .ok (.num n, _) :: rs => n :: shown rs
  | _ :: rs => shown rs

private theorem drain_aux (b : Bool) : ∀ (n : Nat) (h : BinHeap N), h.isMin = b →
    HeapOrdered b h.arr → h.arr.length = n →
    (shown (h.execs (drainOps b n)).1).Perm h.arr ∧
    (shown (h.execs (drainOps b n)).1).Pairwise (inOrder b) ∧
    (h.execs (drainOps b n)).2.arr = []
  | 0, h, _, _, hn => by
    have : h.arr = [] := List.eq_nil_of_length_eq_zero hn
    simp [drainOps, BinHeap.execs, shown, this]
  | n + 1, h, hb, ho, hn => by
    subst hb
    have hne : h.arr ≠ [] := by intro e; simp [e] at hn
    obtain ⟨m, hm, hall, e1, e2, e3, o, p⟩ := C25_remove_root h ho hne
    have hget : h.exec (rootGet h.isMin) = (.ok (.num m, false), h) := by
      rw [exec_rootGet] at e1 ⊢
      exact Prod.ext e1 rfl
    have hl : (h.exec (rootRemove h.isMin)).2.arr.length = n := by
      rw [p.length_eq, List.length_erase_of_mem hm, hn]; rfl
    obtain ⟨i1, i2, i3⟩ := drain_aux h.isMin n (h.exec (rootRemove h.isMin)).2 e3 o hl
    simp only [drainOps, BinHeap.execs, hget, shown, e2]
    refine ⟨?_, ?_, i3⟩
    · exact (List.Perm.cons m (i1.trans p)).trans (List.perm_cons_erase hm).symm
    · refine List.pairwise_cons.2 ⟨fun y hy => ?_, i2⟩
      exact hall y (List.mem_of_mem_erase ((p.mem_iff).1 (i1.mem_iff.1 hy)))

/-- C25: heap sort.  Heapify any numbers, then repeatedly read and remove at the root: the numbers
come out in order (increasing for a MinHeap, decreasing for a MaxHeap), each as often as given. -/
theorem C25_sorts (isMin : Bool) (ns : List N) :
    ∃ h : BinHeap N, heapify isMin (ns.map .num) = .ok h ∧
      (shown (h.execs (drainOps isMin ns.length)).1).Perm ns ∧
      (shown (h.execs (drainOps isMin ns.length)).1).Pairwise (inOrder isMin) ∧
      (h.execs (drainOps isMin ns.length)).2.arr = [] := by
  obtain ⟨h, e, hb, o, p⟩ := C24_heapify isMin ns
  obtain ⟨h1, h2, h3⟩ := drain_aux isMin ns.length h hb o p.length_eq
  exact ⟨h, e, h1.trans p, h2, h3⟩

example : ((⟨true, [1, 3, 7, 9, 3]⟩ : BinHeap (Fin 20)).execs (drainOps true 5)).1.length = 10 ∧
    shown ((⟨true, [1, 3, 7, 9, 3]⟩ : BinHeap (Fin 20)).execs (drainOps true 5)).1 = [1, 3, 3, 7, 9] := by
  decide +kernel

/-- C28: on a non-empty heap-ordered heap `get_min` returns the least item held and `get_max` the
greatest, for both classes. -/
theorem C28_extremes_partial (h : BinHeap N) (ho : HeapOrdered h.isMin h.arr) (hne : h.arr ≠ []) :
    (∃ m ∈ h.arr, (h.exec .getMin).1 = .ok (.num m, false) ∧ ∀ y ∈ h.arr, m ≤ y) ∧
    (∃ m ∈ h.arr, (h.exec .getMax).1 = .ok (.num m, false) ∧ ∀ y ∈ h.arr, y ≤ m) := by
  obtain ⟨m1, e1, hm1, h1⟩ := bhFirst_spec ho hne
  obtain ⟨m2, e2, hm2, h2⟩ := bhFarthest_spec ho hne
  obtain ⟨b, xs⟩ := h
  cases b
  · refine ⟨⟨m2, hm2, by simp [BinHeap.exec, bhMin, e2, Except.map], fun y hy => ?_⟩,
      ⟨m1, hm1, by simp [BinHeap.exec, bhMax, e1, Except.map], fun y hy => ?_⟩⟩
    · simpa [inOrder] using h2 y hy
    · simpa [inOrder] using h1 y hy
  · refine ⟨⟨m1, hm1, by simp [BinHeap.exec, bhMin, e1, Except.map], fun y hy => ?_⟩,
      ⟨m2, hm2, by simp [BinHeap.exec, bhMax, e2, Except.map], fun y hy => ?_⟩⟩
    · simpa [inOrder] using h1 y hy
    · simpa [inOrder] using h2 y hy

/-- calls that keep the heap order: everything but `remove` and the removal of the opposite extreme -/
def keepsOrder (isMin : Bool) : BHOp N → Bool
  | .remove _ => false
  | .removeMin => isMin
  | .removeMax => !isMin
  | _ => true

private theorem exec_kind (h : BinHeap N) (op : BHOp N) : (h.exec op).2.isMin = h.isMin := by
  have hu : ∀ r : Except Err (List N × Bool), (h.upd r).2.isMin = h.isMin := by
    rintro (_ | ⟨_, _⟩) <;> rfl
  cases op <;> first | rfl | exact hu _

private theorem exec_keeps (h : BinHeap N) (ho : HeapOrdered h.isMin h.arr) (op : BHOp N)
    (hop : keepsOrder h.isMin op = true) : HeapOrdered h.isMin (h.exec op).2.arr := by
  have hroot : HeapOrdered h.isMin (h.exec (rootRemove h.isMin)).2.arr := by
    by_cases hne : h.arr = []
    · rw [exec_rootRemove, hne]; simpa [bhFirst, bhGet, bind, Except.bind, BinHeap.upd, hne] using ho
    · obtain ⟨_, _, _, _, _, _, o, _⟩ := C25_remove_root h ho hne
      exact o
  cases op with
  | insert v => exact (C24_insert h ho v).1
  | removeMin =>
    have : h.isMin = true := by simpa [keepsOrder] using hop
    simpa [rootRemove, this] using hroot
  | removeMax =>
    have : h.isMin = false := by simpa [keepsOrder] using hop
    simpa [rootRemove, this] using hroot
  | clear => exact heapOrdered_nil _
  | remove v => simp [keepsOrder] at hop
  | getMin | getMax | contains | len | isEmpty | iter | toList => exact ho

/-- C28, partial: a heap built by `heapify` and any history of calls other than `remove` and the
removal of the opposite extreme is heap-ordered, so that `C28_extremes_partial` applies to it.  The
full property would allow these calls too; it is false, see `C28_wrong_min` and `C28_wrong_max`. -/
theorem C28_history_partial (isMin : Bool) : ∀ (ops : List (BHOp N)) (h : BinHeap N),
    h.isMin = isMin → HeapOrdered isMin h.arr → (∀ op ∈ ops, keepsOrder isMin op = true) →
    HeapOrdered isMin (h.execs ops).2.arr ∧ (h.execs ops).2.isMin = isMin
  | [], _, hb, ho, _ => ⟨ho, hb⟩
  | op :: ops, h, hb, ho, hop => by
    subst hb
    exact C28_history_partial h.isMin ops (h.exec op).2 (exec_kind h op)
      (exec_keeps h ho op (hop op (by simp))) (fun o hm => hop o (List.mem_cons_of_mem _ hm))

example : (∀ op ∈ [BHOp.insert (.num (5 : Fin 20)), .insert (.num 2), .removeMin, .getMax],
      keepsOrder true op = true) ∧
    (BinHeap.execs [.insert (.num 5), .insert (.num 2), .insert (.num 9), .removeMin, .getMax]
      (⟨true, []⟩ : BinHeap (Fin 20))).2.arr = [5, 9] := by decide +kernel

/-- C28: on an empty heap both raise `IndexError`, and so do `remove_min` and `remove_max`. -/
theorem C28_empty (h : BinHeap N) (he : h.arr = []) :
    (h.exec .getMin).1 = .error .indexError ∧ (h.exec .getMax).1 = .error .indexError ∧
    h.exec .removeMin = (.error .indexError, h) ∧ h.exec .removeMax = (.error .indexError, h) := by
  obtain ⟨b, xs⟩ := h
  subst he
  cases b <;> exact ⟨rfl, rfl, rfl, rfl⟩

/-- C28 fails for reachable heaps: after calls of `remove`, `get_min` of this MinHeap returns 7
although 6 is held. -/
theorem C28_wrong_min :
    (BinHeap.execs [.insert (.num 11), .insert (.num 1), .insert (.num 5), .insert (.num 13),
        .insert (.num 7), .insert (.num 16), .insert (.num 6), .remove (.num 13), .remove (.num 5),
        .remove (.num 1), .getMin, .contains (.num 6)]
      (⟨true, []⟩ : BinHeap (Fin 20))).1.drop 10 =
      [.ok (.num 7, false), .ok (.bool true, false)] := by decide +kernel

/-- C28 fails for `get_max` as well: it returns 3 although 10 is held. -/
theorem C28_wrong_max :
    (BinHeap.execs [.insert (.num 0), .insert (.num 10), .insert (.num 1), .insert (.num 11),
        .insert (.num 12), .insert (.num 2), .insert (.num 3), .remove (.num 11), .remove (.num 12),
        .remove (.num 2), .getMax, .contains (.num 10)]
      (⟨true, []⟩ : BinHeap (Fin 20))).1.drop 10 =
      [.ok (.num 3, false), .ok (.bool true, false)] := by decide +kernel

/-! ## C27: contents -/

private theorem bag_step (h : BinHeap N) {xs : List N} (p : h.arr.Perm xs) (op : BHOp N)
    (hop : op.bagOp = true) : (h.exec op).1 = (bagStep op xs).1 ∧
      (h.exec op).2.arr.Perm (bagStep op xs).2 := by
  cases op with
  | insert v =>
    cases v with
    | num v =>
      obtain ⟨ys, e, p2, _⟩ := bhInsert_num h.isMin h.arr v
      simp only [BinHeap.exec, e, Except.map, BinHeap.upd, bagStep, true_and]
      exact p2.trans (p.cons v)
    | none => exact ⟨rfl, p⟩
    | other => exact ⟨rfl, p⟩
  | remove v =>
    have hother : ∀ v : NumArg N, (∀ n, v ≠ .num n) → bhRemove h.isMin h.arr v = .ok (h.arr, true) := by
      intro v hv
      cases v with
      | num n => exact absurd rfl (hv n)
      | none => simp [bhRemove]
      | other => simp [bhRemove]
    cases v with
    | num v =>
      by_cases hv : v ∈ h.arr
      · obtain ⟨ys, e, p2⟩ := bhRemove_mem h.isMin hv
        have hv' := p.mem_iff.1 hv
        simp only [BinHeap.exec, e, BinHeap.upd, bagStep, hv', not_true_eq_false, decide_false, true_and]
        exact p2.trans (p.erase v)
      · have hv' : v ∉ xs := fun hc => hv (p.mem_iff.2 hc)
        simp only [BinHeap.exec, bhRemove_not_mem h.isMin hv, BinHeap.upd, bagStep, hv',
          not_false_eq_true, decide_true, true_and]
        rw [List.erase_of_not_mem hv']; exact p
    | none => simp only [BinHeap.exec, hother .none (by simp), BinHeap.upd, bagStep, true_and]; exact p
    | other => simp only [BinHeap.exec, hother .other (by simp), BinHeap.upd, bagStep, true_and]; exact p
  | contains v =>
    cases v with
    | num v => simp only [BinHeap.exec, bagStep, p.mem_iff, true_and]; exact p
    | none => exact ⟨rfl, p⟩
    | other => exact ⟨rfl, p⟩
  | len => simp only [BinHeap.exec, bagStep, p.length_eq, true_and]; exact p
  | isEmpty =>
    refine ⟨?_, p⟩
    simp only [BinHeap.exec, bagStep]
    congr 3
    rw [Bool.eq_iff_iff]
    simp only [decide_eq_true_eq, List.isEmpty_iff]
    exact ⟨fun e => by rw [e] at p; exact p.symm.eq_nil, fun e => by rw [e] at p; exact p.eq_nil⟩
  | clear => exact ⟨rfl, List.Perm.refl _⟩
  | removeMin | removeMax | getMin | getMax | iter | toList => simp [BHOp.bagOp] at hop

/-- C27: for every history of `insert`, `remove`, `in`, `len`, `is_empty` and `clear` on a heap with
any items, in any order, the results are those of a bag of numbers, and the heap holds exactly the
numbers of the bag. -/
theorem C27_bag_history : ∀ (ops : List (BHOp N)) (h : BinHeap N) (xs : List N), h.arr.Perm xs →
    (∀ op ∈ ops, op.bagOp = true) →
    (h.execs ops).1 = (bagRun ops xs).1 ∧ (h.execs ops).2.arr.Perm (bagRun ops xs).2
  | [], _, _, p, _ => ⟨rfl, p⟩
  | op :: ops, h, xs, p, hop => by
    obtain ⟨h1, h2⟩ := bag_step h p op (hop op (by simp))
    obtain ⟨i1, i2⟩ := C27_bag_history ops (h.exec op).2 (bagStep op xs).2 h2
      (fun o ho => hop o (List.mem_cons_of_mem _ ho))
    simp only [BinHeap.execs, bagRun, h1, i1, true_and]
    exact i2

example : (BinHeap.execs [.insert (.num 4), .insert (.num 4), .insert .none, .remove (.num 4),
    .contains (.num 4), .remove (.num 9), .len] (⟨false, []⟩ : BinHeap (Fin 20))).1 =
    [.ok (.unit, false), .ok (.unit, false), .error .valueError, .ok (.unit, false),
      .ok (.bool true, false), .ok (.unit, true), .ok (.nat 1, false)] := by decide +kernel

/-- C27: no call of the API loses or invents numbers: after any call the items are those before, plus
the inserted number, or minus one number that was held, or none. -/
theorem C27_every_call (h : BinHeap N) (op : BHOp N) :
    (h.exec op).2.arr.Perm h.arr ∨ (∃ v, op = .insert (.num v) ∧ (h.exec op).2.arr.Perm (v :: h.arr)) ∨
    (∃ v ∈ h.arr, (h.exec op).2.arr.Perm (h.arr.erase v)) ∨
    (op = .clear ∧ (h.exec op).2.arr = []) := by
  have hrem : ∀ v : N, (h.upd (bhRemove h.isMin h.arr (.num v))).2.arr.Perm h.arr ∨
      ∃ v ∈ h.arr, (h.upd (bhRemove h.isMin h.arr (.num v))).2.arr.Perm (h.arr.erase v) := by
    intro v
    by_cases hv : v ∈ h.arr
    · obtain ⟨ys, e, p⟩ := bhRemove_mem h.isMin hv
      exact Or.inr ⟨v, hv, by simp only [e, BinHeap.upd]; exact p⟩
    · left; simp only [bhRemove_not_mem h.isMin hv, BinHeap.upd]; exact List.Perm.refl _
  cases op with
  | insert v =>
    cases v with
    | num v =>
      obtain ⟨ys, e, p, _⟩ := bhInsert_num h.isMin h.arr v
      right; left
      exact ⟨v, rfl, by simp only [BinHeap.exec, e, Except.map, BinHeap.upd]; exact p⟩
    | none => left; exact List.Perm.refl _
    | other => left; exact List.Perm.refl _
  | remove v =>
    cases v with
    | num v =>
      by_cases hv : v ∈ h.arr
      · obtain ⟨ys, e, p⟩ := bhRemove_mem h.isMin hv
        right; right; left
        exact ⟨v, hv, by simp only [BinHeap.exec, e, BinHeap.upd]; exact p⟩
      · left; simp only [BinHeap.exec, bhRemove_not_mem h.isMin hv, BinHeap.upd]; exact List.Perm.refl _
    | none => left; simp [BinHeap.exec, bhRemove, BinHeap.upd]
    | other => left; simp [BinHeap.exec, bhRemove, BinHeap.upd]
  | removeMin =>
    simp only [BinHeap.exec]
    cases e : bhMin h with
    | error _ => left; exact List.Perm.refl _
    | ok m =>
      by_cases hv : m ∈ h.arr
      · obtain ⟨ys, e2, p⟩ := bhRemove_mem h.isMin hv
        right; right; left
        exact ⟨m, hv, by simp only [bind, Except.bind, e2, BinHeap.upd]; exact p⟩
      · left
        simp only [bind, Except.bind, bhRemove_not_mem h.isMin hv, BinHeap.upd]; exact List.Perm.refl _
  | removeMax =>
    simp only [BinHeap.exec]
    cases e : bhMax h with
    | error _ => left; exact List.Perm.refl _
    | ok m =>
      by_cases hv : m ∈ h.arr
      · obtain ⟨ys, e2, p⟩ := bhRemove_mem h.isMin hv
        right; right; left
        exact ⟨m, hv, by simp only [bind, Except.bind, e2, BinHeap.upd]; exact p⟩
      · left
        simp only [bind, Except.bind, bhRemove_not_mem h.isMin hv, BinHeap.upd]; exact List.Perm.refl _
  | clear => right; right; right; exact ⟨rfl, rfl⟩
  | contains v | len | isEmpty | iter | toList | getMin | getMax => left; exact List.Perm.refl _

/-! ## C29: iteration -/

/-- C29, partial: iterating over a non-empty heap (which builds a binary tree and walks it level by
level) yields exactly `to_list()`.  Missing: the empty heap, see `C29_empty_raises`. -/
theorem C29_iteration_partial (h : BinHeap N) (hne : h.arr ≠ []) :
    (h.exec .iter).1 = .ok (.list h.arr, false) ∧ (h.exec .toList).1 = .ok (.list h.arr, false) := by
  simp only [BinHeap.exec, bhIter_spec hne, Except.map, and_self]

/-- C29 fails for an empty heap: iterating raises `AssertionError`. -/
theorem C29_empty_raises (isMin : Bool) :
    ((⟨isMin, []⟩ : BinHeap N).exec .iter).1 = .error .assertionError ∧
    ((⟨isMin, []⟩ : BinHeap N).exec .toList).1 = .ok (.list [], false) := ⟨rfl, rfl⟩

example : ((⟨true, [1, 3, 7, 9, 3, 8]⟩ : BinHeap (Fin 20)).exec .iter).1 =
    .ok (.list [1, 3, 7, 9, 3, 8], false) := by decide +kernel

end Extra
