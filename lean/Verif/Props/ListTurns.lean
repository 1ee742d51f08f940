import Verif.Lists.TurnsProofs
import Verif.Props.Queues

/-!
# C114: how far the calls of lists and queues walk

What is counted are the turns of `while` loops (`listTurns`, `queueTurns`, `dequeueTurns`: Verif/Lists/Turns.lean).
-/

set_option linter.unusedSectionVars false

namespace Extra

section Lists
variable {V X : Type} [PyData V] [PyOrd V] [Inhabited X]

/-- the list a call is about, and the position, if the list holds `n` items -/
def place (k : Kind) (n : Nat) : Op V → Option (Nat × Nat)
  | .addFront i _ => some (i, 0)
  | .addEnd i _ => some (i, n)
  | .insert i (.int j) _ => some (i, if k = .cll then j.toNat % (n + 1) else j.toNat)
  | .setItem i (.int j) _ | .delItem i (.int j) => some (i, if k = .cll then (if n = 0 then 0 else j.toNat % n) else j.toNat)
  | .getItem i (.int j) => some (i, if k = .cll then (if n = 0 then 0 else j.toNat % n)
      else if j < 0 then (j + n).toNat else j.toNat)
  | .removeFront i => some (i, 0)
  | .removeEnd i => some (i, n - 1)
  | _ => none

private theorem accepted {α : Type} {w : World V X} {i : Nat} {l : Addr} {m : Addr → M V X α} {f : α → Res V × List Addr}
    {r : Out V} (hl : w.env[i]? = some l) (e : (w.run (w.addr i >>= m) f).1 = .ok r) :
    ∃ a, (m l w.heap).1 = .ok a := by
  simp only [World.run, run_bind, World.addr, hl, run_pure] at e
  rcases hq : m l w.heap with ⟨x | a, h⟩
  · rw [hq] at e; simp at e
  · exact ⟨a, rfl⟩

private theorem len_ok {k : Kind} {w : World V X} {i n : Nat} (e : (exec k (.len i) w).1 = .ok (.nat n)) :
    ∃ l, w.env[i]? = some l ∧ (w.heap.lobj l).length = n := by
  simp only [exec, World.run, run_bind, World.addr, llLen] at e
  cases hl : w.env[i]? with
  | none => rw [hl] at e; simp at e
  | some l => rw [hl] at e; simp at e; exact ⟨l, rfl, e⟩

omit [PyOrd V] in
private theorem valid_heap (k : Kind) (l : Addr) (idx : Idx) (a b : Bool) (h : Heap V X) :
    (validateIndex k l idx a b h).2 = h := by
  cases idx with
  | slice _ _ _ => simp only [validateIndex]; split <;> rfl
  | other => rfl
  | int i =>
    simp only [validateIndex]
    split
    · rfl
    · cases k <;> simp only [run_bind, run_getList, run_pure] <;> split <;> rfl

/-- what follows the validation of an index -/
private theorem valid_bind {α : Type} {k : Kind} {l : Addr} {idx : Idx} {a b : Bool} {h : Heap V X} {f : T V X α} {r : α}
    (e : ((T.of (validateIndex k l idx a b) >>= fun _ => f) h).2.1 = .ok r) :
    (T.of (validateIndex k l idx a b) >>= fun _ => f) h = f h := by
  rw [T.of_bind] at e ⊢
  have := valid_heap k l idx a b h
  rcases hq : validateIndex k l idx a b h with ⟨x | y, h1⟩
  · rw [hq] at e; simp at e
  · rw [hq] at this
    simp only at this
    rw [this]

/-- what follows the validation of an item -/
private theorem item_bind {α : Type} {it : Item V} {h : Heap V X} {f : V → T V X α} {r : α}
    (e : ((T.of (M.lift (validateItem it)) >>= f) h).2.1 = .ok r) :
    ∃ v, (T.of (M.lift (validateItem it)) >>= f) h = f v h := by
  rw [T.of_bind] at e ⊢
  cases it with
  | val v => exact ⟨v, rfl⟩
  | none => simp [validateItem] at e
  | extra => simp [validateItem] at e

private theorem del_ok {k : Kind} {l : Addr} {j : Int} {h : Heap V X} {r : Unit}
    (e : (delItemT k l (.int j) h).2.1 = .ok r) : (delItemT k l (.int j) h).1 = way k (h.lobj l).length
      (if k = .cll then (if (h.lobj l).length = 0 then 0 else j.toNat % (h.lobj l).length) else j.toNat) := by
  rw [delItemT] at e ⊢
  have h1 := valid_bind e
  rw [h1] at e ⊢
  clear h1
  simp only [T.of_bind, run_getList] at e ⊢
  cases k with
  | cll =>
    simp only at e ⊢
    by_cases h0 : (h.lobj l).length = 0
    · simp [h0, way, T.of]
    · rw [if_neg h0] at e ⊢
      rw [removeIdxT_ok e]
      simp [Idx.mod, h0, Idx.toNat]
  | ll =>
    simp only at e ⊢
    split at e
    · simp [T.of] at e
    · rename_i h2
      rw [if_neg h2, removeIdxT_ok e]
      simp [Idx.toNat]
  | dll =>
    simp only at e ⊢
    split at e
    · simp [T.of] at e
    · rename_i h2
      rw [if_neg h2, removeIdxT_ok e]
      simp [Idx.toNat]

private theorem set_ok {k : Kind} {l : Addr} {j : Int} {it : Item V} {h : Heap V X} {r : Unit}
    (e : (setItemT k l (.int j) it h).2.1 = .ok r) : (setItemT k l (.int j) it h).1 = way k (h.lobj l).length
      (if k = .cll then (if (h.lobj l).length = 0 then 0 else j.toNat % (h.lobj l).length) else j.toNat) := by
  cases k with
  | cll =>
    rw [setItemT] at e ⊢
    have h1 := valid_bind e
    rw [h1] at e ⊢
    clear h1
    simp only [T.of_bind, run_getList] at e ⊢
    cases it with
    | none => simp [T.of] at e
    | extra =>
      simp only [Bind.bind, T.bind] at e
      rcases hq : getNodeT .cll l ((Idx.int j).mod (h.lobj l).length) h with ⟨n, _ | a, h1⟩
      · rw [hq] at e; simp at e
      · rw [hq] at e
        rcases a with ⟨a, _ | b⟩ <;> simp [T.of] at e
    | val v =>
      simp only at e ⊢
      rw [replaceValueT_ok e]
      simp [Idx.mod, Idx.toNat]
  | ll =>
    rw [setItemT] at e ⊢
    · have h1 := valid_bind e
      rw [h1] at e ⊢
      clear h1
      simp only [T.of_bind, run_getList] at e ⊢
      split at e
      · simp [T.of] at e
      · rename_i h2
        obtain ⟨v, h3⟩ := item_bind e
        rw [if_neg h2]
        rw [h3] at e ⊢
        rw [replaceValueT_ok e]
        simp [Idx.toNat]
    all_goals simp
  | dll =>
    rw [setItemT] at e ⊢
    · have h1 := valid_bind e
      rw [h1] at e ⊢
      clear h1
      simp only [T.of_bind, run_getList] at e ⊢
      split at e
      · simp [T.of] at e
      · rename_i h2
        obtain ⟨v, h3⟩ := item_bind e
        rw [if_neg h2]
        rw [h3] at e ⊢
        rw [replaceValueT_ok e]
        simp [Idx.toNat]
    all_goals simp

private theorem ins_ok {k : Kind} {l : Addr} {j : Int} {it : Item V} {h : Heap V X} {r : Unit}
    (e : (insertT k l (.int j) it h).2.1 = .ok r) : (insertT k l (.int j) it h).1 = way k (h.lobj l).length
      (if k = .cll then j.toNat % ((h.lobj l).length + 1) else j.toNat) := by
  rw [insertT] at e ⊢
  have h1 := valid_bind e
  rw [h1] at e ⊢
  clear h1
  obtain ⟨v, h1⟩ := item_bind e
  rw [h1] at e ⊢
  clear h1
  cases k with
  | cll =>
    simp only [T.of_bind, run_getList] at e ⊢
    rw [insertAtT_ok e]
    simp [Idx.mod, Idx.toNat]
  | ll => rw [insertAtT_ok e]; simp [Idx.toNat]
  | dll => rw [insertAtT_ok e]; simp [Idx.toNat]

private theorem get_ok {k : Kind} {l : Addr} {j : Int} {h : Heap V X} {r : Option V}
    (e : (getItemT k l (.int j) h).2.1 = .ok r) : (getItemT k l (.int j) h).1 = way k (h.lobj l).length
      (if k = .cll then (if (h.lobj l).length = 0 then 0 else j.toNat % (h.lobj l).length)
        else if j < 0 then (j + (h.lobj l).length).toNat else j.toNat) := by
  have hj : (j ≤ -1) ↔ j < 0 := by omega
  cases k with
  | cll =>
    rw [getItemT] at e ⊢
    have h1 := valid_bind e
    rw [h1] at e ⊢
    clear h1
    simp only [T.of_bind, run_getList] at e ⊢
    split at e
    · simp [T.of] at e
    · rename_i h2
      rw [if_neg h2, walk_ok (fun _ _ => rfl) e]
      simp [Idx.mod, Idx.toNat]
  | ll =>
    rw [getItemT] at e ⊢
    · have h1 := valid_bind e
      rw [h1] at e ⊢
      clear h1
      simp only [T.of_bind, run_getList] at e ⊢
      split at e
      · simp [T.of] at e
      · rename_i h2
        rw [if_neg h2, walk_ok (fun _ _ => rfl) e]
        simp only [hj, reduceCtorEq, if_false]
        split <;> rfl
    all_goals simp
  | dll =>
    rw [getItemT] at e ⊢
    · have h1 := valid_bind e
      rw [h1] at e ⊢
      clear h1
      simp only [T.of_bind, run_getList] at e ⊢
      split at e
      · simp [T.of] at e
      · rename_i h2
        rw [if_neg h2, walk_ok (fun _ _ => rfl) e]
        simp only [hj, reduceCtorEq, if_false]
        split <;> rfl
    all_goals simp

/-- The counted methods without their counters are the methods of the model. -/
theorem C114_same (k : Kind) (l : Addr) (idx : Idx) (item : Item V) (cap : Option Nat) :
    (addFrontT k l item : T V X _).erase = addFront k l item ∧ (addEndT k l item : T V X _).erase = addEnd k l item ∧
    (insertT k l idx item : T V X _).erase = insert k l idx item ∧
    (setItemT k l idx item : T V X _).erase = setItem k l idx item ∧
    (delItemT k l idx : T V X _).erase = delItem k l idx ∧ (getItemT k l idx : T V X _).erase = getItem k l idx ∧
    (removeFrontT k l : T V X _).erase = removeFront k l ∧ (removeEndT k l : T V X _).erase = removeEnd k l ∧
    (qEnqueueT l cap item : T V X _).erase = qEnqueue l cap item ∧
    (qAppendRightT l cap item : T V X _).erase = qAppendRight l cap item ∧
    (qDequeueT l : T V X _).erase = qDequeue l ∧ (qPopLeftT l : T V X _).erase = qPopLeft l :=
  ⟨addFront_erase _ _ _, addEnd_erase _ _ _, insert_erase _ _ _ _, setItem_erase _ _ _ _, delItem_erase _ _ _,
    getItem_erase _ _ _, removeFront_erase _ _, removeEnd_erase _ _, qEnqueue_erase _ _ _, qAppendRight_erase _ _ _,
    qDequeue_erase _, qPopLeft_erase _⟩

/-- **C114, lists.** A call that goes to a position of a list and is accepted turns the loop of `_get_node` as
often as the position says, in a `DoublyLinkedList` counted from the nearer end. -/
theorem C114_list {k : Kind} {w : World V X} {op : Op V} {i n p : Nat} {r : Out V}
    (hl : (exec k (.len i) w).1 = .ok (.nat n)) (hp : place k n op = some (i, p)) (hr : (exec k op w).1 = .ok r) :
    listTurns k op w = some (way k n p) := by
  obtain ⟨l, h1, h2⟩ := len_ok hl
  subst h2
  cases op with
  | addFront i' item =>
    simp only [place, Option.some.injEq, Prod.mk.injEq] at hp
    obtain ⟨rfl, rfl⟩ := hp
    obtain ⟨a, e⟩ := accepted h1 hr
    rw [← addFront_erase] at e
    simp only [listTurns, h1, Option.map_some, Option.getD_some, Option.some.injEq]
    rw [T.erase, addFrontT] at e
    rw [addFrontT]
    obtain ⟨v, h3⟩ := item_bind e
    rw [h3] at e ⊢
    exact insertAtT_ok e
  | addEnd i' item =>
    simp only [place, Option.some.injEq, Prod.mk.injEq] at hp
    obtain ⟨rfl, rfl⟩ := hp
    obtain ⟨a, e⟩ := accepted h1 hr
    rw [← addEnd_erase] at e
    simp only [listTurns, h1, Option.map_some, Option.getD_some, Option.some.injEq]
    rw [T.erase, addEndT] at e
    rw [addEndT]
    obtain ⟨v, h3⟩ := item_bind e
    rw [h3] at e ⊢
    clear h3
    simp only [T.of_bind, llLen, run_bind, run_getList, run_pure] at e ⊢
    exact insertAtT_ok e
  | insert i' idx item =>
    cases idx with
    | int j =>
      simp only [place, Option.some.injEq, Prod.mk.injEq] at hp
      obtain ⟨rfl, rfl⟩ := hp
      obtain ⟨a, e⟩ := accepted h1 hr
      rw [← insert_erase] at e
      simp only [listTurns, h1, Option.map_some, Option.getD_some, Option.some.injEq]
      exact ins_ok e
    | _ => simp [place] at hp
  | setItem i' idx item =>
    cases idx with
    | int j =>
      simp only [place, Option.some.injEq, Prod.mk.injEq] at hp
      obtain ⟨rfl, rfl⟩ := hp
      obtain ⟨a, e⟩ := accepted h1 hr
      rw [← setItem_erase] at e
      simp only [listTurns, h1, Option.map_some, Option.getD_some, Option.some.injEq]
      exact set_ok e
    | _ => simp [place] at hp
  | delItem i' idx =>
    cases idx with
    | int j =>
      simp only [place, Option.some.injEq, Prod.mk.injEq] at hp
      obtain ⟨rfl, rfl⟩ := hp
      obtain ⟨a, e⟩ := accepted h1 hr
      rw [← delItem_erase] at e
      simp only [listTurns, h1, Option.map_some, Option.getD_some, Option.some.injEq]
      exact del_ok e
    | _ => simp [place] at hp
  | getItem i' idx =>
    cases idx with
    | int j =>
      simp only [place, Option.some.injEq, Prod.mk.injEq] at hp
      obtain ⟨rfl, rfl⟩ := hp
      have hr' : (w.run (w.addr i' >>= fun l => getItem k l (.int j))
          (fun v => ((.ok (.val v) : Res V), []))).1 = .ok r := by cases k <;> exact hr
      obtain ⟨a, e⟩ := accepted h1 hr'
      rw [← getItem_erase] at e
      simp only [listTurns, h1, Option.map_some, Option.getD_some, Option.some.injEq]
      exact get_ok e
    | _ => simp [place] at hp
  | removeFront i' =>
    simp only [place, Option.some.injEq, Prod.mk.injEq] at hp
    obtain ⟨rfl, rfl⟩ := hp
    obtain ⟨a, e⟩ := accepted h1 hr
    rw [← removeFront_erase] at e
    simp only [listTurns, h1, Option.map_some, Option.getD_some, Option.some.injEq]
    rw [T.erase, removeFrontT] at e
    rw [removeFrontT]
    simp only [T.of_bind, isEmpty, run_bind, run_getList, run_pure] at e ⊢
    split
    · cases k <;> simp [T.of, way]
    · rename_i h4
      rw [if_neg h4] at e
      rw [del_ok e]
      congr 1
      simp
  | removeEnd i' =>
    simp only [place, Option.some.injEq, Prod.mk.injEq] at hp
    obtain ⟨rfl, rfl⟩ := hp
    obtain ⟨a, e⟩ := accepted h1 hr
    rw [← removeEnd_erase] at e
    simp only [listTurns, h1, Option.map_some, Option.getD_some, Option.some.injEq]
    rw [T.erase, removeEndT] at e
    rw [removeEndT]
    simp only [T.of_bind, isEmpty, run_bind, run_getList, run_pure] at e ⊢
    split
    · rename_i h4
      simp only [beq_iff_eq] at h4
      cases k <;> simp [T.of, way, h4]
    · rename_i h4
      rw [if_neg h4] at e
      simp only [T.of_bind, run_getList] at e ⊢
      rw [del_ok e]
      simp only [beq_iff_eq] at h4
      have h5 : (((w.heap.lobj l).length : Int) - 1).toNat = (w.heap.lobj l).length - 1 := by omega
      rw [h5, if_neg h4, Nat.mod_eq_of_lt (by omega), ite_self]
  | _ => simp [place] at hp

/-- **C114, `DoublyLinkedList`** ("O(min(k,n/2))", doubly_linked_list.py:1007, :1115). -/
theorem C114_dll (n p : Nat) : way .dll n p ≤ p ∧ way .dll n p ≤ n / 2 := by
  simp only [way]
  omega

end Lists

section Queues
variable {V X : Type} [PyData V] [Inhabited X]

private theorem del0 (l : Addr) (h : Heap V X) : (delItemT .dll l (.int 0) h).1 = 0 := by
  have : (delItemT .dll l (.int 0) h).1 ≤ 0 := by
    rw [delItemT]
    refine T.bind_le (a := 0) (b := 0) (Nat.le_refl _) fun _ h1 _ => ?_
    simp only [T.of_bind, run_getList]
    split
    · exact Nat.le_refl _
    · refine (removeIdxT_le _ _ _ _).trans ?_
      simp [way, Idx.toNat]
  omega

private theorem removeFront0 (l : Addr) (h : Heap V X) : (removeFrontT .dll l h).1 ≤ 0 := by
  rw [removeFrontT]
  simp only [T.of_bind, isEmpty, run_bind, run_getList, run_pure]
  split
  · exact Nat.le_refl _
  · exact (del0 l h).le

private theorem removeEnd1 (l : Addr) (h : Heap V X) : (removeEndT .dll l h).1 ≤ 1 := by
  rw [removeEndT]
  simp only [T.of_bind, isEmpty, run_bind, run_getList, run_pure]
  split
  · exact Nat.zero_le _
  · simp only [T.of_bind, run_getList]
    rw [delItemT, T.of_bind]
    rcases hq : validateIndex .dll l (.int (((h.lobj l).length : Int) - 1)) false false h with ⟨x | y, h1⟩
    · exact Nat.zero_le _
    · have := valid_heap .dll l (.int (((h.lobj l).length : Int) - 1)) false false h
      rw [hq] at this
      simp only at this
      subst this
      simp only [T.of_bind, run_getList]
      split
      · exact Nat.zero_le _
      · refine (removeIdxT_le _ _ _ _).trans ?_
        simp only [way, Idx.toNat]
        omega

/-- **C114, `Queue` and `Deque`.** Whatever the queue holds, a call turns a loop once at most. -/
theorem C114_queue (q : Queue V X) (op : QOp V) {t : Nat} (h : queueTurns q op = some t) : t ≤ 1 := by
  cases op with
  | enqueue item =>
    simp only [queueTurns, Option.some.injEq] at h
    rw [← h, qEnqueueT]
    refine T.bind_le (a := 0) (b := 1) (Nat.le_refl _) fun v h1 _ => ?_
    refine T.bind_le (a := 0) (b := 1) (Nat.le_refl _) fun full h2 _ => ?_
    refine T.bind_le (a := 1) (b := 0) ?_ fun _ h3 _ => ?_
    · cases full
      · exact Nat.zero_le _
      · exact removeEnd1 _ _
    · refine T.bind_le (a := 0) (b := 0) ?_ fun _ h4 _ => Nat.le_refl _
      cases capPos q.cap
      · exact Nat.zero_le _
      · exact (insertAtT_le _ _ _ _ _).trans (by simp [way])
  | appendRight item =>
    simp only [queueTurns, Option.some.injEq] at h
    rw [← h, qAppendRightT]
    refine T.bind_le (a := 0) (b := 1) (Nat.le_refl _) fun v h1 _ => ?_
    refine T.bind_le (a := 0) (b := 1) (Nat.le_refl _) fun full h2 _ => ?_
    refine T.bind_le (a := 0) (b := 1) ?_ fun _ h3 _ => ?_
    · cases full
      · exact Nat.zero_le _
      · exact removeFront0 _ _
    · refine T.bind_le (a := 0) (b := 1) ?_ fun _ h4 _ => Nat.zero_le _
      cases capPos q.cap
      · exact Nat.zero_le _
      · simp only [whenT, if_true, T.of_bind, llLen, run_bind, run_getList, run_pure]
        exact (insertAtT_le _ _ _ _ _).trans (by simp [way])
  | dequeue =>
    simp only [queueTurns, Option.some.injEq] at h
    rw [← h, qDequeueT]
    simp only [T.of_bind, isEmpty, run_bind, run_getList, run_pure]
    split
    · exact Nat.zero_le _
    · simp only [T.of_bind, run_getList]
      refine le_of_eq_of_le (congrArg Prod.fst (T.of_bind _ _ _).symm) ?_
      refine T.bind_le (a := 0) (b := 1) (Nat.le_refl _) fun d h1 _ => ?_
      exact T.bind_le (a := 1) (b := 0) (removeEnd1 _ _) fun _ _ _ => Nat.le_refl _
  | popLeft =>
    simp only [queueTurns, Option.some.injEq] at h
    rw [← h, qPopLeftT]
    simp only [T.of_bind, isEmpty, run_bind, run_getList, run_pure]
    split
    · exact Nat.zero_le _
    · simp only [T.of_bind, run_getList]
      refine le_of_eq_of_le (congrArg Prod.fst (T.of_bind _ _ _).symm) ?_
      refine T.bind_le (a := 0) (b := 1) (Nat.le_refl _) fun d h1 _ => ?_
      exact T.bind_le (a := 0) (b := 1) (removeFront0 _ _) fun _ _ _ => Nat.zero_le _
  | repr => simp [queueTurns] at h
  | _ => simp only [queueTurns, Option.some.injEq] at h; omega

end Queues

section Prio
variable {V P : Type} [PyData V] [PyShow V] [LinearOrder P] [BoundedOrder P] [Inhabited P]

/-- Likewise for `dequeue` of a priority queue. -/
theorem C114_same_dequeue (fuel : Nat) (low : Bool) (key : P) (l : Addr) :
    (pqTakeT fuel low key l : T V P _).erase = pqTake fuel low key l := pqTake_erase _ _ _ _

/-- **C114, `PriorityQueue`: `dequeue` "in constant time" (priority_queue.py:442) fails.** Taking an item from a
queue with `n` of them turns the loops at least `n` times, and not `2 n` times. -/
theorem C114_dequeue {a : CapArg} {cap : Option Nat} (ha : initCap a = .ok cap) :
    ∃ q : PQueue V P, PQueue.init a = .ok q ∧ ∀ ops low n v,
      ((q.execs ops).2.exec .len).1 = .ok (.nat n, false) →
      ((q.execs ops).2.exec (.dequeue low)).1 = .ok (.item (some v), false) →
      n ≤ dequeueTurns (q.execs ops).2 low ∧ dequeueTurns (q.execs ops).2 low < 2 * n := by
  obtain ⟨q, h1, -, I⟩ := PInv.init (V := V) (P := P) ha
  refine ⟨q, h1, fun ops low n v hn hd => ?_⟩
  obtain ⟨-, J, -⟩ := prio_run ops I
  generalize (q.execs ops).2 = q at *
  generalize (codeRun _ ops _).2 = s at J
  have hlen := (prio_step J .len).1
  rw [hn] at hlen
  simp only [codeStep, Except.ok.injEq, Prod.mk.injEq, and_true, CVal.nat.injEq] at hlen
  obtain ⟨d1, K, -⟩ := prio_step J (.dequeue low)
  rw [hd] at d1
  obtain ⟨ns, r, -⟩ := J.rep
  have hem := isEmpty_run r
  have hne : s.xs ≠ [] := by
    intro h0
    simp [codeStep, h0] at d1
  have hE : (s.xs.map Prod.fst).isEmpty = false := by cases hx : s.xs <;> simp_all
  rw [hE] at hem
  have hns : ns ≠ [] := by rintro rfl; have := r.length_eq; simp at this; exact hne (List.eq_nil_of_length_eq_zero this.symm)
  have hfuel : ns.length ≤ q.heap.nNodes + 1 := by have := r.length_le; rw [r.length_eq]; omega
  simp only [PQueue.exec, PQueue.dequeue, hem] at hd K
  have hle : (codeStep q.cap (.dequeue low) s).2.xs.length = n - 1 := by
    have h0 : s.xs.isEmpty = false := by cases hx : s.xs <;> simp_all
    simp only [codeStep, h0, Bool.false_eq_true, if_false] at d1 ⊢
    cases hf : s.xs.find? (fun y => decide (y.2 = if low then s.minP else s.maxP)) with
    | none => rw [hf] at d1; simp at d1
    | some x =>
      simp only
      rw [codeErase_length ⟨x, List.mem_of_find?_eq_some hf, by simpa using List.find?_some hf⟩, hlen]
  simp only [dequeueTurns, hem]
  rcases hq : pqTake (q.heap.nNodes + 1) low (if low = true then q.minP else q.maxP) q.cont q.heap with ⟨e | ⟨d, c⟩, h2⟩
  · rw [hq] at hd; simp at hd
  · rw [hq] at K
    rw [pqTakeT_cost hq]
    have K2 : ∃ ns2, Rep .dll h2 q.cont ns2 ((codeStep q.cap (.dequeue low) s).2.xs.map Prod.fst) := by
      obtain ⟨ns2, r2, -⟩ := K.rep
      cases low <;> exact ⟨ns2, r2⟩
    obtain ⟨ns2, r2⟩ := K2
    have hl2 := r2.length_eq
    have hl1 := r.length_eq
    rw [List.length_map] at hl1 hl2
    have hpos : 0 < s.xs.length := List.length_pos_of_ne_nil hne
    rw [updatePrioT_chain r2 low (by omega), List.length_map, hle, r.head hns]
    have := findPrioT_chain (if low = true then q.minP else q.maxP) ns _ hfuel r.links
    have := this.2 hns
    omega

private theorem same_prios (v : V) : ∀ (n : Nat) (s : PAbs V P), s.minP = ⊥ → s.maxP = ⊥ → (∀ x ∈ s.xs, x.2 = ⊥) →
    let t := (codeRun none (List.replicate n (.enqueue (.val v) (.num ⊥))) s).2
    t.minP = ⊥ ∧ t.maxP = ⊥ ∧ (∀ x ∈ t.xs, x.2 = ⊥) ∧ t.xs.length = s.xs.length + n
  | 0, s, h1, h2, h3 => ⟨h1, h2, h3, rfl⟩
  | n + 1, s, h1, h2, h3 => by
    simp only [List.replicate_succ, codeRun, codeStep, storeItem, givenPrio, fit]
    have := same_prios v n { s with xs := (PyData.norm v, ⊥) :: s.xs, minP := min s.minP ⊥, maxP := max s.maxP ⊥ }
      (by simp) (by simp [h2]) (by simpa using h3)
    refine ⟨this.1, this.2.1, this.2.2.1, ?_⟩
    rw [this.2.2.2, List.length_cons]
    omega

/-- No number of turns suffices for every `dequeue`. -/
theorem C114_not_constant (v : V) (low : Bool) (c : Nat) : ∃ (q : PQueue V P) (ops : List (PQOp V P)) (u : V),
    PQueue.init .inf = .ok q ∧ ((q.execs ops).2.exec (.dequeue low)).1 = .ok (.item (some u), false) ∧
    c < dequeueTurns (q.execs ops).2 low := by
  obtain ⟨q, h1, h2⟩ := C114_dequeue (V := V) (P := P) (a := .inf) rfl
  obtain ⟨q', h3, hc, I⟩ := PInv.init (V := V) (P := P) (c := .inf) rfl
  rw [h1] at h3
  cases h3
  let ops : List (PQOp V P) := List.replicate (c + 1) (.enqueue (.val v) (.num ⊥))
  obtain ⟨-, J, hcap⟩ := prio_run ops I
  rw [hc] at J
  have hs : (codeRun none ops ⟨[], ⊤, ⊥, none⟩).2.minP = ⊥ ∧ (codeRun none ops ⟨[], ⊤, ⊥, none⟩).2.maxP = ⊥ ∧
      (∀ x ∈ (codeRun none ops ⟨[], ⊤, ⊥, none⟩).2.xs, x.2 = ⊥) ∧
      (codeRun none ops ⟨[], ⊤, ⊥, none⟩).2.xs.length = c + 1 := by
    have := same_prios v c (⟨[(PyData.norm v, ⊥)], ⊥, ⊥, none⟩ : PAbs V P) rfl rfl (by simp)
    simp only [ops, List.replicate_succ, codeRun, codeStep, storeItem, givenPrio, fit, min_bot_right, max_self]
    refine ⟨this.1, this.2.1, this.2.2.1, ?_⟩
    rw [this.2.2.2]
    simp only [List.length_singleton]
    omega
  generalize (codeRun none ops ⟨[], ⊤, ⊥, none⟩).2 = s at J hs
  obtain ⟨m1, m2, m3, m4⟩ := hs
  obtain ⟨x, xs, hx⟩ : ∃ x xs, s.xs = x :: xs := List.exists_cons_of_length_eq_add_one m4
  have hd : ((q.execs ops).2.exec (.dequeue low)).1 = .ok (.item (some x.1), false) := by
    rw [(prio_step J (.dequeue low)).1]
    have hx2 := m3 x (by rw [hx]; simp)
    cases low <;> simp [codeStep, hx, m1, m2, hx2]
  refine ⟨q, ops, x.1, h1, hd, ?_⟩
  have hn : ((q.execs ops).2.exec .len).1 = .ok (.nat (c + 1), false) := by
    rw [(prio_step J .len).1]
    simp [codeStep, m4]
  exact (h2 ops low (c + 1) x.1 hn hd).1

end Prio

/-! Seven items: positions from both ends of a `DoublyLinkedList`, from the head of the others, around a circular
one; three items in a priority queue. -/

private def seven (k : Kind) : World Val Unit :=
  (execs k [.new ([1, 2, 3, 4, 5, 6, 7].map fun i => .val (.int i))] World.init).2

example : (exec .dll (.len 0) (seven .dll)).1 = .ok (.nat 7) ∧
    [0, 1, 3, 4, 6, -1].map (fun j => listTurns .dll (.getItem 0 (.int j)) (seven .dll)) =
      [some 0, some 1, some 3, some 3, some 1, some 1] ∧
    [0, 1, 3, 4, 6, -1].map (fun j => listTurns .ll (.getItem 0 (.int j)) (seven .ll)) =
      [some 0, some 1, some 3, some 4, some 6, some 6] ∧
    [0, 6, 7, 22].map (fun j => listTurns .cll (.setItem 0 (.int j) (.val (.int 9))) (seven .cll)) =
      [some 0, some 6, some 0, some 1] ∧
    [Kind.ll, .dll, .cll].map (fun k => listTurns k (.addEnd 0 (.val (.int 9))) (seven k)) = [some 7, some 0, some 7] ∧
    [Kind.ll, .dll, .cll].map (fun k => listTurns k (.removeEnd 0) (seven k)) = [some 6, some 1, some 6] := by
  decide +kernel

example : (match (Queue.init (.num 3) : Except Err (Queue Val Unit)) with
    | .ok q => let q3 := (q.execs .deque [.enqueue (.val (.int 1)), .enqueue (.val (.int 2)), .enqueue (.val (.int 3))]).2
      [queueTurns q3 .dequeue, queueTurns q3 .popLeft, queueTurns q3 (.enqueue (.val (.int 4))),
        queueTurns q3 (.appendRight (.val (.int 4)))]
    | .error _ => []) = [some 1, some 0, some 1, some 0] := by decide +kernel

example : (match (PQueue.init .inf : Except Err (PQueue Val (Fin 10))) with
    | .ok q => [dequeueTurns (q.execs [.enqueue (.val (.int 1)) (.num 3), .enqueue (.val (.int 2)) (.num 8),
        .enqueue (.val (.int 3)) (.num 5)]).2 true, dequeueTurns (q.execs [.enqueue (.val (.int 1)) (.num 3),
        .enqueue (.val (.int 2)) (.num 8), .enqueue (.val (.int 3)) (.num 5)]).2 false]
    | .error _ => []) = [5, 4] := by decide +kernel

end Extra
