import Verif.Lists.PrioAux
import Mathlib.Tactic.Linarith
import Mathlib.Order.Fin.Basic
import Mathlib.Algebra.Order.Round

/-!
# Properties C14-C20: Stack, Queue, Deque, PriorityQueue

`exec`/`execs` run API calls on the model: Verif/Lists/Stack.lean, and on the pointer-level heap
Verif/Lists/Queue.lean and PriorityQueue.lean.  `stackRun`, `queueRun` and `prioRun` are the
specifications on plain sequences (Verif/Lists/QueueSpec.lean).  `V` is any type of items.
-/

set_option linter.unusedSectionVars false

namespace Extra
variable {V X P : Type} [PyData V] [PyShow V] [Inhabited X]

/-! ## C15: Stack -/

/-- C15: every history of calls on a new `Stack` returns what the specification says. -/
theorem C15_stack_history {c : CapArg} {cap : Option Nat} (hc : initCap c = .ok cap) :
    ∃ s : Stack V, Stack.init c = .ok s ∧
      ∀ ops, (s.execs ops).1 = (stackRun cap ops []).1 := by
  refine ⟨⟨[], cap⟩, by simp [Stack.init, hc, bind, Except.bind], fun ops => ?_⟩
  exact (stack_run ops ⟨[], cap⟩).1

example : Stack.init (.num (5 / 2)) = .ok (⟨[], some 2⟩ : Stack Val) ∧
    ((⟨[], some 2⟩ : Stack Val).execs [.push (.val (.int 1)), .push (.val (.int 2)), .push (.val (.int 3)), .peek, .pop, .pop,
      .pop, .peek]).1 =
    [.ok (.unit, false), .ok (.unit, false), .error .overflowError, .ok (.item (some (.int 2)), false),
      .ok (.item (some (.int 2)), false), .ok (.item (some (.int 1)), false), .ok (.item none, true),
      .error .indexError] := by
  have h : initCap (.num (5 / 2)) = .ok (some 2) := by decide +kernel
  exact ⟨by simp [Stack.init, h, bind, Except.bind], by decide +kernel⟩

/-- the stack keeps `base` at the bottom while its length does not drop below that of `base` -/
private theorem stack_keeps (base : List V) : ∀ (ops : List (SOp V)) (s : Stack V),
    base <+: s.container →
    (∀ pre post, ops = pre ++ post → base.length ≤ (s.execs pre).2.container.length) →
    base <+: (s.execs ops).2.container
  | [], _, h, _ => h
  | op :: ops, s, h, hl => by
    have h1 : base.length ≤ (s.exec op).2.container.length := hl [op] ops rfl
    refine stack_keeps base ops (s.exec op).2 ?_ (fun pre post e => hl (op :: pre) post (by rw [e]; rfl))
    obtain ⟨xs, cap⟩ := s
    obtain ⟨t, rfl⟩ := h
    cases op with
    | push item =>
      simp only [Stack.exec, Stack.push] at h1 ⊢
      split
      · exact ⟨t, rfl⟩
      · split
        · exact ⟨t, rfl⟩
        · exact ⟨t ++ [_], (List.append_assoc ..).symm⟩
    | pop =>
      simp only [Stack.exec, Stack.pop] at h1 ⊢
      split
      · exact ⟨t, rfl⟩
      · rename_i hne
        rw [if_neg hne] at h1
        simp only [List.length_dropLast, List.length_append] at h1 hne
        have ht : t ≠ [] := by
          rintro rfl
          simp only [List.length_nil, Nat.add_zero] at h1 hne
          omega
        exact ⟨t.dropLast, by rw [List.dropLast_append_of_ne_nil ht]⟩
    | clear =>
      simp only [Stack.exec, Stack.clear, List.length_nil, Nat.le_zero] at h1 ⊢
      rw [List.eq_nil_of_length_eq_zero h1]
      exact ⟨[], rfl⟩
    | peek | len | isEmpty | isFull | repr => exact ⟨t, rfl⟩

/-- C15: last in, first out.  After an accepted `push`, any calls that never bring the length below
what it was right after that push and leave it there are followed by a `pop` returning the pushed
item (with newlines escaped). -/
theorem C15_lifo {s s1 : Stack V} {v : V}
    (h : s.exec (.push (.val v)) = (.ok (.unit, false), s1)) (ops : List (SOp V))
    (hl : ∀ pre post, ops = pre ++ post →
      s1.container.length ≤ (s1.execs pre).2.container.length)
    (he : (s1.execs ops).2.container.length = s1.container.length) :
    ((s1.execs ops).2.exec .pop).1 = .ok (.item (some (PyData.norm v)), false) := by
  have hp := stack_keeps s1.container ops s1 (List.prefix_rfl) hl
  have heq : s1.container = (s1.execs ops).2.container := hp.eq_of_length he.symm
  have h1 : s1.container = s.container ++ [PyData.norm v] := by
    simp only [Stack.exec, Stack.push, validateItem] at h
    split at h
    · cases h
    · simp only [Prod.mk.injEq, true_and] at h; rw [← h]
  simp only [Stack.exec, Stack.pop, ← heq, h1]
  simp

example : ∃ s1, (⟨[.int 1], none⟩ : Stack Val).exec (.push (.val (.int 7))) = (.ok (.unit, false), s1) ∧
    ((s1.execs [.push (.val (.int 8)), .pop]).2.exec .pop).1 = .ok (.item (some (.int 7)), false) :=
  ⟨_, rfl, by decide +kernel⟩

/-- C15: after any history `len` is at most the capacity. -/
theorem C15_capacity {c : CapArg} {n : Nat} (hc : initCap c = .ok (some n)) :
    ∃ s : Stack V, Stack.init c = .ok s ∧ ∀ ops,
      ∃ m, ((s.execs ops).2.exec .len).1 = .ok (.nat m, false) ∧ m ≤ n := by
  refine ⟨⟨[], some n⟩, by simp [Stack.init, hc, bind, Except.bind], fun ops => ⟨_, rfl, ?_⟩⟩
  have h1 := (stack_run ops (⟨[], some n⟩ : Stack V)).2.1
  have h2 := stackRun_le (some n) ops (xs := ([] : List V)) (by simp) n rfl
  have h3 := congrArg List.length h1
  simp only [List.length_reverse, List.reverse_nil] at h3
  omega

/-- C15: pushing anything on a full stack raises `OverflowError` and changes nothing. -/
theorem C15_overflow (s : Stack V) (h : (s.exec .isFull).1 = .ok (.bool true, false))
    (item : Item V) : s.exec (.push item) = (.error .overflowError, s) := by
  simp only [Stack.exec, Except.ok.injEq, Prod.mk.injEq, CVal.bool.injEq, and_true] at h
  simp only [Stack.exec, Stack.push, h, if_true]

example : (⟨[.int 1], some 1⟩ : Stack Val).exec .isFull = (.ok (.bool true, false), ⟨[.int 1], some 1⟩) :=
  rfl

/-- C15-C18: the capacity used is the given number rounded to the nearest integer, ties to even;
negative numbers, NaN and other types are rejected. -/
theorem C15_capacity_rounded (q : Rat) :
    (q < 0 → initCap (.num q) = .error .valueError) ∧
    (0 ≤ q → ∃ n : Nat, initCap (.num q) = .ok (some n) ∧ |q - n| ≤ 1 / 2 ∧
      (|q - n| = 1 / 2 → n % 2 = 0)) := by
  refine ⟨fun h => by simp [initCap, h], fun h => ?_⟩
  have hf : 0 ≤ q.floor := Int.floor_nonneg.2 h
  have h1 : (q.floor : Rat) ≤ q := Int.floor_le q
  have h2 : q < q.floor + 1 := Int.lt_floor_add_one q
  obtain ⟨f, hff⟩ := Int.eq_ofNat_of_zero_le hf
  have hfc : (q.floor : Rat) = (f : Rat) := by rw [hff]; simp
  have key : ∀ n : Nat, pyRound q = n → |q - n| ≤ 1 / 2 ∧ (|q - n| = 1 / 2 → n % 2 = 0) →
      ∃ n : Nat, initCap (.num q) = .ok (some n) ∧ |q - n| ≤ 1 / 2 ∧
      (|q - n| = 1 / 2 → n % 2 = 0) := by
    intro n e hn
    exact ⟨n, by simp [initCap, not_lt.2 h, e], hn⟩
  simp only [pyRound] at key
  rw [hfc] at h1 h2
  simp only [hfc] at key
  by_cases c1 : q - f < 1 / 2
  · refine key f (by rw [if_pos c1, hff]) ?_
    rw [abs_of_nonneg (by linarith)]
    exact ⟨c1.le, fun e => absurd e c1.ne⟩
  · rw [if_neg c1] at key
    by_cases c2 : 1 / 2 < q - f
    · refine key (f + 1) (by rw [if_pos c2, hff]; simp) ?_
      rw [abs_of_nonpos (by push_cast; linarith)]
      push_cast
      exact ⟨by linarith, fun e => by linarith⟩
    · rw [if_neg c2] at key
      have c3 : q - f = 1 / 2 := le_antisymm (not_lt.1 c2) (not_lt.1 c1)
      by_cases c4 : q.floor % 2 = 0
      · refine key f (by rw [if_pos c4, hff]) ?_
        rw [c3, abs_of_nonneg (by norm_num)]
        exact ⟨le_refl _, fun _ => by omega⟩
      · refine key (f + 1) (by rw [if_neg c4, hff]; simp) ?_
        have c5 : q - ((f + 1 : Nat) : Rat) = -(1 / 2) := by push_cast; linarith
        rw [c5, abs_neg, abs_of_nonneg (by norm_num)]
        exact ⟨le_refl _, fun _ => by omega⟩

example : initCap (.num (5 / 2)) = .ok (some 2) ∧ initCap (.num (7 / 2)) = .ok (some 4) ∧
    initCap (.num (-1 / 10)) = .error .valueError := by decide +kernel

/-! ## C14 for stacks and queues -/

/-- C14: no string held by a stack contains a newline. -/
theorem C14_stack_no_newline {c : CapArg} {s : Stack Val} (hs : Stack.init c = .ok s)
    (ops : List (SOp Val)) {t : List Char} (ht : Val.str t ∈ (s.execs ops).2.container) :
    '\n' ∉ t := by
  have key : ∀ (ops : List (SOp Val)) (s : Stack Val),
      (∀ v ∈ s.container, Val.norm v = v) → ∀ v ∈ (s.execs ops).2.container, Val.norm v = v := by
    intro ops
    induction ops with
    | nil => exact fun s h => h
    | cons op ops ih =>
      intro s h
      refine ih (s.exec op).2 ?_
      cases op with
      | push item =>
        simp only [Stack.exec, Stack.push]
        split
        · exact h
        · split
          · exact h
          · intro v hv
            rcases List.mem_append.1 hv with hv | hv
            · exact h v hv
            · rw [List.mem_singleton.1 hv]; exact PyData.norm_norm (V := Val) _
      | pop =>
        simp only [Stack.exec, Stack.pop]
        split
        · exact h
        · exact fun v hv => h v ((List.dropLast_subset _) hv)
      | clear => simp [Stack.exec, Stack.clear]
      | peek | len | isEmpty | isFull | repr => exact h
  have h0 : s.container = [] := by
    cases hc : initCap c with
    | error e => simp [Stack.init, hc, bind, Except.bind] at hs
    | ok cap => simp [Stack.init, hc, bind, Except.bind] at hs; rw [← hs]
  have h1 := key ops s (by simp [h0]) _ ht
  simp only [Val.norm, Val.str.injEq] at h1
  rw [← h1]
  exact newline_not_mem_escape t

/-- A queue (or deque) reached by some history, with the contents the specification gives it. -/
def QReach (c : QClass) (cap : Option Nat) (q : Queue V X) (xs : List V) : Prop :=
  ∃ (a : CapArg) (q0 : Queue V X) (ops : List (QOp V)), initCap a = .ok cap ∧
    Queue.init a = .ok q0 ∧ q = (q0.execs c ops).2 ∧ xs = (queueRun c cap ops []).2

theorem QReach.inv {c : QClass} {cap : Option Nat} {q : Queue V X} {xs : List V}
    (R : QReach c cap q xs) : ∃ st, QInv q xs st ∧ q.cap = cap := by
  obtain ⟨a, q0, ops, ha, h0, rfl, rfl⟩ := R
  obtain ⟨q1, h1, h2, I⟩ := QInv.init (V := V) (X := X) ha
  obtain rfl : q0 = q1 := by rw [h0] at h1; exact Except.ok.inj h1
  obtain ⟨_, I', h4⟩ := queue_run c ops I
  rw [h2] at I' h4
  rw [queueShown_contents] at I'
  exact ⟨_, I', h4⟩

/-- C14: no string held by a queue or deque contains a newline. -/
theorem C14_queue_no_newline {c : QClass} {cap : Option Nat} {q : Queue Val X} {xs : List Val}
    (R : QReach c cap q xs) {t : List Char} (ht : Val.str t ∈ xs) : '\n' ∉ t := by
  obtain ⟨st, I, _⟩ := R.inv
  obtain ⟨ns, r⟩ := I.rep
  have h1 : Val.norm (.str t) = .str t := r.normed _ ht
  simp only [Val.norm, Val.str.injEq] at h1
  rw [← h1]
  exact newline_not_mem_escape t

/-! ## C16, C18: Queue and Deque -/

/-- both classes at once -/
theorem queue_history (c : QClass) {a : CapArg} {cap : Option Nat} (ha : initCap a = .ok cap) :
    ∃ q : Queue V X, Queue.init a = .ok q ∧ ∀ ops, (∀ op ∈ ops, op ≠ .repr) →
      (q.execs c ops).1 = (queueRun c cap ops []).1 := by
  obtain ⟨q, h1, h2, I⟩ := QInv.init (V := V) (X := X) ha
  refine ⟨q, h1, fun ops hr => ?_⟩
  rw [(queue_run c ops I).1, queueShown_results _ _ _ _ _ hr, h2]

/-- C16: every history of calls on a new `Queue` (other than `repr`, for which see C17) returns what
the specification says. -/
theorem C16_queue_history {a : CapArg} {cap : Option Nat} (ha : initCap a = .ok cap) :
    ∃ q : Queue V X, Queue.init a = .ok q ∧ ∀ ops, (∀ op ∈ ops, op ≠ .repr) →
      (q.execs .queue ops).1 = (queueRun .queue cap ops []).1 := queue_history .queue ha

/-- C18: every history of calls on a new `Deque` (other than `repr`) returns what the specification
says. -/
theorem C18_deque_history {a : CapArg} {cap : Option Nat} (ha : initCap a = .ok cap) :
    ∃ q : Queue V X, Queue.init a = .ok q ∧ ∀ ops, (∀ op ∈ ops, op ≠ .repr) →
      (q.execs .deque ops).1 = (queueRun .deque cap ops []).1 := queue_history .deque ha

/-- the results of a short history on a new queue, for the examples -/
private def tryQueue (c : QClass) (a : CapArg) (ops : List (QOp Val)) : Option (List (CRes Val)) :=
  match (Queue.init a : Except Err (Queue Val Unit)) with
  | .error _ => none
  | .ok q => some (q.execs c ops).1

example : tryQueue .queue (.num 2) [.enqueue (.val (.int 1)), .enqueue (.val (.int 2)),
    .enqueue (.val (.int 3)), .top, .dequeue, .dequeue, .dequeue] =
    some [.ok (.unit, false), .ok (.unit, false), .ok (.unit, true), .ok (.item (some (.int 2)), false),
      .ok (.item (some (.int 2)), false), .ok (.item (some (.int 3)), false), .ok (.item none, true)] := by
  decide +kernel

example : tryQueue .deque (.num 2) [.enqueue (.val (.int 1)), .appendRight (.val (.int 2)),
    .appendRight (.val (.int 3)), .getLeft, .popLeft, .dequeue] =
    some [.ok (.unit, false), .ok (.unit, false), .ok (.unit, true), .ok (.item (some (.int 2)), false),
      .ok (.item (some (.int 2)), false), .ok (.item (some (.int 3)), false)] := by decide +kernel

private theorem queueRun_append (c : QClass) (cap : Option Nat) : ∀ (as bs : List (QOp V)) (xs : List V),
    queueRun c cap (as ++ bs) xs =
      ((queueRun c cap as xs).1 ++ (queueRun c cap bs (queueRun c cap as xs).2).1,
        (queueRun c cap bs (queueRun c cap as xs).2).2)
  | [], _, _ => rfl
  | a :: as, bs, xs => by
    simp only [List.cons_append, queueRun, queueRun_append c cap as bs]

private theorem fit_fit {α : Type} (cap : Option Nat) (v : α) (xs : List α) :
    fit cap (v :: fit cap xs) = fit cap (v :: xs) := by
  cases cap with
  | none => rfl
  | some c =>
    cases c with
    | zero => rfl
    | succ c => simp only [fit, List.take_succ_cons, List.take_take]; congr 2; omega

private theorem queueRun_enqueues (c : QClass) (cap : Option Nat) : ∀ (vs : List V) (xs : List V),
    (queueRun c cap (vs.map (fun v => .enqueue (.val v))) (fit cap xs)).2 =
      fit cap ((vs.map PyData.norm).reverse ++ xs)
  | [], _ => rfl
  | v :: vs, xs => by
    have ih := queueRun_enqueues c cap vs (PyData.norm v :: xs)
    simp only [List.map_cons, queueRun, queueStep, storeItem, fit_fit, ih, List.reverse_cons,
      List.append_assoc, List.singleton_append]

private theorem queueRun_dequeues (c : QClass) (cap : Option Nat) : ∀ (ys xs : List V),
    (queueRun c cap (List.replicate ys.length .dequeue) (xs ++ ys.reverse)).1 =
      ys.map (fun v => .ok (.item (some v), false))
  | [], _ => rfl
  | y :: ys, xs => by
    have ih := queueRun_dequeues c cap ys xs
    simp only [List.length_cons, List.replicate_succ, queueRun, queueStep, List.reverse_cons,
      ← List.append_assoc, List.getLast?_concat, List.dropLast_concat, ih, List.map_cons,
      isEmpty_concat]

/-- C16: first in, first out.  Enqueue `vs` into a new queue without a bound; then as many dequeues
return exactly `vs`, in the order they were enqueued. -/
theorem C16_fifo {a : CapArg} (ha : initCap a = .ok none) (vs : List V) :
    ∃ q : Queue V X, Queue.init a = .ok q ∧
      ((q.execs .queue (vs.map (fun v => .enqueue (.val v)))).2.execs .queue
        (List.replicate vs.length .dequeue)).1 =
      vs.map (fun v => .ok (.item (some (PyData.norm v)), false)) := by
  obtain ⟨q, h1, h2, I⟩ := QInv.init (V := V) (X := X) ha
  refine ⟨q, h1, ?_⟩
  obtain ⟨_, I1, h3⟩ := queue_run .queue (vs.map (fun v => .enqueue (.val v))) I
  rw [(queue_run .queue _ I1).1, queueShown_results _ _ _ _ _ (by simp [List.mem_replicate]), h3, h2,
    queueShown_contents]
  have e := queueRun_enqueues .queue none vs []
  simp only [fit, List.append_nil] at e
  rw [e]
  have := queueRun_dequeues .queue none (vs.map PyData.norm) []
  simpa [Function.comp_def] using this

/-- C16: with capacity `n`, after enqueueing at least `n` items exactly the last `n` are held, and
come out in order: each further enqueue evicted exactly the oldest item.  With capacity 0 nothing is
ever stored. -/
theorem C16_evicts_oldest {a : CapArg} {n : Nat} (ha : initCap a = .ok (some n)) (us vs : List V)
    (hn : vs.length = n) :
    ∃ q : Queue V X, Queue.init a = .ok q ∧
      ((q.execs .queue ((us ++ vs).map (fun v => .enqueue (.val v)))).2.execs .queue
        (List.replicate n .dequeue ++ [.len])).1 =
      vs.map (fun v => .ok (.item (some (PyData.norm v)), false)) ++ [.ok (.nat 0, false)] := by
  obtain ⟨q, h1, h2, I⟩ := QInv.init (V := V) (X := X) ha
  refine ⟨q, h1, ?_⟩
  obtain ⟨_, I1, h3⟩ := queue_run .queue ((us ++ vs).map (fun v => .enqueue (.val v))) I
  rw [(queue_run .queue _ I1).1, queueShown_results _ _ _ _ _ (by
    intro op hop; rcases List.mem_append.1 hop with h | h
    · rw [(List.mem_replicate.1 h).2]; simp
    · rw [List.mem_singleton.1 h]; simp), h3, h2, queueShown_contents]
  have e := queueRun_enqueues .queue (some n) (us ++ vs) []
  have e2 : fit (some n) (((us ++ vs).map (PyData.norm : V → V)).reverse ++ []) =
      ((vs.map PyData.norm).reverse : List V) := by
    simp only [fit, List.append_nil, List.map_append, List.reverse_append]
    rw [List.take_left' (by simp [hn])]
  rw [e2] at e
  simp only [fit, List.take_nil] at e
  rw [e]
  have h4 := queueRun_dequeues .queue (some n) (vs.map (PyData.norm : V → V)) []
  have h5 : ∀ (ys : List V), (queueRun .queue (some n) (List.replicate ys.length .dequeue)
      (ys.reverse)).2 = [] := by
    intro ys
    induction ys with
    | nil => rfl
    | cons y ys ih =>
      simp only [List.length_cons, List.replicate_succ, queueRun, queueStep, List.reverse_cons,
        List.dropLast_concat, ih]
  have h6 := h5 (vs.map PyData.norm)
  simp only [List.length_map, List.nil_append, hn] at h4 h6
  rw [queueRun_append, h4, h6]
  simp [queueRun, queueStep, Function.comp_def]

/-- C16, C18: enqueueing into a full queue or deque (of non-zero capacity) drops exactly the item at
the other end; the new item is at the left, everything else keeps its place. -/
theorem C16_evict_exactly {c : QClass} {n : Nat} {q : Queue V X} {xs : List V}
    (R : QReach c (some (n + 1)) q xs) (h : (q.exec c .isFull).1 = .ok (.bool true, false)) (v : V) :
    (q.exec c (.enqueue (.val v))).1 = .ok (.unit, true) ∧
    QReach c (some (n + 1)) (q.exec c (.enqueue (.val v))).2 (PyData.norm v :: xs.dropLast) := by
  obtain ⟨st, I, hcap⟩ := R.inv
  have h1 := (queue_step I c .isFull).1
  rw [h] at h1
  simp only [queueStep, Except.ok.injEq, Prod.mk.injEq, CVal.bool.injEq, and_true, hcap] at h1
  refine ⟨?_, ?_⟩
  · have := (queue_step I c (.enqueue (.val v))).1
    simp only [queueStep, storeItem, hcap] at this
    rw [this, ← h1]
  · obtain ⟨a, q0, ops, ha, h0, rfl, rfl⟩ := R
    have hex : ∀ (ops : List (QOp V)) (q : Queue V X) (op : QOp V),
        (q.execs c (ops ++ [op])).2 = ((q.execs c ops).2.exec c op).2 := by
      intro ops
      induction ops with
      | nil => intro q op; rfl
      | cons o ops ih => intro q op; exact ih _ _
    refine ⟨a, q0, ops ++ [.enqueue (.val v)], ha, h0, (hex _ _ _).symm, ?_⟩
    rw [queueRun_append]
    simp only [queueRun, queueStep, storeItem]
    rw [fit_cons _ (by
      intro c' hc'
      have := I.le c'
      rw [hcap] at this
      exact this hc'), ← h1]
    simp [capPos]

/-- C18: `append_right` on a full deque drops exactly the leftmost item. -/
theorem C18_evict_left {n : Nat} {q : Queue V X} {xs : List V}
    (R : QReach .deque (some (n + 1)) q xs)
    (h : (q.exec .deque .isFull).1 = .ok (.bool true, false)) (v : V) :
    (q.exec .deque (.appendRight (.val v))).1 = .ok (.unit, true) ∧
    QReach .deque (some (n + 1)) (q.exec .deque (.appendRight (.val v))).2
      (xs.tail ++ [PyData.norm v]) := by
  obtain ⟨st, I, hcap⟩ := R.inv
  have h1 := (queue_step I .deque .isFull).1
  rw [h] at h1
  simp only [queueStep, Except.ok.injEq, Prod.mk.injEq, CVal.bool.injEq, and_true, hcap] at h1
  refine ⟨?_, ?_⟩
  · have := (queue_step I .deque (.appendRight (.val v))).1
    simp only [queueStep, storeItem, hcap, if_true] at this
    rw [this, ← h1]
  · obtain ⟨a, q0, ops, ha, h0, rfl, rfl⟩ := R
    have hex : ∀ (ops : List (QOp V)) (q : Queue V X) (op : QOp V),
        (q.execs .deque (ops ++ [op])).2 = ((q.execs .deque ops).2.exec .deque op).2 := by
      intro ops
      induction ops with
      | nil => intro q op; rfl
      | cons o ops ih => intro q op; exact ih _ _
    refine ⟨a, q0, ops ++ [.appendRight (.val v)], ha, h0, (hex _ _ _).symm, ?_⟩
    rw [queueRun_append]
    simp only [queueRun, queueStep, storeItem, if_true]
    have hlen := I.le (n + 1) hcap
    rw [fit_cons _ (by
      intro c' hc'
      have h3 : n + 1 = c' := by simpa using hc'
      rw [List.length_reverse]; omega), List.length_reverse, ← h1]
    simp [capPos]

/-- C16, C18: after any history `len` is at most the capacity. -/
theorem C16_capacity {c : QClass} {n : Nat} {q : Queue V X} {xs : List V}
    (R : QReach c (some n) q xs) :
    (q.exec c .len).1 = .ok (.nat xs.length, false) ∧ xs.length ≤ n := by
  obtain ⟨st, I, hcap⟩ := R.inv
  exact ⟨(queue_step I c .len).1, I.le n hcap⟩

/-- C18: a `Deque` can be read and emptied from either end: with contents `xs`, `pop_left` repeated
gives `xs`, `pop_right` (`dequeue`) repeated gives `xs` reversed. -/
theorem C18_both_ends {cap : Option Nat} {q : Queue V X} {xs : List V} (R : QReach .deque cap q xs) :
    (q.execs .deque (List.replicate xs.length .popLeft)).1 =
      xs.map (fun v => .ok (.item (some v), false)) ∧
    (q.execs .deque (List.replicate xs.length .dequeue)).1 =
      xs.reverse.map (fun v => .ok (.item (some v), false)) := by
  obtain ⟨st, I, hcap⟩ := R.inv
  constructor
  · rw [(queue_run .deque _ I).1, queueShown_results _ _ _ _ _ (by simp [List.mem_replicate])]
    clear I R
    induction xs with
    | nil => rfl
    | cons x xs ih =>
      simp only [List.length_cons, List.replicate_succ, queueRun, queueStep, if_true, List.head?_cons,
        List.isEmpty_cons, List.tail_cons, List.map_cons, ih]
  · rw [(queue_run .deque _ I).1, queueShown_results _ _ _ _ _ (by simp [List.mem_replicate])]
    have := queueRun_dequeues .deque q.cap xs.reverse []
    simpa using this

/-! ## C17: rendering -/

/-- C17, partial: a queue or deque that is not empty shows exactly its contents.  What is missing is
the empty queue, see `C17_repr_fresh_partial` and `C17_repr_stale`. -/
theorem C17_repr_partial {c : QClass} {cap : Option Nat} {q : Queue V X} {xs : List V}
    (R : QReach c cap q xs) (hne : xs ≠ []) :
    (q.exec c .repr).1 = .ok (.text (queueText (arrowOf c) xs), false) := by
  obtain ⟨st, I, _⟩ := R.inv
  have := (queue_step I c .repr).1
  simp only at this
  rw [this]
  cases xs with
  | nil => exact absurd rfl hne
  | cons x xs => rfl

/-- no removal shows up in the rendering of an empty queue unless it happened since `clear` -/
private theorem shown_fresh (c : QClass) (cap : Option Nat) : ∀ (ops : List (QOp V)) (xs : List V),
    (∀ op ∈ ops, op ≠ .dequeue ∧ op ≠ .popLeft) → (queueShown c cap ops xs none).2.2 = none
  | [], _, _ => rfl
  | op :: ops, xs, h => by
    have h1 := h op (by simp)
    have : staleStep c op xs none = none := by cases op <;> simp_all [staleStep]
    simp only [queueShown, this]
    exact shown_fresh c cap ops _ (fun o ho => h o (List.mem_cons_of_mem _ ho))

private theorem shown_append (c : QClass) (cap : Option Nat) : ∀ (as bs : List (QOp V)) (xs : List V)
    (st : Option V), (queueShown c cap (as ++ bs) xs st).2 =
      (queueShown c cap bs (queueShown c cap as xs st).2.1 (queueShown c cap as xs st).2.2).2
  | [], _, _, _ => rfl
  | a :: as, bs, xs, st => by simp only [List.cons_append, queueShown, shown_append c cap as bs]

/-- C17, partial: the rendering is right, also of an empty queue, if no `dequeue` or `pop_left`
happened since the last `clear()`.  Missing: queues emptied by removals. -/
theorem C17_repr_fresh_partial {c : QClass} {a : CapArg} {cap : Option Nat} (ha : initCap a = .ok cap)
    (pre post : List (QOp V)) (h : ∀ op ∈ post, op ≠ .dequeue ∧ op ≠ .popLeft) :
    ∃ q : Queue V X, Queue.init a = .ok q ∧
      ((q.execs c (pre ++ .clear :: post)).2.exec c .repr).1 =
        .ok (.text (queueText (arrowOf c) (queueRun c cap post []).2), false) ∧
      ((q.execs c post).2.exec c .repr).1 =
        .ok (.text (queueText (arrowOf c) (queueRun c cap post []).2), false) := by
  obtain ⟨q, h1, h2, I⟩ := QInv.init (V := V) (X := X) ha
  have hs : ∀ xs : List V, shownText (arrowOf c) xs none = queueText (arrowOf c) xs := by
    intro xs; cases xs <;> rfl
  refine ⟨q, h1, ?_, ?_⟩
  · obtain ⟨_, I1, _⟩ := queue_run c (pre ++ .clear :: post) I
    have e := (queue_step I1 c .repr).1
    simp only at e
    rw [e, shown_append]
    simp only [queueShown, queueStep, staleStep, queueShown_contents]
    rw [shown_fresh c q.cap post _ h, hs, h2]
  · obtain ⟨_, I1, _⟩ := queue_run c post I
    have e := (queue_step I1 c .repr).1
    simp only at e
    rw [e, shown_fresh c q.cap post _ h, hs, queueShown_contents, h2]

/-- C17 fails: after taking the only item out, an empty queue still shows that item. -/
theorem C17_repr_stale {c : QClass} {cap : Option Nat} {q : Queue V X} {x : V}
    (R : QReach c cap q [x]) :
    (q.execs c [.dequeue, .len, .repr]).1 =
      [.ok (.item (some x), false), .ok (.nat 0, false),
       .ok (.text [ruler ['─', '┬'] '┬' [PyShow.str x] [], boxes [arrowOf c, '│'] [PyShow.str x] [],
         ruler ['─', '┴'] '┴' [PyShow.str x] []], false)] := by
  obtain ⟨st, I, _⟩ := R.inv
  rw [(queue_run c _ I).1]
  simp [queueShown, queueStep, staleStep, shownText]

/-- C17 fails, concretely: the rendering is not that of an empty queue. -/
theorem C17_repr_wrong : ¬ ∀ (ops : List (QOp Val)) (q : Queue Val Unit), Queue.init .inf = .ok q →
    ((q.execs .queue ops).2.exec .queue .repr).1 =
      .ok (.text (queueText '⟶' (queueRun .queue none ops []).2), false) := by
  intro h
  have h1 := h [.enqueue (.val (.int 1)), .dequeue] _ rfl
  exact absurd h1 (by decide +kernel)

example : tryQueue .queue .inf [.enqueue (.val (.int 1)), .enqueue (.val (.int 20)), .repr] =
    some [.ok (.unit, false), .ok (.unit, false),
      .ok (.text ["─┬────┬───┬─".toList, "⟶│ 20 │ 1 │⟶".toList, "─┴────┴───┴─".toList], false)] := by
  decide +kernel

/-! ## C19, C20: PriorityQueue -/

section
variable [LinearOrder P] [BoundedOrder P] [Inhabited P]

private theorem start_ok : CacheOK true true (⟨[], ⊤, ⊥, none⟩ : PAbs V P) :=
  ⟨fun _ => ⟨by simp, fun _ => rfl, by simp⟩, fun _ => ⟨by simp, fun _ => rfl, by simp⟩⟩

/-- C19, partial: a `PriorityQueue` returns what the specification says, as long as the history is
`steady` and `oldTaken`: it does not switch the direction of dequeues or evict before a dequeue
without `clear()`, and no dequeue takes the most recently added of three or more items.  Without the
first condition `dequeue` may raise (C20), without the second it mixes up priorities
(`C19_wrong_item`). -/
theorem C19_dequeue_partial {a : CapArg} {cap : Option Nat} (ha : initCap a = .ok cap) :
    ∃ q : PQueue V P, PQueue.init a = .ok q ∧ ∀ ops, steady cap true true 0 ops →
      oldTaken cap ops [] → (q.execs ops).1 = (prioRun cap ops []).1 := by
  obtain ⟨q, h1, h2, I⟩ := PInv.init (V := V) (P := P) ha
  refine ⟨q, h1, fun ops hs ho => ?_⟩
  rw [(prio_run ops I).1, h2]
  exact (tame_run cap ops true true ⟨[], ⊤, ⊥, none⟩ (by simp) start_ok hs ho).1

/-- C20, partial: in `steady` histories `dequeue` never raises, and returns an item unless the queue
is empty (then it warns).  What is missing: histories that switch direction or evict, see
`C20_dequeue_raises`. -/
theorem C20_dequeue_partial {a : CapArg} {cap : Option Nat} (ha : initCap a = .ok cap) :
    ∃ q : PQueue V P, PQueue.init a = .ok q ∧ ∀ ops, steady cap true true 0 ops →
      ∀ p ∈ ops.zip (q.execs ops).1, ∀ low, p.1 = .dequeue low →
        ∃ v w, p.2 = .ok (.item v, w) ∧ (w = false → v ≠ none) := by
  obtain ⟨q, h1, h2, I⟩ := PInv.init (V := V) (P := P) ha
  refine ⟨q, h1, fun ops hs => ?_⟩
  rw [(prio_run ops I).1, h2]
  exact steady_run cap ops true true ⟨[], ⊤, ⊥, none⟩ (by simp) start_ok hs

private theorem steady_oneway (low : Bool) : ∀ (ops : List (PQOp V P)) (a b : Bool) (n : Nat),
    (if low then a else b) = true → (∀ l, .dequeue l ∈ ops → l = low) → steady none a b n ops
  | [], _, _, _, _, _ => trivial
  | op :: ops, a, b, n, hab, h => by
    have h' : ∀ l, .dequeue l ∈ ops → l = low := fun l hl => h l (List.mem_cons_of_mem _ hl)
    cases op with
    | enqueue item prio =>
      simp only [steady, fullAt]
      cases storeItem item <;> cases givenPrio prio <;> simp only
      all_goals first
        | exact steady_oneway low ops a b n hab h'
        | exact steady_oneway low ops a b (n + 1) hab h'
    | dequeue l =>
      obtain rfl := h l (by simp)
      simp only [steady]
      split
      · exact steady_oneway l ops a b n hab h'
      · exact ⟨hab, steady_oneway l ops l (!l) _ (by cases l <;> rfl) h'⟩
    | clear => exact steady_oneway low ops true true 0 (by cases low <;> rfl) h'
    | top | len | isEmpty | isFull | repr => exact steady_oneway low ops a b n hab h'

/-- C20, partial: without a bound on the capacity, a program that dequeues in one direction only never
sees `dequeue` raise. -/
theorem C20_one_direction_partial {a : CapArg} (ha : initCap a = .ok none) (low : Bool) :
    ∃ q : PQueue V P, PQueue.init a = .ok q ∧ ∀ ops : List (PQOp V P), (∀ l, .dequeue l ∈ ops → l = low) →
      ∀ p ∈ ops.zip (q.execs ops).1, p.1 = .dequeue low →
        ∃ v w, p.2 = .ok (.item v, w) ∧ (w = false → v ≠ none) := by
  obtain ⟨q, h1, h2⟩ := C20_dequeue_partial (V := V) (P := P) ha
  refine ⟨q, h1, fun ops h p hp => ?_⟩
  exact h2 ops (steady_oneway low ops true true 0 (by cases low <;> rfl) h) p hp low

/-- the items a priority queue holds, newest first -/
def PHolds (q : PQueue V P) (xs : List V) : Prop := ∃ s, PInv q s ∧ s.xs.map Prod.fst = xs

/-- C19: whatever happened before, a `dequeue` that returns an item removes that item and nothing
else; the others stay in order.  A `dequeue` that raises removes nothing.  (The items are those that
`repr` shows.) -/
theorem C19_removes_returned {a : CapArg} {q0 : PQueue V P} (h0 : PQueue.init a = .ok q0)
    (ops : List (PQOp V P)) (low : Bool) :
    ∃ xs, PHolds (q0.execs ops).2 xs ∧
      (xs ≠ [] → ((q0.execs ops).2.exec .repr).1 = .ok (.text (queueText '⟶' xs), false)) ∧
      ((∃ v as bs, ((q0.execs ops).2.exec (.dequeue low)).1 = .ok (.item (some v), false) ∧
          xs = as ++ v :: bs ∧ PHolds ((q0.execs ops).2.exec (.dequeue low)).2 (as ++ bs)) ∨
       (((q0.execs ops).2.exec (.dequeue low)).1 = .ok (.item none, true) ∧ xs = [] ∧
          PHolds ((q0.execs ops).2.exec (.dequeue low)).2 []) ∨
       (((q0.execs ops).2.exec (.dequeue low)).1 = .error .unboundLocalError ∧ xs ≠ [] ∧
          PHolds ((q0.execs ops).2.exec (.dequeue low)).2 xs)) := by
  cases ha : initCap a with
  | error e => simp [PQueue.init, Queue.init, ha, bind, Except.bind] at h0
  | ok cap =>
  obtain ⟨q1, h1, h2, I0⟩ := PInv.init (V := V) (P := P) ha
  obtain rfl : q0 = q1 := by rw [h0] at h1; exact Except.ok.inj h1
  obtain ⟨_, I, _⟩ := prio_run ops I0
  generalize (q0.execs ops).2 = q at I ⊢
  generalize (codeRun q0.cap ops ⟨[], ⊤, ⊥, none⟩).2 = s at I
  refine ⟨s.xs.map Prod.fst, ⟨s, I, rfl⟩, ?_, ?_⟩
  · intro hne
    have e := (prio_step I .repr).1
    rw [e]
    simp only [codeStep]
    cases hx : s.xs with
    | nil => simp [hx] at hne
    | cons x xs => rfl
  · obtain ⟨e, I', _⟩ := prio_step I (.dequeue low)
    by_cases hx : s.xs = []
    · right; left
      simp only [codeStep, hx, List.isEmpty_nil, if_true] at e I'
      exact ⟨e, by simp [hx], s, I', by simp [hx]⟩
    · have he : s.xs.isEmpty = false := by cases hs : s.xs <;> simp_all
      simp only [codeStep, he, Bool.false_eq_true, if_false] at e I'
      cases hf : s.xs.find? (fun y => decide (y.2 = if low then s.minP else s.maxP)) with
      | none =>
        right; right
        simp only [hf] at e I'
        exact ⟨e, by simp [hx], s, I', rfl⟩
      | some x =>
        left
        simp only [hf] at e I'
        obtain ⟨hxk, ys, zs, hsplit, hys⟩ := List.find?_eq_some_iff_append.1 hf
        refine ⟨x.1, ys.map Prod.fst, zs.map Prod.fst, e, by rw [hsplit]; simp, _, I', ?_⟩
        simp only
        rw [hsplit, codeErase_split (by simpa using hxk) (by simpa using hys)]
        match ys, zs with
        | [], [] => rfl
        | [], [_] => rfl
        | [], _ :: _ :: _ => rfl
        | _ :: _, _ => simp [leftPairs]

end

/-- the results of a short history on a new priority queue with priorities 0 to 20 -/
def tryPrio (a : CapArg) (ops : List (PQOp Val (Fin 21))) : Option (List (CRes Val)) :=
  match (PQueue.init a : Except Err (PQueue Val (Fin 21))) with
  | .error _ => none
  | .ok q => some (q.execs ops).1

/-- add item `n` with priority `p` -/
def prioPut (n : Int) (p : Fin 21) : PQOp Val (Fin 21) := .enqueue (.val (.int n)) (.num p)

/-- C19 fails: taking the most recently added of three items gives its priority to the one added
before it, which then comes out too early.  (Item 2 has priority 1, item 1 has priority 5.) -/
theorem C19_wrong_item : ¬ ∀ (ops : List (PQOp Val (Fin 21))) (q : PQueue Val (Fin 21)),
    PQueue.init .inf = .ok q → (q.execs ops).1 = (prioRun none ops []).1 := by
  intro h
  have h1 := h [prioPut 1 5, prioPut 2 1, prioPut 3 10, .dequeue false, .dequeue false] _ rfl
  exact absurd h1 (by decide +kernel)

example : tryPrio .inf [prioPut 1 5, prioPut 2 1, prioPut 3 10, .dequeue false, .dequeue false] =
    some [.ok (.unit, false), .ok (.unit, false), .ok (.unit, false),
      .ok (.item (some (.int 3)), false), .ok (.item (some (.int 2)), false)] := by decide +kernel

/-- C20 fails: `dequeue` on a non-empty queue can raise (`UnboundLocalError`), after dequeues in both
directions, and after an eviction. -/
theorem C20_dequeue_raises :
    tryPrio .inf [prioPut 1 5, .dequeue false, prioPut 2 7, .dequeue true] =
      some [.ok (.unit, false), .ok (.item (some (.int 1)), false), .ok (.unit, false),
        .error .unboundLocalError] ∧
    tryPrio (.num 1) [prioPut 1 9, prioPut 2 3, .dequeue false] =
      some [.ok (.unit, false), .ok (.unit, true), .error .unboundLocalError] := by
  decide +kernel

/-- the hypotheses of the partial theorems hold for a history with eight calls -/
example : let ops := [prioPut 1 9, prioPut 2 4, prioPut 3 7, .dequeue false, .dequeue false, .clear, prioPut 4 2,
      .dequeue true]
    steady none true true 0 ops ∧ oldTaken none ops [] ∧
    tryPrio .inf ops = some (prioRun none ops []).1 := by
  refine ⟨?_, ?_, by decide +kernel⟩
  · simp [steady, prioPut, storeItem, givenPrio, fullAt]
  · refine ⟨by simp [prioPut], by simp [prioPut], by simp [prioPut], by simp [prioPut], by simp [prioPut], by simp [prioPut],
      by simp, ?_, by simp, ?_, by simp, by simp, by simp [prioPut], by simp [prioPut], by simp, ?_, trivial⟩ <;>
    · rintro _ ⟨⟩; decide +kernel

end Extra
