import Verif.Lists.DrawQueues
import Verif.Props.Queues
import Batteries.Lean.Except

/-!
# Property C95: what the drawings of stacks, queues, deques and priority queues tell

What `repr` returns line by line is said by C14, C17 and C19; here: two containers with the same drawing
hold items that print alike.  `joinLines lines` is the string the lines are joined to.
-/

set_option linter.unusedSectionVars false

namespace Extra

private theorem stack_shown {c : CapArg} {s : Stack Val} (hs : Stack.init c = .ok s)
    (ops : List (SOp Val)) : ∀ x ∈ ((s.execs ops).2.container).map PyShow.str, '\n' ∉ x := by
  intro x hx
  obtain ⟨v, hv, rfl⟩ := List.mem_map.1 hx
  cases v with
  | int n => exact Val.str_nl rfl
  | str t => exact C14_stack_no_newline hs ops hv
  | obj n => exact Val.str_nl rfl

/-- C95: two stacks have the same drawing exactly if their items print alike, in order; `xs` and `ys` are
the items the specification gives them. -/
theorem C95_stack {a a' : CapArg} {cap cap' : Option Nat} {s s' : Stack Val} (ops ops' : List (SOp Val))
    (ha : initCap a = .ok cap) (ha' : initCap a' = .ok cap') (hs : Stack.init a = .ok s)
    (hs' : Stack.init a' = .ok s') :
    ∃ lines lines', ((s.execs ops).2.exec .repr).1 = .ok (.text lines, false) ∧
      ((s'.execs ops').2.exec .repr).1 = .ok (.text lines', false) ∧
      (joinLines lines = joinLines lines' ↔
        (stackRun cap ops []).2.map PyShow.str = (stackRun cap' ops' []).2.map PyShow.str) := by
  have key : ∀ {a : CapArg} {cap : Option Nat} {s : Stack Val} (ops : List (SOp Val)),
      initCap a = .ok cap → Stack.init a = .ok s →
      ((s.execs ops).2.exec .repr).1 =
        .ok (.text (stackLines ((s.execs ops).2.container.map PyShow.str)), false) ∧
      (s.execs ops).2.container.reverse = (stackRun cap ops []).2 := by
    intro a cap s ops ha hs
    have e : s = ⟨[], cap⟩ := by
      simp [Stack.init, ha, bind, Except.bind] at hs; exact hs.symm
    subst e
    have h1 := (stack_step (Stack.execs ops (⟨[], cap⟩ : Stack Val)).2 .repr).1
    refine ⟨by rw [h1]; simp [stackStep, stackLines], ?_⟩
    have h2 := stack_run ops (⟨[], cap⟩ : Stack Val)
    simpa using h2.2.1
  obtain ⟨h1, h2⟩ := key ops ha hs
  obtain ⟨h3, h4⟩ := key ops' ha' hs'
  refine ⟨_, _, h1, h3, fun h => ?_, fun h => ?_⟩
  · have := stackLines_inj (joinLines_inj (stackLines_ne _) (stackLines_ne _)
      (stackLines_nl (stack_shown hs ops)) (stackLines_nl (stack_shown hs' ops')) h)
    rw [← h2, ← h4, List.map_reverse, List.map_reverse, this]
  · rw [← h2, ← h4, List.map_reverse, List.map_reverse] at h
    rw [List.reverse_injective h]

variable {X : Type} [Inhabited X]

theorem dir_nl (c : QClass) : arrowOf c ≠ '\n' := by cases c <;> decide

private theorem queue_shown {c : QClass} {cap : Option Nat} {q : Queue Val X} {xs : List Val}
    (R : QReach c cap q xs) : ∀ x ∈ xs.map PyShow.str, '\n' ∉ x := by
  intro x hx
  obtain ⟨v, hv, rfl⟩ := List.mem_map.1 hx
  obtain ⟨st, I, -⟩ := R.inv
  obtain ⟨ns, r⟩ := I.rep
  exact Val.str_nl (r.normed v hv)

private theorem queue_repr {c : QClass} {cap : Option Nat} {q : Queue Val X} {xs : List Val}
    (R : QReach c cap q xs) : ∃ st, (q.exec c .repr).1 = .ok (.text (shownText (arrowOf c) xs st), false) := by
  obtain ⟨st, I, -⟩ := R.inv
  exact ⟨st, (queue_step I c .repr).1⟩

/-- C95: a queue (deque) that is not empty and any other queue (deque) have the same drawing exactly if
their items print alike, in order.  In particular an empty one, whatever it still shows (C17), never
looks like one that is not empty. -/
theorem C95_queue {c : QClass} {cap cap' : Option Nat} {q q' : Queue Val X} {xs ys : List Val}
    (R : QReach c cap q xs) (R' : QReach c cap' q' ys) (hx : xs ≠ []) :
    ∃ lines lines', (q.exec c .repr).1 = .ok (.text lines, false) ∧
      (q'.exec c .repr).1 = .ok (.text lines', false) ∧
      (joinLines lines = joinLines lines' ↔ xs.map PyShow.str = ys.map PyShow.str) := by
  obtain ⟨st, h1⟩ := queue_repr R
  obtain ⟨st', h2⟩ := queue_repr R'
  rw [shownText_cons _ hx] at h1
  refine ⟨_, _, h1, h2, ?_⟩
  by_cases hy : ys = []
  · subst hy
    exact ⟨fun h => absurd h (openLines_join (shownText_open _ _) _),
      fun h => absurd (by simpa using h) hx⟩
  · rw [shownText_cons _ hy]
    exact ⟨fun h => boxLines_inj (joinLines_inj (boxLines_ne _ _) (boxLines_ne _ _)
      (boxLines_nl (dir_nl c) (queue_shown R)) (boxLines_nl (dir_nl c) (queue_shown R')) h),
      fun h => by rw [h]⟩

/-- C95: a queue and a deque that are not empty never have the same drawing. -/
theorem C95_queue_or_deque {cap cap' : Option Nat} {q q' : Queue Val X} {xs ys : List Val}
    (R : QReach .queue cap q xs) (R' : QReach .deque cap' q' ys) (hx : xs ≠ []) (hy : ys ≠ []) :
    ∃ lines lines', (q.exec .queue .repr).1 = .ok (.text lines, false) ∧
      (q'.exec .deque .repr).1 = .ok (.text lines', false) ∧ joinLines lines ≠ joinLines lines' := by
  obtain ⟨st, h1⟩ := queue_repr R
  obtain ⟨st', h2⟩ := queue_repr R'
  rw [shownText_cons _ hx] at h1
  rw [shownText_cons _ hy] at h2
  refine ⟨_, _, h1, h2, fun h => ?_⟩
  have := joinLines_inj (boxLines_ne _ _) (boxLines_ne _ _)
    (boxLines_nl (dir_nl .queue) (queue_shown R)) (boxLines_nl (dir_nl .deque) (queue_shown R')) h
  simp [boxLines, boxes, arrowOf] at this

section
variable {P : Type} [LinearOrder P] [BoundedOrder P] [Inhabited P]

/-- a priority queue holds these items, with these priorities -/
def PHoldsP (q : PQueue Val P) (xs : List (Val × P)) : Prop := ∃ s, PInv q s ∧ s.xs = xs

/-- a priority queue reached by some history holds something -/
theorem PHoldsP.reached {a : CapArg} {q0 : PQueue Val P} (h0 : PQueue.init a = .ok q0)
    (ops : List (PQOp Val P)) : ∃ xs, PHoldsP (q0.execs ops).2 xs := by
  cases ha : initCap a with
  | error e => simp [PQueue.init, Queue.init, ha, bind, Except.bind] at h0
  | ok cap =>
    obtain ⟨q1, h1, -, I0⟩ := PInv.init (V := Val) (P := P) ha
    obtain rfl : q0 = q1 := by rw [h0] at h1; exact Except.ok.inj h1
    obtain ⟨_, I, _⟩ := prio_run ops I0
    exact ⟨_, _, I, rfl⟩

private theorem prio_shown {q : PQueue Val P} {xs : List (Val × P)} (H : PHoldsP q xs) :
    ∀ x ∈ xs, '\n' ∉ PyShow.str x.1 := by
  intro x hx
  obtain ⟨s, I, rfl⟩ := H
  obtain ⟨ns, r, -⟩ := I.rep
  exact Val.str_nl (r.normed x.1 (List.mem_map_of_mem hx))

/-- C95: with `SHOW_PRIORITY` off, a priority queue that is not empty and any other one have the same
drawing exactly if their items print alike, in order, whatever their priorities are. -/
theorem C95_priority_items {q q' : PQueue Val P} {xs ys : List (Val × P)} (H : PHoldsP q xs)
    (H' : PHoldsP q' ys) (hx : xs ≠ []) :
    ∃ lines lines', (q.exec .repr).1 = .ok (.text lines, false) ∧
      (q'.exec .repr).1 = .ok (.text lines', false) ∧
      (joinLines lines = joinLines lines' ↔
        xs.map (fun x => PyShow.str x.1) = ys.map (fun y => PyShow.str y.1)) := by
  have nl := prio_shown H
  have nl' := prio_shown H'
  obtain ⟨s, I, rfl⟩ := H
  obtain ⟨s', I', rfl⟩ := H'
  have h1 := (prio_step I .repr).1
  have h2 := (prio_step I' .repr).1
  simp only [codeStep] at h1 h2
  rw [shownText_cons _ (by simpa using hx)] at h1
  refine ⟨_, _, h1, h2, ?_⟩
  by_cases hy : s'.xs = []
  · rw [hy]
    exact ⟨fun h => absurd h (openLines_join (by simpa using shownText_open (V := Val) _ _) _),
      fun h => absurd (by simpa using h) hx⟩
  · rw [shownText_cons _ (by simpa using hy)]
    simp only [List.map_map, Function.comp_def]
    refine ⟨fun h => boxLines_inj (joinLines_inj (boxLines_ne _ _) (boxLines_ne _ _)
      (boxLines_nl (by decide) ?_) (boxLines_nl (by decide) ?_) h), fun h => by rw [h]⟩
    · intro x hm; obtain ⟨y, hm', rfl⟩ := List.mem_map.1 hm; exact nl y hm'
    · intro x hm; obtain ⟨y, hm', rfl⟩ := List.mem_map.1 hm; exact nl' y hm'

/-- C95: with `SHOW_PRIORITY` on, a priority queue that is not empty and any other one have the same
drawing exactly if their items and the priorities print alike, in order.  (The text of a priority has no
`|` and no newline: it is a number.)  So items and priorities can be told apart even if an item's text
contains `|P:`.  Drawing changes nothing. -/
theorem C95_priorities [PyShow P] (hP : ∀ p : P, '|' ∉ PyShow.str p ∧ '\n' ∉ PyShow.str p)
    {q q' : PQueue Val P} {xs ys : List (Val × P)} (H : PHoldsP q xs) (H' : PHoldsP q' ys)
    (hx : xs ≠ []) :
    ∃ lines lines', q.reprP = (.ok (.text lines, false), q) ∧
      q'.reprP = (.ok (.text lines', false), q') ∧
      (joinLines lines = joinLines lines' ↔
        xs.map (fun x => (PyShow.str x.1, PyShow.str x.2)) =
          ys.map (fun y => (PyShow.str y.1, PyShow.str y.2))) := by
  have nlp : ∀ {q : PQueue Val P} {xs : List (Val × P)}, PHoldsP q xs →
      ∀ t ∈ xs.map pairText, '\n' ∉ t := by
    intro q xs H t ht
    obtain ⟨x, hm, rfl⟩ := List.mem_map.1 ht
    have h1 := prio_shown H x hm
    have h2 := (hP x.2).2
    simp [pairText, h1, h2]
  have nl := nlp H
  have nl' := nlp H'
  obtain ⟨s, I, rfl⟩ := H
  obtain ⟨s', I', rfl⟩ := H'
  obtain ⟨l, h1, h2, -⟩ := reprP_spec I
  obtain ⟨l', h3, h4, h5⟩ := reprP_spec I'
  obtain rfl := h2 hx
  refine ⟨_, _, h1, h3, ?_⟩
  by_cases hy : s'.xs = []
  · rw [hy]
    exact ⟨fun h => absurd h (openLines_join (h5 hy) _), fun h => absurd (by simpa using h) hx⟩
  · obtain rfl := h4 hy
    constructor
    · intro h
      have e := boxLines_inj (joinLines_inj (boxLines_ne _ _) (boxLines_ne _ _)
        (boxLines_nl (by decide) nl) (boxLines_nl (by decide) nl') h)
      refine List.ext_getElem? (fun i => ?_)
      have e := congrArg (·[i]?) e
      simp only [List.getElem?_map] at e ⊢
      cases e1 : s.xs[i]? <;> cases e2 : s'.xs[i]? <;> simp only [e1, e2, Option.map_none,
        Option.map_some, Option.some.injEq, reduceCtorEq] at e ⊢
      exact Prod.ext (pairText_inj (fun p => (hP p).1) e).1 (pairText_inj (fun p => (hP p).1) e).2
    · intro h
      have : s.xs.map pairText = s'.xs.map pairText := by
        have := congrArg (List.map (fun t : List Char × List Char => t.1 ++ ['|', 'P', ':'] ++ t.2)) h
        rw [List.map_map, List.map_map] at this
        exact this
      rw [this]

/-- C95: the lines of a priority queue with `SHOW_PRIORITY` on -/
theorem C95_priority_lines [PyShow P] {q : PQueue Val P} {xs : List (Val × P)} (H : PHoldsP q xs)
    (hx : xs ≠ []) :
    let cells := xs.map (fun x => PyShow.str x.1 ++ "|P:".toList ++ PyShow.str x.2)
    q.reprP = (.ok (.text [ruler ['─', '┬'] '┬' cells ['─'], boxes ['⟶', '│'] cells ['⟶'],
      ruler ['─', '┴'] '┴' cells ['─']], false), q) := by
  obtain ⟨s, I, rfl⟩ := H
  obtain ⟨l, h1, h2, -⟩ := reprP_spec I
  rw [h1, h2 hx]
  rfl

end

/-! ## Concrete cases -/

/-- priorities from 0 to 20 print as numbers -/
instance showFin21 : PyShow (Fin 21) where str n := (toString n.val).toList

example : ∀ p : Fin 21, '|' ∉ PyShow.str p ∧ '\n' ∉ PyShow.str p := by decide +kernel

/-- the drawing with priorities after some calls -/
def drawnP (a : CapArg) (ops : List (PQOp Val (Fin 21))) : Option String :=
  match (PQueue.init a : Except Err (PQueue Val (Fin 21))) with
  | .error _ => none
  | .ok q =>
    match (q.execs ops).2.reprP.1 with
    | .ok (.text t, _) => some (String.ofList (joinLines t))
    | _ => none

example : drawnP .inf [prioPut 10 1, prioPut 20 5] = some
    "─┬────────┬────────┬─\n⟶│ 20|P:5 │ 10|P:1 │⟶\n─┴────────┴────────┴─" := by decide +kernel

/-- an item whose text looks like a priority -/
example : drawnP .inf [.enqueue (.val (.str "1|P:2".toList)) (.num 3)] = some
    "─┬───────────┬─\n⟶│ 1|P:2|P:3 │⟶\n─┴───────────┴─" := by decide +kernel

/-- an emptied priority queue still shows its last item, but the box is not closed -/
example : drawnP .inf [prioPut 10 1, .dequeue true] = some
    "─┬────────┬\n⟶│ 10|P:1 │\n─┴────────┴" := by decide +kernel

/-- a string and a number may print alike -/
example : drawnP .inf [.enqueue (.val (.str "10".toList)) (.num 3)] = drawnP .inf [prioPut 10 3] ∧
    drawnP .inf [prioPut 10 3] ≠ drawnP .inf [prioPut 10 4] := by decide +kernel

end Extra
