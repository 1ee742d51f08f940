import Verif.Lists.QueueSpec
import Verif.Lists.Refine

/-! # The stack, queue and deque models refine their specifications (helper lemmas) -/

set_option linter.unusedSectionVars false
set_option linter.unusedSimpArgs false
attribute [local irreducible] Extra.upd

namespace Extra

section Common
variable {V : Type} [PyData V] [PyShow V]

theorem atCap_eq (n : Nat) (cap : Option Nat) : atCap n cap = fullAt cap n := by
  cases cap <;> simp [atCap, fullAt, eq_comm, BEq.beq]

theorem storeItem_eq (item : Item V) :
    storeItem item = (validateItem item).map PyData.norm := by
  cases item <;> simp [storeItem, validateItem, Except.map]

theorem cellLines_eq (cells : List (List Char)) : ∀ t m d : List Char,
    cellLines t m d cells = (ruler t '┬' cells [], boxes m cells [], ruler d '┴' cells []) := by
  induction cells with
  | nil => intro t m d; simp [cellLines, ruler, boxes]
  | cons c cs ih =>
    intro t m d
    have := ih (t ++ List.replicate (c.length + 2) '─' ++ ['┬']) (m ++ [' '] ++ c ++ [' ', '│'])
      (d ++ List.replicate (c.length + 2) '─' ++ ['┴'])
    unfold cellLines at this ⊢
    rw [List.foldl_cons, this]
    simp [ruler, boxes]

theorem ruler_append (t : List Char) (j : Char) (cells : List (List Char)) (r : List Char) :
    ruler t j cells [] ++ r = ruler t j cells r := by simp [ruler]

theorem boxes_append (t : List Char) (cells : List (List Char)) (r : List Char) :
    boxes t cells [] ++ r = boxes t cells r := by simp [boxes]

/-- a stack and its specification -/
theorem stack_step (s : Stack V) (op : SOp V) :
    (s.exec op).1 = (stackStep s.cap op s.container.reverse).1 ∧
      (s.exec op).2.container.reverse = (stackStep s.cap op s.container.reverse).2 ∧
      (s.exec op).2.cap = s.cap := by
  obtain ⟨xs, cap⟩ := s
  have hemp : xs.length = 0 ↔ xs = [] := List.length_eq_zero_iff
  cases op with
  | push item =>
    simp only [Stack.exec, Stack.push, atCap_eq, stackStep, List.length_reverse, storeItem_eq]
    by_cases hf : fullAt cap xs.length = true
    · simp [hf]
    · simp only [hf, Bool.false_eq_true, if_false]
      cases validateItem item <;> simp [Except.map]
  | pop =>
    simp only [Stack.exec, Stack.pop, stackStep, hemp]
    by_cases hx : xs = []
    · simp [hx]
    · simp [hx]
  | peek =>
    simp only [Stack.exec, Stack.peek, stackStep, hemp]
    by_cases hx : xs = [] <;> simp [hx]
  | len => simp [Stack.exec, stackStep]
  | isEmpty =>
    simp only [Stack.exec, stackStep]
    cases xs <;> simp
  | isFull => simp [Stack.exec, stackStep, atCap_eq]
  | clear => simp [Stack.exec, stackStep, Stack.clear]
  | repr => simp [Stack.exec, stackStep, Stack.repr, cellLines_eq, ruler_append, boxes_append]

theorem stack_run : ∀ (ops : List (SOp V)) (s : Stack V),
    (s.execs ops).1 = (stackRun s.cap ops s.container.reverse).1 ∧
      (s.execs ops).2.container.reverse = (stackRun s.cap ops s.container.reverse).2 ∧
      (s.execs ops).2.cap = s.cap
  | [], s => ⟨rfl, rfl, rfl⟩
  | op :: ops, s => by
    obtain ⟨h1, h2, h3⟩ := stack_step s op
    obtain ⟨i1, i2, i3⟩ := stack_run ops (s.exec op).2
    rw [h2, h3] at i1 i2
    exact ⟨by simp only [Stack.execs, stackRun, h1, i1], by simp only [Stack.execs, stackRun, i2],
      i3.trans h3⟩

/-- what a stack holds never exceeds its capacity -/
theorem stackStep_le (cap : Option Nat) (op : SOp V) {xs : List V}
    (h : ∀ c, cap = some c → xs.length ≤ c) :
    ∀ c, cap = some c → (stackStep cap op xs).2.length ≤ c := by
  intro c hc
  have := h c hc
  subst hc
  cases op <;> simp only [stackStep, List.length_tail, List.length_nil] <;> try omega
  split
  · exact this
  · rename_i hf
    simp [fullAt] at hf
    split
    · exact this
    · simp; omega

theorem stackRun_le (cap : Option Nat) : ∀ (ops : List (SOp V)) {xs : List V},
    (∀ c, cap = some c → xs.length ≤ c) →
    ∀ c, cap = some c → (stackRun cap ops xs).2.length ≤ c
  | [], _, h => h
  | op :: ops, _, h => stackRun_le cap ops (stackStep_le cap op h)

theorem fit_length_le {α : Type} (xs : List α) {c : Nat} : (fit (some c) xs).length ≤ c := by
  simp [fit]

end Common

section Queue
variable {V X : Type} [PyData V] [PyShow V] [Inhabited X] {h : Heap V X} {l : Addr}
  {ns : List Addr} {xs : List V}

/-- what the container's `_head` points to while it is empty: nothing, or the node of the item
whose removal emptied it -/
def Stale (h : Heap V X) (l : Addr) : Option V → Prop
  | none => (h.lobj l).head = none
  | some v => ∃ a, (h.lobj l).head = some a ∧ (h.node a).next = none ∧ (h.node a).data = some v

theorem removeNode_single {a : Addr} {x : V} (r : Rep .dll h l [a] [x]) (p : Option Addr) :
    removeNode .dll l p a h = (.ok (), h.setList l { h.lobj l with length := 0 }) := by
  have h1 := r.len
  have h2 := r.head (by simp)
  have h3 := r.tail rfl (by simp)
  simp only [List.length_singleton, List.head?_cons, List.getLast?_singleton] at h1 h2 h3
  simp only [removeNode, removeNodeDLL, run_bind, run_getList, run_getNext, h1, if_true, h2, h3,
    run_deref_some, run_setLength]

/-- removing position `as.length` -/
theorem delItem_ext {as bs : List Addr} {n : Addr} {ys zs : List V} {x : V}
    (r : Rep .dll h l (as ++ n :: bs) (ys ++ x :: zs)) (hlen : as.length = ys.length) :
    ∃ h', delItem .dll l (.int (as.length : Int)) h = (.ok (), h') ∧
      Removed .dll h h' l as n bs ys zs ∧
      (as = [] ∧ bs = [] → h' = h.setList l { h.lobj l with length := 0 }) := by
  obtain ⟨c, e1, hc⟩ := getNode_spec r
  have hc := hc (by simp)
  simp only [List.head?_cons, Option.some_or] at hc
  subst hc
  obtain ⟨h', e2, R⟩ := removeNode_spec r hlen
  have hl := r.len
  refine ⟨h', ?_, R, ?_⟩
  · have h1 : ¬ ((as.length : Int) ≤ -1) := by omega
    have h2 : ¬ ((as.length : Int) < -((as ++ n :: bs).length : Int) ∨
      (as.length : Int) > ((as ++ n :: bs).length : Int)) := by simp; omega
    have h3 : ¬ (Idx.int (as.length : Int) = Idx.int ((as ++ n :: bs).length : Int)) := by
      rw [Idx.int_eq_len]; simp
    simp only [delItem, validateIndex, run_bind, h1, false_and, if_false, run_getList, hl, h2,
      run_pure, h3, removeIdx, Idx.toNat, Int.toNat_natCast, e1, assertSome, e2]
  · rintro ⟨rfl, rfl⟩
    have : ys = [] := List.eq_nil_of_length_eq_zero (by simpa using hlen.symm)
    subst this
    have hz : zs = [] := by have := r.length_eq; simpa using this
    subst hz
    have := removeNode_single r ([] : List Addr).getLast?
    rw [e2] at this
    exact (Prod.ext_iff.1 this).2

theorem removeEnd_ext {as : List Addr} {n : Addr} {ys : List V} {x : V}
    (r : Rep .dll h l (as ++ [n]) (ys ++ [x])) :
    ∃ h', removeEnd .dll l h = (.ok (), h') ∧ Rep .dll h' l as ys ∧
      h'.nNodes = h.nNodes ∧ h'.nLists = h.nLists ∧ (∀ a, (h'.node a).ext = (h.node a).ext) ∧
      (as = [] → Stale h' l (some x)) ∧ Frame h h' (fun a => a ∈ as ++ [n]) (· = l) := by
  have hlen : as.length = ys.length := by have := r.length_eq; simpa using this
  obtain ⟨h', e, ⟨r', f, b, c, d⟩, hs⟩ := delItem_ext r hlen
  have hl : (((h.lobj l).length : Nat) : Int) - 1 = as.length := by rw [r.len]; simp
  have hne : (h.lobj l).length ≠ 0 := by rw [r.len]; simp
  refine ⟨h', ?_, ?_, b, c, d, ?_, f⟩
  · simp [removeEnd, isEmpty, run_bind, hne, hl, e]
  · have : leftNodes .dll as n [] = as := by unfold leftNodes; cases as <;> simp
    rwa [this, List.append_nil] at r'
  · rintro rfl
    have := hs ⟨rfl, rfl⟩
    have hy : ys = [] := List.eq_nil_of_length_eq_zero hlen.symm
    subst hy this
    refine ⟨n, ?_, ?_, ?_⟩
    · have := r.head (by simp); simpa using this
    · have := r.links; simpa [Lnk, endOf] using this
    · have := r.data; simpa using this

theorem removeFront_ext {bs : List Addr} {n : Addr} {zs : List V} {x : V}
    (r : Rep .dll h l (n :: bs) (x :: zs)) :
    ∃ h', removeFront .dll l h = (.ok (), h') ∧ Rep .dll h' l (leftNodes .dll [] n bs) zs ∧
      h'.nNodes = h.nNodes ∧ h'.nLists = h.nLists ∧ (∀ a, (h'.node a).ext = (h.node a).ext) ∧
      (bs = [] → Stale h' l (some x)) := by
  obtain ⟨h', e, ⟨r', _, b, c, d⟩, hs⟩ := delItem_ext (as := []) (ys := []) r rfl
  have hne : (h.lobj l).length ≠ 0 := by rw [r.len]; simp
  refine ⟨h', ?_, r', b, c, d, ?_⟩
  · simp only [List.length_nil, Nat.cast_zero] at e
    simp [removeFront, isEmpty, run_bind, hne, e]
  · rintro rfl
    have := hs ⟨rfl, rfl⟩
    subst this
    have hz : zs = [] := by have := r.length_eq; simpa using this
    subst hz
    refine ⟨n, ?_, ?_, ?_⟩
    · have := r.head (by simp); simpa using this
    · have := r.links; simpa [Lnk, endOf] using this
    · have := r.data; simpa using this

@[simp] theorem run_nodeAt (a : Addr) (h : Heap V X) : nodeAt a h = (.ok (h.node a), h) := rfl

theorem shownLoop_chain : ∀ (ns : List Addr) (fuel : Nat), ns.length ≤ fuel → Lnk h ns none →
    shownLoop fuel ns.head? h = (.ok (ns.map h.node), h)
  | [], _, _, _ => by cases ‹Nat› <;> rfl
  | a :: as, 0, hf, _ => by simp at hf
  | a :: as, fuel + 1, hf, hl => by
    have ih := shownLoop_chain as fuel (by simpa using hf) hl.2
    have hn : (h.node a).next = as.head? := by rw [hl.1]; simp
    simp only [List.head?_cons, shownLoop, run_bind, run_nodeAt, hn, ih, run_pure, List.map_cons]

/-- what `_print_queue` shows -/
theorem qRepr_spec (r : Rep .dll h l ns xs) (dir : Char) (repr1 : Node V X → List Char)
    (st : Option V) (hs : xs = [] → Stale h l st) :
    qRepr (h.nNodes + 1) dir repr1 l h = (.ok (
      if xs = [] then
        match st with
        | none => [['─', '┬'], [dir, '│'], ['─', '┴']]
        | some _ =>
          let cells := [((h.lobj l).head.map (fun a => repr1 (h.node a))).getD []]
          [ruler ['─', '┬'] '┬' cells [], boxes [dir, '│'] cells [], ruler ['─', '┴'] '┴' cells []]
      else
        [ruler ['─', '┬'] '┬' ((ns.map h.node).map repr1) ['─'],
         boxes [dir, '│'] ((ns.map h.node).map repr1) [dir],
         ruler ['─', '┴'] '┴' ((ns.map h.node).map repr1) ['─']]), h) := by
  by_cases hx : xs = []
  · subst hx
    have h0 : (h.lobj l).length = 0 := by rw [r.lenobj]; rfl
    rw [if_pos rfl]
    cases st with
    | none =>
      have := hs rfl
      simp only [Stale] at this
      simp [qRepr, run_bind, this, shownLoop, isEmpty, h0, cellLines]
    | some v =>
      obtain ⟨a, h1, h2, h3⟩ := hs rfl
      have hl := shownLoop_chain (h := h) [a] (h.nNodes + 1) (by simp) (by simp [Lnk, h2])
      simp only [List.head?_cons] at hl
      simp only [qRepr, run_bind, run_getList, h1, hl, cellLines_eq, isEmpty, h0, run_pure,
        List.map_cons, List.map_nil, BEq.rfl, if_true, Option.map_some, Option.getD_some]
  · rw [if_neg hx]
    have hns : ns ≠ [] := by rintro rfl; exact hx (List.eq_nil_of_length_eq_zero r.length_eq.symm)
    have hne : (h.lobj l).length ≠ 0 := by
      rw [r.lenobj]; exact fun e => hx (List.eq_nil_of_length_eq_zero e)
    have hl := shownLoop_chain (h := h) ns (h.nNodes + 1)
      (by have := r.length_le; rw [r.length_eq]; omega) r.links
    simp only [qRepr, run_bind, run_getList, r.head hns, hl, cellLines_eq, isEmpty, run_pure,
      beq_iff_eq, hne, if_false, ruler_append, boxes_append]

theorem Rep.show_cells (r : Rep .dll h l ns xs) :
    (ns.map h.node).map (fun nd => showData nd.data) = xs.map PyShow.str := by
  have := congrArg (List.map showData) r.data
  simpa [Function.comp_def, showData] using this

theorem dir_arrow (c : QClass) : c.dir = arrowOf c := by cases c <;> rfl

/-- what `repr` returns: the contents, except for an empty queue that still shows an item -/
def shownText (dir : Char) (xs : List V) (st : Option V) : List (List Char) :=
  match xs, st with
  | [], some v =>
    [ruler ['─', '┬'] '┬' [PyShow.str v] [], boxes [dir, '│'] [PyShow.str v] [],
      ruler ['─', '┴'] '┴' [PyShow.str v] []]
  | xs, _ => queueText dir xs

theorem qRepr_show (r : Rep .dll h l ns xs) (dir : Char) (st : Option V)
    (hs : xs = [] → Stale h l st) :
    qRepr (h.nNodes + 1) dir (fun nd => showData nd.data) l h =
      (.ok (shownText dir xs st), h) := by
  rw [qRepr_spec r dir _ st hs, r.show_cells]
  congr 2
  cases xs with
  | nil =>
    cases st with
    | none => simp [shownText, queueText]
    | some v =>
      obtain ⟨a, h1, h2, h3⟩ := hs rfl
      simp [shownText, h1, h3, showData]
  | cons x xs => simp [shownText, queueText]

/-- a queue holds `xs`; `st` is what the empty container's head still shows -/
structure QInv (q : Queue V X) (xs : List V) (st : Option V) : Prop where
  rep : ∃ ns, Rep .dll q.heap q.cont ns xs
  stale : xs = [] → Stale q.heap q.cont st
  le : ∀ c, q.cap = some c → xs.length ≤ c

theorem newList_empty (h : Heap V X) :
    ∃ h', newList h = (.ok h.nLists, h') ∧ Rep .dll h' h.nLists [] ([] : List V) ∧
      (h'.lobj h.nLists).head = none := by
  obtain ⟨h', e, r, _⟩ := newList_run .dll h
  refine ⟨h', e, r, ?_⟩
  have : h' = _ := (Prod.ext_iff.1 e).2.symm
  subst this
  simp [newList]

theorem QInv.init {c : CapArg} {cap : Option Nat} (hc : initCap c = .ok cap) :
    ∃ q : Queue V X, Queue.init c = .ok q ∧ q.cap = cap ∧ QInv q [] none := by
  obtain ⟨h', e, r, hh⟩ := newList_empty (Heap.empty : Heap V X)
  refine ⟨⟨h', _, cap⟩, ?_, rfl, ⟨[], r⟩, fun _ => hh, by simp⟩
  simp only [Queue.init, hc, bind, Except.bind, e]

/-- the item a queue still shows once it is empty, after a call -/
def staleStep (c : QClass) (op : QOp V) (xs : List V) (st : Option V) : Option V :=
  match op with
  | .dequeue => if xs.length = 1 then xs.head? else st
  | .popLeft => if c = .deque ∧ xs.length = 1 then xs.head? else st
  | .clear => none
  | _ => st

theorem Rep.concat_nodes {ys : List V} {x : V} (r : Rep .dll h l ns (ys ++ [x])) :
    ∃ as n, ns = as ++ [n] := by
  have := r.length_eq
  rcases List.eq_nil_or_concat ns with rfl | ⟨as, n, rfl⟩
  · simp at this
  · exact ⟨as, n, by simp⟩

theorem Rep.cons_nodes {ys : List V} {x : V} (r : Rep .dll h l ns (x :: ys)) :
    ∃ n as, ns = n :: as := by
  have := r.length_eq
  cases ns with
  | nil => simp at this
  | cons n as => exact ⟨n, as, rfl⟩

theorem Rep.tail_data {ys : List V} {x : V} (r : Rep .dll h l ns (ys ++ [x])) :
    ∃ a, (h.lobj l).tail = some a ∧ (h.node a).data = some x := by
  obtain ⟨as, n, rfl⟩ := r.concat_nodes
  refine ⟨n, by have := r.tail rfl (by simp); simpa using this, ?_⟩
  have hlen : as.length = ys.length := by have := r.length_eq; simpa using this
  exact (data_remove hlen r.data).2.1

theorem Rep.head_data {ys : List V} {x : V} (r : Rep .dll h l ns (x :: ys)) :
    ∃ a, (h.lobj l).head = some a ∧ (h.node a).data = some x := by
  obtain ⟨n, as, rfl⟩ := r.cons_nodes
  refine ⟨n, by have := r.head (by simp); simpa using this, ?_⟩
  have := r.data
  simp only [List.map_cons, List.cons.injEq] at this
  exact this.1

@[simp] theorem whenM_true (m : M V X Unit) : whenM true m = m := rfl
@[simp] theorem whenM_false (m : M V X Unit) : whenM false m = M.pure () := rfl

theorem isEmpty_concat {α : Type} (xs : List α) (x : α) : (xs ++ [x]).isEmpty = false := by
  cases xs <;> rfl

/-- making room on the right -/
theorem evict_right (r : Rep .dll h l ns xs) (full : Bool) :
    ∃ h' ns', whenM full (removeEnd .dll l) h = (.ok (), h') ∧
      Rep .dll h' l ns' (if full then xs.dropLast else xs) ∧
      (xs = [] → h' = h) := by
  cases full with
  | false => exact ⟨h, ns, rfl, r, fun _ => rfl⟩
  | true =>
    rcases List.eq_nil_or_concat xs with rfl | ⟨ys, x, rfl⟩
    · exact ⟨h, ns, by simp [whenM, removeEnd, run_bind, isEmpty_spec r], r, fun _ => rfl⟩
    · obtain ⟨as, n, rfl⟩ := Rep.concat_nodes (by simpa using r)
      obtain ⟨h', e, r', _⟩ := removeEnd_ext (by simpa using r)
      exact ⟨h', as, e, by simpa using r', by simp⟩

/-- making room on the left -/
theorem evict_left (r : Rep .dll h l ns xs) (full : Bool) :
    ∃ h' ns', whenM full (removeFront .dll l) h = (.ok (), h') ∧
      Rep .dll h' l ns' (if full then xs.tail else xs) ∧
      (xs = [] → h' = h) := by
  cases full with
  | false => exact ⟨h, ns, rfl, r, fun _ => rfl⟩
  | true =>
    cases xs with
    | nil => exact ⟨h, ns, by simp [whenM, removeFront, run_bind, isEmpty_spec r], r, fun _ => rfl⟩
    | cons x ys =>
      obtain ⟨n, as, rfl⟩ := r.cons_nodes
      obtain ⟨h', e, r', _⟩ := removeFront_ext r
      exact ⟨h', _, e, by simpa using r', by simp⟩

theorem fit_cons {α : Type} {cap : Option Nat} {xs : List α} (v : α)
    (hle : ∀ c, cap = some c → xs.length ≤ c) :
    fit cap (v :: xs) =
      if capPos cap then v :: (if fullAt cap xs.length then xs.dropLast else xs) else xs := by
  cases cap with
  | none => simp [fit, capPos, fullAt]
  | some c =>
    have := hle c rfl
    cases c with
    | zero =>
      have : xs = [] := List.eq_nil_of_length_eq_zero (by omega)
      simp [fit, capPos, this]
    | succ c =>
      simp only [fit, capPos, Nat.zero_lt_succ, decide_true, if_true, List.take_succ_cons, fullAt,
        Option.some.injEq, decide_eq_true_eq]
      by_cases hc : c + 1 = xs.length
      · rw [if_pos hc, List.dropLast_eq_take, ← hc]; rfl
      · rw [if_neg hc, List.take_of_length_le (by omega)]

theorem run_ok {α : Type} {q : Queue V X} {m : M V X α} {f : α → CVal V × Bool} {a : α}
    {h' : Heap V X} (e : m q.heap = (.ok a, h')) :
    q.run m f = (.ok (f a), { q with heap := h' }) := by simp only [Queue.run, e]

theorem run_err {α : Type} {q : Queue V X} {m : M V X α} {f : α → CVal V × Bool} {x : Err}
    {h' : Heap V X} (e : m q.heap = (.error x, h')) :
    q.run m f = (.error x, { q with heap := h' }) := by simp only [Queue.run, e]

theorem full_spec (r : Rep .dll h l ns xs) (cap : Option Nat) :
    qIsFull l cap h = (.ok (fullAt cap xs.length), h) := by
  simp [qIsFull, run_bind, llLen, r.lenobj, atCap_eq]

theorem isEmpty_run (r : Rep .dll h l ns xs) : isEmpty l h = (.ok xs.isEmpty, h) := by
  rw [isEmpty_spec r]; cases xs <;> simp

/-- the outcome of a call on a queue -/
def QStepOK (c : QClass) (op : QOp V) (q : Queue V X) (xs : List V) (st : Option V) : Prop :=
  (q.exec c op).1 = (match op with
    | .repr => .ok (.text (shownText (arrowOf c) xs st), false)
    | op => (queueStep c q.cap op xs).1) ∧
  QInv (q.exec c op).2 (queueStep c q.cap op xs).2 (staleStep c op xs st) ∧
  (q.exec c op).2.cap = q.cap

theorem enqueue_ok {q : Queue V X} {st : Option V} (I : QInv q xs st) (c : QClass)
    (item : Item V) : QStepOK c (.enqueue item) q xs st := by
  obtain ⟨ns, r⟩ := I.rep
  cases item with
  | none =>
    have e := run_err (q := q) (m := qEnqueue q.cont q.cap (.none : Item V)) (h' := q.heap)
      (f := fun w => (CVal.unit, w)) (x := .valueError) rfl
    simp only [QStepOK, Queue.exec, e, queueStep, storeItem, staleStep]
    exact ⟨trivial, I, trivial⟩
  | extra =>
    have e := run_err (q := q) (m := qEnqueue q.cont q.cap (.extra : Item V)) (h' := q.heap)
      (f := fun w => (CVal.unit, w)) (x := .typeError) rfl
    simp only [QStepOK, Queue.exec, e, queueStep, storeItem, staleStep]
    exact ⟨trivial, I, trivial⟩
  | val v =>
    obtain ⟨h1, ns1, e1, r1, hs1⟩ := evict_right r (fullAt q.cap xs.length)
    by_cases hc : capPos q.cap = true
    · obtain ⟨h2, ns2, e2, r2, _⟩ := insertAt_spec r1 (Nat.zero_le _) v
      have e : qEnqueue q.cont q.cap (.val v) q.heap = (.ok (fullAt q.cap xs.length), h2) := by
        simp only [qEnqueue, validateItem, qEnqueueValue, run_bind, run_lift_ok, full_spec r, e1,
          hc, whenM_true, e2, run_pure]
      have ex : q.exec c (.enqueue (.val v)) =
        (.ok (.unit, fullAt q.cap xs.length), { q with heap := h2 }) := run_ok e
      have hfit := fit_cons (cap := q.cap) (xs := xs) (PyData.norm v) I.le
      rw [if_pos hc] at hfit
      simp only [QStepOK, ex, queueStep, storeItem, staleStep, hfit]
      refine ⟨trivial, ⟨⟨ns2, by simpa using r2⟩, by simp, ?_⟩, trivial⟩
      intro c' hc'
      rw [← hfit, hc']; exact fit_length_le _
    · have hc0 : capPos q.cap = false := by simpa using hc
      have hx : xs = [] := by
        cases hq : q.cap with
        | none => simp [hq, capPos] at hc0
        | some k =>
          simp only [hq, capPos, decide_eq_false_iff_not] at hc0
          have := I.le k hq
          exact List.eq_nil_of_length_eq_zero (by omega)
      have e : qEnqueue q.cont q.cap (.val v) q.heap = (.ok (fullAt q.cap xs.length), q.heap) := by
        rw [hs1 hx] at e1
        simp only [qEnqueue, validateItem, qEnqueueValue, run_bind, run_lift_ok, full_spec r, e1,
          hc0, whenM_false, run_pure]
      have ex : q.exec c (.enqueue (.val v)) =
        (.ok (.unit, fullAt q.cap xs.length), q) := run_ok e
      have hfit := fit_cons (cap := q.cap) (xs := xs) (PyData.norm v) I.le
      rw [hc0] at hfit
      simp only [Bool.false_eq_true, if_false] at hfit
      simp only [QStepOK, ex, queueStep, storeItem, staleStep, hfit]
      exact ⟨trivial, I, trivial⟩

theorem appendRight_ok {q : Queue V X} {st : Option V} (I : QInv q xs st) (item : Item V) :
    QStepOK .deque (.appendRight item) q xs st := by
  obtain ⟨ns, r⟩ := I.rep
  cases item with
  | none =>
    have e := run_err (q := q) (m := qAppendRight q.cont q.cap (.none : Item V)) (h' := q.heap)
      (f := fun w => (CVal.unit, w)) (x := .valueError) rfl
    simp only [QStepOK, Queue.exec, e, queueStep, storeItem, staleStep, if_true]
    exact ⟨trivial, I, trivial⟩
  | extra =>
    have e := run_err (q := q) (m := qAppendRight q.cont q.cap (.extra : Item V)) (h' := q.heap)
      (f := fun w => (CVal.unit, w)) (x := .typeError) rfl
    simp only [QStepOK, Queue.exec, e, queueStep, storeItem, staleStep, if_true]
    exact ⟨trivial, I, trivial⟩
  | val v =>
    obtain ⟨h1, ns1, e1, r1, hs1⟩ := evict_left r (fullAt q.cap xs.length)
    have hfit := fit_cons (cap := q.cap) (xs := xs.reverse) (PyData.norm v)
      (by simpa using I.le)
    rw [List.length_reverse] at hfit
    by_cases hc : capPos q.cap = true
    · obtain ⟨h2, ns2, e2, r2, _⟩ := insertAt_spec r1 (Nat.le_refl _) v
      have e : qAppendRight q.cont q.cap (.val v) q.heap = (.ok (fullAt q.cap xs.length), h2) := by
        simp only [qAppendRight, validateItem, run_bind, run_lift_ok, full_spec r, e1,
          hc, whenM_true, llLen, run_getList, r1.lenobj, e2, run_pure]
      have ex : q.exec .deque (.appendRight (.val v)) =
          (.ok (.unit, fullAt q.cap xs.length), { q with heap := h2 }) := by
        simp only [Queue.exec, if_true]; exact run_ok e
      rw [if_pos hc] at hfit
      have hrev : (fit q.cap (PyData.norm v :: xs.reverse)).reverse =
          (if fullAt q.cap xs.length then xs.tail else xs) ++ [PyData.norm v] := by
        rw [hfit]
        by_cases hf : fullAt q.cap xs.length = true <;> simp [hf]
      have hins := insertIdx_append (if fullAt q.cap xs.length then xs.tail else xs) []
        (PyData.norm v)
      rw [List.append_nil] at hins
      rw [hins, ← hrev] at r2
      simp only [QStepOK, ex, queueStep, storeItem, staleStep, if_true]
      refine ⟨trivial, ⟨⟨ns2, r2⟩, ?_, ?_⟩, trivial⟩
      · rw [hrev]; simp
      · intro c' hc'
        rw [List.length_reverse, hc']; exact fit_length_le _
    · have hc0 : capPos q.cap = false := by simpa using hc
      have hx : xs = [] := by
        cases hq : q.cap with
        | none => simp [hq, capPos] at hc0
        | some k =>
          simp only [hq, capPos, decide_eq_false_iff_not] at hc0
          have := I.le k hq
          exact List.eq_nil_of_length_eq_zero (by omega)
      have e : qAppendRight q.cont q.cap (.val v) q.heap =
          (.ok (fullAt q.cap xs.length), q.heap) := by
        rw [hs1 hx] at e1
        simp only [qAppendRight, validateItem, run_bind, run_lift_ok, full_spec r, e1,
          hc0, whenM_false, run_pure]
      have ex : q.exec .deque (.appendRight (.val v)) =
          (.ok (.unit, fullAt q.cap xs.length), q) := by
        simp only [Queue.exec, if_true]; exact run_ok e
      rw [hc0] at hfit
      simp only [Bool.false_eq_true, if_false] at hfit
      simp only [QStepOK, ex, queueStep, storeItem, staleStep, hfit, if_true, List.reverse_reverse]
      exact ⟨trivial, I, trivial⟩

theorem dequeue_ok {q : Queue V X} {st : Option V} (I : QInv q xs st) (c : QClass) :
    QStepOK c .dequeue q xs st := by
  obtain ⟨ns, r⟩ := I.rep
  rcases List.eq_nil_or_concat xs with rfl | ⟨ys, x, rfl⟩
  · have e : qDequeue q.cont q.heap = (.ok (none, true), q.heap) := by
      simp only [qDequeue, run_bind, isEmpty_run r, List.isEmpty_nil, if_true, run_pure]
    have ex : q.exec c .dequeue = (.ok (.item none, true), q) := run_ok e
    simp only [QStepOK, ex, queueStep, staleStep]
    exact ⟨rfl, I, trivial⟩
  · rw [List.concat_eq_append] at *
    obtain ⟨as, n, rfl⟩ := r.concat_nodes
    obtain ⟨a, t1, t2⟩ := r.tail_data
    obtain ⟨h', e1, r', _, _, _, hs, _⟩ := removeEnd_ext r
    have hlen : as.length = ys.length := by have := r.length_eq; simpa using this
    have e : qDequeue q.cont q.heap = (.ok (some x, false), h') := by
      simp only [qDequeue, run_bind, isEmpty_run r, isEmpty_concat, Bool.false_eq_true, if_false, run_getList, t1, run_getData, t2, e1, run_pure]
    have ex : q.exec c .dequeue = (.ok (.item (some x), false), { q with heap := h' }) := run_ok e
    simp only [QStepOK, ex, queueStep, staleStep]
    refine ⟨by simp, ⟨⟨as, by simpa using r'⟩, ?_, ?_⟩, trivial⟩
    · intro hy
      rw [List.dropLast_concat] at hy
      subst hy
      have ha : as = [] := List.eq_nil_of_length_eq_zero hlen
      simpa using hs ha
    · intro c' hc'
      have := I.le c' hc'
      simp at this ⊢; omega

theorem popLeft_ok {q : Queue V X} {st : Option V} (I : QInv q xs st) :
    QStepOK .deque .popLeft q xs st := by
  obtain ⟨ns, r⟩ := I.rep
  cases xs with
  | nil =>
    have e : qPopLeft q.cont q.heap = (.ok (none, true), q.heap) := by
      simp only [qPopLeft, run_bind, isEmpty_run r, List.isEmpty_nil, if_true, run_pure]
    have ex : q.exec .deque .popLeft = (.ok (.item none, true), q) := by
      simp only [Queue.exec, if_true]; exact run_ok e
    simp only [QStepOK, ex, queueStep, staleStep]
    exact ⟨by simp, by simpa using I, trivial⟩
  | cons x ys =>
    obtain ⟨n, as, rfl⟩ := r.cons_nodes
    obtain ⟨a, t1, t2⟩ := r.head_data
    obtain ⟨h', e1, r', _, _, _, hs⟩ := removeFront_ext r
    have hlen : as.length = ys.length := by have := r.length_eq; simpa using this
    have e : qPopLeft q.cont q.heap = (.ok (some x, false), h') := by
      simp only [qPopLeft, run_bind, isEmpty_run r, List.isEmpty_cons,
        Bool.false_eq_true, if_false, run_getList, t1, run_getData, t2, e1, run_pure]
    have ex : q.exec .deque .popLeft = (.ok (.item (some x), false), { q with heap := h' }) := by
      simp only [Queue.exec, if_true]; exact run_ok e
    simp only [QStepOK, ex, queueStep, staleStep, if_true]
    refine ⟨by simp, ⟨⟨_, r'⟩, ?_, ?_⟩, trivial⟩
    · intro hy
      rw [List.tail_cons] at hy
      subst hy
      have ha : as = [] := List.eq_nil_of_length_eq_zero hlen
      simpa using hs ha
    · intro c' hc'
      have := I.le c' hc'
      simp at this ⊢; omega

theorem queue_step {q : Queue V X} {st : Option V} (I : QInv q xs st) (c : QClass) (op : QOp V) :
    QStepOK c op q xs st := by
  obtain ⟨ns, r⟩ := I.rep
  cases op with
  | enqueue item => exact enqueue_ok I c item
  | dequeue => exact dequeue_ok I c
  | top =>
    rcases List.eq_nil_or_concat xs with rfl | ⟨ys, x, rfl⟩
    · have e : qTop q.cont q.heap = (.error .indexError, q.heap) := by
        simp only [qTop, run_bind, isEmpty_run r, List.isEmpty_nil, if_true, run_throw]
      have ex : q.exec c .top = (.error .indexError, q) := run_err e
      simp only [QStepOK, ex, queueStep, staleStep]
      exact ⟨by simp, I, trivial⟩
    · rw [List.concat_eq_append] at *
      obtain ⟨a, t1, t2⟩ := r.tail_data
      have e : qTop q.cont q.heap = (.ok (some x), q.heap) := by
        simp only [qTop, run_bind, isEmpty_run r, isEmpty_concat, Bool.false_eq_true, if_false, run_getList, t1, run_getData, t2, run_pure]
      have ex : q.exec c .top = (.ok (.item (some x), false), q) := run_ok e
      simp only [QStepOK, ex, queueStep, staleStep]
      exact ⟨by simp, I, trivial⟩
  | len =>
    have e : llLen q.cont q.heap = (.ok xs.length, q.heap) := by
      simp [llLen, run_bind, r.lenobj]
    have ex : q.exec c .len = (.ok (.nat xs.length, false), q) :=
      run_ok (f := fun n => (CVal.nat n, false)) e
    simp only [QStepOK, ex, queueStep, staleStep]
    exact ⟨trivial, I, trivial⟩
  | isEmpty =>
    have ex : q.exec c .isEmpty = (.ok (.bool xs.isEmpty, false), q) :=
      run_ok (f := fun n => (CVal.bool n, false)) (isEmpty_run r)
    simp only [QStepOK, ex, queueStep, staleStep]
    exact ⟨trivial, I, trivial⟩
  | isFull =>
    have ex : q.exec c .isFull = (.ok (.bool (fullAt q.cap xs.length), false), q) :=
      run_ok (f := fun n => (CVal.bool n, false)) (full_spec r q.cap)
    simp only [QStepOK, ex, queueStep, staleStep]
    exact ⟨trivial, I, trivial⟩
  | clear =>
    obtain ⟨h', e, r', hh⟩ := newList_empty q.heap
    have ex : q.exec c .clear =
        (.ok (.unit, false), { q with heap := h', cont := q.heap.nLists }) := by
      simp only [Queue.exec, e]
    simp only [QStepOK, ex, queueStep, staleStep]
    exact ⟨trivial, ⟨⟨[], r'⟩, fun _ => hh, by simp⟩, trivial⟩
  | repr =>
    have hx : q.exec c .repr = (.ok (.text (shownText (arrowOf c) xs st), false), q) := by
      rw [← dir_arrow]
      exact run_ok (f := fun t => (CVal.text t, false)) (qRepr_show r c.dir st I.stale)
    simp only [QStepOK, hx, queueStep, staleStep]
    exact ⟨trivial, I, trivial⟩
  | appendRight item =>
    cases c with
    | queue => simp only [QStepOK, Queue.exec, queueStep, staleStep]; exact ⟨by simp, by simpa using I, by simp⟩
    | deque => exact appendRight_ok I item
  | popLeft =>
    cases c with
    | queue => simp only [QStepOK, Queue.exec, queueStep, staleStep]; exact ⟨by simp, by simpa using I, by simp⟩
    | deque => exact popLeft_ok I
  | getLeft =>
    cases c with
    | queue => simp only [QStepOK, Queue.exec, queueStep, staleStep]; exact ⟨by simp, by simpa using I, by simp⟩
    | deque =>
      cases xs with
      | nil =>
        have e : qGetLeft q.cont q.heap = (.error .indexError, q.heap) := by
          simp only [qGetLeft, run_bind, isEmpty_run r, List.isEmpty_nil, if_true, run_throw]
        have ex : q.exec .deque .getLeft = (.error .indexError, q) := by
          simp only [Queue.exec, if_true]; exact run_err e
        simp only [QStepOK, ex, queueStep, staleStep]
        exact ⟨by simp, by simpa using I, trivial⟩
      | cons x ys =>
        obtain ⟨a, t1, t2⟩ := r.head_data
        have e : qGetLeft q.cont q.heap = (.ok (some x), q.heap) := by
          simp only [qGetLeft, run_bind, isEmpty_run r, List.isEmpty_cons,
            Bool.false_eq_true, if_false, run_getList, t1, run_getData, t2, run_pure]
        have ex : q.exec .deque .getLeft = (.ok (.item (some x), false), q) := by
          simp only [Queue.exec, if_true]; exact run_ok e
        simp only [QStepOK, ex, queueStep, staleStep]
        exact ⟨by simp, by simpa using I, trivial⟩

/-- a history: results and invariant; `repr` may show a stale item -/
def queueShown (c : QClass) (cap : Option Nat) :
    List (QOp V) → List V → Option V → List (CRes V) × List V × Option V
  | [], xs, st => ([], xs, st)
  | op :: ops, xs, st =>
    let r := queueShown c cap ops (queueStep c cap op xs).2 (staleStep c op xs st)
    ((match op with
      | .repr => .ok (.text (shownText (arrowOf c) xs st), false)
      | op => (queueStep c cap op xs).1) :: r.1, r.2)

theorem queue_run (c : QClass) : ∀ (ops : List (QOp V)) {q : Queue V X} {xs : List V}
    {st : Option V}, QInv q xs st →
    (q.execs c ops).1 = (queueShown c q.cap ops xs st).1 ∧
      QInv (q.execs c ops).2 (queueShown c q.cap ops xs st).2.1 (queueShown c q.cap ops xs st).2.2 ∧
      (q.execs c ops).2.cap = q.cap
  | [], _, _, _, I => ⟨rfl, I, rfl⟩
  | op :: ops, q, xs, st, I => by
    obtain ⟨h1, h2, h3⟩ := queue_step I c op
    obtain ⟨i1, i2, i3⟩ := queue_run c ops h2
    rw [h3] at i1 i2 i3
    refine ⟨?_, i2, i3⟩
    simp only [Queue.execs, queueShown, h1, i1]

theorem queueShown_contents (c : QClass) (cap : Option Nat) : ∀ (ops : List (QOp V)) (xs : List V)
    (st : Option V), (queueShown c cap ops xs st).2.1 = (queueRun c cap ops xs).2
  | [], _, _ => rfl
  | op :: ops, xs, st => queueShown_contents c cap ops _ _

theorem queueShown_results (c : QClass) (cap : Option Nat) : ∀ (ops : List (QOp V)) (xs : List V)
    (st : Option V), (∀ op ∈ ops, op ≠ .repr) →
    (queueShown c cap ops xs st).1 = (queueRun c cap ops xs).1
  | [], _, _, _ => rfl
  | op :: ops, xs, st, h => by
    have ih := queueShown_results c cap ops (queueStep c cap op xs).2 (staleStep c op xs st)
      (fun o ho => h o (List.mem_cons_of_mem _ ho))
    simp only [queueShown, queueRun, ih]
    congr 1
    have := h op (by simp)
    cases op <;> simp_all

end Queue

end Extra
