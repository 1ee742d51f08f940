import Verif.Lists.Queue
import Mathlib.Order.BoundedOrder.Lattice
import Mathlib.Order.Lattice

/-!
# `PriorityQueue` — /repo/extra/lists/priority_queue.py

Priorities are elements of a linear order with least and greatest element (`-inf` and `inf`);
`nan` is not modelled.  The nodes are `PriorityNode`s: doubly linked nodes whose `ext` field is
`_priority`.
-/

namespace Extra
variable {V P : Type} [PyData V] [LinearOrder P] [BoundedOrder P]

/-- a `priority` argument: a number, `None` (the node draws `random.randint(0, 100)`; `r` is the
number drawn) or an object of another type -/
inductive PrioArg (P : Type)
  | num (p : P)
  | none (r : P)
  | other
  deriving DecidableEq

/-- a `PriorityQueue` object — priority_queue.py:193-195 -/
structure PQueue (V P : Type) where
  heap : Heap V P
  cont : Addr
  cap : Option Nat
  minP : P
  maxP : P

/-- a call of the public API -/
inductive PQOp (V P : Type)
  | enqueue (item : Item V) (prio : PrioArg P)
  | dequeue (lowest : Bool)
  | top
  | len
  | isEmpty
  | isFull
  | clear
  | repr
  deriving DecidableEq

/-- the priority a new node gets — priority_queue.py:54-60, :317-318 -/
def PrioArg.value : PrioArg P → Except Err P
  | .num p => .ok p
  | .none r => .ok r
  | .other => .error .typeError

/-- `Queue._enqueue` of a node — queue.py:260-269, `_insert` linked_list.py:1256-1260 -/
def pqInsert (l : Addr) (cap : Option Nat) (n : Addr) : M V P Bool := do
  let full ← qIsFull l cap
  whenM full (removeEnd .dll l)
  whenM (capPos cap) (do
    let (prev, _) ← getNode .dll l 0
    let _ ← insertNode .dll l prev n
    M.pure ())
  M.pure full

/-- `enqueue` — priority_queue.py:369-374 -/
def PQueue.enqueue (q : PQueue V P) (item : Item V) (prio : PrioArg P) : CRes V × PQueue V P :=
  match validateItem item with
  | .error e => (.error e, q)
  | .ok v =>
    match prio.value with
    | .error e => (.error e, q)
    | .ok p =>
      match newNode p v q.heap with
      | (.error e, h) => (.error e, { q with heap := h })
      | (.ok n, h) =>
        let q1 : PQueue V P := { q with heap := h, minP := min q.minP p, maxP := max q.maxP p }
        match pqInsert q.cont q.cap n h with
        | (.error e, h') => (.error e, { q1 with heap := h' })
        | (.ok w, h') => (.ok (.unit, w), { q1 with heap := h' })

/-- the loops of `_update_min_priority` and `_update_max_priority` — priority_queue.py:418-422,
:433-437: fold `f` over the priorities from `curr` on -/
def prioLoop (f : P → P → P) : Nat → P → Option Addr → M V P P
  | _, acc, none => M.pure acc
  | 0, _, some _ => M.throw .diverge
  | fuel + 1, acc, some a => do
    let nd ← nodeAt a
    prioLoop f fuel (f nd.ext acc) nd.next

/-- `_update_min_priority` / `_update_max_priority` — priority_queue.py:409-437 -/
def updatePrio (fuel : Nat) (lowest : Bool) (l : Addr) : M V P P := do
  let start : P := if lowest then ⊤ else ⊥
  let e ← isEmpty l
  if e then M.pure start else do
    let o ← getList l
    prioLoop (if lowest then min else max) fuel start o.head

/-- the loop of `dequeue` — priority_queue.py:479-495: the node whose priority equals `key`, with
its data; falling out of the loop leaves `node_data` unbound -/
def findPrio (key : P) : Nat → Option Addr → M V P Addr
  | _, none => M.throw .unboundLocalError
  | 0, some _ => M.throw .diverge
  | fuel + 1, some a => do
    let nd ← nodeAt a
    if nd.ext = key then M.pure a else findPrio key fuel nd.next

/-- the non-empty branch of `dequeue` — priority_queue.py:479-496: the data returned and the new
value of the cache that is recomputed -/
def pqTake (fuel : Nat) (lowest : Bool) (key : P) (l : Addr) : M V P (Option V × P) := do
  let o ← getList l
  let n ← findPrio key fuel o.head
  let d ← getData (some n)
  let p ← getPrev (some n)
  removeNode .dll l p n
  let c ← updatePrio fuel lowest l
  M.pure (d, c)

/-- `dequeue(lowest_priority)` — priority_queue.py:439-496 -/
def PQueue.dequeue (q : PQueue V P) (lowest : Bool) : CRes V × PQueue V P :=
  match isEmpty q.cont q.heap with
  | (.error e, h) => (.error e, { q with heap := h })
  | (.ok true, h) => (.ok (.item none, true), { q with heap := h })
  | (.ok false, h) =>
    match pqTake (h.nNodes + 1) lowest (if lowest then q.minP else q.maxP) q.cont h with
    | (.error e, h') => (.error e, { q with heap := h' })
    | (.ok (d, c), h') =>
      (.ok (.item d, false),
        if lowest then { q with heap := h', minP := c } else { q with heap := h', maxP := c })

/-- `PriorityQueue(max_capacity)` — priority_queue.py:193-195 -/
def PQueue.init [Inhabited P] (c : CapArg) : Except Err (PQueue V P) := do
  let q ← (Queue.init c : Except Err (Queue V P))
  .ok ⟨q.heap, q.cont, q.cap, ⊤, ⊥⟩

/-- run a call on the container -/
def PQueue.run {α : Type} (q : PQueue V P) (m : M V P α) (f : α → CVal V × Bool) :
    CRes V × PQueue V P :=
  match m q.heap with
  | (.error e, h) => (.error e, { q with heap := h })
  | (.ok a, h) => (.ok (f a), { q with heap := h })

/-- one call.  `top` priority_queue.py:406, `__len__` :250, `is_empty` :272, `is_full` :298,
`__repr__` :226 (`_represent` :133-136 with `SHOW_PRIORITY` off), `clear` :528, which runs
`PriorityQueue.__init__` again. -/
def PQueue.exec [PyShow V] (op : PQOp V P) (q : PQueue V P) : CRes V × PQueue V P :=
  match op with
  | .enqueue item prio => q.enqueue item prio
  | .dequeue lowest => q.dequeue lowest
  | .top => q.run (qTop q.cont) (fun d => (.item d, false))
  | .len => q.run (llLen q.cont) (fun n => (.nat n, false))
  | .isEmpty => q.run (isEmpty q.cont) (fun b => (.bool b, false))
  | .isFull => q.run (qIsFull q.cont q.cap) (fun b => (.bool b, false))
  | .clear =>
    match (newList : M V P Addr) q.heap with
    | (.ok l, h) => (.ok (.unit, false), { q with heap := h, cont := l, minP := ⊤, maxP := ⊥ })
    | (.error e, h) => (.error e, { q with heap := h })
  | .repr => q.run (qRepr (q.heap.nNodes + 1) '⟶' (fun nd => showData nd.data) q.cont)
      (fun t => (.text t, false))

/-- a history of calls on one priority queue -/
def PQueue.execs [PyShow V] : List (PQOp V P) → PQueue V P → List (CRes V) × PQueue V P
  | [], q => ([], q)
  | op :: ops, q =>
    let (r, q') := q.exec op
    let (rs, q'') := PQueue.execs ops q'
    (r :: rs, q'')

end Extra
