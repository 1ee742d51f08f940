import Verif.Lists.Bounded

/-!
# `Queue` and `Deque` — /repo/extra/lists/queue.py, /repo/extra/lists/deque.py

Both keep their items in a `DoublyLinkedList`, here the pointer-level one of
Verif/Lists/LinkedList.lean.
-/

namespace Extra
variable {V X : Type} [PyData V] [Inhabited X]

/-- the classes -/
inductive QClass
  | queue
  | deque
  deriving DecidableEq

/-- a queue object: `_container` and `_max_capacity` — queue.py:72-75 — in its heap -/
structure Queue (V X : Type) where
  heap : Heap V X
  cont : Addr
  cap : Option Nat

/-- a call of the public API; the last three exist on `Deque` only.  `append_left`, `get_right` and
`pop_right` of `Deque` are `enqueue`, `top` and `dequeue` — deque.py:202, :319, :394. -/
inductive QOp (V : Type)
  | enqueue (item : Item V)
  | dequeue
  | top
  | len
  | isEmpty
  | isFull
  | clear
  | repr
  | appendRight (item : Item V)
  | popLeft
  | getLeft
  deriving DecidableEq

/-- `is_full` — queue.py:218 -/
def qIsFull (l : Addr) (cap : Option Nat) : M V X Bool := do
  let n ← llLen l
  M.pure (atCap n cap)

/-- `self._max_capacity > 0` -/
def capPos : Option Nat → Bool
  | none => true
  | some c => 0 < c

/-- `if b: m` -/
def whenM (b : Bool) (m : M V X Unit) : M V X Unit := if b then m else M.pure ()

/-- `_enqueue` of a value — queue.py:260-269; the result says whether a warning was issued -/
def qEnqueueValue (l : Addr) (cap : Option Nat) (v : V) : M V X Bool := do
  let full ← qIsFull l cap
  whenM full (removeEnd .dll l)
  whenM (capPos cap) (insertAt .dll l 0 v)
  M.pure full

/-- `enqueue` — queue.py:312-313 -/
def qEnqueue (l : Addr) (cap : Option Nat) (item : Item V) : M V X Bool := do
  let v ← M.lift (validateItem item)
  qEnqueueValue l cap v

/-- `append_right` — deque.py:245-254 -/
def qAppendRight (l : Addr) (cap : Option Nat) (item : Item V) : M V X Bool := do
  let v ← M.lift (validateItem item)
  let full ← qIsFull l cap
  whenM full (removeFront .dll l)
  whenM (capPos cap) (do
    let n ← llLen l
    insertAt .dll l n v)
  M.pure full

/-- `top` — queue.py:345-349 -/
def qTop (l : Addr) : M V X (Option V) := do
  let e ← isEmpty l
  if e then M.throw .indexError else do
    let o ← getList l
    getData o.tail

/-- `get_left` — deque.py:285-289 -/
def qGetLeft (l : Addr) : M V X (Option V) := do
  let e ← isEmpty l
  if e then M.throw .indexError else do
    let o ← getList l
    getData o.head

/-- `dequeue` — queue.py:384-392 -/
def qDequeue (l : Addr) : M V X (Option V × Bool) := do
  let e ← isEmpty l
  if e then M.pure (none, true) else do
    let o ← getList l
    let d ← getData o.tail
    removeEnd .dll l
    M.pure (d, false)

/-- `pop_left` — deque.py:354-360 -/
def qPopLeft (l : Addr) : M V X (Option V × Bool) := do
  let e ← isEmpty l
  if e then M.pure (none, true) else do
    let o ← getList l
    let d ← getData o.head
    removeFront .dll l
    M.pure (d, false)

/-- the node object at an address, all attributes at once -/
def nodeAt (a : Addr) : M V X (Node V X) := fun h => (.ok (h.node a), h)

/-- the loop of `_print_queue`: `while curr_node is not None` — queue.py:113-120; it has no counter,
hence the fuel -/
def shownLoop : Nat → Option Addr → M V X (List (Node V X))
  | _, none => M.pure []
  | 0, some _ => M.throw .diverge
  | fuel + 1, some a => do
    let nd ← nodeAt a
    let rest ← shownLoop fuel nd.next
    M.pure (nd :: rest)

/-- `str(self._data)` — linked_list.py:142 -/
def showData [PyShow V] : Option V → List Char
  | none => ['N', 'o', 'n', 'e']
  | some v => PyShow.str v

/-- `_print_queue(direction_char)` — queue.py:110-126; `repr1` is `_represent` of a node -/
def qRepr (fuel : Nat) (dir : Char) (repr1 : Node V X → List Char) (l : Addr) :
    M V X (List (List Char)) := do
  let o ← getList l
  let nds ← shownLoop fuel o.head
  let (t, m, d) := cellLines ['─', '┬'] [dir, '│'] ['─', '┴'] (nds.map repr1)
  let e ← isEmpty l
  M.pure (if e then [t, m, d] else [t ++ ['─'], m ++ [dir], d ++ ['─']])

/-- the direction character of `__repr__` — queue.py:147, deque.py:83 -/
def QClass.dir : QClass → Char
  | .queue => '⟶'
  | .deque => '⟷'

/-- `Queue(max_capacity)` — queue.py:64-75 -/
def Queue.init (c : CapArg) : Except Err (Queue V X) := do
  let cap ← initCap c
  match (newList : M V X Addr) Heap.empty with
  | (.ok l, h) => .ok ⟨h, l, cap⟩
  | (.error e, _) => .error e

/-- run a call on the container -/
def Queue.run {α : Type} (q : Queue V X) (m : M V X α) (f : α → CVal V × Bool) :
    CRes V × Queue V X :=
  match m q.heap with
  | (.error e, h) => (.error e, { q with heap := h })
  | (.ok a, h) => (.ok (f a), { q with heap := h })

/-- one call.  `__len__` queue.py:171, `is_empty` :193, `clear` :423
(`self.__init__(max_capacity=...)`, which makes a new container). -/
def Queue.exec [PyShow V] (c : QClass) (op : QOp V) (q : Queue V X) : CRes V × Queue V X :=
  match op with
  | .enqueue item => q.run (qEnqueue q.cont q.cap item) (fun w => (.unit, w))
  | .dequeue => q.run (qDequeue q.cont) (fun r => (.item r.1, r.2))
  | .top => q.run (qTop q.cont) (fun d => (.item d, false))
  | .len => q.run (llLen q.cont) (fun n => (.nat n, false))
  | .isEmpty => q.run (isEmpty q.cont) (fun b => (.bool b, false))
  | .isFull => q.run (qIsFull q.cont q.cap) (fun b => (.bool b, false))
  | .clear =>
    match (newList : M V X Addr) q.heap with
    | (.ok l, h) => (.ok (.unit, false), { q with heap := h, cont := l })
    | (.error e, h) => (.error e, { q with heap := h })
  | .repr => q.run (qRepr (q.heap.nNodes + 1) c.dir (fun nd => showData nd.data) q.cont)
      (fun t => (.text t, false))
  | .appendRight item =>
    if c = .deque then q.run (qAppendRight q.cont q.cap item) (fun w => (.unit, w))
    else (.error .attributeError, q)
  | .popLeft =>
    if c = .deque then q.run (qPopLeft q.cont) (fun r => (.item r.1, r.2))
    else (.error .attributeError, q)
  | .getLeft =>
    if c = .deque then q.run (qGetLeft q.cont) (fun d => (.item d, false))
    else (.error .attributeError, q)

/-- a history of calls on one queue -/
def Queue.execs [PyShow V] (c : QClass) : List (QOp V) → Queue V X → List (CRes V) × Queue V X
  | [], q => ([], q)
  | op :: ops, q =>
    let (r, q') := q.exec c op
    let (rs, q'') := Queue.execs c ops q'
    (r :: rs, q'')

end Extra
