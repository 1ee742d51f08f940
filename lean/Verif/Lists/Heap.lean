import Verif.Py

/-!
# The Python object heap used by the linked lists

Nodes and list objects live in a heap indexed by addresses; a Python variable that holds a
node or `None` is an `Option Addr`.  A computation maps a heap to a result (a value or an
exception) *and* the heap it leaves behind, so that the state after an exception is visible.
-/

namespace Extra

/-- addresses of heap objects -/
notation "Addr" => Nat

/-- A node object.  `ext` holds whatever a subclass adds (`_priority` for `PriorityNode`,
`_down` for `SkipNode`).  `prev` is only meaningful for `DoublyNode`.
`data = none` is Python's `_data = None`, which the code writes into dead heads.
/repo/extra/lists/linked_list.py:17-40, /repo/extra/lists/doubly_linked_list.py:16-39 -/
structure Node (V X : Type) where
  data : Option V
  next : Option Addr
  prev : Option Addr
  ext : X

/-- A list object: the attributes `_head`, `_tail` (only used by `DoublyLinkedList`) and
`_length`. /repo/extra/lists/linked_list.py:221-222, doubly_linked_list.py:205-207 -/
structure LObj where
  head : Option Addr
  tail : Option Addr
  length : Nat
  deriving DecidableEq, Repr

/-- The heap.  Addresses `≥ nNodes` (`≥ nLists`) are not allocated yet. -/
structure Heap (V X : Type) where
  node : Addr → Node V X
  lobj : Addr → LObj
  nNodes : Addr
  nLists : Addr

/-- Stateful computations that may raise; the heap survives an exception. -/
def M (V X α : Type) : Type := Heap V X → Except Err α × Heap V X

namespace M
variable {V X α β : Type}

def pure (a : α) : M V X α := fun h => (.ok a, h)

def bind (m : M V X α) (f : α → M V X β) : M V X β := fun h =>
  match m h with
  | (.ok a, h') => f a h'
  | (.error e, h') => (.error e, h')

def throw (e : Err) : M V X α := fun h => (.error e, h)

instance : Monad (M V X) where
  pure := pure
  bind := bind

/-- run a pure check -/
def lift : Except Err α → M V X α
  | .ok a => pure a
  | .error e => throw e

end M

variable {V X : Type}

/-- pointwise update of a store -/
def upd {β : Type} (f : Addr → β) (a : Addr) (b : β) : Addr → β :=
  fun x => if x = a then b else f x

def Heap.setNode (h : Heap V X) (a : Addr) (n : Node V X) : Heap V X :=
  { h with node := upd h.node a n }

def Heap.setList (h : Heap V X) (l : Addr) (o : LObj) : Heap V X :=
  { h with lobj := upd h.lobj l o }

/-- Using an attribute of `None` raises `AttributeError`. -/
def deref : Option Addr → M V X Addr
  | none => M.throw .attributeError
  | some a => M.pure a

/-- `node.get_data()` — linked_list.py:60-69 -/
def getData (p : Option Addr) : M V X (Option V) := do
  let a ← deref p
  fun h => (.ok (h.node a).data, h)

/-- `node.get_next()` — linked_list.py:90-99 -/
def getNext (p : Option Addr) : M V X (Option Addr) := do
  let a ← deref p
  fun h => (.ok (h.node a).next, h)

/-- `node.get_prev()` — doubly_linked_list.py:60-70 -/
def getPrev (p : Option Addr) : M V X (Option Addr) := do
  let a ← deref p
  fun h => (.ok (h.node a).prev, h)

/-- assignment to the attribute `_next` alone -/
def setNextRaw (a : Addr) (b : Option Addr) : M V X Unit := fun h =>
  (.ok (), h.setNode a { h.node a with next := b })

/-- assignment to the attribute `_prev` alone -/
def setPrevRaw (a : Addr) (b : Option Addr) : M V X Unit := fun h =>
  (.ok (), h.setNode a { h.node a with prev := b })

/-- assignment to the attribute `_data` alone (no validation) -/
def setDataRaw (a : Addr) (d : Option V) : M V X Unit := fun h =>
  (.ok (), h.setNode a { h.node a with data := d })

/-- `self._length`, `self._head`, `self._tail` -/
def getList (l : Addr) : M V X LObj := fun h => (.ok (h.lobj l), h)

def setHead (l : Addr) (p : Option Addr) : M V X Unit := fun h =>
  (.ok (), h.setList l { h.lobj l with head := p })

def setTail (l : Addr) (p : Option Addr) : M V X Unit := fun h =>
  (.ok (), h.setList l { h.lobj l with tail := p })

def setLength (l : Addr) (n : Nat) : M V X Unit := fun h =>
  (.ok (), h.setList l { h.lobj l with length := n })

/-- `Node(item)` / `DoublyNode(item)` / ... for an already validated item: allocates a node
holding the normalised item, with no neighbours — linked_list.py:22-40,
doubly_linked_list.py:21-39 -/
def newNode [PyData V] (x : X) (v : V) : M V X Addr := fun h =>
  (.ok h.nNodes,
    { h with
      node := upd h.node h.nNodes { data := some (PyData.norm v), next := none, prev := none, ext := x }
      nNodes := h.nNodes + 1 })

/-- `K()` — an empty list object: linked_list.py:220-222, doubly_linked_list.py:204-207 -/
def newList : M V X Addr := fun h =>
  (.ok h.nLists,
    { h with
      lobj := upd h.lobj h.nLists { head := none, tail := none, length := 0 }
      nLists := h.nLists + 1 })

/-- the empty heap -/
def Heap.empty [Inhabited X] : Heap V X where
  node := fun _ => { data := none, next := none, prev := none, ext := default }
  lobj := fun _ => { head := none, tail := none, length := 0 }
  nNodes := 0
  nLists := 0

end Extra
