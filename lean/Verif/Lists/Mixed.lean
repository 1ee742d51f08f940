import Verif.Lists.LinkedList

/-!
# A `LinkedList()` that holds the nodes of a `DoublyLinkedList()`

`DoublyLinkedList` and `CircularLinkedList` are subclasses of `LinkedList`, so
`LinkedList(dll)` and `ll.extend(dll)` pass the test `isinstance(other, self.__class__)` and put
the `DoublyNode()`s of the other list into a `LinkedList()`.  From then on the class of a *node*,
not the class of the list, decides what `set_next` does.

In the heap of this file a node carries its class: `ext = true` for a `DoublyNode()`, `false` for a
`Node()` (so a node made by a `LinkedList()` gets `default = false`).  The functions below repeat
those of `LinkedList.lean` that reach `set_next`, for a list of class `LinkedList`, with
`set_next` chosen by the class of the node.  All other methods (`len`, `in`, `ll[i]`, `to_list`,
comparisons, `ll[i] = x`, `clear`, ...) never call it and are those of `LinkedList.lean` for
`Kind.ll`.
-/

namespace Extra
variable {V : Type} [PyData V]

/-- `isinstance(node, DoublyNode)` -/
def isDoubly (a : Addr) : M V Bool Bool := fun h => (.ok (h.node a).ext, h)

/-- `node.set_next(other)`, by the class of the node.  `Node.set_next` takes any node
(linked_list.py:101-121); `DoublyNode.set_next` refuses what is not a `DoublyNode`
(doubly_linked_list.py:96-118). -/
def setNextX (a : Addr) (b : Option Addr) : M V Bool Unit := do
  let c ← isDoubly a
  if c then
    match b with
    | none => setNextRaw a none
    | some b => do
      let c' ← isDoubly b
      if c' then do
        setNextRaw a (some b)
        setPrevRaw b (some a)
      else M.throw .typeError
  else setNextRaw a b

/-- `LinkedList._insert_node` — linked_list.py:1140-1187 -/
def xInsertNode (l : Addr) (prev : Option Addr) (n : Addr) : M V Bool Addr := do
  let o ← getList l
  if o.length = 0 then do
    setNextX n none
    setHead l (some n)
  else match prev with
    | none => do
      setNextX n o.head
      setHead l (some n)
    | some p => do
      let pn ← getNext (some p)
      setNextX n pn
      setNextX p (some n)
  setLength l (o.length + 1)
  M.pure n

/-- `_insert_value` — linked_list.py:1189-1224: the new node is a `Node()` -/
def xInsertValue (l : Addr) (prev : Option Addr) (v : V) : M V Bool Addr := do
  let n ← newNode false v
  xInsertNode l prev n

/-- `_insert` — linked_list.py:1226-1263 -/
def xInsertAt (l : Addr) (idx : Nat) (v : V) : M V Bool Unit := do
  let (prev, _) ← getNode .ll l idx
  let _ ← xInsertValue l prev v
  M.pure ()

/-- `add_front` — linked_list.py:1265-1292 -/
def xAddFront (l : Addr) (item : Item V) : M V Bool Unit := do
  let v ← M.lift (validateItem item)
  xInsertAt l 0 v

/-- `add_end` — linked_list.py:1294-1321 -/
def xAddEnd (l : Addr) (item : Item V) : M V Bool Unit := do
  let v ← M.lift (validateItem item)
  let n ← llLen l
  xInsertAt l n v

/-- `insert` — linked_list.py:1323-1366 -/
def xInsert (l : Addr) (idx : Idx) (item : Item V) : M V Bool Unit := do
  validateIndex .ll l idx false false
  let v ← M.lift (validateItem item)
  xInsertAt l idx.toNat v

/-- `extend` — linked_list.py:1368-1414, for an `other` that is a `LinkedList()`, a
`DoublyLinkedList()` or a `CircularLinkedList()` -/
def xExtend (l other : Addr) : M V Bool Unit := do
  let oo ← getList other
  let o ← getList l
  if oo.length = 0 then M.pure ()
  else if o.length = 0 then do
    setHead l oo.head
    setLength l oo.length
  else do
    let (last, _) ← getNode .ll l o.length
    let last ← deref last
    setNextX last oo.head
    setLength l (o.length + oo.length)

/-- `LinkedList._remove_node` — linked_list.py:1493-1539 -/
def xRemoveNode (l : Addr) (prev : Option Addr) (n : Addr) : M V Bool Unit := do
  let o ← getList l
  let nx ← getNext (some n)
  match prev with
  | none => do
    let hd ← deref o.head
    if o.length = 1 then setDataRaw hd none
    else do
      let nnx ← getNext nx
      setNextX hd nnx
      let d ← getData nx
      setData hd d
  | some p => setNextX p nx
  setLength l (o.length - 1)

/-- `_remove_idx` — linked_list.py:1541-1574 -/
def xRemoveIdx (l : Addr) (idx : Nat) : M V Bool Unit := do
  let (prev, node) ← getNode .ll l idx
  let n ← assertSome node
  xRemoveNode l prev n

/-- `del ll[i]` — linked_list.py:1576-1613 -/
def xDelItem (l : Addr) (idx : Idx) : M V Bool Unit := do
  validateIndex .ll l idx false false
  let o ← getList l
  if idx = .int o.length then M.throw .indexError else xRemoveIdx l idx.toNat

/-- `remove_front` — linked_list.py:1615-1635 -/
def xRemoveFront (l : Addr) : M V Bool Unit := do
  let e ← isEmpty l
  if e then M.pure () else xDelItem l (.int 0)

/-- `remove_end` — linked_list.py:1637-1658 -/
def xRemoveEnd (l : Addr) : M V Bool Unit := do
  let e ← isEmpty l
  if e then M.pure () else do
    let o ← getList l
    xDelItem l (.int ((o.length : Int) - 1))

/-- the loop of `_remove_value` — linked_list.py:1700-1715 -/
def xRemoveValueLoop (l : Addr) (v : V) (all : Bool) :
    Nat → Option Addr → Option Addr → Bool → M V Bool Unit
  | 0, _, _, _ => M.pure ()
  | n + 1, prev, curr, found =>
    if all = false ∧ found = true then M.pure ()
    else do
      let d ← getData curr
      if d = some v then do
        let c ← deref curr
        xRemoveNode l prev c
        let curr' ← nextAfter l prev
        xRemoveValueLoop l v all n prev curr' true
      else do
        let nx ← getNext curr
        xRemoveValueLoop l v all n curr nx found

/-- `remove(value, all)` — linked_list.py:1717-1761; `none` stands for a non-boolean `all` -/
def xRemove (l : Addr) (item : Item V) (all : Option Bool) : M V Bool Unit :=
  match all with
  | none => M.throw .typeError
  | some all => do
    let v ← M.lift (validateItem item)
    let o ← getList l
    xRemoveValueLoop l v all o.length none o.head false

/-- the calls that change a `LinkedList()` in place and involve no other list -/
inductive XOp (V : Type)
  | addFront (it : Item V)
  | addEnd (it : Item V)
  | insert (i : Idx) (it : Item V)
  | setItem (i : Idx) (it : Item V)
  | delItem (i : Idx)
  | removeFront
  | removeEnd
  | remove (it : Item V) (all : Option Bool)
  | clear
  deriving DecidableEq

/-- one call on the `LinkedList()` at `l`; what `ll[i] = x` and `clear` do does not depend on the
class of the nodes (linked_list.py:1442-1490, :1763-1782) -/
def xStep (l : Addr) : XOp V → M V Bool Unit
  | .addFront it => xAddFront l it
  | .addEnd it => xAddEnd l it
  | .insert i it => xInsert l i it
  | .setItem i it => Extra.setItem .ll l i it
  | .delItem i => xDelItem l i
  | .removeFront => xRemoveFront l
  | .removeEnd => xRemoveEnd l
  | .remove it all => xRemove l it all
  | .clear => Extra.clear l

/-- a run of calls: the results, and the heap at the end -/
def xSteps (l : Addr) : List (XOp V) → Heap V Bool → List (Except Err Unit) × Heap V Bool
  | [], h => ([], h)
  | op :: ops, h =>
    let (r, h1) := xStep l op h
    let (rs, h2) := xSteps l ops h1
    (r :: rs, h2)

/-- `DoublyLinkedList(items)`: the nodes that are made on the way are `DoublyNode()`s
(`_basic_node = DoublyNode`, doubly_linked_list.py:130, :219-224) -/
def xMakeDoubly (items : List (Item V)) : M V Bool Addr := fun h =>
  let (r, h') := initFrom .dll items h
  (r, { h' with node := fun a =>
    if h.nNodes ≤ a ∧ a < h'.nNodes then { h'.node a with ext := true } else h'.node a })

/-- the classes of lists, and everything else -/
inductive ListClass
  | ll | dll | cll | other
  deriving DecidableEq, Repr

/-- `issubclass(c, d)` for the classes of lists: `class DoublyLinkedList(LinkedList)`
(doubly_linked_list.py:121), `class CircularLinkedList(LinkedList)` (circular_linked_list.py:15) -/
def ListClass.sub : ListClass → ListClass → Bool
  | .ll, .ll => true
  | .dll, .dll | .dll, .ll => true
  | .cll, .cll | .cll, .ll => true
  | .other, .other => true
  | _, _ => false

/-- Does `a == b` (and `!=`, `<`, `<=`, `>`, `>=`) raise for the classes of its operands?  Python
asks the right operand first if its class is a proper subclass of the left one's; every comparison
method begins with `isinstance(other, self.__class__)` — linked_list.py:579-582, :628-631, :690-693,
:753-756, :813-816, :876-879.  An operand that is no list of this library is taken to answer
`NotImplemented`, so that the list is asked.  (`none`: neither operand is a list.) -/
def compareRaises (a b : ListClass) : Option Bool :=
  if a = .other ∧ b = .other then none
  else if a = .other then some (!a.sub b)
  else if b ≠ .other ∧ b ≠ a ∧ b.sub a then some (!a.sub b)
  else some (!b.sub a)

/-- Does `a.extend(b)` raise `TypeError` for the class of `b`, before it touches anything?  All three
`extend` begin with `isinstance(other, self.__class__)` — linked_list.py:1401-1405,
doubly_linked_list.py:987-991, circular_linked_list.py:864-868 -/
def extendRaises (a b : ListClass) : Bool := !b.sub a

end Extra
