import Verif.Lists.Heap

/-!
# `LinkedList`, `DoublyLinkedList` and `CircularLinkedList`

Pointer-level transcription of /repo/extra/lists/linked_list.py,
/repo/extra/lists/doubly_linked_list.py and /repo/extra/lists/circular_linked_list.py.
The three classes share most methods by inheritance; `Kind` selects the class and the
functions with a `match` on it are the overridden (virtual) methods.

Not modelled here: mixing list classes in one chain (`LinkedList(dll)`: see `Mixed.lean`), `repr`
(see `Draw.lean`), the `TypeError` for arguments of a foreign class in `extend` and the comparisons
(for the comparisons see `Mixed.lean`), and node objects as arguments.
-/

namespace Extra

inductive Kind
  | ll   -- LinkedList
  | dll  -- DoublyLinkedList
  | cll  -- CircularLinkedList
  deriving DecidableEq, Repr

/-- An index argument: an `int`, a `slice(start, stop, step)` or anything else. -/
inductive Idx
  | int (i : Int)
  | slice (start stop step : Option Int)
  | other
  deriving DecidableEq, Repr

section
variable {V X : Type} [PyData V] [Inhabited X]

/-- `node.set_next(other)`: `Node.set_next` (linked_list.py:101-121) writes `_next`;
`DoublyNode.set_next` (doubly_linked_list.py:96-118) also writes the other node's `_prev`.
All nodes of a list have the list's node class, so the type checks always pass. -/
def setNext (k : Kind) (a : Addr) (b : Option Addr) : M V X Unit :=
  match k, b with
  | .dll, some b => do
    setNextRaw a (some b)
    setPrevRaw b (some a)
  | _, b => setNextRaw a b

/-- `DoublyNode.set_prev` — doubly_linked_list.py:72-94 -/
def setPrev (a : Addr) (b : Option Addr) : M V X Unit :=
  match b with
  | none => setPrevRaw a none
  | some b => do
    setPrevRaw a (some b)
    setNextRaw b (some a)

/-- `node.set_data(data)` — linked_list.py:71-88.  `data` is a value read from another node,
so it is `None` or an already storable value. -/
def setData (a : Addr) (d : Option V) : M V X Unit :=
  match d with
  | none => M.throw .valueError
  | some v => setDataRaw a (some (PyData.norm v))

/-- `assert value is not None` -/
def assertSome {α : Type} : Option α → M V X α
  | none => M.throw .assertionError
  | some a => M.pure a

/-! ## Length and iteration -/

/-- `__len__` — linked_list.py:404-423 (doubly: 302-321, circular: 147-166) -/
def llLen (l : Addr) : M V X Nat := do
  let o ← getList l
  M.pure o.length

/-- `is_empty` — linked_list.py:425-445 (doubly: 323-344, circular: 168-189) -/
def isEmpty (l : Addr) : M V X Bool := do
  let o ← getList l
  M.pure (o.length == 0)

/-- the loop of `__iter__`, run to the end: `n` more items from `curr`.
linked_list.py:468-473 -/
def iterLoop : Nat → Option Addr → M V X (List (Option V))
  | 0, _ => M.pure []
  | n + 1, curr => do
    let d ← getData curr
    let nx ← getNext curr
    let rest ← iterLoop n nx
    M.pure (d :: rest)

/-- `to_list` — linked_list.py:2151-2175, through `__iter__` :448-473.
The elements are the nodes' `_data` (`none` would be Python's `None`). -/
def toList (l : Addr) : M V X (List (Option V)) := do
  let o ← getList l
  iterLoop o.length o.head

/-! ## Search -/

/-- the loop of `_search`: `while curr_node.get_next() is not None` — linked_list.py:926-931.
The loop has no counter, hence the fuel. -/
def searchLoop (v : V) : Nat → Option Addr → M V X (Option Addr)
  | 0, _ => M.throw .diverge
  | fuel + 1, curr => do
    let nx ← getNext curr
    match nx with
    | none => M.pure curr
    | some _ => do
      let d ← getData curr
      if d = some v then M.pure curr else searchLoop v fuel nx

/-- the loop of `CircularLinkedList.__contains__` — circular_linked_list.py:548-551 -/
def anyLoop (v : Option V) : Nat → Option Addr → M V X Bool
  | 0, _ => M.pure false
  | n + 1, curr => do
    let d ← getData curr
    if d = v then M.pure true else do
      let nx ← getNext curr
      anyLoop v n nx

/-- `value in ll` — linked_list.py:933-965; circular_linked_list.py:520-551.
`none` is Python's `None`. -/
def contains (k : Kind) (fuel : Nat) (l : Addr) (v : Option V) : M V X Bool :=
  match k with
  | .cll => do
    let o ← getList l
    anyLoop v o.length o.head
  | _ =>
    match v with
    | none => M.pure false
    | some v => do
      let o ← getList l
      if o.length = 0 then M.pure false else do
        let found ← searchLoop v fuel o.head
        let d ← getData found
        M.pure (decide (d = some v))

/-- forward walk of `_get_node`: `n` more steps — linked_list.py:1000-1007 -/
def getNodeLoop : Nat → Option Addr → Option Addr → M V X (Option Addr × Option Addr)
  | 0, prev, curr => M.pure (prev, curr)
  | n + 1, _, curr => do
    let nx ← getNext curr
    getNodeLoop n curr nx

/-- backward walk of `DoublyLinkedList._get_node` — doubly_linked_list.py:738-742 -/
def backLoop : Nat → Option Addr → M V X (Option Addr)
  | 0, curr => M.pure curr
  | n + 1, curr => do
    let p ← getPrev curr
    backLoop n p

/-- `_get_node(idx)` — linked_list.py:967-1007; doubly_linked_list.py:699-745 -/
def getNode (k : Kind) (l : Addr) (idx : Nat) : M V X (Option Addr × Option Addr) := do
  let o ← getList l
  match k with
  | .dll =>
    if idx ≤ o.length / 2 then getNodeLoop idx none o.head
    else do
      let prev ← backLoop (o.length - idx) o.tail
      let curr ← getNext prev
      M.pure (prev, curr)
  | _ => getNodeLoop idx none o.head

/-- `_validate_index` — linked_list.py:1009-1064 (also used by the doubly linked list);
circular_linked_list.py:553-605 (no upper bound). -/
def validateIndex (k : Kind) (l : Addr) (idx : Idx) (acceptNeg acceptSlice : Bool) :
    M V X Unit :=
  match idx with
  | .slice _ _ _ => if acceptSlice then M.pure () else M.throw .indexError
  | .other => M.throw .typeError
  | .int i =>
    if i ≤ -1 ∧ acceptNeg = false then M.throw .indexError
    else match k with
      | .cll => M.pure ()
      | _ => do
        let o ← getList l
        if i < -(o.length : Int) ∨ i > (o.length : Int) then M.throw .indexError
        else M.pure ()

/-! ## Insertion -/

/-- `LinkedList._insert_node` — linked_list.py:1140-1187 -/
def insertNodeLL (l : Addr) (prev : Option Addr) (n : Addr) : M V X Addr := do
  let o ← getList l
  if o.length = 0 then do
    setNext .ll n none
    setHead l (some n)
  else match prev with
    | none => do
      setNext .ll n o.head
      setHead l (some n)
    | some p => do
      let pn ← getNext (some p)
      setNext .ll n pn
      setNext .ll p (some n)
  setLength l (o.length + 1)
  M.pure n

/-- `DoublyLinkedList._insert_node` — doubly_linked_list.py:795-856 (with `item` already a
node, as in every call that reaches it through `_insert_value` or `Queue._enqueue`) -/
def insertNodeDLL (l : Addr) (prev : Option Addr) (n : Addr) : M V X Addr := do
  let o ← getList l
  if o.length = 0 then do
    setHead l (some n)
    setTail l (some n)
  else if o.length = 1 then
    match prev with
    | none => do
      setNext .dll n o.tail
      setHead l (some n)
    | some _ => do
      setTail l (some n)
      let hd ← deref o.head
      setNext .dll hd (some n)
  else
    match prev with
    | none => do
      setNext .dll n o.head
      setHead l (some n)
    | some p => do
      let pn ← getNext (some p)
      match pn with
      | none => do
        let tl ← deref o.tail
        setNext .dll tl (some n)
        setTail l (some n)
      | some pn => do
        setNext .dll n (some pn)
        setNext .dll p (some n)
  setLength l (o.length + 1)
  M.pure n

/-- `CircularLinkedList._insert_node` — circular_linked_list.py:660-708 -/
def insertNodeCLL (l : Addr) (prev : Option Addr) (n : Addr) : M V X Addr := do
  let o ← getList l
  if o.length = 0 then do
    setNext .cll n (some n)
    setHead l (some n)
    setLength l (o.length + 1)
    M.pure n
  else match prev with
    | none => do
      let hd ← deref o.head
      let hn ← getNext (some hd)
      setNext .cll n hn
      setNext .cll hd (some n)
      -- swap the data of the new node and the head
      let dn ← getData (some n)
      let dh ← getData (some hd)
      setDataRaw n dh
      setDataRaw hd dn
      setLength l (o.length + 1)
      M.pure hd
    | some p => do
      let pn ← getNext (some p)
      setNext .cll n pn
      setNext .cll p (some n)
      setLength l (o.length + 1)
      M.pure n

/-- `_insert_node`, by class -/
def insertNode (k : Kind) (l : Addr) (prev : Option Addr) (n : Addr) : M V X Addr :=
  match k with
  | .ll => insertNodeLL l prev n
  | .dll => insertNodeDLL l prev n
  | .cll => insertNodeCLL l prev n

/-- `_insert_value` — linked_list.py:1189-1224 -/
def insertValue (k : Kind) (l : Addr) (prev : Option Addr) (v : V) : M V X Addr := do
  let n ← newNode default v
  insertNode k l prev n

/-- `_insert` — linked_list.py:1226-1263 (for a value; items that are nodes are rejected by
`_validate_item` in every public method) -/
def insertAt (k : Kind) (l : Addr) (idx : Nat) (v : V) : M V X Unit := do
  let (prev, _) ← getNode k l idx
  let _ ← insertValue k l prev v
  M.pure ()

/-- the loop of `__init__` over the items — linked_list.py:232-237,
doubly_linked_list.py:219-224. -/
def initLoop (k : Kind) (l : Addr) : Option Addr → List (Item V) → M V X Unit
  | _, [] => M.pure ()
  | prev, it :: its => do
    let v ← M.lift (validateItem it)
    let n ← insertValue k l prev v
    initLoop k l (some n) its

/-- `K(iterable)` for an iterable that is not a list of this class — linked_list.py:157-237,
doubly_linked_list.py:133-224, circular_linked_list.py:26-92 -/
def initFrom (k : Kind) (items : List (Item V)) : M V X Addr := do
  let l ← newList
  initLoop k l none items
  M.pure l

/-- `K(other)` for `other` of the same class: the new object *shares* the nodes —
linked_list.py:225-228, doubly_linked_list.py:210-214 -/
def initAlias (k : Kind) (other : Addr) : M V X Addr := do
  let l ← newList
  let o ← getList other
  setHead l o.head
  setLength l o.length
  match k with
  | .dll => setTail l o.tail
  | _ => M.pure ()
  M.pure l

/-- `add_front` — linked_list.py:1265-1292 -/
def addFront (k : Kind) (l : Addr) (item : Item V) : M V X Unit := do
  let v ← M.lift (validateItem item)
  insertAt k l 0 v

/-- `add_end` — linked_list.py:1294-1321 -/
def addEnd (k : Kind) (l : Addr) (item : Item V) : M V X Unit := do
  let v ← M.lift (validateItem item)
  let n ← llLen l
  insertAt k l n v

/-- the non-negative integer an accepted index denotes -/
def Idx.toNat : Idx → Nat
  | .int i => i.toNat
  | _ => 0

/-- `idx % m` for a validated index and `m ≥ 0`; `idx % 0` never evaluated by the code
(`if self._length != 0 else 0`) -/
def Idx.mod (i : Idx) (m : Nat) : Nat := if m ≠ 0 then i.toNat % m else 0

/-- `insert` — linked_list.py:1323-1366; circular_linked_list.py:771-823 -/
def insert (k : Kind) (l : Addr) (idx : Idx) (item : Item V) : M V X Unit := do
  validateIndex k l idx false false
  let v ← M.lift (validateItem item)
  match k with
  | .cll => do
    let o ← getList l
    insertAt k l (idx.mod (o.length + 1)) v
  | _ => insertAt k l idx.toNat v

/-- the insertion loop of `CircularLinkedList.extend` — circular_linked_list.py:876-880.
`for item in other` re-reads `other._length` before each item (linked_list.py:470), hence the
fuel: the loop need not terminate when `other` is the list being extended. -/
def extendLoopCLL (l other : Addr) :
    Nat → Nat → Option Addr → Option Addr → M V X Unit
  | 0, _, _, _ => M.throw .diverge
  | fuel + 1, counter, curr, prev => do
    let o ← getList other
    if counter < o.length then do
      let d ← getData curr
      let v ← (match d with
        | none => M.throw .valueError  -- `Node(None)`
        | some v => M.pure v)
      let n ← newNode default v
      let _ ← insertNodeCLL l prev n
      let nx ← getNext curr
      extendLoopCLL l other fuel (counter + 1) nx (some n)
    else M.pure ()

/-- `extend` for another list of the same class — linked_list.py:1368-1414;
doubly_linked_list.py:959-1001; circular_linked_list.py:825-880 -/
def extend (k : Kind) (fuel : Nat) (l other : Addr) : M V X Unit := do
  let oo ← getList other
  let o ← getList l
  if oo.length = 0 then M.pure ()
  else match k with
    | .ll =>
      if o.length = 0 then do
        setHead l oo.head
        setLength l oo.length
      else do
        let (last, _) ← getNode .ll l o.length
        let last ← deref last
        setNext .ll last oo.head
        setLength l (o.length + oo.length)
    | .dll =>
      if o.length = 0 then do
        setHead l oo.head
        setTail l oo.tail
        setLength l (o.length + oo.length)
      else do
        let tl ← deref o.tail
        setNext .dll tl oo.head
        setTail l oo.tail
        setLength l (o.length + oo.length)
    | .cll => do
      let start := if o.length = 0 then none else o.head
      let (_, last) ← getNodeLoop (o.length - 1) none start
      extendLoopCLL l other fuel 0 oo.head last

/-! ## Reading and writing by index -/

/-- `slice.indices(length)` restricted to what `range(*...)` needs: CPython's
`PySlice_AdjustIndices`.  Returns `(start, stop, step)`; a zero step raises `ValueError`. -/
def sliceIndices (start stop step : Option Int) (length : Nat) : Except Err (Int × Int × Int) :=
  let n : Int := length
  let st : Int := step.getD 1
  if st = 0 then .error .valueError
  else
    let lower : Int := if st < 0 then -1 else 0
    let upper : Int := if st < 0 then n - 1 else n
    let clip (i : Int) : Int :=
      if i < 0 then max (i + n) lower else min i upper
    let s := match start with
      | none => if st < 0 then upper else lower
      | some i => clip i
    let e := match stop with
      | none => if st < 0 then lower else upper
      | some i => clip i
    .ok (s, e, st)

/-- `range(start, stop, step)` as a list of numbers (language semantics), `step ≠ 0` -/
def pyRangeAux (stop step : Int) : Nat → Int → List Int
  | 0, _ => []
  | fuel + 1, i =>
    if (0 < step ∧ i < stop) ∨ (step < 0 ∧ stop < i) then i :: pyRangeAux stop step fuel (i + step)
    else []

/-- `range(start, stop, step)`: at most `|stop - start|` numbers -/
def pyRange (start stop step : Int) : List Int :=
  pyRangeAux stop step (stop - start).natAbs start

/-- the collecting loop of slicing — linked_list.py:1118-1128: counters `counter`,
`counter+1`, ..., `n` of them; keep those in `indices` -/
def sliceLoop (k : Kind) (out : Addr) (indices : List Int) :
    Nat → Nat → Option Addr → Option Addr → M V X Unit
  | 0, _, _, _ => M.pure ()
  | n + 1, counter, prev, curr => do
    if (counter : Int) ∈ indices then do
      let d ← getData curr
      let v ← assertSome d
      let new ← insertValue k out prev v
      let nx ← getNext curr
      sliceLoop k out indices n (counter + 1) (some new) nx
    else do
      let nx ← getNext curr
      sliceLoop k out indices n (counter + 1) prev nx

/-- `ll[start:stop:step]` for the linked and doubly linked lists — linked_list.py:1111-1128.
The circular list rejects slices (circular_linked_list.py:653). -/
def getSlice (k : Kind) (l : Addr) (start stop step : Option Int) : M V X Addr := do
  validateIndex k l (.slice start stop step) true (decide (k ≠ .cll))
  let o ← getList l
  let (s, e, st) ← M.lift (sliceIndices start stop step o.length)
  let indices := pyRange s e st
  let maxIdx : Int := indices.getLast?.getD (-1)
  let out ← newList
  sliceLoop k out indices (maxIdx + 1).toNat 0 none o.head
  M.pure out

/-- `ll[i]` for an integer index — linked_list.py:1066-1137; circular_linked_list.py:607-657 -/
def getItem (k : Kind) (l : Addr) (idx : Idx) : M V X (Option V) :=
  match k with
  | .cll => do
    validateIndex .cll l idx false false
    let o ← getList l
    if o.length = 0 then M.throw .indexError
    else do
      let (_, node) ← getNode .cll l (idx.mod o.length)
      getData node
  | k => do
    validateIndex k l idx true true
    match idx with
    | .int i => do
      let o ← getList l
      if i = (o.length : Int) then M.throw .indexError
      else do
        let j := if i ≤ -1 then i + o.length else i
        let (_, node) ← getNode k l j.toNat
        getData node
    | _ => M.throw .notImplementedError  -- slices: see `getSlice`

/-- `_replace_value` — linked_list.py:1417-1440 -/
def replaceValue (k : Kind) (l : Addr) (idx : Nat) (v : V) : M V X Unit := do
  let (_, old) ← getNode k l idx
  let a ← deref old
  setData a (some v)

/-- `ll[i] = item` — linked_list.py:1442-1490.  The circular list
(circular_linked_list.py:883-936) does not call `_validate_item`: `None` trips the assertion
of `_replace_value`, an `Extra` item the validation inside `set_data` (after the walk). -/
def setItem (k : Kind) (l : Addr) (idx : Idx) (item : Item V) : M V X Unit :=
  match k with
  | .cll => do
    validateIndex .cll l idx false false
    let o ← getList l
    match item with
    | .none => M.throw .assertionError
    | .extra => do
      let (_, old) ← getNode .cll l (idx.mod o.length)
      let _ ← deref old
      M.throw .typeError
    | .val v => replaceValue .cll l (idx.mod o.length) v
  | k => do
    validateIndex k l idx false false
    let o ← getList l
    if idx = .int o.length then M.throw .indexError
    else do
      let v ← M.lift (validateItem item)
      replaceValue k l idx.toNat v

/-! ## Removal -/

/-- `LinkedList._remove_node` — linked_list.py:1493-1539.  `super()._remove_node` in the
doubly linked list runs this code with `DoublyNode`s, hence the parameter `k`. -/
def removeNodeLL (k : Kind) (l : Addr) (prev : Option Addr) (n : Addr) : M V X Unit := do
  let o ← getList l
  let nx ← getNext (some n)
  match prev with
  | none => do
    let hd ← deref o.head
    if o.length = 1 then setDataRaw hd none
    else do
      let nnx ← getNext nx
      setNext k hd nnx
      let d ← getData nx
      setData hd d
  | some p => setNext k p nx
  setLength l (o.length - 1)

/-- `DoublyLinkedList._remove_node` — doubly_linked_list.py:1055-1110.  Note that the
one-element branch assigns an attribute `data`, not `_data`, so the node keeps its data. -/
def removeNodeDLL (l : Addr) (prev : Option Addr) (n : Addr) : M V X Unit := do
  let o ← getList l
  let nx ← getNext (some n)
  if o.length = 1 then do
    let _ ← deref o.head
    let _ ← deref o.tail
    setLength l (o.length - 1)
  else if o.length = 2 then do
    match prev with
    | none => do
      let a ← deref nx
      setPrev a none
      setHead l nx
    | some p =>
      match nx with
      | none => do
        setNext .dll p none
        setTail l (some p)
      | some _ => M.pure ()
    setLength l (o.length - 1)
  else
    match nx with
    | none => do
      let p ← deref prev
      setNext .dll p none
      setTail l prev
      setLength l (o.length - 1)
    | some _ => removeNodeLL .dll l prev n

/-- `CircularLinkedList._remove_node` — circular_linked_list.py:939-988 -/
def removeNodeCLL (l : Addr) (prev : Option Addr) (n : Addr) : M V X Unit := do
  let o ← getList l
  match prev with
  | none => do
    let hd ← deref o.head
    if o.length = 1 then setDataRaw hd none
    else do
      let nth ← getNext (some hd)
      let d ← getData nth
      setData hd d
      let nnx ← getNext nth
      setNext .cll hd nnx
  | some p => do
    let nx ← getNext (some n)
    setNext .cll p nx
  setLength l (o.length - 1)

/-- `_remove_node`, by class -/
def removeNode (k : Kind) (l : Addr) (prev : Option Addr) (n : Addr) : M V X Unit :=
  match k with
  | .ll => removeNodeLL .ll l prev n
  | .dll => removeNodeDLL l prev n
  | .cll => removeNodeCLL l prev n

/-- `_remove_idx` — linked_list.py:1541-1574 -/
def removeIdx (k : Kind) (l : Addr) (idx : Nat) : M V X Unit := do
  let (prev, node) ← getNode k l idx
  let n ← assertSome node
  removeNode k l prev n

/-- `del ll[i]` — linked_list.py:1576-1613; circular_linked_list.py:990-1035 -/
def delItem (k : Kind) (l : Addr) (idx : Idx) : M V X Unit := do
  validateIndex k l idx false false
  let o ← getList l
  match k with
  | .cll => if o.length = 0 then M.pure () else removeIdx .cll l (idx.mod o.length)
  | k => if idx = .int o.length then M.throw .indexError else removeIdx k l idx.toNat

/-- `remove_front` — linked_list.py:1615-1635 -/
def removeFront (k : Kind) (l : Addr) : M V X Unit := do
  let e ← isEmpty l
  if e then M.pure () else delItem k l (.int 0)

/-- `remove_end` — linked_list.py:1637-1658 -/
def removeEnd (k : Kind) (l : Addr) : M V X Unit := do
  let e ← isEmpty l
  if e then M.pure () else do
    let o ← getList l
    delItem k l (.int ((o.length : Int) - 1))

/-- `prev.get_next() if prev is not None else self._head` — linked_list.py:1711 -/
def nextAfter (l : Addr) : Option Addr → M V X (Option Addr)
  | some p => getNext (some p)
  | none => do
    let o ← getList l
    M.pure o.head

/-- the loop of `_remove_value` — linked_list.py:1700-1715 -/
def removeValueLoop (k : Kind) (l : Addr) (v : V) (all : Bool) :
    Nat → Option Addr → Option Addr → Bool → M V X Unit
  | 0, _, _, _ => M.pure ()
  | n + 1, prev, curr, found =>
    if all = false ∧ found = true then M.pure ()
    else do
      let d ← getData curr
      if d = some v then do
        let c ← deref curr
        removeNode k l prev c
        let curr' ← nextAfter l prev
        removeValueLoop k l v all n prev curr' true
      else do
        let nx ← getNext curr
        removeValueLoop k l v all n curr nx found

/-- `remove(value, all)` — linked_list.py:1717-1761, `_remove_value` :1660-1715.
`all = none` stands for a non-boolean argument. -/
def remove (k : Kind) (l : Addr) (item : Item V) (all : Option Bool) : M V X Unit :=
  match all with
  | none => M.throw .typeError
  | some all => do
    let v ← M.lift (validateItem item)
    let o ← getList l
    removeValueLoop k l v all o.length none o.head false

/-- `clear` — linked_list.py:1763-1782: `self.__init__()` -/
def clear (l : Addr) : M V X Unit := do
  setHead l none
  setTail l none
  setLength l 0

/-! ## Split, rotation, reverse, copy -/

/-- one of the two copying loops of `_split` — linked_list.py:1838-1848 -/
def splitLoop (k : Kind) (out : Addr) :
    Nat → Option Addr → Option Addr → M V X (Option Addr × Option Addr)
  | 0, prev, curr => M.pure (prev, curr)
  | n + 1, prev, curr => do
    let d ← getData curr
    let v ← assertSome d
    let new ← insertValue k out prev v
    let nx ← getNext curr
    splitLoop k out n (some new) nx

/-- `_split(idx)` — linked_list.py:1785-1849 -/
def splitAt (k : Kind) (l : Addr) (idx : Nat) : M V X (Addr × Addr) := do
  let left ← newList
  let right ← newList
  let o ← getList l
  if o.length = 0 then M.pure (left, right)
  else do
    let (prev, curr) ← splitLoop k left idx none o.head
    let _ ← splitLoop k right (o.length - idx) prev curr
    M.pure (left, right)

/-- `split(idx)` — linked_list.py:1851-1899; circular_linked_list.py:1162-1218 -/
def split (k : Kind) (l : Addr) (idx : Idx) : M V X (Addr × Addr) := do
  validateIndex k l idx false false
  match k with
  | .cll => do
    let o ← getList l
    splitAt .cll l (idx.mod o.length)
  | k => splitAt k l idx.toNat

/-- rotation direction -/
inductive Dir
  | left
  | right
  deriving DecidableEq, Repr

/-- `__calibrate_rotation_distance` — linked_list.py:1936-1967 -/
def calibrate (length distance : Nat) (dir : Dir) : Nat :=
  let d := if length > 0 then distance % length else 0
  match dir with
  | .left => d
  | .right => length - d

/-- `_rotate` — linked_list.py:1969-2021 -/
def rotate (k : Kind) (fuel : Nat) (l : Addr) (distance : Nat) (dir : Dir) : M V X Addr := do
  let o ← getList l
  let (left, right) ← split k l (.int (calibrate o.length distance dir))
  extend k fuel right left
  M.pure right

/-- the `inplace` argument: a `bool`, or another object with the given truth value -/
inductive Flag
  | bool (b : Bool)
  | other (truthy : Bool)
  deriving DecidableEq, Repr

/-- the `inplace` check: present in `LinkedList.rotate_left` (linked_list.py:2064-2065) and both
doubly linked rotations (doubly_linked_list.py:1354-1355, 1404-1405), absent from
`LinkedList.rotate_right` (linked_list.py:2113), which the circular list inherits. -/
def checkInplace (k : Kind) (dir : Dir) (f : Flag) : Except Err Bool :=
  match f, k, dir with
  | .bool b, _, _ => .ok b
  | .other t, .ll, .right => .ok t
  | .other t, .cll, .right => .ok t
  | .other _, _, _ => .error .typeError

/-- `rotate_left` / `rotate_right` — linked_list.py:2023-2117; doubly_linked_list.py:1312-1411;
circular_linked_list.py:1221-1318.  `distance = none` stands for a non-`int`;
Returns the new list when `inplace` is false. -/
def rotateList (k : Kind) (fuel : Nat) (l : Addr) (distance : Option Int) (dir : Dir)
    (inplace : Flag) : M V X (Option Addr) := do
  let inplace ← M.lift (checkInplace k dir inplace)
  match distance with
  | none => M.throw .typeError
  | some d =>
    if d < 0 then M.throw .valueError
    else do
      let r ← rotate k fuel l d.toNat dir
      if inplace then do
        let ro ← getList r
        setHead l ro.head
        match k with
        | .dll => setTail l ro.tail
        | _ => M.pure ()
        M.pure none
      else M.pure (some r)

/-- the loop of `reverse` — linked_list.py:2143-2148 -/
def reverseLoop (k : Kind) (rev : Addr) : Nat → Option Addr → M V X Unit
  | 0, _ => M.pure ()
  | n + 1, curr => do
    let d ← getData curr
    let v ← (match d with
      | none => M.throw .valueError
      | some v => M.pure v)
    addFront k rev (.val v)
    let nx ← getNext curr
    reverseLoop k rev n nx

/-- `reverse` — linked_list.py:2120-2149 -/
def reverse (k : Kind) (l : Addr) : M V X Addr := do
  let rev ← newList
  let o ← getList l
  reverseLoop k rev o.length o.head
  M.pure rev

/-- `copy` — linked_list.py:2211-2239: one pass of `__iter__` with `_insert_value`, i.e. the
same loop as `_split` -/
def copy (k : Kind) (l : Addr) : M V X Addr := do
  let out ← newList
  let o ← getList l
  let _ ← splitLoop k out o.length none o.head
  M.pure out

/-- `count(value)` — linked_list.py:2177-2209 -/
def count (l : Addr) (v : Option V) : M V X Nat := do
  let xs ← toList l
  M.pure (xs.filter (fun d => decide (d = v))).length

/-! ## Comparison -/

/-- the loop of `_compare` — linked_list.py:517-539.  `op` may raise (`TypeError` for
incomparable values, re-raised as `TypeError`).  A `None` on one side only is a `TypeError`, which
is exact for the order operators; `operator.eq` would give `False` (no list satisfying the
representation invariant holds a `None`).  Returns `(counter, all_equal)`. -/
def compareLoop (op : V → V → Except Err Bool) :
    Nat → Nat → Bool → Option Addr → Option Addr → M V X (Nat × Bool)
  | 0, counter, allEq, _, _ => M.pure (counter, allEq)
  | n + 1, counter, allEq, p1, p2 => do
    let d1 ← getData p1
    let d2 ← getData p2
    if d1 = d2 then do
      let n1 ← getNext p1
      let n2 ← getNext p2
      compareLoop op n (counter + 1) allEq n1 n2
    else do
      let b ← (match d1, d2 with
        | some v1, some v2 => M.lift (op v1 v2)
        | _, _ => M.throw .typeError)
      if b = false then M.pure (counter, false)
      else do
        let n1 ← getNext p1
        let n2 ← getNext p2
        compareLoop op n (counter + 1) false n1 n2

/-- `_compare(other, op)` — linked_list.py:475-539 -/
def compare (op : V → V → Except Err Bool) (l other : Addr) : M V X (Nat × Bool) := do
  let o ← getList l
  let oo ← getList other
  compareLoop op (min o.length oo.length) 0 true o.head oo.head

/-- `operator.eq` never raises on the modelled values -/
def opEq (a b : V) : Except Err Bool := .ok (decide (a = b))

/-- `__eq__` — linked_list.py:541-587 (for another list of the same class) -/
def llEq (l other : Addr) : M V X Bool := do
  let o ← getList l
  let oo ← getList other
  if o.length ≠ oo.length then M.pure false
  else do
    let (idx, _) ← compare opEq l other
    M.pure (decide (idx = o.length ∧ o.length = oo.length))

/-- `__ne__` — linked_list.py:589-635 -/
def llNe (l other : Addr) : M V X Bool := do
  let o ← getList l
  let oo ← getList other
  if o.length ≠ oo.length then M.pure true
  else do
    let (idx, _) ← compare opEq l other
    M.pure (decide (¬ (idx = o.length ∧ o.length = oo.length)))

/-- `__lt__` — linked_list.py:637-698 -/
def llLt (lt : V → V → Except Err Bool) (l other : Addr) : M V X Bool := do
  let o ← getList l
  let oo ← getList other
  let (idx, allEq) ← compare lt l other
  if allEq then M.pure (decide (o.length < oo.length))
  else M.pure (decide (idx = o.length))

/-- `__le__` — linked_list.py:700-758 -/
def llLe (le : V → V → Except Err Bool) (l other : Addr) : M V X Bool := do
  let o ← getList l
  let (idx, _) ← compare le l other
  M.pure (decide (idx = o.length))

/-- `__gt__` — linked_list.py:760-821 -/
def llGt (gt : V → V → Except Err Bool) (l other : Addr) : M V X Bool := do
  let o ← getList l
  let oo ← getList other
  let (idx, allEq) ← compare gt l other
  if allEq then M.pure (decide (o.length > oo.length))
  else M.pure (decide (idx = o.length))

/-- `__ge__` — linked_list.py:823-881 -/
def llGe (ge : V → V → Except Err Bool) (l other : Addr) : M V X Bool := do
  let oo ← getList other
  let (idx, _) ← compare ge l other
  M.pure (decide (idx = oo.length))

end

end Extra
