import Verif.Lists.World
import Verif.Lists.Run
import Verif.Lists.PriorityQueue

/-!
# How often the `while` loops of a call on a list, a queue or a priority queue turn

The methods of Verif/Lists/LinkedList.lean, Queue.lean and PriorityQueue.lean that walk to a position are written
down a second time, with a counter for the turns of their loops.  `erase` forgets the counter; the lemmas
`..._erase` say that what remains is the model itself.
-/

set_option linter.unusedSectionVars false

namespace Extra
variable {V X α β : Type}

/-- a computation with a counter -/
def T (V X α : Type) : Type := Heap V X → Nat × (Except Err α × Heap V X)

namespace T

/-- one computation after the other: the turns add up -/
def bind (m : T V X α) (f : α → T V X β) : T V X β := fun h =>
  match m h with
  | (n, .ok a, h') => ((f a h').1 + n, (f a h').2)
  | (n, .error e, h') => (n, .error e, h')

instance : Monad (T V X) where
  pure a := fun h => (0, .ok a, h)
  bind := bind

/-- code without a loop -/
def of (m : M V X α) : T V X α := fun h => (0, m h)

/-- one turn of a loop -/
def turn (m : M V X α) : T V X α := fun h => (1, m h)

/-- forget the counter -/
def erase (m : T V X α) : M V X α := fun h => (m h).2

end T

section Model
variable [PyData V] [Inhabited X]

/-- `getNodeLoop`, counted — linked_list.py:1000-1007 -/
def getNodeLoopT : Nat → Option Addr → Option Addr → T V X (Option Addr × Option Addr)
  | 0, prev, curr => T.of (M.pure (prev, curr))
  | n + 1, _, curr => do
    let nx ← T.turn (getNext curr)
    getNodeLoopT n curr nx

/-- `backLoop`, counted — doubly_linked_list.py:738-742 -/
def backLoopT : Nat → Option Addr → T V X (Option Addr)
  | 0, curr => T.of (M.pure curr)
  | n + 1, curr => do
    let p ← T.turn (getPrev curr)
    backLoopT n p

/-- `getNode`, counted — linked_list.py:967-1007; doubly_linked_list.py:699-745 -/
def getNodeT (k : Kind) (l : Addr) (idx : Nat) : T V X (Option Addr × Option Addr) := do
  let o ← T.of (getList l)
  match k with
  | .dll =>
    if idx ≤ o.length / 2 then getNodeLoopT idx none o.head
    else do
      let prev ← backLoopT (o.length - idx) o.tail
      let curr ← T.of (getNext prev)
      T.of (M.pure (prev, curr))
  | _ => getNodeLoopT idx none o.head

/-- `insertAt`, counted — linked_list.py:1226-1263 -/
def insertAtT (k : Kind) (l : Addr) (idx : Nat) (v : V) : T V X Unit := do
  let (prev, _) ← getNodeT k l idx
  let _ ← T.of (insertValue k l prev v)
  T.of (M.pure ())

/-- `addFront`, counted — linked_list.py:1265-1292 -/
def addFrontT (k : Kind) (l : Addr) (item : Item V) : T V X Unit := do
  let v ← T.of (M.lift (validateItem item))
  insertAtT k l 0 v

/-- `addEnd`, counted — linked_list.py:1294-1321 -/
def addEndT (k : Kind) (l : Addr) (item : Item V) : T V X Unit := do
  let v ← T.of (M.lift (validateItem item))
  let n ← T.of (llLen l)
  insertAtT k l n v

/-- `insert`, counted — linked_list.py:1323-1366; circular_linked_list.py:771-823 -/
def insertT (k : Kind) (l : Addr) (idx : Idx) (item : Item V) : T V X Unit := do
  T.of (validateIndex k l idx false false)
  let v ← T.of (M.lift (validateItem item))
  match k with
  | .cll => do
    let o ← T.of (getList l)
    insertAtT k l (idx.mod (o.length + 1)) v
  | _ => insertAtT k l idx.toNat v

/-- `getItem`, counted — linked_list.py:1066-1137; circular_linked_list.py:607-657 -/
def getItemT (k : Kind) (l : Addr) (idx : Idx) : T V X (Option V) :=
  match k with
  | .cll => do
    T.of (validateIndex .cll l idx false false)
    let o ← T.of (getList l)
    if o.length = 0 then T.of (M.throw .indexError)
    else do
      let (_, node) ← getNodeT .cll l (idx.mod o.length)
      T.of (getData node)
  | k => do
    T.of (validateIndex k l idx true true)
    match idx with
    | .int i => do
      let o ← T.of (getList l)
      if i = (o.length : Int) then T.of (M.throw .indexError)
      else do
        let j := if i ≤ -1 then i + o.length else i
        let (_, node) ← getNodeT k l j.toNat
        T.of (getData node)
    | _ => T.of (M.throw .notImplementedError)

/-- `replaceValue`, counted — linked_list.py:1417-1440 -/
def replaceValueT (k : Kind) (l : Addr) (idx : Nat) (v : V) : T V X Unit := do
  let (_, old) ← getNodeT k l idx
  let a ← T.of (deref old)
  T.of (setData a (some v))

/-- `setItem`, counted — linked_list.py:1442-1490; circular_linked_list.py:883-936 -/
def setItemT (k : Kind) (l : Addr) (idx : Idx) (item : Item V) : T V X Unit :=
  match k with
  | .cll => do
    T.of (validateIndex .cll l idx false false)
    let o ← T.of (getList l)
    match item with
    | .none => T.of (M.throw .assertionError)
    | .extra => do
      let (_, old) ← getNodeT .cll l (idx.mod o.length)
      let _ ← T.of (deref old)
      T.of (M.throw .typeError)
    | .val v => replaceValueT .cll l (idx.mod o.length) v
  | k => do
    T.of (validateIndex k l idx false false)
    let o ← T.of (getList l)
    if idx = .int o.length then T.of (M.throw .indexError)
    else do
      let v ← T.of (M.lift (validateItem item))
      replaceValueT k l idx.toNat v

/-- `removeIdx`, counted — linked_list.py:1541-1574 -/
def removeIdxT (k : Kind) (l : Addr) (idx : Nat) : T V X Unit := do
  let (prev, node) ← getNodeT k l idx
  let n ← T.of (assertSome node)
  T.of (removeNode k l prev n)

/-- `delItem`, counted — linked_list.py:1576-1613; circular_linked_list.py:990-1035 -/
def delItemT (k : Kind) (l : Addr) (idx : Idx) : T V X Unit := do
  T.of (validateIndex k l idx false false)
  let o ← T.of (getList l)
  match k with
  | .cll => if o.length = 0 then T.of (M.pure ()) else removeIdxT .cll l (idx.mod o.length)
  | k => if idx = .int o.length then T.of (M.throw .indexError) else removeIdxT k l idx.toNat

/-- `removeFront`, counted — linked_list.py:1615-1635 -/
def removeFrontT (k : Kind) (l : Addr) : T V X Unit := do
  let e ← T.of (isEmpty l)
  if e then T.of (M.pure ()) else delItemT k l (.int 0)

/-- `removeEnd`, counted — linked_list.py:1637-1658 -/
def removeEndT (k : Kind) (l : Addr) : T V X Unit := do
  let e ← T.of (isEmpty l)
  if e then T.of (M.pure ()) else do
    let o ← T.of (getList l)
    delItemT k l (.int ((o.length : Int) - 1))

/-- `if b: m` -/
def whenT (b : Bool) (m : T V X Unit) : T V X Unit := if b then m else T.of (M.pure ())

/-- `qEnqueue`, counted — queue.py:260-269, :312-313 -/
def qEnqueueT (l : Addr) (cap : Option Nat) (item : Item V) : T V X Bool := do
  let v ← T.of (M.lift (validateItem item))
  let full ← T.of (qIsFull l cap)
  whenT full (removeEndT .dll l)
  whenT (capPos cap) (insertAtT .dll l 0 v)
  T.of (M.pure full)

/-- `qAppendRight`, counted — deque.py:245-254 -/
def qAppendRightT (l : Addr) (cap : Option Nat) (item : Item V) : T V X Bool := do
  let v ← T.of (M.lift (validateItem item))
  let full ← T.of (qIsFull l cap)
  whenT full (removeFrontT .dll l)
  whenT (capPos cap) (do
    let n ← T.of (llLen l)
    insertAtT .dll l n v)
  T.of (M.pure full)

/-- `qDequeue`, counted — queue.py:384-392 -/
def qDequeueT (l : Addr) : T V X (Option V × Bool) := do
  let e ← T.of (isEmpty l)
  if e then T.of (M.pure (none, true)) else do
    let o ← T.of (getList l)
    let d ← T.of (getData o.tail)
    removeEndT .dll l
    T.of (M.pure (d, false))

/-- `qPopLeft`, counted — deque.py:354-360 -/
def qPopLeftT (l : Addr) : T V X (Option V × Bool) := do
  let e ← T.of (isEmpty l)
  if e then T.of (M.pure (none, true)) else do
    let o ← T.of (getList l)
    let d ← T.of (getData o.head)
    removeFrontT .dll l
    T.of (M.pure (d, false))

/-- the turns a call of a list takes; `none` for the calls not counted here -/
def listTurns (k : Kind) (op : Op V) (w : World V X) : Option Nat :=
  let at' (i : Nat) (m : Addr → Heap V X → Nat) : Option Nat := some ((w.env[i]?.map (m · w.heap)).getD 0)
  match op with
  | .addFront i item => at' i fun l h => (addFrontT k l item h).1
  | .addEnd i item => at' i fun l h => (addEndT k l item h).1
  | .insert i idx item => at' i fun l h => (insertT k l idx item h).1
  | .setItem i idx item => at' i fun l h => (setItemT k l idx item h).1
  | .delItem i idx => at' i fun l h => (delItemT k l idx h).1
  | .removeFront i => at' i fun l h => (removeFrontT k l h).1
  | .removeEnd i => at' i fun l h => (removeEndT k l h).1
  | .getItem i (.int j) => at' i fun l h => (getItemT k l (.int j) h).1
  | _ => none

/-- the turns a call of a queue or a deque takes; `repr` is not counted -/
def queueTurns (q : Queue V X) : QOp V → Option Nat
  | .enqueue item => some (qEnqueueT q.cont q.cap item q.heap).1
  | .dequeue => some (qDequeueT q.cont q.heap).1
  | .appendRight item => some (qAppendRightT q.cont q.cap item q.heap).1
  | .popLeft => some (qPopLeftT q.cont q.heap).1
  | .repr => none
  | _ => some 0

end Model

section Prio
variable {P : Type} [PyData V] [LinearOrder P] [BoundedOrder P]

/-- `prioLoop`, counted — priority_queue.py:418-422, :433-437 -/
def prioLoopT (f : P → P → P) : Nat → P → Option Addr → T V P P
  | _, acc, none => T.of (M.pure acc)
  | 0, _, some _ => T.of (M.throw .diverge)
  | fuel + 1, acc, some a => do
    let nd ← T.turn (nodeAt a)
    prioLoopT f fuel (f nd.ext acc) nd.next

/-- `updatePrio`, counted — priority_queue.py:409-437 -/
def updatePrioT (fuel : Nat) (lowest : Bool) (l : Addr) : T V P P := do
  let start : P := if lowest then ⊤ else ⊥
  let e ← T.of (isEmpty l)
  if e then T.of (M.pure start) else do
    let o ← T.of (getList l)
    prioLoopT (if lowest then min else max) fuel start o.head

/-- `findPrio`, counted — priority_queue.py:479-495 -/
def findPrioT (key : P) : Nat → Option Addr → T V P Addr
  | _, none => T.of (M.throw .unboundLocalError)
  | 0, some _ => T.of (M.throw .diverge)
  | fuel + 1, some a => do
    let nd ← T.turn (nodeAt a)
    if nd.ext = key then T.of (M.pure a) else findPrioT key fuel nd.next

/-- `pqTake`, counted — priority_queue.py:479-496 -/
def pqTakeT (fuel : Nat) (lowest : Bool) (key : P) (l : Addr) : T V P (Option V × P) := do
  let o ← T.of (getList l)
  let n ← findPrioT key fuel o.head
  let d ← T.of (getData (some n))
  let p ← T.of (getPrev (some n))
  T.of (removeNode .dll l p n)
  let c ← updatePrioT fuel lowest l
  T.of (M.pure (d, c))

/-- the turns `dequeue` of a priority queue takes — priority_queue.py:439-496 -/
def dequeueTurns (q : PQueue V P) (lowest : Bool) : Nat :=
  match isEmpty q.cont q.heap with
  | (.ok false, h) => (pqTakeT (h.nNodes + 1) lowest (if lowest then q.minP else q.maxP) q.cont h).1
  | _ => 0

end Prio

/-! ## Forgetting the counter -/

theorem T.erase_of (m : M V X α) : (T.of m).erase = m := rfl
theorem T.erase_turn (m : M V X α) : (T.turn m).erase = m := rfl
theorem T.erase_bind (m : T V X α) (f : α → T V X β) :
    (m >>= f).erase = m.erase >>= fun a => (f a).erase := by
  funext h
  simp only [T.erase, Bind.bind, T.bind, M.bind]
  rcases m h with ⟨n, _ | a, h'⟩ <;> rfl
theorem T.erase_ite (c : Prop) [Decidable c] (a b : T V X α) :
    (if c then a else b).erase = if c then a.erase else b.erase := by split <;> rfl

section Model
variable [PyData V] [Inhabited X]

theorem getNodeLoop_erase : ∀ (n : Nat) (p c : Option Addr),
    (getNodeLoopT n p c : T V X _).erase = getNodeLoop n p c
  | 0, _, _ => rfl
  | n + 1, _, c => by
    rw [getNodeLoopT, getNodeLoop, T.erase_bind, T.erase_turn]
    simp only [getNodeLoop_erase n]

theorem backLoop_erase : ∀ (n : Nat) (c : Option Addr), (backLoopT n c : T V X _).erase = backLoop n c
  | 0, _ => rfl
  | n + 1, c => by
    rw [backLoopT, backLoop, T.erase_bind, T.erase_turn]
    simp only [backLoop_erase n]

theorem getNode_erase (k : Kind) (l : Addr) (i : Nat) : (getNodeT k l i : T V X _).erase = getNode k l i := by
  cases k <;> simp only [getNodeT, getNode, T.erase_bind, T.erase_of, T.erase_ite, getNodeLoop_erase, backLoop_erase]

theorem insertAt_erase (k : Kind) (l : Addr) (i : Nat) (v : V) :
    (insertAtT k l i v : T V X _).erase = insertAt k l i v := by
  simp only [insertAtT, insertAt, T.erase_bind, T.erase_of, getNode_erase]

theorem addFront_erase (k : Kind) (l : Addr) (it : Item V) :
    (addFrontT k l it : T V X _).erase = addFront k l it := by
  simp only [addFrontT, addFront, T.erase_bind, T.erase_of, insertAt_erase]

theorem addEnd_erase (k : Kind) (l : Addr) (it : Item V) :
    (addEndT k l it : T V X _).erase = addEnd k l it := by
  simp only [addEndT, addEnd, T.erase_bind, T.erase_of, insertAt_erase]

theorem insert_erase (k : Kind) (l : Addr) (i : Idx) (it : Item V) :
    (insertT k l i it : T V X _).erase = insert k l i it := by
  cases k <;> simp only [insertT, insert, T.erase_bind, T.erase_of, insertAt_erase]

theorem getItem_erase (k : Kind) (l : Addr) (i : Idx) : (getItemT k l i : T V X _).erase = getItem k l i := by
  cases k <;> cases i <;>
    simp only [getItemT, getItem, T.erase_bind, T.erase_of, T.erase_ite, getNode_erase]

theorem replaceValue_erase (k : Kind) (l : Addr) (i : Nat) (v : V) :
    (replaceValueT k l i v : T V X _).erase = replaceValue k l i v := by
  simp only [replaceValueT, replaceValue, T.erase_bind, T.erase_of, getNode_erase]

theorem setItem_erase (k : Kind) (l : Addr) (i : Idx) (it : Item V) :
    (setItemT k l i it : T V X _).erase = setItem k l i it := by
  cases k <;> cases it <;>
    simp only [setItemT, setItem, T.erase_bind, T.erase_of, T.erase_ite, getNode_erase, replaceValue_erase]

theorem removeIdx_erase (k : Kind) (l : Addr) (i : Nat) :
    (removeIdxT k l i : T V X _).erase = removeIdx k l i := by
  simp only [removeIdxT, removeIdx, T.erase_bind, T.erase_of, getNode_erase]

theorem delItem_erase (k : Kind) (l : Addr) (i : Idx) : (delItemT k l i : T V X _).erase = delItem k l i := by
  cases k <;> simp only [delItemT, delItem, T.erase_bind, T.erase_of, T.erase_ite, removeIdx_erase]

theorem removeFront_erase (k : Kind) (l : Addr) : (removeFrontT k l : T V X _).erase = removeFront k l := by
  simp only [removeFrontT, removeFront, T.erase_bind, T.erase_of, T.erase_ite, delItem_erase]

theorem removeEnd_erase (k : Kind) (l : Addr) : (removeEndT k l : T V X _).erase = removeEnd k l := by
  simp only [removeEndT, removeEnd, T.erase_bind, T.erase_of, T.erase_ite, delItem_erase]

theorem when_erase (b : Bool) (m : T V X Unit) : (whenT b m).erase = whenM b m.erase := by
  cases b <;> rfl

theorem qEnqueue_erase (l : Addr) (cap : Option Nat) (it : Item V) :
    (qEnqueueT l cap it : T V X _).erase = qEnqueue l cap it := by
  simp only [qEnqueueT, qEnqueue, qEnqueueValue, T.erase_bind, T.erase_of, when_erase, removeEnd_erase,
    insertAt_erase]

theorem qAppendRight_erase (l : Addr) (cap : Option Nat) (it : Item V) :
    (qAppendRightT l cap it : T V X _).erase = qAppendRight l cap it := by
  simp only [qAppendRightT, qAppendRight, T.erase_bind, T.erase_of, when_erase, removeFront_erase,
    insertAt_erase]

theorem qDequeue_erase (l : Addr) : (qDequeueT l : T V X _).erase = qDequeue l := by
  simp only [qDequeueT, qDequeue, T.erase_bind, T.erase_of, T.erase_ite, removeEnd_erase]

theorem qPopLeft_erase (l : Addr) : (qPopLeftT l : T V X _).erase = qPopLeft l := by
  simp only [qPopLeftT, qPopLeft, T.erase_bind, T.erase_of, T.erase_ite, removeFront_erase]

end Model

section Prio
variable {P : Type} [PyData V] [LinearOrder P] [BoundedOrder P]

theorem prioLoop_erase (f : P → P → P) : ∀ (n : Nat) (acc : P) (c : Option Addr),
    (prioLoopT f n acc c : T V P _).erase = prioLoop f n acc c
  | n, _, none => by cases n <;> rfl
  | 0, _, some _ => rfl
  | n + 1, acc, some a => by
    rw [prioLoopT, prioLoop, T.erase_bind, T.erase_turn]
    simp only [prioLoop_erase f n]

theorem updatePrio_erase (fuel : Nat) (low : Bool) (l : Addr) :
    (updatePrioT fuel low l : T V P _).erase = updatePrio fuel low l := by
  simp only [updatePrioT, updatePrio, T.erase_bind, T.erase_of, T.erase_ite, prioLoop_erase]

theorem findPrio_erase (key : P) : ∀ (n : Nat) (c : Option Addr),
    (findPrioT key n c : T V P _).erase = findPrio key n c
  | n, none => by cases n <;> rfl
  | 0, some _ => rfl
  | n + 1, some a => by
    rw [findPrioT, findPrio, T.erase_bind, T.erase_turn]
    simp only [findPrio_erase key n, T.erase_ite, T.erase_of]

theorem pqTake_erase (fuel : Nat) (low : Bool) (key : P) (l : Addr) :
    (pqTakeT fuel low key l : T V P _).erase = pqTake fuel low key l := by
  simp only [pqTakeT, pqTake, T.erase_bind, T.erase_of, findPrio_erase, updatePrio_erase]

end Prio

end Extra
