import Verif.Lists.Stack
import Verif.Lists.PriorityQueue

/-!
# Specifications of the stack, the queues and the priority queue on plain sequences

Nothing here mentions the model.
-/

namespace Extra
variable {V P : Type} [PyData V] [PyShow V]

/-- an item as the containers store it -/
def storeItem : Item V → Except Err V
  | .none => .error .valueError
  | .extra => .error .typeError
  | .val v => .ok (PyData.norm v)

/-- has a container of `n` items reached its capacity? -/
def fullAt (cap : Option Nat) (n : Nat) : Bool := decide (cap = some n)

/-- the part of a sequence that fits a capacity -/
def fit {α : Type} (cap : Option Nat) (xs : List α) : List α :=
  match cap with
  | none => xs
  | some c => xs.take c

/-- a row of boxes, one per text: the middle line shows the texts -/
def boxes (l : List Char) (cells : List (List Char)) (r : List Char) : List Char :=
  l ++ cells.flatMap (fun c => ' ' :: c ++ [' ', '│']) ++ r

/-- the lines above and below the boxes -/
def ruler (l : List Char) (joint : Char) (cells : List (List Char)) (r : List Char) : List Char :=
  l ++ cells.flatMap (fun c => List.replicate (c.length + 2) '─' ++ [joint]) ++ r

/-- a stack: its items with the most recently pushed one first -/
def stackStep (cap : Option Nat) (op : SOp V) (xs : List V) : CRes V × List V :=
  match op with
  | .push item =>
    if fullAt cap xs.length then (.error .overflowError, xs)
    else match storeItem item with
      | .error e => (.error e, xs)
      | .ok v => (.ok (.unit, false), v :: xs)
  | .pop => (.ok (.item xs.head?, xs.isEmpty), xs.tail)
  | .peek => (if xs.isEmpty then .error .indexError else .ok (.item xs.head?, false), xs)
  | .len => (.ok (.nat xs.length, false), xs)
  | .isEmpty => (.ok (.bool xs.isEmpty, false), xs)
  | .isFull => (.ok (.bool (fullAt cap xs.length), false), xs)
  | .clear => (.ok (.unit, false), [])
  | .repr => (.ok (.text
      [ruler ['┌'] '┬' (xs.reverse.map PyShow.str) ['─'],
       boxes ['│'] (xs.reverse.map PyShow.str) [' '],
       ruler ['└'] '┴' (xs.reverse.map PyShow.str) ['─']], false), xs)

/-- a history of calls on a stack -/
def stackRun (cap : Option Nat) : List (SOp V) → List V → List (CRes V) × List V
  | [], xs => ([], xs)
  | op :: ops, xs =>
    let (r, ys) := stackStep cap op xs
    let (rs, zs) := stackRun cap ops ys
    (r :: rs, zs)

/-- the arrow in the rendering of a queue or deque -/
def arrowOf (c : QClass) : Char := if c = .queue then '⟶' else '⟷'

/-- the rendering of a queue holding `xs` -/
def queueText (dir : Char) (xs : List V) : List (List Char) :=
  if xs.isEmpty then [['─', '┬'], [dir, '│'], ['─', '┴']]
  else
    [ruler ['─', '┬'] '┬' (xs.map PyShow.str) ['─'],
     boxes [dir, '│'] (xs.map PyShow.str) [dir],
     ruler ['─', '┴'] '┴' (xs.map PyShow.str) ['─']]

/-- a queue or deque: its items from left to right; items enter a queue on the left and leave it on
the right.  `repr` is specified separately (C17). -/
def queueStep (c : QClass) (cap : Option Nat) (op : QOp V) (xs : List V) : CRes V × List V :=
  match op with
  | .enqueue item =>
    match storeItem item with
    | .error e => (.error e, xs)
    | .ok v => (.ok (.unit, fullAt cap xs.length), fit cap (v :: xs))
  | .dequeue => (.ok (.item xs.getLast?, xs.isEmpty), xs.dropLast)
  | .top => (if xs.isEmpty then .error .indexError else .ok (.item xs.getLast?, false), xs)
  | .len => (.ok (.nat xs.length, false), xs)
  | .isEmpty => (.ok (.bool xs.isEmpty, false), xs)
  | .isFull => (.ok (.bool (fullAt cap xs.length), false), xs)
  | .clear => (.ok (.unit, false), [])
  | .repr => (.ok (.text (queueText (arrowOf c) xs), false), xs)
  | .appendRight item =>
    if c = .deque then
      match storeItem item with
      | .error e => (.error e, xs)
      | .ok v => (.ok (.unit, fullAt cap xs.length), (fit cap (v :: xs.reverse)).reverse)
    else (.error .attributeError, xs)
  | .popLeft =>
    if c = .deque then (.ok (.item xs.head?, xs.isEmpty), xs.tail)
    else (.error .attributeError, xs)
  | .getLeft =>
    if c = .deque then (if xs.isEmpty then .error .indexError else .ok (.item xs.head?, false), xs)
    else (.error .attributeError, xs)

/-- a history of calls on a queue or deque -/
def queueRun (c : QClass) (cap : Option Nat) : List (QOp V) → List V → List (CRes V) × List V
  | [], xs => ([], xs)
  | op :: ops, xs =>
    let (r, ys) := queueStep c cap op xs
    let (rs, zs) := queueRun c cap ops ys
    (r :: rs, zs)

section
variable [LinearOrder P]

/-- the priority given with an item, if it is a number (or drawn at random) -/
def givenPrio : PrioArg P → Except Err P
  | .num p => .ok p
  | .none r => .ok r
  | .other => .error .typeError

/-- is `x` an entry that `dequeue(lowest_priority=low)` may return from `xs`? -/
def best (low : Bool) (xs : List (V × P)) (x : V × P) : Bool :=
  xs.all (fun y => if low then decide (x.2 ≤ y.2) else decide (y.2 ≤ x.2))

/-- a priority queue: its items with their priorities, the most recently added first.  Among items
of the same priority the most recently added one is taken. -/
def prioStep (cap : Option Nat) (op : PQOp V P) (xs : List (V × P)) : CRes V × List (V × P) :=
  match op with
  | .enqueue item prio =>
    match storeItem item, givenPrio prio with
    | .error e, _ => (.error e, xs)
    | .ok _, .error e => (.error e, xs)
    | .ok v, .ok p => (.ok (.unit, fullAt cap xs.length), fit cap ((v, p) :: xs))
  | .dequeue low =>
    (.ok (.item ((xs.find? (best low xs)).map Prod.fst), xs.isEmpty), xs.eraseP (best low xs))
  | .top => (if xs.isEmpty then .error .indexError else .ok (.item (xs.getLast?.map Prod.fst), false), xs)
  | .len => (.ok (.nat xs.length, false), xs)
  | .isEmpty => (.ok (.bool xs.isEmpty, false), xs)
  | .isFull => (.ok (.bool (fullAt cap xs.length), false), xs)
  | .clear => (.ok (.unit, false), [])
  | .repr => (.ok (.text (queueText '⟶' (xs.map Prod.fst)), false), xs)

/-- a history of calls on a priority queue -/
def prioRun (cap : Option Nat) :
    List (PQOp V P) → List (V × P) → List (CRes V) × List (V × P)
  | [], xs => ([], xs)
  | op :: ops, xs =>
    let (r, ys) := prioStep cap op xs
    let (rs, zs) := prioRun cap ops ys
    (r :: rs, zs)

/-- Histories that ask for a direction only while no other kind of removal has happened since the
last `clear()` or the last dequeue in that direction.  `a` (`b`): `dequeue(lowest_priority=True)`
(`dequeue()`) may be called; `n`: how many items are held. -/
def steady (cap : Option Nat) : Bool → Bool → Nat → List (PQOp V P) → Prop
  | _, _, _, [] => True
  | a, b, n, .enqueue item prio :: ops =>
    match storeItem item, givenPrio prio with
    | .ok _, .ok _ =>
      if fullAt cap n then steady cap false false n ops else steady cap a b (n + 1) ops
    | _, _ => steady cap a b n ops
  | a, b, n, .dequeue low :: ops =>
    if n = 0 then steady cap a b n ops
    else (if low then a else b) = true ∧ steady cap low (!low) (n - 1) ops
  | _, _, _, .clear :: ops => steady cap true true 0 ops
  | a, b, n, _ :: ops => steady cap a b n ops

/-- would a dequeue take the most recently added of three or more items? -/
def takesNewest (low : Bool) (xs : List (V × P)) : Bool :=
  match xs with
  | x :: _ :: _ :: _ => best low xs x
  | _ => false

/-- Histories in which no dequeue takes the most recently added of three or more items, and which do
not call `repr`; the contents evolve as `prioStep` says. -/
def oldTaken (cap : Option Nat) : List (PQOp V P) → List (V × P) → Prop
  | [], _ => True
  | op :: ops, xs =>
    op ≠ .repr ∧
    (∀ low, op = .dequeue low → takesNewest low xs = false) ∧
    oldTaken cap ops (prioStep cap op xs).2

end

end Extra
