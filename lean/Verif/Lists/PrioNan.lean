import Verif.Lists.PrioRefine
import Verif.Trees.BstNan

/-!
# `PriorityQueue` with `nan` for priorities — /repo/extra/lists/priority_queue.py

`type(float("nan"))` is `float`, so `enqueue` takes `nan` for a priority (priority_queue.py:317).  PriorityQueue.lean
has priorities of a linear order only.  Here are the same functions for priorities that may be `nan`, on the sequence
of items with their priorities, newest first; without `nan` they do what the model with pointers does
(C121_without_nan_partial).
-/

namespace Extra
variable {V P : Type} [PyData V] [PyShow V] [LinearOrder P] [BoundedOrder P]

omit [BoundedOrder P] in
/-- Python's `min(a, b)`: `b` if it is smaller, `a` otherwise -/
def pyMin (a b : PyNum P) : PyNum P := if b.lt a then b else a

omit [BoundedOrder P] in
/-- Python's `max(a, b)`: `b` if it is greater, `a` otherwise -/
def pyMax (a b : PyNum P) : PyNum P := if a.lt b then b else a

omit [BoundedOrder P] in
/-- the node that is dequeued: the first with a priority equal to `key` — priority_queue.py:479-495 -/
def nqFind (key : PyNum P) (xs : List (V × PyNum P)) : Option (V × PyNum P) := xs.find? fun y => y.2.eq key

omit [BoundedOrder P] in
/-- what `_remove_node` leaves when the first node with a priority equal to `key` is removed; for the head of three or
more it moves the second item into the head — priority_queue.py:484-485, :491-492; doubly_linked_list.py:1087-1116 -/
def nqErase (key : PyNum P) : List (V × PyNum P) → List (V × PyNum P)
  | x :: b :: c :: bs =>
    if x.2.eq key then (b.1, x.2) :: c :: bs else x :: (b :: c :: bs).eraseP fun y => y.2.eq key
  | xs => xs.eraseP fun y => y.2.eq key

/-- `_update_min_priority`, `_update_max_priority` — priority_queue.py:416-422, :431-437 -/
def nqCache (low : Bool) (xs : List (V × PyNum P)) : PyNum P :=
  xs.foldl (fun acc y => if low then pyMin y.2 acc else pyMax y.2 acc) (if low then .num ⊤ else .num ⊥)

/-- `PriorityQueue()` — priority_queue.py:193-195 -/
def nqStart : PAbs V (PyNum P) := ⟨[], .num ⊤, .num ⊥, none⟩

/-- `enqueue` — priority_queue.py:369-374, queue.py:260-269 -/
def nqEnqueue (cap : Option Nat) (v : V) (p : PyNum P) (s : PAbs V (PyNum P)) : PAbs V (PyNum P) :=
  { s with xs := fit cap ((v, p) :: s.xs), minP := pyMin s.minP p, maxP := pyMax s.maxP p }

/-- `dequeue` — priority_queue.py:473-496 -/
def nqDequeue (low : Bool) (s : PAbs V (PyNum P)) : CRes V × PAbs V (PyNum P) :=
  if s.xs.isEmpty then (.ok (.item none, true), s)
  else
    let key := if low then s.minP else s.maxP
    match nqFind key s.xs with
    | none => (.error .unboundLocalError, s)
    | some x =>
      let ys := nqErase key s.xs
      (.ok (.item (some x.1), false),
        { s with
          xs := ys
          minP := if low then nqCache true ys else s.minP
          maxP := if low then s.maxP else nqCache false ys
          st := if s.xs.length = 1 then some x.1 else s.st })

/-- one call — priority_queue.py:226, :250, :272, :298, :369-374, :406, :473-496, :528 -/
def nqStep (cap : Option Nat) (op : PQOp V (PyNum P)) (s : PAbs V (PyNum P)) : CRes V × PAbs V (PyNum P) :=
  match op with
  | .enqueue item prio =>
    match validateItem item, prio.value with
    | .error e, _ => (.error e, s)
    | .ok _, .error e => (.error e, s)
    | .ok v, .ok p => (.ok (.unit, fullAt cap s.xs.length), nqEnqueue cap (PyData.norm v) p s)
  | .dequeue low => nqDequeue low s
  | .top => (if s.xs.isEmpty then .error .indexError
      else .ok (.item (s.xs.getLast?.map Prod.fst), false), s)
  | .len => (.ok (.nat s.xs.length, false), s)
  | .isEmpty => (.ok (.bool s.xs.isEmpty, false), s)
  | .isFull => (.ok (.bool (fullAt cap s.xs.length), false), s)
  | .clear => (.ok (.unit, false), nqStart)
  | .repr => (.ok (.text (shownText '⟶' (s.xs.map Prod.fst) s.st), false), s)

/-- a history of calls -/
def nqRun (cap : Option Nat) : List (PQOp V (PyNum P)) → PAbs V (PyNum P) → List (CRes V) × PAbs V (PyNum P)
  | [], s => ([], s)
  | op :: ops, s =>
    ((nqStep cap op s).1 :: (nqRun cap ops (nqStep cap op s).2).1, (nqRun cap ops (nqStep cap op s).2).2)

end Extra
