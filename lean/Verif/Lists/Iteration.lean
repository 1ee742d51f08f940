import Verif.Lists.LinkedList

/-!
# Iterating over a list that changes meanwhile

`__iter__` is a generator: between two items the caller may change the list.  `toList` in
`LinkedList.lean` runs the generator to the end in one go; here it is suspended at its `yield`.
/repo/extra/lists/linked_list.py:448-473; doubly_linked_list.py:346-367 and
circular_linked_list.py:191-212 call it.
-/

namespace Extra
variable {V X : Type}

/-- the state of a generator made by `iter(ll)`: not yet started, suspended at its `yield` with
the local variables `counter` and `curr_node`, or over -/
inductive Iter
  | fresh
  | susp (counter : Nat) (curr : Addr)
  | over
  deriving DecidableEq, Repr

/-- what `next(it)` does: it returns an item, raises `StopIteration`, or raises something else -/
inductive Step (V : Type)
  | item (v : Option V)
  | stop
  | raised (e : Err)
  deriving DecidableEq, Repr

/-- the test of the loop and the `yield` — linked_list.py:470-471.  A generator that returned or
raised is over. -/
def iterTest (l : Addr) (h : Heap V X) (counter : Nat) (curr : Option Addr) : Step V × Iter :=
  if counter < (h.lobj l).length then
    match curr with
    | none => (.raised .attributeError, .over)
    | some a => (.item (h.node a).data, .susp counter a)
  else (.stop, .over)

/-- `next(it)`: from the start (linked_list.py:468-469) or from the `yield` (:472-473) to the next
test of the loop.  The heap is only read. -/
def iterNext (l : Addr) (h : Heap V X) : Iter → Step V × Iter
  | .fresh => iterTest l h 0 (h.lobj l).head
  | .susp counter a => iterTest l h (counter + 1) (h.node a).next
  | .over => (.stop, .over)

/-- what a program with one generator over one list does: `next(it)`, or a call that changes the
list -/
inductive Act (V : Type)
  | next
  | insert (i : Nat) (v : V)
  | addFront (v : V)
  | addEnd (v : V)
  | setItem (i : Nat) (v : V)
  | delItem (i : Nat)
  | removeFront
  | removeEnd
  | remove (v : V) (all : Bool)
  | clear
  deriving DecidableEq, Repr

variable [PyData V] [Inhabited X]

/-- the call behind an act (`next` is no call on the list) -/
def Act.call (k : Kind) (l : Addr) : Act V → M V X Unit
  | .next => M.pure ()
  | .insert i v => Extra.insert k l (.int i) (.val v)
  | .addFront v => Extra.addFront k l (.val v)
  | .addEnd v => Extra.addEnd k l (.val v)
  | .setItem i v => Extra.setItem k l (.int i) (.val v)
  | .delItem i => Extra.delItem k l (.int i)
  | .removeFront => Extra.removeFront k l
  | .removeEnd => Extra.removeEnd k l
  | .remove v all => Extra.remove k l (.val v) (some all)
  | .clear => Extra.clear l

/-- run the acts; the answers of `next`, in order -/
def acts (k : Kind) (l : Addr) : List (Act V) → Heap V X → Iter → List (Step V) × Heap V X × Iter
  | [], h, it => ([], h, it)
  | .next :: as, h, it =>
    let r := iterNext l h it
    let rest := acts k l as h r.2
    (r.1 :: rest.1, rest.2)
  | a :: as, h, it => acts k l as (a.call k l h).2 it

end Extra
