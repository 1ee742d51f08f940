import Verif.Lists.Bounded

/-! # `Stack` — /repo/extra/lists/stack.py -/

namespace Extra
variable {V : Type} [PyData V] [PyShow V]

/-- a `Stack` object: `_container` (a Python list) and `_max_capacity` — stack.py:69-72 -/
structure Stack (V : Type) where
  container : List V
  cap : Option Nat

/-- a call of the public API -/
inductive SOp (V : Type)
  | push (item : Item V)
  | pop
  | peek
  | len
  | isEmpty
  | isFull
  | clear
  | repr
  deriving DecidableEq

/-- `Stack(max_capacity)` — stack.py:61-72 -/
def Stack.init (c : CapArg) : Except Err (Stack V) := do
  let cap ← initCap c
  .ok ⟨[], cap⟩

/-- `push` — stack.py:217-224 -/
def Stack.push (s : Stack V) (item : Item V) : CRes V × Stack V :=
  if atCap s.container.length s.cap then (.error .overflowError, s)
  else match validateItem item with
    | .error e => (.error e, s)
    | .ok v => (.ok (.unit, false), { s with container := s.container ++ [PyData.norm v] })

/-- `peek` — stack.py:256-258 -/
def Stack.peek (s : Stack V) : CRes V :=
  if s.container.length = 0 then .error .indexError
  else .ok (.item s.container.getLast?, false)

/-- `pop` — stack.py:294-300 -/
def Stack.pop (s : Stack V) : CRes V × Stack V :=
  if s.container.length = 0 then (.ok (.item none, true), s)
  else (.ok (.item s.container.getLast?, false), { s with container := s.container.dropLast })

/-- `clear`: `self.__init__(max_capacity=self._max_capacity)` — stack.py:331 -/
def Stack.clear (s : Stack V) : Stack V := { s with container := [] }

/-- `__repr__` — stack.py:94-107 -/
def Stack.repr (s : Stack V) : List (List Char) :=
  let (t, m, d) := cellLines ['┌'] ['│'] ['└'] (s.container.map PyShow.str)
  [t ++ ['─'], m ++ [' '], d ++ ['─']]

/-- one call; `__len__` stack.py:131, `is_empty` :153, `is_full` :178 -/
def Stack.exec (op : SOp V) (s : Stack V) : CRes V × Stack V :=
  match op with
  | .push item => s.push item
  | .pop => s.pop
  | .peek => (s.peek, s)
  | .len => (.ok (.nat s.container.length, false), s)
  | .isEmpty => (.ok (.bool (s.container.length == 0), false), s)
  | .isFull => (.ok (.bool (atCap s.container.length s.cap), false), s)
  | .clear => (.ok (.unit, false), s.clear)
  | .repr => (.ok (.text s.repr, false), s)

/-- a history of calls on one stack -/
def Stack.execs : List (SOp V) → Stack V → List (CRes V) × Stack V
  | [], s => ([], s)
  | op :: ops, s =>
    let (r, s') := s.exec op
    let (rs, s'') := Stack.execs ops s'
    (r :: rs, s'')

end Extra
