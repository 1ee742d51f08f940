import Verif.Trees.BinHeap

/-!
# `MinHeap` and `MaxHeap` with `nan` — /repo/extra/trees/_heap.py, min_heap.py, max_heap.py

`type(float("nan"))` is `float`, so `insert` takes `nan` like any number (_heap.py:81).  BinHeap.lean has numbers
of a linear order only; here are the same functions for numbers that may be `nan`.  Every comparison of a `nan`
with `<`, `>` or `==` is false, but `in` and `index` of Python's list look first whether it is the same object, so
each `nan` here carries the object it is.
-/

namespace Extra
variable {N : Type} [LinearOrder N] [BoundedOrder N]

/-- a Python number: a `nan` object, or a number of the order.  `a is b or a == b` is `a = b` -/
inductive IdNum (N : Type)
  | nan (obj : Nat)
  | num (n : N)
  deriving DecidableEq

omit [BoundedOrder N] in
/-- `a < b` -/
def IdNum.lt : IdNum N → IdNum N → Bool
  | .num a, .num b => decide (a < b)
  | _, _ => false

omit [BoundedOrder N] in
/-- `(is_min_heap and parent > child) or (not is_min_heap and parent < child)` — _heap.py:237-239,
:295-296 -/
def nhWrong (isMin : Bool) (parent child : IdNum N) : Bool :=
  if isMin then child.lt parent else parent.lt child

omit [LinearOrder N] [BoundedOrder N] in
/-- `self._heap[i]` for `i ≥ 0` -/
def nhGet (xs : List (IdNum N)) (i : Nat) : Except Err (IdNum N) :=
  match xs[i]? with
  | some x => .ok x
  | none => .error .indexError

omit [LinearOrder N] [BoundedOrder N] in
/-- the items at `i` and `j` change places; both positions exist — _heap.py:240-243, :297-300 -/
def nhSwap (xs : List (IdNum N)) (i j : Nat) (xi xj : IdNum N) : List (IdNum N) := (xs.set i xj).set j xi

omit [BoundedOrder N] in
/-- the loop of `insert` — _heap.py:233-246 -/
def nhUp (isMin : Bool) : Nat → List (IdNum N) → Nat → Except Err (List (IdNum N))
  | fuel, xs, idx =>
    if idx = 0 then .ok xs
    else match fuel with
      | 0 => .error .diverge
      | fuel + 1 => do
        let parentIdx := (idx - 1) / 2
        let current ← nhGet xs idx
        let parent ← nhGet xs parentIdx
        if nhWrong isMin parent current then
          nhUp isMin fuel (nhSwap xs parentIdx idx parent current) parentIdx
        else .ok xs

omit [BoundedOrder N] in
/-- `insert` of a number — _heap.py:226-246 -/
def nhInsert (isMin : Bool) (xs : List (IdNum N)) (v : IdNum N) : Except Err (List (IdNum N)) :=
  nhUp isMin (xs.length + 1) (xs ++ [v]) xs.length

omit [BoundedOrder N] in
/-- `insert` of each item of a list: the loop of `heapify` — _heap.py:113-114 -/
def nhInserts (isMin : Bool) : List (IdNum N) → List (IdNum N) → Except Err (List (IdNum N))
  | xs, [] => .ok xs
  | xs, v :: vs => do
    let ys ← nhInsert isMin xs v
    nhInserts isMin ys vs

omit [BoundedOrder N] in
/-- `heapify` of a list of numbers: the list that holds the items — _heap.py:112-115 -/
def nhHeapify (isMin : Bool) (vs : List (IdNum N)) : Except Err (List (IdNum N)) := nhInserts isMin [] vs

omit [BoundedOrder N] in
/-- which child to compare with, `none` for leaving the loop — _heap.py:278-293 -/
def nhPick (isMin : Bool) (xs : List (IdNum N)) (lastIdx parentIdx : Nat) : Except Err (Option Nat) :=
  let l := parentIdx * 2 + 1
  let r := parentIdx * 2 + 2
  if r ≥ lastIdx then
    if l ≥ lastIdx then .ok none else .ok (some l)
  else do
    let xl ← nhGet xs l
    let xr ← nhGet xs r
    if isMin then .ok (some (if xl.lt xr then l else r))
    else .ok (some (if xr.lt xl then l else r))

omit [BoundedOrder N] in
/-- `__rebalance` — _heap.py:271-303 -/
def nhDown (isMin : Bool) (lastIdx : Nat) : Nat → List (IdNum N) → Nat → Except Err (List (IdNum N))
  | fuel, xs, parentIdx =>
    if parentIdx < lastIdx then
      match fuel with
      | 0 => .error .diverge
      | fuel + 1 => do
        let parent ← nhGet xs parentIdx
        match ← nhPick isMin xs lastIdx parentIdx with
        | none => .ok xs
        | some childIdx => do
          let child ← nhGet xs childIdx
          if nhWrong isMin parent child then
            nhDown isMin lastIdx fuel (nhSwap xs parentIdx childIdx parent child) childIdx
          else .ok xs
    else .ok xs

/-- `remove` of a number — _heap.py:325-354; the `Bool` says whether a warning was issued -/
def nhRemove (isMin : Bool) (xs : List (IdNum N)) (v : IdNum N) : Except Err (List (IdNum N) × Bool) :=
  if xs = [] then .ok (xs, true)
  else if v ∈ xs then do
    let delIdx := xs.idxOf v
    let lastIdx := xs.length - 1
    let last ← nhGet xs lastIdx
    let ys := nhSwap xs lastIdx delIdx last v
    let zs := ys.set lastIdx (if isMin then .num ⊥ else .num ⊤)
    let ws ← nhDown isMin lastIdx xs.length zs delIdx
    .ok (ws.dropLast, false)
  else .ok (xs, true)

omit [LinearOrder N] [BoundedOrder N] in
/-- the end at which the root is: `MinHeap.get_min` (min_heap.py:197-199), `MaxHeap.get_max`
(max_heap.py:232-234) -/
def nhFirst (xs : List (IdNum N)) : Except Err (IdNum N) :=
  if xs.length = 0 then .error .indexError else nhGet xs 0

omit [BoundedOrder N] in
/-- Python's `max` (of a `MinHeap`) or `min` of a list: an item takes the place of the one kept if it is greater
(smaller) -/
def nhExtreme (isMin : Bool) : List (IdNum N) → Except Err (IdNum N)
  | [] => .error .valueError
  | x :: xs => .ok (xs.foldl (fun m y => if nhWrong isMin y m then y else m) x)

omit [BoundedOrder N] in
/-- the other end: `MinHeap.get_max` (min_heap.py:229-232), `MaxHeap.get_min` (max_heap.py:199-202) -/
def nhFarthest (isMin : Bool) (xs : List (IdNum N)) : Except Err (IdNum N) :=
  if xs.length = 0 then .error .indexError
  else nhExtreme isMin (xs.drop (xs.length / 2))

/-- `remove_min` of a `MinHeap`, `remove_max` of a `MaxHeap` — min_heap.py:373, max_heap.py:405 -/
def nhRemoveFirst (isMin : Bool) (xs : List (IdNum N)) : Except Err (List (IdNum N) × Bool) := do
  let v ← nhFirst xs
  nhRemove isMin xs v

end Extra
