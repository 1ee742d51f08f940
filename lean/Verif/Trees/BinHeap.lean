import Verif.Py
import Mathlib.Order.BoundedOrder.Lattice
import Mathlib.Order.Lattice

/-!
# `MinHeap` and `MaxHeap` — /repo/extra/trees/_heap.py, min_heap.py, max_heap.py

Numbers are the elements of a linear order with least and greatest element (`-inf` and `inf`);
`nan` is not modelled.  `to_list()` returns the list object that holds the items, so a caller could
change it; the model has only its value.
-/

namespace Extra

/-- a value given to a heap or search tree: a number (`int` or `float`), `None`, or an object of any
other type -/
inductive NumArg (N : Type)
  | num (n : N)
  | none
  | other
  deriving DecidableEq

variable {N : Type} [LinearOrder N] [BoundedOrder N]

/-- a `MinHeap` or `MaxHeap` object: `_heap` — _heap.py:62 -/
structure BinHeap (N : Type) where
  isMin : Bool
  arr : List N
  deriving DecidableEq

/-- `self._heap[i]` for `i ≥ 0` -/
def bhGet (xs : List N) (i : Nat) : Except Err N :=
  match xs[i]? with
  | some x => .ok x
  | none => .error .indexError

/-- the items at `i` and `j` change places; both positions exist — _heap.py:240-243, :297-300 -/
def bhSwap (xs : List N) (i j : Nat) (xi xj : N) : List N := (xs.set i xj).set j xi

/-- `(is_min_heap and parent > child) or (not is_min_heap and parent < child)` — _heap.py:237-239,
:295-296 -/
def bhWrong (isMin : Bool) (parent child : N) : Bool :=
  if isMin then decide (child < parent) else decide (parent < child)

/-- the loop of `insert` — _heap.py:233-246 -/
def siftUp (isMin : Bool) : Nat → List N → Nat → Except Err (List N)
  | fuel, xs, idx =>
    if idx = 0 then .ok xs
    else match fuel with
      | 0 => .error .diverge
      | fuel + 1 => do
        let parentIdx := (idx - 1) / 2
        let current ← bhGet xs idx
        let parent ← bhGet xs parentIdx
        if bhWrong isMin parent current then
          siftUp isMin fuel (bhSwap xs parentIdx idx parent current) parentIdx
        else .ok xs

/-- `_validate_item` — _heap.py:80-82, interface.py:10-33 -/
def numArg : NumArg N → Except Err N
  | .none => .error .valueError
  | .other => .error .typeError
  | .num n => .ok n

/-- `insert` — _heap.py:226-246; the class fixes `is_min_heap`: min_heap.py:306, max_heap.py:308 -/
def bhInsert (isMin : Bool) (xs : List N) (value : NumArg N) : Except Err (List N) := do
  let v ← numArg value
  siftUp isMin (xs.length + 1) (xs ++ [v]) xs.length

/-- which child to compare with, `none` for leaving the loop — _heap.py:278-293 -/
def pickChild (isMin : Bool) (xs : List N) (lastIdx parentIdx : Nat) : Except Err (Option Nat) :=
  let l := parentIdx * 2 + 1
  let r := parentIdx * 2 + 2
  if r ≥ lastIdx then
    if l ≥ lastIdx then .ok none else .ok (some l)
  else do
    let xl ← bhGet xs l
    let xr ← bhGet xs r
    if isMin then .ok (some (if xl < xr then l else r))
    else .ok (some (if xl > xr then l else r))

/-- `__rebalance` — _heap.py:271-303 -/
def siftDown (isMin : Bool) (lastIdx : Nat) : Nat → List N → Nat → Except Err (List N)
  | fuel, xs, parentIdx =>
    if parentIdx < lastIdx then
      match fuel with
      | 0 => .error .diverge
      | fuel + 1 => do
        let parent ← bhGet xs parentIdx
        match ← pickChild isMin xs lastIdx parentIdx with
        | none => .ok xs
        | some childIdx => do
          let child ← bhGet xs childIdx
          if bhWrong isMin parent child then
            siftDown isMin lastIdx fuel (bhSwap xs parentIdx childIdx parent child) childIdx
          else .ok xs
    else .ok xs

/-- `remove` — _heap.py:325-354; the `Bool` says whether a warning was issued -/
def bhRemove (isMin : Bool) (xs : List N) (value : NumArg N) : Except Err (List N × Bool) :=
  if xs = [] then .ok (xs, true)
  else match value with
    | .num v =>
      if v ∈ xs then do
        let delIdx := xs.idxOf v
        let lastIdx := xs.length - 1
        let last ← bhGet xs lastIdx
        let ys := bhSwap xs lastIdx delIdx last v
        let zs := ys.set lastIdx (if isMin then ⊥ else ⊤)
        let ws ← siftDown isMin lastIdx xs.length zs delIdx
        .ok (ws.dropLast, false)
      else .ok (xs, true)
    | _ => .ok (xs, true)

/-- Python's `max` and `min` of a list -/
def pyExtreme (f : N → N → N) : List N → Except Err N
  | [] => .error .valueError
  | x :: xs => .ok (xs.foldl f x)

/-- the end at which the root is: `MinHeap.get_min` (min_heap.py:197-199), `MaxHeap.get_max`
(max_heap.py:232-234) -/
def bhFirst (xs : List N) : Except Err N :=
  if xs = [] then .error .indexError else bhGet xs 0

/-- the other end: `MinHeap.get_max` (min_heap.py:229-232), `MaxHeap.get_min` (max_heap.py:199-202) -/
def bhFarthest (isMin : Bool) (xs : List N) : Except Err N :=
  if xs = [] then .error .indexError
  else pyExtreme (if isMin then max else min) (xs.drop (xs.length / 2))

/-- `get_min` -/
def bhMin (h : BinHeap N) : Except Err N := if h.isMin then bhFirst h.arr else bhFarthest false h.arr

/-- `get_max` -/
def bhMax (h : BinHeap N) : Except Err N := if h.isMin then bhFarthest true h.arr else bhFirst h.arr

/-! ## Iteration -/

/-- a `HeapNode` made by `_transform`: its data and children; nodes are numbered in order of
creation -/
structure HNode (N : Type) where
  data : N
  left : Option Nat
  right : Option Nat
  deriving DecidableEq

/-- the loop of `_transform` — _heap.py:160-168; `nodes` are the nodes made so far, `q` the queue -/
def transformLoop (xs : List N) : Nat → List (HNode N) → List Nat → Nat → Except Err (List (HNode N))
  | fuel, nodes, q, idx =>
    if idx < xs.length then
      match fuel, q with
      | 0, _ => .error .diverge
      | _, [] => .error .indexError
      | fuel + 1, p :: q => do
        let a ← bhGet xs idx
        let l := nodes.length
        let nodes1 := nodes.modify p (fun nd => { nd with left := some l }) ++ [⟨a, none, none⟩]
        if idx + 1 < xs.length then do
          let b ← bhGet xs (idx + 1)
          let r := nodes1.length
          let nodes2 := nodes1.modify p (fun nd => { nd with right := some r }) ++ [⟨b, none, none⟩]
          transformLoop xs fuel nodes2 (q ++ [l, r]) (idx + 2)
        else transformLoop xs fuel nodes1 (q ++ [l]) (idx + 1)
    else .ok nodes

/-- `_transform` — _heap.py:155-171; the root is node 0 -/
def transform (xs : List N) : Except Err (List (HNode N)) :=
  match xs with
  | [] => .error .assertionError
  | x :: _ => transformLoop xs xs.length [⟨x, none, none⟩] [0] 1

/-- the data and the children of node `i`; `get_children` — binary_tree.py:211-216 -/
def hnode (nodes : List (HNode N)) (i : Nat) : Except Err (N × List Nat) :=
  match nodes[i]? with
  | none => .error .attributeError
  | some nd => .ok (nd.data, nd.left.toList ++ nd.right.toList)

/-- the `for` loop over one level: data yielded and nodes of the next level — tree.py:933-935 -/
def levelLoop (nodes : List (HNode N)) : List Nat → Except Err (List N × List Nat)
  | [] => .ok ([], [])
  | i :: is => do
    let (d, cs) ← hnode nodes i
    let (ds, next) ← levelLoop nodes is
    .ok (d :: ds, cs ++ next)

/-- the loop of `Tree.__iter__` — tree.py:931-936, run to the end -/
def levelsLoop (nodes : List (HNode N)) : Nat → List Nat → Except Err (List N)
  | _, [] => .ok []
  | 0, _ :: _ => .error .diverge
  | fuel + 1, i :: is => do
    let (ds, next) ← levelLoop nodes (i :: is)
    let rest ← levelsLoop nodes fuel next
    .ok (ds ++ rest)

/-- `list(iter(heap))` — _heap.py:367-369 -/
def bhIter (xs : List N) : Except Err (List N) := do
  let nodes ← transform xs
  levelsLoop nodes (xs.length + 1) [0]

/-! ## Calls -/

/-- a call of the public API -/
inductive BHOp (N : Type)
  | insert (v : NumArg N)
  | remove (v : NumArg N)
  | removeMin
  | removeMax
  | getMin
  | getMax
  | contains (v : NumArg N)
  | len
  | isEmpty
  | iter
  | toList
  | clear
  deriving DecidableEq

/-- what a call returns -/
inductive BHVal (N : Type)
  | unit
  | num (n : N)
  | nat (n : Nat)
  | bool (b : Bool)
  | list (xs : List N)
  deriving DecidableEq

/-- the outcome of a call: an exception, or a value and whether a warning was issued -/
abbrev BHRes (N : Type) := Except Err (BHVal N × Bool)

/-- a call that may change the items -/
def BinHeap.upd (h : BinHeap N) (r : Except Err (List N × Bool)) : BHRes N × BinHeap N :=
  match r with
  | .error e => (.error e, h)
  | .ok (xs, w) => (.ok (.unit, w), { h with arr := xs })

/-- one call; `__contains__` _heap.py:204-206, `__len__` :128, `is_empty` :142, `to_list` :381,
`clear` min_heap.py:476, `remove_min` min_heap.py:373, `remove_max` min_heap.py:403 (max_heap.py:375,
:405).  An exception in `insert` happens before anything is changed. -/
def BinHeap.exec (op : BHOp N) (h : BinHeap N) : BHRes N × BinHeap N :=
  match op with
  | .insert v => h.upd ((bhInsert h.isMin h.arr v).map (·, false))
  | .remove v => h.upd (bhRemove h.isMin h.arr v)
  | .removeMin => h.upd (bhMin h >>= fun m => bhRemove h.isMin h.arr (.num m))
  | .removeMax => h.upd (bhMax h >>= fun m => bhRemove h.isMin h.arr (.num m))
  | .getMin => ((bhMin h).map (fun m => (.num m, false)), h)
  | .getMax => ((bhMax h).map (fun m => (.num m, false)), h)
  | .contains v => (.ok (.bool (match v with
      | .num v => decide (v ∈ h.arr)
      | _ => false), false), h)
  | .len => (.ok (.nat h.arr.length, false), h)
  | .isEmpty => (.ok (.bool (decide (h.arr = [])), false), h)
  | .iter => ((bhIter h.arr).map (fun xs => (.list xs, false)), h)
  | .toList => (.ok (.list h.arr, false), h)
  | .clear => (.ok (.unit, false), { h with arr := [] })

/-- a history of calls on one heap -/
def BinHeap.execs : List (BHOp N) → BinHeap N → List (BHRes N) × BinHeap N
  | [], h => ([], h)
  | op :: ops, h =>
    let (r, h') := h.exec op
    let (rs, h'') := BinHeap.execs ops h'
    (r :: rs, h'')

/-- the loop of `heapify` — _heap.py:113-114 -/
def heapifyLoop (isMin : Bool) : List (NumArg N) → List N → Except Err (List N)
  | [], xs => .ok xs
  | v :: vs, xs => do
    let ys ← bhInsert isMin xs v
    heapifyLoop isMin vs ys

/-- `MinHeap.heapify(iterable)`, `MaxHeap.heapify(iterable)` — _heap.py:110-115 -/
def heapify (isMin : Bool) (items : List (NumArg N)) : Except Err (BinHeap N) := do
  let xs ← heapifyLoop isMin items []
  .ok ⟨isMin, xs⟩

end Extra
