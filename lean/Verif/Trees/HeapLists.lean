import Verif.Trees.BinHeap

/-!
# Heaps and the list objects they hand out — /repo/extra/trees/_heap.py

`Verif/Trees/BinHeap.lean` has the value of `_heap` only.  Here `_heap` is a reference to a list object, and
`to_list()` gives the caller this object (_heap.py:381), which the caller may change.
-/

namespace Extra
variable {N : Type} [LinearOrder N] [BoundedOrder N]

/-- list objects, heap objects (kind and the address of `_heap`) and the list objects the caller holds -/
structure HeapWorld (N : Type) where
  lists : Nat → List N
  nLists : Nat
  heaps : List (Bool × Nat)
  held : List Nat

/-- nothing yet -/
def HeapWorld.init : HeapWorld N := ⟨fun _ => [], 0, [], []⟩

/-- what the caller does: make a heap, call a method of the `i`-th heap, change or read the `j`-th list
received -/
inductive HWOp (N : Type)
  | new (isMin : Bool)
  | call (i : Nat) (op : BHOp N)
  | edit (j : Nat) (f : List N → List N)
  | read (j : Nat)

/-- what comes back -/
inductive HWRes (N : Type)
  | heap (i : Nat)
  | res (r : BHRes N)
  | handle (j : Nat)
  | list (xs : List N)
  | unit
  | missing
  deriving DecidableEq

/-- the list object at `a` gets new contents -/
def HeapWorld.put (w : HeapWorld N) (a : Nat) (xs : List N) : HeapWorld N :=
  { w with lists := fun b => if b = a then xs else w.lists b }

/-- one step: `MinHeap()` and `MaxHeap()` _heap.py:62; `to_list` :381 gives the object `_heap`; `clear`
:384-388, min_heap.py:476, max_heap.py:478 makes a new list object; the other methods change `_heap` in
place (:226-246, :325-354) -/
def HeapWorld.step (w : HeapWorld N) : HWOp N → HWRes N × HeapWorld N
  | .new isMin =>
    (.heap w.heaps.length,
      { w.put w.nLists [] with nLists := w.nLists + 1, heaps := w.heaps ++ [(isMin, w.nLists)] })
  | .call i op =>
    match w.heaps[i]? with
    | none => (.missing, w)
    | some (isMin, a) =>
      match op with
      | .toList => (.handle w.held.length, { w with held := w.held ++ [a] })
      | .clear =>
        (.res (.ok (.unit, false)),
          { w.put w.nLists [] with nLists := w.nLists + 1, heaps := w.heaps.set i (isMin, w.nLists) })
      | op =>
        let (r, h) := (⟨isMin, w.lists a⟩ : BinHeap N).exec op
        (.res r, w.put a h.arr)
  | .edit j f =>
    match w.held[j]? with
    | none => (.missing, w)
    | some a => (.unit, w.put a (f (w.lists a)))
  | .read j =>
    match w.held[j]? with
    | none => (.missing, w)
    | some a => (.list (w.lists a), w)

/-- a history -/
def HeapWorld.steps : List (HWOp N) → HeapWorld N → List (HWRes N) × HeapWorld N
  | [], w => ([], w)
  | op :: ops, w =>
    let (r, w') := w.step op
    let (rs, w'') := HeapWorld.steps ops w'
    (r :: rs, w'')

end Extra
