import Verif.Trees.BinHeap

/-!
# Specification: the mirror image of a history of calls on a heap

Every number is replaced by `f` of it (such as its negative), and "min" and "max" change places.
-/

namespace Extra
variable {N M : Type}

/-- an argument with the number replaced -/
def NumArg.mirror (f : N → M) : NumArg N → NumArg M
  | .num n => .num (f n)
  | .none => .none
  | .other => .other

/-- a call with its argument replaced; calls about the minimum become calls about the maximum -/
def BHOp.mirror (f : N → M) : BHOp N → BHOp M
  | .insert v => .insert (v.mirror f)
  | .remove v => .remove (v.mirror f)
  | .removeMin => .removeMax
  | .removeMax => .removeMin
  | .getMin => .getMax
  | .getMax => .getMin
  | .contains v => .contains (v.mirror f)
  | .len => .len
  | .isEmpty => .isEmpty
  | .iter => .iter
  | .toList => .toList
  | .clear => .clear

/-- a returned value with the numbers replaced -/
def BHVal.mirror (f : N → M) : BHVal N → BHVal M
  | .unit => .unit
  | .num n => .num (f n)
  | .nat n => .nat n
  | .bool b => .bool b
  | .list xs => .list (xs.map f)

/-- an outcome with the numbers replaced: exceptions and warnings stay -/
def mirrorRes (f : N → M) : BHRes N → BHRes M
  | .error e => .error e
  | .ok (v, w) => .ok (v.mirror f, w)

/-- a `MinHeap` becomes a `MaxHeap` and the other way round -/
def BinHeap.mirror (f : N → M) (h : BinHeap N) : BinHeap M := ⟨!h.isMin, h.arr.map f⟩

end Extra
