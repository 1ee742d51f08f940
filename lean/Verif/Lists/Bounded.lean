import Verif.Lists.World
import Mathlib.Data.Rat.Floor

/-!
# What `Stack`, `Queue`, `Deque` and `PriorityQueue` share

Capacity arguments, results of calls, and the three-line rendering of a row of cells.
-/

namespace Extra

/-- a `max_capacity` argument: an `int` or finite `float`, one of the special floats, or an object
of another type (`bool` included: the code compares `type(...)` exactly) -/
inductive CapArg
  | num (q : Rat)
  | inf
  | negInf
  | nan
  | other
  deriving DecidableEq

/-- Python's `round(x)`: to the nearest integer, ties to even (language semantics) -/
def pyRound (q : Rat) : Int :=
  let f := q.floor
  let d := q - f
  if d < 1 / 2 then f
  else if 1 / 2 < d then f + 1
  else if f % 2 = 0 then f else f + 1

/-- the checks and the rounding of `max_capacity` — stack.py:61-72, queue.py:64-75.
The result is `self._max_capacity`, `none` for infinity; `round(nan)` raises `ValueError`. -/
def initCap : CapArg → Except Err (Option Nat)
  | .other => .error .typeError
  | .negInf => .error .valueError
  | .nan => .error .valueError
  | .inf => .ok none
  | .num q => if q < 0 then .error .valueError else .ok (some (pyRound q).toNat)

/-- `len(self._container) == self._max_capacity` — stack.py:178, queue.py:218 -/
def atCap (n : Nat) : Option Nat → Bool
  | none => false
  | some c => n == c

/-- what a call returns -/
inductive CVal (V : Type)
  | unit
  | item (v : Option V)
  | nat (n : Nat)
  | bool (b : Bool)
  | text (lines : List (List Char))
  deriving DecidableEq

/-- the outcome of a call: an exception, or a value and whether a warning was issued -/
abbrev CRes (V : Type) := Except Err (CVal V × Bool)

/-- `str(item)` of a stored item -/
class PyShow (V : Type) where
  str : V → List Char

/-- Python's `str` on the values of the model; objects print as some fixed text -/
instance : PyShow Val where
  str
    | .int n => (toString n).toList
    | .str s => s
    | .obj n => "<object ".toList ++ (toString n).toList ++ ">".toList

/-- the three lines built by the loops of stack.py:94-103 and queue.py:110-120: borders `tl`, `ml`,
`dl` on the left, then one cell per item -/
def cellLines (tl ml dl : List Char) (cells : List (List Char)) :
    List Char × List Char × List Char :=
  cells.foldl (fun (t, m, d) c =>
    let w := List.replicate (c.length + 2) '─'
    (t ++ w ++ ['┬'], m ++ [' '] ++ c ++ [' ', '│'], d ++ w ++ ['┴'])) (tl, ml, dl)

end Extra
