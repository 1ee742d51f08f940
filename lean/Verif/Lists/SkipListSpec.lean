import Verif.Lists.SkipList

/-!
# Specification of `SkipList`

The abstract state is the strictly increasing list of the held numbers, each with the number of
heads its insertion drew.  Level `i` is made of the numbers that drew at least `i` heads.
-/

namespace Extra
variable {N : Type} [LinearOrder N]

/-- add a number that is not held yet -/
def towerInsert (v : N) (heads : Nat) (st : List (N × Nat)) : List (N × Nat) :=
  st.filter (fun e => e.1 < v) ++ (v, heads) :: st.filter (fun e => v < e.1)

/-- drop a number -/
def towerRemove (v : N) (st : List (N × Nat)) : List (N × Nat) :=
  st.filter (fun e => e.1 ≠ v)

/-- the number of levels: one more than the largest number of heads -/
def towerHeight (st : List (N × Nat)) : Nat := (st.map (·.2)).foldr max 0 + 1

/-- the numbers of level `i` -/
def towerLevel (st : List (N × Nat)) (i : Nat) : List N :=
  (st.filter (fun e => i ≤ e.2)).map (·.1)

/-- the held numbers -/
def towerVals (st : List (N × Nat)) : List N := st.map (·.1)

/-- the numbers of the levels, bottom first -/
def towerLevels (st : List (N × Nat)) : List (List N) :=
  (List.range (towerHeight st)).map (towerLevel st)

/-- the position an index argument denotes among `n` elements -/
def skPos (n : Nat) : Idx → Except Err Nat
  | .slice _ _ _ => .error .indexError
  | .other => .error .typeError
  | .int i => if 0 ≤ i ∧ i < n then .ok i.toNat else .error .indexError

/-- what a call should return and leave behind -/
def skSpec : SkOp N → List (N × Nat) → Except Err (SkRes N) × List (N × Nat)
  | .insert (.num v) heads, st =>
    (.ok .unit, if v ∈ towerVals st then st else towerInsert v heads st)
  | .insert .none _, st => (.error .valueError, st)
  | .insert .other _, st => (.error .typeError, st)
  | .remove (.num v), st => (.ok .unit, towerRemove v st)
  | .remove _, st => (.ok .unit, st)
  | .del idx, st =>
    match skPos st.length idx with
    | .ok i => (.ok .unit, st.eraseIdx i)
    | .error e => (.error e, st)
  | .contains (.num v), st => (.ok (.bool (decide (v ∈ towerVals st))), st)
  | .contains _, st => (.ok (.bool false), st)
  | .get idx, st =>
    match skPos st.length idx with
    | .ok i => (.ok (.data (towerVals st)[i]?), st)
    | .error e => (.error e, st)
  | .len, st => (.ok (.nat st.length), st)
  | .isEmpty, st => (.ok (.bool (decide (st = []))), st)
  | .height, st => (.ok (.nat (towerHeight st)), st)
  | .toList, st => (.ok (.list ((towerVals st).map some)), st)
  | .clear, _ => (.ok .unit, [])

/-- the results a history of calls should return, and what it should leave -/
def skSpecs : List (SkOp N) → List (N × Nat) → List (Except Err (SkRes N)) × List (N × Nat)
  | [], st => ([], st)
  | op :: ops, st =>
    ((skSpec op st).1 :: (skSpecs ops (skSpec op st).2).1, (skSpecs ops (skSpec op st).2).2)

/-- the number a call is given, if any -/
def SkOp.number : SkOp N → Option N
  | .insert (.num v) _ => some v
  | .remove (.num v) => some v
  | .contains (.num v) => some v
  | _ => none

end Extra
