import Verif.Lists.SkipListSpec

/-!
# How often a search in a `SkipList` tests the condition of its loop

`search_sorted` (skip_list.py:74-106) walks right in one level; `_search` (skip_list.py:645-712)
calls it once for each level it visits.  The functions below are `searchSorted`, `skipSearchLoop`
and `skipSearch` of Verif/Lists/SkipList.lean that also count how often the condition of the loop
`while next_node is not None and next_node.get_data() <= value` (skip_list.py:102) is tested.

The specification follows.  The abstract state is the one of Verif/Lists/SkipListSpec.lean.
-/

namespace Extra
variable {N : Type} [LinearOrder N]
attribute [local instance] numData

/-- `search_sorted`, with the number of tests — skip_list.py:74-106 -/
def searchSortedC (v : N) :
    Nat → Option Addr → Addr → M N (Option Addr) ((Option Addr × Addr) × Nat)
  | 0, _, _ => M.throw .diverge
  | fuel + 1, prev, curr => do
    let nx ← getNext (some curr)
    match nx with
    | none => M.pure ((prev, curr), 1)
    | some n => do
      let d ← getData (some n)
      let le ← M.lift (dataLe d v)
      if le then do
        let (r, c) ← searchSortedC v fuel (some curr) n
        M.pure (r, c + 1)
      else M.pure ((prev, curr), 1)

/-- the loop of `_search` and the lines after it, with the number of tests —
skip_list.py:702-712 -/
def skipSearchLoopC (v : N) (num fuel : Nat) : Nat → Option Addr → Option Addr → List Addr →
    M N (Option Addr) ((Option Addr × Addr × List Addr) × Nat)
  | 0, _, _, _ => M.throw .diverge
  | k + 1, prev, start, acc => do
    let a ← deref start
    let dn ← getDown a
    match dn with
    | some _ => do
      let ((prev', found), c) ← searchSortedC v fuel prev a
      let d ← getData (some found)
      if d = some v then M.pure ((prev', found, acc), c)
      else do
        let start' ← getDown found
        let prev'' ← downPrev prev'
        let (r, c') ← skipSearchLoopC v num fuel k prev'' start' (acc ++ [found])
        M.pure (r, c + c')
    | none => do
      let ((prev', found), c) ← searchSortedC v fuel prev a
      if acc.length + 1 = num then M.pure ((prev', found, acc.reverse), c)
      else M.throw .assertionError

/-- `_search`, with the number of tests — skip_list.py:645-712 -/
def skipSearchC (v : N) : SM N ((Option Addr × Addr × List Addr) × Nat) := do
  let num ← getNum
  let top ← levelAt (num - 1)
  SM.onHeap (fun h =>
    skipSearchLoopC v num (h.nNodes + 1) (h.nNodes + 1) none (h.lobj top).head [] h)

/-- the number of tests a search makes -/
def skTests (v : N) (s : SkipList N) : Except Err Nat :=
  match (skipSearchC v s).1 with
  | .ok (_, c) => .ok c
  | .error e => .error e

/-! ## Specification -/

/-- how often a sequence reaches or passes the largest value so far, which is `m` to begin with -/
def records : Nat → List Nat → Nat
  | _, [] => 0
  | m, h :: hs => if m ≤ h then records h hs + 1 else records m hs

/-- the heads of the held numbers up to `v`, the one nearest to `v` first -/
def headsBelow (v : N) (st : List (N × Nat)) : List Nat :=
  ((st.filter (fun e => e.1 ≤ v)).map (·.2)).reverse

/-- the heads of `v`, if it is held -/
def headsAt (v : N) (st : List (N × Nat)) : Nat :=
  ((st.find? (fun e => e.1 = v)).map (·.2)).getD 0

/-- the number of tests a search for `v` should make: one for each number it walks to, and one
where it leaves a level.  Walking back from `v`, a number is walked to if no number on the way had
more heads; the levels below the highest one of `v` are not visited. -/
def searchTests (v : N) (st : List (N × Nat)) : Nat :=
  records 0 (headsBelow v st) + (towerHeight st - headsAt v st)

end Extra
