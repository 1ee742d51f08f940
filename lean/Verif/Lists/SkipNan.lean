import Verif.Lists.SkipListSpec
import Verif.Trees.BstNan

/-!
# `SkipList` with `nan` — /repo/extra/lists/skip_list.py

`type(float("nan"))` is `float`, so `insert` takes `nan` like any number (skip_list.py:131, :585).  SkipList.lean has
numbers of a linear order only.  Here are `_search`, `in` and `insert` for numbers that may be `nan`, on the sequence of the
numbers at the bottom (without the sentinel), each with the number of levels above the bottom it is on; without `nan` this
is what the model with pointers represents (C122_without_nan_partial).  A node that is inserted comes, on each level, after
the node at which the search left that level, which is where its place at the bottom says it has to be, because the
search goes no further below than to the next node of the level.
-/

namespace Extra
variable {N : Type} [LinearOrder N] [OrderBot N]

omit [OrderBot N] in
/-- `a <= b` -/
def PyNum.le : PyNum N → PyNum N → Bool
  | .num a, .num b => decide (a ≤ b)
  | _, _ => false

omit [OrderBot N] in
/-- `search_sorted` on a level, from before these nodes of the bottom: how many of them it leaves behind.  Nodes that are not
on the level are passed over — skip_list.py:100-106 -/
def nsWalk (level : Nat) (v : PyNum N) : List (PyNum N × Nat) → Nat
  | [] => 0
  | e :: es =>
    if e.2 < level then
      match nsWalk level v es with
      | 0 => 0
      | k + 1 => k + 2
    else if e.1.le v then nsWalk level v es + 1
    else 0

/-- `found_node.get_data() == value` for the node before position `i`; before position 0 is the sentinel `-inf` —
skip_list.py:704, :750, :903 -/
def nsFound (v : PyNum N) (st : List (PyNum N × Nat)) : Nat → Bool
  | 0 => (PyNum.num ⊥).eq v
  | i + 1 =>
    match st[i]? with
    | some e => e.1.eq v
    | none => false

/-- the loop of `_search` and the line after it, for `level + 1` levels yet to go: the position after the node found —
skip_list.py:702-712 -/
def nsDown (v : PyNum N) (st : List (PyNum N × Nat)) : Nat → Nat → Nat
  | 0, i => i
  | 1, i => i + nsWalk 0 v (st.drop i)
  | level + 2, i =>
    let j := i + nsWalk (level + 1) v (st.drop i)
    if nsFound v st j then j else nsDown v st (level + 1) j

omit [OrderBot N] [LinearOrder N] in
/-- `_num_levels`: levels are added as nodes are promoted — skip_list.py:913-914 -/
def nsLevels (st : List (PyNum N × Nat)) : Nat := (st.map (·.2)).foldr max 0 + 1

/-- `_search` — skip_list.py:699-712 -/
def nsSearch (v : PyNum N) (st : List (PyNum N × Nat)) : Nat := nsDown v st (nsLevels st) 0

/-- `value in sl`, for a number — skip_list.py:748-750 -/
def nsContains (v : PyNum N) (st : List (PyNum N × Nat)) : Bool := nsFound v st (nsSearch v st)

/-- `insert` of a number, with the number of heads before the first tail — skip_list.py:899-920 -/
def nsInsert (v : PyNum N) (heads : Nat) (st : List (PyNum N × Nat)) : List (PyNum N × Nat) :=
  if nsContains v st then st
  else st.take (nsSearch v st) ++ (v, heads) :: st.drop (nsSearch v st)

/-- the calls -/
inductive NsOp (V : Type)
  | insert (v : V) (heads : Nat)
  | remove (v : V)
  | contains (v : V)
  | toList
  | clear

/-- what a call returns; `damaged` is explained at `nsRemove` -/
inductive NsRes (V : Type)
  | unit
  | bool (b : Bool)
  | list (vs : List V)
  | damaged
deriving DecidableEq

/-- `remove` of a number — skip_list.py:985-1004.  Below the level on which the number was found, the loop at :1001-1004
goes to the first node that holds an equal number.  If that were not the node that was found, more than this node would
be cut out of the level, and what is left would not be such a sequence.  `damaged` stands for that, for any earlier entry
with the number; it does not happen (C122_not_damaged_partial). -/
def nsRemove (v : PyNum N) (st : List (PyNum N × Nat)) : NsRes (PyNum N) × List (PyNum N × Nat) :=
  if nsContains v st then
    if (st.take (nsSearch v st - 1)).any (fun e => e.1.eq v) then (.damaged, st)
    else (.unit, st.eraseIdx (nsSearch v st - 1))
  else (.unit, st)

/-- one call: `insert`, `remove`, `in`, the list of what the iteration over the bottom gives, `clear` —
skip_list.py:899-920, :985-1004, :748-750, :1085-1114 with :543-564, :1064-1082.  `del sl[i]` is `remove` of the number
at `i` (:1062) -/
def nsExec (st : List (PyNum N × Nat)) : NsOp (PyNum N) → NsRes (PyNum N) × List (PyNum N × Nat)
  | .insert v heads => (.unit, nsInsert v heads st)
  | .remove v => nsRemove v st
  | .contains v => (.bool (nsContains v st), st)
  | .toList => (.list (st.map (·.1)), st)
  | .clear => (.unit, [])

/-- calls one after the other -/
def nsExecs : List (NsOp (PyNum N)) → List (PyNum N × Nat) → List (NsRes (PyNum N)) × List (PyNum N × Nat)
  | [], st => ([], st)
  | op :: ops, st =>
    ((nsExec st op).1 :: (nsExecs ops (nsExec st op).2).1, (nsExecs ops (nsExec st op).2).2)

end Extra
