import Verif.Lists.Iteration

/-!
# What a generator over a changing list answers, said without nodes

The state is the list of values and a cursor.  The cursor counts the items given so far and stands
on a *cell* of the list: a cell moves along with the cells around it when something is inserted or
removed before it.  Inserting makes one new cell, removing drops one cell, and the only thing one
has to know about the classes is which: see `newCell` and `deadCell`.
-/

namespace Extra
variable {V : Type}

/-- where the cursor stands: on the cell with index `i`; on a dropped cell, from which one first
comes to the dropped cells with the values `dead` and then to the cell with index `j` (`j` = the
length: to the end); or, after a circular list was emptied, nowhere we keep track of -/
inductive Place (V : Type)
  | on (i : Nat)
  | off (dead : List V) (j : Nat)
  | lost
  deriving DecidableEq, Repr

/-- a generator: not started; suspended after giving `count + 1` items; over -/
inductive IterPos (V : Type)
  | fresh
  | susp (count : Nat) (p : Place V)
  | over
  deriving DecidableEq, Repr

/-- where a new cell is made when a value is inserted at index `m`: there, but in front of a
circular list that is not empty the first cell stays and takes the new value -/
def newCell (k : Kind) (len m : Nat) : Nat := if k = .cll ∧ m = 0 ∧ len ≠ 0 then 1 else m

/-- which cell is dropped when the value at index `m` is removed (`2 ≤ len`): that one, but the
first cell stays and takes the second value, except in a doubly linked list of two values -/
def deadCell (k : Kind) (len m : Nat) : Nat :=
  if m = 0 ∧ ¬ (k = .dll ∧ len = 2) then 1 else m

/-- the cell after the cell `i` of `len` cells; the end is `len` -/
def cellAfter (k : Kind) (len i : Nat) : Nat := if k = .cll ∧ i + 1 = len then 0 else i + 1

/-- where one comes from a cell that was dropped: the cell after it, in the new numbering
(`len` and `d` are the old length and its old index) -/
def fallTo (k : Kind) (len d : Nat) : Nat := if k = .cll ∧ d + 1 = len then 0 else d

/-- insertion makes the cell `c` -/
def Place.grow (c : Nat) : Place V → Place V
  | .on i => .on (if i < c then i else i + 1)
  | .off dead j => .off dead (if j < c then j else j + 1)
  | .lost => .lost

/-- removal drops the cell `d` of the list `xs` -/
def Place.shrink (k : Kind) (xs : List V) (d : Nat) : Place V → Place V
  | .on i =>
    if i = d then .off [] (fallTo k xs.length d)
    else .on (if i < d then i else i - 1)
  | .off dead j =>
    if j = d then .off (dead ++ xs[d]?.toList) (fallTo k xs.length d)
    else .off dead (if j < d then j else j - 1)
  | .lost => .lost

/-- the list `xs` is emptied: all its cells are dropped -/
def Place.clear (k : Kind) (xs : List V) (p : Place V) : Place V :=
  if k = .cll then .lost
  else match p with
    | .on i => .off (xs.drop (i + 1)) 0
    | .off dead j => .off (dead ++ xs.drop j) 0
    | .lost => .lost

/-- the same for a cursor -/
def IterPos.map (f : Place V → Place V) : IterPos V → IterPos V
  | .susp c p => .susp c (f p)
  | cur => cur

/-- going to the cell with index `j`: there is none after the last cell of a linked or doubly
linked list -/
def goTo (xs : List V) (count j : Nat) : Step V × IterPos V :=
  match xs[j]? with
  | some v => (.item (some v), .susp count (.on j))
  | none => (.raised .attributeError, .over)

/-- `next(it)`; `none`: nothing is said -/
def IterPos.next (k : Kind) (xs : List V) : IterPos V → Option (Step V × IterPos V)
  | .fresh => some (if xs = [] then (.stop, .over) else goTo xs 0 0)
  | .over => some (.stop, .over)
  | .susp c p =>
    if xs.length ≤ c + 1 then some (.stop, .over)
    else match p with
      | .on i => some (goTo xs (c + 1) (cellAfter k xs.length i))
      | .off [] j => some (goTo xs (c + 1) j)
      | .off (v :: dead) j => some (.item (some v), .susp (c + 1) (.off dead j))
      | .lost => none

/-- values and cursor after inserting `v` at index `m` -/
def putValue (k : Kind) (m : Nat) (v : V) (s : List V × IterPos V) : List V × IterPos V :=
  (s.1.insertIdx m v, s.2.map (Place.grow (newCell k s.1.length m)))

/-- values and cursor after removing the value at index `m` -/
def dropAt (k : Kind) (m : Nat) (s : List V × IterPos V) : List V × IterPos V :=
  (s.1.eraseIdx m,
    if s.1.length = 1 then s.2.map (Place.clear k s.1)
    else s.2.map (Place.shrink k s.1 (deadCell k s.1.length m)))

/-- `del` for each occurrence of `v` (or the first one only), from left to right: the values from
index `m` on are `rest` -/
def dropValue (k : Kind) [DecidableEq V] (v : V) (all : Bool) :
    Nat → List V → List V × IterPos V → List V × IterPos V
  | _, [], s => s
  | m, z :: rest, s =>
    if z = v then if all then dropValue k v all m rest (dropAt k m s) else dropAt k m s
    else dropValue k v all (m + 1) rest s

/-- one call; `none`: an index out of range -/
def Act.spec [PyData V] (k : Kind) (s : List V × IterPos V) : Act V → Option (List V × IterPos V)
  | .next => some s
  | .insert i v => if i ≤ s.1.length then some (putValue k i (PyData.norm v) s) else none
  | .addFront v => some (putValue k 0 (PyData.norm v) s)
  | .addEnd v => some (putValue k s.1.length (PyData.norm v) s)
  | .setItem i v => if i < s.1.length then some (s.1.set i (PyData.norm v), s.2) else none
  | .delItem i => if i < s.1.length then some (dropAt k i s) else none
  | .removeFront => if s.1 = [] then some s else some (dropAt k 0 s)
  | .removeEnd => if s.1 = [] then some s else some (dropAt k (s.1.length - 1) s)
  | .remove v all => some (dropValue k v all 0 s.1 s)
  | .clear => some ([], s.2.map (Place.clear k s.1))

/-- the answers of `next` in a whole program, and the final state -/
def actsSpec [PyData V] (k : Kind) :
    List (Act V) → List V × IterPos V → Option (List (Step V) × List V × IterPos V)
  | [], s => some ([], s)
  | .next :: as, s =>
    match s.2.next k s.1 with
    | none => none
    | some r => (actsSpec k as (s.1, r.2)).map (fun q => (r.1 :: q.1, q.2))
  | a :: as, s =>
    match a.spec k s with
    | none => none
    | some s' => actsSpec k as s'

/-! ## Python's own lists, for comparison

The iterator of a Python `list` is an index: `next` gives the item at that index of the list as it is
then, and once the index has reached the end the iterator is over (language semantics). -/

/-- `next(it)` for the iterator of a Python list; `none`: it is over -/
def pyNext (xs : List V) : Option Nat → Step V × Option Nat
  | none => (.stop, none)
  | some n =>
    match xs[n]? with
    | some v => (.item (some v), some (n + 1))
    | none => (.stop, none)

/-- the values after a call; `none`: an index out of range -/
def Act.values [PyData V] (xs : List V) : Act V → Option (List V)
  | .next => some xs
  | .insert i v => if i ≤ xs.length then some (xs.insertIdx i (PyData.norm v)) else none
  | .addFront v => some (PyData.norm v :: xs)
  | .addEnd v => some (xs ++ [PyData.norm v])
  | .setItem i v => if i < xs.length then some (xs.set i (PyData.norm v)) else none
  | .delItem i => if i < xs.length then some (xs.eraseIdx i) else none
  | .removeFront => some xs.tail
  | .removeEnd => some xs.dropLast
  | .remove v all => some (if all then xs.filter (fun x => decide (x ≠ v)) else xs.erase v)
  | .clear => some []

/-- the answers of `next` in a whole program over a Python list -/
def pyActs [PyData V] : List (Act V) → List V × Option Nat → Option (List (Step V))
  | [], _ => some []
  | .next :: as, s =>
    (pyActs as (s.1, (pyNext s.1 s.2).2)).map ((pyNext s.1 s.2).1 :: ·)
  | a :: as, s =>
    match a.values s.1 with
    | none => none
    | some xs' => pyActs as (xs', s.2)

/-- the first index at which a value may move -/
def Act.from [PyData V] (xs : List V) : Act V → Nat
  | .insert i _ => i
  | .addFront _ => 0
  | .delItem i => i
  | .removeFront => 0
  | .removeEnd => xs.length - 1
  | .remove v _ => xs.idxOf v
  | .clear => 0
  | _ => xs.length

/-- nothing moves among the values the iterator has given already -/
def Ahead [PyData V] : List (Act V) → List V × Option Nat → Prop
  | [], _ => True
  | .next :: as, s => Ahead as (s.1, (pyNext s.1 s.2).2)
  | a :: as, s =>
    (∀ n, s.2 = some n → n ≤ a.from s.1) ∧ ∀ xs', a.values s.1 = some xs' → Ahead as (xs', s.2)

/-- `for x in ll: a`, up to the `n + 1`-st call of `next` -/
def rounds (a : Act V) : Nat → List (Act V)
  | 0 => [.next]
  | n + 1 => .next :: a :: rounds a n

end Extra
