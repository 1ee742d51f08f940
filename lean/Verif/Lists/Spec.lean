import Verif.Lists.LinkedList

/-!
# What the linked lists are supposed to do, on plain sequences

A small specification, independent of nodes and pointers.  A program holds numbered handles to
lists; the abstract state gives each handle the sequence it stands for.  `astep` says, for each
call, which results are allowed and what the sequences are afterwards.

From the implementation the specification only borrows the *types of arguments* (`Item`, `Idx`,
`Kind`, `Dir`, `Flag`), `PyData.norm` (the newline escaping) and `PyOrd` (element comparison).
-/

namespace Extra

/-- one call of the public API; `i`, `j` are handles -/
inductive Op (V : Type)
  | new (items : List (Item V))
  | addFront (i : Nat) (item : Item V)
  | addEnd (i : Nat) (item : Item V)
  | insert (i : Nat) (idx : Idx) (item : Item V)
  | setItem (i : Nat) (idx : Idx) (item : Item V)
  | delItem (i : Nat) (idx : Idx)
  | removeFront (i : Nat)
  | removeEnd (i : Nat)
  | remove (i : Nat) (item : Item V) (all : Option Bool)
  | clear (i : Nat)
  | rotate (i : Nat) (distance : Option Int) (dir : Dir) (inplace : Flag)
  | toList (i : Nat)
  | len (i : Nat)
  | isEmpty (i : Nat)
  | getItem (i : Nat) (idx : Idx)
  | contains (i : Nat) (v : Option V)
  | count (i : Nat) (v : Option V)
  | copy (i : Nat)
  | reverse (i : Nat)
  | split (i : Nat) (idx : Idx)
  | extend (i j : Nat)
  | eq (i j : Nat)
  | ne (i j : Nat)
  | lt (i j : Nat)
  | le (i j : Nat)
  | gt (i j : Nat)
  | ge (i j : Nat)

/-- what a call returns -/
inductive Out (V : Type)
  | unit
  | bool (b : Bool)
  | nat (n : Nat)
  | val (v : Option V)
  | list (xs : List (Option V))
  | handle (i : Nat)
  | handles (i j : Nat)
  deriving DecidableEq

abbrev Res (V : Type) := Except Err (Out V)

/-- the sequence behind each handle; `none`: the handle has been given away (its nodes were taken
over by `extend`) and the specification says nothing about it any more -/
abbrev AState (V : Type) := List (Option (List V))

section
variable {V : Type} [PyData V]

/-- items the containers accept -/
def specItem : Item V → Except Err V
  | .none => .error .valueError
  | .extra => .error .typeError
  | .val v => .ok (PyData.norm v)

/-- the items of an iterable, or the error of the first unacceptable one -/
def specItems : List (Item V) → Except Err (List V)
  | [] => .ok []
  | it :: its =>
    match specItem it with
    | .error e => .error e
    | .ok v => match specItems its with
      | .error e => .error e
      | .ok vs => .ok (v :: vs)

/-- a position argument that may not be negative: any natural number for the circular list,
at most the length for the others -/
def specPos (k : Kind) (n : Nat) : Idx → Except Err Nat
  | .other => .error .typeError
  | .slice _ _ _ => .error .indexError
  | .int i =>
    if i < 0 then .error .indexError
    else if k ≠ .cll ∧ (n : Int) < i then .error .indexError
    else .ok i.toNat

/-- position of an existing element (`n` is the length); the circular list wraps around -/
def specElt (k : Kind) (n : Nat) (idx : Idx) : Except Err Nat :=
  match specPos k n idx with
  | .error e => .error e
  | .ok p => if k = .cll then .ok (p % n) else if p = n then .error .indexError else .ok p

/-- `xs[idx]` for an integer index: the circular list wraps around and rejects negative indices, the
others count negative indices from the end -/
def specGet (k : Kind) (xs : List V) : Idx → Except Err V
  | .int i =>
    let i' := if k ≠ .cll ∧ i < 0 then i + xs.length
      else if k = .cll ∧ 0 ≤ i ∧ xs ≠ [] then i % xs.length else i
    if 0 ≤ i' then
      match xs[i'.toNat]? with
      | some x => .ok x
      | none => .error .indexError
    else .error .indexError
  | .slice _ _ _ => .error .indexError
  | .other => .error .typeError

/-- bounds of a Python slice over a sequence of length `n`, as documented for `slice.indices`:
a negative number counts from the end, then the bound is clipped to `[lo, hi]` -/
def specBound (n : Nat) (lo hi : Int) (dflt : Int) : Option Int → Int
  | none => dflt
  | some i => max lo (min hi (if i < 0 then i + n else i))

/-- the positions selected by a Python slice with non-zero step, in order -/
def specSlicePos (n : Nat) (start stop : Option Int) (step : Int) : List Nat :=
  if 0 < step then
    let s := specBound n 0 n 0 start
    let e := specBound n 0 n n stop
    (List.range n).filter (fun x => decide (s ≤ x ∧ (x : Int) < e ∧ ((x : Int) - s) % step = 0))
  else
    let s := specBound n (-1) (n - 1) (n - 1) start
    let e := specBound n (-1) (n - 1) (-1) stop
    (List.range n).reverse.filter
      (fun x => decide ((x : Int) ≤ s ∧ e < x ∧ (s - x) % (-step) = 0))

/-- Python's `xs[start:stop:step]` for `step ≠ 0` -/
def specSlice (xs : List V) (start stop : Option Int) (step : Int) : List V :=
  (specSlicePos xs.length start stop step).filterMap (fun x => xs[x]?)

/-- what the library returns for a slice: Python's slice for a positive step; for a negative step it
keeps only the last element of Python's slice (a defect, see property C12) -/
def specSliceImpl (xs : List V) (start stop step : Option Int) : Except Err (List V) :=
  let st := step.getD 1
  if st = 0 then .error .valueError
  else if 0 < st then .ok (specSlice xs start stop st)
  else .ok (specSlice xs start stop st).getLast?.toList

/-- element-wise comparison of two lists: the first pair of different elements for which the
operator is not true decides (`False`, or its exception); without such a pair `whenEq` is the answer
if the common prefix is equal, `whenDiff` otherwise -/
def specOrd (op : V → V → Except Err Bool) (xs ys : List V) (whenEq whenDiff : Prop)
    [Decidable whenEq] [Decidable whenDiff] : Except Err Bool :=
  match (xs.zip ys).find? (fun p => decide (p.1 ≠ p.2 ∧ op p.1 p.2 ≠ .ok true)) with
  | some p => match op p.1 p.2 with
    | .error e => .error e
    | .ok _ => .ok false
  | none => .ok (if ∀ p ∈ xs.zip ys, p.1 = p.2 then decide whenEq else decide whenDiff)

/-- the `inplace` argument: a boolean is required, except that `rotate_right` of `LinkedList` and
`CircularLinkedList` accepts any object for its truth value -/
def specFlag (k : Kind) (dir : Dir) : Flag → Except Err Bool
  | .bool b => .ok b
  | .other t => if k ≠ .dll ∧ dir = .right then .ok t else .error .typeError

/-- rotation by `d` -/
def specRotate (xs : List V) (d : Nat) : Dir → List V
  | .left => xs.rotateLeft d
  | .right => xs.rotateRight d

/-- one allowed result, new state -/
def one (r : Res V) (s : AState V) : Option (List (Res V) × AState V) := some ([r], s)

/-- the sequence behind a live handle -/
def AState.at? (s : AState V) (i : Nat) : Option (List V) := (s[i]?).bind id

/-- replace the sequence behind handle `i` -/
def AState.put (s : AState V) (i : Nat) (xs : List V) : AState V := s.set i (some xs)

/-- a call that updates list `i` or fails without effect -/
def specUpd (s : AState V) (i : Nat) (r : Except Err (List V)) :
    Option (List (Res V) × AState V) :=
  match r with
  | .error e => one (.error e) s
  | .ok xs => one (.ok .unit) (s.put i xs)

/-- a call that creates a list or fails without effect -/
def specNew (s : AState V) (r : Except Err (List V)) : Option (List (Res V) × AState V) :=
  match r with
  | .error e => one (.error e) s
  | .ok xs => one (.ok (.handle s.length)) (s ++ [some xs])

/-- a call that only reads -/
def specRead (s : AState V) (r : Except Err (Out V)) : Option (List (Res V) × AState V) := one r s

/-- the specification of each call.  `none`: the specification does not say (dead or unknown
handle, a list extended by itself). -/
def astep [PyOrd V] (k : Kind) (op : Op V) (s : AState V) : Option (List (Res V) × AState V) :=
  match op with
  | .new items => specNew s (specItems items)
  | .addFront i item => do
    let xs ← s.at? i
    specUpd s i ((specItem item).map (· :: xs))
  | .addEnd i item => do
    let xs ← s.at? i
    specUpd s i ((specItem item).map (fun v => xs ++ [v]))
  | .insert i idx item => do
    let xs ← s.at? i
    specUpd s i (match specPos k xs.length idx with
      | .error e => .error e
      | .ok p => (specItem item).map
          (fun v => xs.insertIdx (if k = .cll then p % (xs.length + 1) else p) v))
  | .setItem i idx item => do
    let xs ← s.at? i
    if k = .cll ∧ xs = [] then
      -- the circular list does not check for emptiness here: a list that has never held anything
      -- raises AttributeError, an emptied one accepts the value and forgets it
      match specPos k xs.length idx, item with
      | .error e, _ => one (.error e) s
      | .ok _, .none => one (.error .assertionError) s
      | .ok _, .extra => some ([.error .attributeError, .error .typeError], s)
      | .ok _, .val _ => some ([.error .attributeError, .ok .unit], s)
    else specUpd s i (match specElt k xs.length idx, item with
      | .error e, _ => .error e
      | .ok _, .none => .error (if k = .cll then .assertionError else .valueError)
      | .ok p, item => (specItem item).map (fun v => xs.set p v))
  | .delItem i idx => do
    let xs ← s.at? i
    specUpd s i (match specElt k xs.length idx with
      | .error e => .error e
      | .ok p => .ok (xs.eraseIdx p))
  | .removeFront i => do
    let xs ← s.at? i
    specUpd s i (.ok xs.tail)
  | .removeEnd i => do
    let xs ← s.at? i
    specUpd s i (.ok xs.dropLast)
  | .remove i item all => do
    let xs ← s.at? i
    specUpd s i (match all, item with
      | none, _ => .error .typeError
      | some _, .none => .error .valueError
      | some _, .extra => .error .typeError
      | some true, .val v => .ok (xs.filter (fun x => decide (x ≠ v)))
      | some false, .val v => .ok (xs.erase v))
  | .clear i => do
    let _ ← s.at? i
    specUpd s i (.ok [])
  | .rotate i d dir f => do
    let xs ← s.at? i
    match specFlag k dir f, d with
    | .error e, _ => one (.error e) s
    | .ok _, none => one (.error .typeError) s
    | .ok b, some d =>
      if d < 0 then one (.error .valueError) s
      else if b then specUpd s i (.ok (specRotate xs d.toNat dir))
      else specNew s (.ok (specRotate xs d.toNat dir))
  | .toList i => do
    let xs ← s.at? i
    specRead s (.ok (.list (xs.map some)))
  | .len i => do
    let xs ← s.at? i
    specRead s (.ok (.nat xs.length))
  | .isEmpty i => do
    let xs ← s.at? i
    specRead s (.ok (.bool (decide (xs = []))))
  | .getItem i idx => do
    let xs ← s.at? i
    match k, idx with
    | .cll, idx => specRead s ((specGet k xs idx).map (fun v => .val (some v)))
    | _, .slice start stop step => specNew s (specSliceImpl xs start stop step)
    | _, idx => specRead s ((specGet k xs idx).map (fun v => .val (some v)))
  | .contains i v => do
    let xs ← s.at? i
    specRead s (.ok (.bool (match v with
      | none => false
      | some v => decide (v ∈ xs))))
  | .count i v => do
    let xs ← s.at? i
    specRead s (.ok (.nat (match v with
      | none => 0
      | some v => xs.count v)))
  | .copy i => do
    let xs ← s.at? i
    specNew s (.ok xs)
  | .reverse i => do
    let xs ← s.at? i
    specNew s (.ok xs.reverse)
  | .split i idx => do
    let xs ← s.at? i
    match specPos k xs.length idx with
    | .error e => one (.error e) s
    | .ok p =>
      let p := if k = .cll then p % xs.length else p
      one (.ok (.handles s.length (s.length + 1))) (s ++ [some (xs.take p), some (xs.drop p)])
  | .extend i j => do
    let xs ← s.at? i
    let ys ← s.at? j
    if ys = [] then one (.ok .unit) s
    else if i = j then none
    else if k = .cll then one (.ok .unit) (s.put i (xs ++ ys))
    else one (.ok .unit) ((s.put i (xs ++ ys)).set j none)
  | .eq i j => do
    let xs ← s.at? i
    let ys ← s.at? j
    specRead s (.ok (.bool (decide (xs = ys))))
  | .ne i j => do
    let xs ← s.at? i
    let ys ← s.at? j
    specRead s (.ok (.bool (decide (xs ≠ ys))))
  | .lt i j => do
    let xs ← s.at? i
    let ys ← s.at? j
    specRead s ((specOrd PyOrd.lt xs ys (xs.length < ys.length) (xs.length ≤ ys.length)).map .bool)
  | .le i j => do
    let xs ← s.at? i
    let ys ← s.at? j
    specRead s ((specOrd PyOrd.le xs ys (xs.length ≤ ys.length) (xs.length ≤ ys.length)).map .bool)
  | .gt i j => do
    let xs ← s.at? i
    let ys ← s.at? j
    specRead s ((specOrd PyOrd.gt xs ys (xs.length > ys.length) (xs.length ≤ ys.length)).map .bool)
  | .ge i j => do
    let xs ← s.at? i
    let ys ← s.at? j
    specRead s ((specOrd PyOrd.ge xs ys (ys.length ≤ xs.length) (ys.length ≤ xs.length)).map .bool)

/-- a history of calls: allowed results of each, and the final state -/
def arun [PyOrd V] (k : Kind) : List (Op V) → AState V → Option (List (List (Res V)) × AState V)
  | [], s => some ([], s)
  | op :: ops, s => do
    let (rs, s') ← astep k op s
    let (rss, s'') ← arun k ops s'
    some (rs :: rss, s'')

end

end Extra
