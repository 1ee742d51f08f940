import Verif.Trees.Treap

/-!
# Treaps and the random numbers of the program — /repo/extra/trees/treap.py

`Verif/Trees/Treap.lean` is given the priority that `random.randint` draws.  Here the draws come from the one
generator of the module `random`, which all treaps (and the rest of the program) share.  The generator itself
is not modelled: it is any `seed` and `draw`.  What `random.seed(None)` takes from the machine is an input.
-/

namespace Extra
variable {N P S G : Type} [LinearOrder N] [LinearOrder P]

/-- a random number generator: its state after `random.seed(s)`, and `random.randint(0, 100)` -/
structure Rng (S G P : Type) where
  seed : S → G
  draw : G → P × G

/-- the state of the generator and the treap objects -/
structure TreapWorld (N P G : Type) where
  gen : G
  treaps : List (Bst N P)

/-- the priority argument of `insert`: a number, `None` or something else — treap.py:413-414 -/
inductive TreapPrioArg (P : Type)
  | num (p : P)
  | none
  | other
  deriving DecidableEq

/-- the argument `iterable` of the constructor — bst.py:353-359 -/
inductive IterArg (N : Type)
  | none
  | notIterable
  | items (vs : List (NumArg N))
  deriving DecidableEq

/-- the calls on a treap that neither insert nor clear -/
inductive TreapQuery (N : Type)
  | remove (v : NumArg N)
  | contains (v : NumArg N)
  | getMin
  | getMax
  | len
  | inorder
  deriving DecidableEq

/-- the call -/
def TreapQuery.op : TreapQuery N → TreapOp N P
  | .remove v => .remove v
  | .contains v => .contains v
  | .getMin => .getMin
  | .getMax => .getMax
  | .len => .len
  | .inorder => .inorder

/-- what the program does: make a treap, call a method of the `i`-th treap, draw a random number itself, or
leave the generator in some state (seeding it, or using it in other ways).  `entropy` is the seed that
`random.seed(None)` takes from the machine. -/
inductive TWOp (N P S G : Type)
  | new (seed : Option S) (entropy : S) (its : IterArg N)
  | insert (i : Nat) (v : NumArg N) (p : TreapPrioArg P)
  | query (i : Nat) (q : TreapQuery N)
  | clear (i : Nat) (entropy : S)
  | draw
  | outside (g : G)
  deriving DecidableEq

/-- what is returned: the number of the new treap, the result of a call, a random number -/
inductive TWRes (N P : Type)
  | made (i : Nat)
  | res (r : BstRes N)
  | drawn (p : P)
  | unit

/-- `insert`: the node, and with it the priority, is made after the arguments have been checked, before it is
known whether the value is new — treap.py:470-478, :72-79 -/
def Rng.insertNum (R : Rng S G P) (g : G) (t : Bst N P) (v : NumArg N) (p : TreapPrioArg P) :
    Except Err ((BstRes N × Bst N P) × G) :=
  match validNum v with
  | .error e => .ok ((.error e, t), g)
  | .ok _ =>
    match p with
    | .num p => do return (← treapInsertNum t v (.num p), g)
    | .other => do return (← treapInsertNum t v .other, g)
    | .none => do return (← treapInsertNum t v (.none (R.draw g).1), (R.draw g).2)

/-- the loop of the constructor: the exception it ends with, the treap and the generator —
bst.py:358-359 -/
def Rng.fill (R : Rng S G P) : List (NumArg N) → G → Bst N P →
    Except Err (Except Err Unit × Bst N P × G)
  | [], g, t => .ok (.ok (), t, g)
  | v :: vs, g, t => do
    let ((r, t'), g') ← R.insertNum g t v .none
    match r with
    | .error e => return (.error e, t', g')
    | .ok _ => R.fill vs g' t'

/-- `random.seed(seed)` — treap.py:248 -/
def Rng.seeded (R : Rng S G P) (seed : Option S) (entropy : S) : G := R.seed (seed.getD entropy)

/-- `__init__` on a new object — treap.py:248-249, bst.py:350-359 -/
def Rng.make (R : Rng S G P) (seed : Option S) (entropy : S) :
    IterArg N → Except Err (Except Err Unit × Bst N P × G)
  | .none => .ok (.ok (), Bst.empty, R.seeded seed entropy)
  | .notIterable => .ok (.error .typeError, Bst.empty, R.seeded seed entropy)
  | .items vs => R.fill vs (R.seeded seed entropy) Bst.empty

/-- one step; the outer `Except` is an exception from the middle of a call (or a treap that does not exist).
`clear` is `self.__init__()`, so it seeds the generator anew, with no seed — treap.py:608, bst.py:1056,
binary_tree.py:1381, tree.py:1179 -/
def TreapWorld.step (R : Rng S G P) (minusOne : P) (w : TreapWorld N P G) :
    TWOp N P S G → Except Err (TWRes N P × TreapWorld N P G)
  | .new seed entropy its => do
    match ← R.make seed entropy its with
    | (.error e, _, g) => return (.res (.error e), ⟨g, w.treaps⟩)
    | (.ok _, t, g) => return (.made w.treaps.length, ⟨g, w.treaps ++ [t]⟩)
  | .insert i v p =>
    match w.treaps[i]? with
    | none => .error .indexError
    | some t => do
      let ((r, t'), g) ← R.insertNum w.gen t v p
      return (.res r, ⟨g, w.treaps.set i t'⟩)
  | .query i q =>
    match w.treaps[i]? with
    | none => .error .indexError
    | some t => do
      let (r, t') ← treapExec minusOne t q.op
      return (.res r, ⟨w.gen, w.treaps.set i t'⟩)
  | .clear i entropy =>
    match w.treaps[i]? with
    | none => .error .indexError
    | some _ => .ok (.res (.ok (.unit, false)), ⟨R.seeded none entropy, w.treaps.set i Bst.empty⟩)
  | .draw => .ok (.drawn (R.draw w.gen).1, ⟨(R.draw w.gen).2, w.treaps⟩)
  | .outside g => .ok (.unit, ⟨g, w.treaps⟩)

/-- a history -/
def TreapWorld.steps (R : Rng S G P) (minusOne : P) : List (TWOp N P S G) → TreapWorld N P G →
    Except Err (List (TWRes N P) × TreapWorld N P G)
  | [], w => .ok ([], w)
  | op :: ops, w => do
    let (r, w') ← w.step R minusOne op
    let (rs, w'') ← TreapWorld.steps R minusOne ops w'
    return (r :: rs, w'')

end Extra
