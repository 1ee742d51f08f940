import Verif.Trees.TreeIteration

/-!
# Iterating over a search tree while values are put in: the specification

Trees of numbers, without node objects.  The values come in the order of the levels; of the tree as
it is when `next` is called, the first one that has not been given and is not lost.  A new value is lost if
the value above it has been passed (another one was given after it) or is lost itself.
-/

namespace Extra
variable {N : Type} [LinearOrder N]

/-- the values of a tree, in its shape -/
def BTree.bare {Y : Type} : BTree (N × Y) → BTree N
  | .nil => .nil
  | .node l w r => .node l.bare w.1 r.bare

/-- the values at a depth, from left to right -/
def BTree.row : Nat → BTree N → List N
  | _, .nil => []
  | 0, .node _ v _ => [v]
  | k + 1, .node l _ r => l.row k ++ r.row k

/-- how many nodes there are -/
def BTree.total : BTree N → Nat
  | .nil => 0
  | .node l _ r => l.total + r.total + 1

/-- level by level; there are no more levels than nodes -/
def BTree.byLevel (t : BTree N) : List N := (List.range t.total).flatMap fun k => t.row k

/-- a value is put into a search tree, as a leaf -/
def BTree.plant (v : N) : BTree N → BTree N
  | .nil => .node .nil v .nil
  | .node l w r =>
    if v < w then .node (l.plant v) w r
    else if w < v then .node l w (r.plant v)
    else .node l w r

/-- the value above the place where `v` is put (`p` if the tree is empty) -/
def BTree.under (v : N) : N → BTree N → N
  | p, .nil => p
  | _, .node l w r => if v < w then l.under v w else r.under v w

/-- a walk over a tree: the tree as it is, the values given, the values lost, and whether it has come to its
end -/
structure Walk (N : Type) where
  tree : BTree N
  given : List N
  lost : List N
  over : Bool

/-- a value is put in -/
def Walk.put (v : N) (w : Walk N) : Walk N :=
  if v ∈ w.tree.byLevel then w
  else if w.tree.under v v ∈ w.given.dropLast ++ w.lost then
    { w with tree := w.tree.plant v, lost := v :: w.lost }
  else { w with tree := w.tree.plant v }

/-- the next value -/
def Walk.next (w : Walk N) : TreeStep N × Walk N :=
  if w.over then (.stop, w)
  else
    match w.tree.byLevel.find? fun v => decide (v ∉ w.given ∧ v ∉ w.lost) with
    | some v => (.item v, { w with given := w.given ++ [v] })
    | none => (.stop, { w with over := true })

/-- what a call does to a walk: only `insert` of a number matters -/
def Walk.call : BstOp N → Walk N → Walk N
  | .insert (.num v), w => w.put v
  | _, w => w

/-- run the acts -/
def walkActs : List (TreeAct (BstOp N)) → Walk N → List (TreeStep N) × Walk N
  | [], w => ([], w)
  | .next :: as, w =>
    let r := w.next
    let rest := walkActs as r.2
    (r.1 :: rest.1, rest.2)
  | .call op :: as, w => walkActs as (w.call op)

/-- the calls a program may use between two calls of `next` -/
def Calm : TreeAct (BstOp N) → Prop
  | .call (.remove _) => False
  | .call .clear => False
  | .call .invert => False
  | _ => True

/-- the values among the answers of `next` -/
def TreeStep.values : List (TreeStep N) → List N
  | [] => []
  | .item v :: as => v :: values as
  | _ :: as => values as

/-- a walk over a tree, not yet started -/
def Walk.start (t : BTree N) : Walk N := ⟨t, [], [], false⟩

end Extra
