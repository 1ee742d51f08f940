import Verif.Trees.PtrTree

/-!
# Iterating over a tree that changes meanwhile

`Tree.__iter__` is a generator: between two values the caller may change the tree.  Here it is
suspended at its `yield`, on the model with node objects (Verif/Trees/PtrTree.lean).
/repo/extra/trees/tree.py:929-937; binary_tree.py:902 and bst.py:1482 call it.
-/

namespace Extra
variable {N X Op : Type}

/-- the state of a generator made by `iter(tree)`: not yet started, suspended at its `yield` with
`node`, what is left of `current_nodes`, and `next_nodes`, or over -/
inductive TreeIter
  | fresh
  | susp (node : Addr) (rest next : List Addr)
  | over
  deriving DecidableEq, Repr

/-- what `next(it)` does: it returns a value, raises `StopIteration`, or raises something else -/
inductive TreeStep (N : Type)
  | item (v : N)
  | stop
  | raised (e : Err)
  deriving DecidableEq, Repr

/-- `get_children` — binary_tree.py:211-216 -/
def pChildren (s : PTree N X) (a : Addr) : List Addr :=
  match s.node a with
  | none => []
  | some n => n.left.toList ++ n.right.toList

/-- `yield node.get_data()` — tree.py:935 -/
def treeYield (s : PTree N X) (a : Addr) (rest next : List Addr) : TreeStep N × TreeIter :=
  match s.node a with
  | none => (.raised .unmodelled, .over)
  | some n => (.item n.data, .susp a rest next)

/-- `next(it)`: from the start (tree.py:929-934) or from the `yield` (tree.py:936-937) to the next `yield` or
the end -/
def treeNext (s : PTree N X) : TreeIter → TreeStep N × TreeIter
  | .fresh =>
    match s.root with
    | none => (.stop, .over)
    | some a => treeYield s a [] []
  | .susp a (b :: rest) next => treeYield s b rest (next ++ pChildren s a)
  | .susp a [] next =>
    match next ++ pChildren s a with
    | [] => (.stop, .over)
    | b :: rest => treeYield s b rest []
  | .over => (.stop, .over)

/-- what a program with one generator over one tree does: `next(it)`, or a call on the tree -/
inductive TreeAct (Op : Type)
  | next
  | call (op : Op)
  deriving DecidableEq, Repr

/-- run the acts; the answers of `next`, in order.  `exec` runs a call of the class. -/
def treeActs (exec : PTree N X → Op → PTree N X) :
    List (TreeAct Op) → PTree N X → TreeIter → List (TreeStep N) × PTree N X × TreeIter
  | [], s, it => ([], s, it)
  | .next :: as, s, it =>
    let r := treeNext s it
    let rest := treeActs exec as s r.2
    (r.1 :: rest.1, rest.2)
  | .call op :: as, s, it => treeActs exec as (exec s op) it

end Extra
