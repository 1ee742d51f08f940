import Verif.Trees.Trie
import Verif.Trees.TreeIteration

/-!
# Iterating over a trie that changes meanwhile

`Trie.__iter__` is a generator, and `RadixTrie.__iter__` calls it: between two values the caller may insert and remove
words.  It is suspended at its `yield` with references to nodes.  A node that stays in the trie is the string that
leads to it, as in Verif/Trees/Trie.lean: `insert` of a `RadixTrie` may put a node above it and shorten its `_data`, but
that string stays (radix_trie.py:440-449).  `remove` deletes a node from the children of its parent only when it has no
children itself; a generator that has a reference to it keeps the node, with its `_data` and no children.  `clear`
makes a new root, so that a suspended generator goes on with the old nodes, which nothing changes any more.
-/

namespace Extra

/-- a reference to a node: the string that leads to it; for a node that was removed also its `_data` -/
structure TrRef where
  path : Word
  gone : Option Word
  deriving DecidableEq, Repr

/-- the state of a generator made by `iter(trie)`: not yet started, suspended at its `yield` with `node`, what is left
of `current_nodes`, and `next_nodes`, or over — trie.py:444-451 -/
inductive TrIter
  | fresh
  | susp (node : TrRef) (rest next : List TrRef)
  | over
  deriving DecidableEq, Repr

/-- `get_children` of the node a reference refers to — trie.py:66 -/
def TrRef.children (t : Trie) (r : TrRef) : List TrRef :=
  match r.gone with
  | some _ => []
  | none =>
    match t.root.at r.path with
    | none => []
    | some n => n.kids.toList.map fun u => ⟨r.path ++ u.data, none⟩

/-- `yield node.get_data()` — trie.py:449 -/
def trYield (t : Trie) (r : TrRef) (rest next : List TrRef) : TreeStep Word × TrIter :=
  match r.gone with
  | some d => (.item d, .susp r rest next)
  | none =>
    match t.root.at r.path with
    | none => (.raised .unmodelled, .over)
    | some n => (.item n.data, .susp r rest next)

/-- `next(it)`: from the start (trie.py:444-448) or from the `yield` (trie.py:450-451) to the next `yield` or the
end -/
def trNext (t : Trie) : TrIter → TreeStep Word × TrIter
  | .fresh =>
    if t.isEmpty then (.stop, .over)
    else
      match TrRef.children t ⟨[], none⟩ with
      | [] => (.stop, .over)
      | b :: rest => trYield t b rest []
  | .susp a (b :: rest) next => trYield t b rest (next ++ a.children t)
  | .susp a [] next =>
    match next ++ a.children t with
    | [] => (.stop, .over)
    | b :: rest => trYield t b rest []
  | .over => (.stop, .over)

/-- what becomes of a reference when a call turns the trie `t` into `t'` — trie.py:725 -/
def TrRef.after (t t' : Trie) (r : TrRef) : TrRef :=
  match r.gone, t.root.at r.path, t'.root.at r.path with
  | none, some n, none => { r with gone := some n.data }
  | _, _, _ => r

/-- … and of a generator -/
def TrIter.after (t t' : Trie) : TrIter → TrIter
  | .susp a rest next => .susp (a.after t t') (rest.map (TrRef.after t t')) (next.map (TrRef.after t t'))
  | it => it

/-- a program with one generator over one trie: the trie, the generator, and the trie the generator goes through if
the trie was cleared after it had been started -/
structure TrRun where
  trie : Trie
  it : TrIter
  old : Option Trie
  deriving DecidableEq, Repr

/-- a call on the trie — trie.py:753, radix_trie.py:546 for `clear` -/
def trCall (radix : Bool) (op : TrOp) (s : TrRun) : TrRun :=
  let t' := (trExec radix s.trie op).2
  match s.old, op, s.it with
  | none, .clear, .susp _ _ _ => ⟨t', s.it, some s.trie⟩
  | none, _, _ => ⟨t', s.it.after s.trie t', none⟩
  | some o, _, _ => ⟨t', s.it, some o⟩

/-- run the acts; the answers of `next`, in order; `radix`: on a `RadixTrie` -/
def trActs (radix : Bool) : List (TreeAct TrOp) → TrRun → List (TreeStep Word)
  | [], _ => []
  | .next :: as, s =>
    let r := trNext (s.old.getD s.trie) s.it
    r.1 :: trActs radix as { s with it := r.2 }
  | .call op :: as, s => trActs radix as (trCall radix op s)

/-- the calls among the acts -/
def callsOf : List (TreeAct TrOp) → List TrOp
  | [] => []
  | .next :: as => callsOf as
  | .call op :: as => op :: callsOf as

/-- a trie after some calls, and a generator over it that has not been started -/
def trIterates (radix : Bool) (ops : List TrOp) (as : List (TreeAct TrOp)) : List (TreeStep Word) :=
  trActs radix as ⟨(trExecs radix ops Trie.new).2, .fresh, none⟩

end Extra
