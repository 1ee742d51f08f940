import Verif.Lists.Heap

/-!
# `TreeNode` objects — /repo/extra/trees/tree.py

Tree.lean has a `Tree` as a value.  Here the nodes are objects that refer to each other, so that a node may be the child
of several nodes, or below itself.  A store gives for each object its data and children; objects not made yet are
nobody's children.  `none` for the result of a call is `RecursionError`: it makes nested calls, of which Python lets
there be `room`.
-/

namespace Extra
variable {V : Type}

/-- the node objects: `_data` and `_children` — tree.py:95-96 -/
abbrev TreeStore (V : Type) := Addr → V × List Addr

/-- an argument: a `TreeNode` or anything else -/
inductive TreeNodeArg
  | node (c : Addr)
  | other
  deriving DecidableEq

/-- `a.set_child(child)` — tree.py:162-167 -/
def tnSetChild (σ : TreeStore V) (a : Addr) : TreeNodeArg → Except Err Unit × TreeStore V
  | .other => (.error .typeError, σ)
  | .node c => (.ok (), upd σ a ((σ a).1, (σ a).2 ++ [c]))

/-- the loop of `set_children` — tree.py:201-207 -/
def tnChildren : List TreeNodeArg → List Addr → Except Err (List Addr)
  | [], out => .ok out
  | .other :: _, _ => .error .typeError
  | .node c :: rest, out => tnChildren rest (out ++ [c])

/-- `a.set_children(lst)`, with `none` for an object that is not iterable — tree.py:198-208 -/
def tnSetChildren (σ : TreeStore V) (a : Addr) : Option (List TreeNodeArg) → Except Err Unit × TreeStore V
  | none => (.error .typeError, σ)
  | some lst =>
    match tnChildren lst [] with
    | .error e => (.error e, σ)
    | .ok cs => (.ok (), upd σ a ((σ a).1, cs))

/-- `TreeNode.swap(node1, node2)` — tree.py:303-307 -/
def tnSwap (σ : TreeStore V) : TreeNodeArg → TreeNodeArg → Except Err Unit × TreeStore V
  | .node a, .node b => (.ok (), upd (upd σ a ((σ b).1, (σ a).2)) b ((σ a).1, (σ b).2))
  | _, _ => (.error .typeError, σ)

/-- `__count_nodes` — tree.py:438-441 -/
def tnCount (σ : TreeStore V) : Nat → Addr → Option Nat
  | 0, _ => none
  | room + 1, a => (σ a).2.foldlM (fun total c => (tnCount σ room c).map (total + ·)) 1

/-- `_get_height` — tree.py:672-675 -/
def tnHeight (σ : TreeStore V) : Nat → Addr → Option Nat
  | 0, _ => none
  | room + 1, a => (σ a).2.foldlM (fun height c => (tnHeight σ room c).map fun h => max height (1 + h)) 0

/-- `_count_leaf_nodes` — tree.py:844-849, :230 -/
def tnLeaves (σ : TreeStore V) : Nat → Addr → Option Nat
  | 0, _ => none
  | room + 1, a =>
    if (σ a).2.isEmpty then some 1
    else (σ a).2.foldlM (fun total c => (tnLeaves σ room c).map (total + ·)) 0

/-- the inner loop of `__iter__`: the values yielded, and `next_nodes` — tree.py:932-935 -/
def tnLevel (σ : TreeStore V) (current : List Addr) : List V × List Addr :=
  (current.map fun a => (σ a).1, current.flatMap fun a => (σ a).2)

/-- `__iter__`: the values yielded in the first `k` turns of the outer loop, and `current_nodes` after them; it ends
when there are none — tree.py:930-936 -/
def tnIter (σ : TreeStore V) : Nat → List Addr → List V × List Addr
  | 0, current => ([], current)
  | k + 1, current =>
    if current.isEmpty then ([], current)
    else ((tnLevel σ current).1 ++ (tnIter σ k (tnLevel σ current).2).1, (tnIter σ k (tnLevel σ current).2).2)

end Extra
