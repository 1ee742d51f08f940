import Verif.Lists.LinkedList
import Verif.Lists.PriorityQueue
import Verif.Trees.NodeSet

/-!
# The setters of the nodes of lists as methods for callers

`Verif/Lists/LinkedList.lean` has `set_next`, `set_prev` and `set_data` as the lists use them; here the
checks of their arguments are added — /repo/extra/lists/linked_list.py:71-121, doubly_linked_list.py:72-118,
priority_queue.py:73-88.  As there, nodes of different classes are not mixed.
-/

namespace Extra
variable {V X P : Type} [PyData V]

/-- `a.set_next(x)` — linked_list.py:114-121, doubly_linked_list.py:110-118 -/
def nodeSetNext (k : Kind) (a : Addr) (x : NodeArg) : M V X Unit :=
  match x.link with
  | .error e => M.throw e
  | .ok c => setNext k a c

/-- `a.set_prev(x)` — doubly_linked_list.py:86-94 -/
def nodeSetPrev (a : Addr) (x : NodeArg) : M V X Unit :=
  match x.link with
  | .error e => M.throw e
  | .ok c => setPrev a c

/-- `a.set_data(item)` — linked_list.py:71-88 -/
def nodeSetData (a : Addr) (item : Item V) : M V X Unit :=
  match validateItem item with
  | .error e => M.throw e
  | .ok v => setDataRaw a (some (PyData.norm v))

/-- `a.set_priority(p)`: `None` is refused here — priority_queue.py:86-88 -/
def nodeSetPriority (a : Addr) (p : PrioArg P) : M V P Unit :=
  match p with
  | .num p => fun h => (.ok (), h.setNode a { h.node a with ext := p })
  | _ => M.throw .typeError

end Extra
