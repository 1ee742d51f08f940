import Verif.Lists.Queue
import Verif.Trees.Draw

/-!
# The drawings of `LinkedList`, `DoublyLinkedList` and `CircularLinkedList`

The three borders are built as Python lists of strings that are joined at the end; the model builds the
joined lines.  `repr` below is the list of lines; the method joins them with newlines.
-/

namespace Extra
variable {V X : Type} [PyShow V]

/-- the pieces of the three lines drawn for one node.  `LinkedList._print_node` — linked_list.py:280-290
(also used by `CircularLinkedList`), where `None` fails the assertion;
`DoublyLinkedList._print_node` — doubly_linked_list.py:268-280, where `None` has no `_represent` -/
def printNode (k : Kind) (p : Option Addr) : M V X (List Char × List Char × List Char) :=
  match k with
  | .dll => do
    let a ← deref p
    let nd ← nodeAt a
    let item := showData nd.data
    let top := [' ', '┌'] ++ times '─' (item.length + 2) ++ ['┐']
    let mid := ['⟷', '│'] ++ ([' '] ++ item ++ [' ', '│'])
    let low := [' ', '└'] ++ times '─' (item.length + 2) ++ ['┘']
    if nd.next.isNone then M.pure (top ++ [' '], mid ++ ['⟷'], low ++ [' '])
    else M.pure (top, mid, low)
  | _ =>
    match p with
    | none => M.throw .assertionError
    | some a => do
      let nd ← nodeAt a
      let item := showData nd.data
      M.pure (['┌'] ++ times '─' (item.length + 2) ++ ['┐', ' '],
        ['│'] ++ ([' '] ++ item ++ [' ', '│', '⟶']),
        ['└'] ++ times '─' (item.length + 2) ++ ['┘', ' '])

/-- the loop `while counter < self._length` of `_print_linked_list`; the first argument is
`self._length - counter` — linked_list.py:369-377 -/
def printLoop (k : Kind) : Nat → Option Addr → List Char × List Char × List Char →
    M V X (List Char × List Char × List Char)
  | 0, _, acc => M.pure acc
  | n + 1, curr, (t, m, d) => do
    let (t', m', d') ← printNode k curr
    let nx ← getNext curr
    printLoop k n nx (t ++ t', m ++ m', d ++ d')

/-- `_print_linked_list(start_node)` — linked_list.py:361-377 -/
def printList (k : Kind) (l : Addr) (start : Option Addr) :
    M V X (List Char × List Char × List Char) := do
  let o ← getList l
  if start.isNone then M.throw .assertionError else printLoop k o.length start ([], [], [])

/-- `__repr__`, as the list of its lines: `LinkedList` and `DoublyLinkedList` — linked_list.py:396-401,
:314-321; `CircularLinkedList` — circular_linked_list.py:125-144 -/
def llRepr (k : Kind) (l : Addr) : M V X (List (List Char)) := do
  let o ← getList l
  if o.length = 0 then M.pure [['┌', '─'], ['│'], ['└', '─']]
  else do
    let (t, m, d) ← printList k l o.head
    match k with
    | .cll => do
      let sec := m ++ [' ', '┐']
      let thrd := d ++ [' ', '│']
      let data ← getData o.head
      let left := ((showData data).length + 4) / 2
      let remaining := ((sec.length : Int) - 2) - left
      M.pure [t, sec, thrd,
        times ' ' left ++ ['↑'] ++ times ' ' remaining ++ ['│'],
        times ' ' left ++ ['└'] ++ times '─' remaining ++ ['┘']]
    | _ => M.pure [t, m, d]

/-- `repr` of the list behind a handle of a program -/
def World.repr (k : Kind) (w : World V X) (i : Nat) : Except Err (List Char) × Heap V X :=
  (do
    let l ← w.addr i
    let lines ← llRepr k l
    M.pure (joinLines lines) : M V X (List Char)) w.heap

end Extra
