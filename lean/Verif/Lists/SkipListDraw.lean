import Verif.Lists.SkipList
import Verif.Lists.Draw

/-!
# The drawing of `SkipList`

The lines are built as Python lists of strings that are joined at the end; the model builds the joined
lines.
-/

namespace Extra
variable {N : Type} [LinearOrder N] [BoundedOrder N]

/-- `_represent`; the least and the greatest number are `-inf` and `inf`, `str` is Python's `str` —
skip_list.py:209-213 -/
def skLabel (str : N → List Char) : Option N → List Char
  | none => ['N', 'o', 'n', 'e']
  | some v => if v = ⊥ then ['-', '∞'] else if v = ⊤ then ['∞'] else str v

/-- `curr is not None and zeroth_node.get_data() == curr.get_data()`, and where `curr` goes then —
skip_list.py:407-414, :436-439 -/
def skipStep (z : Node N (Option Addr)) : Option Addr → M N (Option Addr) (Bool × Option Addr)
  | none => M.pure (false, none)
  | some c => do
    let nd ← nodeAt c
    if z.data = nd.data then M.pure (true, nd.next) else M.pure (false, some c)

/-- `__print_node` once the data are compared: `here` is `zeroth_node.get_data() == node.get_data()`,
`below` is `lower_node.get_data() == zeroth_node.get_data()`, both `False` if the node is `None`;
`bottom` is `lower_node is None` — skip_list.py:345-363 -/
def skipPart (item : List Char) (here below bottom : Bool) : List Char × List Char :=
  if here then
    (['|', ' '] ++ item ++ [' ', '│', '⟶'],
      (if bottom then ['└'] else ['├']) ++ times '─' (item.length + 2) ++
        (if bottom then ['┘', ' '] else ['┤', ' ']))
  else
    (['⟶'] ++ times '⟶' (item.length + 2) ++ ['⟶', '⟶'],
      if below then ['┌'] ++ times '─' (item.length + 2) ++ ['┐', ' ']
      else [' '] ++ times ' ' (item.length + 2) ++ [' ', ' '])

/-- the loop of `__print_level`; it has no counter, hence the fuel — skip_list.py:401-416 -/
def skipLevelLoop (str : N → List Char) : Nat → Option Addr → Option Addr → Option Addr →
    M N (Option Addr) (List Char × List Char)
  | _, none, _, _ => M.pure ([], [])
  | 0, some _, _, _ => M.throw .diverge
  | fuel + 1, some z, curr, lower => do
    let zn ← nodeAt z
    let (here, curr') ← skipStep zn curr
    let (below, lower') ← skipStep zn lower
    let (m, b) := skipPart (skLabel str zn.data) here below lower.isNone
    let (ms, bs) ← skipLevelLoop str fuel zn.next curr' lower'
    M.pure (m ++ ms, b ++ bs)

/-- the loop of `__print_top_border` — skip_list.py:433-443 -/
def skipTopLoop (str : N → List Char) : Nat → Option Addr → Option Addr →
    M N (Option Addr) (List Char)
  | _, none, _ => M.pure []
  | 0, some _, _ => M.throw .diverge
  | fuel + 1, some z, curr => do
    let zn ← nodeAt z
    let item := skLabel str zn.data
    let (here, curr') ← skipStep zn curr
    let t := if here then ['┌'] ++ times '─' (item.length + 2) ++ ['┐', ' ']
      else [' '] ++ times ' ' (item.length + 2) ++ [' ', ' ']
    let ts ← skipTopLoop str fuel zn.next curr'
    M.pure (t ++ ts)

/-- `self._level_lists[i]._head` -/
def levelHead (i : Nat) : SM N (Option Addr) := do
  let l ← levelAt i
  let o ← SM.onHeap (getList l)
  SM.pure o.head

/-- the number of nodes and one more: a loop that takes more rounds has visited some node twice -/
def skFuel : SM N Nat := fun s => (.ok (s.heap.nNodes + 1), s)

/-- `__print_level` — skip_list.py:389-416, as the list of the two lines -/
def skipLevel (str : N → List Char) (level : Nat) : SM N (List (List Char)) := do
  let num ← getNum
  if level < num then do
    let z ← levelHead 0
    let c ← levelHead level
    let d ← if 0 < level then levelHead (level - 1) else SM.pure none
    let fuel ← skFuel
    let (m, b) ← SM.onHeap (skipLevelLoop str fuel z c d)
    SM.pure [m, b]
  else SM.throw .assertionError

/-- `__print_top_border` — skip_list.py:426-443 -/
def skipTop (str : N → List Char) : SM N (List Char) := do
  let num ← getNum
  let z ← levelHead 0
  let c ← levelHead (num - 1)
  let fuel ← skFuel
  SM.onHeap (skipTopLoop str fuel z c)

/-- `for level in range(k - 1, -1, -1)` — skip_list.py:470-473 -/
def skipRows (str : N → List Char) : Nat → SM N (List (List Char))
  | 0 => SM.pure []
  | k + 1 => do
    let l ← skipLevel str k
    let ls ← skipRows str k
    SM.pure (l ++ ls)

/-- `__repr__` — skip_list.py:469-474; `"\n".join` of texts of two lines joined by a newline is the text
of all lines -/
def skRepr (str : N → List Char) : SM N (List Char) := do
  let t ← skipTop str
  let num ← getNum
  let ls ← skipRows str num
  SM.pure (joinLines (t :: ls))

end Extra
