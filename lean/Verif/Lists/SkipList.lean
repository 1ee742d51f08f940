import Verif.Lists.LinkedList
import Verif.Trees.BinHeap

/-!
# `SkipList` — /repo/extra/lists/skip_list.py

The levels are `LinkedList` objects on the heap of `Verif.Lists.Heap`; the nodes are `SkipNode`s,
whose `ext` field is `_down`.  Numbers are the elements of a linear order with a least element,
which is `-inf`; `nan` is not modelled.  The coin flips of `insert` are an input: the number of
heads before the first tail.  `__repr__` is in
Verif/Lists/SkipListDraw.lean.
-/

namespace Extra
variable {N : Type} [LinearOrder N]

/-- a number is stored as it is given — linked_list.py:37-39 only changes strings -/
@[reducible] def numData : PyData N := ⟨inferInstance, id, fun _ => rfl⟩

attribute [local instance] numData

/-- the heap of skip list nodes: `ext` is `_down` — skip_list.py:134 -/
abbrev SHeap (N : Type) := Heap N (Option Addr)

/-- a `SkipList` object: `_level_lists` (bottom first) and `_num_levels` — skip_list.py:291-295 -/
structure SkipList (N : Type) where
  heap : SHeap N
  levels : List Addr
  numLevels : Nat

/-- computations on a `SkipList` object: the object survives an exception (language semantics) -/
def SM (N α : Type) : Type := SkipList N → Except Err α × SkipList N

namespace SM
variable {α β : Type}

/-- language semantics: a value -/
def pure (a : α) : SM N α := fun s => (.ok a, s)

/-- language semantics: sequencing -/
def bind (m : SM N α) (f : α → SM N β) : SM N β := fun s =>
  match m s with
  | (.ok a, s') => f a s'
  | (.error e, s') => (.error e, s')

/-- language semantics: raising -/
def throw (e : Err) : SM N α := fun s => (.error e, s)

instance : Monad (SM N) where
  pure := pure
  bind := bind

/-- run a computation on the heap -/
def onHeap (m : M N (Option Addr) α) : SM N α := fun s =>
  match m s.heap with
  | (r, h) => (r, { s with heap := h })

/-- run a pure check -/
def lift : Except Err α → SM N α
  | .ok a => pure a
  | .error e => throw e

end SM

/-- `self._num_levels` -/
def getNum : SM N Nat := fun s => (.ok s.numLevels, s)

/-- `self._level_lists[i]` -/
def levelAt (i : Nat) : SM N Addr := fun s =>
  match s.levels[i]? with
  | some l => (.ok l, s)
  | none => (.error .indexError, s)

/-- `node.get_down()` — skip_list.py:136-146 -/
def getDown (a : Addr) : M N (Option Addr) (Option Addr) := fun h => (.ok (h.node a).ext, h)

/-- assignment to `_down` — skip_list.py:164 -/
def setDownRaw (a d : Addr) : M N (Option Addr) Unit := fun h =>
  (.ok (), h.setNode a { h.node a with ext := some d })

/-- `node.set_down(other)` — skip_list.py:148-164: `None` is not a `SkipNode` -/
def setDown (a : Addr) : Option Addr → M N (Option Addr) Unit
  | none => M.throw .typeError
  | some d => setDownRaw a d

/-- `data <= value`: comparing `None` with a number raises `TypeError` (language semantics) -/
def dataLe : Option N → N → Except Err Bool
  | none, _ => .error .typeError
  | some d, v => .ok (decide (d ≤ v))

/-- `search_sorted` — skip_list.py:74-106.  The loop has no counter, hence the fuel. -/
def searchSorted (v : N) : Nat → Option Addr → Addr → M N (Option Addr) (Option Addr × Addr)
  | 0, _, _ => M.throw .diverge
  | fuel + 1, prev, curr => do
    let nx ← getNext (some curr)
    match nx with
    | none => M.pure (prev, curr)
    | some n => do
      let d ← getData (some n)
      let le ← M.lift (dataLe d v)
      if le then searchSorted v fuel (some curr) n else M.pure (prev, curr)

/-- `prev_node = prev_node.get_down()` if it is not `None` — skip_list.py:708-709 -/
def downPrev : Option Addr → M N (Option Addr) (Option Addr)
  | none => M.pure none
  | some p => getDown p

/-- the loop of `_search` and the lines after it — skip_list.py:702-712: the last node seen with
data `<= value`, the node before it, and the nodes where the levels above were left -/
def skipSearchLoop (v : N) (num fuel : Nat) : Nat → Option Addr → Option Addr → List Addr →
    M N (Option Addr) (Option Addr × Addr × List Addr)
  | 0, _, _, _ => M.throw .diverge
  | k + 1, prev, start, acc => do
    let a ← deref start
    let dn ← getDown a
    match dn with
    | some _ => do
      let (prev', found) ← searchSorted v fuel prev a
      let d ← getData (some found)
      if d = some v then M.pure (prev', found, acc)
      else do
        let start' ← getDown found
        let prev'' ← downPrev prev'
        skipSearchLoop v num fuel k prev'' start' (acc ++ [found])
    | none => do
      let (prev', found) ← searchSorted v fuel prev a
      if acc.length + 1 = num then M.pure (prev', found, acc.reverse) else M.throw .assertionError

/-- `_search` — skip_list.py:645-712 -/
def skipSearch (v : N) : SM N (Option Addr × Addr × List Addr) := do
  let num ← getNum
  let top ← levelAt (num - 1)
  SM.onHeap (fun h =>
    skipSearchLoop v num (h.nNodes + 1) (h.nNodes + 1) none (h.lobj top).head [] h)

/-- `_validate_item` — skip_list.py:567-586 -/
def skipItem : NumArg N → Except Err N
  | .num n => .ok n
  | .none => .error .valueError
  | .other => .error .typeError

/-- a new `LinkedList` with a sentinel `-inf` — skip_list.py:292-293, :818-820 -/
def newLevel [OrderBot N] : M N (Option Addr) Addr := do
  let l ← newList
  let o ← getList l
  let n ← newNode none ⊥
  let _ ← insertNode .ll l o.head n
  M.pure l

/-- `_add_extra_level` — skip_list.py:806-826 -/
def addLevel [OrderBot N] : SM N Addr := do
  let num ← getNum
  let top ← levelAt (num - 1)
  let l ← SM.onHeap newLevel
  let o ← SM.onHeap (getList l)
  let hd ← SM.onHeap (deref o.head)
  let t ← SM.onHeap (getList top)
  SM.onHeap (setDown hd t.head)
  fun s => (.ok l, { s with levels := s.levels ++ [l], numLevels := s.numLevels + 1 })

/-- `_promote` — skip_list.py:828-859 -/
def promote (prev curr : Addr) (level : Nat) : SM N Addr := do
  let num ← getNum
  if level < num then do
    let d ← SM.onHeap (getData (some curr))
    match d with
    | none => SM.throw .valueError
    | some v => do
      let n ← SM.onHeap (newNode none v)
      let l ← levelAt (level + 1)
      let n ← SM.onHeap (insertNode .ll l (some prev) n)
      SM.onHeap (setDownRaw n curr)
      SM.pure n
  else SM.throw .assertionError

/-- the loop of `insert` — skip_list.py:911-920; the first argument is the number of heads before
the first tail -/
def promoteLoop [OrderBot N] (last : List Addr) : Nat → Nat → Addr → SM N Unit
  | 0, _, _ => SM.pure ()
  | heads + 1, level, curr => do
    let num ← getNum
    if num - 1 ≤ level then do
      let l ← addLevel
      let o ← SM.onHeap (getList l)
      match o.head with
      | none => SM.throw .assertionError
      | some p => do
        let n ← promote p curr level
        promoteLoop last heads (level + 1) n
    else
      match last[level]? with
      | none => SM.throw .indexError
      | some p => do
        let n ← promote p curr level
        promoteLoop last heads (level + 1) n

/-- `insert` — skip_list.py:861-920; `heads` is the number of heads `flip_coin` shows before the
first tail -/
def skInsert [OrderBot N] (x : NumArg N) (heads : Nat) : SM N Unit := do
  let v ← SM.lift (skipItem x)
  let (_, found, last) ← skipSearch v
  let d ← SM.onHeap (getData (some found))
  if d = some v then SM.pure ()
  else do
    let n ← SM.onHeap (newNode none v)
    let l ← levelAt 0
    let n ← SM.onHeap (insertNode .ll l (some found) n)
    promoteLoop last heads 0 n

/-- `_remove_level` — skip_list.py:923-945 -/
def removeLevel (level : Nat) : SM N Unit := fun s =>
  if 1 ≤ level ∧ level < s.numLevels then
    if level < s.levels.length then
      (.ok (), { s with levels := s.levels.eraseIdx level, numLevels := s.numLevels - 1 })
    else (.error .indexError, s)
  else (.error .assertionError, s)

/-- a level that holds nothing but the sentinel goes, unless it is the bottom one —
skip_list.py:993-995 -/
def dropEmpty (level n : Nat) : SM N Unit :=
  if level ≠ 0 ∧ n = 1 then removeLevel level else SM.pure ()

/-- the inner loop of `remove` — skip_list.py:1001-1004: walk right until the next node holds `d`.
The loop has no counter, hence the fuel. -/
def walkTo (d : Option N) : Nat → Option Addr → M N (Option Addr) (Option Addr)
  | 0, _ => M.throw .diverge
  | fuel + 1, prev => do
    let nx ← getNext prev
    let e ← getData nx
    if e ≠ d then walkTo d fuel nx else M.pure prev

/-- the new `prev_node` — skip_list.py:999-1004 -/
def nextPrev : Option Addr → Option Addr → M N (Option Addr) (Option Addr)
  | some p, some f => do
    let pd ← getDown p
    let d ← getData (some f)
    fun h => walkTo d (h.nNodes + 1) pd h
  | prev, _ => M.pure prev

/-- the loop of `remove` — skip_list.py:990-1004; the first argument is `level + 1` -/
def skRemoveLoop : Nat → Option Addr → Option Addr → SM N Unit
  | 0, _, _ => SM.pure ()
  | level + 1, prev, found => do
    let l ← levelAt level
    match found with
    | none => SM.throw .assertionError
    | some f => do
      SM.onHeap (removeNode .ll l prev f)
      let n ← SM.onHeap (llLen l)
      dropEmpty level n
      let f' ← SM.onHeap (getDown f)
      let prev' ← SM.onHeap (nextPrev prev f')
      skRemoveLoop level prev' f'

/-- `remove` of a number — skip_list.py:985-1004 -/
def skRemoveNum (v : N) : SM N Unit := do
  let (prev, found, last) ← skipSearch v
  let d ← SM.onHeap (getData (some found))
  if d = some v then do
    let num ← getNum
    skRemoveLoop (num - last.length) prev (some found)
  else SM.pure ()

/-- `remove` — skip_list.py:947-1004: anything but a number is ignored -/
def skRemove : NumArg N → SM N Unit
  | .num v => skRemoveNum v
  | _ => SM.pure ()

/-- `__contains__` — skip_list.py:714-750 -/
def skContains : NumArg N → SM N Bool
  | .num v => do
    let (_, found, _) ← skipSearch v
    let d ← SM.onHeap (getData (some found))
    SM.pure (decide (d = some v))
  | _ => SM.pure false

/-- `__len__` — skip_list.py:477-497 -/
def skLen : SM N Nat := do
  let l ← levelAt 0
  let n ← SM.onHeap (llLen l)
  SM.pure (n - 1)

/-- `_validate_index` as `__getitem__` and `__delitem__` call it — skip_list.py:588-643 -/
def skIndex : Idx → SM N Nat
  | .slice _ _ _ => SM.throw .indexError
  | .other => SM.throw .typeError
  | .int i =>
    if i ≤ -1 then SM.throw .indexError
    else do
      let n ← skLen
      if i < -(n : Int) ∨ (n : Int) ≤ i then SM.throw .indexError else SM.pure i.toNat

/-- `__getitem__` — skip_list.py:752-803 -/
def skGet (idx : Idx) : SM N (Option N) := do
  let i ← skIndex idx
  let l ← levelAt 0
  SM.onHeap (getItem .ll l (.int (i + 1)))

/-- `__delitem__` — skip_list.py:1006-1056 -/
def skDel (idx : Idx) : SM N Unit := do
  let i ← skIndex idx
  let l ← levelAt 0
  let (_, node) ← SM.onHeap (getNode .ll l (i + 1))
  let d ← SM.onHeap (getData node)
  match d with
  | none => SM.pure ()
  | some v => skRemoveNum v

/-- `to_list` — skip_list.py:1085-1114, through `__iter__` :543-564: a new list is sliced off and
read -/
def skToList : SM N (List (Option N)) := do
  let l ← levelAt 0
  let out ← SM.onHeap (getSlice .ll l (some 1) none none)
  SM.onHeap (toList out)

/-- `SkipList()` in a heap, and `clear` — skip_list.py:291-295, :1058-1082 -/
def skClear [OrderBot N] : SM N Unit := do
  let l ← SM.onHeap newLevel
  fun s => (.ok (), { s with levels := [l], numLevels := 1 })

/-- a heap without objects -/
def emptySHeap : SHeap N := ⟨fun _ => ⟨none, none, none, none⟩, fun _ => ⟨none, none, 0⟩, 0, 0⟩

/-- `SkipList()` — skip_list.py:291-295 -/
def SkipList.new [OrderBot N] : SkipList N :=
  (skClear (N := N) ⟨emptySHeap, [], 0⟩).2

/-- a call of the public API; `heads` is the outcome of the coin flips -/
inductive SkOp (N : Type)
  | insert (x : NumArg N) (heads : Nat)
  | remove (x : NumArg N)
  | del (i : Idx)
  | contains (x : NumArg N)
  | get (i : Idx)
  | len
  | isEmpty
  | height
  | toList
  | clear

/-- what a call returns -/
inductive SkRes (N : Type)
  | unit
  | bool (b : Bool)
  | nat (n : Nat)
  | data (d : Option N)
  | list (ds : List (Option N))
  deriving DecidableEq

/-- run a call — skip_list.py:477-540, :714-803, :861-1114 -/
def skExec [OrderBot N] : SkOp N → SM N (SkRes N)
  | .insert x heads => do skInsert x heads; SM.pure .unit
  | .remove x => do skRemove x; SM.pure .unit
  | .del i => do skDel i; SM.pure .unit
  | .contains x => do let b ← skContains x; SM.pure (.bool b)
  | .get i => do let d ← skGet i; SM.pure (.data d)
  | .len => do let n ← skLen; SM.pure (.nat n)
  | .isEmpty => do let n ← skLen; SM.pure (.bool (decide (n = 0)))
  | .height => do let n ← getNum; SM.pure (.nat n)
  | .toList => do let ds ← skToList; SM.pure (.list ds)
  | .clear => do skClear; SM.pure .unit

/-- a history of calls: the results and the object left -/
def skExecs [OrderBot N] : List (SkOp N) → SkipList N → List (Except Err (SkRes N)) × SkipList N
  | [], s => ([], s)
  | op :: ops, s =>
    match skExec op s with
    | (r, s') => match skExecs ops s' with
      | (rs, s'') => (r :: rs, s'')

/-- `SkipList(iterable)` for an iterable that is not a `SkipList` — skip_list.py:302-307; each
element comes with the coin flips of its insertion.  An exception leaves no object. -/
def skFill [OrderBot N] : List (NumArg N × Nat) → SkipList N → Except Err (SkipList N)
  | [], s => .ok s
  | (x, heads) :: xs, s =>
    match skInsert x heads s with
    | (.ok _, s') => skFill xs s'
    | (.error e, _) => .error e

/-- `SkipList(iterable)` — skip_list.py:230-307 -/
def SkipList.ofList [OrderBot N] (xs : List (NumArg N × Nat)) : Except Err (SkipList N) :=
  skFill xs SkipList.new

end Extra
