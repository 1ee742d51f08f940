import Verif.Py
import Verif.Trees.Tree

/-!
# `Trie` and `RadixTrie` — /repo/extra/trees/trie.py, /repo/extra/trees/radix_trie.py

A node is its `_data`, `_is_word` and `_children`; the dictionary `_children` is the list of its
entries in insertion order.  `_parent` is not stored: a *reference* to a node is the string spelled
by the `_data` on the way from the root to it (without the root's own `"ROOT"`), which no operation
changes for a node that stays in the trie, and the parent of the node spelled by `p` is the node
spelled by `p` without the `_data` of the node.

Strings are lists of Unicode scalar values (Python strings with lone surrogates are not covered).
-/

namespace Extra

/-- strings -/
abbrev Word := List Char

/-- `_children`: a `dict` from characters to nodes, in insertion order — trie.py:41 -/
inductive Kids
  | nil
  | cons (key : Char) (data : Word) (word : Bool) (kids rest : Kids)
  deriving DecidableEq, Repr

/-- `TrieNode` — trie.py:39-42 -/
structure TNode where
  data : Word
  word : Bool
  kids : Kids
  deriving DecidableEq, Repr

/-- `get_child`: `None` for a missing key — trie.py:83-86 -/
def Kids.child (c : Char) : Kids → Option TNode
  | .nil => none
  | .cons k d b ks rest => if k = c then some ⟨d, b, ks⟩ else rest.child c

/-- `self._children[ch] = new_node`: in place for an existing key, else at the end — trie.py:130 -/
def Kids.set (c : Char) (t : TNode) : Kids → Kids
  | .nil => .cons c t.data t.word t.kids .nil
  | .cons k d b ks rest =>
    if k = c then .cons k t.data t.word t.kids rest else .cons k d b ks (rest.set c t)

/-- `del _children[ch]` for an existing key — trie.py:725 -/
def Kids.del (c : Char) : Kids → Kids
  | .nil => .nil
  | .cons k d b ks rest => if k = c then rest else .cons k d b ks (rest.del c)

/-- `get_children`, the values in insertion order — trie.py:66 -/
def Kids.toList : Kids → List TNode
  | .nil => []
  | .cons _ d b ks rest => ⟨d, b, ks⟩ :: rest.toList

/-- `is_leaf` — trie.py:144 -/
def TNode.isLeaf (t : TNode) : Bool := decide (t.kids = .nil)

/-- `set_child` for a string and a node — trie.py:130-131 -/
def TNode.setChild (t : TNode) (c : Char) (child : TNode) : TNode :=
  { t with kids := t.kids.set c child }

/-- the node below these children that the string refers to -/
def Kids.at : Kids → Word → Option TNode
  | .nil, _ => none
  | .cons k d b ks rest, p =>
    if p.head? = some k then
      if p = d then some ⟨d, b, ks⟩
      else if d <+: p then ks.at (p.drop d.length)
      else none
    else rest.at p

/-- the node the string refers to -/
def TNode.at (t : TNode) (p : Word) : Option TNode :=
  match p with
  | [] => some t
  | c :: p => t.kids.at (c :: p)

/-- an assignment to the fields of the node a string refers to -/
def Kids.modify (f : TNode → TNode) : Kids → Word → Kids
  | .nil, _ => .nil
  | .cons k d b ks rest, p =>
    if p.head? = some k then
      if p = d then .cons k (f ⟨d, b, ks⟩).data (f ⟨d, b, ks⟩).word (f ⟨d, b, ks⟩).kids rest
      else if d <+: p then .cons k d b (ks.modify f (p.drop d.length)) rest
      else .cons k d b ks rest
    else .cons k d b ks (rest.modify f p)

/-- an assignment to the fields of the node a string refers to -/
def TNode.modify (f : TNode → TNode) (t : TNode) (p : Word) : TNode :=
  match p with
  | [] => f t
  | c :: p => { t with kids := t.kids.modify f (c :: p) }

/-- `Trie`: `_root` and `_nodes_count` — trie.py:201-202 -/
structure Trie where
  root : TNode
  count : Int
  deriving DecidableEq, Repr

/-- `Trie()` and `clear` — trie.py:201-202, :753, radix_trie.py:104, :546, tree.py:1179 -/
def Trie.new : Trie := ⟨⟨"ROOT".toList, false, .nil⟩, 1⟩

/-- a change of one node -/
def Trie.modify (f : TNode → TNode) (t : Trie) (p : Word) : Trie :=
  { t with root := t.root.modify f p }

/-- what a caller may pass for a word -/
inductive StrArg
  | str (w : Word)
  | none
  | other
  deriving DecidableEq, Repr

/-- the characters `str.strip` removes (`str.isspace`) -/
def pySpace (c : Char) : Bool :=
  let n := c.toNat
  (9 ≤ n && n ≤ 13) || (28 ≤ n && n ≤ 32) || n = 0x85 || n = 0xa0 || n = 0x1680 ||
    (0x2000 ≤ n && n ≤ 0x200a) || n = 0x2028 || n = 0x2029 || n = 0x202f || n = 0x205f || n = 0x3000

/-- `len(word.strip()) == 0` — trie.py:232 -/
def blank (w : Word) : Bool := w.all pySpace

/-- `Trie._validate_item` — trie.py:226-235, interface.py:26-33 -/
def validWord (acceptEmpty : Bool) : StrArg → Except Err Word
  | .none => .error .valueError
  | .other => .error .typeError
  | .str w => if !acceptEmpty && blank w then .error .valueError else .ok w

/-! ## Following a path -/

/-- a variable holding a node: the reference and the node, or `None` -/
inductive Cursor
  | node (path : Word) (t : TNode)
  | none
  deriving DecidableEq, Repr

/-- the loop of `_follow_path`; a missing child counts as a child with the data `"}"` —
trie.py:530-540 -/
def followLoop : Nat → Cursor → Word → Except Err (Cursor × Word)
  | _, cur, [] => .ok (cur, [])
  | 0, _, _ :: _ => .error .diverge
  | _ + 1, .none, _ :: _ => .error .attributeError
  | n + 1, .node p t, ch :: w =>
    match t.kids.child ch with
    | some child =>
      if child.data = (ch :: w).take child.data.length then
        followLoop n (.node (p ++ child.data) child) ((ch :: w).drop child.data.length)
      else .ok (.node p t, ch :: w)
    | .none =>
      if "}".toList = (ch :: w).take 1 then followLoop n .none ((ch :: w).drop 1)
      else .ok (.node p t, ch :: w)

/-- `_follow_path` — trie.py:527-540 -/
def Trie.follow (t : Trie) (w : Word) : Except Err (Cursor × Word) :=
  followLoop w.length (.node [] t.root) w

/-- `last_node._is_word` -/
def Cursor.isWord : Cursor → Except Err Bool
  | .node _ t => .ok t.word
  | .none => .error .attributeError

/-- `__contains__` — trie.py:579-582, radix_trie.py:365 -/
def Trie.contains (t : Trie) : StrArg → Except Err Bool
  | .str w =>
    match t.follow w with
    | .error e => .error e
    | .ok (cur, r) => if r = [] then cur.isWord else .ok false
  | _ => .ok false

/-- `child.get_data() if child else ""` for `child = last_node.get_child(remaining[0])` —
trie.py:625-626, radix_trie.py:431-432, :598-599 -/
def TNode.childData (t : TNode) (c : Char) : Word :=
  match t.kids.child c with
  | some child => child.data
  | none => []

/-- `has_prefix` — trie.py:621-628, radix_trie.py:402 -/
def Trie.hasPrefix (t : Trie) : StrArg → Except Err Bool
  | .str w =>
    match t.follow w with
    | .error e => .error e
    | .ok (_, []) => .ok true
    | .ok (.none, _ :: _) => .error .attributeError
    | .ok (.node _ n, c :: r) => .ok (decide ((n.childData c).take (c :: r).length = c :: r))
  | _ => .ok false

/-! ## `Trie.insert` -/

/-- the loop of `insert` over the remaining characters; `p` refers to `curr_node` —
trie.py:665-669 -/
def addLoop : Word → Trie → Word → Trie × Word
  | [], t, p => (t, p)
  | ch :: r, t, p =>
    let t' := t.modify (fun n => n.setChild ch ⟨[ch], false, .nil⟩) p
    addLoop r { t' with count := t'.count + 1 } (p ++ [ch])

/-- `curr_node._is_word = b` -/
def Trie.mark (t : Trie) (b : Bool) (p : Word) : Trie := t.modify (fun n => { n with word := b }) p

/-- `insert`; an exception leaves the trie as it was — trie.py:662-670 -/
def Trie.insert (t : Trie) (x : StrArg) : Except Err Trie :=
  match validWord false x with
  | .error e => .error e
  | .ok w =>
    match t.follow w with
    | .error e => .error e
    | .ok (.none, _) => .error .attributeError
    | .ok (.node p _, r) => .ok ((addLoop r t p).1.mark true (addLoop r t p).2)

/-! ## `remove` -/

/-- the `while` of `remove`; `p` refers to `curr_node`.  The root has no parent, so that
`parent._children` fails on it — trie.py:722-727 -/
def climbLoop : Nat → Trie → Word → Except Err Unit × Trie
  | 0, t, _ => (.error .diverge, t)
  | fuel + 1, t, p =>
    match t.root.at p with
    | none => (.error .unmodelled, t)
    | some n =>
      if n.word = false ∧ n.isLeaf = true then
        match n.data with
        | [] => (.error .indexError, t)
        | ch :: _ =>
          if p = [] then (.error .attributeError, t)
          else
            match t.root.at (p.take (p.length - n.data.length)) with
            | none => (.error .unmodelled, t)
            | some parent =>
              match parent.kids.child ch with
              | none => (.error .keyError, t)
              | some _ =>
                let t' := t.modify (fun m => { m with kids := m.kids.del ch })
                  (p.take (p.length - n.data.length))
                climbLoop fuel { t' with count := t'.count - 1 } (p.take (p.length - n.data.length))
      else (.ok (), t)

/-- `remove`: the outcome (`true`: it warned) and the trie left behind, also after an exception —
trie.py:710-727, radix_trie.py:522 -/
def Trie.remove (t : Trie) : StrArg → Except Err Bool × Trie
  | .str [] => (.ok false, t)
  | .str (c :: w) =>
    match t.follow (c :: w) with
    | .error e => (.error e, t)
    | .ok (cur, []) =>
      match cur with
      | .none => (.error .attributeError, t)
      | .node p _ =>
        match climbLoop (p.length + 1) (t.mark false p) p with
        | (.ok (), t') => (.ok false, t')
        | (.error e, t') => (.error e, t')
    | .ok (_, _ :: _) => (.ok false, t)
  | _ => (.ok true, t)

/-! ## `auto_complete` -/

/-- `_get_candidates` for every child in turn; `acc` is `"".join(prev_prefixes)` —
trie.py:763-770, :822-823 -/
def Kids.candidates : Kids → Word → List Word
  | .nil, _ => []
  | .cons _ d b ks rest, acc =>
    (if b then [acc ++ d] else []) ++ ks.candidates (acc ++ d) ++ rest.candidates acc

/-- the candidates at and below a node reached by `prefix` — trie.py:820-823, radix_trie.py:612-616 -/
def TNode.candidates (t : TNode) (pre : Word) : List Word :=
  (if t.word then [pre] else []) ++ t.kids.candidates pre

/-- `Trie.auto_complete` — trie.py:814-824 -/
def Trie.autoComplete (t : Trie) (x : StrArg) : Except Err (List Word) :=
  match validWord true x with
  | .error e => .error e
  | .ok w =>
    match t.follow w with
    | .error e => .error e
    | .ok (.none, []) => .error .attributeError
    | .ok (.node _ n, []) => .ok (n.candidates w)
    | .ok (_, _ :: _) => .ok []

/-! ## `RadixTrie` -/

/-- the loop of `get_lcp` over `i`: how many characters agree — radix_trie.py:75-77 -/
def lcpLen : Word → Word → Nat
  | a :: as, b :: bs => if a ≠ b then 0 else lcpLen as bs + 1
  | _, _ => 0

/-- `get_lcp` — radix_trie.py:75-78 -/
def getLcp (w1 w2 : Word) : Word :=
  if lcpLen w1 w2 < min w1.length w2.length then w1.take (lcpLen w1 w2)
  else if w1.length < w2.length then w1 else w2

/-- the loop of `RadixTrie._insert`: `p` refers to `curr_node`.  When neither branch is taken,
`new_node` is unbound (an exception) or keeps its value (the loop goes on forever); the model does not
tell the two apart, and the proofs show that neither happens — radix_trie.py:429-450 -/
def radixLoop : Nat → Word → Trie → Word → Except Err (Trie × Word)
  | _, [], t, p => .ok (t, p)
  | 0, _ :: _, _, _ => .error .diverge
  | fuel + 1, ch :: r, t, p =>
    match t.root.at p with
    | none => .error .unmodelled
    | some n =>
      let cd := n.childData ch
      let idx := (getLcp cd (ch :: r)).length
      if idx = 0 then
        let t' := t.modify (fun m => m.setChild ch ⟨ch :: r, false, .nil⟩) p
        radixLoop fuel [] { t' with count := t'.count + 1 } (p ++ ch :: r)
      else if idx ≤ (ch :: r).length ∧ idx ≠ cd.length then
        match n.kids.child ch, cd[idx]?, cd with
        | some child, some c, c0 :: _ =>
          let mid : TNode := ⟨cd.take idx, false, Kids.nil.set c { child with data := cd.drop idx }⟩
          let t' := t.modify (fun m => m.setChild c0 mid) p
          radixLoop fuel ((ch :: r).drop idx) { t' with count := t'.count + 1 } (p ++ cd.take idx)
        | _, _, _ => .error .unmodelled
      else .error .unboundLocalError

/-- `RadixTrie._insert`: the trie and the node returned — radix_trie.py:425-454 -/
def Trie.radixAdd (t : Trie) (w : Word) : Except Err (Trie × Word) :=
  if w = [] then .error .assertionError
  else
    match t.follow w with
    | .error e => .error e
    | .ok (.none, []) => .error .attributeError
    | .ok (.none, _ :: _) => .error .attributeError
    | .ok (.node p _, r) =>
      match radixLoop (r.length + 1) r t p with
      | .error e => .error e
      | .ok (t', q) => .ok (t'.mark true q, q)

/-- `RadixTrie.insert` — radix_trie.py:485-486 -/
def Trie.radixInsert (t : Trie) (x : StrArg) : Except Err Trie :=
  match validWord false x with
  | .error e => .error e
  | .ok w =>
    match t.radixAdd w with
    | .error e => .error e
    | .ok (t', _) => .ok t'

/-- `RadixTrie.auto_complete` — radix_trie.py:590-617 -/
def Trie.radixComplete (t : Trie) (x : StrArg) : Except Err (List Word) :=
  match validWord true x with
  | .error e => .error e
  | .ok w =>
    match t.follow w with
    | .error e => .error e
    | .ok (.none, []) => .error .attributeError
    | .ok (.none, _ :: _) => .error .attributeError
    | .ok (.node _ n, []) => .ok (n.candidates w)
    | .ok (.node _ n, c :: r) =>
      let cd := n.childData c
      if (c :: r).length > cd.length ∨ cd.take (c :: r).length ≠ c :: r then .ok []
      else
        match n.kids.child c with
        | some child => .ok (child.candidates (w.take (w.length - (c :: r).length) ++ cd))
        | none => .error .attributeError

/-! ## Sizes and iteration -/

/-- `is_empty` — trie.py:291, radix_trie.py:157 -/
def Trie.isEmpty (t : Trie) : Bool := decide (t.count = 1)

/-- the children as `Tree`'s methods see them, through `get_children` — trie.py:66 -/
def Kids.rose : Kids → List (RTree Word)
  | .nil => []
  | .cons _ d _ ks rest => .node d ks.rose :: rest.rose

/-- a node as `Tree`'s methods see it -/
def TNode.rose (t : TNode) : RTree Word := .node t.data t.kids.rose

/-- `get_height` — trie.py:350, radix_trie.py:212, tree.py:709-711 -/
def Trie.height (t : Trie) : Nat := if t.isEmpty then 0 else t.root.rose.height

/-- `get_depth` — trie.py:378-380, radix_trie.py:239 -/
def Trie.depth (t : Trie) : Int := if t.isEmpty then 0 else t.root.rose.depthOf t.root.rose

/-- `count_leaf_nodes` — trie.py:411-413, radix_trie.py:268 -/
def Trie.leaves (t : Trie) : Nat := if t.isEmpty then 0 else t.root.rose.leaves

/-- `__iter__` and `to_list` — trie.py:444-451, :481, radix_trie.py:297, :325, tree.py:971-973 -/
def Trie.toList (t : Trie) : Except Err (List Word) :=
  if t.isEmpty then .ok []
  else treeIterLoop (RTree.countAll t.root.rose.children 0 + 1) t.root.rose.children []

/-- `get_nodes_per_level` — trie.py:857, radix_trie.py:648, tree.py:1145-1147 -/
def Trie.levels (t : Trie) : Except Err (List (List Word)) :=
  if t.isEmpty then .ok []
  else
    match t.root.rose.perLevel 0 [] with
    | .error e => .error e
    | .ok ls => .ok (ls.drop 1)

/-! ## Calls -/

/-- a call of the public API -/
inductive TrOp
  | insert (x : StrArg)
  | remove (x : StrArg)
  | contains (x : StrArg)
  | hasPrefix (x : StrArg)
  | len
  | isEmpty
  | clear
  deriving DecidableEq, Repr

/-- what a call returns -/
inductive TrRes
  | unit
  | warned
  | bool (b : Bool)
  | int (n : Int)
  deriving DecidableEq, Repr

/-- one call: the outcome and the trie left; `radix`: on a `RadixTrie` — trie.py:269, :291, :631,
:673, :542, :584, :729, radix_trie.py:135, :157, :456, :489, :328, :367, :524 -/
def trExec (radix : Bool) (t : Trie) : TrOp → Except Err TrRes × Trie
  | .insert x =>
    match (if radix then t.radixInsert x else t.insert x) with
    | .ok t' => (.ok .unit, t')
    | .error e => (.error e, t)
  | .remove x =>
    match t.remove x with
    | (.ok w, t') => (.ok (if w then .warned else .unit), t')
    | (.error e, t') => (.error e, t')
  | .contains x =>
    match t.contains x with
    | .ok b => (.ok (.bool b), t)
    | .error e => (.error e, t)
  | .hasPrefix x =>
    match t.hasPrefix x with
    | .ok b => (.ok (.bool b), t)
    | .error e => (.error e, t)
  | .len => (.ok (.int t.count), t)
  | .isEmpty => (.ok (.bool t.isEmpty), t)
  | .clear => (.ok .unit, Trie.new)

/-- a history of calls: the outcomes and the trie left -/
def trExecs (radix : Bool) : List TrOp → Trie → List (Except Err TrRes) × Trie
  | [], t => ([], t)
  | op :: ops, t =>
    match trExec radix t op with
    | (r, t') => match trExecs radix ops t' with
      | (rs, t'') => (r :: rs, t'')

end Extra
