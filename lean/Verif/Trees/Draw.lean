import Verif.Trees.Trie

/-!
# The drawings of `Tree`, `Trie` and `BinaryTree`

A line is a list of characters and a text is one list of characters with newlines in it.  `rep` is
`_represent`, the label drawn for a node; it is a parameter since the classes differ in it.
-/

namespace Extra
variable {V : Type}

/-- `"\n".join(lines)` -/
def joinLines : List (List Char) → List Char
  | [] => []
  | [l] => l
  | l :: m :: ls => l ++ '\n' :: joinLines (m :: ls)

/-! ## `Tree` -/

/-- the part of a line before the label; `parent` tells whether the node has children, `seq` whether
the nodes on the way to it are last children — tree.py:540-549 -/
def linePrefix (parent isLast : Bool) : List Bool → List Char
  | [] => []
  | _ :: seq =>
    seq.flatMap (fun b => if b then [' ', ' '] else ['│', ' ']) ++
      (if isLast then ['└', '─'] else ['├', '─']) ++ (if parent then ['┬', ' '] else ['─', ' '])

mutual
/-- `__print_subtree`: the lines so far and those of the subtree — tree.py:540-562 -/
def RTree.drawSub (rep : V → List Char) :
    RTree V → List (List Char) → Bool → List Bool → List (List Char)
  | .node d cs, lines, isLast, seq =>
    RTree.drawKids rep cs (lines ++ [linePrefix (!cs.isEmpty) isLast seq ++ rep d]) (seq ++ [isLast])
/-- the loop over the children — tree.py:558-561 -/
def RTree.drawKids (rep : V → List Char) :
    List (RTree V) → List (List Char) → List Bool → List (List Char)
  | [], lines, _ => lines
  | c :: cs, lines, seq => RTree.drawKids rep cs (c.drawSub rep lines cs.isEmpty seq) seq
end

/-- `__repr__`; `str1` is `str` of the data of a node — tree.py:623-628, :585 -/
def treeRepr (str1 rep : V → List Char) : Option (RTree V) → List Char
  | none => ['-', '-']
  | some (.node d cs) =>
    if cs.isEmpty then str1 d else joinLines ((RTree.node d cs).drawSub rep [] false [])

/-! ## `Trie`, `RadixTrie` -/

/-- the children, with the flag `_is_word`, as `Tree.__repr__` sees them — trie.py:66 -/
def Kids.flagged : Kids → List (RTree (Word × Bool))
  | .nil => []
  | .cons _ d b ks rest => .node (d, b) ks.flagged :: rest.flagged

/-- a node, with the flag `_is_word`, as `Tree.__repr__` sees it -/
def TNode.flagged (t : TNode) : RTree (Word × Bool) := .node (t.data, t.word) t.kids.flagged

/-- `TrieNode._represent` — trie.py:173-176 -/
def trieLabel (x : Word × Bool) : List Char := if x.2 then x.1 ++ [' ', '✓'] else x.1

/-- `__repr__` — trie.py:320, radix_trie.py:183, suffix_trie.py:189, tree.py:623-628 -/
def Trie.repr (t : Trie) : List Char :=
  if t.isEmpty then treeRepr (fun x : Word × Bool => x.1) trieLabel none
  else treeRepr (fun x => x.1) trieLabel (some t.root.flagged)

/-! ## `BinaryTree` -/

/-- `c * n`; nothing for a negative `n` -/
def times (c : Char) (n : Int) : List Char := List.replicate n.toNat c

/-- what `_print_subtree` returns — binary_tree.py:572-573 -/
structure Box where
  lines : List (List Char)
  width : Nat
  start : Int
  stop : Int
  deriving DecidableEq, Repr

/-- the loop that joins the boxes — binary_tree.py:566-570; `n` turns are left, `i` is the index -/
def joinBoxes (l r : Box) (gap : Nat) : Nat → Nat → List (List Char)
  | 0, _ => []
  | n + 1, i =>
    (l.lines.getD i (times ' ' l.width) ++ times ' ' gap ++ r.lines.getD i (times ' ' r.width)) ::
      joinBoxes l r gap n (i + 1)

/-- one node of `_print_subtree`, with the boxes of its children — binary_tree.py:522-573 -/
def nodeBox (label : List Char) (l r : Box) : Box :=
  let lRoot := (l.start + l.stop) / 2 + 1
  let rRoot := (r.start + r.stop) / 2
  let line1 := (if 0 < l.width then times ' ' (lRoot + 1) ++ times '_' (l.width - lRoot) else []) ++
    label ++ (if 0 < r.width then times '_' rRoot ++ times ' ' (r.width - rRoot + 1) else [])
  let line2 := (if 0 < l.width then times ' ' lRoot ++ ['/'] ++ times ' ' (l.width - lRoot) else []) ++
    times ' ' label.length ++
    (if 0 < r.width then times ' ' rRoot ++ ['\\'] ++ times ' ' (r.width - rRoot) else [])
  let start : Int := if 0 < l.width then l.width + 1 else 0
  let gap := label.length + (if 0 < l.width then 1 else 0) + (if 0 < r.width then 1 else 0)
  ⟨line1 :: line2 :: joinBoxes l r gap (max l.lines.length r.lines.length) 0, line1.length, start,
    start + label.length - 1⟩

/-- `_print_subtree`; the index is not used — binary_tree.py:519-573 -/
def BTree.box (rep : V → List Char) : BTree V → Box
  | .nil => ⟨[], 0, 0, 0⟩
  | .node l v r => nodeBox (rep v) (l.box rep) (r.box rep)

/-- `line.rstrip()` -/
def rstrip (l : List Char) : List Char := (l.reverse.dropWhile pySpace).reverse

/-- `__repr__` — binary_tree.py:630-633, :595 -/
def BTree.repr (rep : V → List Char) : BTree V → List Char
  | .nil => ['/', ' ', '\\']
  | .node l v r => joinLines ((BTree.box rep (.node l v r)).lines.dropLast.map rstrip)

end Extra
