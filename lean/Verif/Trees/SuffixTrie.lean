import Verif.Trees.Trie
import Mathlib.Data.List.Sort

/-!
# `SuffixTrie` — /repo/extra/trees/suffix_trie.py

A node stored in `_leaf_nodes` is a reference as in `Verif/Trees/Trie.lean`: the string spelled from
the root.  A `set` is the list of its elements without duplicates; Python gives no order for it, so
nothing should be said about the order of what is made from it.
-/

namespace Extra

/-- `SuffixTrie`: `_word`, `_rt`, `_leaf_nodes`, `_suffix_array` — suffix_trie.py:110-116 -/
structure SuffixTrie where
  word : Word
  rt : Trie
  leaves : List (Nat × Word)
  array : List (Nat × Word)
  deriving DecidableEq, Repr

/-- `self._word[idx:] + "$ ⟶ " + str(idx)` — suffix_trie.py:118, :124 -/
def suffixKey (w : Word) (i : Nat) : Word := w.drop i ++ "$ ⟶ ".toList ++ Nat.toDigits 10 i

/-- the body of the loop of the constructor, with the string stored in the suffix array —
suffix_trie.py:118-121, :124-127 -/
def SuffixTrie.add (s : SuffixTrie) (i : Nat) (entry : Word) : Except Err SuffixTrie :=
  match s.rt.radixAdd (suffixKey s.word i) with
  | .error e => .error e
  | .ok (rt, node) => .ok { s with
      rt := rt.mark false node
      leaves := s.leaves ++ [(i, node)]
      array := s.array ++ [(i, entry)] }

/-- the loop of the constructor — suffix_trie.py:117-121 -/
def suffixLoop : List Nat → SuffixTrie → Except Err SuffixTrie
  | [], s => .ok s
  | i :: is, s =>
    match s.add i (s.word.drop i) with
    | .error e => .error e
    | .ok s' => suffixLoop is s'

/-- `SuffixTrie(word)` — suffix_trie.py:100-127, interface.py:26-33 -/
def SuffixTrie.new : StrArg → Except Err SuffixTrie
  | .none => .error .valueError
  | .other => .error .typeError
  | .str [] => .error .valueError
  | .str (c :: w) =>
    let word := (c :: w).filter (fun c => decide (c ≠ '$'))
    match suffixLoop (List.range word.length) ⟨word, Trie.new, [], []⟩ with
    | .error e => .error e
    | .ok s => s.add word.length ['$']

/-- `has_substring` — suffix_trie.py:388 -/
def SuffixTrie.hasSubstring (s : SuffixTrie) (x : StrArg) : Except Err Bool := s.rt.hasPrefix x

/-- `count_pattern_occurrences`; `_count_leaf_nodes(None)` fails its assertion —
suffix_trie.py:690-702, tree.py:842-849 -/
def SuffixTrie.countPattern (s : SuffixTrie) : StrArg → Except Err Nat
  | .str w =>
    match s.rt.follow w with
    | .error e => .error e
    | .ok (.none, []) => .error .assertionError
    | .ok (.none, _ :: _) => .error .attributeError
    | .ok (.node p n, []) => if p = [] then .ok 0 else .ok n.rose.leaves
    | .ok (.node _ n, c :: r) =>
      if (n.childData c).take (c :: r).length = c :: r then
        match n.kids.child c with
        | some child => .ok child.rose.leaves
        | none => .error .assertionError
      else .ok 0
  | _ => .ok 0

/-- `to_suffix_array`: `sorted` is a stable sort by the code points — suffix_trie.py:422 -/
def SuffixTrie.toSuffixArray (s : SuffixTrie) : List Nat :=
  (s.array.insertionSort (fun a b => a.2 ≤ b.2)).map Prod.fst

/-- the `while` of `_get_ancestors_data`; `p` refers to `parent` — suffix_trie.py:497-500 -/
def ancestorsLoop (t : Trie) : Nat → Word → List Word → Except Err (List Word)
  | 0, _, _ => .error .diverge
  | fuel + 1, p, acc =>
    if p = [] then .ok acc
    else
      match t.root.at p with
      | none => .error .unmodelled
      | some n => ancestorsLoop t fuel (p.take (p.length - n.data.length)) (acc ++ [n.data])

/-- `_get_ancestors_data` of the node `p` — suffix_trie.py:494-501 -/
def Trie.ancestorsData (t : Trie) (p : Word) : Except Err Word :=
  if p = [] then .ok []
  else
    match t.root.at p with
    | none => .error .unmodelled
    | some n =>
      match ancestorsLoop t (p.length + 1) (p.take (p.length - n.data.length)) [] with
      | .error e => .error e
      | .ok acc => .ok acc.reverse.flatten

/-- what a caller may pass for an index -/
inductive IdxArg
  | int (n : Int)
  | other
  deriving DecidableEq, Repr

/-- `get_lowest_common_ancestor` — suffix_trie.py:622-633 -/
def SuffixTrie.lca (s : SuffixTrie) : IdxArg → IdxArg → Except Err Word
  | .int i, .int j =>
    if i < 0 ∨ j < 0 then .error .valueError
    else if i ≥ s.word.length ∨ j > s.word.length then .error .valueError
    else
      match s.leaves.lookup i.toNat, s.leaves.lookup j.toNat with
      | some p, some q =>
        match s.rt.ancestorsData p, s.rt.ancestorsData q with
        | .ok a, .ok b => .ok (getLcp a b)
        | .error e, _ => .error e
        | .ok _, .error e => .error e
      | _, _ => .error .keyError
  | _, _ => .error .typeError

/-- the children of the node `p`, each node labelled with the reference to it -/
def Kids.refs (p : Word) : Kids → List (RTree Word)
  | .nil => []
  | .cons _ d _ ks rest => .node (p ++ d) (ks.refs (p ++ d)) :: rest.refs p

/-- the nodes of the trie, each labelled with the reference to it -/
def TNode.refs (t : TNode) : RTree Word := .node [] (t.kids.refs [])

/-- `__get_deepest_nodes` of a trie that is not empty — suffix_trie.py:440-445, tree.py:1096-1109 -/
def Trie.deepest (t : Trie) : Except Err (List Word) :=
  match t.root.refs.perLevel 0 [] with
  | .error e => .error e
  | .ok levels =>
    match levels.reverse with
    | [] => .error .indexError
    | [l] => .ok l
    | [l, _] => .ok l
    | l :: l' :: _ => .ok (l ++ l')

/-- the loop of `get_longest_common_substring`: `longest_length` and `lcs_set` —
suffix_trie.py:535-538 -/
def lcsLoop (t : Trie) : List Word → Nat → List Word → Except Err (Nat × List Word)
  | [], longest, set => .ok (longest, set)
  | p :: ps, longest, set =>
    match t.ancestorsData p with
    | .error e => .error e
    | .ok lcs => lcsLoop t ps (max longest lcs.length) (if lcs ∈ set then set else set ++ [lcs])

/-- `get_longest_common_substring` and `get_longest_repeated_substring` —
suffix_trie.py:531-540, :572 -/
def SuffixTrie.longestRepeated (s : SuffixTrie) : Except Err (List Word) :=
  if s.rt.isEmpty then .ok []
  else
    match s.rt.deepest with
    | .error e => .error e
    | .ok nodes =>
      match lcsLoop s.rt nodes 0 [] with
      | .error e => .error e
      | .ok (longest, set) => .ok (set.filter (fun x => decide (x.length = longest)))

/-- `__len__` — suffix_trie.py:163 -/
def SuffixTrie.len (s : SuffixTrie) : Int := s.rt.count

/-- `get_height` — suffix_trie.py:222 -/
def SuffixTrie.height (s : SuffixTrie) : Nat := s.rt.height

/-- `get_depth` — suffix_trie.py:252 -/
def SuffixTrie.depth (s : SuffixTrie) : Int := s.rt.depth

/-- `count_leaf_nodes` — suffix_trie.py:284 -/
def SuffixTrie.countLeaves (s : SuffixTrie) : Nat := s.rt.leaves

/-- the loop of `is_palindrome` — suffix_trie.py:45-47 -/
def palindromeLoop (w : Word) : List Nat → Bool
  | [] => true
  | i :: is => if w[i]? ≠ w[w.length - 1 - i]? then false else palindromeLoop w is

/-- `is_palindrome` — suffix_trie.py:43-48 -/
def isPalindrome (w : Word) : Bool := palindromeLoop w (List.range (w.length / 2))

end Extra
