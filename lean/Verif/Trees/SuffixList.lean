import Verif.Trees.SuffixTrie

/-!
# Model of the iteration of `extra/trees/suffix_trie.py`
-/

namespace Extra

/-- the separator of a leaf's label — suffix_trie.py:118, :124, :318 -/
def arrow : Word := " ⟶ ".toList

/-- `node.split(" ⟶ ")[0]`: everything before the first separator — suffix_trie.py:318 -/
def beforeArrow : Word → Word
  | [] => []
  | c :: r => if arrow.isPrefixOf (c :: r) then [] else c :: beforeArrow r

/-- `__iter__` and `to_list` — suffix_trie.py:317-318, :349 -/
def SuffixTrie.toList (s : SuffixTrie) : Except Err (List Word) :=
  match s.rt.toList with
  | .error e => .error e
  | .ok l => .ok (l.map beforeArrow)

end Extra
