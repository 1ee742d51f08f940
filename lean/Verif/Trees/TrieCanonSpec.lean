import Verif.Trees.Trie

/-!
# Specification: when two tries have the same shape

The children of a node are kept in a `dict` (trie.py:42), and two `dict`s are equal when every key
gives equal values in both; the order of the keys does not count.
-/

namespace Extra

/-- two nodes have the same shape: the same data, the same word flag, and for every character
`get_child` gives `None` for both or children of the same shape -/
inductive SameShape : TNode → TNode → Prop
  | mk {t u : TNode} (data : t.data = u.data) (word : t.word = u.word)
      (kids : ∀ c, Option.Rel SameShape (t.kids.child c) (u.kids.child c)) : SameShape t u

end Extra
