# Formal model of Anwarvic/extra-collections in Lean 4

`properties.jsonl` lists the properties, `MANIFEST.json` says which theorems settle which property,
`lean/Verif/Props/*.lean` holds these theorems (and nothing else but the examples beside them),
`seeded/LOG.jsonl` records the wrong programs the theorems were tested against.

## Approach

Each Python module under `/repo/extra` has a Lean module that transcribes it function by function, branch by
branch. Every definition of the model cites the lines it transcribes. Exceptions are values (`Err` in
`Verif/Py.lean`): `valueError`, `typeError`, `indexError`, `attributeError` (a dereference of `None`),
`assertionError`, `overflowError`, `unboundLocalError`, `notImplementedError`, `keyError`. Two further values
are not Python exceptions:

* `diverge`: the fuel of a loop ran out. Theorems that say a call returns also say the fuel given by the model
  was enough; theorems that say a call does not terminate are stated for every fuel.
* `unmodelled`: the code went on to do something the model has no representation for (two links to one node).
  No theorem treats this value as success.

For each class there is a small specification that does not use the model (`*Spec.lean`): sequences for the
lists and queues, a sorted sequence for the skip list, bags for the heaps, paths from the root for the trees,
sorted lists for the search trees, a map for the treap, sets of words for the tries, the substrings of the word
for the suffix trie. Most theorems say that every history of API calls, with arbitrary arguments, answers what
the specification answers; the others say what one call does on any object that satisfies the invariant.

### Map of the modules

| Python | Model | Specification | Helper proofs | Properties |
|---|---|---|---|---|
| linked_list.py, doubly_linked_list.py, circular_linked_list.py | Lists/Heap, LinkedList, World | Lists/Spec | Lists/Run, Rep, Contracts, Remove, Reads, Ops, Build, Extend, Compare, Slice, SliceCall, Calls, Refine, Reach, PropsAux, SelfExtend | Props/Lists, ListsExact: C01-C14 |
| stack.py, queue.py, deque.py | Lists/Bounded, Stack, Queue | Lists/QueueSpec | Lists/QueueRefine | Props/Queues: C14-C18 |
| priority_queue.py | Lists/PriorityQueue | Lists/QueueSpec, PrioHistory | Lists/PrioAux, PrioRefine | Props/Queues, QueuesExact: C19, C20 |
| stack.py, queue.py, deque.py, priority_queue.py: drawings | Lists/Stack, Queue, DrawQueues (`SHOW_PRIORITY`) | Lists/QueueSpec | Lists/DrawQueues | Props/DrawQueues: C95 |
| skip_list.py | Lists/SkipList | Lists/SkipListSpec | Lists/SkipList* | Props/SkipList: C21-C23, C72 |
| _heap.py, min_heap.py, max_heap.py | Trees/BinHeap | Trees/BinHeapSpec | Trees/BinHeapProofs | Props/Heaps: C24-C29 |
| tree.py, binary_tree.py | Trees/Tree | Trees/TreeSpec | Trees/TreeProofs, BinTreeProofs | Props/Trees: C30-C38 |
| bst.py | Trees/Bst | Trees/BstSpec | Trees/BstProofs | Props/Bst: C39-C42 |
| bst.py with node objects and parent links | Trees/PtrTree | Trees/PtrSpec | Trees/PtrRep, PtrZip, PtrOps, PtrPlain, PtrBst | Props/Links: C74 |
| splay_tree.py with node objects and parent links | Trees/PtrSplay | Trees/PtrSpec | Trees/PtrSplayProofs, PtrSplayCalls | Props/Links: C75 |
| avl.py with node objects and parent links | Trees/PtrAvl | Trees/PtrSpec | Trees/PtrAvlProofs, PtrAvlCalls | Props/Links: C76 |
| treap.py with node objects and parent links | Trees/PtrTreap | Trees/PtrSpec, TreapSpec | Trees/PtrTreapProofs, PtrTreapCalls, TreapPairs | Props/LinksTreap: C77 |
| red_black_tree.py with node objects and parent links | Trees/PtrRb | Trees/PtrSpec | Trees/PtrRb* | Props/LinksRb: C78 |
| bst.py, avl.py: trees built again from traversals | Trees/Bst, Avl, Tree | Trees/BstSpec, AvlSpec | Trees/Rebuild | Props/Rebuild: C79 |
| trie.py, radix_trie.py: heights, leaves, levels | Trees/Trie | Trees/TrieSpec, RadixSpec | Trees/TrieShape | Props/TrieShape: C80 |
| tree.py, trie.py, radix_trie.py: drawings | Trees/Draw | Trees/DrawTreeProofs | Trees/DrawTreeProofs, DrawTrieProofs | Props/DrawTrees: C81, C82 |
| binary_tree.py: drawings | Trees/Draw | Trees/DrawBinProofs | Trees/DrawBinProofs | Props/DrawBinary: C83, C84 |
| linked_list.py, doubly_linked_list.py, circular_linked_list.py: drawings | Lists/Draw | Lists/DrawProofs | Lists/DrawProofs | Props/DrawLists: C85 |
| skip_list.py: drawings | Lists/SkipListDraw | Lists/SkipListDrawProofs | Lists/SkipListDrawProofs | Props/DrawSkip: C86 |
| _heap.py, red_black_tree.py, treap.py: drawings | Trees/DrawLabels | Trees/DrawLabelsProofs, Trees/DrawBinProofs | Trees/DrawLabelsProofs | Props/DrawLabels: C87, C88 |
| tree.py: from_path | Trees/FromPath | Trees/FromPathProofs | Trees/FromPathProofs | Props/FromPath: C89 |
| suffix_trie.py: iteration | Trees/SuffixList | Trees/SuffixListProofs | Trees/SuffixListProofs | Props/SuffixList: C90 |
| bst.py: relatives of a node | Trees/PtrTree | Trees/PtrSpec, Trees/FamilyProofs | Trees/FamilyProofs | Props/Family: C91 |
| linked_list.py, doubly_linked_list.py, priority_queue.py: setters of nodes | Lists/NodeCalls | Props/ListNodes (`LinkPairs`) | Props/ListNodes | Props/ListNodes: C96 |
| _heap.py `to_list`, `clear` with list objects | Trees/HeapLists | Trees/HeapListsLemmas (`Made`, `items`, `received`) | Trees/HeapListsLemmas | Props/HeapLists: C97 |
| treap.py `__init__`, `insert`, `clear` with the generator of the module `random` (any `seed` and `draw`; entropy is an input) | Trees/TreapSeed | Trees/TreapSeedLemmas (`Rng.nth`, `withPrios`, `drawing`, `ownCalls`, `TWOp.draws`, `TWOp.reseeds`) | Trees/TreapSeedLemmas | Props/TreapSeed: C98 |
| bst.py, avl.py, tree.py: setters of nodes | Trees/NodeSet, PtrTree | Trees/NodeSetProofs | Trees/NodeSetProofs | Props/Nodes: C92 |
| avl.py, red_black_tree.py, treap.py: attributes of nodes | Trees/NodeAttrs, PtrAvl | Trees/NodeAttrsProofs (`Levels`, `HeightsFit`) | Trees/NodeAttrsProofs | Props/NodeAttrs: C99 |
| linked_list.py, doubly_linked_list.py, circular_linked_list.py: one LinkedList with nodes of two classes | Lists/Mixed | Lists/MixedProofs (`mixCall`, `frontGone`), Props/Mixed (`plainCall`) | Lists/MixedProofs, MixedStart, Ring | Props/Mixed, Props/MixedRing: C100 |
| linked_list.py, doubly_linked_list.py, circular_linked_list.py: `__iter__` while the list changes | Lists/Iteration | Lists/IterationSpec (`actsSpec`, `pyActs`, `Ahead`) | Lists/IterationProofs | Props/Iteration: C102 |
| splay_tree.py: how many nodes the calls look at | Trees/Splay | Trees/SplayCost (`visits`, `sinks`, `costs`) | Trees/SplayCostProofs | Props/SplayCost: C103 |
| tree.py: `__iter__` as a generator, the tree changed meanwhile | Trees/TreeIteration, PtrTree | Trees/TreeIterationSpec (`Walk`) | Trees/TreeIterationProofs, TreeIterationPtr | Props/TreeIteration: C104 |
| trie.py, radix_trie.py: which nodes a history leaves | Trees/Trie | Trees/TrieCanonSpec (`SameShape`) | Trees/TrieCanon | Props/TrieCanon: C105 |
| _heap.py, min_heap.py, max_heap.py: the two classes compared | Trees/BinHeap | Trees/HeapMirrorSpec (`mirror`) | Trees/HeapMirror | Props/HeapMirror: C106 |
| _heap.py: which entries a call changes | Trees/BinHeap | Trees/HeapPathSpec (`wayUp`, `changedAt`) | Trees/HeapPath | Props/HeapPath: C107 |
| skip_list.py: how long a search takes, average over the flips | Lists/SkipListCost (counted `search_sorted`, `_search`), Lists/SkipListMean (`skMean`) | Lists/SkipListCost (`records`, `searchTests`) | Lists/SkipListCostProofs, Lists/SkipListMeanProofs | Props/SkipListCost: C108 |
| bst.py: how many nodes a search looks at, average over the orders of insertion | Trees/SearchMean (`visits`), Trees/Bst | Trees/SearchMean (`meanOver`, `span`) | Trees/SearchMeanProofs | Props/SearchMean: C109 |
| treap.py: the same, average over the priorities | Trees/TreapMean (`treapAfter`, `draws`) | Trees/TreapMean (`weakRecords`), Trees/SearchMean | Trees/TreapMeanProofs | Props/TreapMean: C110 |
| red_black_tree.py: the height after inserts | Trees/RedBlack, Trees/BstReads | Trees/RedBlackDeep (`deepOrder`) | Trees/RedBlackDeep | Props/RedBlackDeep: C111 |
| _heap.py: what `heapify` changes on the way | Trees/BinHeap | Trees/HeapifyCost (`heapifyChanges`), Trees/HeapPathSpec | Trees/HeapifyCost | Props/HeapifyCost: C112 |
| bst.py, avl.py, red_black_tree.py: nodes looked at by `BST(iterable)`, `AVL(iterable)`, `RedBlackTree(iterable)` | Trees/Bst, Trees/Avl, Trees/RedBlack | Trees/BuildCost (`insertLooks`, `buildCost`), Props/BuildCost (`bstCost`, `avlCost`, `rbCost`) | Trees/BuildCost, Trees/RedBlackBuild | Props/BuildCost: C113 |
| lists, queue.py, deque.py, priority_queue.py: turns of `while` loops | Lists/LinkedList, Lists/Queue, Lists/PriorityQueue | Lists/Turns (the methods again, with a counter; `erase` forgets it), `way` in Lists/TurnsProofs, `place` in Props/ListTurns | Lists/TurnsProofs | Props/ListTurns: C114 |
| trie.py, radix_trie.py: `__iter__` while words are inserted and removed | Trees/TrieIteration | TrieSpec (`trSpecs`), RadixSpec (`radSpecs`) | Trees/TrieIterationProofs | Props/TrieIteration: C115 |
| bst.py with numbers that may be `nan` | Trees/BstNan | Trees/BstNan (`PyNum`), Trees/BstNanProofs (`nanSpec`, `putNan`, `sinceClear`) | Trees/BstNanProofs | Props/BstNan: C116 |
| bst.py: nested calls of `_insert_node` (also for avl.py, red_black_tree.py, splay_tree.py) | Trees/StackLimit (`insertNodeIn`, `insertsIn`) | the calls without a limit (Trees/Bst, Avl, RedBlack, Splay) | Trees/StackLimit | Props/StackLimit: C117 |
| _heap.py, min_heap.py, max_heap.py with numbers that may be `nan` | Trees/HeapNan | Trees/HeapNanProofs (`NanOrdered`, `Joined`, `nanBag`) | Trees/HeapNanProofs | Props/HeapNan: C118 |
| tree.py: `TreeNode` objects that may share children or be below themselves; nested calls with a limit | Trees/TreeNodes | Trees/TreeNodesProofs (`goDown`, `WayDown`, `NoLoop`) | Trees/TreeNodesProofs | Props/TreeNodes: C119 |
| linked_list.py: `in`, `count`, `remove`, `==`, `!=` for any `==` on values, on the contents of the list | Lists/Identity | Lists/IdentityProofs (`pyMatch`, `PyListEq`) | Lists/IdentityProofs | Props/Identity: C120 |
| priority_queue.py with `nan` for priorities, on the sequence of items | Lists/PrioNan | Lists/PrioNanProofs (`Outermost`, `numbersOf`) | Lists/PrioNanProofs | Props/PrioNan: C121 |
| skip_list.py with numbers that may be `nan`, on the entries of the bottom, each with the number of levels it is on | Lists/SkipNan | Lists/SkipNanProofs (`NanBetween`, `CrossTo`) | Lists/SkipNanProofs | Props/SkipNan: C122 |
| trie.py, radix_trie.py: sizes | Trees/Trie | Trees/TrieSpec, Trees/RadixSpec | Trees/RadixRefine, Trees/TrieRefine | Props/TrieSizes: C123 |
| min_heap.py, max_heap.py: the shape of the tree | Trees/BinHeap, Trees/DrawLabels | Trees/BinTreeProofs (levels), Trees/TreeSpec | Trees/DrawLabelsProofs | Props/HeapShape: C124 |
| avl.py: `insert` and `in` with `nan` (not `remove`) | Trees/AvlNan | Trees/AvlSpec | Trees/AvlNanProofs, Trees/AvlNanLast | Props/AvlNan: C125 |
| binary_tree.py: `invert` on BST, AVL, RedBlackTree, SplayTree, Treap | Trees/Tree (`invert`), Trees/PtrTree (`pInvert`) | Props/Inverted (`sinceCall`) | Trees/InvertProofs | Props/Inverted: C101 |
| avl.py | Trees/Avl | Trees/AvlSpec; AvlExact, first section | Trees/AvlProofs, AvlExact | Props/Avl: C43-C46; Props/AvlExact: C44 |
| splay_tree.py | Trees/Splay, Zipper | Trees/BstSpec | Trees/SplayProofs | Props/Splay: C47-C49 |
| treap.py | Trees/Treap | Trees/TreapSpec, TreapExact (`stuckAt`, `raisesIn`) | Trees/TreapProofs, TreapExact | Props/Treap, TreapExact: C50-C53 |
| red_black_tree.py | Trees/RedBlack, Zipper | Trees/RedBlackSpec; RedBlackExact and RedBlackFate, first section | Trees/RedBlackProofs, RedBlackExact, RedBlackFate | Props/RedBlack: C54-C56, C71; Props/RedBlackExact: C55; Props/RedBlackFate: C55, C56 |
| bst.py, avl.py, red_black_tree.py, splay_tree.py: as sorted sets | Trees/Bst, Avl, RedBlack, Splay | Trees/SetSpec | Props/SetRefine | Props/SetRefine: C93 |
| bst.py, avl.py, red_black_tree.py, splay_tree.py, treap.py: inherited read methods | Trees/BstReads | Trees/ViewsSpec | Trees/BstReadsProofs | Props/BstReads: C94 |
| trie.py, radix_trie.py | Trees/Trie | Trees/TrieSpec, RadixSpec | Trees/Trie*, Radix* | Props/Tries: C57-C61; Props/Radix: C62-C64; Props/TrieBlank: C60, C62 (strings refused) |
| suffix_trie.py | Trees/SuffixTrie | in Props/Suffix, Trees/SuffixExact (`sufEntries`, `EntryPlace`) | Trees/Suffix*, Palindrome | Props/Suffix, SuffixExact: C65-C70, C73 |

## What is modelled, and what is not

**Values.** Items of the linked lists are `Val`: integers, strings, and other objects told apart by identity;
`PyData` and `PyOrd` say what the code needs of them. Numbers in queues, heaps and search trees are elements
of an arbitrary linear order (with `-inf`/`inf` where the code uses them). Not modelled: `nan` and objects with a
user-defined `__eq__` (but see C116 for `BST`, C118 for heaps, C120 for linked lists, C121 for priorities, C122 for `SkipList`), lone surrogates in strings. `int` and `float` values that are equal are identified.

**Lists.** Linked lists are at pointer level: a heap of nodes and list objects, so aliasing, stale heads and
wrap-around links are part of the model. Methods are dispatched on the class. A `LinkedList`
that holds the nodes of a `DoublyLinkedList` or a `CircularLinkedList` is modelled in `Lists/Mixed` (C100),
as are comparisons of lists of different classes; in `Lists/Mixed` the other list is left alone after
its nodes have been taken over. A node object as
argument is an `Extra` object, which is refused (`Item.extra`); only for `in` and `count` is it not modelled. `Queue`, `Deque` and `PriorityQueue` run on the pointer-level doubly linked list; `repr` of
all these classes is modelled (C17, C85), for `PriorityQueue` with `SHOW_PRIORITY` off (`exec .repr`)
and on (`reprP`, C95).  Equal priorities print alike in the model (`1` and `1.0` do not in Python).

**Skip list.** At pointer level as well. The coin flips of an insertion are an input (the number of heads
before the first tail), over which all theorems quantify. `repr` takes Python's `str` on numbers as a parameter (C86). For C108 each insertion draws `h` heads with
probability `1/2^(h+1)` on its own (`coinMean`, a sum over all `h` in the extended nonnegative reals); that
`random.choice` is fair and its calls independent is assumed, and the calls of a history are fixed before the
flips.

**Heaps.** The array with its index arithmetic. `repr` takes Python's `str` on numbers as a parameter (C87).

**Trees.** A tree is a value: no node is reachable in two ways. A caller who links nodes by hand could break
this. `from_path` is modelled over a tree of files and folders without links, with `os.path` on strings (C89). `repr` of a single node is not modelled; `repr` of a tree is, with the
label of a node as a parameter (C81, C83).

**Search trees.** Trees as values again; a walk along parent links is a walk in a zipper or what is done on
the way back of a recursion. For all five there is also a model with node objects and parent links. C74 says that
the two agree for `BST` and C77 for `Treap`, also after exceptions; C75 that they agree for `SplayTree` until a
removal has lost the order, C76 for `AVL` until a removal has lost the balance, C78 for `RedBlackTree` until a
removal raises from its middle or has lost the order, and what happens after that. `_attach` and `is_left_child` choose
a side by comparing numbers, which the model on values keeps: where they choose the side the child is not on, the
result is `unmodelled`. An exception in the middle of `remove` (treap, red-black tree) leaves a half-changed
object; the model on values ends the history there, the one with node objects goes on. Random priorities are an
input.

**Tries.** A node has an insertion-ordered list of children (the semantics of `dict`). A node kept in
`_leaf_nodes` is the string spelled on the way to it. A Python `set` is a list without duplicates about whose
order nothing is claimed.

**Never modelled:** running time (but C45, C71, C103 and C108-C114 count nodes, tests, changed entries or turns of loops), memory, the recursion limit (but for `_insert_node`, C117, and `Tree`, C119), the text of warnings and exceptions, threads,
iteration while an object other than the three linked lists, the search trees (C104) and `Trie` (C115) is changed.
For the linked lists a generator is modelled (C102) beside calls that change one value or all of them; what is not covered is a generator of a circular list
that was emptied and filled again.

## Where the code disagrees with the stated properties

Each disagreement is a theorem with a concrete witness; the property then has status `partial` and a theorem
with suffix `_partial` that says what does hold.

| | What happens | Theorem |
|---|---|---|
| C03 | item assignment to an emptied `CircularLinkedList` is accepted and forgotten; to a fresh one it raises `AttributeError` | C03_setItem_on_empty |
| C08 | `a.extend(b)` shares nodes with `b` (not for the circular list); so does `K(b)` for every class. If `b` is not used any more, `K(b)` behaves as a list with the items of `b` | C08_extend_aliases, C08_constructor_aliases, C08_constructor_partial |
| C11 | `[5, 5] > [1]` is `False` though `[1] < [5, 5]` is `True`; C11_gt_lt_exact says exactly when the two agree | C11_gt_not_dual, C11_gt_lt_exact |
| C12 | `LinkedList([1, 2, 3])[::-1]` is `[1]`; a negative step always gives the last item of the right slice only | C12_negative_step, C12_negative_exact |
| C13 | after `a.extend(a)`, `x in a` never ends for absent `x`; for the circular list `a.extend(a)` itself never ends | C13_self_extend_search_diverges, C13_self_extend_diverges |
| C14 | a string with a newline is stored escaped and is then not found by `in` | C14_stored_newline_not_found |
| C17 | `repr` of a queue emptied by `dequeue` still shows an item | C17_repr_stale, C17_repr_wrong |
| C19 | taking the newest of three items gives its priority to the next | C19_wrong_item |
| C20 | `dequeue` on a non-empty queue raises `UnboundLocalError` | C20_dequeue_raises |
| C23 | `-inf` is taken for the sentinel of the skip list | C23_minus_inf |
| C26, C28 | `remove` of an inner item breaks the heap order; `get_min`/`get_max` are wrong afterwards | C26_order_broken, C28_wrong_min, C28_wrong_max |
| C29 | iterating over an empty heap raises `AssertionError` | C29_empty_raises |
| C32 | `x in tree` raises `AttributeError` for an empty tree | C32_empty_raises |
| C37 | `is_balanced` is wrong in both directions | C37_false_alarm, C37_missed |
| C41 | `BST.remove`: insert 1, 2, 5, 3, remove 1 gives a tree that is no search tree | C41_order_lost |
| C44, C46 | `AVL.remove` can leave an unbalanced tree, and later calls on it lose the order; C44_history_exact says exactly which removals do this | C44_unbalanced, C46_order_lost, C44_remove_exact_partial |
| C45 | the height bound of an `AVL` does not survive removals | C45_removal |
| C48 | `x in splay_tree` raises for an empty tree | C48_raises |
| C49 | `SplayTree.remove` loses the order as `BST.remove` does | C49_order_lost |
| C75 | once the order is lost, splaying links nodes twice, loses numbers, or makes the root its own grandchild, so that traversals never end | C75_splay_broken, C75_splay_cycle |
| C76 | once the balance is lost, `AVL.insert` raises `AttributeError`, and rotations link nodes twice and lose numbers | C76_avl_raises, C76_avl_broken |
| C52 | `Treap.remove` raises `AttributeError` for some priorities of -1 or less; exactly which is C52_exact | C52_raises, C52_raises_minus_one |
| C77 | that exception can leave the treap out of heap order, with the number still there | C77_treap_unheaped |
| C55 | `__recolor` goes on from a black node: inserting 10, 4, 12, 2, 6, 7, 8 breaks the colour invariants; C55_inserts_exact says exactly which insertions do | C55_invariants_lost, C55_insert_exact_partial |
| C56 | `RedBlackTree.remove` raises `ValueError` or `AttributeError`, loses the colours, or loses the order | C56_value_error, C56_attribute_error, C56_invariants_lost, C56_order_lost; C56_black_exact_partial and C56_history_exact say exactly when |
| C78 | `AttributeError` in `RedBlackTree.remove` comes after the number is gone and before `_length` is decremented; after lost colours a node can be linked twice | C78_length_wrong, C78_links_broken |
| C60, C62 | `}` is a sentinel of the tries: words with it raise `AttributeError`, `has_prefix("}")` is `True` on an empty trie | C57_brace, C60_brace, C62_brace |
| C61, C62 | removing the last word always raises `AttributeError` | C61_raises, C62_last_word |
| C64 | `RadixTrie.remove` does not merge nodes | C64_remove |
| C65, C66 | `$` and `}` in a pattern give wrong answers or exceptions; a word with `}` cannot be built | C65_reserved, C66_reserved, C65_exact, C65_brace, C66_exact, C66_brace |
| C68 | the suffix array of a word with characters before `$` (space, `!`) is wrong | C68_before_dollar |
| C69 | `get_longest_repeated_substring` looks at two levels only: `"bcdebcdeaaaa"` gives `["aaa"]`; C69_exact says what is returned | C69_exact, C69_wrong, C69_incomplete, C69_not_longest |
| C71 | `get_black_height` raises `AttributeError` for an empty tree | C71_black_height |
| C81 | the empty `Tree` is drawn like a tree with the single label `--` | C81_empty_wrong |
| C82 | a check mark at the end of a label of a `RadixTrie` may be part of a word; line breaks in words are not escaped | C82_radix_wrong, C82_break |
| C83 | a child of a binary tree with an empty label is not drawn, and its branch neither | C83_empty_label |
| C90 | `SuffixTrie.to_list` cuts labels at ` ⟶ ` in the word: `a ⟶ b` gives `a` for `a ⟶ b$` | C90_cut_short |
| C91 | `is_left_child`, `get_sibling` and `get_uncle` compare numbers: after `invert`, or where `remove` lost the order, a node is its own sibling | C91_inverted, C91_removed |
| C92 | `set_left` and `set_right` leave the parent link of the old child, and the child link of the old parent, as they were | C92_stale, C92_pairs_partial |
| C96 | `set_next` and `set_prev` of `DoublyNode` leave the links of the old neighbours as they were | C96_pairs_broken, C96_pairs_partial |
| C97 | `to_list()` of a heap returns the list the heap works on; a caller who changes it changes the heap and can break its order | C97_shared, C97_order_lost |
| C98 | the seed of a treap seeds the generator of the whole program, which all treaps share; `clear()` seeds it anew without the seed | C98_other_insert, C98_other_made, C98_cleared, C98_program, C98_not_reproducible |
| C99 | `set_left` and `set_right` of an `AVLNode` set its own height only; the heights of the nodes above, and so `is_balanced()` of these, go wrong | C99_heights_wrong |
| C100 | `add_end` and `insert` raise `TypeError` on `LinkedList(dll)` and after `ll.extend(dll)`: a `DoublyNode` refuses the new `Node` | C100_doubly_fails, C100_add_end_raises |
| C100 | `x in LinkedList(cll)` never ends when `x` is missing | C100_circular_fails, C100_from_circular |
| C101 | after `invert` a search tree finds only the number at its root, takes the others in a second time, and `get_min` gives the largest; `AVL.insert` can raise `AttributeError` | C101_fails, C101_search_exact, C101_avl_fails, C101_splay_fails |
| C102 | a list that changes behind its iterator: adding in front makes the iterator raise `AttributeError` (not in a circular list), removing the values it gave makes it stop early, after `clear` it gives values no longer in the list | C102_like_python_fails, C102_add_front_raises |
| C103 | the work of a `SplayTree` is not logarithmic on average: `remove` swaps data down to a leaf without splaying that way, `get_min` and `get_max` do not splay | C103_fails |
| C104 | in `for x in tree` on a `SplayTree`, asking `y in tree` makes values not come, or come twice | C104_splay_fails |
| C104 | in `for x in tree` on an `AVLTree`, `RedBlackTree` or `Treap`, an insertion makes values that were there not come, or come twice | C104_avl_fails, C104_redblack_fails, C104_treap_fails |
| C104 | in `for x in tree` on a `BST`, removing the value just given makes others not come; values removed or cleared may still come | C104_remove_skips, C104_removed_comes |
| C105 | two `RadixTrie`s with the same words may have different nodes and `len`s after removals | C105_radix_fails |
| C110 | a `Treap` draws only 101 priorities and puts a new node above one of the same priority, so searches grow linearly with the size for increasing numbers | C110_linear, C110_not_logarithmic |
| C111 | "guaranteed height of O(log(n))" (red_black_tree.py:3, :209) fails: inserts alone make a `RedBlackTree` of 6k + 5 numbers 4k + 1 high, because `__recolor` goes on above a rotation | C111_linear, C111_not_logarithmic |
| C112 | `heapify` in "time-complexity of O(n)" (_heap.py:89) fails: it inserts one by one, and decreasing numbers in a `MinHeap` each go to the root | C112_each_to_root, C112_not_linear |
| C113 | `BST(iterable)`, `AVL(iterable)`, `RedBlackTree(iterable)` in "time-complexity of O(n)" (bst.py:301-303, avl.py:202-204, red_black_tree.py:221-223) fails: a `BST` of n increasing numbers takes n (n - 1) / 2 looks, on average 2 (n + 1) H_n - 4 n; an `AVL` takes n log n in every order; a `RedBlackTree` can take 4 k² for 7 k + 11 numbers | C113_bst_increasing, C113_bst_mean, C113_bst_not_linear, C113_avl_not_linear, C113_redblack, C113_redblack_not_linear |
| C114 | `PriorityQueue.dequeue` "in constant time" (priority_queue.py:442) fails: its loops turn n times or more | C114_dequeue, C114_not_constant |
| C115 | (holds) a generator over a trie may give removed nodes, and miss new ones; `clear` does not stop it | C115_removed_comes, C115_new_missed |
| C116 | `insert(nan)` is accepted (bst.py:380), but `nan` is never found or removed; `BST([nan, 1]).get_min()` is `nan`; after `t = BST([5, 3, nan]); t.remove(5)`, `3 in t` is `False` though `t.to_list()` shows it | C116_nan_not_found, C116_lost |
| C117 | `_insert_node` calls itself for each node on the way down, so `BST(range(1000))` raises `RecursionError` with Python's usual limit; so can `SplayTree` and `RedBlackTree`; an `AVL` cannot in practice | C117_bst_increasing, C117_bst_fails, C117_splay_fails, C117_redblack_fails |
| C118 | a heap takes `nan` (_heap.py:81): `MinHeap.heapify([5, nan, 6, 1]).get_min()` is 5, `MinHeap.heapify([1, nan]).get_max()` is `nan`, and `remove_min()` on `MinHeap.heapify([1, 2, nan, 3])` leaves 3 above 2 | C118_min_lost, C118_max_lost, C118_remove_lost |
| C119 | `set_child` takes any node (tree.py:162): a node that is the child of two nodes is counted and yielded twice; after `r.set_child(c); c.set_child(r)`, `len` raises `RecursionError` and iteration does not end | C119_shared, C119_loop, C119_own_parent |
| C120 | `in`, `count`, `remove` and `==` compare with `==` only (linked_list.py:525, :928, :1708, :2207): `nan in LinkedList([nan])` is False, `remove(nan)` removes nothing, and `ll == ll` is False for a list with `nan`; Python's list gives the opposite | C120_nan |
| C121 | With `nan` for a priority, `dequeue` raises `UnboundLocalError` on a queue that is not empty, or returns an item that has not the greatest priority (priority_queue.py:420-421, :435-436, :482, :489) | C121_nan, C121_cache, C121_stuck |
| C122 | `SkipList` takes `nan` (skip_list.py:131, :585) and puts it to the front: after `insert(3)`, `insert(5)`, `insert(nan)` without heads `3 in sl` is False and `insert(3)` makes it be held twice | C122_nan, C122_hidden |
| C123 | the number of nodes of a `RadixTrie` is not proportional to the number of strings held (radix_trie.py:29-33) once there are removals, which do not join nodes | C123_unbounded |
| C124 | a heap is not a tree with all levels filled (the lines 14-17 of min_heap.py and max_heap.py), unless the number of values is `2 ^ k - 1`; all levels but the last are | C124_filled |
| C125 | with `nan` in an `AVL` a number held need not be found, `insert` can raise `AttributeError`, and the tree can be unbalanced (avl.py:756-769, bst.py:266, :1262) | C125_lost, C125_twice, C125_raises, C125_unbalanced |
| C93 | each class leaves the sorted set: `BST` and `SplayTree` after a removal of an unsafe shape, `SplayTree` also when an empty tree is asked for a number, `AVL` after removals that lose the balance, `RedBlackTree` where `remove` raises or loses the invariants | C93_fails, C93_bst_exact, C93_splay_exact |
| C72 | `SkipList(sl)` shares its levels with `sl` | C72_shared |

## How the theorems were tested

`seeded/LOG.jsonl`: one line per deliberate error put into a scratch copy of the model (the definition, the
edit, the claim it breaks, the theorems whose proofs failed, and the theorems tightened when none failed).

## Trusted base

* The Lean 4.33.0 kernel, and the statements in `Verif/Props`, the specifications and the models they use.
* The reading of the Python sources that the doc comment of each definition of the model cites
  (`tools/check_cites.py` lists the citations with the functions they lie in).
* No axioms are added; there is no `sorry`, `native_decide` or `bv_decide`. Concrete witnesses are checked by
  `decide +kernel`, that is by evaluation in the kernel.
* The axioms of each theorem of the manifest, as printed by `#print axioms`:

<!-- axioms -->
  * propext, Classical.choice, Quot.sound (398): C01_linkedList_history, C01_error_leaves_contents, C03_programs_refine, C02_doublyLinkedList_history, C03_circularLinkedList_history, C04_backward_walk, C05_construct_valid, C05_construct_invalid, C06_copy, C06_reverse, C06_slice, C06_split, C06_rotate_new, C06_independent, C07_extend, C08_constructor_partial, C08_extend_no_alias_partial, C09_split, C09_rotate, C09_rotate_undo, C09_rotate_multiple, C10_eq, C11_elementwise, C11_ge_le, C11_le_iff, C11_gt_lt_partial, C11_gt_elementwise, C11_gt_lt_exact, C12_slice_partial, C12_specSlice_step_one, C12_negative_exact, C12_exact, C13_contains_partial, C13_self_extend_search_diverges, C13_self_extend_diverges, C13_self_extend_exact, C14_no_newline, C14_stored, C14_stored_newline_not_found, C14_stack_no_newline, C14_queue_no_newline, C15_stack_history, C15_capacity, C15_capacity_rounded, C16_queue_history, C16_fifo, C16_evicts_oldest, C16_evict_exactly, C16_capacity, C17_repr_partial, C17_repr_fresh_partial, C17_repr_stale, C17_repr_wrong, C18_deque_history, C18_evict_left, C18_both_ends, C19_exact, C19_dequeue_partial, C19_removes_returned, C19_wrong_item, C20_exact, C20_dequeue_partial, C20_one_direction_partial, C20_dequeue_raises, C21_history, C21_reads, C21_changes, C21_flips, C21_of_list, C22_levels, C22_tower, C23_partial, C23_minus_inf, C24_insert, C24_heapify, C24_heapify_invalid, C25_remove_root, C25_sorts, C26_remove_partial, C26_order_broken, C27_bag_history, C27_every_call, C28_extremes_partial, C28_history_partial, C29_iteration_partial, C30_counts, C30_height, C30_binary_counts, C31_iteration, C31_levels, C32_contains_partial, C32_binary_contains_partial, C33_traversals, C33_traverse, C34_reverses, C35_leftside_view, C35_rightside_view, C35_lengths, C36_is_perfect, C37_is_balanced_partial, C37_balanced_reported_partial, C37_false_alarm, C39_inserts, C39_insert, C39_constructor, C40_contains, C41_remove_partial, C41_length, C41_history_partial, C43_inserts, C43_insert, C44_remove_partial, C44_remove_exact_partial, C44_step, C44_history_exact, C45_height, C46_remove, C47_insert, C47_contains, C47_history, C48_membership_partial, C49_remove_partial, C50_inserts, C50_insert, C51_remove, C51_history, C52_exact, C52_map_exact, C52_history_exact, C52_total_partial, C52_only_attribute_error, C53_unique, C53_order, C54_insert, C54_inserts, C55_insert_partial, C55_inserts_partial, C55_insert_exact_partial, C55_inserts_exact, C56_remove_partial, C56_black_exact_partial, C56_call_exact, C56_history_exact, C57_history, C57_words_partial, C57_brace, C58_auto_complete, C58_refused, C59_len, C60_no_brace_partial, C60_raises, C60_brace, C60_blank, C61_raises, C61_empty_partial, C62_blank, C62_history, C62_words_partial, C62_no_raise_partial, C62_brace, C62_last_word, C63_auto_complete, C63_no_brace, C63_refused, C64_labels, C64_len, C64_branching, C64_bound, C64_remove, C65_new, C65_has_substring, C65_other, C65_reserved, C65_exact, C65_brace, C66_count_partial, C66_empty, C66_reserved, C66_exact, C66_brace, C66_entries, C67_lca, C67_same, C67_refused, C68_permutation, C68_suffix_array_partial, C68_before_dollar, C69_repeated, C69_exact, C69_longest_partial, C69_wrong, C69_incomplete, C69_not_longest, C70_is_palindrome, C72_copy_alone_partial, C72_shared, C73_leaves, C73_len, C74_bst_links, C74_bst_answers, C75_splay_links_partial, C76_avl_links_partial, C76_avl_no_removals, C77_treap_links, C77_treap_answers, C78_answers_partial, C78_no_removals, C78_attribute_error, C78_next_call_partial, C79_exact, C79_preorder, C79_breadth_first, C79_increasing, C79_avl_breadth_first, C79_avl_inserts, C80_height, C80_leaves, C80_levels, C80_radix_leaves, C80_radix_height, C80_radix_levels, C81_lines, C81_faithful_partial, C81_empty, C82_same_words, C82_radix_same_words_partial, C82_radix_wrong, C82_break, C83_picture, C83_empty, C83_block, C83_empty_label, C84_faithful, C84_blank, C85_boxes, C85_empty, C85_way_back, C85_same_items, C86_picture, C86_faithful, C87_picture, C87_faithful, C87_numbers, C88_redblack, C88_treap, C88_plain, C88_numbers, C89_tree, C89_every_place, C89_same_place, C89_not_told, C90_rows_partial, C90_all_rows, C90_height, C90_cut_short, C91_links, C91_treap, C91_histories_partial, C93_bst_partial, C93_bst_exact, C93_splay_partial, C93_splay_exact, C93_avl_partial, C93_avl_inserts, C93_rb_partial, C93_rb_inserts, C93_rb_refused, C94_bst, C94_avl, C94_rb, C94_splay, C94_treap, C95_stack, C95_queue, C95_queue_or_deque, C95_priority_items, C95_priorities, C95_priority_lines, C99_balanced, C100_call_exact, C100_history, C100_from_doubly, C100_front_partial, C100_add_end_raises, C100_extend_exact, C100_from_circular, C100_extend_circular, C100_circular_history, C100_extend_circular_history, C100_circular_fails, C101_search_exact, C101_invariants, C101_objects, C101_history, C101_remove_exact, C102_history, C102_total, C102_like_python_partial, C102_unchanged, C102_add_end_forever, C102_add_front_raises, C103_amortised_partial, C103_insert_search, C103_from_any_tree, C103_single_call, C103_fails, C104_history_partial, C104_no_repeats_partial, C104_complete_partial, C104_endless, C105_trie, C105_trie_len, C105_radix_partial, C105_radix_fails, C106_history, C107_insert, C107_remove, C107_every_call, C108_tests, C108_at_most, C108_worst, C108_mean, C108_height, C108_nodes, C109_visited, C109_mean, C109_log, C109_worst, C109_at_most, C110_inserts, C110_different_partial, C110_randint_partial, C110_increasing, C110_increasing_mean, C110_linear, C110_not_logarithmic, C111_kept_partial, C111_linear, C111_not_logarithmic, C112_at_most, C112_each_to_root, C112_not_linear, C113_bst_total, C113_bst_mean, C113_bst_at_most, C113_bst_increasing, C113_avl, C113_redblack, C113_bst_not_linear, C113_avl_not_linear, C113_redblack_not_linear, C114_list, C114_dll, C114_dequeue, C114_not_constant, C115_trie, C115_radix, C115_removed_comes, C115_new_missed, C116_no_removals_partial, C116_found_partial, C117_call, C117_bst_increasing, C117_bst_fails, C117_redblack_fails, C117_splay_fails, C117_avl_partial, C118_bag, C118_positions, C118_root_partial, C118_without_nan_partial, C119_room, C119_counts, C119_distinct_partial, C119_iter, C119_loop, C119_ends_partial, C119_own_parent, C120_exact, C120_agree_partial, C120_reflexive_partial, C121_without_nan_partial, C121_nan, C122_without_nan_partial, C122_between_partial, C122_found_partial, C122_remove_partial, C122_not_damaged_partial, C122_just_inserted_partial, C122_nan, C123_trie, C123_radix_le, C123_radix_inserts, C123_unbounded, C124_levels, C124_filled, C125_without_nan_partial, C125_nan_last_partial
  * propext, Quot.sound (52): C03_setItem_on_empty, C08_extend_aliases, C11_gt_not_dual, C12_negative_step, C15_lifo, C38_parse_raises, C40_min, C40_max, C42_new_root, C43_queries, C44_small, C56_attribute_error, C56_invariants_lost, C70_get_lcp, C71_black_height, C91_search_tree, C92_set_left, C92_set_right, C92_pairs_partial, C92_avl_height, C92_stale, C96_set_next_doubly, C96_set_prev, C96_pairs_partial, C96_fresh_pairs, C96_pairs_broken, C97_shared, C97_cleared_partial, C97_others_partial, C98_reproducible_partial, C98_two_programs_partial, C98_new_seeds, C99_heights_exact, C99_heights_partial, C99_below_exact, C99_set_height, C99_set_height_fit, C102_like_python_fails, C106_heapify, C114_same, C114_queue, C114_same_dequeue, C116_without_nan_partial, C119_set_child, C119_build_partial, C119_shared, C121_cache, C121_dequeue, C121_stuck, C121_first_dequeue_partial, C122_hidden, C125_nan
  * propext (87): C08_constructor_aliases, C15_overflow, C28_empty, C28_wrong_min, C28_wrong_max, C29_empty_raises, C31_levels_empty, C34_mirror, C36_is_strict, C38_parse, C41_remove_other, C41_order_lost, C42_rotations, C44_unbalanced, C45_removal, C46_order_lost, C48_raises, C49_order_lost, C52_raises, C52_raises_minus_one, C53_equal_priorities, C55_invariants_lost, C56_value_error, C56_order_lost, C73_depth, C75_splay_broken, C75_splay_cycle, C76_avl_broken, C76_avl_raises, C77_treap_unheaped, C78_length_wrong, C78_links_broken, C79_postorder_wrong, C79_avl_preorder_wrong, C81_empty_wrong, C88_treap_hidden, C89_errors, C91_sides_partial, C91_inverted, C91_removed, C92_has_one_child, C92_tree_node, C93_fails, C96_set_next, C96_refused, C96_set_data, C96_set_priority, C97_order_lost, C98_exact, C98_clear_seeds, C98_alone, C98_other_insert, C98_other_made, C98_cleared, C98_program, C98_not_reproducible, C99_get_height, C99_set_color, C99_set_priority, C100_compare, C100_extend_refused, C100_doubly_fails, C101_twice, C101_min_max, C101_fails, C101_avl_fails, C101_splay_fails, C104_remove_skips, C104_removed_comes, C104_avl_fails, C104_redblack_fails, C104_treap_fails, C104_splay_fails, C107_others, C116_nan_not_found, C116_lost, C118_min_lost, C118_max_lost, C118_remove_lost, C119_setters, C120_nan, C122_nan_first, C125_kept_partial, C125_lost, C125_twice, C125_raises, C125_unbalanced
  * none (4): C32_empty_raises, C37_missed, C92_refused, C99_heights_wrong
<!-- /axioms -->
