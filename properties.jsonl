{"id": "C01", "title": "LinkedList behaves like a Python list under every history", "statement": "After any sequence of calls (add_front, add_end, insert, item assignment, del, remove_front, remove_end, remove(value, all), clear, rotate_left/right in place) on a LinkedList, to_list()/len()/iteration/indexing/count/in return what the same calls on a plain sequence would give, each call raises exactly the documented exception on a bad index or item, and a call that raises leaves the contents unchanged.", "quantifier": "all finite sequences of operations with arbitrary arguments, valid or not, from any constructed list", "why_tests_cant": "a test fixes one history; the pointer surgery (head data copying, dead head nodes) must be right for every history and every length", "anchors": ["extra/lists/linked_list.py:LinkedList"]}
{"id": "C02", "title": "DoublyLinkedList behaves like a Python list under every history", "statement": "Same as C01 for DoublyLinkedList, including the accesses that walk backwards from the tail.", "quantifier": "all finite sequences of operations with arbitrary arguments", "why_tests_cant": "as C01; backward walks rely on every prev link left by every earlier operation", "anchors": ["extra/lists/doubly_linked_list.py:DoublyLinkedList", "extra/lists/linked_list.py:LinkedList"]}
{"id": "C03", "title": "CircularLinkedList behaves like a list indexed modulo its length under every history", "statement": "Same as C01 for CircularLinkedList, where any non-negative index is reduced modulo the length (modulo length+1 for insert), del on an empty list is a no-op and reading from an empty list raises IndexError.", "quantifier": "all finite sequences of operations with arbitrary arguments", "why_tests_cant": "as C01, plus the wrap-around link must be preserved by every operation", "anchors": ["extra/lists/circular_linked_list.py:CircularLinkedList", "extra/lists/linked_list.py:LinkedList"]}
{"id": "C04", "title": "DoublyLinkedList links are symmetric", "statement": "After any history on a DoublyLinkedList, walking backwards from the last node visits exactly the elements of to_list() in reverse order, and the tail node is the last one.", "quantifier": "all finite sequences of operations", "why_tests_cant": "the prev links are never read by most tests", "anchors": ["extra/lists/doubly_linked_list.py:DoublyNode", "extra/lists/doubly_linked_list.py:DoublyLinkedList._insert_node", "extra/lists/doubly_linked_list.py:DoublyLinkedList._remove_node"]}
{"id": "C05", "title": "Construction from an iterable", "statement": "Constructing any of the three linked lists from an iterable of valid items gives a list holding exactly those items in order (newlines in str items escaped); an iterable with a None item raises ValueError and one with an Extra item raises TypeError, whichever comes first.", "quantifier": "all finite iterables", "why_tests_cant": "unbounded length and content", "anchors": ["extra/lists/linked_list.py:LinkedList.__init__", "extra/lists/doubly_linked_list.py:DoublyLinkedList.__init__", "extra/lists/circular_linked_list.py:CircularLinkedList.__init__", "extra/interface.py:Extra._validate_item"]}
{"id": "C06", "title": "copy, reverse, slices and split are independent of the original", "statement": "copy(), reverse(), split(), non-in-place rotations and slices return lists with the expected contents, leave the original's contents unchanged, and share no node with it: no later operation on the result changes what the original reports.", "quantifier": "all lists, all indices/distances", "why_tests_cant": "aliasing shows only in particular later histories", "anchors": ["extra/lists/linked_list.py:LinkedList.copy", "extra/lists/linked_list.py:LinkedList.reverse", "extra/lists/linked_list.py:LinkedList._split", "extra/lists/linked_list.py:LinkedList.__getitem__"]}
{"id": "C07", "title": "extend concatenates", "statement": "a.extend(b) for two distinct lists makes a hold a's items followed by b's items, with matching len, and b still reports its own items.", "quantifier": "all pairs of separate lists", "why_tests_cant": "unbounded lengths", "anchors": ["extra/lists/linked_list.py:LinkedList.extend", "extra/lists/doubly_linked_list.py:DoublyLinkedList.extend", "extra/lists/circular_linked_list.py:CircularLinkedList.extend"]}
{"id": "C08", "title": "extend does not alias its argument", "statement": "After a.extend(b) (and after a = K(b)) later changes made to b do not change what a reports.", "quantifier": "all pairs of lists and later operations on either", "why_tests_cant": "aliasing is visible only for specific interleavings of later operations", "anchors": ["extra/lists/linked_list.py:LinkedList.extend", "extra/lists/linked_list.py:LinkedList.__init__", "extra/lists/doubly_linked_list.py:DoublyLinkedList.extend", "extra/lists/circular_linked_list.py:CircularLinkedList.extend"]}
{"id": "C09", "title": "split and rotation laws", "statement": "split(i) returns two lists whose concatenation is the original and whose first part has length i; rotate_left(d) moves the first d mod n items to the end; rotate_right(d) undoes rotate_left(d); rotation by a multiple of the length changes nothing.", "quantifier": "all lists, all indices, all distances", "why_tests_cant": "unbounded distances and lengths", "anchors": ["extra/lists/linked_list.py:LinkedList._split", "extra/lists/linked_list.py:LinkedList._rotate", "extra/lists/linked_list.py:LinkedList.rotate_left", "extra/lists/linked_list.py:LinkedList.rotate_right", "extra/lists/circular_linked_list.py:CircularLinkedList.split"]}
{"id": "C10", "title": "equality is equality of contents", "statement": "a == b is True iff both lists hold equal items in the same order, and a != b is its negation.", "quantifier": "all pairs of lists", "why_tests_cant": "all lengths and contents", "anchors": ["extra/lists/linked_list.py:LinkedList.__eq__", "extra/lists/linked_list.py:LinkedList.__ne__", "extra/lists/linked_list.py:LinkedList._compare"]}
{"id": "C11", "title": "ordering operators agree with each other", "statement": "a > b iff b < a, a >= b iff b <= a, a <= b iff (a < b or a == b), and the operators implement the documented element-wise order, with TypeError exactly when an incomparable pair is reached.", "quantifier": "all pairs of lists", "why_tests_cant": "relational laws over all pairs", "anchors": ["extra/lists/linked_list.py:LinkedList.__lt__", "extra/lists/linked_list.py:LinkedList.__le__", "extra/lists/linked_list.py:LinkedList.__gt__", "extra/lists/linked_list.py:LinkedList.__ge__", "extra/lists/linked_list.py:LinkedList._compare"]}
{"id": "C12", "title": "slicing matches Python slicing", "statement": "ll[start:stop:step] returns a list holding what the same slice of ll.to_list() holds.", "quantifier": "all lists and all slices (any sign of start, stop, step, or omitted)", "why_tests_cant": "the space of slices is infinite", "anchors": ["extra/lists/linked_list.py:LinkedList.__getitem__"]}
{"id": "C13", "title": "membership is decided by the contents and terminates", "statement": "value in ll always terminates and is True iff some element equals value.", "quantifier": "all lists reachable through the public API, all values", "why_tests_cant": "non-termination cannot be observed by a test; reachable states are unbounded", "anchors": ["extra/lists/linked_list.py:LinkedList._search", "extra/lists/linked_list.py:LinkedList.__contains__", "extra/lists/circular_linked_list.py:CircularLinkedList.__contains__"]}
{"id": "C14", "title": "newlines are escaped on the way in", "statement": "No string reported by a linked list, stack or queue ever contains a newline: stored strings are the given ones with each newline replaced by backslash-n, and re-storing a stored string does not change it again.", "quantifier": "all strings, all histories", "why_tests_cant": "all strings", "anchors": ["extra/lists/linked_list.py:Node.__init__", "extra/lists/linked_list.py:Node.set_data", "extra/lists/stack.py:Stack.push"]}
{"id": "C15", "title": "Stack is LIFO with capacity", "statement": "For any history of push/pop/peek/clear, pop and peek return the most recently pushed item not yet popped, len never exceeds the rounded max_capacity, a push on a full stack raises OverflowError and changes nothing, pop on an empty stack returns None.", "quantifier": "all histories, all capacities", "why_tests_cant": "histories are unbounded", "anchors": ["extra/lists/stack.py:Stack"]}
{"id": "C16", "title": "Queue is FIFO with eviction", "statement": "For any history, dequeue and top return the oldest item still held; len never exceeds max_capacity; enqueueing into a full queue evicts exactly the oldest item; with capacity 0 nothing is ever stored.", "quantifier": "all histories, all capacities", "why_tests_cant": "histories are unbounded", "anchors": ["extra/lists/queue.py:Queue"]}
{"id": "C17", "title": "Queue rendering shows the current contents", "statement": "repr(queue) shows exactly the items currently in the queue.", "quantifier": "all histories", "why_tests_cant": "needs every history, including those that empty the queue", "anchors": ["extra/lists/queue.py:Queue._print_queue", "extra/lists/doubly_linked_list.py:DoublyLinkedList._remove_node"]}
{"id": "C18", "title": "Deque is a double-ended queue with eviction", "statement": "For any history of append_left/append_right/pop_left/pop_right/get_left/get_right/clear a Deque behaves like a sequence; appending to a full deque evicts exactly one item at the opposite end; len never exceeds the capacity.", "quantifier": "all histories, all capacities", "why_tests_cant": "histories are unbounded", "anchors": ["extra/lists/deque.py:Deque"]}
{"id": "C19", "title": "PriorityQueue dequeues by priority", "statement": "dequeue() returns an item with the greatest priority among those held (dequeue(lowest_priority=True) the least), removing exactly that item; every other item keeps its own priority.", "quantifier": "all histories of enqueue/dequeue, all priorities", "why_tests_cant": "the item-priority association must survive every pointer update", "anchors": ["extra/lists/priority_queue.py:PriorityQueue.dequeue", "extra/lists/doubly_linked_list.py:DoublyLinkedList._remove_node"]}
{"id": "C20", "title": "PriorityQueue dequeue never fails on a non-empty queue", "statement": "dequeue() on a non-empty PriorityQueue returns an item and never raises.", "quantifier": "all histories mixing both dequeue directions, evictions and clear", "why_tests_cant": "only particular mixes leave the cached bounds stale", "anchors": ["extra/lists/priority_queue.py:PriorityQueue.dequeue", "extra/lists/priority_queue.py:PriorityQueue.enqueue"]}
{"id": "C21", "title": "SkipList is a sorted set whatever the coin flips", "statement": "For any history of insert/remove/del over finite numbers and any outcomes of the coin flips, to_list() is the strictly increasing list of the values inserted and not removed, value in sl is membership in it, sl[i] is its i-th element and len its length.", "quantifier": "all histories, all coin-flip sequences", "why_tests_cant": "randomised structure: a test sees one outcome", "anchors": ["extra/lists/skip_list.py:SkipList"]}
{"id": "C22", "title": "SkipList towers are consistent", "statement": "After any history every level is a strictly increasing sublist of the level below it, no level but the bottom is empty, and get_height() is the number of levels.", "quantifier": "all histories, all coin-flip sequences", "why_tests_cant": "internal levels depend on random choices", "anchors": ["extra/lists/skip_list.py:SkipList._promote", "extra/lists/skip_list.py:SkipList.remove"]}
{"id": "C23", "title": "SkipList handles every number", "statement": "insert, remove and in behave as in C21 for every non-NaN number, including infinities.", "quantifier": "all numbers", "why_tests_cant": "the sentinel collides with one particular number", "anchors": ["extra/lists/skip_list.py:SkipList.remove", "extra/lists/skip_list.py:SkipList.insert"]}
{"id": "C24", "title": "heap order is preserved by insert and heapify", "statement": "After heapify(iterable) and after insert(x) on a heap-ordered MinHeap (MaxHeap), every element is >= (<=) its parent.", "quantifier": "all iterables, all values", "why_tests_cant": "all sizes", "anchors": ["extra/trees/_heap.py:Heap.insert", "extra/trees/_heap.py:Heap.heapify"]}
{"id": "C25", "title": "remove_min/remove_max on the root side preserve heap order", "statement": "MinHeap.remove_min() removes one occurrence of the minimum and MaxHeap.remove_max() one occurrence of the maximum, and the result is again heap-ordered; repeating it yields the items in sorted order.", "quantifier": "all heap-ordered heaps", "why_tests_cant": "all sizes", "anchors": ["extra/trees/_heap.py:Heap.remove", "extra/trees/min_heap.py:MinHeap.remove_min", "extra/trees/max_heap.py:MaxHeap.remove_max"]}
{"id": "C26", "title": "removing an arbitrary value preserves heap order", "statement": "remove(value) on a heap-ordered heap leaves it heap-ordered, for any value held.", "quantifier": "all heaps, all values", "why_tests_cant": "fails only for particular shapes", "anchors": ["extra/trees/_heap.py:Heap.remove", "extra/trees/_heap.py:Heap.__rebalance"]}
{"id": "C27", "title": "heap contents are a multiset", "statement": "insert(x) adds exactly one occurrence of x, remove(x) removes exactly one if present and otherwise changes nothing (with a warning), x in heap iff the multiset holds x, len is its size - for every history and whether or not the array is heap-ordered.", "quantifier": "all histories", "why_tests_cant": "all histories", "anchors": ["extra/trees/_heap.py:Heap.insert", "extra/trees/_heap.py:Heap.remove", "extra/trees/_heap.py:Heap.__contains__"]}
{"id": "C28", "title": "get_min and get_max are correct", "statement": "On a non-empty MinHeap or MaxHeap, get_min() (get_max()) returns the least (greatest) element held; on an empty one they raise IndexError.", "quantifier": "all reachable heaps", "why_tests_cant": "the half-array scan is right only under heap order", "anchors": ["extra/trees/min_heap.py:MinHeap.get_max", "extra/trees/max_heap.py:MaxHeap.get_min"]}
{"id": "C29", "title": "heap iteration agrees with the array", "statement": "Iterating over a heap yields exactly to_list(); iterating over an empty heap yields nothing.", "quantifier": "all heaps", "why_tests_cant": "tree reconstruction for every size", "anchors": ["extra/trees/_heap.py:Heap._transform", "extra/trees/_heap.py:Heap.__iter__"]}
{"id": "C30", "title": "Tree statistics agree with the structure", "statement": "len is the number of nodes, get_height the longest root-to-leaf edge count, count_leaf_nodes the number of childless nodes, get_depth 0.", "quantifier": "all finite trees", "why_tests_cant": "all shapes", "anchors": ["extra/trees/tree.py:Tree.__len__", "extra/trees/tree.py:Tree.get_height", "extra/trees/tree.py:Tree.count_leaf_nodes"]}
{"id": "C31", "title": "Tree iteration is level order", "statement": "Iterating a tree yields the concatenation of get_nodes_per_level(), whose i-th entry holds the nodes at depth i from left to right; the number of levels is height + 1.", "quantifier": "all finite trees", "why_tests_cant": "all shapes; two different traversals must agree", "anchors": ["extra/trees/tree.py:Tree.__iter__", "extra/trees/tree.py:Tree.get_nodes_per_level"]}
{"id": "C32", "title": "Tree membership", "statement": "value in tree is True iff some node holds value, and is False on an empty tree.", "quantifier": "all finite trees including the empty one", "why_tests_cant": "all shapes", "anchors": ["extra/trees/tree.py:Tree._search", "extra/trees/tree.py:Tree.__contains__"]}
{"id": "C33", "title": "BinaryTree traversals are consistent", "statement": "preorder, inorder, postorder and breadth-first traversals visit every node exactly once in the documented order; traverse(method) dispatches to them case-insensitively and raises on anything else.", "quantifier": "all binary trees", "why_tests_cant": "all shapes", "anchors": ["extra/trees/binary_tree.py:BinaryTree.traverse", "extra/trees/binary_tree.py:BinaryTree.preorder_traverse"]}
{"id": "C34", "title": "invert mirrors the tree", "statement": "invert() reverses the inorder traversal and every level; inverting twice restores the tree.", "quantifier": "all binary trees", "why_tests_cant": "all shapes", "anchors": ["extra/trees/binary_tree.py:BinaryTree.invert"]}
{"id": "C35", "title": "side views", "statement": "get_leftside_view() (get_rightside_view()) is the first (last) node of each level, in depth order.", "quantifier": "all binary trees", "why_tests_cant": "a stack-based walk with overwriting must agree with level order on every shape", "anchors": ["extra/trees/binary_tree.py:BinaryTree.get_leftside_view", "extra/trees/binary_tree.py:BinaryTree.get_rightside_view"]}
{"id": "C36", "title": "is_perfect and is_strict", "statement": "is_perfect() iff all leaves are at the same depth and every other node has two children; is_strict() iff every node has zero or two children.", "quantifier": "all binary trees", "why_tests_cant": "all shapes", "anchors": ["extra/trees/binary_tree.py:BinaryTree.is_perfect", "extra/trees/binary_tree.py:BinaryTree.is_strict"]}
{"id": "C37", "title": "is_balanced", "statement": "is_balanced() is True iff the depths of any two leaf nodes differ by at most one (the documented definition).", "quantifier": "all binary trees", "why_tests_cant": "all shapes", "anchors": ["extra/trees/binary_tree.py:BinaryTree.is_balanced"]}
{"id": "C38", "title": "parse builds the described tree", "statement": "BinaryTree.parse(nested) yields the tree the nested list describes, and raises ValueError exactly when some nested list is empty, has more than three entries or has None as a node value.", "quantifier": "all nested lists", "why_tests_cant": "unbounded nesting", "anchors": ["extra/trees/binary_tree.py:BinaryTree.parse"]}
{"id": "C39", "title": "BST insert keeps a search tree", "statement": "For any sequence of inserts the inorder traversal is the strictly increasing list of the distinct values inserted and len is its length; inserting a present value changes nothing.", "quantifier": "all insertion sequences", "why_tests_cant": "all sequences", "anchors": ["extra/trees/bst.py:BST.insert", "extra/trees/bst.py:BST._insert_node"]}
{"id": "C40", "title": "BST queries", "statement": "On any search tree, value in bst iff value is held; get_min/get_max return the least/greatest element, IndexError when empty.", "quantifier": "all search trees, all values", "why_tests_cant": "all shapes", "anchors": ["extra/trees/bst.py:BST._search", "extra/trees/bst.py:BST.get_min", "extra/trees/bst.py:BST.get_max"]}
{"id": "C41", "title": "BST remove keeps a search tree", "statement": "remove(v) deletes exactly v (if present) and leaves a search tree holding the remaining values; len is decremented iff v was present.", "quantifier": "all histories of insert and remove", "why_tests_cant": "fails only for particular shapes", "anchors": ["extra/trees/bst.py:BST.remove", "extra/trees/bst.py:BST._transplant"]}
{"id": "C42", "title": "rotations preserve the search order", "statement": "Each of the four rotations keeps the inorder traversal of the subtree it is applied to.", "quantifier": "all subtrees with the required children", "why_tests_cant": "all shapes", "anchors": ["extra/trees/bst.py:BST._rotate_left", "extra/trees/bst.py:BST._rotate_right", "extra/trees/bst.py:BST._rotate_left_right", "extra/trees/bst.py:BST._rotate_right_left"]}
{"id": "C43", "title": "AVL stays balanced under insertion", "statement": "After any sequence of inserts every node's subtrees differ in height by at most one, stored heights are the true heights, and the inorder traversal is the sorted set of inserted values.", "quantifier": "all insertion sequences", "why_tests_cant": "all sequences", "anchors": ["extra/trees/avl.py:AVL._insert", "extra/trees/avl.py:AVL._rebalance"]}
{"id": "C44", "title": "AVL stays balanced under removal", "statement": "After any sequence of inserts and removes every node's subtrees differ in height by at most one.", "quantifier": "all histories", "why_tests_cant": "fails only for particular shapes", "anchors": ["extra/trees/avl.py:AVL._remove", "extra/trees/avl.py:AVL._rebalance"]}
{"id": "C45", "title": "AVL height is logarithmic", "statement": "After any sequence of n distinct inserts the height h satisfies fib(h+3) <= n+1.", "quantifier": "all insertion sequences", "why_tests_cant": "asymptotic bound over all sizes", "anchors": ["extra/trees/avl.py:AVL"]}
{"id": "C46", "title": "AVL remove deletes exactly the value", "statement": "remove(v) on an AVL tree leaves the sorted set without v.", "quantifier": "all AVL-balanced trees, all values", "why_tests_cant": "all shapes", "anchors": ["extra/trees/avl.py:AVL._remove", "extra/trees/bst.py:BST._transplant"]}
{"id": "C47", "title": "splaying moves the accessed node to the root and keeps the order", "statement": "insert(v) and v in tree leave the inorder traversal equal to the sorted set (plus v for insert) and put v (or the last node reached by an unsuccessful search) at the root.", "quantifier": "all splay trees, all values", "why_tests_cant": "all shapes; intermediate parent/child links are inconsistent", "anchors": ["extra/trees/splay_tree.py:SplayTree.insert", "extra/trees/splay_tree.py:SplayTree.__contains__", "extra/trees/splay_tree.py:SplayTree.__splaying"]}
{"id": "C48", "title": "SplayTree membership never raises", "statement": "v in tree returns a bool for every v and every tree, including the empty one.", "quantifier": "all trees, all values", "why_tests_cant": "edge states", "anchors": ["extra/trees/splay_tree.py:SplayTree.__contains__"]}
{"id": "C49", "title": "SplayTree remove keeps a search tree", "statement": "remove(v) deletes exactly v and leaves a search tree.", "quantifier": "all histories", "why_tests_cant": "fails only for particular shapes", "anchors": ["extra/trees/splay_tree.py:SplayTree.remove"]}
{"id": "C50", "title": "Treap invariants under insert", "statement": "After any sequence of insert(value, priority) the inorder traversal is the sorted set of values, every node's priority is at most its parent's, and len is right.", "quantifier": "all sequences, all priorities (random or given)", "why_tests_cant": "randomised structure", "anchors": ["extra/trees/treap.py:Treap.insert"]}
{"id": "C51", "title": "Treap invariants under remove", "statement": "remove(v) deletes exactly v and preserves both invariants.", "quantifier": "all treaps with non-negative priorities, all values", "why_tests_cant": "all shapes", "anchors": ["extra/trees/treap.py:Treap.remove"]}
{"id": "C52", "title": "Treap remove works for every priority", "statement": "remove(v) never raises, whatever numeric priorities were used.", "quantifier": "all priorities", "why_tests_cant": "only particular priorities fail", "anchors": ["extra/trees/treap.py:Treap.remove"]}
{"id": "C53", "title": "Treap shape is canonical", "statement": "With pairwise distinct priorities, the tree obtained does not depend on the insertion order.", "quantifier": "all permutations of all insertion sequences", "why_tests_cant": "factorially many orders", "anchors": ["extra/trees/treap.py:Treap.insert"]}
{"id": "C54", "title": "RedBlackTree insert keeps a search tree", "statement": "For any sequence of inserts the inorder traversal is the sorted set of inserted values, len is its size and the root is black.", "quantifier": "all insertion sequences", "why_tests_cant": "all sequences", "anchors": ["extra/trees/red_black_tree.py:RedBlackTree.insert", "extra/trees/red_black_tree.py:RedBlackTree.__recolor"]}
{"id": "C55", "title": "RedBlackTree insert keeps the colour invariants", "statement": "After any sequence of inserts no red node has a red child and every root-to-leaf path has the same number of black nodes.", "quantifier": "all insertion sequences", "why_tests_cant": "fails only for particular shapes", "anchors": ["extra/trees/red_black_tree.py:RedBlackTree.__recolor", "extra/trees/red_black_tree.py:RedBlackTree.__recolor_case3"]}
{"id": "C56", "title": "RedBlackTree remove is total and correct", "statement": "remove(v) never raises, deletes exactly v, and keeps the invariants.", "quantifier": "all histories", "why_tests_cant": "fails only for particular shapes", "anchors": ["extra/trees/red_black_tree.py:RedBlackTree.remove", "extra/trees/red_black_tree.py:RedBlackTree.__handle_double_black"]}
{"id": "C57", "title": "Trie is a set of words", "statement": "For any history of insert/remove, w in trie iff w was inserted and not removed since; has_prefix(p) iff p is empty or some held word starts with p.", "quantifier": "all histories, all words", "why_tests_cant": "all words and histories", "anchors": ["extra/trees/trie.py:Trie.insert", "extra/trees/trie.py:Trie.remove", "extra/trees/trie.py:Trie.__contains__", "extra/trees/trie.py:Trie.has_prefix"]}
{"id": "C58", "title": "Trie auto_complete is exact", "statement": "auto_complete(p) lists, without duplicates, exactly the held words that start with p.", "quantifier": "all tries, all prefixes", "why_tests_cant": "all words", "anchors": ["extra/trees/trie.py:Trie.auto_complete", "extra/trees/trie.py:Trie._get_candidates"]}
{"id": "C59", "title": "Trie node count", "statement": "len(trie) is 1 plus the number of distinct non-empty prefixes of the held words, after any history.", "quantifier": "all histories", "why_tests_cant": "all histories", "anchors": ["extra/trees/trie.py:Trie.insert", "extra/trees/trie.py:Trie.remove"]}
{"id": "C60", "title": "Trie operations accept every word", "statement": "insert, remove and in never raise on a string with a visible character.", "quantifier": "all words", "why_tests_cant": "one particular character is used as a sentinel", "anchors": ["extra/trees/trie.py:Trie._follow_path"]}
{"id": "C61", "title": "Trie removal of the last word", "statement": "Removing the only word held leaves an empty trie without raising.", "quantifier": "all words", "why_tests_cant": "edge state", "anchors": ["extra/trees/trie.py:Trie.remove"]}
{"id": "C62", "title": "RadixTrie is a set of words", "statement": "Same as C57 for RadixTrie.", "quantifier": "all histories, all words", "why_tests_cant": "edge splitting must preserve every stored word", "anchors": ["extra/trees/radix_trie.py:RadixTrie._insert", "extra/trees/trie.py:Trie.remove"]}
{"id": "C63", "title": "RadixTrie auto_complete is exact", "statement": "Same as C58 for RadixTrie, including prefixes ending inside an edge label.", "quantifier": "all tries, all prefixes", "why_tests_cant": "all words", "anchors": ["extra/trees/radix_trie.py:RadixTrie.auto_complete"]}
{"id": "C64", "title": "RadixTrie structure", "statement": "Under any sequence of inserts siblings never share a first character, no edge label is empty, and every node that is neither the root nor a word has at least two children, so len(trie) is at most twice the number of words when there is one; len counts the nodes.", "quantifier": "all insertion sequences", "why_tests_cant": "all sequences", "anchors": ["extra/trees/radix_trie.py:RadixTrie._insert"]}
{"id": "C65", "title": "SuffixTrie substring search", "statement": "For a word and a pattern without the characters the trie reserves ($ and }), has_substring(p) iff p occurs in the word.", "quantifier": "all words, all patterns", "why_tests_cant": "all words", "anchors": ["extra/trees/suffix_trie.py:SuffixTrie.has_substring"]}
{"id": "C66", "title": "SuffixTrie occurrence count", "statement": "count_pattern_occurrences(p) for non-empty p is the number of positions at which p occurs.", "quantifier": "all words, all patterns", "why_tests_cant": "all words", "anchors": ["extra/trees/suffix_trie.py:SuffixTrie.count_pattern_occurrences"]}
{"id": "C67", "title": "SuffixTrie lowest common ancestor", "statement": "get_lowest_common_ancestor(i, j) for i != j is the longest common prefix of the suffixes at i and j.", "quantifier": "all words, all index pairs", "why_tests_cant": "all words", "anchors": ["extra/trees/suffix_trie.py:SuffixTrie.get_lowest_common_ancestor"]}
{"id": "C68", "title": "suffix array", "statement": "to_suffix_array() is a permutation of 0..n listing the suffixes in alphabetical order.", "quantifier": "all words", "why_tests_cant": "all words", "anchors": ["extra/trees/suffix_trie.py:SuffixTrie.to_suffix_array"]}
{"id": "C69", "title": "longest repeated substring", "statement": "get_longest_repeated_substring() returns exactly the longest substrings that occur at least twice.", "quantifier": "all words", "why_tests_cant": "fails only for particular words", "anchors": ["extra/trees/suffix_trie.py:SuffixTrie.get_longest_common_substring"]}
{"id": "C70", "title": "get_lcp and is_palindrome", "statement": "get_lcp(a, b) is the longest common prefix of a and b; is_palindrome(w) iff w equals its reverse.", "quantifier": "all strings", "why_tests_cant": "all strings", "anchors": ["extra/trees/radix_trie.py:get_lcp", "extra/trees/suffix_trie.py:is_palindrome"]}
{"id": "C71", "title": "RedBlackTree black height", "statement": "On a tree that satisfies the colour invariants get_black_height() is the number of black nodes on every path from the root to a missing child.", "quantifier": "all trees with the colour invariants", "why_tests_cant": "a wrong count shows on particular shapes only", "anchors": ["extra/trees/red_black_tree.py:RedBlackTree.get_black_height"]}
{"id": "C72", "title": "SkipList(sl) is an independent copy", "statement": "A skip list built from another skip list holds the same numbers, and later changes to either do not show in the other.", "quantifier": "all histories on the two objects", "why_tests_cant": "aliasing shows only when both objects are used afterwards", "anchors": ["extra/lists/skip_list.py:SkipList.__init__"]}
{"id": "C73", "title": "SuffixTrie size", "statement": "count_leaf_nodes() is the length of the word plus one, and len() is between the length plus 2 and twice the length plus 2.", "quantifier": "all words", "why_tests_cant": "size bounds quantify over all words", "anchors": ["extra/trees/suffix_trie.py:SuffixTrie.count_leaf_nodes", "extra/trees/suffix_trie.py:SuffixTrie.__len__"]}
{"id": "C74", "title": "BST links", "statement": "After any calls on a new BST the parent link of every reachable node is the node whose child it is, the root has no parent, and no node is reached in two ways; every call answers what the same call answers on a tree without parent links.", "quantifier": "all histories of BST calls", "why_tests_cant": "a stale parent link shows only in a later call that walks upwards", "anchors": ["extra/trees/bst.py:BSTNode.set_left", "extra/trees/bst.py:BSTNode.set_right", "extra/trees/bst.py:BSTNode.set_parent", "extra/trees/bst.py:BST._insert_node", "extra/trees/bst.py:BST._transplant", "extra/trees/bst.py:BST._remove", "extra/trees/bst.py:BST._find_replacement"]}
{"id": "C75", "title": "SplayTree links", "statement": "After any calls on a new SplayTree the parent link of every reachable node is the node whose child it is, the root has no parent, and no node is reached in two ways; every call answers what the same call answers on a tree without parent links.", "quantifier": "all histories of SplayTree calls", "why_tests_cant": "a wrongly linked node shows only in particular histories", "anchors": ["extra/trees/splay_tree.py:SplayTree._zig_zig", "extra/trees/splay_tree.py:SplayTree._zag_zag", "extra/trees/splay_tree.py:SplayTree._zig_zag", "extra/trees/splay_tree.py:SplayTree._zag_zig", "extra/trees/splay_tree.py:SplayTree._zig", "extra/trees/splay_tree.py:SplayTree._zag", "extra/trees/splay_tree.py:SplayTree._splaying", "extra/trees/splay_tree.py:SplayTree._splay"]}
{"id": "C76", "title": "AVL links", "statement": "After any calls on a new AVL the parent link of every reachable node is the node whose child it is, the root has no parent, and no node is reached in two ways; every call answers what the same call answers on a tree without parent links.", "quantifier": "all histories of AVL calls", "why_tests_cant": "a wrongly linked node shows only in particular histories of rotations", "anchors": ["extra/trees/avl.py:AVL._insert", "extra/trees/avl.py:AVL._remove", "extra/trees/avl.py:AVL._rebalance", "extra/trees/bst.py:BST._rotate_left", "extra/trees/bst.py:BST._rotate_right"]}
{"id": "C77", "title": "Treap links", "statement": "After any calls on a new Treap, with any priorities and with calls that raise among them, the node objects are linked as a search tree with right parent links, no node is reached in two ways, and the length is the number of nodes. Every further call answers what a map from numbers to priorities answers and leaves the objects linked with the pairs of that map, except that remove may raise AttributeError if some priority is not above -1; the pairs are then the same as before.", "quantifier": "all histories of Treap calls, all priorities, all outcomes of drawing", "why_tests_cant": "the shape depends on the priorities, most of them drawn; a wrongly linked node shows only in particular rotations", "anchors": ["extra/trees/treap.py:Treap.insert", "extra/trees/treap.py:Treap.remove", "extra/trees/bst.py:BST._attach", "extra/trees/bst.py:BST._rotate_left", "extra/trees/bst.py:BST._rotate_right"]}
{"id": "C78", "title": "RedBlackTree links", "statement": "After any calls on a new RedBlackTree the parent link of every reachable node is the node whose child it is, the root has no parent, and no node is reached in two ways; every call answers what the same call answers on a tree without parent links. When remove raises from its middle, the objects are still linked as a tree.", "quantifier": "all histories of RedBlackTree calls", "why_tests_cant": "a wrongly linked node shows only in particular histories of rotations", "anchors": ["extra/trees/red_black_tree.py:RedBlackTree.insert", "extra/trees/red_black_tree.py:RedBlackTree.remove", "extra/trees/red_black_tree.py:RedBlackTree.__recolor", "extra/trees/red_black_tree.py:RedBlackTree.__handle_double_black", "extra/trees/bst.py:BST._transplant", "extra/trees/bst.py:BST._attach"]}
{"id": "C79", "title": "trees built again from their traversals", "statement": "BST(iterable) is a given tree exactly when that is a search tree of the numbers of the iterable and each number first comes after the number above it. So a BST that is a search tree is built again, the same in every node, from its own preorder or breadth-first traversal, while increasing numbers build a chain. A balanced AVL with true heights is built again, heights included, from its breadth-first traversal.", "quantifier": "all search trees of any size; all sequences of numbers", "why_tests_cant": "the shape depends on the order of all inserts; a test sees a few orders", "anchors": ["extra/trees/bst.py:BST.__init__", "extra/trees/bst.py:BST._insert_node", "extra/trees/binary_tree.py:BinaryTree.preorder_traverse", "extra/trees/binary_tree.py:BinaryTree.breadth_first_traverse", "extra/trees/avl.py:AVL._insert"]}
{"id": "C80", "title": "heights, leaves and levels of tries", "statement": "After any history Trie.get_height is the length of the longest word held; count_leaf_nodes of a Trie or RadixTrie is the number of words held that do not begin another word held; row i of Trie.get_nodes_per_level consists of the last characters of the different prefixes of i+1 characters, and to_list is the rows one after another. For a RadixTrie the height is the largest number of nodes on the way to a word, and each label is what its string adds to the longest string of a node it continues.", "quantifier": "all histories of calls, all words", "why_tests_cant": "depends on all words held and on what removals cut back; a test sees a few sets of words", "anchors": ["extra/trees/tree.py:Tree.get_height", "extra/trees/trie.py:Trie.count_leaf_nodes", "extra/trees/trie.py:Trie.__iter__", "extra/trees/trie.py:Trie.get_nodes_per_level", "extra/trees/radix_trie.py:RadixTrie.get_height"]}
{"id": "C81", "title": "the drawing of a Tree", "statement": "repr of a Tree has one line for each node, depth first; the line of a node has two columns for each node above it but the root (a bar where that node has further siblings), then the branch to the node, then its label. Two trees with the same drawing have the same shape and the same labels.", "quantifier": "all trees with labels without line breaks", "why_tests_cant": "the bars of a line depend on all ancestors, and telling trees apart quantifies over pairs of trees; a test compares a few texts", "anchors": ["extra/trees/tree.py:Tree.__print_subtree", "extra/trees/tree.py:Tree.__repr__"]}
{"id": "C82", "title": "the drawings of tries", "statement": "Two Tries with the same drawing hold the same words; likewise two RadixTries.", "quantifier": "all pairs of histories of calls, words without line breaks", "why_tests_cant": "quantifies over pairs of histories; the ambiguity of check marks in words is far from any sample", "anchors": ["extra/trees/trie.py:TrieNode._represent", "extra/trees/trie.py:Trie.__repr__", "extra/trees/radix_trie.py:RadixTrie.__repr__"]}
{"id": "C83", "title": "the picture of a BinaryTree", "statement": "In the drawing of a BinaryTree the labels have columns of their own, in the order of an inorder traversal with at least one column between two of them; the nodes of depth d are in row 2d; row 2d+1 has a / next to the middle of the label of each left child and a backslash next to that of each right child; bars lead from there to the label of the parent, and everything else is blank.", "quantifier": "all binary trees whose labels are not empty and have no white space but blanks", "why_tests_cant": "the columns depend on the widths of all labels; a test compares a few texts", "anchors": ["extra/trees/binary_tree.py:BinaryTree._print_subtree", "extra/trees/binary_tree.py:BinaryTree.__repr__"]}
{"id": "C84", "title": "the drawing of a BinaryTree tells the tree", "statement": "Two binary trees with the same drawing have the same shape and the same labels, if labels are not empty and contain neither white space nor underscores (for example numbers).", "quantifier": "all pairs of binary trees with such labels", "why_tests_cant": "quantifies over pairs of trees of any size", "anchors": ["extra/trees/binary_tree.py:BinaryTree._print_subtree", "extra/trees/binary_tree.py:BinaryTree.__repr__"]}
{"id": "C85", "title": "the drawings of linked lists", "statement": "repr of a list that is not empty shows its items in order, each in a box exactly as wide as its text and two blanks, with an arrow behind each box; all lines are equally long (the first line of a CircularLinkedList lacks the two columns of the way back); a CircularLinkedList has a line from the last column to the middle of the first box. Two lists of a class have the same drawing exactly if their items print alike, and drawing changes nothing.", "quantifier": "all three classes, all programs of calls, all items", "why_tests_cant": "the columns depend on the widths of all items before; telling lists apart quantifies over pairs of programs; a test compares a few texts", "anchors": ["extra/lists/linked_list.py:LinkedList._print_node", "extra/lists/linked_list.py:LinkedList._print_linked_list", "extra/lists/linked_list.py:LinkedList.__repr__", "extra/lists/doubly_linked_list.py:DoublyLinkedList._print_node", "extra/lists/circular_linked_list.py:CircularLinkedList.__repr__"]}
{"id": "C86", "title": "the drawing of a SkipList", "statement": "repr of a SkipList of height H has 2H+1 lines of the same length; the held numbers, in order and after -inf, have columns of their own; the line of level i shows exactly the numbers on level i and arrows past the others; the borders between two levels join the boxes of a number that is on both and open or leave out the others. Two skip lists have the same drawing exactly if their levels hold the same numbers.", "quantifier": "all histories of calls, all outcomes of the coin flips", "why_tests_cant": "the three pointers that walk in parallel have to stay in step on every level of every reachable structure; a test compares a few seeded texts", "anchors": ["extra/lists/skip_list.py:SkipList.__print_node", "extra/lists/skip_list.py:SkipList.__print_level", "extra/lists/skip_list.py:SkipList.__print_top_border", "extra/lists/skip_list.py:SkipList.__repr__"]}
{"id": "C87", "title": "the drawing of a heap", "statement": "str(heap) draws the complete binary tree whose node for index i of the array has the numbers at 2i+1 and 2i+2 as children; the empty heap is drawn as / \\\\. Heaps with different arrays are drawn differently.", "quantifier": "every array of numbers printed without white space, _ and |, different numbers differently (proved of int, inf and -inf)", "why_tests_cant": "tests compare a few drawings of small heaps", "anchors": ["extra/trees/_heap.py:145-185", "extra/trees/binary_tree.py:515-633"]}
{"id": "C88", "title": "the drawings of search trees", "statement": "the drawing of a BST, AVLTree or SplayTree tells its shape and numbers; that of a RedBlackTree the colours too; that of a Treap with SHOW_PRIORITY set the priorities too: different trees are drawn differently", "quantifier": "every tree, with numbers printed without white space, _ and |, different numbers differently (proved of int, inf and -inf)", "why_tests_cant": "tests compare a few drawings of small trees", "anchors": ["extra/trees/binary_tree.py:515-633", "extra/trees/red_black_tree.py:139-167", "extra/trees/treap.py:127-156"]}
{"id": "C89", "title": "Tree.from_path builds the tree of a folder", "statement": "from_path of a path that leads to a file or folder, however the path is spelled, returns a tree whose root has its name, whose nodes below the root are exactly the files and folders below it, children sorted by name; a path that leads nowhere raises ValueError, something else than a string TypeError", "quantifier": "every file system without links, every working directory and every path string", "why_tests_cant": "tests need a file system; they look at one or two folders", "anchors": ["extra/trees/tree.py:332-364", "extra/trees/tree.py:367-411"]}
{"id": "C90", "title": "SuffixTrie iteration lists the labels of the suffix tree", "statement": "to_list returns, row after row by depth, the labels of the places of the suffix tree of the word: the suffixes closed with $ and the strings after which two of them go on differently; the label of a place is what its string adds to the longest place it continues", "quantifier": "every word that can be built", "why_tests_cant": "tests compare the list of one word", "anchors": ["extra/trees/suffix_trie.py:282-318", "extra/trees/suffix_trie.py:320-349"]}
{"id": "C91", "title": "relatives of a node of a search tree", "statement": "at every node of a search tree get_left, get_right, get_parent, get_grand_parent, is_left_child, get_sibling and get_uncle give the nodes at the places of these relatives, or None where there is none", "quantifier": "every search tree object after any calls, every node of it", "why_tests_cant": "tests ask a few nodes of one tree", "anchors": ["extra/trees/bst.py:125-193", "extra/trees/bst.py:256-266"]}
{"id": "C92", "title": "setters of nodes", "statement": "set_left and set_right make the argument the child and the node its parent, change nothing else, keep the links of all nodes in pairs, and refuse what is not a node; set_child and set_children of TreeNode change the list of children or, if an argument is not a node, nothing", "quantifier": "every collection of node objects whose links come in pairs, every argument", "why_tests_cant": "tests link two fresh nodes", "anchors": ["extra/trees/bst.py:195-254", "extra/trees/avl.py:43-76", "extra/trees/binary_tree.py:317-343", "extra/trees/tree.py:136-208"]}
{"id": "C93", "title": "search trees as sorted sets", "statement": "a new BST, AVL, RedBlackTree or SplayTree answers every call of every history of insert, remove, in, get_min, get_max, len, inorder_traverse and clear with numbers exactly as a sorted set of the numbers does, with a warning on an insert of a member and on a removal of what is no member, and IndexError for the minimum or maximum of the empty set", "quantifier": "every history of these calls of any length, every linear order of numbers", "why_tests_cant": "tests run a handful of short histories, and compare each class with expected literals, not with a set", "anchors": ["extra/trees/bst.py:460-1056", "extra/trees/avl.py:299-601", "extra/trees/red_black_tree.py:325-944", "extra/trees/splay_tree.py:155-504"]}
{"id": "C94", "title": "The read methods of the search trees agree with each other", "statement": "For BST, AVL, RedBlackTree, SplayTree and Treap the answers of is_empty, get_height, get_depth, count_leaf_nodes, is_perfect, is_strict, iteration, to_list, get_nodes_per_level, the traversals, traverse and the side views fit together: preorder, postorder and breadth-first order are rearrangements of inorder; there is one level more than the height says; no level is empty or more than twice as wide as the one above; side views are first and last of each level; the tree is perfect exactly if it holds 2^(height+1)-1 numbers and strict exactly if 2*leaves = numbers+1; traverse takes five names in any case and raises ValueError or TypeError otherwise. A red-black tree whose invariants hold has 2^(height+1) <= (numbers+1)^2, a balanced AVL tree fib(height+3) <= numbers+1.", "quantifier": "all trees of any size (any history of calls for BST and Treap)", "why_tests_cant": "the methods are inherited through two classes and work on trees of any shape", "anchors": ["extra/trees/bst.py:1268-1742", "extra/trees/avl.py:592-1134", "extra/trees/red_black_tree.py:985-1448", "extra/trees/splay_tree.py:540-1007", "extra/trees/treap.py:612-1099", "extra/trees/binary_tree.py:1183-1300"]}
{"id": "C95", "title": "what the drawings of stacks, queues, deques and priority queues tell", "statement": "Two stacks have the same drawing exactly if their items print alike, in order; so do two queues, deques or priority queues of which at least one is not empty. With SHOW_PRIORITY on, the drawing of a priority queue also tells the priorities: the same drawing means items and priorities that print alike, even if an item's text contains '|P:'. An empty queue never looks like one that is not empty. Drawing changes nothing.", "quantifier": "all histories of calls, all pairs of containers, all items", "why_tests_cant": "the widths of the boxes must tell where an item ends even if its text contains the box characters; this is about pairs of histories", "anchors": ["extra/lists/stack.py:Stack.__repr__", "extra/lists/queue.py:Queue._print_queue", "extra/lists/deque.py:Deque.__repr__", "extra/lists/priority_queue.py:PriorityNode._represent", "extra/lists/priority_queue.py:PriorityQueue.__repr__"]}
{"id": "C96", "title": "setters of list nodes", "statement": "set_next makes the argument the next node (for DoublyNode also the node the argument's previous one), set_prev likewise; both change nothing else, keep the links of doubly linked nodes in pairs, and refuse what is not a node; set_data and set_priority store the value or raise and change nothing", "quantifier": "every collection of node objects whose links come in pairs, every argument, also the node itself", "why_tests_cant": "tests link fresh nodes; what old partners keep shows only for nodes that have partners", "anchors": ["extra/lists/linked_list.py:71-121", "extra/lists/doubly_linked_list.py:72-118", "extra/lists/priority_queue.py:73-88"]}
{"id": "C97", "title": "the list from to_list() of a heap", "statement": "the list that to_list() of a heap returns belongs to the caller: changing it does not change the heap, and later calls on the heap do not change it", "quantifier": "every history of making heaps, calling their methods, and reading and changing the lists received", "why_tests_cant": "tests compare the list at once and never write to it or read it later", "anchors": ["extra/trees/_heap.py:371-388", "extra/trees/min_heap.py:446-476", "extra/trees/max_heap.py:448-478"]}
{"id": "C98", "title": "a treap made with a seed is reproducible", "statement": "making Treap(iterable, seed) and calling methods on it gives the same priorities, the same tree and the same results whenever the seed, the items and the calls are the same, whatever else the program does; and making or clearing a treap leaves the random numbers of the rest of the program alone", "quantifier": "every random number generator, every program that makes treaps and calls them in any order", "why_tests_cant": "tests make one treap and use it alone; that all treaps share one generator shows only when calls are interleaved", "anchors": ["extra/trees/treap.py:72-79", "extra/trees/treap.py:175-249", "extra/trees/treap.py:470-478", "extra/trees/treap.py:587-608", "extra/trees/tree.py:1150-1179"]}
{"id": "C99", "title": "attributes of tree nodes", "statement": "get_height() of an AVLNode is the height of its subtree after any calls of set_left and set_right, get_children_heights() gives the heights of its sides and is_balanced() whether they differ by at most one; set_height, set_color and set_priority store the value they are given and change nothing else, or refuse it and change nothing", "quantifier": "every collection of node objects whose links come in pairs and whose heights are right, every node and argument", "why_tests_cant": "tests link nodes in one order; whether heights are right depends on the order and on the parent of the node changed", "anchors": ["extra/trees/avl.py:43-166", "extra/trees/red_black_tree.py:86-113", "extra/trees/treap.py:81-108"]}
{"id": "C100", "title": "LinkedLists made from lists of another class", "statement": "LinkedList(other) and ll.extend(other) accept a DoublyLinkedList or a CircularLinkedList, and the LinkedList then behaves like one that holds the same items: every call gives what it gives on a Python list of them. Comparing lists of different classes raises TypeError whichever stands on the left", "quantifier": "every heap of lists, every run of calls on the LinkedList, every item, index and amount of time; every pair of classes", "why_tests_cant": "whether a call works depends on the class of the node before the place of the new item and, for a missing item, on a search that never ends; tests make lists of one class only", "anchors": ["extra/lists/linked_list.py:218-237", "extra/lists/linked_list.py:926-931", "extra/lists/linked_list.py:1401-1414", "extra/lists/linked_list.py:1493-1539", "extra/lists/doubly_linked_list.py:96-118"]}
{"id": "C101", "title": "invert on search trees", "statement": "A BST, AVL, RedBlackTree, SplayTree or Treap stays a set of numbers when it is inverted: invert mirrors it, twice restores it, the colours, heights and priorities stay in order, and in, insert, remove, get_min and get_max go on answering as for the same numbers", "quantifier": "every search tree of every class; for BST every run of calls after the invert, with every argument", "why_tests_cant": "the inherited invert is documented for BinaryTree only; what a search finds afterwards depends on the shape of the tree and on every number inserted since", "anchors": ["extra/trees/binary_tree.py:1329-1359", "extra/trees/bst.py:612-660", "extra/trees/bst.py:694-713", "extra/trees/bst.py:455-458", "extra/trees/bst.py:524-527"]}
{"id": "C102", "title": "Iterating over a list that changes", "statement": "Calling next on an iterator over a LinkedList, DoublyLinkedList or CircularLinkedList, between calls that insert, set or remove values, gives what the iterator of a Python list would give; in particular, every value once if nothing moves among the values already given", "quantifier": "every reachable list, every program of next, insert, add_front, add_end, item assignment, del, remove_front, remove_end, remove and clear with arguments in range", "why_tests_cant": "an iterator is a suspended generator that holds a node and a counter; a test fixes one interleaving, the claim is about all of them", "anchors": ["extra/lists/linked_list.py:448-473", "extra/lists/doubly_linked_list.py:346-367", "extra/lists/circular_linked_list.py:191-212"]}
{"id": "C103", "title": "the cost of a SplayTree", "statement": "In every history of calls on a SplayTree the calls look at O(log n) nodes on average, where n is the number of insertions, although a single call may look at all of them", "quantifier": "every history of insert, remove, in, len and clear from an empty tree or from any tree; every linear order of numbers", "why_tests_cant": "an average over all histories; the zig-zig step matters for it and for nothing a test of the contents can see", "anchors": ["extra/trees/splay_tree.py:215-323", "extra/trees/splay_tree.py:393-396", "extra/trees/splay_tree.py:444-450", "extra/trees/splay_tree.py:487-502", "extra/trees/bst.py:887-902"]}
{"id": "C104", "title": "iterating over a search tree while it is used", "statement": "A generator made by iter(tree) gives, as long as numbers are put into the tree and the tree is read between two calls of next, each value at most once, and every value that was there when it was made; exactly: the first value in the order of the levels that has not been given, leaving out those put in under a value already passed", "quantifier": "every history of calls building a search tree; every interleaving of next, insert and reading calls; every linear order of numbers", "why_tests_cant": "the interleavings are unbounded and the answer depends on where the generator stands; the loop that puts in a larger number each time never ends", "anchors": ["extra/trees/tree.py:929-937", "extra/trees/binary_tree.py:902", "extra/trees/binary_tree.py:211-216", "extra/trees/bst.py:1482"]}
{"id": "C105", "title": "the words of a trie determine its shape", "statement": "Two tries of the same class that hold the same words (the strings for which `w in trie` is True) have the same nodes: at every place the same data and word flag and children for the same characters, up to the order of the children, and so the same len; it does not matter which calls led there", "quantifier": "every two histories of calls with any arguments, including refused ones, words with a brace, removals and clear", "why_tests_cant": "which nodes are made depends on the whole history; equal word sets reached by different histories cannot be listed", "anchors": ["extra/trees/trie.py:631-670", "extra/trees/trie.py:673-727", "extra/trees/radix_trie.py:405-454"]}
{"id": "C106", "title": "MinHeap and MaxHeap are mirror images", "statement": "A MaxHeap of the numbers turned round (such as their negatives) and a MinHeap of the numbers do the same: every call, with min and max exchanged, has the same outcome with its numbers turned round, the same exceptions and the same warnings, and leaves the numbers turned round at the same places", "quantifier": "every heap of either class in any state, every history of calls with any arguments, every map between number systems that turns the order round", "why_tests_cant": "the two classes are written separately in parts and compare in several places; agreement over all histories cannot be listed", "anchors": ["extra/trees/_heap.py:226-354", "extra/trees/min_heap.py:197-232", "extra/trees/max_heap.py:199-234"]}
{"id": "C107", "title": "how much of a heap a call changes", "statement": "A call on a heap of n items other than clear changes at most log2(n+1)+2 entries of its list: insert only on the way from the new place up to the root, remove only at the last place and on one way down from the place of the number", "quantifier": "every heap in any state, also one that lost its order, every call", "why_tests_cant": "a bound for every size; the changed entries depend on all items on the way", "anchors": ["extra/trees/_heap.py:226-246", "extra/trees/_heap.py:249-303", "extra/trees/_heap.py:325-354"]}
{"id": "C108", "title": "how long a search in a SkipList takes", "statement": "A search in a SkipList of n numbers takes O(log n) on average over the coin flips, as documented: the loop of search_sorted tests its condition at most 2*log2(n)+5 times on average, whatever calls made the list and whatever number is looked for; there are on average at most log2(n)+3 levels and exactly 2n nodes. For given flips the number of tests is exactly the number of held numbers that no nearer number up to the one looked for surpasses in heads, plus the number of levels visited; it is at most the number of numbers up to it plus the number of levels, and without heads it is linear", "quantifier": "every history of calls, every number except -inf, all outcomes of the coin flips, every n", "why_tests_cant": "a mean over infinitely many outcomes of the flips; a test sees single outcomes of one length", "anchors": ["extra/lists/skip_list.py:52-71", "extra/lists/skip_list.py:74-106", "extra/lists/skip_list.py:645-712", "extra/lists/skip_list.py:714-750", "extra/lists/skip_list.py:861-920"]}
{"id": "C109", "title": "how deep a search in a BST goes, on average over the orders of insertion", "statement": "When n different numbers are inserted into an empty BST in an order drawn at random, the mean number of nodes a search for x looks at is exactly H(a) + H(b) - c, where H are the harmonic numbers, c is 1 if x is held and 0 otherwise, a counts the numbers below x and b those above, both plus c; so at most 2 + 2 log n. For a given order the search looks at those numbers that came before all others between them and x; this is never more than n, and n for increasing numbers and their greatest", "quantifier": "every list of different numbers, every x held or not, all orders of insertion, every n", "why_tests_cant": "a mean over n! orders of insertion for every n; a test sees single orders", "anchors": ["extra/trees/bst.py:585-623", "extra/trees/bst.py:694-713", "extra/trees/bst.py:766-811"]}
{"id": "C110", "title": "how deep a search in a Treap goes, on average over the priorities", "statement": "When n different numbers are inserted into an empty Treap in any order with priorities drawn by the code, the mean number of nodes a search looks at is at most a + b log n for some a and b", "quantifier": "every order of insertion of different numbers, every number looked for, all outcomes of the draws, every n", "why_tests_cant": "a mean over 101^n outcomes for every n; with few nodes the linear part cannot be seen", "anchors": ["extra/trees/treap.py:75-79", "extra/trees/treap.py:470-493", "extra/trees/bst.py:612-623"]}
{"id": "C111", "title": "the height of a RedBlackTree stays logarithmic", "statement": "A RedBlackTree has the guaranteed height of O(log(n)) its documentation promises: after any sequence of inserts the height is at most c log2(n + 1), n being the number of values held, for some fixed c", "quantifier": "every sequence of inserts, every number of values, every factor c", "why_tests_cant": "the height is unremarkable for most orders; a test of some sizes cannot tell a logarithm with a large factor from linear growth", "anchors": ["extra/trees/red_black_tree.py:2-4", "extra/trees/red_black_tree.py:208-210", "extra/trees/red_black_tree.py:448-540", "extra/trees/red_black_tree.py:573-584"]}
{"id": "C112", "title": "heapify takes linear time", "statement": "heapify makes a heap of n numbers in time O(n), as its documentation says: the entries of its list that change on the way are at most c n, for some fixed c", "quantifier": "every sequence of numbers, both kinds of heap, every factor c", "why_tests_cant": "linear and n log n growth look alike at the sizes a test uses, and most orders change few entries", "anchors": ["extra/trees/_heap.py:86-117", "extra/trees/_heap.py:226-246"]}
{"id": "C113", "title": "Building a search tree takes linear time", "statement": "BST(iterable), AVL(iterable) and RedBlackTree(iterable) of n numbers take time O(n), as their documentation says: the nodes looked at while the numbers are inserted are at most c n, for some fixed c", "quantifier": "every sequence of numbers (different ones for BST and AVL), every factor c, the mean over all orders", "why_tests_cant": "linear, n log n and quadratic growth look alike at the sizes a test uses, and the mean ranges over all orders", "anchors": ["extra/trees/bst.py:299-359", "extra/trees/avl.py:200-252", "extra/trees/red_black_tree.py:219-273", "extra/trees/bst.py:694-713"]}
{"id": "C114", "title": "how far the calls of lists and queues walk", "statement": "insert, indexing, assignment, del, add_front, add_end, remove_front and remove_end of a list walk as many links as the position is away from the head, in a DoublyLinkedList from the nearer end, O(min(k,n/2)); the calls of Queue, Deque and PriorityQueue take constant time", "quantifier": "every list of every class, every index, every queue, every history of a priority queue", "why_tests_cant": "a test sees the answer of a call, not how many nodes it passed, and constant cannot be told from linear at a few sizes", "anchors": ["extra/lists/linked_list.py:967-1007", "extra/lists/doubly_linked_list.py:699-745", "extra/lists/queue.py:221-269", "extra/lists/priority_queue.py:439-496"]}
{"id": "C115", "title": "Iterating over a trie while words are inserted and removed", "statement": "While words are inserted into a Trie() or RadixTrie() and removed from it, a generator made by iter() raises no error, never gives the same node twice, and gives only nodes that were in the trie at some time; when it stops, it has given every node that was there all the time (for a Trie: every non-empty prefix that some word had all the time; for a RadixTrie: every word that was held all the time). It may give nodes that have been removed, goes on over the old nodes after clear(), and may miss nodes that were put in meanwhile.", "quantifier": "for all histories of calls, followed by every interleaving of next() and calls other than clear()", "why_tests_cant": "Every interleaving of next() with insertions and removals would have to be tried, for every trie; a test fixes one.", "anchors": ["extra/trees/trie.py:416", "extra/trees/radix_trie.py:271", "extra/trees/trie.py:673", "extra/trees/radix_trie.py:456"]}
{"id": "C116", "title": "nan in a BST", "statement": "nan, which insert accepts as a float, can be kept in a BST beside other numbers: it is found and can be removed, and the other numbers are held as without it", "quantifier": "every history of calls, every mixture of nan and numbers, also without any nan", "why_tests_cant": "nan is neither equal to nor smaller nor greater than any number, so where it ends up and what it hides depends on the whole history", "anchors": ["extra/trees/bst.py:380", "extra/trees/bst.py:612-660", "extra/trees/bst.py:694-713", "extra/trees/bst.py:853-979"]}
{"id": "C117", "title": "search trees take any number of numbers", "statement": "With some limit on nested calls, numbers can be inserted into a BST, AVL, RedBlackTree or SplayTree without RecursionError, however many there are and in whatever order; _insert_node calls itself once for each node on the way down", "quantifier": "every limit on nested calls of _insert_node, every sequence of numbers", "why_tests_cant": "the default limit of Python is about a thousand calls; tests insert a handful of numbers", "anchors": ["extra/trees/bst.py:694-713", "extra/trees/bst.py:806-811", "extra/trees/avl.py:418-431", "extra/trees/red_black_tree.py:573-584", "extra/trees/splay_tree.py:444-450"]}
{"id": "C118", "title": "nan in a heap", "statement": "A heap made by heapify from numbers among which there may be nan gives the smallest (MinHeap.get_min) or greatest (MaxHeap.get_max) of the numbers, holds exactly the items inserted and not removed, and keeps every number in order with its parent.", "quantifier": "every list of numbers and nan objects, every history of insert, remove, in and len", "why_tests_cant": "Every comparison with nan is false, so nan sits still and cuts the array into parts; which answers are wrong depends on where in the list the nan stands.", "anchors": ["extra/trees/_heap.py:209-246", "extra/trees/_heap.py:249-303", "extra/trees/_heap.py:305-354", "extra/trees/min_heap.py:170-232"]}
{"id": "C119", "title": "trees of TreeNode objects", "statement": "Whatever set_child and set_children were called, len, get_height, count_leaf_nodes and iteration of a Tree tell about the nodes that can be reached from the root, each node counted once, and they end.", "quantifier": "every store of TreeNode objects, every root, every limit on nested calls", "why_tests_cant": "A node may be set as child of several nodes or below itself; what is counted then are ways down, and whether the calls end depends on the whole graph.", "anchors": ["extra/trees/tree.py:136-208", "extra/trees/tree.py:414-473", "extra/trees/tree.py:631-675", "extra/trees/tree.py:793-849", "extra/trees/tree.py:889-936"]}
{"id": "C120", "title": "linked lists of values that need not be equal to themselves", "statement": "in, count, remove, == and != of a LinkedList, DoublyLinkedList or CircularLinkedList give what they give for Python's list of the same values, whatever == says about the values.", "quantifier": "every relation eq on values, every value, every pair of lists", "why_tests_cant": "A test with numbers or strings never has a value that is not equal to itself; for nan the calls find nothing, and a list is not equal to itself.", "anchors": ["extra/lists/linked_list.py:518-539", "extra/lists/linked_list.py:579-587", "extra/lists/linked_list.py:926-931", "extra/lists/linked_list.py:960-965", "extra/lists/circular_linked_list.py:548-551", "extra/lists/linked_list.py:1700-1715", "extra/lists/linked_list.py:2203-2209"]}
{"id": "C121", "title": "nan for a priority", "statement": "dequeue of a PriorityQueue that is not empty returns an item, and no item it holds has a greater priority (a smaller one for lowest_priority=True), whatever numbers the priorities are, nan included.", "quantifier": "every history of calls, every capacity, every priority", "why_tests_cant": "nan passes the check of the type; what it does to the remembered priorities depends on the order of the items and of the arguments of min and max.", "anchors": ["extra/lists/priority_queue.py:317-318", "extra/lists/priority_queue.py:369-374", "extra/lists/priority_queue.py:409-437", "extra/lists/priority_queue.py:473-496"]}
{"id": "C122", "title": "nan in a SkipList", "statement": "Whatever numbers are inserted into a SkipList, `in` answers whether a number is held, no number is held twice, and the numbers come out in increasing order. (False with nan: a nan goes to the front and hides from the search what is not on a higher level than it, so that numbers are not found and can be inserted again. What is left: numbers out of order have a nan between them, `in` and `remove` act exactly on what no nan hides, and a number that has just been inserted is found.)", "quantifier": "all histories of insert, remove, in, iteration and clear, with all numbers and nan, and all outcomes of the coin flips", "why_tests_cant": "a test would have to insert nan, with particular outcomes of the coin flips, and look for the numbers after it", "anchors": ["extra/lists/skip_list.py:100-106", "extra/lists/skip_list.py:699-712", "extra/lists/skip_list.py:748-750", "extra/lists/skip_list.py:899-920", "extra/lists/skip_list.py:985-1004"]}
{"id": "C123", "title": "the sizes of tries", "statement": "After every history of calls a RadixTrie has at most as many nodes as a Trie after the same calls, and their number is proportional to the number of strings held and not to their total length, as radix_trie.py says: at most twice the number of words, if there are any. (The second half is false after remove, which does not join nodes: for every n one word can be held in n + 2 nodes. It holds without remove, and in the calls of insert so far with remove.)", "quantifier": "all histories of calls", "why_tests_cant": "no test can show that there is no bound, and the sizes of all tries with the same words have to be compared", "anchors": ["extra/trees/radix_trie.py:28-33", "extra/trees/radix_trie.py:RadixTrie._insert", "extra/trees/radix_trie.py:RadixTrie.remove"]}
{"id": "C124", "title": "the shape of a heap", "statement": "The tree of a heap of n > 0 numbers (the one _transform makes, and which is printed and iterated) has log2 n + 1 levels, rounded down, so its height is log2 n at most as min_heap.py and max_heap.py say. Its level d has the numbers of the list from position 2^d - 1 on, 2^d of them in all levels but the last. All levels are completely filled, as the same lines say, exactly if n + 1 is a power of 2.", "quantifier": "all lists of numbers that a heap can have", "why_tests_cant": "the height is a statement about all sizes, and the documented property holds for some sizes only", "anchors": ["extra/trees/min_heap.py:14-17", "extra/trees/max_heap.py:14-17", "extra/trees/_heap.py:Heap._transform"]}
{"id": "C125", "title": "nan in an AVL", "statement": "nan can be inserted into an AVL beside other numbers: no call raises, the numbers inserted are found, and the tree is balanced. (False. In AVL([1, nan, 2]) the rotation puts 1 on the left of nan, where it is not found and can be inserted again; AVL([nan, 6, 14, 11, 17, 13, 3]) raises AttributeError; AVL([6, 4, nan, 16, 17, 7]) is not balanced. It holds without nan and with one nan inserted last, apart from nan itself, and a call that does not raise keeps all numbers in order and adds the new one.)", "quantifier": "all sequences of insertions", "why_tests_cant": "which rotation is made is decided by comparisons, and only some orders of insertion make them go wrong", "anchors": ["extra/trees/avl.py:AVL._rebalance", "extra/trees/avl.py:AVL._insert", "extra/trees/bst.py:BST._attach", "extra/trees/bst.py:BSTNode.is_left_child"]}
