{
 "claims": [
  {
   "property": "C01",
   "status": "proved",
   "theorems": [
    "Extra.C01_linkedList_history",
    "Extra.C01_error_leaves_contents",
    "Extra.C03_programs_refine"
   ],
   "note": "Every history of calls on one list, with arbitrary arguments, returns what the sequence specification says; a raising call leaves the contents unchanged."
  },
  {
   "property": "C02",
   "status": "proved",
   "theorems": [
    "Extra.C02_doublyLinkedList_history",
    "Extra.C01_error_leaves_contents",
    "Extra.C03_programs_refine"
   ],
   "note": "As C01 for DoublyLinkedList."
  },
  {
   "property": "C03",
   "status": "proved",
   "theorems": [
    "Extra.C03_circularLinkedList_history",
    "Extra.C01_error_leaves_contents",
    "Extra.C03_programs_refine",
    "Extra.C03_setItem_on_empty"
   ],
   "note": "As C01 for CircularLinkedList. Item assignment to an empty list has two allowed outcomes, shown by C03_setItem_on_empty."
  },
  {
   "property": "C04",
   "status": "proved",
   "theorems": [
    "Extra.C04_backward_walk"
   ],
   "note": "Backward walk from the tail gives the reversed contents, for every reachable non-empty list."
  },
  {
   "property": "C05",
   "status": "proved",
   "theorems": [
    "Extra.C05_construct_valid",
    "Extra.C05_construct_invalid"
   ],
   "note": "Contents after construction; first bad item decides the exception."
  },
  {
   "property": "C06",
   "status": "proved",
   "theorems": [
    "Extra.C06_copy",
    "Extra.C06_reverse",
    "Extra.C06_slice",
    "Extra.C06_split",
    "Extra.C06_rotate_new",
    "Extra.C06_independent"
   ],
   "note": "Contents of derived lists, and independence under every later program that does not write to the list."
  },
  {
   "property": "C07",
   "status": "proved",
   "theorems": [
    "Extra.C07_extend"
   ],
   "note": "Both lists' reports after extend, all three classes."
  },
  {
   "property": "C08",
   "status": "partial",
   "theorems": [
    "Extra.C08_extend_aliases",
    "Extra.C08_constructor_aliases",
    "Extra.C08_constructor_partial",
    "Extra.C08_extend_no_alias_partial"
   ],
   "note": "False in the code for LinkedList, DoublyLinkedList and for the copy constructor (negations proved); holds for CircularLinkedList.extend, and the copy made by the constructor behaves as a list of its own if the original is not used any more."
  },
  {
   "property": "C09",
   "status": "proved",
   "theorems": [
    "Extra.C09_split",
    "Extra.C09_rotate",
    "Extra.C09_rotate_undo",
    "Extra.C09_rotate_multiple"
   ],
   "note": "All lists, indices and distances."
  },
  {
   "property": "C10",
   "status": "proved",
   "theorems": [
    "Extra.C10_eq"
   ],
   "note": ""
  },
  {
   "property": "C11",
   "status": "partial",
   "theorems": [
    "Extra.C11_elementwise",
    "Extra.C11_ge_le",
    "Extra.C11_le_iff",
    "Extra.C11_gt_not_dual",
    "Extra.C11_gt_lt_partial",
    "Extra.C11_gt_elementwise",
    "Extra.C11_gt_lt_exact"
   ],
   "note": "a > b iff b < a is false in the code (negation proved); C11_gt_lt_exact says exactly for which lists it holds; the other laws hold."
  },
  {
   "property": "C12",
   "status": "partial",
   "theorems": [
    "Extra.C12_negative_step",
    "Extra.C12_slice_partial",
    "Extra.C12_specSlice_step_one",
    "Extra.C12_negative_exact",
    "Extra.C12_exact"
   ],
   "note": "Negative steps are wrong in the code (negation proved); every positive step is right. C12_negative_exact says what negative steps give, C12_exact exactly when a slice is right."
  },
  {
   "property": "C13",
   "status": "partial",
   "theorems": [
    "Extra.C13_contains_partial",
    "Extra.C13_self_extend_search_diverges",
    "Extra.C13_self_extend_diverges",
    "Extra.C13_self_extend_exact"
   ],
   "note": "Holds for every list reachable without self-extension; after self-extension the search ends exactly for the values held (C13_self_extend_exact) and runs forever for the others (negation proved)."
  },
  {
   "property": "C14",
   "status": "proved",
   "theorems": [
    "Extra.C14_no_newline",
    "Extra.C14_stored",
    "Extra.C14_stored_newline_not_found",
    "Extra.C14_stack_no_newline",
    "Extra.C14_queue_no_newline"
   ],
   "note": "Linked lists, stacks, queues and deques."
  },
  {
   "property": "C15",
   "status": "proved",
   "theorems": [
    "Extra.C15_stack_history",
    "Extra.C15_lifo",
    "Extra.C15_capacity",
    "Extra.C15_overflow",
    "Extra.C15_capacity_rounded"
   ],
   "note": "Whole histories, and the LIFO law, capacity and overflow separately."
  },
  {
   "property": "C16",
   "status": "proved",
   "theorems": [
    "Extra.C16_queue_history",
    "Extra.C16_fifo",
    "Extra.C16_evicts_oldest",
    "Extra.C16_evict_exactly",
    "Extra.C16_capacity"
   ],
   "note": "Whole histories on the pointer-level model, and the FIFO law, eviction and capacity separately."
  },
  {
   "property": "C17",
   "status": "partial",
   "theorems": [
    "Extra.C17_repr_partial",
    "Extra.C17_repr_fresh_partial",
    "Extra.C17_repr_stale",
    "Extra.C17_repr_wrong"
   ],
   "note": "False in the code for a queue emptied by dequeue (negation proved); right for every non-empty queue and for empty ones without removals since creation or clear."
  },
  {
   "property": "C18",
   "status": "proved",
   "theorems": [
    "Extra.C18_deque_history",
    "Extra.C18_evict_left",
    "Extra.C18_both_ends",
    "Extra.C16_evict_exactly",
    "Extra.C16_capacity"
   ],
   "note": "Whole histories on the pointer-level model; eviction at both ends."
  },
  {
   "property": "C19",
   "status": "partial",
   "theorems": [
    "Extra.C19_exact",
    "Extra.C19_dequeue_partial",
    "Extra.C19_removes_returned",
    "Extra.C19_wrong_item"
   ],
   "note": "False in the code (negation proved): removing the newest of three or more items hands its priority to the next. C19_exact says exactly which histories go right. Holds in particular for the histories described by steady and oldTaken; every dequeue removes exactly the item it returns."
  },
  {
   "property": "C20",
   "status": "partial",
   "theorems": [
    "Extra.C20_exact",
    "Extra.C20_dequeue_partial",
    "Extra.C20_one_direction_partial",
    "Extra.C20_dequeue_raises"
   ],
   "note": "False in the code (witnesses proved): cached bounds go stale. C20_exact says exactly when dequeue raises after a history without faults. Holds for steady histories, in particular for one direction without capacity."
  },
  {
   "property": "C21",
   "status": "proved",
   "theorems": [
    "Extra.C21_history",
    "Extra.C21_reads",
    "Extra.C21_changes",
    "Extra.C21_flips",
    "Extra.C21_of_list"
   ],
   "note": "-inf is excluded (C23)."
  },
  {
   "property": "C22",
   "status": "proved",
   "theorems": [
    "Extra.C22_levels",
    "Extra.C22_tower"
   ],
   "note": "-inf is excluded (C23)."
  },
  {
   "property": "C23",
   "status": "partial",
   "theorems": [
    "Extra.C23_partial",
    "Extra.C23_minus_inf"
   ],
   "note": "False for -inf, the value of the sentinels (C23_minus_inf). Proved for every other number."
  },
  {
   "property": "C24",
   "status": "proved",
   "theorems": [
    "Extra.C24_insert",
    "Extra.C24_heapify",
    "Extra.C24_heapify_invalid"
   ],
   "note": "Both classes, all values."
  },
  {
   "property": "C25",
   "status": "proved",
   "theorems": [
    "Extra.C25_remove_root",
    "Extra.C25_sorts"
   ],
   "note": "One removal, and heap sort as a whole."
  },
  {
   "property": "C26",
   "status": "partial",
   "theorems": [
    "Extra.C26_remove_partial",
    "Extra.C26_order_broken"
   ],
   "note": "False in the code (negation proved). C26_remove_partial says exactly when the order survives."
  },
  {
   "property": "C27",
   "status": "proved",
   "theorems": [
    "Extra.C27_bag_history",
    "Extra.C27_every_call"
   ],
   "note": "Histories of the bag operations, and conservation of items for every single call."
  },
  {
   "property": "C28",
   "status": "partial",
   "theorems": [
    "Extra.C28_extremes_partial",
    "Extra.C28_history_partial",
    "Extra.C28_empty",
    "Extra.C28_wrong_min",
    "Extra.C28_wrong_max"
   ],
   "note": "Right for heap-ordered heaps, which all histories without remove of inner items produce; wrong after remove (witnesses proved)."
  },
  {
   "property": "C29",
   "status": "partial",
   "theorems": [
    "Extra.C29_iteration_partial",
    "Extra.C29_empty_raises"
   ],
   "note": "Right for non-empty heaps; the empty heap raises AssertionError (proved)."
  },
  {
   "property": "C30",
   "status": "proved",
   "theorems": [
    "Extra.C30_counts",
    "Extra.C30_height",
    "Extra.C30_binary_counts"
   ],
   "note": "Against paths from the root; Tree and BinaryTree."
  },
  {
   "property": "C31",
   "status": "proved",
   "theorems": [
    "Extra.C31_iteration",
    "Extra.C31_levels",
    "Extra.C31_levels_empty"
   ],
   "note": ""
  },
  {
   "property": "C32",
   "status": "partial",
   "theorems": [
    "Extra.C32_contains_partial",
    "Extra.C32_binary_contains_partial",
    "Extra.C32_empty_raises"
   ],
   "note": "Right for non-empty trees; an empty tree raises AttributeError (proved)."
  },
  {
   "property": "C33",
   "status": "proved",
   "theorems": [
    "Extra.C33_traversals",
    "Extra.C33_traverse"
   ],
   "note": ""
  },
  {
   "property": "C34",
   "status": "proved",
   "theorems": [
    "Extra.C34_mirror",
    "Extra.C34_reverses"
   ],
   "note": ""
  },
  {
   "property": "C35",
   "status": "proved",
   "theorems": [
    "Extra.C35_leftside_view",
    "Extra.C35_rightside_view",
    "Extra.C35_lengths"
   ],
   "note": ""
  },
  {
   "property": "C36",
   "status": "proved",
   "theorems": [
    "Extra.C36_is_perfect",
    "Extra.C36_is_strict"
   ],
   "note": ""
  },
  {
   "property": "C37",
   "status": "partial",
   "theorems": [
    "Extra.C37_is_balanced_partial",
    "Extra.C37_balanced_reported_partial",
    "Extra.C37_false_alarm",
    "Extra.C37_missed"
   ],
   "note": "False in the code in both directions (witnesses proved). C37_is_balanced_partial says exactly what is computed."
  },
  {
   "property": "C38",
   "status": "proved",
   "theorems": [
    "Extra.C38_parse",
    "Extra.C38_parse_raises"
   ],
   "note": ""
  },
  {
   "property": "C39",
   "status": "proved",
   "theorems": [
    "Extra.C39_inserts",
    "Extra.C39_insert",
    "Extra.C39_constructor"
   ],
   "note": ""
  },
  {
   "property": "C40",
   "status": "proved",
   "theorems": [
    "Extra.C40_contains",
    "Extra.C40_min",
    "Extra.C40_max"
   ],
   "note": ""
  },
  {
   "property": "C41",
   "status": "partial",
   "theorems": [
    "Extra.C41_remove_partial",
    "Extra.C41_remove_other",
    "Extra.C41_length",
    "Extra.C41_history_partial",
    "Extra.C41_order_lost"
   ],
   "note": "False in the code (C41_order_lost). Proved: exactly one value goes, len is right for every history, and the order is kept if and only if the removed node's subtree has a safe shape."
  },
  {
   "property": "C42",
   "status": "proved",
   "theorems": [
    "Extra.C42_rotations",
    "Extra.C42_new_root"
   ],
   "note": ""
  },
  {
   "property": "C43",
   "status": "proved",
   "theorems": [
    "Extra.C43_inserts",
    "Extra.C43_insert",
    "Extra.C43_queries"
   ],
   "note": ""
  },
  {
   "property": "C44",
   "status": "partial",
   "theorems": [
    "Extra.C44_remove_partial",
    "Extra.C44_remove_exact_partial",
    "Extra.C44_step",
    "Extra.C44_history_exact",
    "Extra.C44_small",
    "Extra.C44_unbalanced"
   ],
   "note": "False in the code (C44_unbalanced). Proved: exactly which removals from a balanced tree lose the balance, and for histories that the tree is balanced after each call if and only if no call is such a removal. Everything else (order, stored heights, length) is kept by every call on a balanced tree."
  },
  {
   "property": "C45",
   "status": "proved",
   "theorems": [
    "Extra.C45_height",
    "Extra.C45_removal"
   ],
   "note": "C45_removal: with one removal among the insertions the bound fails."
  },
  {
   "property": "C46",
   "status": "proved",
   "theorems": [
    "Extra.C46_remove",
    "Extra.C46_order_lost"
   ],
   "note": "For all AVL-balanced trees. C46_order_lost: over whole histories, where balance can be lost (C44), the order can be lost too."
  },
  {
   "property": "C47",
   "status": "proved",
   "theorems": [
    "Extra.C47_insert",
    "Extra.C47_contains",
    "Extra.C47_history"
   ],
   "note": ""
  },
  {
   "property": "C48",
   "status": "partial",
   "theorems": [
    "Extra.C48_membership_partial",
    "Extra.C48_raises"
   ],
   "note": "False in the code (C48_raises): AssertionError on the empty tree. Proved for numbers on search trees that are not empty."
  },
  {
   "property": "C49",
   "status": "partial",
   "theorems": [
    "Extra.C49_remove_partial",
    "Extra.C49_order_lost"
   ],
   "note": "False in the code (C49_order_lost). Proved: never raises, takes out exactly the number, and keeps a search tree exactly when the subtree of the removed node has a safe shape."
  },
  {
   "property": "C50",
   "status": "proved",
   "theorems": [
    "Extra.C50_inserts",
    "Extra.C50_insert"
   ],
   "note": ""
  },
  {
   "property": "C51",
   "status": "proved",
   "theorems": [
    "Extra.C51_remove",
    "Extra.C51_history"
   ],
   "note": "For every removal that returns; when it does not return is C52."
  },
  {
   "property": "C52",
   "status": "partial",
   "theorems": [
    "Extra.C52_exact",
    "Extra.C52_map_exact",
    "Extra.C52_history_exact",
    "Extra.C52_total_partial",
    "Extra.C52_only_attribute_error",
    "Extra.C52_raises",
    "Extra.C52_raises_minus_one"
   ],
   "note": "False in the code for priorities of -1 or less (C52_raises). Proved: with all priorities above -1 nothing raises; otherwise the only exception is AttributeError. C52_exact says for every treap exactly which removals raise, C52_map_exact and C52_history_exact say it in terms of the map from numbers to priorities if no priority is used twice."
  },
  {
   "property": "C53",
   "status": "proved",
   "theorems": [
    "Extra.C53_unique",
    "Extra.C53_order",
    "Extra.C53_equal_priorities"
   ],
   "note": ""
  },
  {
   "property": "C54",
   "status": "proved",
   "theorems": [
    "Extra.C54_insert",
    "Extra.C54_inserts"
   ],
   "note": ""
  },
  {
   "property": "C55",
   "status": "partial",
   "theorems": [
    "Extra.C55_insert_partial",
    "Extra.C55_inserts_partial",
    "Extra.C55_insert_exact_partial",
    "Extra.C55_inserts_exact",
    "Extra.C55_invariants_lost"
   ],
   "note": "False in the code: __recolor goes on from a black node (C55_invariants_lost). Proved: exactly which insertions lose the invariants, and for sequences of insertions that the invariants hold after each if and only if none is such an insertion."
  },
  {
   "property": "C56",
   "status": "partial",
   "theorems": [
    "Extra.C56_remove_partial",
    "Extra.C56_value_error",
    "Extra.C56_attribute_error",
    "Extra.C56_invariants_lost",
    "Extra.C56_order_lost",
    "Extra.C56_black_exact_partial",
    "Extra.C56_call_exact",
    "Extra.C56_history_exact"
   ],
   "note": "False in the code (four witnesses). Proved: exactly what remove does on a tree with the invariants, case by case (warns, removes and keeps the invariants, removes and loses them, ValueError, AttributeError), and the histories in which every call ends with the invariants."
  },
  {
   "property": "C57",
   "status": "partial",
   "theorems": [
    "Extra.C57_history",
    "Extra.C57_words_partial",
    "Extra.C57_brace"
   ],
   "note": "Histories with any strings are specified exactly (C57_history); the statement itself holds without '}' and fails with it (C57_brace)."
  },
  {
   "property": "C58",
   "status": "proved",
   "theorems": [
    "Extra.C58_auto_complete",
    "Extra.C58_refused"
   ],
   "note": "For prefixes that do not meet an unexpected '}' (C60); those raise AttributeError."
  },
  {
   "property": "C59",
   "status": "proved",
   "theorems": [
    "Extra.C59_len"
   ],
   "note": ""
  },
  {
   "property": "C60",
   "status": "partial",
   "theorems": [
    "Extra.C60_no_brace_partial",
    "Extra.C60_raises",
    "Extra.C60_brace",
    "Extra.C60_blank"
   ],
   "note": "False in the code: '}' is used as a sentinel (C60_brace). C60_raises says exactly which words raise."
  },
  {
   "property": "C61",
   "status": "partial",
   "theorems": [
    "Extra.C61_raises",
    "Extra.C61_empty_partial"
   ],
   "note": "False in the code: the removal always raises AttributeError (C61_raises), although the trie left is empty."
  },
  {
   "property": "C62",
   "status": "partial",
   "theorems": [
    "Extra.C62_blank",
    "Extra.C62_history",
    "Extra.C62_words_partial",
    "Extra.C62_no_raise_partial",
    "Extra.C62_brace",
    "Extra.C62_last_word"
   ],
   "note": "History refinement holds for all arguments against an abstract state of words and node strings; the plain set-of-words statement is proved for strings without '}' and fails for some strings with it, and removing the last word raises."
  },
  {
   "property": "C63",
   "status": "proved",
   "theorems": [
    "Extra.C63_auto_complete",
    "Extra.C63_no_brace",
    "Extra.C63_refused"
   ],
   "note": "All histories; prefixes that meet an unexpected '}' at a node raise, as in C62."
  },
  {
   "property": "C64",
   "status": "proved",
   "theorems": [
    "Extra.C64_labels",
    "Extra.C64_len",
    "Extra.C64_branching",
    "Extra.C64_bound",
    "Extra.C64_remove"
   ],
   "note": "Labels and len after any history; branching and the bound after histories without remove, and C64_remove shows why."
  },
  {
   "property": "C65",
   "status": "proved",
   "theorems": [
    "Extra.C65_new",
    "Extra.C65_has_substring",
    "Extra.C65_other",
    "Extra.C65_reserved",
    "Extra.C65_exact",
    "Extra.C65_brace"
   ],
   "note": "C65_reserved shows that the answers are wrong for patterns with the reserved characters, C65_exact and C65_brace say what every pattern gives; a word with } cannot be built at all (C65_new)."
  },
  {
   "property": "C66",
   "status": "partial",
   "theorems": [
    "Extra.C66_count_partial",
    "Extra.C66_empty",
    "Extra.C66_reserved",
    "Extra.C66_exact",
    "Extra.C66_brace",
    "Extra.C66_entries"
   ],
   "note": "Proved for patterns without $ and }; false for $ and an exception for } (C66_reserved). C66_exact and C66_brace say what every pattern gives."
  },
  {
   "property": "C67",
   "status": "proved",
   "theorems": [
    "Extra.C67_lca",
    "Extra.C67_same",
    "Extra.C67_refused"
   ],
   "note": "For i != j the longest common prefix; for i = j the longest prefix of the suffix that occurs elsewhere; all other calls raise."
  },
  {
   "property": "C68",
   "status": "partial",
   "theorems": [
    "Extra.C68_permutation",
    "Extra.C68_suffix_array_partial",
    "Extra.C68_before_dollar"
   ],
   "note": "Always a permutation; the order is right exactly for words whose characters all come after $ (an equivalence), so false for words with spaces."
  },
  {
   "property": "C69",
   "status": "partial",
   "theorems": [
    "Extra.C69_repeated",
    "Extra.C69_exact",
    "Extra.C69_longest_partial",
    "Extra.C69_wrong",
    "Extra.C69_incomplete",
    "Extra.C69_not_longest"
   ],
   "note": "False in the code: only the two deepest levels are searched. What is returned does occur twice; the answer is exact for tries of height at most 3, and the counterexamples have height 4. C69_exact says for every word what is returned: the longest branching strings at most two levels above the deepest leaf."
  },
  {
   "property": "C70",
   "status": "proved",
   "theorems": [
    "Extra.C70_get_lcp",
    "Extra.C70_is_palindrome"
   ],
   "note": "All strings."
  },
  {
   "property": "C71",
   "status": "proved",
   "theorems": [
    "Extra.C71_black_height"
   ],
   "note": "On an empty tree the call raises AttributeError."
  },
  {
   "property": "C72",
   "status": "partial",
   "theorems": [
    "Extra.C72_copy_alone_partial",
    "Extra.C72_shared"
   ],
   "note": "False in the code: the copy shares _level_lists (C72_shared). Proved: the copy used alone behaves as a skip list with the same numbers."
  },
  {
   "property": "C73",
   "status": "proved",
   "theorems": [
    "Extra.C73_leaves",
    "Extra.C73_len",
    "Extra.C73_depth"
   ],
   "note": "All words."
  },
  {
   "property": "C74",
   "status": "proved",
   "theorems": [
    "Extra.C74_bst_links",
    "Extra.C74_bst_answers"
   ],
   "note": "BST, at the level of node objects with parent links. The subclasses are modelled as values only."
  },
  {
   "property": "C75",
   "status": "partial",
   "theorems": [
    "Extra.C75_splay_links_partial",
    "Extra.C75_splay_broken",
    "Extra.C75_splay_cycle"
   ],
   "note": "Holds as long as no earlier removal has lost the order (BST.remove's error). After that it is false: a node is then reached in two ways, numbers are lost, or the links form a cycle."
  },
  {
   "property": "C76",
   "status": "partial",
   "theorems": [
    "Extra.C76_avl_links_partial",
    "Extra.C76_avl_no_removals",
    "Extra.C76_avl_broken",
    "Extra.C76_avl_raises"
   ],
   "note": "Holds without removals, and for all histories in which every node was balanced before each call. AVL.remove can leave an unbalanced tree (C44); later calls then link a node twice, lose numbers or raise AttributeError."
  },
  {
   "property": "C77",
   "status": "proved",
   "theorems": [
    "Extra.C77_treap_links",
    "Extra.C77_treap_answers",
    "Extra.C77_treap_unheaped"
   ],
   "note": "Unconditional. C77_treap_answers adds the heap order and the answers of whole histories when no priority is at or below -1 or nothing is removed; C77_treap_unheaped shows that an exception in remove can leave the objects out of heap order."
  },
  {
   "property": "C78",
   "status": "partial",
   "theorems": [
    "Extra.C78_answers_partial",
    "Extra.C78_no_removals",
    "Extra.C78_attribute_error",
    "Extra.C78_next_call_partial",
    "Extra.C78_length_wrong",
    "Extra.C78_links_broken"
   ],
   "note": "Holds without removals, for all histories on which no call raises from its middle and the order is kept, and for one more call on any search tree with the colour invariants. An AttributeError in remove leaves the objects linked without the number but with the old length; when the colours or the order were lost before (C55, C56), a node can end up linked twice."
  },
  {
   "property": "C79",
   "status": "proved",
   "theorems": [
    "Extra.C79_exact",
    "Extra.C79_preorder",
    "Extra.C79_breadth_first",
    "Extra.C79_increasing",
    "Extra.C79_postorder_wrong",
    "Extra.C79_avl_breadth_first",
    "Extra.C79_avl_inserts",
    "Extra.C79_avl_preorder_wrong"
   ],
   "note": "C79_exact is an equivalence. The postorder and, for AVL, the preorder do not build the tree again (witnesses)."
  },
  {
   "property": "C80",
   "status": "proved",
   "theorems": [
    "Extra.C80_height",
    "Extra.C80_leaves",
    "Extra.C80_levels",
    "Extra.C80_radix_leaves",
    "Extra.C80_radix_height",
    "Extra.C80_radix_levels"
   ],
   "note": "All histories. The order of the nodes within a level (the insertion order of the dictionaries) is left open."
  },
  {
   "property": "C81",
   "status": "partial",
   "theorems": [
    "Extra.C81_lines",
    "Extra.C81_faithful_partial",
    "Extra.C81_empty",
    "Extra.C81_empty_wrong"
   ],
   "note": "The empty tree is drawn like the tree with the single label `--` (C81_empty says that this is the only confusion), so the drawing does not tell all trees apart."
  },
  {
   "property": "C82",
   "status": "partial",
   "theorems": [
    "Extra.C82_same_words",
    "Extra.C82_radix_same_words_partial",
    "Extra.C82_radix_wrong",
    "Extra.C82_break"
   ],
   "note": "Proved for Trie. For RadixTrie only if no word has a check mark: C82_radix_wrong has two different sets of words with the same drawing."
  },
  {
   "property": "C83",
   "status": "proved",
   "theorems": [
    "Extra.C83_picture",
    "Extra.C83_empty",
    "Extra.C83_block",
    "Extra.C83_empty_label"
   ],
   "note": "C83_empty_label shows why empty labels are left out."
  },
  {
   "property": "C84",
   "status": "proved",
   "theorems": [
    "Extra.C84_faithful",
    "Extra.C84_blank"
   ],
   "note": "C84_blank shows why white space is left out. Whether underscores have to be left out is not settled."
  },
  {
   "property": "C85",
   "status": "proved",
   "theorems": [
    "Extra.C85_boxes",
    "Extra.C85_empty",
    "Extra.C85_way_back",
    "Extra.C85_same_items"
   ],
   "note": ""
  },
  {
   "property": "C86",
   "status": "proved",
   "theorems": [
    "Extra.C86_picture",
    "Extra.C86_faithful"
   ],
   "note": "C86_faithful assumes that different numbers print differently, which Python's `1` and `1.0` respect."
  },
  {
   "property": "C87",
   "status": "proved",
   "theorems": [
    "Extra.C87_picture",
    "Extra.C87_faithful",
    "Extra.C87_numbers"
   ],
   "note": "Uses the drawing proved in C83 and C84."
  },
  {
   "property": "C88",
   "status": "proved",
   "theorems": [
    "Extra.C88_redblack",
    "Extra.C88_treap",
    "Extra.C88_plain",
    "Extra.C88_numbers",
    "Extra.C88_treap_hidden"
   ],
   "note": "Uses the drawing proved in C83 and C84. C88_treap_hidden shows that priorities are not drawn without SHOW_PRIORITY."
  },
  {
   "property": "C89",
   "status": "proved",
   "theorems": [
    "Extra.C89_tree",
    "Extra.C89_every_place",
    "Extra.C89_same_place",
    "Extra.C89_errors",
    "Extra.C89_not_told"
   ],
   "note": "os.path.abspath, split and join are modelled on strings (POSIX), the file system as a tree; links, permissions and undecodable names are not modelled. C89_tree is about names without newlines, the others about all names."
  },
  {
   "property": "C90",
   "status": "partial",
   "theorems": [
    "Extra.C90_rows_partial",
    "Extra.C90_all_rows",
    "Extra.C90_height",
    "Extra.C90_cut_short"
   ],
   "note": "Proved for the words without the separator of the labels, the three characters space, long arrow, space. False for others: their labels are cut off there (C90_cut_short)."
  },
  {
   "property": "C91",
   "status": "partial",
   "theorems": [
    "Extra.C91_links",
    "Extra.C91_sides_partial",
    "Extra.C91_search_tree",
    "Extra.C91_treap",
    "Extra.C91_histories_partial",
    "Extra.C91_inverted",
    "Extra.C91_removed"
   ],
   "note": "In full for get_left, get_right, get_parent, get_grand_parent, and for Treap. For the others while left children have smaller numbers than their parents and right children do not, so in every search tree. False after invert and where remove loses the order (C91_inverted, C91_removed)."
  },
  {
   "property": "C92",
   "status": "partial",
   "theorems": [
    "Extra.C92_set_left",
    "Extra.C92_set_right",
    "Extra.C92_pairs_partial",
    "Extra.C92_refused",
    "Extra.C92_avl_height",
    "Extra.C92_has_one_child",
    "Extra.C92_tree_node",
    "Extra.C92_stale"
   ],
   "note": "C92_pairs_partial says exactly when the links stay in pairs; otherwise the old child or the old parent keeps its link (C92_stale). Nodes of different classes are not mixed."
  },
  {
   "property": "C93",
   "status": "partial",
   "theorems": [
    "Extra.C93_bst_partial",
    "Extra.C93_bst_exact",
    "Extra.C93_splay_partial",
    "Extra.C93_splay_exact",
    "Extra.C93_avl_partial",
    "Extra.C93_avl_inserts",
    "Extra.C93_rb_partial",
    "Extra.C93_rb_inserts",
    "Extra.C93_rb_refused",
    "Extra.C93_fails"
   ],
   "note": "For BST and SplayTree with an exact condition; for AVL as long as no removal loses the balance, for RedBlackTree as long as no call loses the invariants or is refused, and for both in full without removals. False for each class otherwise (C93_fails). Treap is C51."
  },
  {
   "property": "C94",
   "status": "proved",
   "theorems": [
    "Extra.C94_bst",
    "Extra.C94_avl",
    "Extra.C94_rb",
    "Extra.C94_splay",
    "Extra.C94_treap"
   ],
   "note": "Views (ViewsSpec.lean) is stated over the answers only. AVL: under the hypothesis that the stored heights are right, which C43_inserts and C44_step give."
  },
  {
   "property": "C95",
   "status": "proved",
   "theorems": [
    "Extra.C95_stack",
    "Extra.C95_queue",
    "Extra.C95_queue_or_deque",
    "Extra.C95_priority_items",
    "Extra.C95_priorities",
    "Extra.C95_priority_lines"
   ],
   "note": "Items of type Val (numbers, strings, objects). The text of a priority has no '|' and no newline."
  },
  {
   "property": "C96",
   "status": "partial",
   "theorems": [
    "Extra.C96_set_next",
    "Extra.C96_set_next_doubly",
    "Extra.C96_set_prev",
    "Extra.C96_pairs_partial",
    "Extra.C96_refused",
    "Extra.C96_set_data",
    "Extra.C96_set_priority",
    "Extra.C96_fresh_pairs",
    "Extra.C96_pairs_broken"
   ],
   "note": "C96_pairs_partial says exactly when the links stay in pairs; otherwise an old neighbour keeps its link (C96_pairs_broken). Nodes of different classes are not mixed."
  },
  {
   "property": "C97",
   "status": "partial",
   "theorems": [
    "Extra.C97_shared",
    "Extra.C97_cleared_partial",
    "Extra.C97_others_partial",
    "Extra.C97_order_lost"
   ],
   "note": "False in the code: to_list() returns the list the heap works on. C97_shared: until the heap is cleared the list and the heap always have the same items and changing the list changes the heap. Proved: after clear() the lists received before are apart from the heap for good, and other heaps are never touched."
  },
  {
   "property": "C98",
   "status": "partial",
   "theorems": [
    "Extra.C98_reproducible_partial",
    "Extra.C98_two_programs_partial",
    "Extra.C98_exact",
    "Extra.C98_new_seeds",
    "Extra.C98_clear_seeds",
    "Extra.C98_alone",
    "Extra.C98_other_insert",
    "Extra.C98_other_made",
    "Extra.C98_cleared",
    "Extra.C98_program",
    "Extra.C98_not_reproducible"
   ],
   "note": "False in the code: random.seed and random.randint are those of the whole program (C98_other_insert, C98_other_made, C98_program, C98_not_reproducible), and clear() seeds anew without the seed (C98_cleared). Proved for a treap between whose calls nobody else draws or seeds; C98_exact, C98_new_seeds and C98_clear_seeds say which number every insertion gets otherwise. Histories in which no call raises from its middle."
  },
  {
   "property": "C99",
   "status": "partial",
   "theorems": [
    "Extra.C99_get_height",
    "Extra.C99_balanced",
    "Extra.C99_heights_exact",
    "Extra.C99_heights_partial",
    "Extra.C99_below_exact",
    "Extra.C99_set_height",
    "Extra.C99_set_height_fit",
    "Extra.C99_set_color",
    "Extra.C99_set_priority",
    "Extra.C99_heights_wrong"
   ],
   "note": "False in the code: set_left and set_right set the height of their node only, so the heights of nodes above it go wrong (C99_heights_wrong). Proved for trees built from below (C99_heights_partial); C99_heights_exact and C99_below_exact say exactly when the heights stay right. Nodes of different classes are not mixed."
  },
  {
   "property": "C100",
   "status": "partial",
   "theorems": [
    "Extra.C100_call_exact",
    "Extra.C100_history",
    "Extra.C100_from_doubly",
    "Extra.C100_front_partial",
    "Extra.C100_add_end_raises",
    "Extra.C100_extend_exact",
    "Extra.C100_from_circular",
    "Extra.C100_extend_circular",
    "Extra.C100_circular_history",
    "Extra.C100_extend_circular_history",
    "Extra.C100_compare",
    "Extra.C100_extend_refused",
    "Extra.C100_doubly_fails",
    "Extra.C100_circular_fails"
   ],
   "note": "False in the code: LinkedList(dll) and ll.extend(dll) take over DoublyNodes, which refuse a Node behind them, so add_end and insert raise TypeError (C100_doubly_fails, C100_add_end_raises); in LinkedList(cll) and after ll.extend(cll) the search for a missing item never ends (C100_circular_fails). C100_call_exact, C100_history, C100_extend_exact, C100_from_circular and C100_extend_circular say exactly what happens; C100_front_partial is the part that holds. Changing calls on LinkedList(cll), and after ll.extend(cll), still do what they do on a Python list (C100_circular_history, C100_extend_circular_history)."
  },
  {
   "property": "C101",
   "status": "partial",
   "theorems": [
    "Extra.C101_twice",
    "Extra.C101_search_exact",
    "Extra.C101_min_max",
    "Extra.C101_invariants",
    "Extra.C101_objects",
    "Extra.C101_history",
    "Extra.C101_remove_exact",
    "Extra.C101_fails",
    "Extra.C101_avl_fails",
    "Extra.C101_splay_fails"
   ],
   "note": "False in the code: after invert the search goes to the wrong side, so only the number at the root is found, a number that is there goes in again and cannot be removed, get_min gives the largest number (C101_fails, C101_avl_fails, C101_splay_fails). C101_search_exact, C101_min_max, C101_remove_exact and C101_history say exactly what a BST answers; mirror, restoring and the invariants hold in full (C101_twice, C101_invariants, C101_objects). For the other classes what insert and remove do after invert is shown by example only."
  },
  {
   "property": "C102",
   "status": "partial",
   "theorems": [
    "Extra.C102_history",
    "Extra.C102_total",
    "Extra.C102_like_python_partial",
    "Extra.C102_unchanged",
    "Extra.C102_add_end_forever",
    "Extra.C102_add_front_raises",
    "Extra.C102_like_python_fails"
   ],
   "note": "False in the code: the iterator keeps a node and counts, so where something moves among the values already given it differs from a Python list (C102_like_python_fails, C102_add_front_raises). C102_like_python_partial is the full claim for the other programs. C102_history says exactly what every program gives, C102_total that for the two kinds that are not circular no program is left out; for circular lists nothing is said after the list was emptied and filled again."
  },
  {
   "property": "C103",
   "status": "partial",
   "theorems": [
    "Extra.C103_amortised_partial",
    "Extra.C103_insert_search",
    "Extra.C103_from_any_tree",
    "Extra.C103_single_call",
    "Extra.C103_fails"
   ],
   "note": "Proved for the whole work of insert and in (C103_insert_search) and for the ways down of all calls that splay, remove among them (C103_amortised_partial, C103_from_any_tree). False in the code for two reasons (C103_fails): remove swaps data from the replacement down to a leaf, a way that is not splayed, and get_min and get_max do not splay."
  },
  {
   "property": "C104",
   "status": "partial",
   "theorems": [
    "Extra.C104_history_partial",
    "Extra.C104_no_repeats_partial",
    "Extra.C104_complete_partial",
    "Extra.C104_endless",
    "Extra.C104_remove_skips",
    "Extra.C104_removed_comes",
    "Extra.C104_avl_fails",
    "Extra.C104_redblack_fails",
    "Extra.C104_treap_fails",
    "Extra.C104_splay_fails"
   ],
   "note": "Proved for BST and all interleavings without remove, clear and invert. False with remove and clear (C104_remove_skips, C104_removed_comes), and in AVLTree, RedBlackTree and Treap already with insert, since rotations move nodes across the generator. In a SplayTree even asking `value in tree` in the loop makes values not come or come twice (C104_splay_fails)."
  },
  {
   "property": "C105",
   "status": "partial",
   "theorems": [
    "Extra.C105_trie",
    "Extra.C105_trie_len",
    "Extra.C105_radix_partial",
    "Extra.C105_radix_fails"
   ],
   "note": "Proved in full for Trie, and for RadixTrie for histories without remove. False for a RadixTrie with remove, which does not join nodes (C105_radix_fails, two radix tries with the same word and different len)."
  },
  {
   "property": "C106",
   "status": "proved",
   "theorems": [
    "Extra.C106_history",
    "Extra.C106_heapify"
   ],
   "note": "For any strictly order-reversing map that exchanges the least and the greatest number; nan is not modelled."
  },
  {
   "property": "C107",
   "status": "proved",
   "theorems": [
    "Extra.C107_insert",
    "Extra.C107_remove",
    "Extra.C107_others",
    "Extra.C107_every_call"
   ],
   "note": "For heaps in any state, ordered or not."
  },
  {
   "property": "C108",
   "status": "proved",
   "theorems": [
    "Extra.C108_tests",
    "Extra.C108_at_most",
    "Extra.C108_worst",
    "Extra.C108_mean",
    "Extra.C108_height",
    "Extra.C108_nodes"
   ],
   "note": "An insertion draws h heads with probability 1/2^(h+1), each insertion anew; the calls of the history do not depend on the flips. nan and -inf are not looked for."
  },
  {
   "property": "C109",
   "status": "proved",
   "theorems": [
    "Extra.C109_visited",
    "Extra.C109_mean",
    "Extra.C109_log",
    "Extra.C109_worst",
    "Extra.C109_at_most"
   ],
   "note": "Means are over List.permutations, each order once. Only insertions into an empty tree; after removals the mean is not described."
  },
  {
   "property": "C110",
   "status": "partial",
   "theorems": [
    "Extra.C110_inserts",
    "Extra.C110_different_partial",
    "Extra.C110_randint_partial",
    "Extra.C110_increasing",
    "Extra.C110_increasing_mean",
    "Extra.C110_linear",
    "Extra.C110_not_logarithmic"
   ],
   "note": "False: randint(0, 100) draws only 101 priorities and a new node is rotated above one of the same priority, so for numbers in increasing order the mean for the least is at least 1 + (n-1)/101 (C110_linear) and no bound a + b log n holds (C110_not_logarithmic). Proved instead: 2 + 2 log n + n/101 for every order of insertion, and 2 + 2 log n (exact mean included) for priorities that are all different. The draws are taken as independent and equally likely; the generator itself is not modelled here (see C98)."
  },
  {
   "property": "C111",
   "status": "partial",
   "theorems": [
    "Extra.C111_kept_partial",
    "Extra.C111_linear",
    "Extra.C111_not_logarithmic"
   ],
   "note": "False: __recolor goes on from the black node a rotation has brought up, and a second rotation there loses a black node (C55). For every k there are 6k+5 numbers whose insertion gives the height 4k+1 (C111_linear), so no factor will do (C111_not_logarithmic). While no insert loses the invariants the height is less than 2 log2(n+1) (C111_kept_partial)."
  },
  {
   "property": "C112",
   "status": "partial",
   "theorems": [
    "Extra.C112_at_most",
    "Extra.C112_each_to_root",
    "Extra.C112_not_linear"
   ],
   "note": "False: heapify inserts the items one by one. At most n (log2 n + 1) entries change (C112_at_most); for decreasing numbers in a MinHeap and increasing ones in a MaxHeap (log2 1 + 1) + ... + (log2 n + 1) do (C112_each_to_root), which is not O(n) (C112_not_linear). Counted are entries that differ before and after the insertion of a number, not single assignments."
  },
  {
   "property": "C113",
   "status": "partial",
   "theorems": [
    "Extra.C113_bst_total",
    "Extra.C113_bst_mean",
    "Extra.C113_bst_at_most",
    "Extra.C113_bst_increasing",
    "Extra.C113_avl",
    "Extra.C113_redblack",
    "Extra.C113_bst_not_linear",
    "Extra.C113_avl_not_linear",
    "Extra.C113_redblack_not_linear"
   ],
   "note": "False: the numbers are inserted one by one. For BST the nodes looked at are the sum of the depths in the finished tree (C113_bst_total), 2 (n+1) H_n - 4 n on average over the orders (C113_bst_mean), and n (n-1) / 2 for increasing numbers (C113_bst_increasing), which no order exceeds (C113_bst_at_most). For AVL they are between half of log2 1 + ... + log2 n and n (2 log2 n + 1) in every order (C113_avl). For RedBlackTree there are n numbers, with repetitions, for which they are at least about n^2 / 13 (C113_redblack), since its insertions can make the tree linearly deep (C111). None is O(n) (C113_bst_not_linear, C113_avl_not_linear, C113_redblack_not_linear). Counted are nodes looked at on the way down, not the steps that balance an AVL or a red-black tree."
  },
  {
   "property": "C114",
   "status": "partial",
   "theorems": [
    "Extra.C114_same",
    "Extra.C114_list",
    "Extra.C114_dll",
    "Extra.C114_queue",
    "Extra.C114_same_dequeue",
    "Extra.C114_dequeue",
    "Extra.C114_not_constant"
   ],
   "note": "Holds for the lists (C114_list, C114_dll) and for Queue and Deque, where a loop turns at most once (C114_queue). Fails for PriorityQueue.dequeue, documented to take constant time: n turns or more with n items (C114_dequeue, C114_not_constant). Counted are turns of while loops in _get_node, dequeue and _update_*_priority; C114_same and C114_same_dequeue say that the counted methods are those of the model."
  },
  {
   "property": "C115",
   "status": "proved",
   "theorems": [
    "Extra.C115_trie",
    "Extra.C115_radix",
    "Extra.C115_removed_comes",
    "Extra.C115_new_missed"
   ],
   "note": "A node is the string that leads to it; clear() is covered by a concrete case only."
  },
  {
   "property": "C116",
   "status": "partial",
   "theorems": [
    "Extra.C116_nan_not_found",
    "Extra.C116_no_removals_partial",
    "Extra.C116_found_partial",
    "Extra.C116_lost",
    "Extra.C116_without_nan_partial"
   ],
   "note": "False: nan is never found nor removed and each insertion of it makes the tree longer (C116_nan_not_found), and the removal of a number can hide others (C116_lost: 3 in BST([5, 3, nan]) after remove(5)). Holds: as long as no number is removed and invert is not called, every call returns what a list would, in which nan is put at the end and any other new number before the first greater one (C116_no_removals_partial, C116_found_partial); get_min and get_max may be nan. Without nan every history, with removals, gives what the model with numbers only gives (C116_without_nan_partial)."
  },
  {
   "property": "C117",
   "status": "partial",
   "theorems": [
    "Extra.C117_call",
    "Extra.C117_bst_increasing",
    "Extra.C117_bst_fails",
    "Extra.C117_redblack_fails",
    "Extra.C117_splay_fails",
    "Extra.C117_avl_partial"
   ],
   "note": "False for every limit: insert raises RecursionError exactly if there is no room for a call for each node on the way down (C117_call). Of numbers in increasing order a BST takes room + 1 and refuses the rest (C117_bst_increasing, C117_bst_fails), so BST(range(1000)) raises with the default limit; room + 2 numbers suffice for a SplayTree (C117_splay_fails) and 6 room + 12 for a RedBlackTree (C117_redblack_fails). Holds for an AVL with fewer than Fibonacci(room + 3) numbers in any order (C117_avl_partial), more than can be stored for the default limit. Only nested calls of _insert_node are counted; __recolor and _splay are taken to have room."
  },
  {
   "property": "C118",
   "status": "partial",
   "theorems": [
    "Extra.C118_bag",
    "Extra.C118_positions",
    "Extra.C118_root_partial",
    "Extra.C118_min_lost",
    "Extra.C118_max_lost",
    "Extra.C118_remove_lost",
    "Extra.C118_without_nan_partial"
   ],
   "note": "The code does not do this: MinHeap.heapify([5, nan, 6, 1]).get_min() is 5 (C118_min_lost), get_max can be wrong or nan (C118_max_lost), and remove_min can leave a number above a smaller one (C118_remove_lost). What holds: the bag behaviour for every history (C118_bag), where each nan stands and the order between numbers that are neighbours after heapify (C118_positions), and exactly which number is at the root after heapify (C118_root_partial)."
  },
  {
   "property": "C119",
   "status": "partial",
   "theorems": [
    "Extra.C119_room",
    "Extra.C119_counts",
    "Extra.C119_distinct_partial",
    "Extra.C119_iter",
    "Extra.C119_loop",
    "Extra.C119_ends_partial",
    "Extra.C119_set_child",
    "Extra.C119_build_partial",
    "Extra.C119_setters",
    "Extra.C119_shared",
    "Extra.C119_own_parent"
   ],
   "note": "The code does not do this: a node with two parents is counted twice (C119_shared), and a node below itself makes the calls raise RecursionError and iteration endless (C119_loop, C119_own_parent). Exactly what is counted are the ways down from the root (C119_counts, C119_iter); the count is that of the nodes if and only if no two ways lead to the same node (C119_distinct_partial); the calls end if and only if no node is below itself (C119_loop, C119_ends_partial); C119_set_child says which set_child makes a loop."
  },
  {
   "property": "C120",
   "status": "partial",
   "theorems": [
    "Extra.C120_exact",
    "Extra.C120_agree_partial",
    "Extra.C120_reflexive_partial",
    "Extra.C120_nan"
   ],
   "note": "The code does not do this: it compares with == only, where Python's list first looks whether it is the same object, so nan is not found, not counted and not removed, and a list with nan is not equal to itself (C120_nan). What the calls give for any == (C120_exact), exactly when that is what Python's list gives (C120_agree_partial; for remove(all=False) only shown when == is reflexive, C120_reflexive_partial). Modelled on the contents of the list; the pointers are in C01 and C02."
  },
  {
   "property": "C121",
   "status": "partial",
   "theorems": [
    "Extra.C121_without_nan_partial",
    "Extra.C121_cache",
    "Extra.C121_dequeue",
    "Extra.C121_stuck",
    "Extra.C121_first_dequeue_partial",
    "Extra.C121_nan"
   ],
   "note": "The code does not do this (C121_nan). Exactly what is remembered after a dequeue (C121_cache), what dequeue returns or when it raises given what is remembered (C121_dequeue), that a remembered nan makes every dequeue in this direction raise until clear (C121_stuck). It holds for the first dequeue after any enqueues, for the items whose priority is a number (C121_first_dequeue_partial), and without nan it is C19 and C20, as the answers are those of the pointer model (C121_without_nan_partial). Modelled on the sequence of items and priorities."
  },
  {
   "property": "C122",
   "status": "partial",
   "theorems": [
    "Extra.C122_without_nan_partial",
    "Extra.C122_between_partial",
    "Extra.C122_found_partial",
    "Extra.C122_remove_partial",
    "Extra.C122_not_damaged_partial",
    "Extra.C122_just_inserted_partial",
    "Extra.C122_nan_first",
    "Extra.C122_hidden",
    "Extra.C122_nan"
   ],
   "note": "partial because the full statement is false with nan (C122_nan); what is found, and what remove takes out, is said exactly; the levels are represented by the number of levels each entry is on; -inf is left out"
  },
  {
   "property": "C123",
   "status": "partial",
   "theorems": [
    "Extra.C123_trie",
    "Extra.C123_radix_le",
    "Extra.C123_radix_inserts",
    "Extra.C123_unbounded"
   ],
   "note": "the bound by the number of words is false after remove (C123_unbounded); without remove it is C64_bound. With remove the nodes are bounded by the calls of insert, by the nodes of a Trie with the same calls (words without '}'), and by the total length of the words held"
  },
  {
   "property": "C124",
   "status": "proved",
   "theorems": [
    "Extra.C124_levels",
    "Extra.C124_filled"
   ],
   "note": "that all levels are filled is documented for every heap and holds exactly for 2^k - 1 numbers; the second half of C124_filled is that equivalence"
  },
  {
   "property": "C125",
   "status": "partial",
   "theorems": [
    "Extra.C125_without_nan_partial",
    "Extra.C125_nan_last_partial",
    "Extra.C125_kept_partial",
    "Extra.C125_nan",
    "Extra.C125_lost",
    "Extra.C125_twice",
    "Extra.C125_raises",
    "Extra.C125_unbalanced"
   ],
   "note": "the full statement is false (C125_nan, C125_lost, C125_raises, C125_unbalanced); what holds is the case without nan, that of one nan inserted last, and that calls which do not raise keep every number. remove is not modelled with nan; an _attach on the wrong side ends the history (Err.unmodelled)"
  }
 ]
}