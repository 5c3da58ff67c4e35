CLAIMS = {
"C01": ("proved", ["C01_bubble_sort"], ""),
"C02": ("proved", ["C02_selection_sort"], ""),
"C03": ("proved", ["C03_insertion_sort"], ""),
"C05": ("proved", ["C05_quick_sort", "C05_quick_sort_empty"], "default pivot, non-empty range; the empty array raises IndexError"),
"C07": ("proved", ["C07_shell_sort"], ""),
"C09": ("proved", ["C09_cocktail_shaker_sort"], ""),
"C04": ("proved", ["C04_merge_sort", "C04_merge_sort_rounds", "C04_merge_sort_empty"], "empty range raises ValueError (math.log(0,2)); any number of rounds with n <= 2^rounds is covered"),
"C10": ("partial", ["C10_brick_sort_strict_partial", "C10_brick_sort_distinct_partial", "C10_brick_sort_diverges", "C10_full_false", "C10_exact"], "false of the code: with the default comparator (<=) a range with two equal values never ends; proved for strict comparators; with the default comparator C10_exact says: it ends, sorted, exactly if no value occurs twice in the range"),
"C11": ("partial", ["C11_brick_sort_parallel_strict_partial", "C11_brick_sort_parallel_distinct_partial", "C11_brick_sort_parallel_diverges", "C11_exact"], "same defect as C10; proved for every job order within a phase; C11_exact as C10_exact"),
"C15": ("proved", ["C15_linear_search"], ""),
"C16": ("proved", ["C16_binary_search"], ""),
"C17": ("partial", ["C17_jump_search_partial", "C17_full_false", "C17_early_start_partial", "C17_exact"], "false of the code for start > 0 (the first probe is at step, not start + step); proved whenever start is at most the step (in particular start = 0); C17_exact says what is answered for later starts"),
"C18": ("proved", ["C18_lower_bound", "C18_C19_empty"], "non-empty range; the empty array raises IndexError"),
"C19": ("proved", ["C19_upper_bound", "C18_C19_empty"], "non-empty range; the empty array raises IndexError"),
"C20": ("partial", ["C20_is_ordered_partial", "C20_full_false", "C20_none_hides_disorder", "C20_exact", "C20_default"], "false of the code for the default comparator with equal neighbours and for None holes; proved for strict comparators without None; C20_exact says for every comparator and array what is answered"),
"C21": ("proved", ["C21_longest_common_subsequence"], ""),
"C22": ("proved", ["C22_longest_increasing_subsequence", "C22_empty"], "non-empty array; the empty array raises IndexError"),
"C23": ("proved", ["C23_next_permutation"], ""),
"C24": ("partial", ["C24_prev_permutation_partial", "C24_lex_flip", "C24_full_false", "C24_duplicates_wrong", "C24_exact"], "false of the code when the range has repeated values; proved for distinct values; C24_exact says for every range what is answered and when it is right"),
"C26": ("proved", ["C26_constructors", "C26_get", "C26_set", "C26_fill", "C26_negative_write_wraps", "C26_set_outside", "C26_history", "C26_from_list", "C26_from_tuple", "C26_from_list_size", "C26_argument_changed"], "C26_argument_changed records a side effect: the constructor converts the elements inside the list of its caller."),
"C27": ("proved", ["C27_dynamic_array", "C27_indexing", "C27_last_position_not_exact"], "the last filled position is an upper bound, exact only without interior deletes"),
"C28": ("partial", ["C28_cells_independent_partial", "C28_wrong_arity", "C28_full_false", "C28_aliasing", "C28_exact"], "false of the code: indices are checked against products of the shape, so out-of-range indices alias other cells; C28_exact says for every tuple whether it is refused and which cell it denotes"),
"C29": ("proved", ["C29_array_stack"], ""),
"C31": ("partial", ["C31_exact", "C31_kept_partial", "C31_array_queue_partial", "C31_full_false", "C31_lost_elements"], "false of the code: an append that triggers a contraction while front > 0 loses elements; C31_exact: a history of different values is served if and only if the sizes never let that happen before a popleft; in particular (C31_array_queue_partial) histories in which an append to a non-empty queue finds at most half of the elements appended since it was last empty taken out"),
"C32": ("partial", ["C32_exact", "C32_kept_partial", "C32_deque_partial", "C31_array_queue_partial", "C32_full_false", "C32_pop_wrong"], "Proved: a queue, new or built from items, behaves as a double-ended queue through every history in which removing an element (other than the last) leaves at least half of the elements added since the queue was last empty and appendleft is only called while none of them was taken out on the left; FIFO use as in C31. False of the code otherwise: appendleft keeps a stale front, pop and popleft keep a stale rear when the array contracts. C32_exact: if all values are different, dequeKept — a condition on the sizes only — says exactly which histories are served."),
"C06": ("proved", ["C06_heapsort"], ""),
"C08": ("proved", ["C08_intro_sort"], ""),
"C35": ("proved", ["C35_heap_priority_queue"], ""),
"C37": ("proved", ["C37_dheap", "C37_heap_order"], "extract on an empty heap raises IndexError (the docstring says None)"),
"C12": ("proved", ["C12_counting_sort", "C12_nothing_to_sort"], "an array with no value is returned unchanged; the empty array raises IndexError"),
"C13": ("partial", ["C13_bucket_sort_partial", "C13_full_false", "C13_other_failures", "C13_exact", "C13_sorts_iff"], "false of the code when the bucket width max//count is 0, when values fall past the last bucket, or for negative values; proved for the values for which every element falls into a bucket; C13_exact determines the outcome for every range of integers, C13_sorts_iff says when it is sorted"),
"C14": ("partial", ["C14_radix_sort_partial", "C14_full_false", "C14_zeros_unsorted", "C14_leading_none", "C14_only_zeros", "C14_exact"], "false of the code: a leading None raises TypeError, and zeros mixed with None stay unsorted; proved when the range starts with a number and either holds a positive number or no None; C14_leading_none and C14_only_zeros determine the outcome for all other ranges; C14_exact: the range is sorted if and only if it starts with a number and holds a positive number or has no number after a None"),
"C39": ("proved", ["C39_singly_linked_list", "C39_below_range"], "indices below -size raise AttributeError after the size has changed (recorded as C39_below_range)"),
"C40": ("proved", ["C40_doubly_linked_list"], ""),
"C41": ("partial", ["C41_all_indices_partial", "C41_circular_list_partial", "C41_full_false", "C41_search_diverges", "C41_open_insert_after"], "false of the code: inserting or extracting at index -size leaves the last node's link stale; proved for all histories, with all documented indices, in which the calls that look at that link (str, tail.next, search for a missing key, insert_after the last node) are made while the ring is closed: index -size opens it, index 0 or emptying the list closes it again"),
"C42": ("partial", ["C42_both_directions_partial", "C42_forward_partial", "C42_full_false", "C42_ring_open", "C42_exact_partial"], "false of the code: extracting the head of a doubly circular list leaves the new head's back link empty; C42_exact_partial says exactly when head.prev is None, and that everything else is right, for histories without index -size and without insert_before such a head"),
"C30": ("proved", ["C30_linked_list_stack"], ""),
"C33": ("proved", ["C33_linked_list_queue"], ""),
"C34": ("proved", ["C34_linked_list_priority_queue", "C34_first_among_ties"], ""),
"C25": ("partial", ["C25_square_partial", "C25_exact", "C25_product_iff", "C25_mismatch", "C25_full_false", "C25_wide_wrong", "C25_tall_raises"], "false of the code for rectangular matrices: the sum runs over the number of rows of the first matrix and the result has the wrong shape; proved for square matrices and every order of the jobs; C25_exact determines the outcome for every conformable pair, C25_product_iff: the product exactly for square matrices"),
"C45": ("proved", ["C45_sparse_table", "C45_empty"], ""),
"C46": ("proved", ["C46_segment_tree"], "non-negative indices"),
"C47": ("partial", ["C47_static", "C47_dynamic_array", "C47_dynamic_partial", "C47_dynamic_exact", "C47_full_false", "C47_negative_update"], "false of the code: an update with a negative index is accepted by the array but written to the wrong leaf of the segment tree; proved for non-negative update indices and all queries; C47_dynamic_exact determines the answers for every history (a negative index the array accepts changes the last leaf)"),
"C48": ("proved", ["C48_fenwick"], ""),
"C44": ("proved", ["C44_unknown", "C44_find", "C44_find_pure", "C44_size", "C44_make_root", "C44_disjoint_sets", "C44_disjoint_sets_sorted", "C44_canonical"], "disjoint_sets answers in a canonical order, so it depends on nothing but the partition; list.sort is modelled by the merge sort of the library"),
"C50": ("proved", ["C50_kmp", "C50_empty_query"], ""),
"C51": ("partial", ["C51_exact", "C51_complete", "C51_rabin_karp_partial", "C51_full_false", "C51_collision"], "false of the code: windows with the query's hash are reported without comparing characters; C51_exact says for every input what is reported"),
"C52": ("proved", ["C52_boyer_moore", "C52_empty_query"], ""),
"C53": ("partial", ["C53_exact", "C53_sound", "C53_z_function_partial", "C53_full_false", "C53_separator_in_text"], "false of the code: an occurrence directly followed by '$' is missed; C53_exact says for every input what is reported"),
"C54": ("proved", ["C54_trie"], "delete answers True for every string present as a prefix, stored or not (the docstring's wording)"),
"C55": ("partial", ["C55_exact", "C55_strings_with_prefix_partial", "C55_full_false", "C55_stored_prefix"], "false of the code: a stored prefix is listed as its last character; C55_exact says for every history and prefix what is answered"),

 "C56": ("partial", ["C56_structure_partial", "C56_labels_partial", "C56_full_false", "C56_full_false_keys", "C56_reserved_name_false"],
  "Full statement C56_full is false of the code: remove_vertex leaves the costs of removed edges in edge_weights, the key source_target is ambiguous, and reserved names count as neighbours. Proved for every history with non-reserved names: all structural observations equal those of the abstract digraph; get_edge too when names are separable (e.g. no underscore) and no vertex is removed while it has an edge with a cost."),
 "C57": ("partial", ["C57_observations_partial", "C57_add_only_partial", "C57_num_edges_exact", "C57_full_false"],
  "Full statement C57_full is false of the code: num_edges counts removed edges (and pairs only ever named in remove_edge). Proved: all other observations for every history, num_edges for histories without remove_edge, and what num_edges really is for every history."),

 "C58": ("proved", ["C58_bfs", "AlRep.finGraph", "AmRep.finGraph"], "for both graph classes, every finite graph, source in the graph and (stateful, early stopping) operation"),
 "C59": ("proved", ["C59_dfs", "AlRep.finGraph", "AmRep.finGraph"], "the order in which DFS announces vertices is not claimed (it announces a vertex when it is pushed)"),
 "C60": ("partial", ["C60_acyclic_partial", "C60_exact", "C60_sound", "C60_never_ends", "C60_full_false"],
  "Full statement C60_full is false of the code: the visited test looks up node objects in a dictionary keyed by names, so nothing is ever filtered and the search never ends when a cycle is reachable (C60_never_ends, for every such graph and iteration order). Proved for graphs without reachable cycle; exactly those are the ones on which it ends, with exactly the reachable edges and sinks announced (C60_exact), and whatever ends has announced nothing else (C60_sound). The jobs are awaited one by one, so there is no interleaving."),

 "C61": ("proved", ["C61_kahn", "al_history_rep"], "adjacency lists (the only implementation); names that are not reserved attributes; the sort leaves the graph without edges, which the theorem states"),
 "C62": ("proved", ["C62_kahn_parallel", "al_history_rep"], "every schedule of the atomic steps of the jobs, every positive number of workers; adjacency lists"),
 "C63": ("partial", ["C63_kruskal_list_partial","C63_kruskal_parallel_list_partial","C63_kruskal_parallel_no_edges","C63_kruskal_matrix","C63_kruskal_parallel_matrix","C63_full_false"],
  "Spanning + forest + least total weight among all spanning forests, sequential and parallel, for every order of the edge dictionary. Adjacency matrices: full. Adjacency lists: costs (get_edge) are exactly the forest, but the result shares the node objects of the input, so neighbors/num_edges show the input's edges too (C63_full_false). Names whose edge keys collide and reserved names are excluded (see C56)."),
 "C36": ("proved", ["C36_binomial_priority_queue"], "every history of push/pop/peek/is_empty, any totally ordered keys"),
 "C38": ("proved", ["C38_merge","C38_insert","C38_minimum","C38_is_empty","C38_history","C38_orders"], "every heap expression (new, insert, merge, delete_minimum); the other heap of a merge is consumed; root lists passed to the constructor are not modelled"),
 "C82": ("proved", ["C82_decrease_key","C82_decrease_key_error","C82_delete","C82_handle_moves"], "nodes are given by their position; node objects do not keep their entry across decrease_key (C82_handle_moves)"),
 "C64": ("partial", ["C64_prim_partial","C64_prim_connected_partial","C64_prim_parallel_partial","C64_no_cost","C64_full_false"],
  "Sequential and parallel (any number of queues): terminates, costs (get_edge) are exactly those of a minimum spanning tree of the component of the first vertex. False of the code in full: the result shares the node objects of the input, so neighbors shows the input's edges; edges without a cost raise KeyError."),
 "C65": ("proved", ["C65_bellman_ford","C65_target","AlRep.wgraph","AmRep.wgraph"],
  "both graph classes, integer weights, every edge with a cost, edge keys that do not collide; includes termination, the negative-cycle test in both directions and the predecessors"),
 "C66": ("partial", ["C66_sound_partial","C66_few_edges_partial","C66_by_target_partial", "C66_equal_weights_partial","C66_full_false"],
  "false as stated: only |V| entries are popped from the queue although improved vertices are pushed again, so a reachable vertex can get distance infinity (witness in C66_full_false). Proved: the call returns and every finite distance is the weight of a real walk with consistent predecessors (any weights); exact distances when there are fewer edges than vertices, or when any two edges into the same vertex have the same weight (so when all weights are equal, or no vertex has two incoming edges)"),
 "C67": ("proved", ["C67_floyd_warshall"],
  "both graph classes (same function), integer weights; the second result next_vertex is modelled but nothing is claimed of it (the program fills it with None for all indirect pairs)"),
 "C69": ("proved", ["C69_tarjan"],
  "both graph classes (through AlRep.finGraph / AmRep.finGraph); Python's recursion limit is not modelled"),
 "C70": ("partial", ["C70_coarse_partial","C70_symmetric_partial","C70_full_false","C70_full_incoming_false"],
  "false as stated, twice: KeyError whenever some vertex has no incoming edge, and components merged when a vertex is pushed twice. Proved for every digraph: KeyError exactly when some vertex has no incoming edge, otherwise a partition into unions of strongly connected components; exact components when reachability is symmetric"),
 "C68": ("partial", ["C68_edmonds_karp_partial","C68_edmonds_karp_antiparallel_partial","C68_dinic_partial","C68_dinic_antiparallel_partial","C68_full_false_edmonds_karp","C68_full_false_dinic","C68_dinic_never_ends"],
  "false as stated: flow is taken back only over edges that exist in the opposite direction (both algorithms answer 1 where 2 is possible), and Dinic recurses forever when an edge leads back to the source. Proved: both end (Dinic: if no positive edge enters the source) with the value of a feasible flow that no path with spare capacity can increase; it is a maximum flow when every inner edge has an opposite edge"),
 "C71": ("proved", ["C71_bridges","C71_one_way_false","AlRep.finGraph","AmRep.finGraph"],
  "undirected = every edge present in both directions; both graph classes; the list is exactly the ordered bridges, sorted, without repetition. When the edges are added in one direction only, as in the docstring, the answer is wrong (C71_one_way_false)"),
 "C74": ("proved", ["C74_pre_order","C74_in_order","C74_out_order","C74_post_order","C74_level_order","C74_every_node_once"],
  "every finite binary tree held in the array (links spell out a tree of distinct positions), starting anywhere; the orders are stated on an independent datatype of shapes"),
 "C72": ("proved", ["C72_search","C72_in_order"],
  "every history of inserts into BinarySearchTree(), every strict total order on keys (the default comparator <); the answers of search, the stored data and the in-order traversal"),
 "C75": ("proved", ["C75_bounds","C75_select_rank"],
  "every history of inserts; select/rank for trees created with is_order_statistic=True, including the exceptions outside the range"),
 "C76": ("partial", ["C76_lca1","C76_lca2_partial","C76_lca2_full_false","IsLca.unique","C76_lca2_exact","C76_empty"],
  "algorithm 1 proved in full for every history of inserts; algorithm 2 is wrong when one key is the root's key and the other is not below it (C76_lca2_full_false) and proved right otherwise C76_lca2_exact settles algorithm 2 for all keys: it takes the root key for the next larger key when the other key is larger; C76_empty: the empty tree."),
 "C77": ("proved", ["C77_search","C77_balanced","C77_bounds","C77_select_rank"],
  "every history of AVLTree.insert (repeated keys included), every strict total order; search, in-order traversal, balance of the tree held in the array, stored heights, logarithmic height; select/rank for order statistic trees"),
 "C80": ("partial", ["C80_search","C80_tree","C80_heap_order_partial","C80_treap_partial","C80_exact","C80_full_false"],
  "search, in-order traversal and stored priorities: every history and every priority. Heap order: every history in which no key is inserted twice; false otherwise (C80_full_false), because insert never moves a present key down (nor up, when its node still carries a stale is_root mark). C80_exact: the heap order holds after every call exactly when no call gives a present key a priority above that of a child, or below that of the parent while its node carries the root mark"),
 "C78": ("partial", ["C78_search","C78_bounds","C78_tree","C78_colouring_partial","C78_exact","C78_full_false"],
  "search, in-order traversal and bounds: every history of RedBlackTree.insert. Colouring (black root, no red child of a red node, equal black heights, logarithmic height): every history in which no key is inserted twice; false otherwise (C78_full_false), because re-inserting a present key paints its node red. C78_exact: the tree is a red-black tree after every call exactly when no call inserts a key whose node is then black and not the root"),
"C43": ("proved", ["C43_skip_list", "C43_random_bits", "C43_missing", "C43_sorted"], "every history, every outcome of the random bits; the text of the KeyError, which prints the list, is not modelled; user keys other than +-inf"),
"C81": ("proved", ["C81_query", "C81_length", "C81_empty"], "any ordered number type with x-1 < x < x+1 (floats beyond 2^53 are outside); default init_node"),
"C79": ("partial", ["C79_tree_partial", "C79_distinct_partial", "C79_bounds_partial", "C79_exact", "C79_full_false"], "proved for exactly the histories that end normally (C79_exact): a key may be inserted again only right after it was inserted. Inserting any other present key raises or never ends, because insert overwrites the parent of the node stored last with the parent of the node found. delete, join and split are not covered"),
    "C73": ("partial", ["C73_fill_and_thin_partial", "C73_copes_partial", "C73_delete_on_empty", "C73_insert_after_delete", "C73_contraction", "C73_full_false","C73_last_first_partial"],
        "The claim is false (C73_full_false): delete on an empty tree raises TypeError, deleting the node in the last array position and inserting a new key loses the new key and makes search raise AttributeError, and the contraction of the array follows stale parent links. Proved: any history of insertions followed by deletions and data updates while at least half of the keys remain; more generally every history in which a new key is inserted only while the size counter equals the append position and no deletion contracts the array. C73_last_first_partial: different keys inserted in any order and deleted in the opposite order, down to the empty tree, across every contraction of the array."),
    "C49": ("partial", ["C49_counts_partial", "C49_copies_partial", "C49_fill_and_thin_partial", "C49_unknown", "C49_full_false"],
        "count, in and len are exact after every history in which no call raises; histories that never remove the last copy of an element never raise and have right bounds, and so do histories that first fill and then remove elements for good while at least half of the different elements are left; the full statement is false (add 1, add 2, remove 2, add 3 is an AttributeError)."),
    "C83": ("partial", ["C83_sound_partial", "C83_exact_partial", "C83_input", "C83_full_false"],
        "Adjacency lists (the only version in the code). Proved for every graph: ValueError exactly when the graph has a negative cycle, otherwise every finite answer is the weight of a walk, and the weights of the caller's graph are left changed by a potential. The second result is described too (the vertex itself for a direct edge, for itself and for what was not reached, None otherwise). Exact distances when there are fewer edges than vertices, or when the weights are not negative and any two edges into the same vertex have the same weight. False in general (C83_full_false), because Dijkstra as programmed stops too early."),
    "C84": ("partial", ["C84_copes_partial", "C84_fill_and_thin_partial", "C84_insert_after_delete", "C84_contraction", "C84_full_false"],
        "Proved for distinct keys inserted in any order and then deleted in any order while at least half of them remain, and for every mixed history in which the array neither contracts nor appends elsewhere than the tree expects: right return values, right searches and traversal, red-black colouring and logarithmic height after every call. False in general: insert 1, insert 2, delete 2, insert 3 raises; contraction while a node with one child is removed raises."),
    "C85": ("partial", ["C85_copes_partial", "C85_fill_and_thin_partial", "C85_absent", "C85_delete_empty", "C85_insert_after_delete", "C85_stale_height", "C85_full_false"],
        "Proved for keys inserted in any order and then deleted in any order while at least half of them remain, and for every mixed history in which the array neither contracts nor appends elsewhere than the tree expects: right searches and traversal, AVL balance, stored heights (trees of two or more keys) and, with order statistics, select and rank. False in general: delete returns True for absent keys too, delete on an empty tree raises TypeError, insert 1, insert 2, delete 2, insert 3 raises AttributeError, and after deleting the root of a two-key tree the remaining node stores height 1."),
    "C86": ("partial", ["C86_copes_partial", "C86_fill_and_delete_partial", "C86_insert_after_delete", "C86_unmarked_root", "C86_full_false"],
        "Proved for distinct keys inserted in any order with any priorities and then deleted in any order, down to the empty tree, across every contraction of the array, and for every mixed history that inserts absent keys only and in which the array does not append elsewhere than the tree expects: right return values, right searches and traversal, heap order, priorities kept. False in general: insert 1, insert 2, delete 2, insert 3 raises AttributeError; deleting a root leaves an unmarked root, so that inserting after emptying the tree raises TypeError."),
    "C87": ("partial", ["C87_any_comparator_partial", "C87_bounds", "C87_default", "C87_full_false"],
        "False of the code: the comparator answers the function object, which is always true. Proved for every comparison and every history of inserts: search is right, but the traversal lists the keys in reverse order of first insertion, lower_bound only ever finds the key inserted first and upper_bound always answers None; without a comparison the order is < (C72)."),
    "C88": ("partial", ["C88_copes_partial", "C88_fill_and_thin_partial", "C88_stale_parent", "C88_delete_empty", "C88_full_false"],
        "Proved for distinct keys inserted in any order and then deleted in any order, sparing the smallest and the greatest, while at least half of them remain, and for every mixed history of such calls in which the array neither contracts nor appends elsewhere than the tree expects: right return values, right searches and traversal, the inserted key at the root. False in general: deleting the smallest or greatest key leaves stale parent links, so that insert 1..5, delete 5, delete 1 raises AttributeError; delete on an empty tree raises TypeError; inserting a present key again raises (C79)."),
    "C89": ("partial", ["C89_copes_partial", "C89_inserts_partial", "C89_absent", "C89_empty", "C89_full_false"],
        "Proved whenever x is a key of the tree, after every history the tree copes with (C88): both trees serve exactly their entries, x is at the root, and the returned tree takes any further history it copes with. False in general: for an absent x split returns None and divides nothing, on an empty tree it raises TypeError. The size of the tree is not reduced."),
    "C90": ("partial", ["C90_full_array_partial", "C90_refuses", "C90_empty", "C90_gap", "C90_insert_after", "C90_full_false"],
        "Proved: ValueError whenever the keys are not in order, after any histories the trees cope with; right searches and traversal after join when the first tree was built from 2^m - 1 distinct keys. False in general: the copied links are shifted by the capacity of the array instead of the number of its elements, so that {1,2} joined with {5} raises IndexError when 5 is searched; size is not updated, so that inserting 4 into {1,2,3} joined with {12} never ends; joining with an empty tree raises TypeError."),
    "C91": ("proved", ["C91_bubble_sort", "C91_insertion_sort", "C91_cocktail_shaker_sort", "C91_merge_sort", "C91_brick_sort_parallel", "C91_brick_sort", "C91_selection_unstable", "C91_quick_unstable", "C91_shell_unstable", "C91_strict_unstable"],
        "Also proved by witness: selection_sort, quick_sort and shell_sort are not stable, nor are the four stable ones with a strict comparator."),
    "C92": ("partial", ["C92_any_pivot_partial", "C92_last_pivot_partial", "C92_separating_pivot_partial", "C92_exact", "C92_unsorted", "C92_full_false"],
        "Proved for every pivot function: quick_sort ends and only rearranges the range; it sorts if every pivot is equivalent to the last element of its range (as the default is). C92_exact: it sorts exactly if no pivot picked on the way separates its range otherwise than the last cell does. False otherwise: the first element as pivot leaves [2, 1], the middle one [1, 3, 2] as they are."),
    "C93": ("partial", ["C93_sort_all_partial", "C93_all_sorts_partial", "C93_sort_range_partial", "C93_exact", "C93_history", "C93_reversed", "C93_nothing_alive", "C93_full_false"],
        "Proved for every history, for bubble, selection, insertion, merge, quick, heap, shell and cocktail sort, while at least one element is alive; without a live element sorting raises IndexError."),
    "C94": ("proved", ["C94_bubble_sort", "C94_verify", "C94_overflow", "C94_comparator", "C94_nothing_to_do"],
        "For int32 and int64 elements (float element types and what happens to a DynamicOneDimensionalArray afterwards are not modelled), after every history of earlier LLVM sorts. What the generated instructions do is given by a small interpreter (Model/Llvm.lean)."),
    "C95": ("partial", ["C95_selection_sort_partial", "C95_raises", "C95_never_compiles", "C95_after_bubble_sort", "C95_exact", "C95_full_false"],
        "False of the code: the function _build_selection_sort_ir builds is malformed, so every call that has something to sort raises RuntimeError. Proved: it does sort if an earlier bubble_sort compiled a function for the same element type, because the cache is shared and the bubble sort is executed instead."),
    "C96": ("partial", ["C96_bubble_sort_partial", "C96_selection_sort", "C96_insertion_sort", "C96_empty", "C96_bubble_empty", "C96_exact", "C96_full_false"],
        "Proved for every non-empty array (and for empty ones with selection and insertion sort). False of the code: bubble_sort of an empty array makes 2^64 - 1 passes of as many failing accesses, because len - 1 wraps around, and then raises SystemError."),
    "C97": ("partial", ["C97_exact", "C97_exact_any", "C97_later_start_partial", "C97_least_first_partial", "C97_sorts_or_never_ends", "C97_never_ends", "C97_empty", "C97_full_false"],
        "False of the code: p - 1 wraps around when the split point is 0. Proved exactly when it ends on a range from index 0 (C97_exact): some cell before the last may come before all later ones, and each cell before it may not come before one of these. Also proved: every range that does not begin at index 0 is sorted; so is one that begins there if its first cell may precede all others; in every case it sorts or never ends; it never ends if no cell of a range from 0 may precede the last one ([2, 1], or a single cell), nor on an empty array. A pick_pivot_element argument is undefined behaviour (missing NULL terminator) and not modelled."),
    "C98": ("proved", ["C98_linear_search", "C98_binary_search", "C98_jump_search", "C98_empty", "C98_jump_empty"],
        "Also proved: on an empty array linear_search and binary_search answer None, jump_search counts up to integer overflow (undefined behaviour) or, for None, never ends."),
    "C99": ("partial", ["C99_exact", "C99_is_ordered_partial", "C99_none_hides_disorder", "C99_full_false"],
        "Proved exactly what it answers, for every comparator and array (C99_exact); that is right for strict comparators and ranges without None. False with the default comparator: [3, 3] is reported as not ordered; a None cell hides any disorder across it."),
    "C100": ("partial", ["C100_labels_partial", "C100_full_false", "C100_full_false_remove", "C100_full_false_kept"],
        "Proved for names without underscore, every observation in every history, exceptions included. False of the code otherwise: edges are stored under source + '_' + target, so a → b_c and a_b → c are one edge for num_edges and get_edge, and remove_vertex, which splits the key at the first underscore, removes edges of other vertices and keeps its own. Costs are integers (others are not modelled)."),
    "C101": ("partial", ["C101_exact_partial", "C101_target_partial", "C101_exact_iff_no_gap", "C101_gap_partial", "C101_full_false", "C101_removed_undefined", "C101_unknown_source"],
        "Proved for every history without underscores in names and without removal of vertices (no dependence on the number of edges, unlike C66); with removals: it is right exactly if the ids left have no gap. False of the code: after the removal of an earlier vertex it reads outside its vectors or leaves out a vertex. A source that is not a vertex is taken for the first vertex."),
    "C102": ("partial", ["C102_list_partial", "C102_matrix_partial", "C102_unknown_source", "C102_full_false"],
        "Proved: the calls are those of a breadth first search, whatever the operation answers, up to the first call that raises; both implementations (lists: names without underscore, the domain of C100), every history, every iteration order. False of the code: a false answer of the operation does not end the search (it does in Python, C58). An unknown source is undefined behaviour for lists, KeyError for matrices."),
    "C103": ("partial", ["C103_structure_partial", "C103_get_once_partial", "C103_exact", "C103_full_false", "C103_raise_adds", "C103_collision"],
        "Proved for every observation but get_edge, whatever the names (num_edges included, unlike C57), and for the first get_edge; C103_exact says what happens in every history. False of the code: get_edge returns a reference it does not own, so that the edge object is freed when the caller drops it and the next get_edge of the pair is a use after free; add_edge with a cost that is not a number raises TypeError but has added the edge; with underscores in names edges share costs."),
    "C104": ("partial", ["C104_tree_partial", "C104_ints_partial", "C104_full_false", "C104_full_false_add", "C104_empty", "C104_changes_directed"],
        "Proved for names without underscore: termination, least total (for ints; and for every ranking that puts None first, so that a graph without values gets a spanning tree), num_vertices, num_edges, get_edge, unchanged input, every order of hash tables and ties. False of the code: the result shares its nodes with the input, so is_adjacent and neighbors of the result answer for the input graph; the id counter of the result is 0, so add_vertex on the result overwrites an existing vertex. A graph without vertices is undefined behaviour."),
"C105": ("partial", ["C105_array_partial", "C105_stack_partial", "C105_full_false", "C105_force", "C105_force_undefined"],
        "Proved for objects other than None, of any types, for every load factor and every rounding of the float quotient: the C++ array is a sequence under append and delete, the C++ stack is LIFO, and no step leaves the buffer. False of the code with None: a None that was pushed can never be popped, every pop returns it again. _modify(True) on an array without live cell reads in front of the buffer."),
"C106": ("partial", ["C106_search_partial", "C106_in_order_partial", "C106_bounds_partial", "C106_select_rank_partial", "C106_full_false", "C106_other_object", "C106_twice", "C106_truthy_comparator", "C106_truthy_bound"],
        "Proved for every strict total comparison when no two key objects with the same value are used (e.g. integers from -5 to 256, interned strings): every history of inserts. False of the code otherwise: keys are compared by object identity, so another object with the value of an inserted key is not found and is inserted a second time."),
"C107": ("partial", ["C107_copes_partial", "C107_fill_and_thin_partial", "C107_full_false", "C107_delete_on_empty", "C107_insert_after_delete", "C107_contraction", "C107_stale_size","C107_last_first_partial"],
        "Proved for the histories of C73 (no delete on an empty tree, no contraction, no new key after a delete that leaves size and end of the array apart), in particular for inserts followed by deletes that leave half of the keys. False of the code otherwise, and undefined behaviour where Python raises: delete on an empty tree uses a null pointer; after a contraction the recorded size of the array is stale, and a node with one child and a parent is relinked through its old position. C107_last_first_partial: as C73_last_first_partial."),
"C108": ("partial", ["C108_lca1_partial", "C108_lca2_partial", "C108_lca2_exact", "C108_lca2_absent", "C108_full_false", "C108_ancestor_first", "C108_big_key", "C108_big_key_either"],
        "Proved for algorithm 1: keys the interpreter shares, at most 257 nodes, first key not above the second; absent keys raise ValueError. Proved for algorithm 2: as C76. False of the code otherwise: the second loop of algorithm 1 never runs, so it answers k when j is a proper ancestor of k (1 and 2 inserted: 2); keys are converted to long and back, so other integers are not found; algorithm 2 fails when one key is the root's."),
"C109": ("proved", ["C109_pre_order", "C109_in_order", "C109_out_order", "C109_post_order", "C109_level_order", "C109_inserted"],
        "All five traversals from any node of any tree (post-order: positions below size, which holds after any history of inserts, C109_inserted)."),
"C110": ("partial", ["C110_fenwick_partial", "C110_full_false", "C110_large_element", "C110_sum_overflow", "C110_update_outside", "C110_failed_update_stores", "C110_sum_large", "C110_sum_far_outside"],
        "Proved for every array and history inside the array while the absolute values sum up to less than 2^62. False of the code otherwise: an element that does not fit in a long makes the constructor raise SystemError, larger sums are signed overflow (undefined), an update outside the array is undefined behaviour, and an update with a large int raises SystemError but has stored -1."),
"C111": ("partial", ["C111_search_partial", "C111_in_order_partial", "C111_bounds_partial", "C111_select_rank_partial", "C111_balanced_partial", "C111_long_run", "C111_full_false", "C111_other_object"],
        "Proved for key objects no two of which have the same value: search, order, bounds, select, rank and stored heights for every history of any length; balance for histories with at most 257 different keys. False of the code beyond: insert makes a new int object for the position of the new node and the balancing compares positions by identity, so with 258 or more nodes a rotation that involves the new node is not made; a history of 259 inserts that leaves the tree unbalanced is proved. Keys are compared by identity as in C106."),
"C112": ("partial", ["C112_copes_partial", "C112_fill_and_thin_partial", "C112_full_false", "C112_absent", "C112_insert_after_delete", "C112_stale_height"],
        "Proved for the histories of C85 with at most 257 positions, in particular for inserts followed by deletes that leave half of the keys. False of the code otherwise: an insert after a delete takes an empty slot for a node (undefined behaviour where Python raises), delete of an absent key returns True, and a tree of one key may store a wrong height."),
"C113": ("partial", ["C113_search_partial", "C113_bounds_partial", "C113_tree_partial", "C113_full_false", "C113_other_object", "C113_exact"],
        "Proved for key objects no two of which have the same value: search, bounds and order for every history, the red-black properties and the logarithmic height when no key is inserted twice. False of the code otherwise: inserting a present key again paints its node red, and keys are compared by identity as in C106. C113_exact decides it for key objects with distinct values: the colouring survives a history if and only if no call inserts a key whose node is black and not the root."),
"C114": ("partial", ["C114_copes_partial", "C114_fill_and_thin_partial", "C114_full_false", "C114_insert_after_delete", "C114_contraction"],
        "Proved for the histories of C84, in particular for distinct keys inserted and then deleted while at least half remain. False of the code otherwise: an insert after a delete takes an empty slot for a node, and a contraction during a delete leaves the repair with an old position; both are undefined behaviour where Python raises."),
"C115": ("partial", ["C115_tree_partial", "C115_distinct_partial", "C115_bounds_partial", "C115_full_false", "C115_again", "C115_other_object"],
        "Proved for the histories that insert a key again only right after inserting it (all histories with distinct keys), with key objects no two of which have the same value. False of the code otherwise: inserting an earlier key again overwrites the parent of the last node, and splay takes None for a position (undefined behaviour; Python raises)."),
"C116": ("partial", ["C116_copes_partial", "C116_fill_and_thin_partial", "C116_full_false", "C116_stale_parent", "C116_delete_empty"],
        "Proved for the histories of C88, in particular for distinct keys inserted and then deleted, sparing both ends, while at least half remain. False of the code otherwise: deleting the greatest key leaves a node with the parent that was freed, the next splay reads it; delete on an empty tree takes the items of None; both are undefined behaviour."),
"C117": ("partial", ["C117_copes_partial", "C117_inserts_partial", "C117_absent", "C117_empty", "C117_full_false"],
        "Proved for every tree of C116 and every x that is a key of it; the new tree can be used further. False of the code otherwise: for an absent x the method returns None and splits nothing; on an empty tree it takes the items of None."),
"C118": ("partial", ["C118_refuses", "C118_full_array_partial", "C118_gap", "C118_empty", "C118_insert_after", "C118_full_false"],
        "The refusal is proved for every pair of trees of C116, the join for first trees whose array is full (2^m - 1 distinct inserted keys) and any second tree. False of the code otherwise: copies are linked by the capacity but appended after the last element, so a search reads behind the array; afterwards size is stale and an insert may never end."),
"C119": ("partial", ["C119_search", "C119_stored_partial", "C119_heap_order_partial", "C119_treap_partial", "C119_rounded", "C119_again", "C119_overflow", "C119_full_false", "C119_exact", "C119_constructed_root"],
        "Search is proved for every history with priorities below 2^1023; order and heap order for distinct keys and priorities up to 2^53 in absolute value, and for treaps with distinct keys whatever is drawn. False of the code otherwise: 2^53 + 1 and 2^53 become the same double and the key with the greater priority stays above; inserting a present key with a greater priority leaves it above its children; a priority of 2^1024 makes the call fail with a SystemError."),
"C120": ("partial", ["C120_copes_partial", "C120_fill_and_delete_partial", "C120_insert_after_delete", "C120_unmarked_root", "C120_full_false"],
        "Proved for the histories of C86 with priorities up to 2^53, in particular for distinct keys inserted and then deleted in any order, across every contraction of the array. False of the code otherwise: an insert after a delete looks for the new node in an empty cell; after the root has been deleted and the tree emptied, insert takes None for a position; both are undefined behaviour."),
"C121": ("proved", ["C121_delete", "C121_cpp_delete", "C121_delete_nothing", "cutOff_of_stored"],
        "For every array whose nodes have distinct keys and in which no other node is linked to the removed one. The trees that are shown to call it so are those of C86 and C120; C73_contraction, C84_contraction, C107_contraction and C114_contraction show callers that do not, or that go on with an old position."),
"C122": ("partial", ["C122_documented_partial", "C122_names_served_partial", "C122_searches", "C122_cpp", "C122_cpp_searches", "C122_mst_list", "C122_mst_matrix", "C122_mst_parallel_list", "C122_mst_parallel_matrix", "C122_scc_list", "C122_scc_matrix", "C122_shortest_paths_list", "C122_shortest_paths_matrix", "C122_all_pairs_list", "C122_all_pairs_matrix", "C122_topological_sort_list", "C122_topological_sort_matrix", "C122_topological_sort_parallel_list", "C122_topological_sort_parallel_matrix", "C122_max_flow", "C122_full_false"],
        "For every string the outcome is determined exactly. minimum_spanning_tree_parallel, strongly_connected_components, topological_sort_parallel and max_flow are right for every string. False of the others: shortest_paths(g, 'floyd_warshall', s) and minimum_spanning_tree(g, 'parallel_prim') raise TypeError, all_pair_shortest_paths(g, 'kahn') sorts the graph topologically and consumes it, topological_sort(g, 'floyd_warshall') returns distances, shortest_paths(g, 'depth_first_search', s, t) starts a search with the target as operation. With the C++ back end an unknown name returns None."),
"C123": ("partial", ["C123_find_pick", "C123_find_partial", "C123_z_vector", "C123_full_false"],
        "For every string that does not start with an underscore the function that runs is determined; kmp, knuth_morris_pratt and boyer_moore answer exactly the occurrences, z_function for texts without '$', rabin_karp as in C51. False of the code: the helpers z_vector, p_pow and hash_str are accepted as algorithms and build_kmp_table, do_match raise TypeError; find('ab', 'b', 'z_vector') answers [0, 1]."),
"C124": ("proved", ["C124_binary_search", "C124_lower_bound", "C124_upper_bound", "C124_heap_insert", "C124_heap_extract", "C124_binomial_trees", "C124_prefix_sum", "C124_fenwick_update", "C124_find_root", "C124_make_root_chain"],
        "Counted in rounds of the loops. find_root without make_root only; C124_make_root_chain proves that with make_root n links can be needed for n + 1 keys (the path splitting of find_root changes nothing, C44_find_pure, because the attribute is assigned to the node already moved to)."),
"C125": ("partial", ["C125_bubble_sort_partial", "C125_selection_sort_partial", "C125_insertion_sort_partial", "C125_quick_sort_partial", "C125_linear_search_partial", "C125_binary_search_partial", "C125_is_ordered_partial", "C125_stack_partial", "C125_fenwick_partial", "C125_bst_partial", "C125_bst_inserts_partial", "C125_avl_partial", "C125_red_black_partial", "C125_splay_partial", "C125_cartesian_partial", "C125_bst_fill_and_thin_partial", "C125_avl_fill_and_thin_partial", "C125_red_black_fill_and_thin_partial", "C125_splay_inserts_partial", "C125_cartesian_fill_and_delete_partial", "C125_graph_partial", "C125_graph_costs_partial", "C125_full_false", "C125_empty_delete", "C125_graph_twice", "C125_graph_no_cost","C125_bst_last_first_partial", "C125_lca2_partial", "C125_matrix_partial", "C125_matrix_count", "C125_dijkstra_partial", "C125_dijkstra_detour"],
        "Proved for non-empty arrays and for the histories the array of the trees copes with (as in C73, C84 to C88), for graphs in histories of calls that do not raise. False of the code: bubble_sort of an empty array raises with C++ only, quick_sort may never end (C97), delete on an empty tree is undefined behaviour, add_vertex of a known vertex raises with C++ only, get_edge of an edge without cost gives None with Python only. Adjacency matrices agree in histories that do not both remove and count edges (Python counts removed edges); Dijkstra agrees where the Python function is right (C66) and differs elsewhere; the lowest common ancestor by algorithm 2 agrees except for the root's key asked for twice."),
"C126": ("proved", ["C126_avl", "C126_red_black", "C126_avl_deletes", "C126_red_black_deletes", "C126_cpp_red_black"],
  "The rounds of every loop are counted by the fuel of the model (EndsBy b: b rounds for each loop are enough). AVL: an AVL tree of height h has at least (8/5)^h - 1 nodes, so 4^h <= (n + 1)^3."),
"C127": ("proved", ["C127_comparison_sorts", "C127_stable_sorts", "C127_again", "C127_any_arrangement", "C127_counting_sort", "C127_radix_sort", "C127_ties_needed"],
  "Ranges inside the array; quick_sort takes its end inclusively. radix_sort under the conditions of C14 (the first value is not None, and a value is positive or no value is None). C127_ties_needed: without the hypothesis the sorts differ."),
"C128": ("proved", ["C128_from", "C128_all", "C128_factorial", "C128_back"],
  "The client loop is the one stated in the property; it calls the modelled next_permutation on whole arrays."),
"C129": ("partial", ["C129_bellman_ford_floyd", "C129_dijkstra_never_less", "C129_dijkstra_partial", "C129_johnson", "C129_full_false"],
  "False as stated of Dijkstra's algorithm, which gives up reachable vertices (C66); proved: Bellman-Ford and Floyd-Warshall agree, Dijkstra never answers less and agrees with few edges or with equal weights into each vertex, Johnson's errors agree and its answers are never less, equal in the same cases."),
"C130": ("proved", ["C130_trees"],
  "The splay tree only in histories whose insertions are sound (C79)."),
  "C131": ("proved", ["C131_agree", "C131_sorts", "C131_ties"], "Every history, every total preorder; C131_ties shows that the condition on ties is needed."),
  "C132": ("partial", ["C132_kmp_boyer_moore", "C132_order", "C132_exact", "C132_full_false"], "False of the code (see C51, C53). Proved exactly when the four agree (C132_exact: no occurrence followed by the separator, no window with the hash of the query that differs from it); kmp and boyer_moore always agree, z_function never finds more and rabin_karp never less."),
  "C133": ("proved", ["C133_constructors", "C133_array", "C133_overflow", "C133_same_as_python", "C133_negative_write"], "Every constructor call and every history. An object of another type raises SystemError instead of TypeError when stored with a[i] = x (the TypeError is printed and cleared). Writing at a negative index differs from Python, which counts from the end (C133_negative_write)."),
  "C134": ("partial", ["C134_balanced_partial", "C134_failed", "C134_init", "C134_init_exact", "C134_dealloc", "C134_dynamic_partial", "C134_stack_keeps", "C134_stack_leaks", "C134_full_false"], "Proved for one-dimensional arrays made from elements or from a size without init: one reference per cell after every history, and for dynamic arrays at least one. False of the code otherwise: init is stored n times with one reference, so overwriting the cells of an array with n > 1 cells frees an object the caller still holds (C134_init_exact: exactly for n > 1); freeing an array, deleting from a dynamic array and popping a stack give no reference back. References to None and to the type are not modelled."),
  "C135": ("proved", ["C135_same_total", "C135_least_total", "C135_same_tree"], "For one graph in the three representations. What is compared is get_edge of the results: neighbors of the adjacency lists is wrong (C63, C64, C104)."),
  "C136": ("partial", ["C136_agree_partial", "C136_full_false"], "Proved for networks in which no edge enters the source and no vertex has the empty name: the two return the same value, even where it is not that of a maximum flow (C68). With an edge into the source Dinic may never end."),
  "C137": ("partial", ["C137_coarser_partial", "C137_symmetric_partial", "C137_exact", "C137_full_false"], "For every digraph: Kosaraju raises KeyError or returns unions of the sets of Tarjan; they agree exactly if Kosaraju is right, in particular if every edge can be undone."),
  "C138": ("proved", ["C138_static", "C138_dynamic", "C138_caller"], "C138_caller holds for every index, also negative ones and those outside, which raise and change nothing; C138_dynamic (answers as well) for non-negative ones. Elements are already of the dtype of the array."),
  "C139": ("partial", ["C139_partial", "C139_dimensions", "C139_exact", "C139_full_false"], "Proved for every non-empty array; build ends if and only if the array is not empty (C139_exact)."),
  "C140": ("partial", ["C140_shape", "C140_cells", "C140_refused_exact", "C140_as_C28", "C140_fill", "C140_full_false"], "shape and fill are proved for every array the constructor makes. False of the code: a single dimension is not checked, so 0 and negative numbers are accepted (C140_refused_exact: refused exactly if there is no dimension, or there are several and one is below 1)."),
  "C141": ("partial", ["C141_levels", "C141_distinct_partial", "C141_exact", "C141_full_false"], "Proved for every history: the ladder of levels, `levels`, and the exact text, duplicates included. `C141_full`, that the lowest line shows every element, is false of this code: the columns are found by key, so of two elements with the same key only the last has a cell; `C141_exact` proves that this is the only way to fail. Shown text of a node is a parameter."),
  "C142": ("proved", ["C142_sort_then_search", "C142_search", "C142_lower_bound", "C142_upper_bound", "C142_occurrences"], "The sorts take a non-strict comparator and lower_bound, upper_bound and jump_search the strict one of the same order, as their defaults do. On an empty array the bounds raise IndexError (C18, C19)."),
  "C143": ("partial", ["C143_stack", "C143_stack_exact", "C143_queue_names", "C143_queue_partial", "C143_queue_exact", "C143_deque_partial", "C143_deque_exact", "C143_priority", "C143_full_false", "C143_comparator_ignored"], "Every name is covered. Stacks: the histories in which the two agree are determined exactly. Queues: exactly for FIFO and for double-ended queues of different values. The attributes front and rear of the array queue are positions, of the linked queue nodes, and are not compared."),
  "C144": ("proved", ["C144_topological_sort", "C144_searches"], "For names of vertices that are not attributes of the nodes (as in C61). Kosaraju's algorithm agrees where C137 says."),
  "C145": ("proved", ["C145_reachable", "C145_levels"], "The operation never asks the search to stop."),
  "C146": ("proved", ["C146_updates", "C146_static", "C146_cpp"], "C146_cpp: updates inside the array (outside the C++ tree's behaviour is undefined, C110)."),
  "C147": ("proved", ["C147_sorted"], "With equal keys a tree keeps one of them and a sort all: C72 and C127 say what happens then."),
  "C148": ("partial", ["C148_front_rear_partial", "C148_full_false", "C148_emptied_shows_none"], "Proved: for the histories of C32_deque_partial, what front and rear are, that the elements lie between them and that str shows them; for an empty queue front and rear are -1, and str raises IndexError on a queue that never held anything and shows [None] on one that was emptied, so the full statement is false of the code (C148_full_false)."),
  "C149": ("proved", ["C149_reverse_topological", "C149_topological"], "Both for any neighbour function (lists and matrices), the second for stored adjacency lists."),
  "C150": ("proved", ["C150_in_every_forest", "C150_in_every_result"], "The second theorem for connected graphs whose edges all have a cost (ThreeForms, as in C135)."),
  "C151": ("proved", ["C151_lcs_with_sorted", "C151_lis_is_lcs", "C151_lcs_symmetric"], "From C21, C22 and C127."),
  "C152": ("partial", ["C152_keeps_data_partial", "C152_assignment_exact", "C152_constructor_exact", "C152_full_false", "C152_failed_assignment_frees", "C152_large_int_becomes_minus_one"], "Proved for all values except ints outside 64 bits, strings with null characters and strings with lone surrogates, and proved to fail for each of these (exact)."),
  "C153": ("partial", ["C153_neighbours_partial", "C153_neighbours_exact", "C153_full_false", "C153_cpp_neighbours_partial", "C153_cpp_second_add", "C153_cpp_full_false"], "Python: exact for nodes constructed without neighbours (no added name may be an attribute of nodes); a neighbour given to the constructor can never be removed. C++: proved for histories that never add a neighbour twice, with plain names and data."),
  "C154": ("partial", ["C154_new_graph_partial", "C154_unknown_implementation", "C154_no_vertices", "C154_default_for_cpp_matrix", "C154_full_false", "C154_constructor_adds_exact", "C154_cpp_twice"], "Proved except for C++ matrix nodes without implementation=, which are always refused (C154_default_for_cpp_matrix)."),
  "C155": ("partial", ["C155_rooted_partial", "C155_rooted_exact", "C155_key_dropped", "C155_full_false", "C155_key_required", "C155_cpp_rooted", "C155_backends_differ", "C155_red_black", "C155_cartesian"], "Proved for BinarySearchTree, AVLTree and SplayTree: in Python exactly when there is data, in C++ always. Red-black and Cartesian trees made with a key raise at the next insertion (C155_red_black, C155_cartesian)."),
  "C156": ("partial", ["C156_serves_partial", "C156_serves_exact", "C156_merge", "C156_list_calls", "C156_tuple", "C156_full_false", "C156_order_needed"], "Proved for lists. False for a nonempty tuple exactly when delete_minimum is called before anything is inserted or merged (C156_serves_exact). Merging changes the given trees, as it does in C38."),
  "C157": ("partial", ["C157_list_kept_partial", "C157_list_kept_exact", "C157_full_false"], "Proved exactly: it fails when the list has trees and delete_minimum is called before anything is inserted or merged; the list has then lost exactly one tree (C157_list_kept_exact). Which elements the list has is what is claimed; merge changes the trees themselves."),
  "C158": ("partial", ["C158_first_partial", "C158_second", "C158_same_cells", "C158_full_false"], "The second heap always serves; the first does when both have the same arity and order. False otherwise: the first heap has the cells of the second (C158_same_cells). What calls on one heap do to the other afterwards is not claimed."),
}
