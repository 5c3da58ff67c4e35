# Formal model of pydatastructs in Lean 4 — design

(The tables below are generated by `tools/gen_design.py`; the text above them is in `tools/design_head.md`.)

## Layout

* `lean/Verif/Py.lean` — the Python fragment: exceptions as values (`PyErr`, `PyM`), bounds-checked list reads and
  writes, bounded `for` loops, fuel-driven `while` loops.
* `lean/Verif/Spec.lean`, `GraphSpec.lean`, `WeightSpec.lean`, `FlowSpec.lean` — the specification vocabulary: sortedness
  of a range, "ends with", histories (`trace`, `final`), finite graphs, walks, distances, flows. It mentions no model definition.
* `lean/Verif/Model/*.lean` — the model: one Lean definition per Python function (or per loop body), each with a comment
  citing file and lines in /repo.
* `lean/Verif/Lemmas/*.lean` — helper lemmas.
* `lean/Verif/Props/*.lean` — the property theorems (`Cnn_…`, namespace `Props`, named in MANIFEST.json), each with
  `example`s meeting its hypotheses on a concrete, non-trivial case.
* `seeded/` — mutation testing: `batches/*.py` the wrong programs, `LOG.jsonl` the outcome of each.

## Modelling conventions

* Python objects changed in place become values returned by the function. Exceptions are values of `PyErr`; a theorem that
  says `f x = .ok y` says that no exception is raised.
* `for` loops over `range(..)` are structural recursions; `while` loops take a fuel argument and end with
  `PyErr.outOfFuel` when it is used up. Termination is then a theorem (`∃ fuel₀, ∀ fuel ≥ fuel₀, f fuel x = .ok ..`, written
  `EndsWith`/`EndsIn`), and non-termination is `∀ fuel, f fuel x = outOfFuel`.
* Heap-allocated nodes: where aliasing matters (linked lists, disjoint sets, tree arrays, segment trees) the model has an
  explicit store indexed by node numbers or array positions; otherwise a pure value.
* Numbers: Python `int` is `Int`/`Nat`. `float('inf')` is an explicit extra value; `math.log2`/`sqrt` on ints are the exact
  mathematical floor (stated at the definition).
* Comparators: a user comparator of the sorts is an `α → α → Bool` compatible with a total preorder; of the trees, a strict
  total order.
* Random choices (skip list, treap) are an arbitrary stream or an arbitrary list of values, quantified over. Parallel
  algorithms are quantified over every order of the jobs that the executor may choose.
* A property false of the code: the full statement is a definition `Cnn_full`, its negation is proved on a concrete witness
  (`Cnn_full_false`), and the true part is kept as `Cnn_…_partial`.

## Trusted base

* Lean 4.33.0's kernel; the axioms `propext`, `Quot.sound`, `Classical.choice` at most. The list per theorem is at the end.
  No axiom is added, no compiled evaluation is used (concrete cases are `rfl`, `decide` or `decide +kernel`).
* The reading of the Python source that the model definitions embody (each cites the lines it models).
* For the LLVM sorts (C94, C95): that llvmlite refuses a function whose blocks lack a terminator or whose phi nodes do not list exactly the
  predecessors, and that accepted instructions behave as the interpreter in `Model/Llvm.lean` says.
* Not modelled: CPython itself (recursion limit, memory, integer caching except where a comment says so), those
  parts of the C++ back end (`_backend/`) that the table below lists as not modelled, `_extensions.py`, dtype coercion and type checks of the constructors,
  `__str__`/`methods`, the dispatchers that choose an implementation by name (`shortest_paths`, `minimum_spanning_tree`,
  `Stack.__new__`, …: they call the modelled functions with the same arguments), floating-point rounding, thread scheduling other
  than the orders stated explicitly.

## Defects of the code found while proving

* C10/C11 `brick_sort(_parallel)`: with the default comparator `<=` two equal values are swapped forever.
* C13 `bucket_sort`: division by zero when `max < count`, `IndexError`s, negative values misplaced. C14 `radix_sort`: a leading
  `None` is a `TypeError`; zeros mixed with `None` stay unsorted.
* C17 `jump_search` with `start > 0`; C20 `is_ordered` with equal neighbours; C24 `prev_permutation` with repeated values.
* C25 `matrix_multiply_parallel` is wrong for rectangular matrices. C28 `MultiDimensionalArray` accepts out-of-range indices
  that alias other cells.
* C31/C32 `ArrayQueue` loses elements on contraction and keeps stale `front`/`rear` after `appendleft`/`pop`.
* C41/C42 circular lists: `insert_at(-size)`, and extraction of the head, leave a stale link.
* C47 a negative update index writes to the wrong leaf. C51 hash collisions are reported as matches. C53 `$` in the text.
  C55 a stored prefix is listed as its last character.
* C56 `remove_vertex` keeps the costs of removed edges, `"a_b"+"_"+"c" = "a"+"_"+"b_c"`, reserved attribute names count as
  vertices. C57 `num_edges` counts removed edges.
* C60 parallel BFS never ends when a cycle is reachable. C63/C64 the spanning tree shares (and changes) the node objects of the
  input; edges without cost raise. C66 Dijkstra pops only |V| entries. C68 no residual edges; Dinic can recurse forever.
  C70 Kosaraju raises `KeyError` for vertices without incoming edge and merges components. C71 the docstring's one-way edges are
  answered wrongly. C83 Johnson inherits C66 and leaves the caller's weights changed. C67: `next_vertex` is filled with `None`.
* C49 `Multiset`: `AttributeError` after removing the last copy of an element. C73 BST `delete`: lost keys, stale parents on
  contraction, `TypeError` on the empty tree. C76 `lca` algorithm 2 at the root. C78 re-inserting a key paints its node red. C84 red-black
  `delete`: inserting after deleting the newest key raises; a contraction in the one-child case is ignored.
  C85 AVL `delete`: returns `True` for absent keys, raises on the empty tree, inserting after deleting the newest key raises, stale
  height after the root of a two-key tree is deleted. C86 Cartesian `delete`: inserting after deleting the newest key raises; the new
  root is not marked, so re-inserting its key or inserting into the emptied tree raises `TypeError`.
  C79 re-inserting a key into a splay tree raises or loops. C80 re-inserting a key breaks the heap order.
* C88 splay `delete`: the grandchildren of a deleted root with one child keep a freed position as parent, later calls raise; the empty tree raises.
* C89 `split` at an absent key returns `None`; `size` is not reduced. C90 `join` shifts the copied links by the capacity of the array, so
  unless it is full the joined part is linked wrongly (`IndexError` or wrong nodes); `size` is not updated, a later insert may never end.
* C87 `comp=f` is not used: the comparator answers `f` itself, which is always true, so the tree degenerates to a list.
* C92 `quick_sort` leaves the range unsorted unless the picked pivot is the last cell (`[2, 1]` with the first cell). C93 sorting a
  dynamic array without live elements raises `IndexError`.
* C95 LLVM `selection_sort` builds a malformed function and raises `RuntimeError`, unless an earlier LLVM `bubble_sort` left its function
  in the shared cache, which is then executed instead.
* C96 C++ `bubble_sort` of an empty array runs 2^128 steps. C97 C++ `quick_sort` never ends when a range from index 0 has its unique minimum
  last, nor on one cell or none. C98 C++ `jump_search` on an empty array overflows. C99 C++ `is_ordered` has the defect of C20.
* C100 (C++ graphs) keys of edges collide when names contain `_`: `num_edges` and `get_edge` confuse `a -> b_c` with `a_b -> c`; `remove_vertex` removes edges of other vertices and keeps its own. `add_vertex` of a name that is already there raises `ValueError`. A cost of 2^63 or more is a `SystemError`.
* C101 (C++ Dijkstra) after the removal of a vertex that is not the latest the function indexes outside its vectors (undefined behaviour) or omits a vertex. An unknown source is taken for the first vertex, silently, and from then on the graph answers for that name. With `backend=Backend.CPP` another algorithm or another implementation is answered with `None`, silently.
* C102 (C++ BFS) the answer of the operation is ignored, so a search cannot be stopped as in the docstring; no call with an empty second argument is made for vertices without neighbours; an unknown source is undefined behaviour for adjacency lists.
* C103 (C++ matrix) `get_edge` returns a borrowed reference as if it were owned: the second `get_edge` of a pair is a use after free. `add_edge` with a cost that is not a number raises, but has added the edge. Keys collide as in C100.
* C104 (C++ Prim) the tree shares its nodes with the input graph: `is_adjacent` and `neighbors` of the tree answer for the input graph. `add_vertex` on the tree reuses id 0 and so replaces an existing vertex. An empty graph is undefined behaviour. On a directed graph it adds the opposite directions to the input graph.
* C105 (C++ stack) a pushed `None` is never removed: every later `pop` returns it. `_modify(True)` on a dynamic array without live cell reads in front of the buffer.
* C134 (C++ arrays) `OneDimensionalArray(dtype, n, init=x)` stores x in n cells but owns one reference: overwriting the cells gives back n references, and x is freed while the caller still uses it. Freeing an array, `delete` and `Stack.pop` give no reference back (memory leaks).
* C136 (graphs/algorithms.py) `_max_flow_dinic_`: with an edge back to the source the depth first search runs round it for ever, where Edmonds-Karp answers. Each phase has one augmenting path only (the search keeps one parent per vertex).
* C133 (C++ arrays) storing an object of the wrong type raises SystemError: the TypeError is printed and cleared first.
* C106 (C++ search tree) keys are compared by object identity: another object with the same value is not found, and is inserted a second time.
* C107 (C++ search tree) `delete` on an empty tree dereferences a null pointer; `ArrayForTrees._modify` leaves the recorded size of the array stale after a contraction (both assignments go to `_size`); `delete` of a node with one child and a parent writes through the child's old position after a contraction, and uses the root's key for the parent's; insert after delete as in C73.
* C108 (C++ LCA) the second loop of `_lca_1` has the condition that has just become false, so `k` is answered when `j` is a proper ancestor of `k`; keys are converted to `long` and back, so integers outside -5..256 are "not there".
* C110 (C++ Fenwick tree) values and sums are C++ `long`s: a larger int raises `SystemError` in the constructor, an update with one raises `SystemError` but stores -1, sums beyond 2^63 overflow; an update outside the array reads and writes outside the buffer.
* C111 (C++ AVL tree) positions are compared by object identity and `insert` makes a new int object for the new position: from the 258th node on rotations that involve the new node are not made, and the tree gets out of balance (259 inserts).
* C112 (C++ AVL tree) an insert after a delete can take an empty slot for a node: undefined behaviour.
* C114 (C++ red-black tree) an insert after a delete, and a contraction during a delete, use an empty or stale slot: undefined behaviour.
* C115 (C++ splay tree) inserting an earlier key again makes splay take None for a position: undefined behaviour.
* C116 (C++ splay tree) deleting the greatest key leaves a stale parent that the next splay reads; delete on an empty tree: undefined behaviour.
* C117 (C++ splay tree) split at an absent key returns None and splits nothing; on an empty tree it is undefined behaviour.
* C118 (C++ splay tree) join links the copies wrongly unless the array of the first tree is full; afterwards an insert may never end.
* C119 (C++ Cartesian tree) priorities are rounded to doubles: 2^53 + 1 counts as 2^53, 2^1024 fails; a present key given a greater priority stays above its children.
* C120 (C++ Cartesian tree) inserting after a deletion, or after the root was deleted and the tree emptied, is undefined behaviour.
* C122 the algorithm name is looked up among all functions of the module: `shortest_paths(g, 'floyd_warshall', s)` raises `TypeError`, `all_pair_shortest_paths(g, 'kahn')` sorts topologically and consumes the graph; with the C++ back end an unknown name returns `None`. C123 `find(text, query, 'z_vector')` answers match lengths instead of positions.
* C26 `OneDimensionalArray(dtype, l)` converts the elements of `l` in the caller's own list (`C26_argument_changed`), and with a tuple holding an element of another type it raises `TypeError` (`C26_from_tuple`);
* C139 (miscellaneous_data_structures/segment_tree.py:141-172) `ArraySegmentTree.build` on an empty array: the root has the bounds (0, -1), its children have them too, and the loop pushes nodes for ever. (The range query classes refuse empty arrays.)
* C140 (linear_data_structures/arrays.py:210-215) `MultiDimensionalArray(dtype, n)` with one dimension does not check n: 0 and negative numbers are accepted, with several dimensions they are a ValueError.
* C141 (linked_lists.py:794-811): `__str__` finds the column of a node by its key, so elements with equal keys share one column: after `insert(1,'a'); insert(1,'b')` it prints `None (1, a)` although both are stored.
* C143 (stack.py:135-136, 184-185; queue.py:115; queue.py:332-346): `Stack('array').peek` raises IndexError when empty and `Stack('linked_list').peek` is None; `Queue('array', items=[])` raises IndexError; `PriorityQueue('binomial_heap', comp=...)` ignores the comparator (documented).
* C148 (queue.py:208-212): `str` of an `ArrayQueue` that never held anything raises `IndexError` (it reads `_data[-1]`), and after the last element has been taken out it shows `[None]`.
* C152 (utils/_backend/cpp/GraphNode.hpp:74, 164, 171; AdjacencyListGraphNode.hpp:170-190; GraphEdge.hpp:113-121): data that is a string is cut at its first null character; an int outside 64 bits becomes -1 with a pending exception; a string with a lone surrogate is undefined behaviour, and in set_data of an AdjacencyListGraphNode leaves a pointer to the old data whose reference was given back.
* C153 (utils/misc_util.py:409-412, 436-437; AdjacencyListGraphNode.hpp:112-115): a Python node constructed with a list of nodes has nodes instead of names in adjacent, so that remove_adjacent_node always raises ValueError for them; in C++ adding a neighbour that is there already puts the bare data in place of the node.
* C154 (graphs/graph.py:73-77): C++ nodes have no attribute _impl, so Graph(AdjacencyMatrixGraphNode(…, backend=Backend.CPP), backend=Backend.CPP) takes them for an adjacency list and raises TypeError. Two vertices of one name given to the constructor of a Python adjacency list are both counted (adjacency_list.py:27), whereas add_vertex ignores the second.
* C155 (trees/binary_trees.py:68-70): without root_data the key is dropped, so BinarySearchTree(5) is empty in Python, and has the key 5 in C++. The root is a TreeNode in every class: RedBlackTree(5, 0) and CartesianTree(5, 0) raise AttributeError when another key is inserted, since the root has neither colour nor priority.
* C156 (trees/heaps.py:402, 539): the constructor accepts a tuple, as documented, and keeps it; delete_minimum calls its method remove, which tuples don't have, and raises AttributeError.
* C157 (trees/heaps.py:402, 539): the constructor stores the list without copying it and delete_minimum removes a tree from it in place, so that a second heap made from the same list has lost the entries of that tree.
* C158 (trees/heaps.py:95-97, 116-122): the nodes are not copied and sifting exchanges the keys of nodes, so that BinaryHeap(nodes, 'max') rearranges the heap BinaryHeap(nodes, 'min') made before, whose extract then gives the largest key.
* C81 an empty list raises `IndexError`; the caller's list is sorted in place. C82 node handles are not stable.

## Properties: what is modelled, how it is proved, status
* **C01** bubble_sort sorts the chosen range — *proved*. Model: the exact loops over arrays of optional values with bounds-checked access. Proof: loop invariants; conclusion sorted in the range, a permutation of it, unchanged outside.  Theorems: `C01_bubble_sort`.
* **C02** selection_sort sorts the chosen range — *proved*. Model: the exact loops over arrays of optional values with bounds-checked access. Proof: loop invariants; conclusion sorted in the range, a permutation of it, unchanged outside.  Theorems: `C02_selection_sort`.
* **C03** insertion_sort sorts the chosen range — *proved*. Model: the exact loops over arrays of optional values with bounds-checked access. Proof: loop invariants; conclusion sorted in the range, a permutation of it, unchanged outside.  Theorems: `C03_insertion_sort`.
* **C04** merge_sort_parallel sorts the chosen range — *proved*. Model: the exact loops over arrays of optional values with bounds-checked access. Proof: loop invariants; conclusion sorted in the range, a permutation of it, unchanged outside. Empty range raises ValueError (math.log(0,2)); any number of rounds with n <= 2^rounds is covered. Theorems: `C04_merge_sort`, `C04_merge_sort_rounds`, `C04_merge_sort_empty`.
* **C05** quick_sort sorts the chosen range — *proved*. Model: the exact loops over arrays of optional values with bounds-checked access. Proof: loop invariants; conclusion sorted in the range, a permutation of it, unchanged outside. Default pivot, non-empty range; the empty array raises IndexError. Theorems: `C05_quick_sort`, `C05_quick_sort_empty`.
* **C06** heapsort sorts the chosen range — *proved*. Model: the exact loops over arrays of optional values with bounds-checked access. Proof: loop invariants; conclusion sorted in the range, a permutation of it, unchanged outside.  Theorems: `C06_heapsort`.
* **C07** shell_sort sorts the chosen range — *proved*. Model: the exact loops over arrays of optional values with bounds-checked access. Proof: loop invariants; conclusion sorted in the range, a permutation of it, unchanged outside.  Theorems: `C07_shell_sort`.
* **C08** intro_sort sorts the chosen range — *proved*. Model: the exact loops over arrays of optional values with bounds-checked access. Proof: loop invariants; conclusion sorted in the range, a permutation of it, unchanged outside.  Theorems: `C08_intro_sort`.
* **C09** cocktail_shaker_sort sorts the chosen range — *proved*. Model: the exact loops over arrays of optional values with bounds-checked access. Proof: loop invariants; conclusion sorted in the range, a permutation of it, unchanged outside.  Theorems: `C09_cocktail_shaker_sort`.
* **C10** brick_sort sorts and terminates — *partial*. Model: fuel loop. Proof: number of inversions decreases for strict comparators; invariant of the endless run otherwise. False of the code: with the default comparator (<=) a range with two equal values never ends; proved for strict comparators; with the default comparator C10_exact says: it ends, sorted, exactly if no value occurs twice in the range. Theorems: `C10_brick_sort_strict_partial`, `C10_brick_sort_distinct_partial`, `C10_brick_sort_diverges`, `C10_full_false`, `C10_exact`.
* **C11** brick_sort_parallel sorts and terminates — *partial*. Model: fuel loop. Proof: number of inversions decreases for strict comparators; invariant of the endless run otherwise. Same defect as C10; proved for every job order within a phase; C11_exact as C10_exact. Theorems: `C11_brick_sort_parallel_strict_partial`, `C11_brick_sort_parallel_distinct_partial`, `C11_brick_sort_parallel_diverges`, `C11_exact`.
* **C12** counting_sort returns the sorted multiset — *proved*. Model: the counting arrays and buckets as in the code. Proof: invariants; witnesses for the failures. An array with no value is returned unchanged; the empty array raises IndexError. Theorems: `C12_counting_sort`, `C12_nothing_to_sort`.
* **C13** bucket_sort sorts the chosen range — *partial*. Model: the counting arrays and buckets as in the code. Proof: invariants; witnesses for the failures. False of the code when the bucket width max//count is 0, when values fall past the last bucket, or for negative values; proved for the values for which every element falls into a bucket; C13_exact determines the outcome for every range of integers, C13_sorts_iff says when it is sorted. Theorems: `C13_bucket_sort_partial`, `C13_full_false`, `C13_other_failures`, `C13_exact`, `C13_sorts_iff`.
* **C14** radix_sort sorts the chosen range — *partial*. Model: the counting arrays and buckets as in the code. Proof: invariants; witnesses for the failures. False of the code: a leading None raises TypeError, and zeros mixed with None stay unsorted; proved when the range starts with a number and either holds a positive number or no None; C14_leading_none and C14_only_zeros determine the outcome for all other ranges; C14_exact: the range is sorted if and only if it starts with a number and holds a positive number or has no number after a None. Theorems: `C14_radix_sort_partial`, `C14_full_false`, `C14_zeros_unsorted`, `C14_leading_none`, `C14_only_zeros`, `C14_exact`.
* **C15** linear_search finds the first occurrence — *proved*. Model: the search loops. Proof: invariants on the interval that can still hold the answer.  Theorems: `C15_linear_search`.
* **C16** binary_search is sound and complete — *proved*. Model: the search loops. Proof: invariants on the interval that can still hold the answer.  Theorems: `C16_binary_search`.
* **C17** jump_search is sound and complete — *partial*. Model: the search loops. Proof: invariants on the interval that can still hold the answer. False of the code for start > 0 (the first probe is at step, not start + step); proved whenever start is at most the step (in particular start = 0); C17_exact says what is answered for later starts. Theorems: `C17_jump_search_partial`, `C17_full_false`, `C17_early_start_partial`, `C17_exact`.
* **C18** lower_bound returns the first not-less position — *proved*. Model: the search loops. Proof: invariants on the interval that can still hold the answer. Non-empty range; the empty array raises IndexError. Theorems: `C18_lower_bound`, `C18_C19_empty`.
* **C19** upper_bound returns the first greater position — *proved*. Model: the search loops. Proof: invariants on the interval that can still hold the answer. Non-empty range; the empty array raises IndexError. Theorems: `C19_upper_bound`, `C18_C19_empty`.
* **C20** is_ordered decides sortedness — *partial*. Model: the search loops. Proof: invariants on the interval that can still hold the answer. False of the code for the default comparator with equal neighbours and for None holes; proved for strict comparators without None; C20_exact says for every comparator and array what is answered. Theorems: `C20_is_ordered_partial`, `C20_full_false`, `C20_none_hides_disorder`, `C20_exact`, `C20_default`.
* **C21** longest_common_subsequence is a longest common subsequence — *proved*. Model: the tables filled by the dynamic programs. Proof: optimality of every prefix, against all sublists.  Theorems: `C21_longest_common_subsequence`.
* **C22** longest_increasing_subsequence is a longest strictly increasing subsequence — *proved*. Model: the tables filled by the dynamic programs. Proof: optimality of every prefix, against all sublists. Non-empty array; the empty array raises IndexError. Theorems: `C22_longest_increasing_subsequence`, `C22_empty`.
* **C23** next_permutation is the lexicographic successor — *proved*. Model: `_permutation_util` on an array slice. Proof: successor in the lexicographic order among all permutations of the range.  Theorems: `C23_next_permutation`.
* **C24** prev_permutation is the lexicographic predecessor — *partial*. Model: `_permutation_util` on an array slice. Proof: successor in the lexicographic order among all permutations of the range. False of the code when the range has repeated values; proved for distinct values; C24_exact says for every range what is answered and when it is right. Theorems: `C24_prev_permutation_partial`, `C24_lex_flip`, `C24_full_false`, `C24_duplicates_wrong`, `C24_exact`.
* **C25** matrix_multiply_parallel is the matrix product — *partial*. Model: the jobs, in any order, each computing one cell. False of the code for rectangular matrices: the sum runs over the number of rows of the first matrix and the result has the wrong shape; proved for square matrices and every order of the jobs; C25_exact determines the outcome for every conformable pair, C25_product_iff: the product exactly for square matrices. Theorems: `C25_square_partial`, `C25_exact`, `C25_product_iff`, `C25_mismatch`, `C25_full_false`, `C25_wide_wrong`, `C25_tall_raises`.
* **C26** One-dimensional arrays are a bounded store — *proved*. Model: the object as a state machine over the array or linked structure underneath. Proof: refinement of a list (or multiset with priorities), by induction over every history of calls. C26_argument_changed records a side effect: the constructor converts the elements inside the list of its caller. Theorems: `C26_constructors`, `C26_get`, `C26_set`, `C26_fill`, `C26_negative_write_wraps`, `C26_set_outside`, `C26_history`, `C26_from_list`, `C26_from_tuple`, `C26_from_list_size`, `C26_argument_changed`.
* **C27** Dynamic array is a sequence under append/delete — *proved*. Model: the object as a state machine over the array or linked structure underneath. Proof: refinement of a list (or multiset with priorities), by induction over every history of calls. The last filled position is an upper bound, exact only without interior deletes. Theorems: `C27_dynamic_array`, `C27_indexing`, `C27_last_position_not_exact`.
* **C28** Multi-dimensional array cells are independent — *partial*. Model: the object as a state machine over the array or linked structure underneath. Proof: refinement of a list (or multiset with priorities), by induction over every history of calls. False of the code: indices are checked against products of the shape, so out-of-range indices alias other cells; C28_exact says for every tuple whether it is refused and which cell it denotes. Theorems: `C28_cells_independent_partial`, `C28_wrong_arity`, `C28_full_false`, `C28_aliasing`, `C28_exact`.
* **C29** Array stack is LIFO — *proved*. Model: the object as a state machine over the array or linked structure underneath. Proof: refinement of a list (or multiset with priorities), by induction over every history of calls.  Theorems: `C29_array_stack`.
* **C30** Linked-list stack is LIFO — *proved*. Model: the object as a state machine over the array or linked structure underneath. Proof: refinement of a list (or multiset with priorities), by induction over every history of calls.  Theorems: `C30_linked_list_stack`.
* **C31** Array queue is FIFO — *partial*. Model: the object as a state machine over the array or linked structure underneath. Proof: refinement of a list (or multiset with priorities), by induction over every history of calls. False of the code: an append that triggers a contraction while front > 0 loses elements; C31_exact: a history of different values is served if and only if the sizes never let that happen before a popleft; in particular (C31_array_queue_partial) histories in which an append to a non-empty queue finds at most half of the elements appended since it was last empty taken out. Theorems: `C31_exact`, `C31_kept_partial`, `C31_array_queue_partial`, `C31_full_false`, `C31_lost_elements`.
* **C32** Array queue is a deque — *partial*. Model: the object as a state machine over the array or linked structure underneath. Proof: refinement of a list (or multiset with priorities), by induction over every history of calls. Proved: a queue, new or built from items, behaves as a double-ended queue through every history in which removing an element (other than the last) leaves at least half of the elements added since the queue was last empty and appendleft is only called while none of them was taken out on the left; FIFO use as in C31. False of the code otherwise: appendleft keeps a stale front, pop and popleft keep a stale rear when the array contracts. C32_exact: if all values are different, dequeKept — a condition on the sizes only — says exactly which histories are served. Theorems: `C32_exact`, `C32_kept_partial`, `C32_deque_partial`, `C31_array_queue_partial`, `C32_full_false`, `C32_pop_wrong`.
* **C33** Linked-list queue is a deque — *proved*. Model: the object as a state machine over the array or linked structure underneath. Proof: refinement of a list (or multiset with priorities), by induction over every history of calls.  Theorems: `C33_linked_list_queue`.
* **C34** Linked-list priority queue pops in priority order — *proved*. Model: the object as a state machine over the array or linked structure underneath. Proof: refinement of a list (or multiset with priorities), by induction over every history of calls.  Theorems: `C34_linked_list_priority_queue`, `C34_first_among_ties`.
* **C35** Binary-heap priority queue pops in priority order — *proved*. Model: the object as a state machine over the array or linked structure underneath. Proof: refinement of a list (or multiset with priorities), by induction over every history of calls.  Theorems: `C35_heap_priority_queue`.
* **C36** Binomial-heap priority queue pops in priority order — *proved*. Model: the object as a state machine over the array or linked structure underneath. Proof: refinement of a list (or multiset with priorities), by induction over every history of calls. Every history of push/pop/peek/is_empty, any totally ordered keys. Theorems: `C36_binomial_priority_queue`.
* **C37** d-ary heap is a priority queue — *proved*. Model: array heap / binomial trees. Proof: heap order invariant, contents as a multiset. Extract on an empty heap raises IndexError (the docstring says None). Theorems: `C37_dheap`, `C37_heap_order`.
* **C38** Binomial heap is a mergeable priority queue — *proved*. Model: array heap / binomial trees. Proof: heap order invariant, contents as a multiset. Every heap expression (new, insert, merge, delete_minimum); the other heap of a merge is consumed; root lists passed to the constructor are not modelled. Theorems: `C38_merge`, `C38_insert`, `C38_minimum`, `C38_is_empty`, `C38_history`, `C38_orders`.
* **C39** Singly linked list refines a Python list — *proved*. Model: nodes in an explicit store with next/prev/down pointers. Proof: an abstraction relation between the pointers and a list, preserved by every call. Indices below -size raise AttributeError after the size has changed (recorded as C39_below_range). Theorems: `C39_singly_linked_list`, `C39_below_range`.
* **C40** Doubly linked list refines a list in both directions — *proved*. Model: nodes in an explicit store with next/prev/down pointers. Proof: an abstraction relation between the pointers and a list, preserved by every call.  Theorems: `C40_doubly_linked_list`.
* **C41** Circular singly linked list stays circular — *partial*. Model: nodes in an explicit store with next/prev/down pointers. Proof: an abstraction relation between the pointers and a list, preserved by every call. False of the code: inserting or extracting at index -size leaves the last node's link stale; proved for all histories, with all documented indices, in which the calls that look at that link (str, tail.next, search for a missing key, insert_after the last node) are made while the ring is closed: index -size opens it, index 0 or emptying the list closes it again. Theorems: `C41_all_indices_partial`, `C41_circular_list_partial`, `C41_full_false`, `C41_search_diverges`, `C41_open_insert_after`.
* **C42** Circular doubly linked list stays circular — *partial*. Model: nodes in an explicit store with next/prev/down pointers. Proof: an abstraction relation between the pointers and a list, preserved by every call. False of the code: extracting the head of a doubly circular list leaves the new head's back link empty; C42_exact_partial says exactly when head.prev is None, and that everything else is right, for histories without index -size and without insert_before such a head. Theorems: `C42_both_directions_partial`, `C42_forward_partial`, `C42_full_false`, `C42_ring_open`, `C42_exact_partial`.
* **C43** Skip list is a sorted multiset for every coin flip — *proved*. Model: nodes in an explicit store with next/prev/down pointers. Proof: an abstraction relation between the pointers and a list, preserved by every call. Every history, every outcome of the random bits; the text of the KeyError, which prints the list, is not modelled; user keys other than +-inf. Theorems: `C43_skip_list`, `C43_random_bits`, `C43_missing`, `C43_sorted`.
* **C44** Disjoint set union maintains a partition — *proved*. Model: parent pointers in a store. Proof: acyclic forest invariant, refinement of the equivalence generated by the unions. Disjoint_sets answers in a canonical order, so it depends on nothing but the partition; list.sort is modelled by the merge sort of the library. Theorems: `C44_unknown`, `C44_find`, `C44_find_pure`, `C44_size`, `C44_make_root`, `C44_disjoint_sets`, `C44_disjoint_sets_sorted`, `C44_canonical`.
* **C45** Sparse table answers range queries — *proved*. Model: the tables and trees of partial folds. Proof: every stored value is the fold of its interval; the specification is the fold of the queried slice.  Theorems: `C45_sparse_table`, `C45_empty`.
* **C46** Array segment tree answers range queries under updates — *proved*. Model: the tables and trees of partial folds. Proof: every stored value is the fold of its interval; the specification is the fold of the queried slice. Non-negative indices. Theorems: `C46_segment_tree`.
* **C47** Range queries: static and dynamic strategies agree and validate inputs — *partial*. Model: the tables and trees of partial folds. Proof: every stored value is the fold of its interval; the specification is the fold of the queried slice. False of the code: an update with a negative index is accepted by the array but written to the wrong leaf of the segment tree; proved for non-negative update indices and all queries; C47_dynamic_exact determines the answers for every history (a negative index the array accepts changes the last leaf). Theorems: `C47_static`, `C47_dynamic_array`, `C47_dynamic_partial`, `C47_dynamic_exact`, `C47_full_false`, `C47_negative_update`.
* **C48** Fenwick tree answers prefix sums under updates — *proved*. Model: the tables and trees of partial folds. Proof: every stored value is the fold of its interval; the specification is the fold of the queried slice.  Theorems: `C48_fenwick`.
* **C49** Multiset counts multiplicities — *partial*. Model: the counter dictionary and the red-black tree underneath. Proof: refinement of a bag (element to number of copies). Count, in and len are exact after every history in which no call raises; histories that never remove the last copy of an element never raise and have right bounds, and so do histories that first fill and then remove elements for good while at least half of the different elements are left; the full statement is false (add 1, add 2, remove 2, add 3 is an AttributeError). Theorems: `C49_counts_partial`, `C49_copies_partial`, `C49_fill_and_thin_partial`, `C49_unknown`, `C49_full_false`.
* **C50** KMP finds exactly the occurrences — *proved*. Model: the matchers over lists of characters. Proof: what is reported = all positions at which the query occurs.  Theorems: `C50_kmp`, `C50_empty_query`.
* **C51** Rabin-Karp finds exactly the occurrences — *partial*. Model: the matchers over lists of characters. Proof: what is reported = all positions at which the query occurs. False of the code: windows with the query's hash are reported without comparing characters; C51_exact says for every input what is reported. Theorems: `C51_exact`, `C51_complete`, `C51_rabin_karp_partial`, `C51_full_false`, `C51_collision`.
* **C52** Boyer-Moore finds exactly the occurrences — *proved*. Model: the matchers over lists of characters. Proof: what is reported = all positions at which the query occurs.  Theorems: `C52_boyer_moore`, `C52_empty_query`.
* **C53** Z-function search finds exactly the occurrences — *partial*. Model: the matchers over lists of characters. Proof: what is reported = all positions at which the query occurs. False of the code: an occurrence directly followed by '$' is missed; C53_exact says for every input what is reported. Theorems: `C53_exact`, `C53_sound`, `C53_z_function_partial`, `C53_full_false`, `C53_separator_in_text`.
* **C54** Trie is a set of strings — *proved*. Model: the trie nodes. Proof: refinement of a set of strings. Delete answers True for every string present as a prefix, stored or not (the docstring's wording). Theorems: `C54_trie`.
* **C55** strings_with_prefix lists exactly the extensions — *partial*. Model: the trie nodes. Proof: refinement of a set of strings. False of the code: a stored prefix is listed as its last character; C55_exact says for every history and prefix what is answered. Theorems: `C55_exact`, `C55_strings_with_prefix_partial`, `C55_full_false`, `C55_stored_prefix`.
* **C56** Adjacency-list graph is a labelled digraph — *partial*. Model: vertices, adjacency and the edge_weights dictionary with its textual keys. Proof: refinement of an abstract labelled digraph, by induction over histories. Full statement C56_full is false of the code: remove_vertex leaves the costs of removed edges in edge_weights, the key source_target is ambiguous, and reserved names count as neighbours. Proved for every history with non-reserved names: all structural observations equal those of the abstract digraph; get_edge too when names are separable (e.g. no underscore) and no vertex is removed while it has an edge with a cost. Theorems: `C56_structure_partial`, `C56_labels_partial`, `C56_full_false`, `C56_full_false_keys`, `C56_reserved_name_false`.
* **C57** Adjacency-matrix graph is a labelled digraph — *partial*. Model: vertices, adjacency and the edge_weights dictionary with its textual keys. Proof: refinement of an abstract labelled digraph, by induction over histories. Full statement C57_full is false of the code: num_edges counts removed edges (and pairs only ever named in remove_edge). Proved: all other observations for every history, num_edges for histories without remove_edge, and what num_edges really is for every history. Theorems: `C57_observations_partial`, `C57_add_only_partial`, `C57_num_edges_exact`, `C57_full_false`.
* **C58** BFS visits each reachable vertex once, in distance order — *proved*. Model: the algorithm over an abstract `neighbors` function and the edge_weights dictionary (both graph classes are shown to provide them). Proof: invariants; walks, distances, spanning forests, components, flows specified independently (GraphSpec, WeightSpec, FlowSpec). For both graph classes, every finite graph, source in the graph and (stateful, early stopping) operation. Theorems: `C58_bfs`, `AlRep.finGraph`, `AmRep.finGraph`.
* **C59** DFS visits exactly the reachable vertices — *proved*. Model: the algorithm over an abstract `neighbors` function and the edge_weights dictionary (both graph classes are shown to provide them). Proof: invariants; walks, distances, spanning forests, components, flows specified independently (GraphSpec, WeightSpec, FlowSpec). The order in which DFS announces vertices is not claimed (it announces a vertex when it is pushed). Theorems: `C59_dfs`, `AlRep.finGraph`, `AmRep.finGraph`.
* **C60** Parallel BFS visits exactly the reachable vertices and terminates — *partial*. Model: the algorithm over an abstract `neighbors` function and the edge_weights dictionary (both graph classes are shown to provide them). Proof: invariants; walks, distances, spanning forests, components, flows specified independently (GraphSpec, WeightSpec, FlowSpec). Full statement C60_full is false of the code: the visited test looks up node objects in a dictionary keyed by names, so nothing is ever filtered and the search never ends when a cycle is reachable (C60_never_ends, for every such graph and iteration order). Proved for graphs without reachable cycle; exactly those are the ones on which it ends, with exactly the reachable edges and sinks announced (C60_exact), and whatever ends has announced nothing else (C60_sound). The jobs are awaited one by one, so there is no interleaving. Theorems: `C60_acyclic_partial`, `C60_exact`, `C60_sound`, `C60_never_ends`, `C60_full_false`.
* **C61** Kahn topological sort is correct and complete — *proved*. Model: the algorithm over an abstract `neighbors` function and the edge_weights dictionary (both graph classes are shown to provide them). Proof: invariants; walks, distances, spanning forests, components, flows specified independently (GraphSpec, WeightSpec, FlowSpec). Adjacency lists (the only implementation); names that are not reserved attributes; the sort leaves the graph without edges, which the theorem states. Theorems: `C61_kahn`, `al_history_rep`.
* **C62** Parallel Kahn topological sort is correct — *proved*. Model: the algorithm over an abstract `neighbors` function and the edge_weights dictionary (both graph classes are shown to provide them). Proof: invariants; walks, distances, spanning forests, components, flows specified independently (GraphSpec, WeightSpec, FlowSpec). Every schedule of the atomic steps of the jobs, every positive number of workers; adjacency lists. Theorems: `C62_kahn_parallel`, `al_history_rep`.
* **C63** Kruskal returns a minimum spanning tree — *partial*. Model: the algorithm over an abstract `neighbors` function and the edge_weights dictionary (both graph classes are shown to provide them). Proof: invariants; walks, distances, spanning forests, components, flows specified independently (GraphSpec, WeightSpec, FlowSpec). Spanning + forest + least total weight among all spanning forests, sequential and parallel, for every order of the edge dictionary. Adjacency matrices: full. Adjacency lists: costs (get_edge) are exactly the forest, but the result shares the node objects of the input, so neighbors/num_edges show the input's edges too (C63_full_false). Names whose edge keys collide and reserved names are excluded (see C56). Theorems: `C63_kruskal_list_partial`, `C63_kruskal_parallel_list_partial`, `C63_kruskal_parallel_no_edges`, `C63_kruskal_matrix`, `C63_kruskal_parallel_matrix`, `C63_full_false`.
* **C64** Prim returns a minimum spanning tree — *partial*. Model: the algorithm over an abstract `neighbors` function and the edge_weights dictionary (both graph classes are shown to provide them). Proof: invariants; walks, distances, spanning forests, components, flows specified independently (GraphSpec, WeightSpec, FlowSpec). Sequential and parallel (any number of queues): terminates, costs (get_edge) are exactly those of a minimum spanning tree of the component of the first vertex. False of the code in full: the result shares the node objects of the input, so neighbors shows the input's edges; edges without a cost raise KeyError. Theorems: `C64_prim_partial`, `C64_prim_connected_partial`, `C64_prim_parallel_partial`, `C64_no_cost`, `C64_full_false`.
* **C65** Bellman-Ford computes shortest distances or detects negative cycles — *proved*. Model: the algorithm over an abstract `neighbors` function and the edge_weights dictionary (both graph classes are shown to provide them). Proof: invariants; walks, distances, spanning forests, components, flows specified independently (GraphSpec, WeightSpec, FlowSpec). Both graph classes, integer weights, every edge with a cost, edge keys that do not collide; includes termination, the negative-cycle test in both directions and the predecessors. Theorems: `C65_bellman_ford`, `C65_target`, `AlRep.wgraph`, `AmRep.wgraph`.
* **C66** Dijkstra computes shortest distances — *partial*. Model: the algorithm over an abstract `neighbors` function and the edge_weights dictionary (both graph classes are shown to provide them). Proof: invariants; walks, distances, spanning forests, components, flows specified independently (GraphSpec, WeightSpec, FlowSpec). False as stated: only |V| entries are popped from the queue although improved vertices are pushed again, so a reachable vertex can get distance infinity (witness in C66_full_false). Proved: the call returns and every finite distance is the weight of a real walk with consistent predecessors (any weights); exact distances when there are fewer edges than vertices, or when any two edges into the same vertex have the same weight (so when all weights are equal, or no vertex has two incoming edges). Theorems: `C66_sound_partial`, `C66_few_edges_partial`, `C66_by_target_partial`, `C66_equal_weights_partial`, `C66_full_false`.
* **C67** Floyd-Warshall computes all-pairs distances — *proved*. Model: the algorithm over an abstract `neighbors` function and the edge_weights dictionary (both graph classes are shown to provide them). Proof: invariants; walks, distances, spanning forests, components, flows specified independently (GraphSpec, WeightSpec, FlowSpec). Both graph classes (same function), integer weights; the second result next_vertex is modelled but nothing is claimed of it (the program fills it with None for all indirect pairs). Theorems: `C67_floyd_warshall`.
* **C68** max_flow returns the maximum flow value — *partial*. Model: the algorithm over an abstract `neighbors` function and the edge_weights dictionary (both graph classes are shown to provide them). Proof: invariants; walks, distances, spanning forests, components, flows specified independently (GraphSpec, WeightSpec, FlowSpec). False as stated: flow is taken back only over edges that exist in the opposite direction (both algorithms answer 1 where 2 is possible), and Dinic recurses forever when an edge leads back to the source. Proved: both end (Dinic: if no positive edge enters the source) with the value of a feasible flow that no path with spare capacity can increase; it is a maximum flow when every inner edge has an opposite edge. Theorems: `C68_edmonds_karp_partial`, `C68_edmonds_karp_antiparallel_partial`, `C68_dinic_partial`, `C68_dinic_antiparallel_partial`, `C68_full_false_edmonds_karp`, `C68_full_false_dinic`, `C68_dinic_never_ends`.
* **C69** Tarjan returns the strongly connected components — *proved*. Model: the algorithm over an abstract `neighbors` function and the edge_weights dictionary (both graph classes are shown to provide them). Proof: invariants; walks, distances, spanning forests, components, flows specified independently (GraphSpec, WeightSpec, FlowSpec). Both graph classes (through AlRep.finGraph / AmRep.finGraph); Python's recursion limit is not modelled. Theorems: `C69_tarjan`.
* **C70** Kosaraju returns the strongly connected components — *partial*. Model: the algorithm over an abstract `neighbors` function and the edge_weights dictionary (both graph classes are shown to provide them). Proof: invariants; walks, distances, spanning forests, components, flows specified independently (GraphSpec, WeightSpec, FlowSpec). False as stated, twice: KeyError whenever some vertex has no incoming edge, and components merged when a vertex is pushed twice. Proved for every digraph: KeyError exactly when some vertex has no incoming edge, otherwise a partition into unions of strongly connected components; exact components when reachability is symmetric. Theorems: `C70_coarse_partial`, `C70_symmetric_partial`, `C70_full_false`, `C70_full_incoming_false`.
* **C71** find_bridges returns exactly the bridges — *proved*. Model: the algorithm over an abstract `neighbors` function and the edge_weights dictionary (both graph classes are shown to provide them). Proof: invariants; walks, distances, spanning forests, components, flows specified independently (GraphSpec, WeightSpec, FlowSpec). Undirected = every edge present in both directions; both graph classes; the list is exactly the ordered bridges, sorted, without repetition. When the edges are added in one direction only, as in the docstring, the answer is wrong (C71_one_way_false). Theorems: `C71_bridges`, `C71_one_way_false`, `AlRep.finGraph`, `AmRep.finGraph`.
* **C72** BST insert/search is a finite map — *proved*. Model: the array of nodes with left/right/parent indices, exceptions included. Proof: a relation between the array and an inductive shape, preserved by every rotation and insertion; map and order statements on top of it, by induction over histories. Every history of inserts into BinarySearchTree(), every strict total order on keys (the default comparator <); the answers of search, the stored data and the in-order traversal. Theorems: `C72_search`, `C72_in_order`.
* **C73** BST delete removes exactly the key — *partial*. Model: the array of nodes with left/right/parent indices, exceptions included. Proof: a relation between the array and an inductive shape, preserved by every rotation and insertion; map and order statements on top of it, by induction over histories. The claim is false (C73_full_false): delete on an empty tree raises TypeError, deleting the node in the last array position and inserting a new key loses the new key and makes search raise AttributeError, and the contraction of the array follows stale parent links. Proved: any history of insertions followed by deletions and data updates while at least half of the keys remain; more generally every history in which a new key is inserted only while the size counter equals the append position and no deletion contracts the array. C73_last_first_partial: different keys inserted in any order and deleted in the opposite order, down to the empty tree, across every contraction of the array. Theorems: `C73_fill_and_thin_partial`, `C73_copes_partial`, `C73_delete_on_empty`, `C73_insert_after_delete`, `C73_contraction`, `C73_full_false`, `C73_last_first_partial`.
* **C74** Tree traversals enumerate every node once in the documented order — *proved*. Model: the array of nodes with left/right/parent indices, exceptions included. Proof: a relation between the array and an inductive shape, preserved by every rotation and insertion; map and order statements on top of it, by induction over histories. Every finite binary tree held in the array (links spell out a tree of distinct positions), starting anywhere; the orders are stated on an independent datatype of shapes. Theorems: `C74_pre_order`, `C74_in_order`, `C74_out_order`, `C74_post_order`, `C74_level_order`, `C74_every_node_once`.
* **C75** BST lower_bound/upper_bound/select/rank — *proved*. Model: the array of nodes with left/right/parent indices, exceptions included. Proof: a relation between the array and an inductive shape, preserved by every rotation and insertion; map and order statements on top of it, by induction over histories. Every history of inserts; select/rank for trees created with is_order_statistic=True, including the exceptions outside the range. Theorems: `C75_bounds`, `C75_select_rank`.
* **C76** BST lowest common ancestor — *partial*. Model: the array of nodes with left/right/parent indices, exceptions included. Proof: a relation between the array and an inductive shape, preserved by every rotation and insertion; map and order statements on top of it, by induction over histories. Algorithm 1 proved in full for every history of inserts; algorithm 2 is wrong when one key is the root's key and the other is not below it (C76_lca2_full_false) and proved right otherwise C76_lca2_exact settles algorithm 2 for all keys: it takes the root key for the next larger key when the other key is larger; C76_empty: the empty tree. Theorems: `C76_lca1`, `C76_lca2_partial`, `C76_lca2_full_false`, `IsLca.unique`, `C76_lca2_exact`, `C76_empty`.
* **C77** AVL insert keeps the tree ordered and balanced — *proved*. Model: the array of nodes with left/right/parent indices, exceptions included. Proof: a relation between the array and an inductive shape, preserved by every rotation and insertion; map and order statements on top of it, by induction over histories. Every history of AVLTree.insert (repeated keys included), every strict total order; search, in-order traversal, balance of the tree held in the array, stored heights, logarithmic height; select/rank for order statistic trees. Theorems: `C77_search`, `C77_balanced`, `C77_bounds`, `C77_select_rank`.
* **C78** Red-black insert keeps the tree ordered and coloured — *partial*. Model: the array of nodes with left/right/parent indices, exceptions included. Proof: a relation between the array and an inductive shape, preserved by every rotation and insertion; map and order statements on top of it, by induction over histories. Search, in-order traversal and bounds: every history of RedBlackTree.insert. Colouring (black root, no red child of a red node, equal black heights, logarithmic height): every history in which no key is inserted twice; false otherwise (C78_full_false), because re-inserting a present key paints its node red. C78_exact: the tree is a red-black tree after every call exactly when no call inserts a key whose node is then black and not the root. Theorems: `C78_search`, `C78_bounds`, `C78_tree`, `C78_colouring_partial`, `C78_exact`, `C78_full_false`.
* **C79** Splay tree stays a search tree — *partial*. Model: the array of nodes with left/right/parent indices, exceptions included. Proof: a relation between the array and an inductive shape, preserved by every rotation and insertion; map and order statements on top of it, by induction over histories. Proved for exactly the histories that end normally (C79_exact): a key may be inserted again only right after it was inserted. Inserting any other present key raises or never ends, because insert overwrites the parent of the node stored last with the parent of the node found. delete, join and split are not covered. Theorems: `C79_tree_partial`, `C79_distinct_partial`, `C79_bounds_partial`, `C79_exact`, `C79_full_false`.
* **C80** Treap/Cartesian tree keeps both orders — *partial*. Model: the array of nodes with left/right/parent indices, exceptions included. Proof: a relation between the array and an inductive shape, preserved by every rotation and insertion; map and order statements on top of it, by induction over histories. Search, in-order traversal and stored priorities: every history and every priority. Heap order: every history in which no key is inserted twice; false otherwise (C80_full_false), because insert never moves a present key down (nor up, when its node still carries a stale is_root mark). C80_exact: the heap order holds after every call exactly when no call gives a present key a priority above that of a child, or below that of the parent while its node carries the root mark. Theorems: `C80_search`, `C80_tree`, `C80_heap_order_partial`, `C80_treap_partial`, `C80_exact`, `C80_full_false`.
* **C81** Interval segment tree returns exactly the containing intervals — *proved*. Model: the interval tree build and query. Proof: the tree over elementary intervals; a point query returns exactly the segments containing the point. Any ordered number type with x-1 < x < x+1 (floats beyond 2^53 are outside); default init_node. Theorems: `C81_query`, `C81_length`, `C81_empty`.
* **C82** Binomial heap decrease_key and delete — *proved*. Model: array heap / binomial trees. Proof: heap order invariant, contents as a multiset. Nodes are given by their position; node objects do not keep their entry across decrease_key (C82_handle_moves). Theorems: `C82_decrease_key`, `C82_decrease_key_error`, `C82_delete`, `C82_handle_moves`.
* **C83** Johnson computes all-pairs distances — *partial*. Model: the algorithm over an abstract `neighbors` function and the edge_weights dictionary (both graph classes are shown to provide them). Proof: invariants; walks, distances, spanning forests, components, flows specified independently (GraphSpec, WeightSpec, FlowSpec). Adjacency lists (the only version in the code). Proved for every graph: ValueError exactly when the graph has a negative cycle, otherwise every finite answer is the weight of a walk, and the weights of the caller's graph are left changed by a potential. The second result is described too (the vertex itself for a direct edge, for itself and for what was not reached, None otherwise). Exact distances when there are fewer edges than vertices, or when the weights are not negative and any two edges into the same vertex have the same weight. False in general (C83_full_false), because Dijkstra as programmed stops too early. Theorems: `C83_sound_partial`, `C83_exact_partial`, `C83_input`, `C83_full_false`.
* **C84** Red-black delete keeps the tree ordered and coloured — *partial*. Model: deletion with its repair loop, sibling cases and array slots. Proof: the loop keeps a tree in which one subtree lacks one black node (`Lacks`), each case either ends or moves the lack up; then induction over histories. Proved for distinct keys inserted in any order and then deleted in any order while at least half of them remain, and for every mixed history in which the array neither contracts nor appends elsewhere than the tree expects: right return values, right searches and traversal, red-black colouring and logarithmic height after every call. False in general: insert 1, insert 2, delete 2, insert 3 raises; contraction while a node with one child is removed raises. Theorems: `C84_copes_partial`, `C84_fill_and_thin_partial`, `C84_insert_after_delete`, `C84_contraction`, `C84_full_false`.
* **C85** AVL delete keeps the tree ordered, balanced and ranked — *partial*. Model: deletion from the search tree with the node the rebalancing starts at, the walk to the root and its rotations, array slots included. Proof: a tree with one subtree a level lower is repaired level by level; heights, sizes and order are carried along; then induction over histories. Proved for keys inserted in any order and then deleted in any order while at least half of them remain, and for every mixed history in which the array neither contracts nor appends elsewhere than the tree expects: right searches and traversal, AVL balance, stored heights (trees of two or more keys) and, with order statistics, select and rank. False in general: delete returns True for absent keys too, delete on an empty tree raises TypeError, insert 1, insert 2, delete 2, insert 3 raises AttributeError, and after deleting the root of a two-key tree the remaining node stores height 1. Theorems: `C85_copes_partial`, `C85_fill_and_thin_partial`, `C85_absent`, `C85_delete_empty`, `C85_insert_after_delete`, `C85_stale_height`, `C85_full_false`.
* **C86** Cartesian tree and treap delete keeps search and heap order — *partial*. Model: the rotations that take the node to a leaf, and the deletion of the leaf. Proof: the tree around the descending node stays heap-ordered without it; then induction over histories. Proved for distinct keys inserted in any order with any priorities and then deleted in any order, down to the empty tree, across every contraction of the array, and for every mixed history that inserts absent keys only and in which the array does not append elsewhere than the tree expects: right return values, right searches and traversal, heap order, priorities kept. False in general: insert 1, insert 2, delete 2, insert 3 raises AttributeError; deleting a root leaves an unmarked root, so that inserting after emptying the tree raises TypeError. Theorems: `C86_copes_partial`, `C86_fill_and_delete_partial`, `C86_insert_after_delete`, `C86_unmarked_root`, `C86_full_false`.
* **C87** A comparison supplied by the user decides the order — *partial*. Model: the comparator the constructor stores. Proof: every node becomes the left child of the node inserted before it; induction over histories. False of the code: the comparator answers the function object, which is always true. Proved for every comparison and every history of inserts: search is right, but the traversal lists the keys in reverse order of first insertion, lower_bound only ever finds the key inserted first and upper_bound always answers None; without a comparison the order is < (C72). Theorems: `C87_any_comparator_partial`, `C87_bounds`, `C87_default`, `C87_full_false`.
* **C88** Splay tree delete keeps the search order — *partial*. Model: splaying the node to the root and deleting it there, array slots included. Proof: splaying keeps entries and parent links (C79); the root with two children is replaced by its successor; then induction over histories. Proved for distinct keys inserted in any order and then deleted in any order, sparing the smallest and the greatest, while at least half of them remain, and for every mixed history of such calls in which the array neither contracts nor appends elsewhere than the tree expects: right return values, right searches and traversal, the inserted key at the root. False in general: deleting the smallest or greatest key leaves stale parent links, so that insert 1..5, delete 5, delete 1 raises AttributeError; delete on an empty tree raises TypeError; inserting a present key again raises (C79). Theorems: `C88_copes_partial`, `C88_fill_and_thin_partial`, `C88_stale_parent`, `C88_delete_empty`, `C88_full_false`.
* **C89** Splitting a splay tree divides its entries at the key — *partial*. Model: both methods with their walks, the re-insertion or copying of nodes and the array counters. Proof: for split, emptying cells in reverse pre-order keeps the way to every remaining node; for join, the copies form the same shape at shifted positions. Proved whenever x is a key of the tree, after every history the tree copes with (C88): both trees serve exactly their entries, x is at the root, and the returned tree takes any further history it copes with. False in general: for an absent x split returns None and divides nothing, on an empty tree it raises TypeError. The size of the tree is not reduced. Theorems: `C89_copes_partial`, `C89_inserts_partial`, `C89_absent`, `C89_empty`, `C89_full_false`.
* **C90** Joining two splay trees unites their entries — *partial*. Model: both methods with their walks, the re-insertion or copying of nodes and the array counters. Proof: for split, emptying cells in reverse pre-order keeps the way to every remaining node; for join, the copies form the same shape at shifted positions. Proved: ValueError whenever the keys are not in order, after any histories the trees cope with; right searches and traversal after join when the first tree was built from 2^m - 1 distinct keys. False in general: the copied links are shifted by the capacity of the array instead of the number of its elements, so that {1,2} joined with {5} raises IndexError when 5 is searched; size is not updated, so that inserting 4 into {1,2,3} joined with {12} never ends; joining with an empty tree raises TypeError. Theorems: `C90_full_array_partial`, `C90_refuses`, `C90_empty`, `C90_gap`, `C90_insert_after`, `C90_full_false`.
* **C91** Bubble, insertion, cocktail and merge sort are stable — *proved*. Model: the sorts of C01-C11. Proof: exchanges of neighbours and merging sorted blocks keep the subsequence of every set of mutually equivalent elements. Also proved by witness: selection_sort, quick_sort and shell_sort are not stable, nor are the four stable ones with a strict comparator. Theorems: `C91_bubble_sort`, `C91_insertion_sort`, `C91_cocktail_shaker_sort`, `C91_merge_sort`, `C91_brick_sort_parallel`, `C91_brick_sort`, `C91_selection_unstable`, `C91_quick_unstable`, `C91_shell_unstable`, `C91_strict_unstable`.
* **C92** quick_sort sorts whatever pivots are picked — *partial*. Model: quick_sort with the pivot function as a parameter. Proof: the invariants of C04 with the pivot equivalent to the last cell; rearrangement alone needs no pivot property. Proved for every pivot function: quick_sort ends and only rearranges the range; it sorts if every pivot is equivalent to the last element of its range (as the default is). C92_exact: it sorts exactly if no pivot picked on the way separates its range otherwise than the last cell does. False otherwise: the first element as pivot leaves [2, 1], the middle one [1, 3, 2] as they are. Theorems: `C92_any_pivot_partial`, `C92_last_pivot_partial`, `C92_separating_pivot_partial`, `C92_exact`, `C92_unsorted`, `C92_full_false`.
* **C93** Sorting a dynamic array compacts and orders its live elements — *partial*. Model: the sorts on the cells followed by `_modify(True)`. Proof: the invariant of C26/C27 after the compaction; induction over histories that include sorts. Proved for every history, for bubble, selection, insertion, merge, quick, heap, shell and cocktail sort, while at least one element is alive; without a live element sorting raises IndexError. Theorems: `C93_sort_all_partial`, `C93_all_sorts_partial`, `C93_sort_range_partial`, `C93_exact`, `C93_history`, `C93_reversed`, `C93_nothing_alive`, `C93_full_false`.
* **C94** bubble_sort with the LLVM back end sorts — *proved*. Model: the builder calls that emit the instructions, the checks of LLVM's verifier they can fail, an interpreter for the instructions (blocks, phi nodes, loads and stores on a buffer, undefined behaviour as an error), the process-wide cache, the C++ code that copies the range to a buffer and back. Proof: loop invariants at the block boundaries of the emitted code; induction over the calls for the cache. For int32 and int64 elements (float element types and what happens to a DynamicOneDimensionalArray afterwards are not modelled), after every history of earlier LLVM sorts. What the generated instructions do is given by a small interpreter (Model/Llvm.lean). Theorems: `C94_bubble_sort`, `C94_verify`, `C94_overflow`, `C94_comparator`, `C94_nothing_to_do`.
* **C95** selection_sort with the LLVM back end sorts — *partial*. Model: the builder calls that emit the instructions, the checks of LLVM's verifier they can fail, an interpreter for the instructions (blocks, phi nodes, loads and stores on a buffer, undefined behaviour as an error), the process-wide cache, the C++ code that copies the range to a buffer and back. Proof: loop invariants at the block boundaries of the emitted code; induction over the calls for the cache. False of the code: the function _build_selection_sort_ir builds is malformed, so every call that has something to sort raises RuntimeError. Proved: it does sort if an earlier bubble_sort compiled a function for the same element type, because the cache is shared and the bubble sort is executed instead. Theorems: `C95_selection_sort_partial`, `C95_raises`, `C95_never_compiles`, `C95_after_bubble_sort`, `C95_exact`, `C95_full_false`.
* **C96** The C++ quadratic sorts sort — *partial*. Model: the C++ functions with size_t and int arithmetic, NULL results and the pending-exception flag of the interpreter. Proof: while no index is out of range they proceed like the modelled Python functions (simulation), so C01-C03, C05, C15, C16, C20 carry over; wrap-around cases separately. Proved for every non-empty array (and for empty ones with selection and insertion sort). False of the code: bubble_sort of an empty array makes 2^64 - 1 passes of as many failing accesses, because len - 1 wraps around, and then raises SystemError. Theorems: `C96_bubble_sort_partial`, `C96_selection_sort`, `C96_insertion_sort`, `C96_empty`, `C96_bubble_empty`, `C96_exact`, `C96_full_false`.
* **C97** The C++ quick sort sorts — *partial*. Model: the C++ functions with size_t and int arithmetic, NULL results and the pending-exception flag of the interpreter. Proof: while no index is out of range they proceed like the modelled Python functions (simulation), so C01-C03, C05, C15, C16, C20 carry over; wrap-around cases separately. False of the code: p - 1 wraps around when the split point is 0. Proved exactly when it ends on a range from index 0 (C97_exact): some cell before the last may come before all later ones, and each cell before it may not come before one of these. Also proved: every range that does not begin at index 0 is sorted; so is one that begins there if its first cell may precede all others; in every case it sorts or never ends; it never ends if no cell of a range from 0 may precede the last one ([2, 1], or a single cell), nor on an empty array. A pick_pivot_element argument is undefined behaviour (missing NULL terminator) and not modelled. Theorems: `C97_exact`, `C97_exact_any`, `C97_later_start_partial`, `C97_least_first_partial`, `C97_sorts_or_never_ends`, `C97_never_ends`, `C97_empty`, `C97_full_false`.
* **C98** The C++ searches find exactly the values that are there — *proved*. Model: the C++ functions with size_t and int arithmetic, NULL results and the pending-exception flag of the interpreter. Proof: while no index is out of range they proceed like the modelled Python functions (simulation), so C01-C03, C05, C15, C16, C20 carry over; wrap-around cases separately. Also proved: on an empty array linear_search and binary_search answer None, jump_search counts up to integer overflow (undefined behaviour) or, for None, never ends. Theorems: `C98_linear_search`, `C98_binary_search`, `C98_jump_search`, `C98_empty`, `C98_jump_empty`.
* **C99** The C++ is_ordered answers whether the range is sorted — *partial*. Model: the C++ functions with size_t and int arithmetic, NULL results and the pending-exception flag of the interpreter. Proof: while no index is out of range they proceed like the modelled Python functions (simulation), so C01-C03, C05, C15, C16, C20 carry over; wrap-around cases separately. Proved exactly what it answers, for every comparator and array (C99_exact); that is right for strict comparators and ranges without None. False with the default comparator: [3, 3] is reported as not ordered; a None cell hides any disorder across it. Theorems: `C99_exact`, `C99_is_ordered_partial`, `C99_none_hides_disorder`, `C99_full_false`.
* **C100** A C++ adjacency-list graph is a labelled digraph — *partial*. Model: the maps of the C++ graph object (names, ids, nodes, edges keyed by joined names), hash table iteration as an oracle. Proof: representation relation with the abstract labelled digraph, induction over histories. Proved for names without underscore, every observation in every history, exceptions included. False of the code otherwise: edges are stored under source + '_' + target, so a → b_c and a_b → c are one edge for num_edges and get_edge, and remove_vertex, which splits the key at the first underscore, removes edges of other vertices and keeps its own. Costs are integers (others are not modelled). Theorems: `C100_labels_partial`, `C100_full_false`, `C100_full_false_remove`, `C100_full_false_kept`.
* **C101** The C++ Dijkstra computes shortest distances — *partial*. Model: the adjacency vectors, the lazy-deletion priority queue loop, the result dictionaries. Proof: invariant of Dijkstra's algorithm with stale queue entries, with the number of unprocessed arcs as measure; ids translated to names. Proved for every history without underscores in names and without removal of vertices (no dependence on the number of edges, unlike C66); with removals: it is right exactly if the ids left have no gap. False of the code: after the removal of an earlier vertex it reads outside its vectors or leaves out a vertex. A source that is not a vertex is taken for the first vertex. Theorems: `C101_exact_partial`, `C101_target_partial`, `C101_exact_iff_no_gap`, `C101_gap_partial`, `C101_full_false`, `C101_removed_undefined`, `C101_unknown_source`.
* **C102** The C++ breadth first search visits every reachable vertex once, level by level — *partial*. Model: queue, visited set, calls of the operation (which answers or raises depending on the calls so far). Proof: simulation by the modelled Python search with an operation that never answers false, so C58 carries over. Proved: the calls are those of a breadth first search, whatever the operation answers, up to the first call that raises; both implementations (lists: names without underscore, the domain of C100), every history, every iteration order. False of the code: a false answer of the operation does not end the search (it does in Python, C58). An unknown source is undefined behaviour for lists, KeyError for matrices. Theorems: `C102_list_partial`, `C102_matrix_partial`, `C102_unknown_source`, `C102_full_false`.
* **C103** A C++ adjacency-matrix graph is a labelled digraph on its fixed vertices — *partial*. Model: rows of truth values, edge objects with a freed mark, hash table iteration as an oracle. Proof: representation relation with the abstract digraph and the set of edges whose object was handed out; induction over histories. Proved for every observation but get_edge, whatever the names (num_edges included, unlike C57), and for the first get_edge; C103_exact says what happens in every history. False of the code: get_edge returns a reference it does not own, so that the edge object is freed when the caller drops it and the next get_edge of the pair is a use after free; add_edge with a cost that is not a number raises TypeError but has added the edge; with underscores in names edges share costs. Theorems: `C103_structure_partial`, `C103_get_once_partial`, `C103_exact`, `C103_full_false`, `C103_raise_adds`, `C103_collision`.
* **C104** The C++ Prim returns a minimum spanning tree — *partial*. Model: the priority queue with an oracle for ties, the new graph that shares nodes with the input. Proof: invariant with the cut property of minimum spanning forests (Props/Mst, as in C64); the number of queued entries and pending edges as measure. Proved for names without underscore: termination, least total (for ints; and for every ranking that puts None first, so that a graph without values gets a spanning tree), num_vertices, num_edges, get_edge, unchanged input, every order of hash tables and ties. False of the code: the result shares its nodes with the input, so is_adjacent and neighbors of the result answer for the input graph; the id counter of the result is 0, so add_vertex on the result overwrites an existing vertex. A graph without vertices is undefined behaviour. Theorems: `C104_tree_partial`, `C104_ints_partial`, `C104_full_false`, `C104_full_false_add`, `C104_empty`, `C104_changes_directed`.
* **C105** The C++ dynamic array and array stack keep their elements in order — *partial*. Model: the C++ methods with reads and writes outside the buffer as errors. Proof: they agree with the modelled Python methods wherever these do not raise, so the lemmas of C27 and C29 carry over; induction over histories. Proved for objects other than None, of any types, for every load factor and every rounding of the float quotient: the C++ array is a sequence under append and delete, the C++ stack is LIFO, and no step leaves the buffer. False of the code with None: a None that was pushed can never be popped, every pop returns it again. _modify(True) on an array without live cell reads in front of the buffer. Theorems: `C105_array_partial`, `C105_stack_partial`, `C105_full_false`, `C105_force`, `C105_force_undefined`.
* **C106** The C++ binary search tree finds what was inserted — *partial*. Model: the C++ tree with reads of empty or missing cells and None as an index as undefined behaviour, keys as objects with identity, the recorded and the real size of the array. Proof: whatever the modelled Python method returns, the C++ method returns (simulation), so C72, C73, C75, C76 carry over; select and the first LCA algorithm separately. Proved for every strict total comparison when no two key objects with the same value are used (e.g. integers from -5 to 256, interned strings): every history of inserts. False of the code otherwise: keys are compared by object identity, so another object with the value of an inserted key is not found and is inserted a second time. Theorems: `C106_search_partial`, `C106_in_order_partial`, `C106_bounds_partial`, `C106_select_rank_partial`, `C106_full_false`, `C106_other_object`, `C106_twice`, `C106_truthy_comparator`, `C106_truthy_bound`.
* **C107** Deleting from the C++ binary search tree — *partial*. Model: the C++ tree with reads of empty or missing cells and None as an index as undefined behaviour, keys as objects with identity, the recorded and the real size of the array. Proof: whatever the modelled Python method returns, the C++ method returns (simulation), so C72, C73, C75, C76 carry over; select and the first LCA algorithm separately. Proved for the histories of C73 (no delete on an empty tree, no contraction, no new key after a delete that leaves size and end of the array apart), in particular for inserts followed by deletes that leave half of the keys. False of the code otherwise, and undefined behaviour where Python raises: delete on an empty tree uses a null pointer; after a contraction the recorded size of the array is stale, and a node with one child and a parent is relinked through its old position. C107_last_first_partial: as C73_last_first_partial. Theorems: `C107_copes_partial`, `C107_fill_and_thin_partial`, `C107_full_false`, `C107_delete_on_empty`, `C107_insert_after_delete`, `C107_contraction`, `C107_stale_size`, `C107_last_first_partial`.
* **C108** The C++ lowest common ancestor — *partial*. Model: the C++ tree with reads of empty or missing cells and None as an index as undefined behaviour, keys as objects with identity, the recorded and the real size of the array. Proof: whatever the modelled Python method returns, the C++ method returns (simulation), so C72, C73, C75, C76 carry over; select and the first LCA algorithm separately. Proved for algorithm 1: keys the interpreter shares, at most 257 nodes, first key not above the second; absent keys raise ValueError. Proved for algorithm 2: as C76. False of the code otherwise: the second loop of algorithm 1 never runs, so it answers k when j is a proper ancestor of k (1 and 2 inserted: 2); keys are converted to long and back, so other integers are not found; algorithm 2 fails when one key is the root's. Theorems: `C108_lca1_partial`, `C108_lca2_partial`, `C108_lca2_exact`, `C108_lca2_absent`, `C108_full_false`, `C108_ancestor_first`, `C108_big_key`, `C108_big_key_either`.
* **C109** The C++ traversals visit every node once in their order — *proved*. Model: the C++ traversals with std::stack and std::queue as lists. Proof: simulation by the Python traversals, so C74 carries over. All five traversals from any node of any tree (post-order: positions below size, which holds after any history of inserts, C109_inserted). Theorems: `C109_pre_order`, `C109_in_order`, `C109_out_order`, `C109_post_order`, `C109_level_order`, `C109_inserted`.
* **C110** The C++ Fenwick tree answers prefix sums under updates — *partial*. Model: the C++ methods with `long` arithmetic (overflow undefined) and the pending-exception flag. Proof: no intermediate value exceeds the sum of the absolute values, so they proceed like the modelled Python methods and the lemmas of C48 apply; induction over histories. Proved for every array and history inside the array while the absolute values sum up to less than 2^62. False of the code otherwise: an element that does not fit in a long makes the constructor raise SystemError, larger sums are signed overflow (undefined), an update outside the array is undefined behaviour, and an update with a large int raises SystemError but has stored -1. Theorems: `C110_fenwick_partial`, `C110_full_false`, `C110_large_element`, `C110_sum_overflow`, `C110_update_outside`, `C110_failed_update_stores`, `C110_sum_large`, `C110_sum_far_outside`.
* **C111** The C++ AVL tree is balanced and finds what was inserted — *partial*. Model: the C++ rotations and balancing with positions as objects (a new object differs from the one in the tree exactly above 256). Proof: up to 257 nodes the C++ method returns what the modelled Python method returns, so C77 carries over; for any number of nodes and any objects an induction along the walk shows that every step is settled or rotates once and keeps keys, order, heights and sizes. The unbalanced tree is evaluated by the kernel in five pieces. Proved for key objects no two of which have the same value: search, order, bounds, select, rank and stored heights for every history of any length; balance for histories with at most 257 different keys. False of the code beyond: insert makes a new int object for the position of the new node and the balancing compares positions by identity, so with 258 or more nodes a rotation that involves the new node is not made; a history of 259 inserts that leaves the tree unbalanced is proved. Keys are compared by identity as in C106. Theorems: `C111_search_partial`, `C111_in_order_partial`, `C111_bounds_partial`, `C111_select_rank_partial`, `C111_balanced_partial`, `C111_long_run`, `C111_full_false`, `C111_other_object`.
* **C112** Deleting from the C++ AVL tree — *partial*. Model: the C++ deletion with its balancing walk. Proof: simulation by the modelled Python methods (C85) for histories that never contract the array; array length and counters are preserved by all rotations. Proved for the histories of C85 with at most 257 positions, in particular for inserts followed by deletes that leave half of the keys. False of the code otherwise: an insert after a delete takes an empty slot for a node (undefined behaviour where Python raises), delete of an absent key returns True, and a tree of one key may store a wrong height. Theorems: `C112_copes_partial`, `C112_fill_and_thin_partial`, `C112_full_false`, `C112_absent`, `C112_insert_after_delete`, `C112_stale_height`.
* **C113** The C++ red-black tree is balanced and finds what was inserted — *partial*. Model: RedBlackTree.hpp insert and its repair loop, function by function. Proof: whatever the modelled Python method returns, the C++ method returns, so C78 carries over. Proved for key objects no two of which have the same value: search, bounds and order for every history, the red-black properties and the logarithmic height when no key is inserted twice. False of the code otherwise: inserting a present key again paints its node red, and keys are compared by identity as in C106. C113_exact decides it for key objects with distinct values: the colouring survives a history if and only if no call inserts a key whose node is black and not the root. Theorems: `C113_search_partial`, `C113_bounds_partial`, `C113_tree_partial`, `C113_full_false`, `C113_other_object`, `C113_exact`.
* **C114** Deleting from the C++ red-black tree — *partial*. Model: RedBlackTree.hpp delete with all cases of the repair. Proof: unconditional simulation by the modelled Python delete (Lemmas/CppContract, CppRbDelete: also when the array contracts), so C84 carries over. Proved for the histories of C84, in particular for distinct keys inserted and then deleted while at least half remain. False of the code otherwise: an insert after a delete takes an empty slot for a node, and a contraction during a delete leaves the repair with an old position; both are undefined behaviour where Python raises. Theorems: `C114_copes_partial`, `C114_fill_and_thin_partial`, `C114_full_false`, `C114_insert_after_delete`, `C114_contraction`.
* **C115** The C++ splay tree finds what was inserted — *partial*. Model: SplayTree.hpp splay, insert, delete, function by function. Proof: simulation by the modelled Python methods, with the invariant that an array built by insertions is filled from the front and at least half full; so C79 and C88 carry over. Proved for the histories that insert a key again only right after inserting it (all histories with distinct keys), with key objects no two of which have the same value. False of the code otherwise: inserting an earlier key again overwrites the parent of the last node, and splay takes None for a position (undefined behaviour; Python raises). Theorems: `C115_tree_partial`, `C115_distinct_partial`, `C115_bounds_partial`, `C115_full_false`, `C115_again`, `C115_other_object`.
* **C116** Deleting from the C++ splay tree — *partial*. Model: SplayTree.hpp splay, insert, delete, function by function. Proof: simulation by the modelled Python methods, with the invariant that an array built by insertions is filled from the front and at least half full; so C79 and C88 carry over. Proved for the histories of C88, in particular for distinct keys inserted and then deleted, sparing both ends, while at least half remain. False of the code otherwise: deleting the greatest key leaves a node with the parent that was freed, the next splay reads it; delete on an empty tree takes the items of None; both are undefined behaviour. Theorems: `C116_copes_partial`, `C116_fill_and_thin_partial`, `C116_full_false`, `C116_stale_parent`, `C116_delete_empty`.
* **C117** Splitting a C++ splay tree — *partial*. Model: SplayTree.hpp split, _pre_order, join with the recorded array size. Proof: unconditional simulation of split; simulation of join for arrays filled from the front; so C89 and C90 carry over. The insert that never ends is shown by induction on the fuel. Proved for every tree of C116 and every x that is a key of it; the new tree can be used further. False of the code otherwise: for an absent x the method returns None and splits nothing; on an empty tree it takes the items of None. Theorems: `C117_copes_partial`, `C117_inserts_partial`, `C117_absent`, `C117_empty`, `C117_full_false`.
* **C118** Joining C++ splay trees — *partial*. Model: SplayTree.hpp split, _pre_order, join with the recorded array size. Proof: unconditional simulation of split; simulation of join for arrays filled from the front; so C89 and C90 carry over. The insert that never ends is shown by induction on the fuel. The refusal is proved for every pair of trees of C116, the join for first trees whose array is full (2^m - 1 distinct inserted keys) and any second tree. False of the code otherwise: copies are linked by the capacity but appended after the last element, so a search reads behind the array; afterwards size is stale and an insert may never end. Theorems: `C118_refuses`, `C118_full_array_partial`, `C118_gap`, `C118_empty`, `C118_insert_after`, `C118_full_false`.
* **C119** C++ Cartesian trees and treaps: search order and heap order — *partial*. Model: CartesianTree.hpp and Treap.hpp function by function, with the conversion of integer priorities to doubles (rounding to 53 digits, ties to even). Proof: simulation by the modelled Python methods run on the stored priorities; so C80 and C86 carry over. A double holds integers up to 2^53 exactly; the witness beyond is two priorities that become equal. Search is proved for every history with priorities below 2^1023; order and heap order for distinct keys and priorities up to 2^53 in absolute value, and for treaps with distinct keys whatever is drawn. False of the code otherwise: 2^53 + 1 and 2^53 become the same double and the key with the greater priority stays above; inserting a present key with a greater priority leaves it above its children; a priority of 2^1024 makes the call fail with a SystemError. Theorems: `C119_search`, `C119_stored_partial`, `C119_heap_order_partial`, `C119_treap_partial`, `C119_rounded`, `C119_again`, `C119_overflow`, `C119_full_false`, `C119_exact`, `C119_constructed_root`.
* **C120** Deleting from C++ Cartesian trees and treaps — *partial*. Model: CartesianTree.hpp and Treap.hpp function by function, with the conversion of integer priorities to doubles (rounding to 53 digits, ties to even). Proof: simulation by the modelled Python methods run on the stored priorities; so C80 and C86 carry over. A double holds integers up to 2^53 exactly; the witness beyond is two priorities that become equal. Proved for the histories of C86 with priorities up to 2^53, in particular for distinct keys inserted and then deleted in any order, across every contraction of the array. False of the code otherwise: an insert after a delete looks for the new node in an empty cell; after the root has been deleted and the tree emptied, insert takes None for a position; both are undefined behaviour. Theorems: `C120_copes_partial`, `C120_fill_and_delete_partial`, `C120_insert_after_delete`, `C120_unmarked_root`, `C120_full_false`.
* **C121** The array of a tree keeps every other node when one is removed — *proved*. Model: ArrayForTrees append, delete, _modify (Python and C++). Proof: the first loop lists the live nodes and numbers their keys, so that looking up the key of a link gives the number of live cells in front of it, which is strictly monotone; the C++ loops simulate the Python ones whatever size is recorded. Used to carry the Cartesian tree through contractions (C86, C120). For every array whose nodes have distinct keys and in which no other node is linked to the removed one. The trees that are shown to call it so are those of C86 and C120; C73_contraction, C84_contraction, C107_contraction and C114_contraction show callers that do not, or that go on with an old position. Theorems: `C121_delete`, `C121_cpp_delete`, `C121_delete_nothing`, `cutOff_of_stored`.
* **C122** An algorithm name selects the algorithm it stands for, or is refused — *partial*. Model: the attributes of the two modules with their numbers of arguments, and every entry point: name built, attribute looked up, called. Proof: a string put between a prefix and a suffix equals an attribute exactly if it is the part of that attribute between them, so the strings that reach an attribute form a finite table, computed once; everything else is not found. For find joined with C50 to C53. For every string the outcome is determined exactly. minimum_spanning_tree_parallel, strongly_connected_components, topological_sort_parallel and max_flow are right for every string. False of the others: shortest_paths(g, 'floyd_warshall', s) and minimum_spanning_tree(g, 'parallel_prim') raise TypeError, all_pair_shortest_paths(g, 'kahn') sorts the graph topologically and consumes it, topological_sort(g, 'floyd_warshall') returns distances, shortest_paths(g, 'depth_first_search', s, t) starts a search with the target as operation. With the C++ back end an unknown name returns None. Theorems: `C122_documented_partial`, `C122_names_served_partial`, `C122_searches`, `C122_cpp`, `C122_cpp_searches`, `C122_mst_list`, `C122_mst_matrix`, `C122_mst_parallel_list`, `C122_mst_parallel_matrix`, `C122_scc_list`, `C122_scc_matrix`, `C122_shortest_paths_list`, `C122_shortest_paths_matrix`, `C122_all_pairs_list`, `C122_all_pairs_matrix`, `C122_topological_sort_list`, `C122_topological_sort_matrix`, `C122_topological_sort_parallel_list`, `C122_topological_sort_parallel_matrix`, `C122_max_flow`, `C122_full_false`.
* **C123** find answers all positions of the query or refuses the algorithm name — *partial*. Model: the attributes of the two modules with their numbers of arguments, and every entry point: name built, attribute looked up, called. Proof: a string put between a prefix and a suffix equals an attribute exactly if it is the part of that attribute between them, so the strings that reach an attribute form a finite table, computed once; everything else is not found. For find joined with C50 to C53. For every string that does not start with an underscore the function that runs is determined; kmp, knuth_morris_pratt and boyer_moore answer exactly the occurrences, z_function for texts without '$', rabin_karp as in C51. False of the code: the helpers z_vector, p_pow and hash_str are accepted as algorithms and build_kmp_table, do_match raise TypeError; find('ab', 'b', 'z_vector') answers [0, 1]. Theorems: `C123_find_pick`, `C123_find_partial`, `C123_z_vector`, `C123_full_false`.
* **C124** Logarithmic operations take logarithmically many steps — *proved*. Model: the loops of the modelled functions count their tests (fuel), so a bound on the steps is a statement about the fuel. Proof: the range halves, the index at least doubles or halves, the lowest bit moves up; for disjoint sets the invariant that a key n links below its root is in a set of at least 2^n keys. Counted in rounds of the loops. find_root without make_root only; C124_make_root_chain proves that with make_root n links can be needed for n + 1 keys (the path splitting of find_root changes nothing, C44_find_pure, because the attribute is assigned to the node already moved to). Theorems: `C124_binary_search`, `C124_lower_bound`, `C124_upper_bound`, `C124_heap_insert`, `C124_heap_extract`, `C124_binomial_trees`, `C124_prefix_sum`, `C124_fenwick_update`, `C124_find_root`, `C124_make_root_chain`.
* **C125** Choosing the C++ back end does not change the answers — *partial*. Model: the Python and the C++ functions, modelled separately (see C01 to C05, C15 to C20, C29, C48, C56, C72 to C88 and C96 to C120). Proof: simulation; wherever the Python program ends without exception, the C++ program makes the same steps on the same array, so the trees agree node by node; the graphs through their common specification. Proved for non-empty arrays and for the histories the array of the trees copes with (as in C73, C84 to C88), for graphs in histories of calls that do not raise. False of the code: bubble_sort of an empty array raises with C++ only, quick_sort may never end (C97), delete on an empty tree is undefined behaviour, add_vertex of a known vertex raises with C++ only, get_edge of an edge without cost gives None with Python only. Adjacency matrices agree in histories that do not both remove and count edges (Python counts removed edges); Dijkstra agrees where the Python function is right (C66) and differs elsewhere; the lowest common ancestor by algorithm 2 agrees except for the root's key asked for twice. Theorems: `C125_bubble_sort_partial`, `C125_selection_sort_partial`, `C125_insertion_sort_partial`, `C125_quick_sort_partial`, `C125_linear_search_partial`, `C125_binary_search_partial`, `C125_is_ordered_partial`, `C125_stack_partial`, `C125_fenwick_partial`, `C125_bst_partial`, `C125_bst_inserts_partial`, `C125_avl_partial`, `C125_red_black_partial`, `C125_splay_partial`, `C125_cartesian_partial`, `C125_bst_fill_and_thin_partial`, `C125_avl_fill_and_thin_partial`, `C125_red_black_fill_and_thin_partial`, `C125_splay_inserts_partial`, `C125_cartesian_fill_and_delete_partial`, `C125_graph_partial`, `C125_graph_costs_partial`, `C125_full_false`, `C125_empty_delete`, `C125_graph_twice`, `C125_graph_no_cost`, `C125_bst_last_first_partial`, `C125_lca2_partial`, `C125_matrix_partial`, `C125_matrix_count`, `C125_dijkstra_partial`, `C125_dijkstra_detour`.
* **C126** Balanced search trees work in logarithmic time — *proved*. Model: the loops of the modelled tree operations count their rounds (fuel). Proof: every loop follows one path of the tree, so its rounds are bounded by the height; the height is bounded by the balance of the AVL tree (Fibonacci) and by the colouring of the red-black tree; the bounds are carried through the history. The rounds of every loop are counted by the fuel of the model (EndsBy b: b rounds for each loop are enough). AVL: an AVL tree of height h has at least (8/5)^h - 1 nodes, so 4^h <= (n + 1)^3. Theorems: `C126_avl`, `C126_red_black`, `C126_avl_deletes`, `C126_red_black_deletes`, `C126_cpp_red_black`.
* **C127** The choice of the sorting algorithm does not matter — *proved*. Model: the sorts of C01 to C09, C12, C14 and C91. Proof: a sorted rearrangement of a range is unique when there are no ties, and unique among the stable ones otherwise. Ranges inside the array; quick_sort takes its end inclusively. radix_sort under the conditions of C14 (the first value is not None, and a value is positive or no value is None). C127_ties_needed: without the hypothesis the sorts differ. Theorems: `C127_comparison_sorts`, `C127_stable_sorts`, `C127_again`, `C127_any_arrangement`, `C127_counting_sort`, `C127_radix_sort`, `C127_ties_needed`.
* **C128** next_permutation steps through all arrangements — *proved*. Model: next_permutation (C23) called by a client loop. Proof: every call steps to the next arrangement in lexicographic order; the number of greater arrangements decreases. The client loop is the one stated in the property; it calls the modelled next_permutation on whole arrays. Theorems: `C128_from`, `C128_all`, `C128_factorial`, `C128_back`.
* **C129** The shortest path algorithms agree — *partial*. Model: the four algorithms of C65 to C67 and C83. Proof: each is related to the same specification of distances, which is unique. False as stated of Dijkstra's algorithm, which gives up reachable vertices (C66); proved: Bellman-Ford and Floyd-Warshall agree, Dijkstra never answers less and agrees with few edges or with equal weights into each vertex, Johnson's errors agree and its answers are never less, equal in the same cases. Theorems: `C129_bellman_ford_floyd`, `C129_dijkstra_never_less`, `C129_dijkstra_partial`, `C129_johnson`, `C129_full_false`.
* **C130** The search trees are interchangeable — *proved*. Model: the trees of C72 to C86. Proof: each tree carries the last datum of every inserted key in search order; the observations are determined by that. The splay tree only in histories whose insertions are sound (C79). Theorems: `C130_trees`.
* **C131** The priority queues are interchangeable, and each of them sorts — *proved*. Model: the three queues of C34 to C36. Proof: what they answer is determined by the specification when only equal entries tie. Every history, every total preorder; C131_ties shows that the condition on ties is needed. Theorems: `C131_agree`, `C131_sorts`, `C131_ties`.
* **C132** The algorithms of find agree — *partial*. Model: the four algorithms of C50 to C53. Proof: from the exact outcome of each. False of the code (see C51, C53). Proved exactly when the four agree (C132_exact: no occurrence followed by the separator, no window with the hash of the query that differs from it); kmp and boyer_moore always agree, z_function never finds more and rabin_karp never less. Theorems: `C132_kmp_boyer_moore`, `C132_order`, `C132_exact`, `C132_full_false`.
* **C133** A C++ one-dimensional array stores what it is given — *proved*. Model: the C++ functions of the array with 64-bit indices and the instance check. Proof: every call acts like a call on a list, induction over the history. Every constructor call and every history. An object of another type raises SystemError instead of TypeError when stored with a[i] = x (the TypeError is printed and cleared). Writing at a negative index differs from Python, which counts from the end (C133_negative_write). Theorems: `C133_constructors`, `C133_array`, `C133_overflow`, `C133_same_as_python`, `C133_negative_write`.
* **C134** The C++ arrays and stacks hold a reference for every cell and give it back — *partial*. Model: the same functions with the increments and decrements of reference counts they do. Proof: the difference between the references owned and the cells that hold an object is an invariant; the dynamic array moves or drops cells only. Proved for one-dimensional arrays made from elements or from a size without init: one reference per cell after every history, and for dynamic arrays at least one. False of the code otherwise: init is stored n times with one reference, so overwriting the cells of an array with n > 1 cells frees an object the caller still holds (C134_init_exact: exactly for n > 1); freeing an array, deleting from a dynamic array and popping a stack give no reference back. References to None and to the type are not modelled. Theorems: `C134_balanced_partial`, `C134_failed`, `C134_init`, `C134_init_exact`, `C134_dealloc`, `C134_dynamic_partial`, `C134_stack_keeps`, `C134_stack_leaks`, `C134_full_false`.
* **C135** The minimum spanning tree algorithms agree — *proved*. Model: the algorithms of C63, C64 and C104. Proof: two minimum spanning forests have the same weight; by an exchange along the path of one in the cut of the other, the same edges if the costs are distinct; the entries of get_edge sum to twice the weight. For one graph in the three representations. What is compared is get_edge of the results: neighbors of the adjacency lists is wrong (C63, C64, C104). Theorems: `C135_same_total`, `C135_least_total`, `C135_same_tree`.
* **C136** The maximum flow algorithms agree — *partial*. Model: the two algorithms of C68. Proof: the search of Dinic keeps one parent per vertex, so that a phase has one path, that of Edmonds-Karp; the depth first search passes its room in the same order and fills it, the loops are equal for every number of steps. Proved for networks in which no edge enters the source and no vertex has the empty name: the two return the same value, even where it is not that of a maximum flow (C68). With an edge into the source Dinic may never end. Theorems: `C136_agree_partial`, `C136_full_false`.
* **C137** The algorithms for strongly connected components agree — *partial*. Model: the two algorithms of C69 and C70. Proof: from their exact outcomes. For every digraph: Kosaraju raises KeyError or returns unions of the sets of Tarjan; they agree exactly if Kosaraju is right, in particular if every edge can be undone. Theorems: `C137_coarser_partial`, `C137_symmetric_partial`, `C137_exact`, `C137_full_false`.
* **C138** Range query objects share the array of their caller — *proved*. Model: the constructors that choose by name, the shared array as a component of both objects. Proof: C47, and an invariant that the array of the segment tree is the specified one. C138_caller holds for every index, also negative ones and those outside, which raise and change nothing; C138_dynamic (answers as well) for non-negative ones. Elements are already of the dtype of the array. Theorems: `C138_static`, `C138_dynamic`, `C138_caller`.
* **C139** A segment tree answers once it is built — *partial*. Model: the tree before and after build; the loop of build on the empty array with integer bounds. Proof: invariant over the calls (C46); on the empty array the top of the stack is always a node (0, -1) without children. Proved for every non-empty array; build ends if and only if the array is not empty (C139_exact). Theorems: `C139_partial`, `C139_dimensions`, `C139_exact`, `C139_full_false`.
* **C140** The shape of a multi-dimensional array — *partial*. Model: __new__ with integer dimensions, shape, fill. Proof: the quotients of the suffix products are the dimensions (induction); loop invariant for fill. Shape and fill are proved for every array the constructor makes. False of the code: a single dimension is not checked, so 0 and negative numbers are accepted (C140_refused_exact: refused exactly if there is no dimension, or there are several and one is below 1). Theorems: `C140_shape`, `C140_cells`, `C140_refused_exact`, `C140_as_C28`, `C140_fill`, `C140_full_false`.
* **C141** Skip list levels and text — *partial*. Both passes of `__str__` are modelled with their two dictionaries (node to row, key to column) and the matrix with Python's indices; the loops go through the levels by the invariant of C43, extended by: the sentinels at the right end have no successor, only lowest nodes have data, the top level is not empty. The text is then computed by induction on the matrix. Proved for every history: the ladder of levels, `levels`, and the exact text, duplicates included. `C141_full`, that the lowest line shows every element, is false of this code: the columns are found by key, so of two elements with the same key only the last has a cell; `C141_exact` proves that this is the only way to fail. Shown text of a node is a parameter. Theorems: `C141_levels`, `C141_distinct_partial`, `C141_exact`, `C141_full_false`.
* **C142** Sort, then search — *proved*. Composition of C127 with C15 to C19: a sorted arrangement of an array without None is a sorted permutation of its values; the position that separates the smaller values from the others is their number, by induction on the array. The sorts take a non-strict comparator and lower_bound, upper_bound and jump_search the strict one of the same order, as their defaults do. On an empty array the bounds raise IndexError (C18, C19). Theorems: `C142_sort_then_search`, `C142_search`, `C142_lower_bound`, `C142_upper_bound`, `C142_occurrences`.
* **C143** The implementation of a stack or queue is chosen by name and does not matter — *partial*. The three constructors are modelled as functions from the name; the step functions are those of C29 to C36, so the traces reduce to the two specifications, which differ only in peek of the empty stack (induction on the history). Every name is covered. Stacks: the histories in which the two agree are determined exactly. Queues: exactly for FIFO and for double-ended queues of different values. The attributes front and rear of the array queue are positions, of the linked queue nodes, and are not compared. Theorems: `C143_stack`, `C143_stack_exact`, `C143_queue_names`, `C143_queue_partial`, `C143_queue_exact`, `C143_deque_partial`, `C143_deque_exact`, `C143_priority`, `C143_full_false`, `C143_comparator_ignored`.
* **C144** Topological sorting, strongly connected components and searches agree — *proved*. from C58, C59, C61, C62 and C69: a digraph is acyclic exactly if its classes of mutual reachability are single vertices without loops For names of vertices that are not attributes of the nodes (as in C61). Kosaraju's algorithm agrees where C137 says. Theorems: `C144_topological_sort`, `C144_searches`.
* **C145** Searches and shortest paths agree — *proved*. from C58, C59, C65 and C67: a vertex is reachable exactly if there is a walk of some weight to it, and with unit weights the weight of a walk is its number of edges The operation never asks the search to stop. Theorems: `C145_reachable`, `C145_levels`.
* **C146** The structures for range sums agree — *proved*. from C47, C48 and C110: every answer is the sum of the elements l, …, r of the array as updated so far C146_cpp: updates inside the array (outside the C++ tree's behaviour is undefined, C110). Theorems: `C146_updates`, `C146_static`, `C146_cpp`.
* **C147** Containers that keep their keys in order sort as the sorting functions do — *proved*. from C43, C127, C130 and C131: each of them leaves the keys rearranged and in order, and a list of different keys has only one such arrangement With equal keys a tree keeps one of them and a sort all: C72 and C127 say what happens then. Theorems: `C147_sorted`.
* **C148** front, rear and str of an array queue show where its elements are — *partial*. model front, rear and __str__ of ArrayQueue; strengthen the invariant of C32 by what is known of an empty queue and carry it through every history; refute the statement for the empty queue Proved: for the histories of C32_deque_partial, what front and rear are, that the elements lie between them and that str shows them; for an empty queue front and rear are -1, and str raises IndexError on a queue that never held anything and shows [None] on one that was emptied, so the full statement is false of the code (C148_full_false). Theorems: `C148_front_rear_partial`, `C148_full_false`, `C148_emptied_shows_none`.
* **C149** Tarjan's algorithm lists the components in reverse topological order — *proved*. add to the invariant of C69 that the components completed so far are closed under edges and that none reaches a later one; singletons and no loops when there is no cycle, hence the reversed list is a topological order Both for any neighbour function (lists and matrices), the second for stored adjacency lists. Theorems: `C149_reverse_topological`, `C149_topological`.
* **C150** Bridges are the edges that every spanning tree needs — *proved*. a spanning forest without the edge would be a path around the bridge; conversely extend the forest of the other edges; apply to the forest that each of the seven results shows (C135) The second theorem for connected graphs whose edges all have a cost (ThreeForms, as in C135). Theorems: `C150_in_every_forest`, `C150_in_every_result`.
* **C151** Common subsequences, increasing subsequences and sorting agree — *proved*. the sorted copy is unique; the subsequences common to a list and its sorted copy are exactly its non-decreasing subsequences From C21, C22 and C127. Theorems: `C151_lcs_with_sorted`, `C151_lis_is_lcs`, `C151_lcs_symmetric`.
* **C152** A C++ graph node or edge keeps the data it is given — *partial*. the field is a cell with a conversion in and out; histories by induction, one assignment by cases on the value Proved for all values except ints outside 64 bits, strings with null characters and strings with lone surrogates, and proved to fail for each of these (exact). Theorems: `C152_keeps_data_partial`, `C152_assignment_exact`, `C152_constructor_exact`, `C152_full_false`, `C152_failed_assignment_frees`, `C152_large_int_becomes_minus_one`.
* **C153** The neighbours of an AdjacencyListGraphNode are a map from names to data — *partial*. refinement to a map, by induction over the history; the Python theorem with a converse Python: exact for nodes constructed without neighbours (no added name may be an attribute of nodes); a neighbour given to the constructor can never be removed. C++: proved for histories that never add a neighbour twice, with plain names and data. Theorems: `C153_neighbours_partial`, `C153_neighbours_exact`, `C153_full_false`, `C153_cpp_neighbours_partial`, `C153_cpp_second_add`, `C153_cpp_full_false`.
* **C154** Graph(*vertices) is the edgeless graph on its vertices, of the implementation they are made for — *partial*. the constructors are modelled one by one; the loop of the C++ wrapper by induction; equality with add_vertex by induction, with a converse Proved except for C++ matrix nodes without implementation=, which are always refused (C154_default_for_cpp_matrix). Theorems: `C154_new_graph_partial`, `C154_unknown_implementation`, `C154_no_vertices`, `C154_default_for_cpp_matrix`, `C154_full_false`, `C154_constructor_adds_exact`, `C154_cpp_twice`.
* **C155** A search tree constructed with a key is the tree into which it was inserted — *partial*. the constructors of both back ends as functions; the first insertion of each class evaluated symbolically in key, datum and comparator; witnesses for the classes whose nodes have more fields Proved for BinarySearchTree, AVLTree and SplayTree: in Python exactly when there is data, in C++ always. Red-black and Cartesian trees made with a key raise at the next insertion (C155_red_black, C155_cartesian). Theorems: `C155_rooted_partial`, `C155_rooted_exact`, `C155_key_dropped`, `C155_full_false`, `C155_key_required`, `C155_cpp_rooted`, `C155_backends_differ`, `C155_red_black`, `C155_cartesian`.
* **C156** A binomial heap made from given trees serves their entries — *partial*. heap order alone is an invariant of merging, whatever the orders of the trees; contents as multisets; induction over the history Proved for lists. False for a nonempty tuple exactly when delete_minimum is called before anything is inserted or merged (C156_serves_exact). Merging changes the given trees, as it does in C38. Theorems: `C156_serves_partial`, `C156_serves_exact`, `C156_merge`, `C156_list_calls`, `C156_tuple`, `C156_full_false`, `C156_order_needed`.
* **C157** The list given to a binomial heap keeps its trees — *partial*. the heap together with the list of the caller, and whether root_list is still that object; induction over the history Proved exactly: it fails when the list has trees and delete_minimum is called before anything is inserted or merged; the list has then lost exactly one tree (C157_list_kept_exact). Which elements the list has is what is claimed; merge changes the trees themselves. Theorems: `C157_list_kept_partial`, `C157_list_kept_exact`, `C157_full_false`.
* **C158** Two heaps made from the same nodes each serve their entries — *partial*. construction of both heaps on shared nodes, reduced to the construction of C37 and its invariant The second heap always serves; the first does when both have the same arity and order. False otherwise: the first heap has the cells of the second (C158_same_cells). What calls on one heap do to the other afterwards is not claimed. Theorems: `C158_first_partial`, `C158_second`, `C158_same_cells`, `C158_full_false`.

## What is modelled and what is not, function by function

Generated from the citations in `lean/Verif/Model`; a function counts as modelled when a definition there cites lines of it. `methods` and `__str__` are never modelled.

* `graphs/_backend/cpp/AdjacencyList.hpp` (Model/CppGraph, Model/GraphNew)
  * modelled: `AdjacencyListGraph_new`, `make_edge_key`, `AdjacencyListGraph_add_vertex`, `AdjacencyListGraph_is_adjacent`, `AdjacencyListGraph_num_vertices`, `AdjacencyListGraph_num_edges`, `AdjacencyListGraph_neighbors`, `AdjacencyListGraph_remove_vertex`, `AdjacencyListGraph_get_edge`, `AdjacencyListGraph_remove_edge`, `AdjacencyListGraph_add_edge`
* `graphs/_backend/cpp/AdjacencyMatrix.hpp` (Model/CppMatrix, Model/GraphNew)
  * modelled: `AdjacencyMatrixGraph_new`, `AdjacencyMatrixGraph_add_edge`, `AdjacencyMatrixGraph_remove_edge`, `AdjacencyMatrixGraph_neighbors`, `AdjacencyMatrixGraph_num_vertices`, `AdjacencyMatrixGraph_num_edges`, `AdjacencyMatrixGraph_get_edge`, `AdjacencyMatrixGraph_is_adjacent`
* `graphs/_backend/cpp/Algorithms.hpp` (Model/CppBfs, Model/CppGraph, Model/CppMatrix, Model/CppPrim)
  * modelled: `breadth_first_search_adjacency_list`, `breadth_first_search_adjacency_matrix`, `minimum_spanning_tree_prim_adjacency_list`, `shortest_paths_dijkstra_adjacency_list`
* `graphs/adjacency_list.py` (Model/CppGraph, Model/Dispatch, Model/Graph, Model/GraphNew, Model/Johnson, Model/Prim)
  * modelled: `AdjacencyList.__new__`, `AdjacencyList.is_adjacent`, `AdjacencyList.num_vertices`, `AdjacencyList.num_edges`, `AdjacencyList.neighbors`, `AdjacencyList.add_vertex`, `AdjacencyList.remove_vertex`, `AdjacencyList.add_edge`, `AdjacencyList.get_edge`, `AdjacencyList.remove_edge`
* `graphs/adjacency_matrix.py` (Model/Dispatch, Model/Graph)
  * modelled: `AdjacencyMatrix.__new__`, `AdjacencyMatrix.is_adjacent`, `AdjacencyMatrix.num_vertices`, `AdjacencyMatrix.num_edges`, `AdjacencyMatrix.neighbors`, `AdjacencyMatrix.add_edge`, `AdjacencyMatrix.get_edge`, `AdjacencyMatrix.remove_edge`
* `graphs/algorithms.py` (Model/BfsParallel, Model/Bridges, Model/Dict, Model/Dispatch, Model/DodaSort, Model/FloydWarshall, Model/GraphSearch, Model/Johnson, Model/Kahn, Model/KahnParallel, Model/Kosaraju, Model/Kruskal, Model/MaxFlow, Model/Prim, Model/RangeNew, Model/ShortestPaths, Model/Tarjan)
  * modelled: `breadth_first_search`, `_breadth_first_search_adjacency_list`, `breadth_first_search_parallel`, `_generate_layer`, `_breadth_first_search_parallel_adjacency_list`, `_generate_mst_object`, `_sort_edges`, `_minimum_spanning_tree_kruskal_adjacency_list`, `_minimum_spanning_tree_prim_adjacency_list`, `minimum_spanning_tree`, `_minimum_spanning_tree_parallel_kruskal_adjacency_list`, `_find_min`, `_minimum_spanning_tree_parallel_prim_adjacency_list`, `minimum_spanning_tree_parallel`, `_visit`, `_assign`, `_strongly_connected_components_kosaraju_adjacency_list`, `_tarjan_dfs`, `_strongly_connected_components_tarjan_adjacency_list`, `strongly_connected_components`, `depth_first_search`, `_depth_first_search_adjacency_list`, `shortest_paths`, `_bellman_ford_adjacency_list`, `_dijkstra_adjacency_list`, `all_pair_shortest_paths`, `_floyd_warshall_adjacency_list`, `_johnson_adjacency_list`, `topological_sort`, `_kahn_adjacency_list`, `topological_sort_parallel`, `_kahn_adjacency_list_parallel`, `_breadth_first_search_max_flow`, `_max_flow_edmonds_karp_`, `_depth_first_search_max_flow_dinic`, `_max_flow_dinic_`, `max_flow`, `find_bridges`
* `graphs/graph.py` (Model/GraphNew)
  * modelled: `Graph.__new__`
* `linear_data_structures/_backend/cpp/algorithms/llvm_algorithms.py` (Model/Llvm, Model/LlvmSort)
  * modelled: `get_bubble_sort_ptr`, `_build_bubble_sort_ir`, `_materialize`, `get_selection_sort_ptr`, `_build_selection_sort_ir`, `_materialize_selection`
  * not modelled: `_cleanup`, `_ensure_target_machine`
* `linear_data_structures/_backend/cpp/algorithms/misc_algorithms.hpp` (Model/CppSearch)
  * modelled: `is_ordered_impl`, `is_ordered`, `linear_search`, `binary_search`, `jump_search`
* `linear_data_structures/_backend/cpp/algorithms/quadratic_time_sort.hpp` (Model/Cpp, Model/CppSort, Model/Llvm, Model/LlvmSort)
  * modelled: `bubble_sort_impl`, `bubble_sort`, `bubble_sort_llvm`, `selection_sort_impl`, `selection_sort`, `selection_sort_llvm`, `insertion_sort_impl`, `insertion_sort`
* `linear_data_structures/_backend/cpp/algorithms/quick_sort.hpp` (Model/Cpp, Model/CppSort)
  * modelled: `call_pick_pivot_element`, `quick_sort_partition`, `quick_sort_impl`, `quick_sort`
* `linear_data_structures/_backend/cpp/arrays/ArrayForTrees.hpp` (Model/CppBst, Model/CppSplay)
  * modelled: `ArrayForTrees__modify`, `ArrayForTrees_append`, `ArrayForTrees_delete`
  * not modelled: `ArrayForTrees___new__`, `ArrayForTrees___getitem__`, `ArrayForTrees___setitem__`, `ArrayForTrees_fill`, `ArrayForTrees___len__`
* `linear_data_structures/_backend/cpp/arrays/DynamicOneDimensionalArray.hpp` (Model/CppArray, Model/CppDoda)
  * modelled: `DynamicOneDimensionalArray___new__`, `DynamicOneDimensionalArray___getitem__`, `DynamicOneDimensionalArray___setitem__`, `DynamicOneDimensionalArray_fill`, `DynamicOneDimensionalArray___len__`, `DynamicOneDimensionalArray__modify`, `DynamicOneDimensionalArray_append`, `DynamicOneDimensionalArray_delete`
* `linear_data_structures/_backend/cpp/arrays/OneDimensionalArray.hpp` (Model/Cpp, Model/CppArray, Model/CppDoda)
  * modelled: `cleanup_partial_data`, `OneDimensionalArray___new__`, `OneDimensionalArray___getitem__`, `OneDimensionalArray___setitem__`, `OneDimensionalArray_fill`, `OneDimensionalArray___len__`
* `linear_data_structures/algorithms.py` (Model/Distribution, Model/Dp, Model/Heap, Model/Intro, Model/Matrix, Model/Search, Model/Sort)
  * modelled: `_merge`, `merge_sort_parallel`, `brick_sort`, `_brick_sort_swap`, `brick_sort_parallel`, `heapsort`, `counting_sort`, `_matrix_multiply_helper`, `matrix_multiply_parallel`, `_bucket_sort_helper`, `bucket_sort`, `cocktail_shaker_sort`, `quick_sort`, `longest_common_subsequence`, `is_ordered`, `upper_bound`, `lower_bound`, `longest_increasing_subsequence`, `_permutation_util`, `next_permutation`, `prev_permutation`, `bubble_sort`, `selection_sort`, `insertion_sort`, `linear_search`, `binary_search`, `jump_search`, `intro_sort`, `shell_sort`, `radix_sort`
* `linear_data_structures/arrays.py` (Model/Array, Model/ArrayMore, Model/ArrayNew, Model/BinaryTree, Model/DodaSort, Model/RangeQuery, Model/SplayJoin, Model/Strings)
  * modelled: `OneDimensionalArray.__new__`, `OneDimensionalArray.__getitem__`, `OneDimensionalArray.__setitem__`, `OneDimensionalArray.fill`, `OneDimensionalArray.__len__`, `MultiDimensionalArray.__new__`, `MultiDimensionalArray.__getitem__`, `MultiDimensionalArray.__setitem__`, `MultiDimensionalArray._compare_shape`, `MultiDimensionalArray.fill`, `MultiDimensionalArray.shape`, `DynamicOneDimensionalArray.__new__`, `DynamicOneDimensionalArray._modify`, `DynamicOneDimensionalArray.append`, `DynamicOneDimensionalArray.delete`, `DynamicOneDimensionalArray.size`, `DynamicOneDimensionalArray.__reversed__`, `ArrayForTrees._modify`
* `linear_data_structures/linked_lists.py` (Model/LinkedList, Model/SkipList, Model/SkipStr)
  * modelled: `LinkedList.search`, `LinkedList.__getitem__`, `LinkedList.appendleft`, `LinkedList.append`, `LinkedList.popleft`, `LinkedList.popright`, `DoublyLinkedList.__new__`, `DoublyLinkedList.insert_after`, `DoublyLinkedList.insert_before`, `DoublyLinkedList.insert_at`, `DoublyLinkedList.extract`, `SinglyLinkedList.__new__`, `SinglyLinkedList.insert_after`, `SinglyLinkedList.insert_at`, `SinglyLinkedList.extract`, `SinglyCircularLinkedList.insert_after`, `SinglyCircularLinkedList.insert_at`, `SinglyCircularLinkedList.extract`, `DoublyCircularLinkedList.insert_after`, `DoublyCircularLinkedList.insert_before`, `DoublyCircularLinkedList.insert_at`, `DoublyCircularLinkedList.extract`, `SkipList.__new__`, `SkipList._add_level`, `SkipList.levels`, `SkipList._search`, `SkipList.search`, `SkipList.insert`, `SkipList.extract`
  * not modelled: `LinkedList.__len__`, `LinkedList.is_empty`, `SkipList.size`
* `miscellaneous_data_structures/_backend/cpp/stack/ArrayStack.hpp` (Model/CppArray, Model/CppDoda)
  * modelled: `ArrayStack__new__`, `ArrayStack_is_empty`, `ArrayStack_push`, `ArrayStack_pop`, `ArrayStack_peek`, `ArrayStack__len__`
* `miscellaneous_data_structures/algorithms.py` (Model/RangeQuery)
  * modelled: `RangeQueryStaticSparseTable.query`, `RangeQueryStaticArray.query`, `RangeQueryDynamicArray.update`, `RangeQueryDynamicSegmentTree.query`
  * not modelled: `RangeQueryStatic.__new__`, `RangeQueryStaticSparseTable.__new__`, `RangeQueryStaticArray.__new__`, `RangeQueryDynamic.__new__`, `RangeQueryDynamicArray.__new__`, `RangeQueryDynamicArray.query`, `RangeQueryDynamicSegmentTree.__new__`, `RangeQueryDynamicSegmentTree.update`
* `miscellaneous_data_structures/binomial_trees.py` (Model/BinomialHeap)
  * modelled: `BinomialTree.__new__`, `BinomialTree.add_sub_tree`
  * not modelled: `BinomialTree.is_empty`
* `miscellaneous_data_structures/disjoint_set.py` (Model/DisjointSet, Model/DisjointSorted)
  * modelled: `DisjointSetForest.__new__`, `DisjointSetForest.make_set`, `DisjointSetForest.find_root`, `DisjointSetForest.union`, `DisjointSetForest.make_root`, `DisjointSetForest.find_size`, `DisjointSetForest.disjoint_sets`
* `miscellaneous_data_structures/multiset.py` (Model/Multiset)
  * modelled: `Multiset.__init__`, `Multiset.add`, `Multiset.remove`, `Multiset.lower_bound`, `Multiset.upper_bound`, `Multiset.__contains__`, `Multiset.__len__`, `Multiset.count`
* `miscellaneous_data_structures/queue.py` (Model/BinomialHeap, Model/Containers, Model/Heap, Model/LinkedContainers, Model/Prim, Model/QueueView, Model/StackQueue)
  * modelled: `Queue.__new__`, `Queue._double_ended_check`, `ArrayQueue.__new__`, `ArrayQueue.append`, `ArrayQueue.appendleft`, `ArrayQueue.popleft`, `ArrayQueue.pop`, `ArrayQueue.front`, `ArrayQueue.rear`, `ArrayQueue.is_empty`, `ArrayQueue.__len__`, `LinkedListQueue.__new__`, `LinkedListQueue.append`, `LinkedListQueue.appendleft`, `LinkedListQueue.pop`, `LinkedListQueue.popleft`, `PriorityQueue.__new__`, `LinkedListPriorityQueue.__new__`, `LinkedListPriorityQueue.push`, `LinkedListPriorityQueue.pop`, `LinkedListPriorityQueue._find_peek`, `BinaryHeapPriorityQueue.__new__`, `BinaryHeapPriorityQueue.pop`, `BinaryHeapPriorityQueue.peek`, `BinomialHeapPriorityQueue.__new__`, `BinomialHeapPriorityQueue.push`, `BinomialHeapPriorityQueue.pop`, `BinomialHeapPriorityQueue.peek`, `BinomialHeapPriorityQueue.is_empty`
  * not modelled: `LinkedListQueue.is_empty`, `LinkedListQueue.front`, `LinkedListQueue.rear`, `LinkedListQueue.__len__`, `LinkedListPriorityQueue.peek`, `LinkedListPriorityQueue.is_empty`, `BinaryHeapPriorityQueue.push`, `BinaryHeapPriorityQueue.is_empty`
* `miscellaneous_data_structures/segment_tree.py` (Model/RangeNew, Model/RangeQuery)
  * modelled: `ArraySegmentTree.__new__`, `OneDimensionalArraySegmentTree.__new__`, `OneDimensionalArraySegmentTree.is_ready`, `OneDimensionalArraySegmentTree.build`, `OneDimensionalArraySegmentTree.update`, `OneDimensionalArraySegmentTree._query`, `OneDimensionalArraySegmentTree.query`
* `miscellaneous_data_structures/sparse_table.py` (Model/RangeQuery)
  * modelled: `SparseTable.__new__`, `SparseTable.query`
* `miscellaneous_data_structures/stack.py` (Model/Containers, Model/LinkedContainers, Model/StackQueue)
  * modelled: `Stack.__new__`, `ArrayStack.__new__`, `ArrayStack.push`, `ArrayStack.pop`, `ArrayStack.is_empty`, `ArrayStack.peek`, `ArrayStack.__len__`, `LinkedListStack.__new__`, `LinkedListStack.push`, `LinkedListStack.pop`, `LinkedListStack.is_empty`, `LinkedListStack.peek`, `LinkedListStack.size`, `LinkedListStack.__len__`
* `strings/algorithms.py` (Model/Dispatch, Model/Strings)
  * modelled: `find`, `_knuth_morris_pratt`, `_build_kmp_table`, `_do_match`, `_p_pow`, `_hash_str`, `_rabin_karp`, `_boyer_moore`, `_z_vector`, `_z_function`
* `strings/trie.py` (Model/Trie)
  * modelled: `Trie.__new__`, `Trie.insert`, `Trie.is_present`, `Trie.is_inserted`, `Trie.delete`, `Trie.strings_with_prefix`
* `trees/_backend/cpp/AVLTree.hpp` (Model/CppAvl)
  * modelled: `AVLTree_left_height`, `AVLTree_right_height`, `AVLTree_balance_factor`, `AVLTree__right_rotate`, `AVLTree__left_right_rotate`, `AVLTree__right_left_rotate`, `AVLTree__left_rotate`, `AVLTree__balance_insertion`, `AVLTree_insert`, `AVLTree__balance_delete`, `AVLTree_delete`
  * not modelled: `AVLTree___new__`, `AVLTree_set_tree`, `AVLTree_search`, `AVLTree_rank`, `AVLTree_select`, `AVLTree_root_idx`
* `trees/_backend/cpp/BinaryIndexedTree.hpp` (Model/CppFenwick)
  * modelled: `BinaryIndexedTree_update`, `BinaryIndexedTree___new__`, `BinaryIndexedTree_get_prefix_sum`, `BinaryIndexedTree_get_sum`
* `trees/_backend/cpp/BinarySearchTree.hpp` (Model/CppAvl, Model/CppBst)
  * modelled: `BinarySearchTree_left_size`, `BinarySearchTree_right_size`, `BinarySearchTree__update_size`, `BinarySearchTree_search`, `BinarySearchTree_insert`, `BinarySearchTree_delete`, `BinarySearchTree__bound_helper`, `BinarySearchTree_lower_bound`, `BinarySearchTree_upper_bound`, `BinarySearchTree__simple_path`, `BinarySearchTree__lca_1`, `BinarySearchTree__lca_2`, `BinarySearchTree_rank`, `BinarySearchTree_select`
  * not modelled: `BinarySearchTree___new__`, `BinarySearchTree_lowest_common_ancestor`, `BinarySearchTree_root_idx`
* `trees/_backend/cpp/BinaryTree.hpp` (Model/CppBst)
  * modelled: `BinaryTree___new__`
  * not modelled: `BinaryTree_insert`, `BinaryTree_delete`, `BinaryTree_search`
* `trees/_backend/cpp/BinaryTreeTraversal.hpp` (Model/CppTraversal)
  * modelled: `BinaryTreeTraversal__pre_order`, `BinaryTreeTraversal__in_order`, `BinaryTreeTraversal__post_order`, `BinaryTreeTraversal__out_order`, `BinaryTreeTraversal_depth_first_search`, `BinaryTreeTraversal_breadth_first_search`
  * not modelled: `BinaryTreeTraversal___new__`
* `trees/_backend/cpp/CartesianTree.hpp` (Model/CppCart)
  * modelled: `Cartesian_Tree__bubble_up`, `Cartesian_Tree__trickle_down`, `CartesianTree_insert`, `CartesianTree_delete`, `CartesianTree_root_idx`
  * not modelled: `CartesianTree___new__`, `CartesianTree_search`
* `trees/_backend/cpp/RedBlackTree.hpp` (Model/CppRb)
  * modelled: `RedBlackTree__get_parent`, `RedBlackTree__get_grand_parent`, `RedBlackTree__get_sibling`, `RedBlackTree__get_uncle`, `RedBlackTree__is_onleft`, `RedBlackTree___fix_insert`, `RedBlackTree_insert`, `RedBlackTree__find_predecessor`, `RedBlackTree__is_leaf`, `RedBlackTree__has_two_child`, `RedBlackTree__has_one_child`, `RedBlackTree__transplant_values`, `RedBlackTree___has_red_child`, `RedBlackTree__replace_node`, `RedBlackTree___walk1_walk_isblack`, `RedBlackTree___left_left_sublingcase`, `RedBlackTree___right_left_sublingcase`, `RedBlackTree___left_right_sublingcase`, `RedBlackTree___right_right_sublingcase`, `RedBlackTree___fix_deletion`, `RedBlackTree__remove_node`, `RedBlackTree__delete_root`, `RedBlackTree___leaf_case`, `RedBlackTree___one_child_case`, `RedBlackTree___two_child_case`, `RedBlackTree_delete`
  * not modelled: `RedBlackTree___new__`, `RedBlackTree__is_onright`, `RedBlackTree_lower_bound`, `RedBlackTree_upper_bound`, `RedBlackTree_search`, `RedBlackTree_root_idx`
* `trees/_backend/cpp/SelfBalancingBinaryTree.hpp` (Model/CppRotate)
  * modelled: `SelfBalancingBinaryTree__right_rotate`, `SelfBalancingBinaryTree__left_rotate`, `SelfBalancingBinaryTree__left_right_rotate`, `SelfBalancingBinaryTree__right_left_rotate`
  * not modelled: `SelfBalancingBinaryTree___new__`, `SelfBalancingBinaryTree_insert`, `SelfBalancingBinaryTree_search`, `SelfBalancingBinaryTree_delete`, `SelfBalancingBinaryTree_lower_bound`, `SelfBalancingBinaryTree_upper_bound`, `SelfBalancingBinaryTree__simple_path`, `SelfBalancingBinaryTree__lca_1`, `SelfBalancingBinaryTree__lca_2`, `SelfBalancingBinaryTree_lowest_common_ancestor`, `SelfBalancingBinaryTree_rank`, `SelfBalancingBinaryTree_select`, `SelfBalancingBinaryTree_root_idx`
* `trees/_backend/cpp/SplayTree.hpp` (Model/CppSplay)
  * modelled: `SplayTree__zig`, `SplayTree__zig_zig`, `SplayTree__zag_zag`, `SplayTree_splay`, `SplayTree_insert`, `SplayTree_delete`, `SplayTree_join`, `SplayTree__pre_order`, `SplayTree_split`
  * not modelled: `SplayTree___new__`, `SplayTree__zig_zag`, `SplayTree__zag_zig`, `SplayTree_root_idx`
* `trees/_backend/cpp/Treap.hpp` (Model/CppCart)
  * modelled: `Treap_insert`, `Treap_root_idx`
  * not modelled: `Treap___new__`, `Treap_search`, `Treap_delete`
* `trees/binary_trees.py` (Model/Avl, Model/BinaryTree, Model/Cartesian, Model/Comparator, Model/CppFenwick, Model/Fenwick, Model/RedBlack, Model/RedBlackDelete, Model/Splay, Model/SplayJoin, Model/TreeNew, Model/TreeTraversal)
  * modelled: `BinaryTree.__new__`, `BinarySearchTree._update_size`, `BinarySearchTree.insert`, `BinarySearchTree.search`, `BinarySearchTree._bound_helper`, `BinarySearchTree.lower_bound`, `BinarySearchTree.upper_bound`, `BinarySearchTree.delete`, `BinarySearchTree.select`, `BinarySearchTree.rank`, `BinarySearchTree._simple_path`, `BinarySearchTree._lca_1`, `BinarySearchTree._lca_2`, `SelfBalancingBinaryTree._right_rotate`, `SelfBalancingBinaryTree._left_right_rotate`, `SelfBalancingBinaryTree._right_left_rotate`, `SelfBalancingBinaryTree._left_rotate`, `CartesianTree._bubble_up`, `CartesianTree._trickle_down`, `CartesianTree.insert`, `CartesianTree.delete`, `Treap.insert`, `AVLTree.set_tree`, `AVLTree._right_rotate`, `AVLTree._left_right_rotate`, `AVLTree._right_left_rotate`, `AVLTree._left_rotate`, `AVLTree._balance_insertion`, `AVLTree.insert`, `AVLTree._balance_deletion`, `AVLTree.delete`, `SplayTree._zig`, `SplayTree._zig_zig`, `SplayTree._zag_zag`, `SplayTree.splay`, `SplayTree.insert`, `SplayTree.delete`, `SplayTree.join`, `SplayTree.split`, `RedBlackTree._get_parent`, `RedBlackTree._get_sibling`, `RedBlackTree._get_uncle`, `RedBlackTree._is_onleft`, `RedBlackTree.__fix_insert`, `RedBlackTree.insert`, `RedBlackTree._find_predecessor`, `RedBlackTree._transplant_values`, `RedBlackTree._has_one_child`, `RedBlackTree._is_leaf`, `RedBlackTree._has_two_child`, `RedBlackTree.__has_red_child`, `RedBlackTree._replace_node`, `RedBlackTree.__walk1_walk_isblack`, `RedBlackTree.__left_left_siblingcase`, `RedBlackTree.__right_left_siblingcase`, `RedBlackTree.__left_right_siblingcase`, `RedBlackTree.__right_right_siblingcase`, `RedBlackTree.__fix_deletion`, `RedBlackTree._remove_node`, `RedBlackTree._delete_root`, `RedBlackTree.__leaf_case`, `RedBlackTree.__one_child_case`, `RedBlackTree.__two_child_case`, `RedBlackTree.delete`, `BinaryTreeTraversal._pre_order`, `BinaryTreeTraversal._in_order`, `BinaryTreeTraversal._post_order`, `BinaryTreeTraversal._out_order`, `BinaryTreeTraversal.depth_first_search`, `BinaryTreeTraversal.breadth_first_search`, `BinaryIndexedTree.__new__`, `BinaryIndexedTree.update`, `BinaryIndexedTree.get_prefix_sum`, `BinaryIndexedTree.get_sum`
  * not modelled: `BinarySearchTree.__new__`, `BinarySearchTree.lowest_common_ancestor`, `SelfBalancingBinaryTree.__new__`, `CartesianTree.__new__`, `Treap.__new__`, `AVLTree.__new__`, `SplayTree.__new__`, `SplayTree._zig_zag`, `SplayTree._zag_zig`, `RedBlackTree.__new__`, `RedBlackTree._get_grand_parent`, `RedBlackTree._is_onright`, `BinaryTreeTraversal.__new__`
* `trees/heaps.py` (Model/BinomialHeap, Model/BinomialRoots, Model/BinomialShared, Model/Heap, Model/HeapShared, Model/Prim, Model/ShortestPaths)
  * modelled: `DHeap.__new__`, `DHeap._build`, `DHeap._swap`, `DHeap._heapify`, `DHeap.insert`, `DHeap.extract`, `DHeap.is_empty`, `BinaryHeap.__new__`, `BinomialHeap.__new__`, `BinomialHeap.merge_tree`, `BinomialHeap._merge_heap_last_new_tree`, `BinomialHeap.merge`, `BinomialHeap.insert`, `BinomialHeap.find_minimum`, `BinomialHeap.delete_minimum`, `BinomialHeap.is_empty`, `BinomialHeap.decrease_key`, `BinomialHeap.delete`
  * not modelled: `TernaryHeap.__new__`
* `trees/m_ary_trees.py` (no model)
  * not modelled: `MAryTree.__new__`
* `trees/space_partitioning_trees.py` (Model/IntervalTree)
  * modelled: `OneDimensionalSegmentTree.__new__`, `OneDimensionalSegmentTree._union`, `OneDimensionalSegmentTree._intersect`, `OneDimensionalSegmentTree._contains`, `OneDimensionalSegmentTree._iterate`, `OneDimensionalSegmentTree.build`, `OneDimensionalSegmentTree.query`
* `utils/_backend/cpp/AdjacencyListGraphNode.hpp` (Model/FreeNode)
  * modelled: `AdjacencyListGraphNode_new`, `AdjacencyListGraphNode_add_adjacent_node`, `AdjacencyListGraphNode_remove_adjacent_node`, `AdjacencyListGraphNode_get_data`, `AdjacencyListGraphNode_set_data`, `AdjacencyListGraphNode_get_adjacent`
  * not modelled: `AdjacencyListGraphNode_get_name`, `AdjacencyListGraphNode_set_name`, `AdjacencyListGraphNode_set_adjacent`
* `utils/_backend/cpp/AdjacencyMatrixGraphNode.hpp` (Model/FreeNode)
  * modelled: `AdjacencyMatrixGraphNode_new`
* `utils/_backend/cpp/GraphEdge.hpp` (Model/CppGraph, Model/FreeNode)
  * modelled: `GraphEdge_new`, `GraphEdge_get_value`, `GraphEdge_set_value`
  * not modelled: `GraphEdge_str`
* `utils/_backend/cpp/GraphNode.hpp` (Model/FreeNode)
  * modelled: `GraphNode_new`, `GraphNode_get`, `GraphNode_set`
  * not modelled: `GraphNode_str`
* `utils/_backend/cpp/TreeNode.hpp` (Model/CppCart, Model/CppRb)
  * modelled: `TreeNode___new__`
* `utils/_backend/cpp/utils.hpp` (Model/Cpp, Model/CppArray)
  * modelled: `set_exception_if_dtype_mismatch`, `_comp`
  * not modelled: `PyObject_AsString`, `raise_exception_if_dtype_mismatch`, `raise_exception_if_not_array`, `_check_type`, `get_type_tag`
* `utils/misc_util.py` (Model/BinaryTree, Model/BinomialHeap, Model/DisjointSet, Model/Dispatch, Model/FreeNode, Model/Graph, Model/GraphNew, Model/IntervalTree, Model/LinkedList, Model/RangeQuery, Model/SkipList, Model/Sort, Model/Trie)
  * modelled: `raise_if_backend_is_not_python`, `TreeNode.__new__`, `BinomialTreeNode.__new__`, `BinomialTreeNode.add_children`, `LinkedListNode.__new__`, `SkipNode.__new__`, `AdjacencyListGraphNode.__new__`, `AdjacencyListGraphNode.add_adjacent_node`, `AdjacencyListGraphNode.remove_adjacent_node`, `AdjacencyMatrixGraphNode.__new__`, `GraphEdge.__new__`, `Set.__new__`, `TrieNode.__new__`, `TrieNode.add_child`, `TrieNode.get_child`, `TrieNode.remove_child`, `_comp`, `_check_range_query_inputs`, `minimum`, `greatest_common_divisor`, `summation`
  * not modelled: `CartesianTreeNode.__new__`, `RedBlackTreeNode.__new__`, `MAryTreeNode.__new__`, `MAryTreeNode.add_children`
* `utils/raises_util.py` (no model)
  * not modelled: `raises`
* `utils/testing_util.py` (no model)
  * not modelled: `test`
* C++ files without any model: `linear_data_structures/_backend/cpp/arrays/Array.hpp`

## Axioms, per theorem of the manifest

(from `#print axioms`; `tools/axioms.sh` refreshes the list)

* no axiom: C26_negative_write_wraps, C26_argument_changed, C39_below_range, C41_search_diverges, C41_open_insert_after, C42_ring_open, C139_dimensions, C155_key_required, C156_order_needed
* `propext`: C04_merge_sort_empty, C05_quick_sort_empty, C12_nothing_to_sort, C13_other_failures, C14_full_false, C14_zeros_unsorted, C14_leading_none, C18_C19_empty, C20_full_false, C20_none_hides_disorder, C22_empty, C24_duplicates_wrong, C25_mismatch, C25_wide_wrong, C25_tall_raises, C27_last_position_not_exact, C28_full_false, C31_full_false, C31_lost_elements, C32_full_false, C32_pop_wrong, C38_is_empty, C41_full_false, C42_full_false, C45_empty, C47_negative_update, C50_empty_query, C51_full_false, C51_collision, C52_empty_query, C53_full_false, C53_separator_in_text, C55_stored_prefix, C56_reserved_name_false, C63_kruskal_parallel_no_edges, C65_target, C73_delete_on_empty, C81_length, C81_empty, C82_decrease_key_error, C82_handle_moves, C85_delete_empty, C85_stale_height, C88_delete_empty, C89_empty, C93_full_false, C98_empty, C99_none_hides_disorder, C105_full_false, C107_delete_on_empty, C110_sum_far_outside, C112_stale_height, C116_delete_empty, C117_empty, C119_overflow, C122_cpp, C122_cpp_searches, C125_empty_delete, C125_matrix_count, C127_ties_needed, C131_ties, C132_full_false, C133_constructors, C133_overflow, C133_negative_write, C134_stack_leaks, C140_full_false, C143_comparator_ignored, C148_full_false, C148_emptied_shows_none, C152_failed_assignment_frees, C153_full_false, C154_unknown_implementation, C154_default_for_cpp_matrix, C154_full_false, C154_cpp_twice, C155_key_dropped
* `propext, Classical.choice, Quot.sound`: C01_bubble_sort, C02_selection_sort, C03_insertion_sort, C04_merge_sort, C04_merge_sort_rounds, C05_quick_sort, C06_heapsort, C07_shell_sort, C08_intro_sort, C09_cocktail_shaker_sort, C10_brick_sort_strict_partial, C10_brick_sort_distinct_partial, C10_brick_sort_diverges, C10_full_false, C10_exact, C11_brick_sort_parallel_strict_partial, C11_brick_sort_parallel_distinct_partial, C11_brick_sort_parallel_diverges, C11_exact, C12_counting_sort, C13_bucket_sort_partial, C13_exact, C13_sorts_iff, C14_radix_sort_partial, C14_exact, C16_binary_search, C17_jump_search_partial, C17_early_start_partial, C17_exact, C18_lower_bound, C19_upper_bound, C20_is_ordered_partial, C22_longest_increasing_subsequence, C23_next_permutation, C24_prev_permutation_partial, C24_lex_flip, C24_full_false, C24_exact, C25_exact, C25_product_iff, C26_get, C26_fill, C26_history, C27_dynamic_array, C27_indexing, C28_cells_independent_partial, C28_aliasing, C28_exact, C29_array_stack, C30_linked_list_stack, C31_exact, C31_kept_partial, C31_array_queue_partial, C32_exact, C32_kept_partial, C32_deque_partial, C33_linked_list_queue, C34_linked_list_priority_queue, C34_first_among_ties, C35_heap_priority_queue, C36_binomial_priority_queue, C37_dheap, C37_heap_order, C38_merge, C38_insert, C38_minimum, C38_history, C39_singly_linked_list, C40_doubly_linked_list, C41_all_indices_partial, C41_circular_list_partial, C42_both_directions_partial, C42_forward_partial, C42_exact_partial, C43_skip_list, C43_random_bits, C43_missing, C43_sorted, C44_unknown, C44_find, C44_find_pure, C44_size, C44_make_root, C44_disjoint_sets, C44_disjoint_sets_sorted, C44_canonical, C45_sparse_table, C46_segment_tree, C47_static, C47_dynamic_array, C47_dynamic_partial, C47_dynamic_exact, C47_full_false, C48_fenwick, C49_counts_partial, C49_copies_partial, C49_fill_and_thin_partial, C50_kmp, C51_exact, C51_complete, C51_rabin_karp_partial, C52_boyer_moore, C53_exact, C53_sound, C53_z_function_partial, C54_trie, C55_exact, C55_strings_with_prefix_partial, C56_structure_partial, C56_labels_partial, C57_observations_partial, C57_add_only_partial, C57_num_edges_exact, C57_full_false, C58_bfs, AmRep.finGraph, C59_dfs, C60_acyclic_partial, C60_exact, C60_never_ends, C60_full_false, C61_kahn, al_history_rep, C62_kahn_parallel, C63_kruskal_list_partial, C63_kruskal_parallel_list_partial, C63_kruskal_matrix, C63_kruskal_parallel_matrix, C63_full_false, C64_prim_partial, C64_prim_connected_partial, C64_prim_parallel_partial, C64_full_false, C65_bellman_ford, AmRep.wgraph, C66_sound_partial, C66_few_edges_partial, C66_by_target_partial, C66_equal_weights_partial, C66_full_false, C68_edmonds_karp_partial, C68_edmonds_karp_antiparallel_partial, C68_dinic_partial, C68_dinic_antiparallel_partial, C68_full_false_edmonds_karp, C68_full_false_dinic, C68_dinic_never_ends, C69_tarjan, C70_coarse_partial, C70_symmetric_partial, C70_full_false, C70_full_incoming_false, C71_bridges, C71_one_way_false, C72_search, C72_in_order, C73_fill_and_thin_partial, C73_copes_partial, C73_last_first_partial, C74_post_order, C74_level_order, C75_bounds, C75_select_rank, C76_lca1, C76_lca2_partial, C76_lca2_exact, C77_search, C77_balanced, C77_bounds, C77_select_rank, C78_search, C78_bounds, C78_tree, C78_colouring_partial, C78_exact, C79_tree_partial, C79_distinct_partial, C79_bounds_partial, C79_exact, C79_full_false, C80_search, C80_tree, C80_heap_order_partial, C80_treap_partial, C80_exact, C81_query, C82_delete, C83_sound_partial, C83_exact_partial, C83_input, C83_full_false, C84_copes_partial, C84_fill_and_thin_partial, C85_copes_partial, C85_fill_and_thin_partial, C86_copes_partial, C86_fill_and_delete_partial, C87_any_comparator_partial, C87_bounds, C87_default, C87_full_false, C88_copes_partial, C88_fill_and_thin_partial, C89_copes_partial, C89_inserts_partial, C89_absent, C89_full_false, C90_full_array_partial, C90_refuses, C90_empty, C91_bubble_sort, C91_insertion_sort, C91_cocktail_shaker_sort, C91_merge_sort, C91_brick_sort_parallel, C91_brick_sort, C91_strict_unstable, C92_any_pivot_partial, C92_last_pivot_partial, C92_separating_pivot_partial, C92_exact, C93_sort_all_partial, C93_all_sorts_partial, C93_sort_range_partial, C93_exact, C93_history, C93_reversed, C94_bubble_sort, C94_verify, C94_overflow, C94_comparator, C94_nothing_to_do, C95_selection_sort_partial, C95_raises, C95_never_compiles, C95_after_bubble_sort, C95_exact, C95_full_false, C96_bubble_sort_partial, C96_selection_sort, C96_insertion_sort, C96_exact, C97_exact, C97_exact_any, C97_later_start_partial, C97_least_first_partial, C97_sorts_or_never_ends, C97_never_ends, C97_full_false, C98_binary_search, C98_jump_search, C99_is_ordered_partial, C100_labels_partial, C100_full_false, C100_full_false_remove, C100_full_false_kept, C101_exact_partial, C101_target_partial, C101_exact_iff_no_gap, C101_gap_partial, C101_full_false, C101_removed_undefined, C101_unknown_source, C102_list_partial, C102_matrix_partial, C102_unknown_source, C102_full_false, C103_structure_partial, C103_get_once_partial, C103_exact, C103_full_false, C103_raise_adds, C103_collision, C104_tree_partial, C104_ints_partial, C104_full_false, C104_full_false_add, C104_changes_directed, C105_array_partial, C105_stack_partial, C106_search_partial, C106_in_order_partial, C106_bounds_partial, C106_select_rank_partial, C107_copes_partial, C107_fill_and_thin_partial, C107_last_first_partial, C108_lca1_partial, C108_lca2_partial, C108_lca2_exact, C108_lca2_absent, C109_post_order, C109_level_order, C109_inserted, C110_fenwick_partial, C110_large_element, C110_sum_overflow, C110_failed_update_stores, C110_sum_large, C111_search_partial, C111_in_order_partial, C111_bounds_partial, C111_select_rank_partial, C111_balanced_partial, C111_full_false, C112_copes_partial, C112_fill_and_thin_partial, C113_search_partial, C113_bounds_partial, C113_tree_partial, C113_exact, C114_copes_partial, C114_fill_and_thin_partial, C115_tree_partial, C115_distinct_partial, C115_bounds_partial, C116_copes_partial, C116_fill_and_thin_partial, C117_copes_partial, C117_inserts_partial, C117_absent, C117_full_false, C118_refuses, C118_full_array_partial, C119_search, C119_stored_partial, C119_heap_order_partial, C119_treap_partial, C119_rounded, C119_again, C119_full_false, C119_exact, C119_constructed_root, C120_copes_partial, C120_fill_and_delete_partial, C120_insert_after_delete, C120_unmarked_root, C120_full_false, C121_delete, C121_cpp_delete, cutOff_of_stored, C122_documented_partial, C122_names_served_partial, C122_mst_list, C122_mst_matrix, C122_mst_parallel_list, C122_mst_parallel_matrix, C122_scc_list, C122_scc_matrix, C122_shortest_paths_list, C122_shortest_paths_matrix, C122_all_pairs_list, C122_all_pairs_matrix, C122_topological_sort_list, C122_topological_sort_matrix, C122_topological_sort_parallel_list, C122_topological_sort_parallel_matrix, C122_max_flow, C122_full_false, C123_find_pick, C123_find_partial, C123_z_vector, C123_full_false, C124_binomial_trees, C124_prefix_sum, C124_fenwick_update, C124_find_root, C124_make_root_chain, C125_bubble_sort_partial, C125_selection_sort_partial, C125_insertion_sort_partial, C125_quick_sort_partial, C125_binary_search_partial, C125_stack_partial, C125_fenwick_partial, C125_bst_partial, C125_bst_inserts_partial, C125_avl_partial, C125_red_black_partial, C125_splay_partial, C125_cartesian_partial, C125_bst_fill_and_thin_partial, C125_avl_fill_and_thin_partial, C125_red_black_fill_and_thin_partial, C125_splay_inserts_partial, C125_cartesian_fill_and_delete_partial, C125_graph_partial, C125_graph_costs_partial, C125_graph_twice, C125_graph_no_cost, C125_bst_last_first_partial, C125_lca2_partial, C125_matrix_partial, C125_dijkstra_partial, C125_dijkstra_detour, C126_avl, C126_red_black, C126_avl_deletes, C126_red_black_deletes, C126_cpp_red_black, C127_comparison_sorts, C127_stable_sorts, C127_again, C127_any_arrangement, C127_counting_sort, C127_radix_sort, C128_from, C128_all, C128_factorial, C128_back, C129_bellman_ford_floyd, C129_dijkstra_never_less, C129_dijkstra_partial, C129_johnson, C129_full_false, C130_trees, C131_agree, C131_sorts, C132_kmp_boyer_moore, C132_order, C132_exact, C133_array, C133_same_as_python, C134_init_exact, C134_full_false, C135_same_total, C135_least_total, C135_same_tree, C136_agree_partial, C136_full_false, C137_coarser_partial, C137_symmetric_partial, C137_exact, C137_full_false, C138_static, C138_dynamic, C138_caller, C139_partial, C139_exact, C139_full_false, C140_fill, C141_levels, C141_distinct_partial, C141_exact, C141_full_false, C142_sort_then_search, C142_search, C142_lower_bound, C142_upper_bound, C142_occurrences, C143_stack, C143_stack_exact, C143_queue_names, C143_queue_partial, C143_queue_exact, C143_deque_partial, C143_deque_exact, C143_priority, C143_full_false, C144_topological_sort, C144_searches, C145_reachable, C145_levels, C146_updates, C146_static, C146_cpp, C147_sorted, C148_front_rear_partial, C149_reverse_topological, C149_topological, C150_in_every_forest, C150_in_every_result, C151_lcs_with_sorted, C151_lis_is_lcs, C152_keeps_data_partial, C152_full_false, C153_neighbours_partial, C153_neighbours_exact, C153_cpp_neighbours_partial, C153_cpp_second_add, C153_cpp_full_false, C158_first_partial, C158_second, C158_same_cells
* `propext, Quot.sound`: C13_full_false, C14_only_zeros, C15_linear_search, C17_full_false, C20_exact, C20_default, C21_longest_common_subsequence, C25_square_partial, C25_full_false, C26_constructors, C26_set, C26_set_outside, C26_from_list, C26_from_tuple, C26_from_list_size, C28_wrong_arity, C38_orders, C49_unknown, C49_full_false, C55_full_false, C56_full_false, C56_full_false_keys, AlRep.finGraph, C60_sound, C64_no_cost, AlRep.wgraph, C67_floyd_warshall, C73_insert_after_delete, C73_contraction, C73_full_false, C74_pre_order, C74_in_order, C74_out_order, C74_every_node_once, C76_lca2_full_false, IsLca.unique, C76_empty, C78_full_false, C80_full_false, C82_decrease_key, C84_insert_after_delete, C84_contraction, C84_full_false, C85_absent, C85_insert_after_delete, C85_full_false, C86_insert_after_delete, C86_unmarked_root, C86_full_false, C88_stale_parent, C88_full_false, C90_gap, C90_insert_after, C90_full_false, C91_selection_unstable, C91_quick_unstable, C91_shell_unstable, C92_unsorted, C92_full_false, C93_nothing_alive, C96_empty, C96_bubble_empty, C96_full_false, C97_empty, C98_linear_search, C98_jump_empty, C99_exact, C99_full_false, C104_empty, C105_force, C105_force_undefined, C106_full_false, C106_other_object, C106_twice, C106_truthy_comparator, C106_truthy_bound, C107_full_false, C107_insert_after_delete, C107_contraction, C107_stale_size, C108_full_false, C108_ancestor_first, C108_big_key, C108_big_key_either, C109_pre_order, C109_in_order, C109_out_order, C110_full_false, C110_update_outside, C111_long_run, C111_other_object, C112_full_false, C112_absent, C112_insert_after_delete, C113_full_false, C113_other_object, C114_full_false, C114_insert_after_delete, C114_contraction, C115_full_false, C115_again, C115_other_object, C116_full_false, C116_stale_parent, C118_gap, C118_empty, C118_insert_after, C118_full_false, C121_delete_nothing, C122_searches, C124_binary_search, C124_lower_bound, C124_upper_bound, C124_heap_insert, C124_heap_extract, C125_linear_search_partial, C125_is_ordered_partial, C125_full_false, C134_balanced_partial, C134_failed, C134_init, C134_dealloc, C134_dynamic_partial, C134_stack_keeps, C140_shape, C140_cells, C140_refused_exact, C140_as_C28, C151_lcs_symmetric, C152_assignment_exact, C152_constructor_exact, C152_large_int_becomes_minus_one, C154_new_graph_partial, C154_no_vertices, C154_constructor_adds_exact, C155_rooted_partial, C155_rooted_exact, C155_full_false, C155_cpp_rooted, C155_backends_differ, C155_red_black, C155_cartesian, C156_serves_partial, C156_serves_exact, C156_merge, C156_list_calls, C156_tuple, C156_full_false, C157_list_kept_partial, C157_list_kept_exact, C157_full_false, C158_full_false
