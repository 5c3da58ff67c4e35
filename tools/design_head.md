# Formal model of pydatastructs in Lean 4 — design

(The tables below are generated by `tools/gen_design.py`; the text above them is in `tools/design_head.md`.)

## Layout

* `lean/Verif/Py.lean` — the Python fragment: exceptions as values (`PyErr`, `PyM`), bounds-checked list reads and
  writes, bounded `for` loops, fuel-driven `while` loops.
* `lean/Verif/Spec.lean`, `GraphSpec.lean`, `WeightSpec.lean`, `FlowSpec.lean` — the specification vocabulary: sortedness
  of a range, "ends with", histories (`trace`, `final`), finite graphs, walks, distances, flows. It mentions no model definition.
* `lean/Verif/Model/*.lean` — the model: one Lean definition per Python function (or per loop body), each with a comment
  citing file and lines in /repo.
* `lean/Verif/Lemmas/*.lean` — helper lemmas.
* `lean/Verif/Props/*.lean` — the property theorems (`Cnn_…`, namespace `Props`, named in MANIFEST.json), each with
  `example`s meeting its hypotheses on a concrete, non-trivial case.
* `seeded/` — mutation testing: `batches/*.py` the wrong programs, `LOG.jsonl` the outcome of each.

## Modelling conventions

* Python objects changed in place become values returned by the function. Exceptions are values of `PyErr`; a theorem that
  says `f x = .ok y` says that no exception is raised.
* `for` loops over `range(..)` are structural recursions; `while` loops take a fuel argument and end with
  `PyErr.outOfFuel` when it is used up. Termination is then a theorem (`∃ fuel₀, ∀ fuel ≥ fuel₀, f fuel x = .ok ..`, written
  `EndsWith`/`EndsIn`), and non-termination is `∀ fuel, f fuel x = outOfFuel`.
* Heap-allocated nodes: where aliasing matters (linked lists, disjoint sets, tree arrays, segment trees) the model has an
  explicit store indexed by node numbers or array positions; otherwise a pure value.
* Numbers: Python `int` is `Int`/`Nat`. `float('inf')` is an explicit extra value; `math.log2`/`sqrt` on ints are the exact
  mathematical floor (stated at the definition).
* Comparators: a user comparator of the sorts is an `α → α → Bool` compatible with a total preorder; of the trees, a strict
  total order.
* Random choices (skip list, treap) are an arbitrary stream or an arbitrary list of values, quantified over. Parallel
  algorithms are quantified over every order of the jobs that the executor may choose.
* A property false of the code: the full statement is a definition `Cnn_full`, its negation is proved on a concrete witness
  (`Cnn_full_false`), and the true part is kept as `Cnn_…_partial`.

## Trusted base

* Lean 4.33.0's kernel; the axioms `propext`, `Quot.sound`, `Classical.choice` at most. The list per theorem is at the end.
  No axiom is added, no compiled evaluation is used (concrete cases are `rfl`, `decide` or `decide +kernel`).
* The reading of the Python source that the model definitions embody (each cites the lines it models).
* For the LLVM sorts (C94, C95): that llvmlite refuses a function whose blocks lack a terminator or whose phi nodes do not list exactly the
  predecessors, and that accepted instructions behave as the interpreter in `Model/Llvm.lean` says.
* Not modelled: CPython itself (recursion limit, memory, integer caching except where a comment says so), those
  parts of the C++ back end (`_backend/`) that the table below lists as not modelled, `_extensions.py`, dtype coercion and type checks of the constructors,
  `__str__`/`methods`, the dispatchers that choose an implementation by name (`shortest_paths`, `minimum_spanning_tree`,
  `Stack.__new__`, …: they call the modelled functions with the same arguments), floating-point rounding, thread scheduling other
  than the orders stated explicitly.

## Defects of the code found while proving

* C10/C11 `brick_sort(_parallel)`: with the default comparator `<=` two equal values are swapped forever.
* C13 `bucket_sort`: division by zero when `max < count`, `IndexError`s, negative values misplaced. C14 `radix_sort`: a leading
  `None` is a `TypeError`; zeros mixed with `None` stay unsorted.
* C17 `jump_search` with `start > 0`; C20 `is_ordered` with equal neighbours; C24 `prev_permutation` with repeated values.
* C25 `matrix_multiply_parallel` is wrong for rectangular matrices. C28 `MultiDimensionalArray` accepts out-of-range indices
  that alias other cells.
* C31/C32 `ArrayQueue` loses elements on contraction and keeps stale `front`/`rear` after `appendleft`/`pop`.
* C41/C42 circular lists: `insert_at(-size)`, and extraction of the head, leave a stale link.
* C47 a negative update index writes to the wrong leaf. C51 hash collisions are reported as matches. C53 `$` in the text.
  C55 a stored prefix is listed as its last character.
* C56 `remove_vertex` keeps the costs of removed edges, `"a_b"+"_"+"c" = "a"+"_"+"b_c"`, reserved attribute names count as
  vertices. C57 `num_edges` counts removed edges.
* C60 parallel BFS never ends when a cycle is reachable. C63/C64 the spanning tree shares (and changes) the node objects of the
  input; edges without cost raise. C66 Dijkstra pops only |V| entries. C68 no residual edges; Dinic can recurse forever.
  C70 Kosaraju raises `KeyError` for vertices without incoming edge and merges components. C71 the docstring's one-way edges are
  answered wrongly. C83 Johnson inherits C66 and leaves the caller's weights changed. C67: `next_vertex` is filled with `None`.
* C49 `Multiset`: `AttributeError` after removing the last copy of an element. C73 BST `delete`: lost keys, stale parents on
  contraction, `TypeError` on the empty tree. C76 `lca` algorithm 2 at the root. C78 re-inserting a key paints its node red. C84 red-black
  `delete`: inserting after deleting the newest key raises; a contraction in the one-child case is ignored.
  C85 AVL `delete`: returns `True` for absent keys, raises on the empty tree, inserting after deleting the newest key raises, stale
  height after the root of a two-key tree is deleted. C86 Cartesian `delete`: inserting after deleting the newest key raises; the new
  root is not marked, so re-inserting its key or inserting into the emptied tree raises `TypeError`.
  C79 re-inserting a key into a splay tree raises or loops. C80 re-inserting a key breaks the heap order.
* C88 splay `delete`: the grandchildren of a deleted root with one child keep a freed position as parent, later calls raise; the empty tree raises.
* C89 `split` at an absent key returns `None`; `size` is not reduced. C90 `join` shifts the copied links by the capacity of the array, so
  unless it is full the joined part is linked wrongly (`IndexError` or wrong nodes); `size` is not updated, a later insert may never end.
* C87 `comp=f` is not used: the comparator answers `f` itself, which is always true, so the tree degenerates to a list.
* C92 `quick_sort` leaves the range unsorted unless the picked pivot is the last cell (`[2, 1]` with the first cell). C93 sorting a
  dynamic array without live elements raises `IndexError`.
* C95 LLVM `selection_sort` builds a malformed function and raises `RuntimeError`, unless an earlier LLVM `bubble_sort` left its function
  in the shared cache, which is then executed instead.
* C96 C++ `bubble_sort` of an empty array runs 2^128 steps. C97 C++ `quick_sort` never ends when a range from index 0 has its unique minimum
  last, nor on one cell or none. C98 C++ `jump_search` on an empty array overflows. C99 C++ `is_ordered` has the defect of C20.
* C100 (C++ graphs) keys of edges collide when names contain `_`: `num_edges` and `get_edge` confuse `a -> b_c` with `a_b -> c`; `remove_vertex` removes edges of other vertices and keeps its own. `add_vertex` of a name that is already there raises `ValueError`. A cost of 2^63 or more is a `SystemError`.
* C101 (C++ Dijkstra) after the removal of a vertex that is not the latest the function indexes outside its vectors (undefined behaviour) or omits a vertex. An unknown source is taken for the first vertex, silently, and from then on the graph answers for that name. With `backend=Backend.CPP` another algorithm or another implementation is answered with `None`, silently.
* C102 (C++ BFS) the answer of the operation is ignored, so a search cannot be stopped as in the docstring; no call with an empty second argument is made for vertices without neighbours; an unknown source is undefined behaviour for adjacency lists.
* C103 (C++ matrix) `get_edge` returns a borrowed reference as if it were owned: the second `get_edge` of a pair is a use after free. `add_edge` with a cost that is not a number raises, but has added the edge. Keys collide as in C100.
* C104 (C++ Prim) the tree shares its nodes with the input graph: `is_adjacent` and `neighbors` of the tree answer for the input graph. `add_vertex` on the tree reuses id 0 and so replaces an existing vertex. An empty graph is undefined behaviour. On a directed graph it adds the opposite directions to the input graph.
* C105 (C++ stack) a pushed `None` is never removed: every later `pop` returns it. `_modify(True)` on a dynamic array without live cell reads in front of the buffer.
* C134 (C++ arrays) `OneDimensionalArray(dtype, n, init=x)` stores x in n cells but owns one reference: overwriting the cells gives back n references, and x is freed while the caller still uses it. Freeing an array, `delete` and `Stack.pop` give no reference back (memory leaks).
* C136 (graphs/algorithms.py) `_max_flow_dinic_`: with an edge back to the source the depth first search runs round it for ever, where Edmonds-Karp answers. Each phase has one augmenting path only (the search keeps one parent per vertex).
* C133 (C++ arrays) storing an object of the wrong type raises SystemError: the TypeError is printed and cleared first.
* C106 (C++ search tree) keys are compared by object identity: another object with the same value is not found, and is inserted a second time.
* C107 (C++ search tree) `delete` on an empty tree dereferences a null pointer; `ArrayForTrees._modify` leaves the recorded size of the array stale after a contraction (both assignments go to `_size`); `delete` of a node with one child and a parent writes through the child's old position after a contraction, and uses the root's key for the parent's; insert after delete as in C73.
* C108 (C++ LCA) the second loop of `_lca_1` has the condition that has just become false, so `k` is answered when `j` is a proper ancestor of `k`; keys are converted to `long` and back, so integers outside -5..256 are "not there".
* C110 (C++ Fenwick tree) values and sums are C++ `long`s: a larger int raises `SystemError` in the constructor, an update with one raises `SystemError` but stores -1, sums beyond 2^63 overflow; an update outside the array reads and writes outside the buffer.
* C111 (C++ AVL tree) positions are compared by object identity and `insert` makes a new int object for the new position: from the 258th node on rotations that involve the new node are not made, and the tree gets out of balance (259 inserts).
* C112 (C++ AVL tree) an insert after a delete can take an empty slot for a node: undefined behaviour.
* C114 (C++ red-black tree) an insert after a delete, and a contraction during a delete, use an empty or stale slot: undefined behaviour.
* C115 (C++ splay tree) inserting an earlier key again makes splay take None for a position: undefined behaviour.
* C116 (C++ splay tree) deleting the greatest key leaves a stale parent that the next splay reads; delete on an empty tree: undefined behaviour.
* C117 (C++ splay tree) split at an absent key returns None and splits nothing; on an empty tree it is undefined behaviour.
* C118 (C++ splay tree) join links the copies wrongly unless the array of the first tree is full; afterwards an insert may never end.
* C119 (C++ Cartesian tree) priorities are rounded to doubles: 2^53 + 1 counts as 2^53, 2^1024 fails; a present key given a greater priority stays above its children.
* C120 (C++ Cartesian tree) inserting after a deletion, or after the root was deleted and the tree emptied, is undefined behaviour.
* C122 the algorithm name is looked up among all functions of the module: `shortest_paths(g, 'floyd_warshall', s)` raises `TypeError`, `all_pair_shortest_paths(g, 'kahn')` sorts topologically and consumes the graph; with the C++ back end an unknown name returns `None`. C123 `find(text, query, 'z_vector')` answers match lengths instead of positions.
* C26 `OneDimensionalArray(dtype, l)` converts the elements of `l` in the caller's own list (`C26_argument_changed`), and with a tuple holding an element of another type it raises `TypeError` (`C26_from_tuple`);
* C139 (miscellaneous_data_structures/segment_tree.py:141-172) `ArraySegmentTree.build` on an empty array: the root has the bounds (0, -1), its children have them too, and the loop pushes nodes for ever. (The range query classes refuse empty arrays.)
* C140 (linear_data_structures/arrays.py:210-215) `MultiDimensionalArray(dtype, n)` with one dimension does not check n: 0 and negative numbers are accepted, with several dimensions they are a ValueError.
* C141 (linked_lists.py:794-811): `__str__` finds the column of a node by its key, so elements with equal keys share one column: after `insert(1,'a'); insert(1,'b')` it prints `None (1, a)` although both are stored.
* C143 (stack.py:135-136, 184-185; queue.py:115; queue.py:332-346): `Stack('array').peek` raises IndexError when empty and `Stack('linked_list').peek` is None; `Queue('array', items=[])` raises IndexError; `PriorityQueue('binomial_heap', comp=...)` ignores the comparator (documented).
* C148 (queue.py:208-212): `str` of an `ArrayQueue` that never held anything raises `IndexError` (it reads `_data[-1]`), and after the last element has been taken out it shows `[None]`.
* C152 (utils/_backend/cpp/GraphNode.hpp:74, 164, 171; AdjacencyListGraphNode.hpp:170-190; GraphEdge.hpp:113-121): data that is a string is cut at its first null character; an int outside 64 bits becomes -1 with a pending exception; a string with a lone surrogate is undefined behaviour, and in set_data of an AdjacencyListGraphNode leaves a pointer to the old data whose reference was given back.
* C153 (utils/misc_util.py:409-412, 436-437; AdjacencyListGraphNode.hpp:112-115): a Python node constructed with a list of nodes has nodes instead of names in adjacent, so that remove_adjacent_node always raises ValueError for them; in C++ adding a neighbour that is there already puts the bare data in place of the node.
* C154 (graphs/graph.py:73-77): C++ nodes have no attribute _impl, so Graph(AdjacencyMatrixGraphNode(…, backend=Backend.CPP), backend=Backend.CPP) takes them for an adjacency list and raises TypeError. Two vertices of one name given to the constructor of a Python adjacency list are both counted (adjacency_list.py:27), whereas add_vertex ignores the second.
* C155 (trees/binary_trees.py:68-70): without root_data the key is dropped, so BinarySearchTree(5) is empty in Python, and has the key 5 in C++. The root is a TreeNode in every class: RedBlackTree(5, 0) and CartesianTree(5, 0) raise AttributeError when another key is inserted, since the root has neither colour nor priority.
* C156 (trees/heaps.py:402, 539): the constructor accepts a tuple, as documented, and keeps it; delete_minimum calls its method remove, which tuples don't have, and raises AttributeError.
* C157 (trees/heaps.py:402, 539): the constructor stores the list without copying it and delete_minimum removes a tree from it in place, so that a second heap made from the same list has lost the entries of that tree.
* C158 (trees/heaps.py:95-97, 116-122): the nodes are not copied and sifting exchanges the keys of nodes, so that BinaryHeap(nodes, 'max') rearranges the heap BinaryHeap(nodes, 'min') made before, whose extract then gives the largest key.
* C81 an empty list raises `IndexError`; the caller's list is sorted in place. C82 node handles are not stable.
