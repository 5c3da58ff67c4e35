PLANS = {}
def _g(ids, text):
    for i in ids: PLANS[i] = text
C = lambda a, b: ["C%02d" % i for i in range(a, b + 1)]
_g(C(1, 9), "Model: the exact loops over arrays of optional values with bounds-checked access. Proof: loop invariants; conclusion sorted in the range, a permutation of it, unchanged outside.")
_g(["C10", "C11"], "Model: fuel loop. Proof: number of inversions decreases for strict comparators; invariant of the endless run otherwise.")
_g(C(12, 14), "Model: the counting arrays and buckets as in the code. Proof: invariants; witnesses for the failures.")
_g(C(15, 20), "Model: the search loops. Proof: invariants on the interval that can still hold the answer.")
_g(C(21, 22), "Model: the tables filled by the dynamic programs. Proof: optimality of every prefix, against all sublists.")
_g(C(23, 24), "Model: `_permutation_util` on an array slice. Proof: successor in the lexicographic order among all permutations of the range.")
_g(["C25"], "Model: the jobs, in any order, each computing one cell.")
_g(C(26, 36), "Model: the object as a state machine over the array or linked structure underneath. Proof: refinement of a list (or multiset with priorities), by induction over every history of calls.")
_g(["C37", "C38", "C82"], "Model: array heap / binomial trees. Proof: heap order invariant, contents as a multiset.")
_g(C(39, 43), "Model: nodes in an explicit store with next/prev/down pointers. Proof: an abstraction relation between the pointers and a list, preserved by every call.")
_g(["C44"], "Model: parent pointers in a store. Proof: acyclic forest invariant, refinement of the equivalence generated by the unions.")
_g(C(45, 48), "Model: the tables and trees of partial folds. Proof: every stored value is the fold of its interval; the specification is the fold of the queried slice.")
_g(["C49"], "Model: the counter dictionary and the red-black tree underneath. Proof: refinement of a bag (element to number of copies).")
_g(C(50, 53), "Model: the matchers over lists of characters. Proof: what is reported = all positions at which the query occurs.")
_g(C(54, 55), "Model: the trie nodes. Proof: refinement of a set of strings.")
_g(C(56, 57), "Model: vertices, adjacency and the edge_weights dictionary with its textual keys. Proof: refinement of an abstract labelled digraph, by induction over histories.")
_g(C(58, 71) + ["C83"], "Model: the algorithm over an abstract `neighbors` function and the edge_weights dictionary (both graph classes are shown to provide them). Proof: invariants; walks, distances, spanning forests, components, flows specified independently (GraphSpec, WeightSpec, FlowSpec).")
_g(["C84"], "Model: deletion with its repair loop, sibling cases and array slots. Proof: the loop keeps a tree in which one subtree lacks one black node (`Lacks`), each case either ends or moves the lack up; then induction over histories.")
_g(["C85"], "Model: deletion from the search tree with the node the rebalancing starts at, the walk to the root and its rotations, array slots included. Proof: a tree with one subtree a level lower is repaired level by level; heights, sizes and order are carried along; then induction over histories.")
_g(["C86"], "Model: the rotations that take the node to a leaf, and the deletion of the leaf. Proof: the tree around the descending node stays heap-ordered without it; then induction over histories.")
_g(["C88"], "Model: splaying the node to the root and deleting it there, array slots included. Proof: splaying keeps entries and parent links (C79); the root with two children is replaced by its successor; then induction over histories.")
_g(["C89", "C90"], "Model: both methods with their walks, the re-insertion or copying of nodes and the array counters. Proof: for split, emptying cells in reverse pre-order keeps the way to every remaining node; for join, the copies form the same shape at shifted positions.")
_g(["C87"], "Model: the comparator the constructor stores. Proof: every node becomes the left child of the node inserted before it; induction over histories.")
_g(C(72, 80), "Model: the array of nodes with left/right/parent indices, exceptions included. Proof: a relation between the array and an inductive shape, preserved by every rotation and insertion; map and order statements on top of it, by induction over histories.")
_g(["C81"], "Model: the interval tree build and query. Proof: the tree over elementary intervals; a point query returns exactly the segments containing the point.")
_g(["C91"], "Model: the sorts of C01-C11. Proof: exchanges of neighbours and merging sorted blocks keep the subsequence of every set of mutually equivalent elements.")
_g(["C92"], "Model: quick_sort with the pivot function as a parameter. Proof: the invariants of C04 with the pivot equivalent to the last cell; rearrangement alone needs no pivot property.")
_g(["C93"], "Model: the sorts on the cells followed by `_modify(True)`. Proof: the invariant of C26/C27 after the compaction; induction over histories that include sorts.")
_g(["C94", "C95"], "Model: the builder calls that emit the instructions, the checks of LLVM's verifier they can fail, an interpreter for the instructions (blocks, phi nodes, loads and stores on a buffer, undefined behaviour as an error), the process-wide cache, the C++ code that copies the range to a buffer and back. Proof: loop invariants at the block boundaries of the emitted code; induction over the calls for the cache.")
_g(C(96, 99), "Model: the C++ functions with size_t and int arithmetic, NULL results and the pending-exception flag of the interpreter. Proof: while no index is out of range they proceed like the modelled Python functions (simulation), so C01-C03, C05, C15, C16, C20 carry over; wrap-around cases separately.")
_g(["C100"], "Model: the maps of the C++ graph object (names, ids, nodes, edges keyed by joined names), hash table iteration as an oracle. Proof: representation relation with the abstract labelled digraph, induction over histories.")
_g(["C101"], "Model: the adjacency vectors, the lazy-deletion priority queue loop, the result dictionaries. Proof: invariant of Dijkstra's algorithm with stale queue entries, with the number of unprocessed arcs as measure; ids translated to names.")
_g(["C102"], "Model: queue, visited set, calls of the operation (which answers or raises depending on the calls so far). Proof: simulation by the modelled Python search with an operation that never answers false, so C58 carries over.")
_g(["C103"], "Model: rows of truth values, edge objects with a freed mark, hash table iteration as an oracle. Proof: representation relation with the abstract digraph and the set of edges whose object was handed out; induction over histories.")
_g(["C104"], "Model: the priority queue with an oracle for ties, the new graph that shares nodes with the input. Proof: invariant with the cut property of minimum spanning forests (Props/Mst, as in C64); the number of queued entries and pending edges as measure.")
_g(["C105"], "Model: the C++ methods with reads and writes outside the buffer as errors. Proof: they agree with the modelled Python methods wherever these do not raise, so the lemmas of C27 and C29 carry over; induction over histories.")
_g(C(106, 108), "Model: the C++ tree with reads of empty or missing cells and None as an index as undefined behaviour, keys as objects with identity, the recorded and the real size of the array. Proof: whatever the modelled Python method returns, the C++ method returns (simulation), so C72, C73, C75, C76 carry over; select and the first LCA algorithm separately.")
_g(["C109"], "Model: the C++ traversals with std::stack and std::queue as lists. Proof: simulation by the Python traversals, so C74 carries over.")
_g(["C110"], "Model: the C++ methods with `long` arithmetic (overflow undefined) and the pending-exception flag. Proof: no intermediate value exceeds the sum of the absolute values, so they proceed like the modelled Python methods and the lemmas of C48 apply; induction over histories.")
_g(["C111"], "Model: the C++ rotations and balancing with positions as objects (a new object differs from the one in the tree exactly above 256). Proof: up to 257 nodes the C++ method returns what the modelled Python method returns, so C77 carries over; for any number of nodes and any objects an induction along the walk shows that every step is settled or rotates once and keeps keys, order, heights and sizes. The unbalanced tree is evaluated by the kernel in five pieces.")
_g(["C112"], "Model: the C++ deletion with its balancing walk. Proof: simulation by the modelled Python methods (C85) for histories that never contract the array; array length and counters are preserved by all rotations.")
_g(["C113"], "Model: RedBlackTree.hpp insert and its repair loop, function by function. Proof: whatever the modelled Python method returns, the C++ method returns, so C78 carries over.")
_g(["C114"], "Model: RedBlackTree.hpp delete with all cases of the repair. Proof: unconditional simulation by the modelled Python delete (Lemmas/CppContract, CppRbDelete: also when the array contracts), so C84 carries over.")
_g(["C115", "C116"], "Model: SplayTree.hpp splay, insert, delete, function by function. Proof: simulation by the modelled Python methods, with the invariant that an array built by insertions is filled from the front and at least half full; so C79 and C88 carry over.")
_g(["C117", "C118"], "Model: SplayTree.hpp split, _pre_order, join with the recorded array size. Proof: unconditional simulation of split; simulation of join for arrays filled from the front; so C89 and C90 carry over. The insert that never ends is shown by induction on the fuel.")
_g(["C119", "C120"], "Model: CartesianTree.hpp and Treap.hpp function by function, with the conversion of integer priorities to doubles (rounding to 53 digits, ties to even). Proof: simulation by the modelled Python methods run on the stored priorities; so C80 and C86 carry over. A double holds integers up to 2^53 exactly; the witness beyond is two priorities that become equal.")
_g(["C121"], "Model: ArrayForTrees append, delete, _modify (Python and C++). Proof: the first loop lists the live nodes and numbers their keys, so that looking up the key of a link gives the number of live cells in front of it, which is strictly monotone; the C++ loops simulate the Python ones whatever size is recorded. Used to carry the Cartesian tree through contractions (C86, C120).")
_g(["C122", "C123"], "Model: the attributes of the two modules with their numbers of arguments, and every entry point: name built, attribute looked up, called. Proof: a string put between a prefix and a suffix equals an attribute exactly if it is the part of that attribute between them, so the strings that reach an attribute form a finite table, computed once; everything else is not found. For find joined with C50 to C53.")
_g(["C124"], "Model: the loops of the modelled functions count their tests (fuel), so a bound on the steps is a statement about the fuel. Proof: the range halves, the index at least doubles or halves, the lowest bit moves up; for disjoint sets the invariant that a key n links below its root is in a set of at least 2^n keys.")
_g(["C125"], "Model: the Python and the C++ functions, modelled separately (see C01 to C05, C15 to C20, C29, C48, C56, C72 to C88 and C96 to C120). Proof: simulation; wherever the Python program ends without exception, the C++ program makes the same steps on the same array, so the trees agree node by node; the graphs through their common specification.")

_g(["C126"], "Model: the loops of the modelled tree operations count their rounds (fuel). Proof: every loop follows one path of the tree, so its rounds are bounded by the height; the height is bounded by the balance of the AVL tree (Fibonacci) and by the colouring of the red-black tree; the bounds are carried through the history.")

_g(["C127"], "Model: the sorts of C01 to C09, C12, C14 and C91. Proof: a sorted rearrangement of a range is unique when there are no ties, and unique among the stable ones otherwise.")
_g(["C128"], "Model: next_permutation (C23) called by a client loop. Proof: every call steps to the next arrangement in lexicographic order; the number of greater arrangements decreases.")
_g(["C129"], "Model: the four algorithms of C65 to C67 and C83. Proof: each is related to the same specification of distances, which is unique.")
_g(["C130"], "Model: the trees of C72 to C86. Proof: each tree carries the last datum of every inserted key in search order; the observations are determined by that.")
_g(["C131"], "Model: the three queues of C34 to C36. Proof: what they answer is determined by the specification when only equal entries tie.")
_g(["C132"], "Model: the four algorithms of C50 to C53. Proof: from the exact outcome of each.")
_g(["C133"], "Model: the C++ functions of the array with 64-bit indices and the instance check. Proof: every call acts like a call on a list, induction over the history.")
_g(["C134"], "Model: the same functions with the increments and decrements of reference counts they do. Proof: the difference between the references owned and the cells that hold an object is an invariant; the dynamic array moves or drops cells only.")
_g(["C135"], "Model: the algorithms of C63, C64 and C104. Proof: two minimum spanning forests have the same weight; by an exchange along the path of one in the cut of the other, the same edges if the costs are distinct; the entries of get_edge sum to twice the weight.")
_g(["C136"], "Model: the two algorithms of C68. Proof: the search of Dinic keeps one parent per vertex, so that a phase has one path, that of Edmonds-Karp; the depth first search passes its room in the same order and fills it, the loops are equal for every number of steps.")
_g(["C137"], "Model: the two algorithms of C69 and C70. Proof: from their exact outcomes.")
_g(["C138"], "Model: the constructors that choose by name, the shared array as a component of both objects. Proof: C47, and an invariant that the array of the segment tree is the specified one.")
_g(["C139"], "Model: the tree before and after build; the loop of build on the empty array with integer bounds. Proof: invariant over the calls (C46); on the empty array the top of the stack is always a node (0, -1) without children.")
_g(["C140"], "Model: __new__ with integer dimensions, shape, fill. Proof: the quotients of the suffix products are the dimensions (induction); loop invariant for fill.")
_g(["C141"], "Both passes of `__str__` are modelled with their two dictionaries (node to row, key to column) and the matrix with Python's indices; the loops go through the levels by the invariant of C43, extended by: the sentinels at the right end have no successor, only lowest nodes have data, the top level is not empty. The text is then computed by induction on the matrix.")
_g(["C142"], "Composition of C127 with C15 to C19: a sorted arrangement of an array without None is a sorted permutation of its values; the position that separates the smaller values from the others is their number, by induction on the array.")
_g(["C143"], "The three constructors are modelled as functions from the name; the step functions are those of C29 to C36, so the traces reduce to the two specifications, which differ only in peek of the empty stack (induction on the history).")
_g(["C144"], "from C58, C59, C61, C62 and C69: a digraph is acyclic exactly if its classes of mutual reachability are single vertices without loops")
_g(["C145"], "from C58, C59, C65 and C67: a vertex is reachable exactly if there is a walk of some weight to it, and with unit weights the weight of a walk is its number of edges")
_g(["C146"], "from C47, C48 and C110: every answer is the sum of the elements l, …, r of the array as updated so far")
_g(["C147"], "from C43, C127, C130 and C131: each of them leaves the keys rearranged and in order, and a list of different keys has only one such arrangement")
_g(["C148"], "model front, rear and __str__ of ArrayQueue; strengthen the invariant of C32 by what is known of an empty queue and carry it through every history; refute the statement for the empty queue")
_g(["C149"], "add to the invariant of C69 that the components completed so far are closed under edges and that none reaches a later one; singletons and no loops when there is no cycle, hence the reversed list is a topological order")
_g(["C150"], "a spanning forest without the edge would be a path around the bridge; conversely extend the forest of the other edges; apply to the forest that each of the seven results shows (C135)")
_g(["C151"], "the sorted copy is unique; the subsequences common to a list and its sorted copy are exactly its non-decreasing subsequences")
_g(["C152"], "the field is a cell with a conversion in and out; histories by induction, one assignment by cases on the value")
_g(["C153"], "refinement to a map, by induction over the history; the Python theorem with a converse")
_g(["C154"], "the constructors are modelled one by one; the loop of the C++ wrapper by induction; equality with add_vertex by induction, with a converse")
_g(["C155"], "the constructors of both back ends as functions; the first insertion of each class evaluated symbolically in key, datum and comparator; witnesses for the classes whose nodes have more fields")
_g(["C156"], "heap order alone is an invariant of merging, whatever the orders of the trees; contents as multisets; induction over the history")
_g(["C157"], "the heap together with the list of the caller, and whether root_list is still that object; induction over the history")
_g(["C158"], "construction of both heaps on shared nodes, reduced to the construction of C37 and its invariant")
