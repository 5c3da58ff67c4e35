p("Red-black delete keeps the tree ordered and coloured", "After any history of inserts and deletes the RedBlackTree is a search tree over the keys that were inserted after their last delete, with the red-black colouring rules and logarithmic height; delete returns True exactly when the key was present, and no operation raises.", "every history of inserts and deletes", HIST, T+"binary_trees.py:RedBlackTree.delete", T+"binary_trees.py:RedBlackTree.insert")
p("AVL delete keeps the tree ordered, balanced and ranked", "After any history of inserts and deletes the AVLTree is a search tree over the keys that were inserted after their last delete, in every node the depths of the two subtrees differ by at most one and the node stores its height, and with order statistics select and rank count the present keys; delete returns True exactly when the key was present, and no operation raises.", "every history of inserts and deletes, with or without order statistics", HIST, T+"binary_trees.py:AVLTree.delete", T+"binary_trees.py:AVLTree._balance_deletion", T+"binary_trees.py:BinarySearchTree.delete")
p("Cartesian tree and treap delete keeps search and heap order", "After any history of inserts and deletes a CartesianTree (or Treap, whatever priorities are drawn) is a search tree over the keys that were inserted after their last delete, no node has a smaller priority than its parent, and every node keeps the priority given with its key; delete returns True exactly when the key was present, and no operation raises.", "every history of inserts and deletes, every choice of priorities", HIST, T+"binary_trees.py:CartesianTree.delete", T+"binary_trees.py:CartesianTree._trickle_down", T+"binary_trees.py:Treap")
p("A comparison supplied by the user decides the order", "A binary search tree built with comp=f is a search tree for f: after any history of inserts the in-order traversal lists the keys in the order of f, search finds exactly the inserted keys with the data inserted last, and the bounds are the least keys at or above their argument in the order of f.", "every comparison function f, every history of inserts", HIST, T+"binary_trees.py:BinaryTree.__new__", T+"binary_trees.py:BinarySearchTree.insert", T+"binary_trees.py:BinarySearchTree.search", T+"binary_trees.py:BinarySearchTree.lower_bound")
p("Splay tree delete keeps the search order", "After any history of inserts and deletes a SplayTree is a search tree over the keys that were inserted after their last delete, and the key inserted last is at the root if no delete followed; delete returns True exactly when the key was present, and no operation raises.", "every history of inserts and deletes", HIST, T+"binary_trees.py:SplayTree.delete", T+"binary_trees.py:SplayTree.insert", T+"binary_trees.py:SplayTree.splay")
p("Splitting a splay tree divides its entries at the key", "For a SplayTree built by any history of inserts of distinct keys, split(x) leaves exactly the entries with keys not greater than x in the tree and returns a SplayTree with exactly the entries with greater keys: searches and in-order traversals of both answer accordingly, and the returned tree can be used further.", "every history that builds the tree, every x (present or not), every later history on the returned tree", HIST, T+"binary_trees.py:SplayTree.split", T+"binary_trees.py:SplayTree.splay")
p("Joining two splay trees unites their entries", "For two SplayTrees that are not empty, built by any histories of inserts of distinct keys: if every key of the first is less than every key of the second, join makes the first tree answer searches and the in-order traversal for all entries of both; otherwise it raises ValueError.", "every pair of histories that build the trees", HIST, T+"binary_trees.py:SplayTree.join", T+"binary_trees.py:SplayTree.splay")
p("Bubble, insertion, cocktail and merge sort are stable", "With a comparator that holds exactly when its first argument may come first (such as the default), bubble_sort, insertion_sort, cocktail_shaker_sort and merge_sort_parallel keep elements that the order does not separate in their original sequence; brick_sort and brick_sort_parallel do so with a strict comparator, whatever the order of the jobs.", "every array with None cells, every range, every total preorder with such a comparator, every schedule of the parallel jobs of a phase", "Stability is about every tie pattern in every array; a test only sees the ties it was written with, and elements that compare equal are usually indistinguishable in tests.", L+"algorithms.py:bubble_sort", L+"algorithms.py:insertion_sort", L+"algorithms.py:cocktail_shaker_sort", L+"algorithms.py:merge_sort_parallel", L+"algorithms.py:brick_sort", L+"algorithms.py:brick_sort_parallel")
p("quick_sort sorts whatever pivots are picked", "With any function pick_pivot_element that returns an element of the current range, quick_sort ends without exception and leaves the range a sorted permutation of itself, everything outside untouched.", "every array with None cells, every range, every total preorder, every pivot function", "The pivot function is supplied by the user and is called on every sub-range that arises; a test can only try a few of them.", L+"algorithms.py:quick_sort")
p("Sorting a dynamic array compacts and orders its live elements", "After any history of appends, deletes and sorts on a DynamicOneDimensionalArray, sorting it leaves exactly the live elements, in order, at the positions from 0, and later appends and deletes work as before; iterating it in reverse visits the live elements backwards.", "every history of appends, deletes and sorts, every sorting function of the library, every total preorder", HIST, L+"arrays.py:DynamicOneDimensionalArray._modify", L+"arrays.py:DynamicOneDimensionalArray.__reversed__", L+"algorithms.py:merge_sort_parallel", L+"algorithms.py:bubble_sort", L+"algorithms.py:quick_sort", L+"algorithms.py:heapsort")
p("bubble_sort with the LLVM back end sorts", "bubble_sort(array, start=…, end=…, dtype=…, backend=Backend.LLVM) ends without exception and leaves the range a sorted permutation of itself with the None cells last, everything outside untouched; a value that does not fit the element type is an OverflowError, and a comparator is refused.", "every array of integers with None cells, every range, every element type, every history of earlier LLVM sorts in the process", "The machine code is generated once and cached; that it sorts every array, with no read outside the buffer and no overflowing index, is a statement about all lengths and values.", L+"_backend/cpp/algorithms/llvm_algorithms.py:_build_bubble_sort_ir", L+"_backend/cpp/algorithms/llvm_algorithms.py:get_bubble_sort_ptr", L+"_backend/cpp/algorithms/quadratic_time_sort.hpp:bubble_sort_llvm")
p("selection_sort with the LLVM back end sorts", "selection_sort(array, start=…, end=…, dtype=…, backend=Backend.LLVM) ends without exception and leaves the range a sorted permutation of itself with the None cells last, whatever was called before.", "every array of integers with None cells, every range, every element type, every history of earlier LLVM sorts in the process", "What a call executes depends on what earlier calls left in a process-wide cache; a test sees one history.", L+"_backend/cpp/algorithms/llvm_algorithms.py:_build_selection_sort_ir", L+"_backend/cpp/algorithms/llvm_algorithms.py:get_selection_sort_ptr", L+"_backend/cpp/algorithms/quadratic_time_sort.hpp:selection_sort_llvm")
CPP = L + "_backend/cpp/algorithms/"
p("The C++ quadratic sorts sort", "bubble_sort, selection_sort and insertion_sort with backend=Backend.CPP end without exception and leave the range a sorted permutation of itself (None cells last), everything outside untouched.", "every array with None cells, also empty ones, every range, every total preorder and compatible comparator", "Loop bounds are unsigned machine integers; whether they wrap around depends on lengths and ranges a test does not enumerate.", CPP+"quadratic_time_sort.hpp:bubble_sort_impl", CPP+"quadratic_time_sort.hpp:selection_sort_impl", CPP+"quadratic_time_sort.hpp:insertion_sort_impl", "utils/_backend/cpp/utils.hpp:_comp")
p("The C++ quick sort sorts", "quick_sort with backend=Backend.CPP ends and leaves the range a sorted permutation of itself (None cells last), everything outside untouched.", "every array with None cells, every range, every total preorder and compatible comparator", "Whether the loop ends depends on the arrangement of the whole range; the arrays in the tests happen to be benign.", CPP+"quick_sort.hpp:quick_sort_impl", CPP+"quick_sort.hpp:quick_sort_partition")
p("The C++ searches find exactly the values that are there", "With backend=Backend.CPP, linear_search answers the least position of the range that holds the value, binary_search and jump_search on a non-empty sorted range (None cells last) answer a position of the range that holds the value; all answer None exactly when the value is not in the range, and no machine integer overflows.", "every array of less than 2^30 cells, every range, every value including None, every total order and compatible comparator", "A statement about every value, present or absent, in every sorted array, and about every intermediate machine integer.", CPP+"misc_algorithms.hpp:linear_search", CPP+"misc_algorithms.hpp:binary_search", CPP+"misc_algorithms.hpp:jump_search")
p("The C++ is_ordered answers whether the range is sorted", "is_ordered with backend=Backend.CPP returns True exactly when the elements of the range that are not None are in order.", "every array with None cells, every range, every total preorder and compatible comparator", "It must be right for every arrangement, in particular for ties and None cells anywhere.", CPP+"misc_algorithms.hpp:is_ordered_impl")
CG = G + "_backend/cpp/"
p("A C++ adjacency-list graph is a labelled digraph", "After any history of add_vertex, remove_vertex, add_edge and remove_edge, a Graph with backend=Backend.CPP and implementation adjacency_list answers num_vertices, num_edges, is_adjacent, neighbors and get_edge like the set of vertices and costed edges built by the same history; calls that name unknown vertices raise, and change nothing.", "every history, every iteration order of the hash tables", HIST, CG+"AdjacencyList.hpp:AdjacencyListGraph_add_edge", CG+"AdjacencyList.hpp:AdjacencyListGraph_remove_vertex", CG+"AdjacencyList.hpp:AdjacencyListGraph_get_edge", CG+"AdjacencyList.hpp:AdjacencyListGraph_num_edges")
p("The C++ Dijkstra computes shortest distances", "shortest_paths(graph, 'dijkstra', source) with backend=Backend.CPP ends and returns, for every vertex, the length of a shortest walk from the source over the edges with a value that is not negative (infinite if there is none) and predecessors that describe walks of these lengths; with a target it returns the distance of the target.", "every graph built by any history of operations, every source and target, every iteration order of the hash tables", "Optimality ranges over all walks in all graphs, and the vectors of the function are indexed by ids that depend on the whole history.", CG+"Algorithms.hpp:shortest_paths_dijkstra_adjacency_list")
p("The C++ breadth first search visits every reachable vertex once, level by level", "breadth_first_search(graph, source, operation, *args) with backend=Backend.CPP calls operation(node, next, *args) exactly once for every vertex that can be reached from the source (other than the source), in the order of the distances and from a node one step closer; a false answer ends the search, an exception of the operation ends it and is propagated; an unknown source raises.", "every graph built by any history of operations on either implementation, every source, every operation that does not change the graph, every iteration order of the hash tables", "The order and completeness of the calls is a statement about all graphs and all answers of a user supplied function.", CG+"Algorithms.hpp:breadth_first_search_adjacency_list", CG+"Algorithms.hpp:breadth_first_search_adjacency_matrix")
p("A C++ adjacency-matrix graph is a labelled digraph on its fixed vertices", "After any history of add_edge and remove_edge, a Graph with backend=Backend.CPP and implementation adjacency_matrix answers num_vertices, num_edges, is_adjacent, neighbors and get_edge like the set of vertices and costed edges built by the same history; a call that raises changes nothing.", "every list of distinct vertex names, every history, every iteration order of the hash tables", HIST, CG+"AdjacencyMatrix.hpp:AdjacencyMatrixGraph_add_edge", CG+"AdjacencyMatrix.hpp:AdjacencyMatrixGraph_remove_edge", CG+"AdjacencyMatrix.hpp:AdjacencyMatrixGraph_get_edge", CG+"AdjacencyMatrix.hpp:AdjacencyMatrixGraph_num_edges")
p("The C++ Prim returns a minimum spanning tree", "minimum_spanning_tree(graph, 'prim') with backend=Backend.CPP on an undirected graph (every edge added in both directions with the same value) ends and returns a graph whose vertices are those connected to the first vertex and whose edges, in both directions, form a spanning tree of least total value of that part; the input graph is unchanged and the result can be used like any other graph.", "every undirected graph built by any history of operations, every iteration order of the hash tables, every choice the priority queue makes among equal values", "Minimality ranges over all spanning trees of all graphs, and ties are resolved by the standard library in an unspecified way.", CG+"Algorithms.hpp:minimum_spanning_tree_prim_adjacency_list")
p("The C++ dynamic array and array stack keep their elements in order", "With backend=Backend.CPP, a DynamicOneDimensionalArray keeps its elements as a sequence under append and delete across every growth and contraction, and an array Stack answers push, pop, peek, len and is_empty as a list; pop and peek on an empty stack raise IndexError; the buffer is never left.", "every history of calls, objects of every kind, every load factor", HIST, L+"_backend/cpp/arrays/DynamicOneDimensionalArray.hpp:DynamicOneDimensionalArray__modify", L+"_backend/cpp/arrays/DynamicOneDimensionalArray.hpp:DynamicOneDimensionalArray_append", L+"_backend/cpp/arrays/DynamicOneDimensionalArray.hpp:DynamicOneDimensionalArray_delete", M+"_backend/cpp/stack/ArrayStack.hpp:ArrayStack_pop", M+"_backend/cpp/stack/ArrayStack.hpp:ArrayStack_push")
CT = T + "_backend/cpp/"
p("The C++ binary search tree finds what was inserted", "After any history of inserts, a BinarySearchTree with backend=Backend.CPP (with the default or a supplied strict comparison) answers search with the data inserted last for every key that compares equal to an inserted one, lists the keys in order, answers lower_bound and upper_bound with the least key at or above and above, and, with order statistics, select and rank count in the order of the keys.", "every history of inserts, every key, every strict total comparison", HIST, CT+"BinarySearchTree.hpp:BinarySearchTree_insert", CT+"BinarySearchTree.hpp:BinarySearchTree_search", CT+"BinarySearchTree.hpp:BinarySearchTree__bound_helper", CT+"BinarySearchTree.hpp:BinarySearchTree_select", CT+"BinarySearchTree.hpp:BinarySearchTree_rank")
p("Deleting from the C++ binary search tree", "After any history of inserts and deletes, a BinarySearchTree with backend=Backend.CPP answers searches and the in-order traversal for exactly the keys that were inserted after their last delete; delete returns True exactly when the key was present, and no call leaves the memory of the tree.", "every history of inserts and deletes", HIST, CT+"BinarySearchTree.hpp:BinarySearchTree_delete", L+"_backend/cpp/arrays/ArrayForTrees.hpp:ArrayForTrees__modify", L+"_backend/cpp/arrays/ArrayForTrees.hpp:ArrayForTrees_append")
p("The C++ lowest common ancestor", "After any history of inserts, lowest_common_ancestor(j, k) with backend=Backend.CPP and either algorithm answers the key of the deepest node that has both as descendants if both were inserted, and raises ValueError otherwise.", "every history of inserts, every pair of keys, both algorithms", "Which node is deepest depends on the whole shape; the tests use one small tree with keys that the interpreter shares.", CT+"BinarySearchTree.hpp:BinarySearchTree__lca_1", CT+"BinarySearchTree.hpp:BinarySearchTree__lca_2", CT+"BinarySearchTree.hpp:BinarySearchTree__simple_path")
p("The C++ traversals visit every node once in their order", "BinaryTreeTraversal with backend=Backend.CPP: pre-, in-, post-, out-order and breadth first traversal from any node of a binary tree end and return exactly the nodes of its subtree, each once, in the order the name says.", "every binary tree, every start node", "Termination and completeness are statements about all shapes of trees.", CT+"BinaryTreeTraversal.hpp:BinaryTreeTraversal__pre_order", CT+"BinaryTreeTraversal.hpp:BinaryTreeTraversal__in_order", CT+"BinaryTreeTraversal.hpp:BinaryTreeTraversal__post_order", CT+"BinaryTreeTraversal.hpp:BinaryTreeTraversal_breadth_first_search")
p("The C++ Fenwick tree answers prefix sums under updates", "With backend=Backend.CPP, after any history of updates BinaryIndexedTree.get_sum(l, r) equals the sum of the current values in l..r, an update outside the array raises IndexError and changes nothing.", "every integer array and update history", "The sums are computed in machine integers along paths that depend on every bit of the index; a test sees a few small values.", CT+"BinaryIndexedTree.hpp:BinaryIndexedTree_update", CT+"BinaryIndexedTree.hpp:BinaryIndexedTree_get_prefix_sum", CT+"BinaryIndexedTree.hpp:BinaryIndexedTree_get_sum", CT+"BinaryIndexedTree.hpp:BinaryIndexedTree___new__")
p("The C++ AVL tree is balanced and finds what was inserted", "After any history of inserts, an AVLTree with backend=Backend.CPP answers search with the data inserted last for every inserted key, lists the keys in order, answers lower_bound, upper_bound and, with order statistics, select and rank in the order of the keys, stores the height of every node, and sibling subtrees differ in height by at most one, so that the height is logarithmic.", "every history of inserts, of every length, every strict total comparison", "Balance depends on the whole history, and positions are compared by object identity, which changes behaviour only beyond 257 nodes; no test is that long.", CT+"AVLTree.hpp:AVLTree_insert", CT+"AVLTree.hpp:AVLTree__balance_insertion", CT+"SelfBalancingBinaryTree.hpp:SelfBalancingBinaryTree__left_rotate")
p("Deleting from the C++ AVL tree", "After any history of inserts and deletes, an AVLTree with backend=Backend.CPP answers searches, in-order traversal and, with order statistics, select and rank for exactly the keys present, stores the height of every node and is balanced; delete returns True exactly when the key was present.", "every history of inserts and deletes", HIST, CT+"AVLTree.hpp:AVLTree_delete", CT+"AVLTree.hpp:AVLTree__balance_delete", CT+"BinarySearchTree.hpp:BinarySearchTree_delete")
p("The C++ red-black tree is balanced and finds what was inserted", "After any history of inserts, a RedBlackTree with backend=Backend.CPP answers search with the data inserted last for every inserted key, lists the keys in order and answers lower_bound and upper_bound; every node is black or red, the root is black, no red node has a red child and all ways down pass the same number of black nodes, so that the height is logarithmic.", "every history of inserts, every strict total comparison", HIST, CT+"RedBlackTree.hpp:RedBlackTree_insert", CT+"RedBlackTree.hpp:RedBlackTree___fix_insert", CT+"SelfBalancingBinaryTree.hpp:SelfBalancingBinaryTree__left_rotate")
p("Deleting from the C++ red-black tree", "After any history of inserts and deletes, a RedBlackTree with backend=Backend.CPP answers searches and the in-order traversal for exactly the keys present and is a red-black tree; delete returns True exactly when the key was present.", "every history of inserts and deletes", HIST, CT+"RedBlackTree.hpp:RedBlackTree_delete", CT+"RedBlackTree.hpp:RedBlackTree___fix_deletion", CT+"RedBlackTree.hpp:RedBlackTree__transplant_values")
p("The C++ splay tree finds what was inserted", "After any history of inserts, a SplayTree with backend=Backend.CPP has the key inserted last at the root, lists the inserted keys in order with the data inserted last, and answers search, lower_bound and upper_bound for exactly those keys.", "every history of inserts, every strict total comparison", HIST, CT+"SplayTree.hpp:SplayTree_insert", CT+"SplayTree.hpp:SplayTree_splay")
p("Deleting from the C++ splay tree", "After any history of inserts and deletes, a SplayTree with backend=Backend.CPP answers searches and the in-order traversal for exactly the keys present; delete returns True exactly when the key was present.", "every history of inserts and deletes", HIST, CT+"SplayTree.hpp:SplayTree_delete", CT+"SplayTree.hpp:SplayTree_splay", CT+"BinarySearchTree.hpp:BinarySearchTree_delete")
p("Splitting a C++ splay tree", "split(x) on a SplayTree with backend=Backend.CPP leaves the entries with keys up to x in the tree and returns a tree with the greater ones, which can be used further.", "every tree built by inserts and deletes and every x", HIST, CT+"SplayTree.hpp:SplayTree_split", CT+"SplayTree.hpp:SplayTree__pre_order")
p("Joining C++ splay trees", "join(other) on a SplayTree with backend=Backend.CPP makes the tree serve the entries of both when all its keys are less than those of the other, and raises ValueError otherwise.", "every pair of trees that are not empty", HIST, CT+"SplayTree.hpp:SplayTree_join")
p("C++ Cartesian trees and treaps: search order and heap order", "After any history of insert(key, priority, data) calls a CartesianTree with backend=Backend.CPP lists the inserted keys in order with the data and the priority given last, answers search for exactly those keys, and no node has a smaller priority than a node above it; likewise a Treap for every outcome of rand().", "every history of inserts, every integer priority, every strict total comparison, every sequence of random numbers", "Priorities are stored as C doubles and the shape depends on all of them; a test uses a handful of small ones.", CT+"CartesianTree.hpp:CartesianTree_insert", CT+"CartesianTree.hpp:Cartesian_Tree__bubble_up", CT+"Treap.hpp:Treap_insert")
p("Deleting from C++ Cartesian trees and treaps", "After any history of inserts and deletes a CartesianTree or Treap with backend=Backend.CPP answers searches and the in-order traversal for exactly the keys present and is a heap for the priorities; delete returns True exactly when the key was present.", "every history of inserts and deletes", HIST, CT+"CartesianTree.hpp:CartesianTree_delete", CT+"CartesianTree.hpp:Cartesian_Tree__trickle_down", CT+"BinarySearchTree.hpp:BinarySearchTree_delete")

p("The array of a tree keeps every other node when one is removed", "delete(i) of ArrayForTrees, in Python and in C++, keeps every node but the one at i: if less than a quarter of the cells remains in use the nodes move to the front in the same order, every left, right and parent link leads to the same node as before, and the dictionary returned maps every remaining key to its new position; otherwise no node moves and None is returned.", "every array of tree nodes with distinct keys, every position, every length", "Whether the array contracts, and which nodes move, depends on the whole history of insertions and deletions.", "pydatastructs/linear_data_structures/arrays.py:ArrayForTrees._modify", "pydatastructs/linear_data_structures/arrays.py:DynamicOneDimensionalArray.delete", "pydatastructs/linear_data_structures/_backend/cpp/arrays/ArrayForTrees.hpp:ArrayForTrees__modify")
p("An algorithm name selects the algorithm it stands for, or is refused", "For minimum_spanning_tree, minimum_spanning_tree_parallel, strongly_connected_components, shortest_paths, all_pair_shortest_paths, topological_sort, topological_sort_parallel and max_flow: a documented name given as algorithm runs the algorithm it stands for, and every other string raises NotImplementedError before anything is done to the graph; breadth and depth first search exist for both implementations of graphs.", "every string given as algorithm, both implementations, both back ends", "The name of a function is built from the string and looked up in the whole module; a test tries a handful of strings out of infinitely many.", G+"algorithms.py:minimum_spanning_tree", G+"algorithms.py:shortest_paths", G+"algorithms.py:all_pair_shortest_paths", G+"algorithms.py:topological_sort", G+"algorithms.py:max_flow", G+"algorithms.py:strongly_connected_components")
p("find answers all positions of the query or refuses the algorithm name", "find(text, query, algorithm) returns exactly the positions where the query occurs for every name it accepts, and raises NotImplementedError for every other string that does not start with an underscore.", "every string given as algorithm, every text and every query that is not empty", "The name of a function is built from the string and looked up in the whole module, helper functions included; a test tries a handful of strings.", S+"algorithms.py:find")
p("Logarithmic operations take logarithmically many steps", "binary_search, lower_bound and upper_bound in m elements look at no more than log2(m) + 1 of them, whatever the contents; insert and extract of a heap of n elements whose nodes have at least two children move an element by no more than log2(n + 1) levels; a binomial heap of n elements has no more than log2(n) + 1 trees; prefix sums and updates of a Fenwick tree of n elements touch no more than log2(n) + 1 cells; find_root of a key in a set of m keys follows no more than log2(m) links as long as make_root is not called.", "every array, heap, tree and every history of calls, of any size", "A time bound is a claim about inputs of every size; a test measures a few sizes.", L+"algorithms.py:binary_search", L+"algorithms.py:lower_bound", L+"algorithms.py:upper_bound", T+"heaps.py:DHeap.insert", T+"heaps.py:DHeap.extract", T+"heaps.py:BinomialHeap", T+"binary_trees.py:BinaryIndexedTree", M+"disjoint_set.py:DisjointSetForest.find_root", M+"disjoint_set.py:DisjointSetForest.make_root")
p("Choosing the C++ back end does not change the answers", "bubble_sort, selection_sort, insertion_sort, quick_sort, linear_search, binary_search and is_ordered, the array stack, the binary indexed tree, the search trees (binary search tree, AVL, red-black, splay and Cartesian tree, treap) and adjacency-list graphs give, call by call, the same results with backend=Backend.CPP as with backend=Backend.PYTHON; trees even have the same nodes in the same positions of their arrays.", "every array, comparator and range, every history of calls", "The two back ends are separate programs; equality on a few inputs says nothing about the others, and equality of histories is a claim about all of them.", CPP+"quadratic_time_sort.hpp:bubble_sort", CPP+"quick_sort.hpp:quick_sort", CT+"BinarySearchTree.hpp:BinarySearchTree_insert", CT+"BinarySearchTree.hpp:BinarySearchTree_delete", CT+"RedBlackTree.hpp:RedBlackTree_insert", CG+"AdjacencyList.hpp:AdjacencyListGraph_add_edge", L+"algorithms.py:bubble_sort", T+"binary_trees.py:BinarySearchTree.insert", G+"adjacency_list.py:AdjacencyList.add_edge")
p("Balanced search trees work in logarithmic time", "In an AVLTree into which keys from a set of n keys are inserted, in any order and however often, no loop of insert, search, lower_bound, upper_bound and, with order statistics, select and rank takes more than 1.5 log2(n + 1) + 3 rounds; in a RedBlackTree into which n different keys are inserted, no loop of insert, search, lower_bound and upper_bound takes more than 2 log2(n + 1) + 4 rounds.", "every history of insertions of any length, every key looked up and every strict total comparison", "A time bound is a claim about trees of every size built by every history; a test measures a few.", T+"binary_trees.py:AVLTree.insert", T+"binary_trees.py:RedBlackTree.insert", T+"binary_trees.py:BinarySearchTree.search", T+"binary_trees.py:BinarySearchTree.lower_bound", T+"binary_trees.py:BinarySearchTree.select", T+"binary_trees.py:BinarySearchTree.rank")
p("The choice of the sorting algorithm does not matter", "When no two different values of the range are equivalent under the comparator, bubble, selection, insertion, merge, quick (default pivot), heap, shell, intro and cocktail shaker sort all leave the same array behind, sorting twice is sorting once, and the arrangement before does not matter; with equivalent values this holds for the stable sorts. counting_sort and radix_sort agree with them on integers.", "every array, range, comparator of a total preorder, depth limit and threshold of intro_sort and schedule of the parallel brick sort", "Agreement of different programs on all inputs; comparing outputs on samples does not show it.", L+"algorithms.py:bubble_sort", L+"algorithms.py:selection_sort", L+"algorithms.py:merge_sort_parallel", L+"algorithms.py:quick_sort", L+"algorithms.py:heapsort", L+"algorithms.py:intro_sort", L+"algorithms.py:counting_sort", L+"algorithms.py:radix_sort")
p("next_permutation steps through all arrangements", "The client loop that begins with the sorted arrangement and calls next_permutation until it answers False meets every arrangement of the values exactly once, in lexicographic order, n! of them when the n values are different; begun elsewhere it meets exactly the arrangements from there on. When the values are different, prev_permutation undoes next_permutation.", "every list of values, with repetitions or not, of any length, and every strict total comparison", "The number of arrangements grows as n!; a test enumerates them for a few small n.", L+"algorithms.py:next_permutation", L+"algorithms.py:prev_permutation")
p("The shortest path algorithms agree", "Without a negative cycle, Bellman-Ford from each vertex and Floyd-Warshall answer the same distances; with non-negative weights Dijkstra's algorithm too; Johnson's algorithm raises ValueError exactly when Bellman-Ford finds a negative cycle from some vertex, and otherwise answers the same.", "every weighted graph, pair of vertices and iteration order of the edge dictionary", "Agreement of different programs on all graphs; comparing outputs on samples does not show it.", G+"algorithms.py:_bellman_ford_adjacency_list", G+"algorithms.py:_floyd_warshall_adjacency_list", G+"algorithms.py:_dijkstra_adjacency_list", G+"algorithms.py:_johnson_adjacency_list")
p("The search trees are interchangeable", "After the same non-empty history of insertions, a BinarySearchTree, an AVLTree, a RedBlackTree, a CartesianTree or Treap (whatever the priorities) and, where its insertions are sound, a SplayTree show a client the same: search finds the same keys with the same data, lower_bound and upper_bound answer the same keys, and the in-order traversal lists the same keys and data.", "every non-empty history of insertions, keys repeated or not, every priority assignment and every strict total comparison", "Agreement of five programs over all histories; comparing outputs on samples does not show it.", T+"binary_trees.py:BinarySearchTree", T+"binary_trees.py:AVLTree", T+"binary_trees.py:RedBlackTree", T+"binary_trees.py:CartesianTree", T+"binary_trees.py:SplayTree", T+"binary_trees.py:BinaryTreeTraversal")
p("The priority queues are interchangeable, and each of them sorts", "On a history of push, pop, peek and is_empty calls in which entries with equivalent priorities are equal, the linked-list, binary-heap and binomial-heap priority queues give the same answers, call by call; pushing entries and popping them all returns the values in priority order with each of them.", "every history of calls, every total preorder of priorities and every strict or non-strict comparator for it", "Agreement of three programs over all histories; comparing outputs on samples does not show it.", M+"queue.py:LinkedListPriorityQueue", M+"queue.py:BinaryHeapPriorityQueue", M+"queue.py:BinomialHeapPriorityQueue")
p("The algorithms of find agree", "find(text, query, algorithm) returns the same positions for kmp, rabin_karp, boyer_moore and z_function.", "every text and query", "Agreement of four programs on all strings; a hash collision or a separator in the text does not turn up in samples.", S+"algorithms.py:_knuth_morris_pratt", S+"algorithms.py:_rabin_karp", S+"algorithms.py:_boyer_moore", S+"algorithms.py:_z_function")
p("A C++ one-dimensional array stores what it is given", "OneDimensionalArray with backend=Backend.CPP: a constructor makes the given cells or refuses them; reading a valid index returns the object last stored there, other indices raise IndexError (OverflowError beyond 64 bits); storing an object that is not an instance of the type is refused and changes nothing; fill and len behave like those of a list; on calls with valid indices and instances of the type the answers are those of the Python array.", "every constructor call, every history of reads, writes, fills and len calls", HIST, L+"_backend/cpp/arrays/OneDimensionalArray.hpp:OneDimensionalArray___new__", L+"_backend/cpp/arrays/OneDimensionalArray.hpp:OneDimensionalArray___setitem__", L+"_backend/cpp/arrays/OneDimensionalArray.hpp:OneDimensionalArray_fill")
p("The C++ arrays and stacks hold a reference for every cell and give it back", "No object stored in a C++ OneDimensionalArray, DynamicOneDimensionalArray or Stack is freed while a cell or the caller still refers to it, and once it is in no cell any more, or the array is gone, the array keeps no reference to it.", "every constructor call, every history of calls, every number of references held elsewhere", "A reference count that is wrong by one shows up only when an object happens to be freed; no assertion on results sees it.", L+"_backend/cpp/arrays/OneDimensionalArray.hpp:OneDimensionalArray___new__", L+"_backend/cpp/arrays/OneDimensionalArray.hpp:OneDimensionalArray_dealloc", L+"_backend/cpp/arrays/DynamicOneDimensionalArray.hpp:DynamicOneDimensionalArray_delete", "pydatastructs/miscellaneous_data_structures/_backend/cpp/stack/ArrayStack.hpp:ArrayStack_pop")
p("The minimum spanning tree algorithms agree", "On an undirected connected graph with costs and at least one edge, Kruskal and parallel Kruskal (adjacency list and matrix), Prim and parallel Prim, and Prim with backend=Backend.CPP return graphs in which get_edge shows the same total cost, which is the least possible; if no two edges have the same cost they show the same edges.", "every such graph, every number of threads, every iteration order of the C++ hash maps and every choice of the priority queue among equal entries", "Seven programs that choose edges in different orders; equality of the results rests on the theory of minimum spanning trees, not on samples.", G+"algorithms.py:_minimum_spanning_tree_kruskal_adjacency_list", G+"algorithms.py:_minimum_spanning_tree_kruskal_adjacency_matrix", G+"algorithms.py:_minimum_spanning_tree_prim_adjacency_list", G+"algorithms.py:_minimum_spanning_tree_parallel_kruskal_adjacency_list", G+"algorithms.py:_minimum_spanning_tree_parallel_prim_adjacency_list")
p("The maximum flow algorithms agree", "max_flow with 'edmonds_karp' and with 'dinic' returns the same value.", "every network with non-negative capacities", "Two loops over searches in a changing residual network; whether they find the same paths is a statement about all networks.", G+"algorithms.py:_max_flow_edmonds_karp_", G+"algorithms.py:_max_flow_dinic_")
p("The algorithms for strongly connected components agree", "strongly_connected_components with 'kosaraju' and with 'tarjan' returns the same sets of vertices, up to order.", "every directed graph", "Two different traversals; agreement on the sets is a statement about all digraphs.", G+"algorithms.py:_strongly_connected_components_kosaraju_adjacency_list", G+"algorithms.py:_strongly_connected_components_tarjan_adjacency_list")
p("Range query objects share the array of their caller", "RangeQueryStatic and RangeQueryDynamic refuse an empty array with ValueError and an unknown data_structure with NotImplementedError; with the supported ones no answer and no later content of the array passed to the constructor depends on which was chosen: update(i, x) makes the caller's array hold x at i exactly as array[i] = x does, and queries answer from it.", "every array, every name, every associative function, every history of updates and queries with looks at the caller's array in between (queries after updates with a negative index: see C47)", "Two objects over one shared array, one of which keeps a second copy in its nodes; a statement about all histories.", M+"algorithms.py:RangeQueryStatic", M+"algorithms.py:RangeQueryDynamic", M+"segment_tree.py:OneDimensionalArraySegmentTree.update")
p("A segment tree answers once it is built", "An ArraySegmentTree refuses query and update with ValueError until build is called; build ends, makes is_ready true, and calling it again changes nothing.", "every array and every history of build, update, query and is_ready calls in any order", "The order of the calls and the length of the array are arbitrary; whether build ends is a statement about all arrays.", M+"segment_tree.py:OneDimensionalArraySegmentTree.build", M+"segment_tree.py:OneDimensionalArraySegmentTree.is_ready", M+"segment_tree.py:ArraySegmentTree")
p("The shape of a multi-dimensional array", "MultiDimensionalArray(dtype, d1, ..., dk) refuses a dimension below 1 with ValueError, otherwise it has d1*...*dk cells holding None and shape is (d1, ..., dk); fill(x) makes every cell dtype(x) and keeps the shape, and if dtype(x) raises nothing changes.", "every list of integers as dimensions, every state of the array, every element and every conversion", "The number of dimensions and their sizes are arbitrary; shape is computed back from products.", L+"arrays.py:MultiDimensionalArray.__new__", L+"arrays.py:MultiDimensionalArray.shape", L+"arrays.py:MultiDimensionalArray.fill")
p("Skip list levels and text", "After any history of insertions, searches and extractions, `levels` is the number of levels of the skip list: the lowest level holds every element in order, each level holds some of the elements of the level below it, the highest is not empty when there are two or more, and there are at most one more than the insertions made. `str` ends and shows exactly these levels, the highest first, one line per level and one column per element, with the element where its node reaches the level and None elsewhere. (The full claim, that the lowest line shows every element, holds exactly when no key occurs twice.)", "every history of calls, every sequence of random bits, every total order of keys, every way of showing a node", "the levels depend on the random bits of all the insertions and on which towers were removed; tests fix one seed", L+"linked_lists.py:SkipList.__str__", L+"linked_lists.py:SkipList.levels", L+"linked_lists.py:SkipList._add_level")
p("Sort, then search", "After any of the sorting functions, the searches answer questions about the values that were in the array before: linear_search, binary_search and jump_search return a position that holds the value exactly if the value was among them and None otherwise, lower_bound returns how many of the values are smaller and upper_bound that number plus the number of occurrences.", "every non-empty array of values, every sorting algorithm (nine comparison sorts, every depth limit and threshold of intro_sort), every value searched, every total order without ties", "sorting and searching are tested apart, on a few arrays; the contract that connects them (what a search requires of its input is what a sort guarantees) quantifies over all arrays", L+"algorithms.py:binary_search", L+"algorithms.py:lower_bound", L+"algorithms.py:upper_bound", L+"algorithms.py:jump_search", L+"algorithms.py:quick_sort")
p("The implementation of a stack or queue is chosen by name and does not matter", "Stack, Queue and PriorityQueue make the implementation named, with the items given, and raise NotImplementedError for every other name. The stacks of both names answer every history alike, the queues of both names too, and a queue that is not double-ended raises NotImplementedError for appendleft and pop without being disturbed. The three priority queues serve by priority. (False of the code where: peek of an empty stack raises with one implementation and answers None with the other; an array queue cannot be made from an empty list; array queues lose elements in the histories of C31; the binomial heap ignores the comparator.)", "every name, every initial list of items, every history of calls, every compatible comparator", "that two implementations agree on every history is a statement about pairs of runs; tests compare a few hand-made ones with literals", M+"stack.py:Stack.__new__", M+"queue.py:Queue.__new__", M+"queue.py:PriorityQueue.__new__", M+"queue.py:Queue._double_ended_check")
p("Topological sorting, strongly connected components and searches agree", "topological_sort and topological_sort_parallel return an order of the vertices in which every edge goes forward if every set that strongly_connected_components(graph, 'tarjan') returns is a single vertex without an edge to itself, and raise ValueError otherwise; two vertices are in the same set exactly if a breadth first search from each of them visits the other, and exactly if a depth first search does.", "every finite digraph in an adjacency list, every pair of vertices; for the parallel version every positive number of threads and every schedule", "a test can compare the algorithms on a few graphs; that they agree needs the correctness of each of them on every graph", G+"algorithms.py:topological_sort", G+"algorithms.py:topological_sort_parallel", G+"algorithms.py:strongly_connected_components", G+"algorithms.py:breadth_first_search", G+"algorithms.py:depth_first_search")
p("Searches and shortest paths agree", "On a weighted graph without a negative cycle, breadth first and depth first search from s visit the same vertices, namely those to which shortest_paths(…, 'bellman_ford') and all_pair_shortest_paths(…, 'floyd_warshall') answer a finite distance; if every edge weighs 1, breadth first search calls the operation on the vertices in the order of these distances, each from a vertex that is one closer.", "every weighted digraph without a negative cycle, every source and every vertex", "a test can compare the algorithms on a few graphs; that they agree needs the correctness of each of them on every graph", G+"algorithms.py:breadth_first_search", G+"algorithms.py:depth_first_search", G+"algorithms.py:shortest_paths", G+"algorithms.py:all_pair_shortest_paths")
p("The structures for range sums agree", "For the same non-empty array of integers, after the same updates (at any non-negative index, with any value), a BinaryIndexedTree, a dynamic range query object with a segment tree, one with the array itself and, while no sum leaves the range of a long, the C++ BinaryIndexedTree answer the same sum for every range of the array, and raise IndexError for the same updates; on an array that is not updated a sparse table and a static array query do too.", "every non-empty array of integers, every history of updates and sums of ranges l ≤ r < n", "a test can compare the structures for some histories; that four data structures with different layouts of partial sums stay equal has to hold for all", T+"binary_trees.py:BinaryIndexedTree", M+"algorithms.py:RangeQueryDynamicSegmentTree", M+"algorithms.py:RangeQueryDynamicArray", M+"algorithms.py:RangeQueryStaticSparseTable", M+"algorithms.py:RangeQueryStaticArray")
p("Containers that keep their keys in order sort as the sorting functions do", "For different keys in any order there is one arrangement s of them such that bubble, selection, insertion, merge, quick, heap, shell, intro and cocktail shaker sort all turn the array of the keys into s; the in-order traversal of a BinarySearchTree, AVLTree, RedBlackTree, CartesianTree or Treap, or SplayTree in which they are inserted lists s; the linked-list, binary-heap and binomial-heap priority queues into which they are pushed give them back in the order s; and a skip list into which they are inserted reads s from left to right.", "every non-empty list of different keys, every strict total order and comparator that is compatible with it, all data, priorities and coin flips", "a test can compare the outputs for some lists; that fifteen different data structures and algorithms define the same order has to hold for every list, priority and coin", T+"binary_trees.py:BinarySearchTree.insert", T+"binary_trees.py:AVLTree.insert", T+"binary_trees.py:RedBlackTree.insert", T+"binary_trees.py:CartesianTree.insert", T+"binary_trees.py:SplayTree.insert", T+"binary_trees.py:BinaryTreeTraversal.depth_first_search", L+"queue.py:PriorityQueue", L+"linked_lists.py:SkipList.insert", L+"algorithms.py:bubble_sort")
p("front, rear and str of an array queue show where its elements are", "After any calls for which an ArrayQueue answers like a list, front and rear are the positions in its array of the first and last elements, the elements lie between them in order, and str shows exactly the elements that are in the queue.", "every starting list and every sequence of append, appendleft, pop, popleft and len calls", "the two positions are changed by every call and renumbered whenever the array is compacted, so their meaning depends on the whole history", M+"queue.py:ArrayQueue.front", M+"queue.py:ArrayQueue.rear", M+"queue.py:ArrayQueue.__str__")
p("Tarjan's algorithm lists the components in reverse topological order", "strongly_connected_components with the Tarjan algorithm lists the components so that a component that can be reached from another one comes before it; for a digraph without cycle the vertices in the opposite order are therefore in topological order.", "every digraph, every order of its vertices and of the neighbours of each", "the order is produced by the nesting of the recursive calls on the whole graph; a test sees the order for a few graphs only, and a set comparison, as the repository makes it, does not see it at all", G+"algorithms.py:_strongly_connected_components_tarjan_adjacency_list", G+"algorithms.py:_tarjan_dfs")
p("Bridges are the edges that every spanning tree needs", "On an undirected graph with costs find_bridges reports an edge exactly if every spanning forest of the graph contains it; on a connected graph every minimum spanning tree algorithm (Kruskal and Prim, sequential and parallel, on lists and matrices, and Prim in C++) therefore returns a graph that shows every bridge, with its cost, in both directions.", "every undirected graph with costs, every number of threads, every iteration order of the hash maps and every choice among several least queue entries", "find_bridges decides by discovery times, the spanning tree algorithms by costs; that they agree on the edges that cannot be spared has to hold for every graph and every choice of the algorithms", G+"algorithms.py:find_bridges", G+"algorithms.py:minimum_spanning_tree", G+"algorithms.py:minimum_spanning_tree_parallel")
p("Common subsequences, increasing subsequences and sorting agree", "For a non-empty list of ints and the array that any of the nine comparison sorts makes of it, longest_common_subsequence of the two is a longest non-decreasing subsequence of the list, and has the length of longest_increasing_subsequence if the elements are different. The length that longest_common_subsequence finds does not depend on the order of its arguments.", "every non-empty list of ints, every comparator that is compatible with <=; every two lists", "three independent algorithms (two dynamic programs and a sort) have to agree on every list", L+"algorithms.py:longest_common_subsequence", L+"algorithms.py:longest_increasing_subsequence", L+"algorithms.py:bubble_sort")
p("A C++ graph node or edge keeps the data it is given", "With backend=Backend.CPP the data of a graph node and the value of an edge read back, after any history of assignments, exactly the last value given by the constructor or by an assignment; an edge refuses values other than None, ints, floats and strings with TypeError and keeps its value.", "every class of node and the edge, every first value, every history of assignments and reads", "Tests store a small int or a short string; the values that are lost or changed are particular ints and strings, and the claim is about every value and history.", "pydatastructs/utils/_backend/cpp/GraphNode.hpp:GraphNode_set", "pydatastructs/utils/_backend/cpp/AdjacencyListGraphNode.hpp:AdjacencyListGraphNode_set_data", "pydatastructs/utils/_backend/cpp/GraphEdge.hpp:GraphEdge_set_value")
p("The neighbours of an AdjacencyListGraphNode are a map from names to data", "After any history of add_adjacent_node and remove_adjacent_node on an AdjacencyListGraphNode, constructed with or without a list of neighbours, in Python and in C++: name in node.adjacent and the data of the neighbours are those of the map built by the same history; adding a neighbour again changes its data, and removing a name that is no neighbour raises ValueError.", "every list of neighbours given to the constructor, every history, names and data arbitrary", "Which of the calls behave differently depends on earlier calls with the same name; tests add two neighbours once.", "pydatastructs/utils/misc_util.py:AdjacencyListGraphNode.add_adjacent_node", "pydatastructs/utils/misc_util.py:AdjacencyListGraphNode.remove_adjacent_node", "pydatastructs/utils/_backend/cpp/AdjacencyListGraphNode.hpp:AdjacencyListGraphNode_add_adjacent_node")
p("Graph(*vertices) is the edgeless graph on its vertices, of the implementation they are made for", "Graph(*vertices, implementation=…, backend=…), for vertices without neighbours with different names made for one implementation of one back end, is a graph of that implementation, whether it is named or not, with exactly these vertices, in which no two vertices are adjacent; with an adjacency list it is the graph to which the vertices are added one after another. Any other name of an implementation raises NotImplementedError.", "every list of vertices with different names that are no attributes of nodes or graphs, both back ends, both implementations, every string as implementation, every iteration order of the hash maps", "Tests construct graphs with two or three vertices, always of one back end and mostly with the default implementation.", G+"graph.py:Graph.__new__", G+"adjacency_list.py:AdjacencyList.__new__", G+"adjacency_matrix.py:AdjacencyMatrix.__new__")
p("A search tree constructed with a key is the tree into which it was inserted", "Constructed with a key, with root_data or without, a binary search tree is exactly the tree that inserting the key with this data into a newly made tree gives, so that every later operation behaves in the same way. Data without a key raises ValueError.", "every key, datum or None, is_order_statistic, comparator, both back ends", "Tests construct each tree with one key and data, and look at the string of it.", T+"binary_trees.py:BinaryTree.__new__", T+"_backend/cpp/BinaryTree.hpp:BinaryTree___new__")
p("A binomial heap made from given trees serves their entries", "BinomialHeap(root_list), for a list or a tuple of different heap-ordered trees, is a mergeable priority queue of the entries of the trees: in every history of insert, find_minimum, delete_minimum and merge with other heaps made in this way, find_minimum returns an entry of least key, delete_minimum deletes one, and both raise IndexError when there is none. This holds for any orders of the trees, in any sequence, repeated or not, and whether or not the trees have the shapes of binomial trees.", "every list or tuple of heap-ordered trees with non-negative orders, every total preorder of keys, every history of calls, every list of trees of the heaps merged", "Tests make heaps from a list of two or three trees of increasing orders, always of the right shape.", T+"heaps.py:BinomialHeap.__new__", T+"heaps.py:BinomialHeap.delete_minimum", T+"heaps.py:BinomialHeap.merge")
p("The list given to a binomial heap keeps its trees", "After BinomialHeap(root_list) of a list, and any history of insert, find_minimum, delete_minimum and merge on the heap, the list object of the caller has the same elements at the same places.", "every list of heap-ordered trees, every total preorder of keys, every history of calls", "Tests give a literal list that nobody looks at afterwards.", T+"heaps.py:BinomialHeap.__new__", T+"heaps.py:BinomialHeap.delete_minimum")
p("Two heaps made from the same nodes each serve their entries", "After DHeap(nodes, …) and then a second DHeap(nodes, …) of the same list of TreeNodes, each of the two heaps, taken by itself, serves the entries of the nodes in its own order: the first extract of each gives an entry that is least in its order.", "every list of nodes, both orders and all arities of the two heaps, every total preorder of keys, every history of calls on one of the heaps", "Tests make new nodes for each heap.", T+"heaps.py:DHeap.__new__", T+"heaps.py:DHeap._swap")
