#!/usr/bin/env python3
"""Writes /verif/properties.jsonl from the table below (kept as source so ids stay stable)."""
import json, os
P = []
L = "pydatastructs/linear_data_structures/"
M = "pydatastructs/miscellaneous_data_structures/"
T = "pydatastructs/trees/"
G = "pydatastructs/graphs/"
S = "pydatastructs/strings/"
def p(title, statement, quantifier, why, *anchors):
    P.append(dict(id="C%02d" % (len(P) + 1), title=title, statement=statement, quantifier=quantifier,
                  why_tests_cant=why, anchors=list(anchors)))
INF = "The set of inputs is infinite; a test samples a few arrays, the claim is for every array, range and comparator."
HIST = "The claim is about every reachable state, i.e. every operation history of any length; tests run a handful of histories."

# ---- sorting -------------------------------------------------------------
p("bubble_sort sorts the chosen range", "bubble_sort(array, start, end, comp) terminates without exception and leaves the array a permutation of its old content, ordered by comp on positions start..end and untouched outside.", "every array, every 0<=start, end<len, every comparator compatible with a total preorder (strict or not), None entries included (they sort last)", INF, L+"algorithms.py:bubble_sort", "pydatastructs/utils/misc_util.py:_comp")
p("selection_sort sorts the chosen range", "selection_sort leaves the array a permutation of its old content, ordered by comp on positions start..end and untouched outside, and never raises.", "every array, range and compatible comparator", INF, L+"algorithms.py:selection_sort")
p("insertion_sort sorts the chosen range", "insertion_sort leaves the array a permutation of its old content, ordered by comp on positions start..end and untouched outside, and never raises.", "every array, range and compatible comparator", INF, L+"algorithms.py:insertion_sort")
p("merge_sort_parallel sorts the chosen range", "merge_sort_parallel leaves the array a permutation of its old content, ordered by comp on positions start..end and untouched outside.", "every array, range, compatible comparator, with the block jobs executed in submission order (the code waits for each result)", INF, L+"algorithms.py:merge_sort_parallel", L+"algorithms.py:_merge")
p("quick_sort sorts the chosen range", "quick_sort with the default pivot leaves the array a permutation of its old content, ordered by comp on positions start..end and untouched outside, and never raises on a non-empty range.", "every array, non-empty range and compatible comparator", INF, L+"algorithms.py:quick_sort")
p("heapsort sorts the chosen range", "heapsort leaves the non-None entries of positions start..end in non-decreasing order followed by None, as a permutation of the old content, and does not touch other positions.", "every array and range", INF, L+"algorithms.py:heapsort", T+"heaps.py:BinaryHeap")
p("shell_sort sorts the chosen range", "shell_sort leaves the array a permutation of its old content, ordered by comp on positions start..end and untouched outside.", "every array, range and compatible comparator", INF, L+"algorithms.py:shell_sort")
p("intro_sort sorts the chosen range", "intro_sort leaves the array a permutation of its old content, ordered on positions start..end, for every maximum depth and insertion-sort threshold.", "every array, range, depth limit and threshold", INF, L+"algorithms.py:intro_sort")
p("cocktail_shaker_sort sorts the chosen range", "cocktail_shaker_sort leaves the array a permutation of its old content, ordered by comp on positions start..end and untouched outside.", "every array, range and compatible comparator", INF, L+"algorithms.py:cocktail_shaker_sort")
p("brick_sort sorts and terminates", "brick_sort terminates and leaves the array a permutation of its old content, ordered on positions start..end.", "every array, range and comparator (including the default one and arrays with equal elements)", "Termination over all arrays is not testable; equal neighbours with the default comparator are the interesting case.", L+"algorithms.py:brick_sort")
p("brick_sort_parallel sorts and terminates", "brick_sort_parallel terminates and sorts positions start..end under every order in which the worker jobs of one phase run.", "every array, range, comparator and schedule of the submitted jobs", "Schedules and arrays are both unbounded.", L+"algorithms.py:brick_sort_parallel")
p("counting_sort returns the sorted multiset", "counting_sort(array) returns an array containing exactly the non-None integers of the input in non-decreasing order.", "every integer array (negative values and None holes included)", INF, L+"algorithms.py:counting_sort")
p("bucket_sort sorts the chosen range", "bucket_sort leaves positions start..end sorted, a permutation of the old content with None last.", "every array of numbers and every range", INF, L+"algorithms.py:bucket_sort")
p("radix_sort sorts the chosen range", "radix_sort leaves positions start..end sorted with None last and the array a permutation of its old content.", "every array of non-negative integers with None holes", INF, L+"algorithms.py:radix_sort")
# ---- searching / order ---------------------------------------------------
p("linear_search finds the first occurrence", "linear_search(array, value, start, end) returns the least index in start..end holding value and None exactly when the value does not occur there.", "every array, value, range", INF, L+"algorithms.py:linear_search")
p("binary_search is sound and complete", "On a range sorted by comp, binary_search returns an index in start..end holding value, or None exactly when value does not occur in the range; it always terminates without exception.", "every sorted array, value, range and compatible total-order comparator", INF, L+"algorithms.py:binary_search")
p("jump_search is sound and complete", "On a range sorted by comp, jump_search returns an index in start..end holding value, or None exactly when value does not occur in the range.", "every sorted array, value and range", INF, L+"algorithms.py:jump_search")
p("lower_bound returns the first not-less position", "On a sorted range, lower_bound returns the least index in start..end (or end) whose element is not less than value.", "every sorted array, value, range", INF, L+"algorithms.py:lower_bound")
p("upper_bound returns the first greater position", "On a sorted range, upper_bound returns the least index whose element is greater than value (or end).", "every sorted array, value, range", INF, L+"algorithms.py:upper_bound")
p("is_ordered decides sortedness", "is_ordered returns True exactly when the non-None elements of the range are in order.", "every array, range, comparator", INF, L+"algorithms.py:is_ordered")
# ---- DP / permutations ---------------------------------------------------
p("longest_common_subsequence is a longest common subsequence", "The returned array is a subsequence of both inputs, and no common subsequence is longer.", "every pair of sequences", "Maximality ranges over all subsequences of all pairs of sequences.", L+"algorithms.py:longest_common_subsequence")
p("longest_increasing_subsequence is a longest strictly increasing subsequence", "The returned array is a strictly increasing subsequence of the input and no strictly increasing subsequence is longer.", "every non-empty array over a linear order", "Maximality ranges over all subsequences.", L+"algorithms.py:longest_increasing_subsequence")
p("next_permutation is the lexicographic successor", "next_permutation returns (True, q) with q the least permutation of the range lexicographically greater than p, and (False, sorted p) exactly when p is the greatest.", "every array (duplicates included), range", "Successor-ness quantifies over all permutations.", L+"algorithms.py:next_permutation", L+"algorithms.py:_permutation_util")
p("prev_permutation is the lexicographic predecessor", "prev_permutation returns (True, q) with q the greatest permutation lexicographically smaller than p, and (False, reverse sorted p) exactly when p is the least.", "every array (duplicates included), range", "Predecessor-ness quantifies over all permutations.", L+"algorithms.py:prev_permutation")
p("matrix_multiply_parallel is the matrix product", "matrix_multiply_parallel(A, B) returns the matrix product for every pair of conformable matrices, whatever the order of the cell jobs.", "every conformable pair of matrices", "All dimensions and entries.", L+"algorithms.py:matrix_multiply_parallel")
# ---- arrays, stacks, queues ----------------------------------------------
p("One-dimensional arrays are a bounded store", "OneDimensionalArray reads return the last value written at that index, writes do not affect other indices, fill sets all, out-of-range reads raise IndexError, and the length never changes.", "every array and history of reads, writes and fills", HIST, L+"arrays.py:OneDimensionalArray")
p("Dynamic array is a sequence under append/delete", "Through every history of append and delete, the live elements of a DynamicOneDimensionalArray in index order are exactly the sequence obtained by the same abstract append/remove operations, _num equals their number and the last filled position is never below the position of a live element; no exception is raised and resizing is invisible.", "every history of appends and deletes of any index, every load factor", HIST, L+"arrays.py:DynamicOneDimensionalArray")
p("Multi-dimensional array cells are independent", "For in-range index tuples, MultiDimensionalArray maps distinct tuples to distinct cells, so a write is read back and affects no other tuple; out-of-range tuples raise IndexError.", "every shape and every index tuple", "All dimensions and index tuples.", L+"arrays.py:MultiDimensionalArray")
p("Array stack is LIFO", "An array-backed Stack behaves as a list: pop/peek return the most recent un-popped push, len and is_empty are right, pop on empty raises IndexError and changes nothing.", "every history of push/pop/peek", HIST, M+"stack.py:ArrayStack")
p("Linked-list stack is LIFO", "A linked-list-backed Stack behaves as a list with push/pop at one end; pop on empty raises IndexError.", "every history of push/pop", HIST, M+"stack.py:LinkedListStack")
p("Array queue is FIFO", "An array-backed Queue used with append/popleft returns the elements in insertion order, len and is_empty are right, popleft on empty raises IndexError.", "every history of append/popleft", HIST, M+"queue.py:ArrayQueue")
p("Array queue is a deque", "An array-backed Queue supports append, appendleft, pop and popleft as a double-ended queue.", "every history of append/appendleft/pop/popleft", HIST, M+"queue.py:ArrayQueue")
p("Linked-list queue is a deque", "A linked-list-backed Queue behaves as a double-ended list under append/appendleft/pop/popleft; popping an empty queue raises IndexError.", "every history", HIST, M+"queue.py:LinkedListQueue")
p("Linked-list priority queue pops in priority order", "LinkedListPriorityQueue.pop returns an element of least priority among the current content (earliest inserted among ties at that scan), removing just that entry.", "every history of push/pop", HIST, M+"queue.py:LinkedListPriorityQueue")
p("Binary-heap priority queue pops in priority order", "BinaryHeapPriorityQueue.pop returns an entry of least priority among the current content and removes exactly that entry.", "every history of push/pop", HIST, M+"queue.py:BinaryHeapPriorityQueue")
p("Binomial-heap priority queue pops in priority order", "BinomialHeapPriorityQueue.pop returns an entry of least priority among the current content and removes exactly that entry.", "every history of push/pop", HIST, M+"queue.py:BinomialHeapPriorityQueue")
# ---- heaps ---------------------------------------------------------------
p("d-ary heap is a priority queue", "For binary, ternary and d-ary heaps, insert/extract keep the heap ordered; extract returns a minimum (maximum) of the multiset of inserted, not yet extracted nodes; extract on empty raises IndexError and changes nothing.", "every d>=1, min or max, every initial content and every history", HIST, T+"heaps.py:DHeap", T+"heaps.py:BinaryHeap", T+"heaps.py:TernaryHeap")
p("Binomial heap is a mergeable priority queue", "BinomialHeap insert, merge, find_minimum, delete_minimum preserve the multiset semantics, heap order and the strictly increasing tree orders.", "every history including merges of arbitrary heaps", HIST, T+"heaps.py:BinomialHeap", M+"binomial_trees.py:BinomialTree")
# ---- linked lists --------------------------------------------------------
p("Singly linked list refines a Python list", "SinglyLinkedList insert_at/insert_after/append/appendleft/extract/pop/popleft/search/len act on the traversal sequence as the same operations on a list, and size equals its length.", "every history of in-range operations", HIST, L+"linked_lists.py:SinglyLinkedList", L+"linked_lists.py:LinkedList")
p("Doubly linked list refines a list in both directions", "DoublyLinkedList operations act as list operations on the forward traversal, and the backward traversal is always its reverse.", "every history of in-range operations", HIST, L+"linked_lists.py:DoublyLinkedList")
p("Circular singly linked list stays circular", "SinglyCircularLinkedList operations act as list operations and keep tail.next = head, so search and printing terminate.", "every history of in-range operations (including negative indices)", HIST, L+"linked_lists.py:SinglyCircularLinkedList")
p("Circular doubly linked list stays circular", "DoublyCircularLinkedList operations act as list operations and keep the ring closed in both directions.", "every history of in-range operations", HIST, L+"linked_lists.py:DoublyCircularLinkedList")
p("Skip list is a sorted multiset for every coin flip", "SkipList insert/search/extract behave as a sorted multimap irrespective of the random level choices; extract of a missing key raises KeyError and changes nothing.", "every history and every outcome of the random bits", "Random choices and histories are both unbounded.", L+"linked_lists.py:SkipList")
# ---- misc ----------------------------------------------------------------
p("Disjoint set union maintains a partition", "After any history, find_root of two keys agrees iff they were connected by unions; set_size is the class size; make_root makes the key its class representative without changing the partition; unknown keys raise KeyError.", "every history of make_set/union/find_root/make_root", HIST, M+"disjoint_set.py:DisjointSetForest")
p("Sparse table answers range queries", "SparseTable.query(start, end) equals the fold of the function over array[start..end].", "every non-empty array, associative function with identity on None, every range", INF, M+"sparse_table.py:SparseTable")
p("Array segment tree answers range queries under updates", "After any history of updates, ArraySegmentTree.query(start, end) equals the fold of the function over the current array slice.", "every array, associative function, history of in-range updates, every range", HIST, M+"segment_tree.py:ArraySegmentTree")
p("Range queries: static and dynamic strategies agree and validate inputs", "RangeQueryStatic('sparse_table'), RangeQueryStatic('array') and RangeQueryDynamic('segment_tree'/'array') return the same value on every valid range and raise ValueError/IndexError on exactly the invalid ones.", "every array, range, associative function, update history", HIST, M+"algorithms.py")
p("Fenwick tree answers prefix sums under updates", "After any history of updates, BinaryIndexedTree.get_sum(l, r) equals the sum of the current values in l..r.", "every integer array and update history", HIST, T+"binary_trees.py:BinaryIndexedTree")
p("Multiset counts multiplicities", "Multiset.count(e) equals the number of adds minus the number of effective removes of e; len is the total.", "every history of add/remove", HIST, M+"multiset.py:Multiset")
# ---- strings -------------------------------------------------------------
p("KMP finds exactly the occurrences", "find(text, query, 'kmp') returns exactly the increasing list of positions at which query occurs in text.", "every text and query", INF, S+"algorithms.py:_knuth_morris_pratt")
p("Rabin-Karp finds exactly the occurrences", "find(text, query, 'rabin_karp') returns exactly the positions at which query occurs in text.", "every text and query", "Hash collisions are vanishingly rare in samples.", S+"algorithms.py:_rabin_karp")
p("Boyer-Moore finds exactly the occurrences", "find(text, query, 'boyer_moore') returns exactly the positions at which query occurs in text.", "every text and query", INF, S+"algorithms.py:_boyer_moore")
p("Z-function search finds exactly the occurrences", "find(text, query, 'z_function') returns exactly the positions at which query occurs in text.", "every text and query", INF, S+"algorithms.py:_z_function")
p("Trie is a set of strings", "Trie insert/is_inserted/is_present/delete behave as a finite set of strings with prefix tests.", "every history over every alphabet", HIST, S+"trie.py:Trie")
p("strings_with_prefix lists exactly the extensions", "strings_with_prefix(p) returns exactly the stored strings having prefix p, each once.", "every trie and prefix", HIST, S+"trie.py:Trie.strings_with_prefix")
# ---- graphs --------------------------------------------------------------
p("Adjacency-list graph is a labelled digraph", "add/remove vertex/edge, is_adjacent, neighbors, num_vertices, num_edges and get_edge of the adjacency list act as on an abstract labelled digraph.", "every history and vertex naming", HIST, G+"adjacency_list.py:AdjacencyList")
p("Adjacency-matrix graph is a labelled digraph", "add_edge/remove_edge/is_adjacent/neighbors/num_edges of the adjacency matrix act as on an abstract labelled digraph.", "every history", HIST, G+"adjacency_matrix.py:AdjacencyMatrix")
p("BFS visits each reachable vertex once, in distance order", "breadth_first_search calls the operation on vertices in non-decreasing distance from the source, expands each reachable vertex exactly once, and terminates.", "every finite graph, source and early-stopping operation", "All graphs.", G+"algorithms.py:breadth_first_search")
p("DFS visits exactly the reachable vertices", "depth_first_search expands each vertex reachable from the source exactly once and terminates.", "every finite graph and source", "All graphs.", G+"algorithms.py:depth_first_search")
p("Parallel BFS visits exactly the reachable vertices and terminates", "breadth_first_search_parallel terminates and visits exactly the reachable vertices.", "every finite graph (cycles included) and schedule", "All graphs and schedules.", G+"algorithms.py:breadth_first_search_parallel")
p("Kahn topological sort is correct and complete", "topological_sort returns a linear order in which every edge goes forward, containing every vertex once, when the graph is acyclic, and raises ValueError exactly when it has a cycle.", "every finite digraph", "All graphs.", G+"algorithms.py:_kahn_adjacency_list")
p("Parallel Kahn topological sort is correct", "topological_sort_parallel returns a topological order for acyclic graphs and raises on cyclic ones for every interleaving of the worker jobs.", "every finite digraph and interleaving", "Schedules.", G+"algorithms.py:_kahn_adjacency_list_parallel")
p("Kruskal returns a minimum spanning tree", "minimum_spanning_tree(graph,'kruskal') returns a spanning forest of minimum total weight.", "every finite weighted undirected graph", "Minimality ranges over all spanning trees of all graphs.", G+"algorithms.py:_minimum_spanning_tree_kruskal_adjacency_list")
p("Prim returns a minimum spanning tree", "minimum_spanning_tree(graph,'prim') returns a spanning tree of minimum total weight of a connected graph.", "every finite connected weighted undirected graph", "Minimality ranges over all spanning trees of all graphs.", G+"algorithms.py:_minimum_spanning_tree_prim_adjacency_list")
p("Bellman-Ford computes shortest distances or detects negative cycles", "shortest_paths(...,'bellman_ford') returns the exact distances from the source if no reachable negative cycle exists and raises ValueError otherwise.", "every finite weighted digraph", "All graphs and all paths.", G+"algorithms.py:_bellman_ford_adjacency_list")
p("Dijkstra computes shortest distances", "shortest_paths(...,'dijkstra') returns the exact distances from the source for non-negative weights.", "every finite digraph with non-negative weights", "All graphs and all paths.", G+"algorithms.py:_dijkstra_adjacency_list")
p("Floyd-Warshall computes all-pairs distances", "all_pair_shortest_paths(...,'floyd_warshall') returns exact distances for graphs without negative cycles.", "every finite weighted digraph without negative cycle", "All graphs and all paths.", G+"algorithms.py:_floyd_warshall_adjacency_list")
p("max_flow returns the maximum flow value", "max_flow with edmonds_karp / dinic returns the value of a maximum flow.", "every finite capacitated network", "Maximality ranges over all flows.", G+"algorithms.py:_max_flow_edmonds_karp_", G+"algorithms.py:_max_flow_dinic_")
p("Tarjan returns the strongly connected components", "strongly_connected_components(...,'tarjan') returns the partition of the vertices into mutual-reachability classes.", "every finite digraph", "All graphs.", G+"algorithms.py:_tarjans_adjacency_list")
p("Kosaraju returns the strongly connected components", "strongly_connected_components(...,'kosaraju') returns the partition of the vertices into mutual-reachability classes.", "every finite digraph", "All graphs.", G+"algorithms.py:_strongly_connected_components_kosaraju_adjacency_list")
p("find_bridges returns exactly the bridges", "find_bridges returns exactly the edges whose removal disconnects their endpoints, sorted.", "every finite undirected graph", "All graphs.", G+"algorithms.py:find_bridges")
# ---- trees ---------------------------------------------------------------
p("BST insert/search is a finite map", "After any history of inserts, BinarySearchTree.search(k) finds the index of k iff k was inserted, the data is the last inserted, and in-order traversal lists the keys strictly increasing.", "every history of inserts", HIST, T+"binary_trees.py:BinarySearchTree")
p("BST delete removes exactly the key", "After any history of inserts and deletes, search finds a key iff it was inserted after its last delete, and no operation raises.", "every history of inserts/deletes", HIST, T+"binary_trees.py:BinarySearchTree.delete")
p("Tree traversals enumerate every node once in the documented order", "depth_first_search (pre/in/post/out order) and breadth_first_search of BinaryTreeTraversal return every node once in the textbook order, without recursion limits or non-termination.", "every well-formed binary tree", "All trees.", T+"binary_trees.py:BinaryTreeTraversal")
p("BST lower_bound/upper_bound/select/rank", "On a BST, lower_bound returns the least key >= k, upper_bound the least key > k, select(i) the i-th smallest node and rank(k) the position of k.", "every history of inserts, every key/rank", HIST, T+"binary_trees.py:BinarySearchTree")
p("BST lowest common ancestor", "lowest_common_ancestor(j,k,algorithm) returns the deepest node having both as descendants, for both algorithms.", "every history of inserts and every pair of keys", HIST, T+"binary_trees.py:BinarySearchTree.lowest_common_ancestor")
p("AVL insert keeps the tree ordered and balanced", "After any history of inserts the AVL tree is a search tree over the inserted keys and sibling heights differ by at most one.", "every history of inserts", HIST, T+"binary_trees.py:AVLTree")
p("Red-black insert keeps the tree ordered and coloured", "After any history of inserts the RedBlackTree is a search tree with the red-black colouring rules.", "every history of inserts", HIST, T+"binary_trees.py:RedBlackTree")
p("Splay tree stays a search tree", "After any history of insertions the splay tree is a search tree whose root holds the key inserted last: the in-order traversal lists the inserted keys in increasing order, search finds exactly the inserted keys with the data inserted last, and the bounds are right.", "every history of inserts, keys may repeat, every total order on the keys", HIST, T+"binary_trees.py:SplayTree")
p("Treap/Cartesian tree keeps both orders", "Cartesian tree and treap inserts keep keys in search order and priorities in heap order for every priority choice.", "every history of inserts and every random priority", "Random choices and histories.", T+"binary_trees.py:CartesianTree", T+"binary_trees.py:Treap")
p("Interval segment tree returns exactly the containing intervals", "OneDimensionalSegmentTree.query(q) returns exactly the intervals of the input that contain the query point, each once (closed intervals, ends in either order); with no intervals at all it raises IndexError.", "every list of intervals and every history of build/query calls", INF, T+"space_partitioning_trees.py:OneDimensionalSegmentTree")
p("Binomial heap decrease_key and delete", "decrease_key and delete keep the heap order and multiset semantics of a binomial heap.", "every history", HIST, T+"heaps.py:BinomialHeap.decrease_key", T+"heaps.py:BinomialHeap.delete")
p("Johnson computes all-pairs distances", "all_pair_shortest_paths(...,'johnson') returns exact distances for graphs without negative cycles.", "every finite weighted digraph without negative cycle", "All graphs and all paths.", G+"algorithms.py:_johnson_adjacency_list")
exec(open(os.path.join(os.path.dirname(__file__), "more_props.py")).read()) if os.path.exists(os.path.join(os.path.dirname(__file__), "more_props.py")) else None
with open("/verif/properties.jsonl", "w") as f:
    for q in P: f.write(json.dumps(q) + "\n")
print(len(P))
