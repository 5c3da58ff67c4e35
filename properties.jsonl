{"id": "C01", "title": "bubble_sort sorts the chosen range", "statement": "bubble_sort(array, start, end, comp) terminates without exception and leaves the array a permutation of its old content, ordered by comp on positions start..end and untouched outside.", "quantifier": "every array, every 0<=start, end<len, every comparator compatible with a total preorder (strict or not), None entries included (they sort last)", "why_tests_cant": "The set of inputs is infinite; a test samples a few arrays, the claim is for every array, range and comparator.", "anchors": ["pydatastructs/linear_data_structures/algorithms.py:bubble_sort", "pydatastructs/utils/misc_util.py:_comp"]}
{"id": "C02", "title": "selection_sort sorts the chosen range", "statement": "selection_sort leaves the array a permutation of its old content, ordered by comp on positions start..end and untouched outside, and never raises.", "quantifier": "every array, range and compatible comparator", "why_tests_cant": "The set of inputs is infinite; a test samples a few arrays, the claim is for every array, range and comparator.", "anchors": ["pydatastructs/linear_data_structures/algorithms.py:selection_sort"]}
{"id": "C03", "title": "insertion_sort sorts the chosen range", "statement": "insertion_sort leaves the array a permutation of its old content, ordered by comp on positions start..end and untouched outside, and never raises.", "quantifier": "every array, range and compatible comparator", "why_tests_cant": "The set of inputs is infinite; a test samples a few arrays, the claim is for every array, range and comparator.", "anchors": ["pydatastructs/linear_data_structures/algorithms.py:insertion_sort"]}
{"id": "C04", "title": "merge_sort_parallel sorts the chosen range", "statement": "merge_sort_parallel leaves the array a permutation of its old content, ordered by comp on positions start..end and untouched outside.", "quantifier": "every array, range, compatible comparator, with the block jobs executed in submission order (the code waits for each result)", "why_tests_cant": "The set of inputs is infinite; a test samples a few arrays, the claim is for every array, range and comparator.", "anchors": ["pydatastructs/linear_data_structures/algorithms.py:merge_sort_parallel", "pydatastructs/linear_data_structures/algorithms.py:_merge"]}
{"id": "C05", "title": "quick_sort sorts the chosen range", "statement": "quick_sort with the default pivot leaves the array a permutation of its old content, ordered by comp on positions start..end and untouched outside, and never raises on a non-empty range.", "quantifier": "every array, non-empty range and compatible comparator", "why_tests_cant": "The set of inputs is infinite; a test samples a few arrays, the claim is for every array, range and comparator.", "anchors": ["pydatastructs/linear_data_structures/algorithms.py:quick_sort"]}
{"id": "C06", "title": "heapsort sorts the chosen range", "statement": "heapsort leaves the non-None entries of positions start..end in non-decreasing order followed by None, as a permutation of the old content, and does not touch other positions.", "quantifier": "every array and range", "why_tests_cant": "The set of inputs is infinite; a test samples a few arrays, the claim is for every array, range and comparator.", "anchors": ["pydatastructs/linear_data_structures/algorithms.py:heapsort", "pydatastructs/trees/heaps.py:BinaryHeap"]}
{"id": "C07", "title": "shell_sort sorts the chosen range", "statement": "shell_sort leaves the array a permutation of its old content, ordered by comp on positions start..end and untouched outside.", "quantifier": "every array, range and compatible comparator", "why_tests_cant": "The set of inputs is infinite; a test samples a few arrays, the claim is for every array, range and comparator.", "anchors": ["pydatastructs/linear_data_structures/algorithms.py:shell_sort"]}
{"id": "C08", "title": "intro_sort sorts the chosen range", "statement": "intro_sort leaves the array a permutation of its old content, ordered on positions start..end, for every maximum depth and insertion-sort threshold.", "quantifier": "every array, range, depth limit and threshold", "why_tests_cant": "The set of inputs is infinite; a test samples a few arrays, the claim is for every array, range and comparator.", "anchors": ["pydatastructs/linear_data_structures/algorithms.py:intro_sort"]}
{"id": "C09", "title": "cocktail_shaker_sort sorts the chosen range", "statement": "cocktail_shaker_sort leaves the array a permutation of its old content, ordered by comp on positions start..end and untouched outside.", "quantifier": "every array, range and compatible comparator", "why_tests_cant": "The set of inputs is infinite; a test samples a few arrays, the claim is for every array, range and comparator.", "anchors": ["pydatastructs/linear_data_structures/algorithms.py:cocktail_shaker_sort"]}
{"id": "C10", "title": "brick_sort sorts and terminates", "statement": "brick_sort terminates and leaves the array a permutation of its old content, ordered on positions start..end.", "quantifier": "every array, range and comparator (including the default one and arrays with equal elements)", "why_tests_cant": "Termination over all arrays is not testable; equal neighbours with the default comparator are the interesting case.", "anchors": ["pydatastructs/linear_data_structures/algorithms.py:brick_sort"]}
{"id": "C11", "title": "brick_sort_parallel sorts and terminates", "statement": "brick_sort_parallel terminates and sorts positions start..end under every order in which the worker jobs of one phase run.", "quantifier": "every array, range, comparator and schedule of the submitted jobs", "why_tests_cant": "Schedules and arrays are both unbounded.", "anchors": ["pydatastructs/linear_data_structures/algorithms.py:brick_sort_parallel"]}
{"id": "C12", "title": "counting_sort returns the sorted multiset", "statement": "counting_sort(array) returns an array containing exactly the non-None integers of the input in non-decreasing order.", "quantifier": "every integer array (negative values and None holes included)", "why_tests_cant": "The set of inputs is infinite; a test samples a few arrays, the claim is for every array, range and comparator.", "anchors": ["pydatastructs/linear_data_structures/algorithms.py:counting_sort"]}
{"id": "C13", "title": "bucket_sort sorts the chosen range", "statement": "bucket_sort leaves positions start..end sorted, a permutation of the old content with None last.", "quantifier": "every array of numbers and every range", "why_tests_cant": "The set of inputs is infinite; a test samples a few arrays, the claim is for every array, range and comparator.", "anchors": ["pydatastructs/linear_data_structures/algorithms.py:bucket_sort"]}
{"id": "C14", "title": "radix_sort sorts the chosen range", "statement": "radix_sort leaves positions start..end sorted with None last and the array a permutation of its old content.", "quantifier": "every array of non-negative integers with None holes", "why_tests_cant": "The set of inputs is infinite; a test samples a few arrays, the claim is for every array, range and comparator.", "anchors": ["pydatastructs/linear_data_structures/algorithms.py:radix_sort"]}
{"id": "C15", "title": "linear_search finds the first occurrence", "statement": "linear_search(array, value, start, end) returns the least index in start..end holding value and None exactly when the value does not occur there.", "quantifier": "every array, value, range", "why_tests_cant": "The set of inputs is infinite; a test samples a few arrays, the claim is for every array, range and comparator.", "anchors": ["pydatastructs/linear_data_structures/algorithms.py:linear_search"]}
{"id": "C16", "title": "binary_search is sound and complete", "statement": "On a range sorted by comp, binary_search returns an index in start..end holding value, or None exactly when value does not occur in the range; it always terminates without exception.", "quantifier": "every sorted array, value, range and compatible total-order comparator", "why_tests_cant": "The set of inputs is infinite; a test samples a few arrays, the claim is for every array, range and comparator.", "anchors": ["pydatastructs/linear_data_structures/algorithms.py:binary_search"]}
{"id": "C17", "title": "jump_search is sound and complete", "statement": "On a range sorted by comp, jump_search returns an index in start..end holding value, or None exactly when value does not occur in the range.", "quantifier": "every sorted array, value and range", "why_tests_cant": "The set of inputs is infinite; a test samples a few arrays, the claim is for every array, range and comparator.", "anchors": ["pydatastructs/linear_data_structures/algorithms.py:jump_search"]}
{"id": "C18", "title": "lower_bound returns the first not-less position", "statement": "On a sorted range, lower_bound returns the least index in start..end (or end) whose element is not less than value.", "quantifier": "every sorted array, value, range", "why_tests_cant": "The set of inputs is infinite; a test samples a few arrays, the claim is for every array, range and comparator.", "anchors": ["pydatastructs/linear_data_structures/algorithms.py:lower_bound"]}
{"id": "C19", "title": "upper_bound returns the first greater position", "statement": "On a sorted range, upper_bound returns the least index whose element is greater than value (or end).", "quantifier": "every sorted array, value, range", "why_tests_cant": "The set of inputs is infinite; a test samples a few arrays, the claim is for every array, range and comparator.", "anchors": ["pydatastructs/linear_data_structures/algorithms.py:upper_bound"]}
{"id": "C20", "title": "is_ordered decides sortedness", "statement": "is_ordered returns True exactly when the non-None elements of the range are in order.", "quantifier": "every array, range, comparator", "why_tests_cant": "The set of inputs is infinite; a test samples a few arrays, the claim is for every array, range and comparator.", "anchors": ["pydatastructs/linear_data_structures/algorithms.py:is_ordered"]}
{"id": "C21", "title": "longest_common_subsequence is a longest common subsequence", "statement": "The returned array is a subsequence of both inputs, and no common subsequence is longer.", "quantifier": "every pair of sequences", "why_tests_cant": "Maximality ranges over all subsequences of all pairs of sequences.", "anchors": ["pydatastructs/linear_data_structures/algorithms.py:longest_common_subsequence"]}
{"id": "C22", "title": "longest_increasing_subsequence is a longest strictly increasing subsequence", "statement": "The returned array is a strictly increasing subsequence of the input and no strictly increasing subsequence is longer.", "quantifier": "every non-empty array over a linear order", "why_tests_cant": "Maximality ranges over all subsequences.", "anchors": ["pydatastructs/linear_data_structures/algorithms.py:longest_increasing_subsequence"]}
{"id": "C23", "title": "next_permutation is the lexicographic successor", "statement": "next_permutation returns (True, q) with q the least permutation of the range lexicographically greater than p, and (False, sorted p) exactly when p is the greatest.", "quantifier": "every array (duplicates included), range", "why_tests_cant": "Successor-ness quantifies over all permutations.", "anchors": ["pydatastructs/linear_data_structures/algorithms.py:next_permutation", "pydatastructs/linear_data_structures/algorithms.py:_permutation_util"]}
{"id": "C24", "title": "prev_permutation is the lexicographic predecessor", "statement": "prev_permutation returns (True, q) with q the greatest permutation lexicographically smaller than p, and (False, reverse sorted p) exactly when p is the least.", "quantifier": "every array (duplicates included), range", "why_tests_cant": "Predecessor-ness quantifies over all permutations.", "anchors": ["pydatastructs/linear_data_structures/algorithms.py:prev_permutation"]}
{"id": "C25", "title": "matrix_multiply_parallel is the matrix product", "statement": "matrix_multiply_parallel(A, B) returns the matrix product for every pair of conformable matrices, whatever the order of the cell jobs.", "quantifier": "every conformable pair of matrices", "why_tests_cant": "All dimensions and entries.", "anchors": ["pydatastructs/linear_data_structures/algorithms.py:matrix_multiply_parallel"]}
{"id": "C26", "title": "One-dimensional arrays are a bounded store", "statement": "OneDimensionalArray reads return the last value written at that index, writes do not affect other indices, fill sets all, out-of-range reads raise IndexError, and the length never changes.", "quantifier": "every array and history of reads, writes and fills", "why_tests_cant": "The claim is about every reachable state, i.e. every operation history of any length; tests run a handful of histories.", "anchors": ["pydatastructs/linear_data_structures/arrays.py:OneDimensionalArray"]}
{"id": "C27", "title": "Dynamic array is a sequence under append/delete", "statement": "Through every history of append and delete, the live elements of a DynamicOneDimensionalArray in index order are exactly the sequence obtained by the same abstract append/remove operations, _num equals their number and the last filled position is never below the position of a live element; no exception is raised and resizing is invisible.", "quantifier": "every history of appends and deletes of any index, every load factor", "why_tests_cant": "The claim is about every reachable state, i.e. every operation history of any length; tests run a handful of histories.", "anchors": ["pydatastructs/linear_data_structures/arrays.py:DynamicOneDimensionalArray"]}
{"id": "C28", "title": "Multi-dimensional array cells are independent", "statement": "For in-range index tuples, MultiDimensionalArray maps distinct tuples to distinct cells, so a write is read back and affects no other tuple; out-of-range tuples raise IndexError.", "quantifier": "every shape and every index tuple", "why_tests_cant": "All dimensions and index tuples.", "anchors": ["pydatastructs/linear_data_structures/arrays.py:MultiDimensionalArray"]}
{"id": "C29", "title": "Array stack is LIFO", "statement": "An array-backed Stack behaves as a list: pop/peek return the most recent un-popped push, len and is_empty are right, pop on empty raises IndexError and changes nothing.", "quantifier": "every history of push/pop/peek", "why_tests_cant": "The claim is about every reachable state, i.e. every operation history of any length; tests run a handful of histories.", "anchors": ["pydatastructs/miscellaneous_data_structures/stack.py:ArrayStack"]}
{"id": "C30", "title": "Linked-list stack is LIFO", "statement": "A linked-list-backed Stack behaves as a list with push/pop at one end; pop on empty raises IndexError.", "quantifier": "every history of push/pop", "why_tests_cant": "The claim is about every reachable state, i.e. every operation history of any length; tests run a handful of histories.", "anchors": ["pydatastructs/miscellaneous_data_structures/stack.py:LinkedListStack"]}
{"id": "C31", "title": "Array queue is FIFO", "statement": "An array-backed Queue used with append/popleft returns the elements in insertion order, len and is_empty are right, popleft on empty raises IndexError.", "quantifier": "every history of append/popleft", "why_tests_cant": "The claim is about every reachable state, i.e. every operation history of any length; tests run a handful of histories.", "anchors": ["pydatastructs/miscellaneous_data_structures/queue.py:ArrayQueue"]}
{"id": "C32", "title": "Array queue is a deque", "statement": "An array-backed Queue supports append, appendleft, pop and popleft as a double-ended queue.", "quantifier": "every history of append/appendleft/pop/popleft", "why_tests_cant": "The claim is about every reachable state, i.e. every operation history of any length; tests run a handful of histories.", "anchors": ["pydatastructs/miscellaneous_data_structures/queue.py:ArrayQueue"]}
{"id": "C33", "title": "Linked-list queue is a deque", "statement": "A linked-list-backed Queue behaves as a double-ended list under append/appendleft/pop/popleft; popping an empty queue raises IndexError.", "quantifier": "every history", "why_tests_cant": "The claim is about every reachable state, i.e. every operation history of any length; tests run a handful of histories.", "anchors": ["pydatastructs/miscellaneous_data_structures/queue.py:LinkedListQueue"]}
{"id": "C34", "title": "Linked-list priority queue pops in priority order", "statement": "LinkedListPriorityQueue.pop returns an element of least priority among the current content (earliest inserted among ties at that scan), removing just that entry.", "quantifier": "every history of push/pop", "why_tests_cant": "The claim is about every reachable state, i.e. every operation history of any length; tests run a handful of histories.", "anchors": ["pydatastructs/miscellaneous_data_structures/queue.py:LinkedListPriorityQueue"]}
{"id": "C35", "title": "Binary-heap priority queue pops in priority order", "statement": "BinaryHeapPriorityQueue.pop returns an entry of least priority among the current content and removes exactly that entry.", "quantifier": "every history of push/pop", "why_tests_cant": "The claim is about every reachable state, i.e. every operation history of any length; tests run a handful of histories.", "anchors": ["pydatastructs/miscellaneous_data_structures/queue.py:BinaryHeapPriorityQueue"]}
{"id": "C36", "title": "Binomial-heap priority queue pops in priority order", "statement": "BinomialHeapPriorityQueue.pop returns an entry of least priority among the current content and removes exactly that entry.", "quantifier": "every history of push/pop", "why_tests_cant": "The claim is about every reachable state, i.e. every operation history of any length; tests run a handful of histories.", "anchors": ["pydatastructs/miscellaneous_data_structures/queue.py:BinomialHeapPriorityQueue"]}
{"id": "C37", "title": "d-ary heap is a priority queue", "statement": "For binary, ternary and d-ary heaps, insert/extract keep the heap ordered; extract returns a minimum (maximum) of the multiset of inserted, not yet extracted nodes; extract on empty raises IndexError and changes nothing.", "quantifier": "every d>=1, min or max, every initial content and every history", "why_tests_cant": "The claim is about every reachable state, i.e. every operation history of any length; tests run a handful of histories.", "anchors": ["pydatastructs/trees/heaps.py:DHeap", "pydatastructs/trees/heaps.py:BinaryHeap", "pydatastructs/trees/heaps.py:TernaryHeap"]}
{"id": "C38", "title": "Binomial heap is a mergeable priority queue", "statement": "BinomialHeap insert, merge, find_minimum, delete_minimum preserve the multiset semantics, heap order and the strictly increasing tree orders.", "quantifier": "every history including merges of arbitrary heaps", "why_tests_cant": "The claim is about every reachable state, i.e. every operation history of any length; tests run a handful of histories.", "anchors": ["pydatastructs/trees/heaps.py:BinomialHeap", "pydatastructs/miscellaneous_data_structures/binomial_trees.py:BinomialTree"]}
{"id": "C39", "title": "Singly linked list refines a Python list", "statement": "SinglyLinkedList insert_at/insert_after/append/appendleft/extract/pop/popleft/search/len act on the traversal sequence as the same operations on a list, and size equals its length.", "quantifier": "every history of in-range operations", "why_tests_cant": "The claim is about every reachable state, i.e. every operation history of any length; tests run a handful of histories.", "anchors": ["pydatastructs/linear_data_structures/linked_lists.py:SinglyLinkedList", "pydatastructs/linear_data_structures/linked_lists.py:LinkedList"]}
{"id": "C40", "title": "Doubly linked list refines a list in both directions", "statement": "DoublyLinkedList operations act as list operations on the forward traversal, and the backward traversal is always its reverse.", "quantifier": "every history of in-range operations", "why_tests_cant": "The claim is about every reachable state, i.e. every operation history of any length; tests run a handful of histories.", "anchors": ["pydatastructs/linear_data_structures/linked_lists.py:DoublyLinkedList"]}
{"id": "C41", "title": "Circular singly linked list stays circular", "statement": "SinglyCircularLinkedList operations act as list operations and keep tail.next = head, so search and printing terminate.", "quantifier": "every history of in-range operations (including negative indices)", "why_tests_cant": "The claim is about every reachable state, i.e. every operation history of any length; tests run a handful of histories.", "anchors": ["pydatastructs/linear_data_structures/linked_lists.py:SinglyCircularLinkedList"]}
{"id": "C42", "title": "Circular doubly linked list stays circular", "statement": "DoublyCircularLinkedList operations act as list operations and keep the ring closed in both directions.", "quantifier": "every history of in-range operations", "why_tests_cant": "The claim is about every reachable state, i.e. every operation history of any length; tests run a handful of histories.", "anchors": ["pydatastructs/linear_data_structures/linked_lists.py:DoublyCircularLinkedList"]}
{"id": "C43", "title": "Skip list is a sorted multiset for every coin flip", "statement": "SkipList insert/search/extract behave as a sorted multimap irrespective of the random level choices; extract of a missing key raises KeyError and changes nothing.", "quantifier": "every history and every outcome of the random bits", "why_tests_cant": "Random choices and histories are both unbounded.", "anchors": ["pydatastructs/linear_data_structures/linked_lists.py:SkipList"]}
{"id": "C44", "title": "Disjoint set union maintains a partition", "statement": "After any history, find_root of two keys agrees iff they were connected by unions; set_size is the class size; make_root makes the key its class representative without changing the partition; unknown keys raise KeyError.", "quantifier": "every history of make_set/union/find_root/make_root", "why_tests_cant": "The claim is about every reachable state, i.e. every operation history of any length; tests run a handful of histories.", "anchors": ["pydatastructs/miscellaneous_data_structures/disjoint_set.py:DisjointSetForest"]}
{"id": "C45", "title": "Sparse table answers range queries", "statement": "SparseTable.query(start, end) equals the fold of the function over array[start..end].", "quantifier": "every non-empty array, associative function with identity on None, every range", "why_tests_cant": "The set of inputs is infinite; a test samples a few arrays, the claim is for every array, range and comparator.", "anchors": ["pydatastructs/miscellaneous_data_structures/sparse_table.py:SparseTable"]}
{"id": "C46", "title": "Array segment tree answers range queries under updates", "statement": "After any history of updates, ArraySegmentTree.query(start, end) equals the fold of the function over the current array slice.", "quantifier": "every array, associative function, history of in-range updates, every range", "why_tests_cant": "The claim is about every reachable state, i.e. every operation history of any length; tests run a handful of histories.", "anchors": ["pydatastructs/miscellaneous_data_structures/segment_tree.py:ArraySegmentTree"]}
{"id": "C47", "title": "Range queries: static and dynamic strategies agree and validate inputs", "statement": "RangeQueryStatic('sparse_table'), RangeQueryStatic('array') and RangeQueryDynamic('segment_tree'/'array') return the same value on every valid range and raise ValueError/IndexError on exactly the invalid ones.", "quantifier": "every array, range, associative function, update history", "why_tests_cant": "The claim is about every reachable state, i.e. every operation history of any length; tests run a handful of histories.", "anchors": ["pydatastructs/miscellaneous_data_structures/algorithms.py"]}
{"id": "C48", "title": "Fenwick tree answers prefix sums under updates", "statement": "After any history of updates, BinaryIndexedTree.get_sum(l, r) equals the sum of the current values in l..r.", "quantifier": "every integer array and update history", "why_tests_cant": "The claim is about every reachable state, i.e. every operation history of any length; tests run a handful of histories.", "anchors": ["pydatastructs/trees/binary_trees.py:BinaryIndexedTree"]}
{"id": "C49", "title": "Multiset counts multiplicities", "statement": "Multiset.count(e) equals the number of adds minus the number of effective removes of e; len is the total.", "quantifier": "every history of add/remove", "why_tests_cant": "The claim is about every reachable state, i.e. every operation history of any length; tests run a handful of histories.", "anchors": ["pydatastructs/miscellaneous_data_structures/multiset.py:Multiset"]}
{"id": "C50", "title": "KMP finds exactly the occurrences", "statement": "find(text, query, 'kmp') returns exactly the increasing list of positions at which query occurs in text.", "quantifier": "every text and query", "why_tests_cant": "The set of inputs is infinite; a test samples a few arrays, the claim is for every array, range and comparator.", "anchors": ["pydatastructs/strings/algorithms.py:_knuth_morris_pratt"]}
{"id": "C51", "title": "Rabin-Karp finds exactly the occurrences", "statement": "find(text, query, 'rabin_karp') returns exactly the positions at which query occurs in text.", "quantifier": "every text and query", "why_tests_cant": "Hash collisions are vanishingly rare in samples.", "anchors": ["pydatastructs/strings/algorithms.py:_rabin_karp"]}
{"id": "C52", "title": "Boyer-Moore finds exactly the occurrences", "statement": "find(text, query, 'boyer_moore') returns exactly the positions at which query occurs in text.", "quantifier": "every text and query", "why_tests_cant": "The set of inputs is infinite; a test samples a few arrays, the claim is for every array, range and comparator.", "anchors": ["pydatastructs/strings/algorithms.py:_boyer_moore"]}
{"id": "C53", "title": "Z-function search finds exactly the occurrences", "statement": "find(text, query, 'z_function') returns exactly the positions at which query occurs in text.", "quantifier": "every text and query", "why_tests_cant": "The set of inputs is infinite; a test samples a few arrays, the claim is for every array, range and comparator.", "anchors": ["pydatastructs/strings/algorithms.py:_z_function"]}
{"id": "C54", "title": "Trie is a set of strings", "statement": "Trie insert/is_inserted/is_present/delete behave as a finite set of strings with prefix tests.", "quantifier": "every history over every alphabet", "why_tests_cant": "The claim is about every reachable state, i.e. every operation history of any length; tests run a handful of histories.", "anchors": ["pydatastructs/strings/trie.py:Trie"]}
{"id": "C55", "title": "strings_with_prefix lists exactly the extensions", "statement": "strings_with_prefix(p) returns exactly the stored strings having prefix p, each once.", "quantifier": "every trie and prefix", "why_tests_cant": "The claim is about every reachable state, i.e. every operation history of any length; tests run a handful of histories.", "anchors": ["pydatastructs/strings/trie.py:Trie.strings_with_prefix"]}
{"id": "C56", "title": "Adjacency-list graph is a labelled digraph", "statement": "add/remove vertex/edge, is_adjacent, neighbors, num_vertices, num_edges and get_edge of the adjacency list act as on an abstract labelled digraph.", "quantifier": "every history and vertex naming", "why_tests_cant": "The claim is about every reachable state, i.e. every operation history of any length; tests run a handful of histories.", "anchors": ["pydatastructs/graphs/adjacency_list.py:AdjacencyList"]}
{"id": "C57", "title": "Adjacency-matrix graph is a labelled digraph", "statement": "add_edge/remove_edge/is_adjacent/neighbors/num_edges of the adjacency matrix act as on an abstract labelled digraph.", "quantifier": "every history", "why_tests_cant": "The claim is about every reachable state, i.e. every operation history of any length; tests run a handful of histories.", "anchors": ["pydatastructs/graphs/adjacency_matrix.py:AdjacencyMatrix"]}
{"id": "C58", "title": "BFS visits each reachable vertex once, in distance order", "statement": "breadth_first_search calls the operation on vertices in non-decreasing distance from the source, expands each reachable vertex exactly once, and terminates.", "quantifier": "every finite graph, source and early-stopping operation", "why_tests_cant": "All graphs.", "anchors": ["pydatastructs/graphs/algorithms.py:breadth_first_search"]}
{"id": "C59", "title": "DFS visits exactly the reachable vertices", "statement": "depth_first_search expands each vertex reachable from the source exactly once and terminates.", "quantifier": "every finite graph and source", "why_tests_cant": "All graphs.", "anchors": ["pydatastructs/graphs/algorithms.py:depth_first_search"]}
{"id": "C60", "title": "Parallel BFS visits exactly the reachable vertices and terminates", "statement": "breadth_first_search_parallel terminates and visits exactly the reachable vertices.", "quantifier": "every finite graph (cycles included) and schedule", "why_tests_cant": "All graphs and schedules.", "anchors": ["pydatastructs/graphs/algorithms.py:breadth_first_search_parallel"]}
{"id": "C61", "title": "Kahn topological sort is correct and complete", "statement": "topological_sort returns a linear order in which every edge goes forward, containing every vertex once, when the graph is acyclic, and raises ValueError exactly when it has a cycle.", "quantifier": "every finite digraph", "why_tests_cant": "All graphs.", "anchors": ["pydatastructs/graphs/algorithms.py:_kahn_adjacency_list"]}
{"id": "C62", "title": "Parallel Kahn topological sort is correct", "statement": "topological_sort_parallel returns a topological order for acyclic graphs and raises on cyclic ones for every interleaving of the worker jobs.", "quantifier": "every finite digraph and interleaving", "why_tests_cant": "Schedules.", "anchors": ["pydatastructs/graphs/algorithms.py:_kahn_adjacency_list_parallel"]}
{"id": "C63", "title": "Kruskal returns a minimum spanning tree", "statement": "minimum_spanning_tree(graph,'kruskal') returns a spanning forest of minimum total weight.", "quantifier": "every finite weighted undirected graph", "why_tests_cant": "Minimality ranges over all spanning trees of all graphs.", "anchors": ["pydatastructs/graphs/algorithms.py:_minimum_spanning_tree_kruskal_adjacency_list"]}
{"id": "C64", "title": "Prim returns a minimum spanning tree", "statement": "minimum_spanning_tree(graph,'prim') returns a spanning tree of minimum total weight of a connected graph.", "quantifier": "every finite connected weighted undirected graph", "why_tests_cant": "Minimality ranges over all spanning trees of all graphs.", "anchors": ["pydatastructs/graphs/algorithms.py:_minimum_spanning_tree_prim_adjacency_list"]}
{"id": "C65", "title": "Bellman-Ford computes shortest distances or detects negative cycles", "statement": "shortest_paths(...,'bellman_ford') returns the exact distances from the source if no reachable negative cycle exists and raises ValueError otherwise.", "quantifier": "every finite weighted digraph", "why_tests_cant": "All graphs and all paths.", "anchors": ["pydatastructs/graphs/algorithms.py:_bellman_ford_adjacency_list"]}
{"id": "C66", "title": "Dijkstra computes shortest distances", "statement": "shortest_paths(...,'dijkstra') returns the exact distances from the source for non-negative weights.", "quantifier": "every finite digraph with non-negative weights", "why_tests_cant": "All graphs and all paths.", "anchors": ["pydatastructs/graphs/algorithms.py:_dijkstra_adjacency_list"]}
{"id": "C67", "title": "Floyd-Warshall computes all-pairs distances", "statement": "all_pair_shortest_paths(...,'floyd_warshall') returns exact distances for graphs without negative cycles.", "quantifier": "every finite weighted digraph without negative cycle", "why_tests_cant": "All graphs and all paths.", "anchors": ["pydatastructs/graphs/algorithms.py:_floyd_warshall_adjacency_list"]}
{"id": "C68", "title": "max_flow returns the maximum flow value", "statement": "max_flow with edmonds_karp / dinic returns the value of a maximum flow.", "quantifier": "every finite capacitated network", "why_tests_cant": "Maximality ranges over all flows.", "anchors": ["pydatastructs/graphs/algorithms.py:_max_flow_edmonds_karp_", "pydatastructs/graphs/algorithms.py:_max_flow_dinic_"]}
{"id": "C69", "title": "Tarjan returns the strongly connected components", "statement": "strongly_connected_components(...,'tarjan') returns the partition of the vertices into mutual-reachability classes.", "quantifier": "every finite digraph", "why_tests_cant": "All graphs.", "anchors": ["pydatastructs/graphs/algorithms.py:_tarjans_adjacency_list"]}
{"id": "C70", "title": "Kosaraju returns the strongly connected components", "statement": "strongly_connected_components(...,'kosaraju') returns the partition of the vertices into mutual-reachability classes.", "quantifier": "every finite digraph", "why_tests_cant": "All graphs.", "anchors": ["pydatastructs/graphs/algorithms.py:_strongly_connected_components_kosaraju_adjacency_list"]}
{"id": "C71", "title": "find_bridges returns exactly the bridges", "statement": "find_bridges returns exactly the edges whose removal disconnects their endpoints, sorted.", "quantifier": "every finite undirected graph", "why_tests_cant": "All graphs.", "anchors": ["pydatastructs/graphs/algorithms.py:find_bridges"]}
{"id": "C72", "title": "BST insert/search is a finite map", "statement": "After any history of inserts, BinarySearchTree.search(k) finds the index of k iff k was inserted, the data is the last inserted, and in-order traversal lists the keys strictly increasing.", "quantifier": "every history of inserts", "why_tests_cant": "The claim is about every reachable state, i.e. every operation history of any length; tests run a handful of histories.", "anchors": ["pydatastructs/trees/binary_trees.py:BinarySearchTree"]}
{"id": "C73", "title": "BST delete removes exactly the key", "statement": "After any history of inserts and deletes, search finds a key iff it was inserted after its last delete, and no operation raises.", "quantifier": "every history of inserts/deletes", "why_tests_cant": "The claim is about every reachable state, i.e. every operation history of any length; tests run a handful of histories.", "anchors": ["pydatastructs/trees/binary_trees.py:BinarySearchTree.delete"]}
{"id": "C74", "title": "Tree traversals enumerate every node once in the documented order", "statement": "depth_first_search (pre/in/post/out order) and breadth_first_search of BinaryTreeTraversal return every node once in the textbook order, without recursion limits or non-termination.", "quantifier": "every well-formed binary tree", "why_tests_cant": "All trees.", "anchors": ["pydatastructs/trees/binary_trees.py:BinaryTreeTraversal"]}
{"id": "C75", "title": "BST lower_bound/upper_bound/select/rank", "statement": "On a BST, lower_bound returns the least key >= k, upper_bound the least key > k, select(i) the i-th smallest node and rank(k) the position of k.", "quantifier": "every history of inserts, every key/rank", "why_tests_cant": "The claim is about every reachable state, i.e. every operation history of any length; tests run a handful of histories.", "anchors": ["pydatastructs/trees/binary_trees.py:BinarySearchTree"]}
{"id": "C76", "title": "BST lowest common ancestor", "statement": "lowest_common_ancestor(j,k,algorithm) returns the deepest node having both as descendants, for both algorithms.", "quantifier": "every history of inserts and every pair of keys", "why_tests_cant": "The claim is about every reachable state, i.e. every operation history of any length; tests run a handful of histories.", "anchors": ["pydatastructs/trees/binary_trees.py:BinarySearchTree.lowest_common_ancestor"]}
{"id": "C77", "title": "AVL insert keeps the tree ordered and balanced", "statement": "After any history of inserts the AVL tree is a search tree over the inserted keys and sibling heights differ by at most one.", "quantifier": "every history of inserts", "why_tests_cant": "The claim is about every reachable state, i.e. every operation history of any length; tests run a handful of histories.", "anchors": ["pydatastructs/trees/binary_trees.py:AVLTree"]}
{"id": "C78", "title": "Red-black insert keeps the tree ordered and coloured", "statement": "After any history of inserts the RedBlackTree is a search tree with the red-black colouring rules.", "quantifier": "every history of inserts", "why_tests_cant": "The claim is about every reachable state, i.e. every operation history of any length; tests run a handful of histories.", "anchors": ["pydatastructs/trees/binary_trees.py:RedBlackTree"]}
{"id": "C79", "title": "Splay tree stays a search tree", "statement": "After any history of insertions the splay tree is a search tree whose root holds the key inserted last: the in-order traversal lists the inserted keys in increasing order, search finds exactly the inserted keys with the data inserted last, and the bounds are right.", "quantifier": "every history of inserts, keys may repeat, every total order on the keys", "why_tests_cant": "The claim is about every reachable state, i.e. every operation history of any length; tests run a handful of histories.", "anchors": ["pydatastructs/trees/binary_trees.py:SplayTree"]}
{"id": "C80", "title": "Treap/Cartesian tree keeps both orders", "statement": "Cartesian tree and treap inserts keep keys in search order and priorities in heap order for every priority choice.", "quantifier": "every history of inserts and every random priority", "why_tests_cant": "Random choices and histories.", "anchors": ["pydatastructs/trees/binary_trees.py:CartesianTree", "pydatastructs/trees/binary_trees.py:Treap"]}
{"id": "C81", "title": "Interval segment tree returns exactly the containing intervals", "statement": "OneDimensionalSegmentTree.query(q) returns exactly the intervals of the input that contain the query point, each once (closed intervals, ends in either order); with no intervals at all it raises IndexError.", "quantifier": "every list of intervals and every history of build/query calls", "why_tests_cant": "The set of inputs is infinite; a test samples a few arrays, the claim is for every array, range and comparator.", "anchors": ["pydatastructs/trees/space_partitioning_trees.py:OneDimensionalSegmentTree"]}
{"id": "C82", "title": "Binomial heap decrease_key and delete", "statement": "decrease_key and delete keep the heap order and multiset semantics of a binomial heap.", "quantifier": "every history", "why_tests_cant": "The claim is about every reachable state, i.e. every operation history of any length; tests run a handful of histories.", "anchors": ["pydatastructs/trees/heaps.py:BinomialHeap.decrease_key", "pydatastructs/trees/heaps.py:BinomialHeap.delete"]}
{"id": "C83", "title": "Johnson computes all-pairs distances", "statement": "all_pair_shortest_paths(...,'johnson') returns exact distances for graphs without negative cycles.", "quantifier": "every finite weighted digraph without negative cycle", "why_tests_cant": "All graphs and all paths.", "anchors": ["pydatastructs/graphs/algorithms.py:_johnson_adjacency_list"]}
{"id": "C84", "title": "Red-black delete keeps the tree ordered and coloured", "statement": "After any history of inserts and deletes the RedBlackTree is a search tree over the keys that were inserted after their last delete, with the red-black colouring rules and logarithmic height; delete returns True exactly when the key was present, and no operation raises.", "quantifier": "every history of inserts and deletes", "why_tests_cant": "The claim is about every reachable state, i.e. every operation history of any length; tests run a handful of histories.", "anchors": ["pydatastructs/trees/binary_trees.py:RedBlackTree.delete", "pydatastructs/trees/binary_trees.py:RedBlackTree.insert"]}
{"id": "C85", "title": "AVL delete keeps the tree ordered, balanced and ranked", "statement": "After any history of inserts and deletes the AVLTree is a search tree over the keys that were inserted after their last delete, in every node the depths of the two subtrees differ by at most one and the node stores its height, and with order statistics select and rank count the present keys; delete returns True exactly when the key was present, and no operation raises.", "quantifier": "every history of inserts and deletes, with or without order statistics", "why_tests_cant": "The claim is about every reachable state, i.e. every operation history of any length; tests run a handful of histories.", "anchors": ["pydatastructs/trees/binary_trees.py:AVLTree.delete", "pydatastructs/trees/binary_trees.py:AVLTree._balance_deletion", "pydatastructs/trees/binary_trees.py:BinarySearchTree.delete"]}
{"id": "C86", "title": "Cartesian tree and treap delete keeps search and heap order", "statement": "After any history of inserts and deletes a CartesianTree (or Treap, whatever priorities are drawn) is a search tree over the keys that were inserted after their last delete, no node has a smaller priority than its parent, and every node keeps the priority given with its key; delete returns True exactly when the key was present, and no operation raises.", "quantifier": "every history of inserts and deletes, every choice of priorities", "why_tests_cant": "The claim is about every reachable state, i.e. every operation history of any length; tests run a handful of histories.", "anchors": ["pydatastructs/trees/binary_trees.py:CartesianTree.delete", "pydatastructs/trees/binary_trees.py:CartesianTree._trickle_down", "pydatastructs/trees/binary_trees.py:Treap"]}
{"id": "C87", "title": "A comparison supplied by the user decides the order", "statement": "A binary search tree built with comp=f is a search tree for f: after any history of inserts the in-order traversal lists the keys in the order of f, search finds exactly the inserted keys with the data inserted last, and the bounds are the least keys at or above their argument in the order of f.", "quantifier": "every comparison function f, every history of inserts", "why_tests_cant": "The claim is about every reachable state, i.e. every operation history of any length; tests run a handful of histories.", "anchors": ["pydatastructs/trees/binary_trees.py:BinaryTree.__new__", "pydatastructs/trees/binary_trees.py:BinarySearchTree.insert", "pydatastructs/trees/binary_trees.py:BinarySearchTree.search", "pydatastructs/trees/binary_trees.py:BinarySearchTree.lower_bound"]}
{"id": "C88", "title": "Splay tree delete keeps the search order", "statement": "After any history of inserts and deletes a SplayTree is a search tree over the keys that were inserted after their last delete, and the key inserted last is at the root if no delete followed; delete returns True exactly when the key was present, and no operation raises.", "quantifier": "every history of inserts and deletes", "why_tests_cant": "The claim is about every reachable state, i.e. every operation history of any length; tests run a handful of histories.", "anchors": ["pydatastructs/trees/binary_trees.py:SplayTree.delete", "pydatastructs/trees/binary_trees.py:SplayTree.insert", "pydatastructs/trees/binary_trees.py:SplayTree.splay"]}
{"id": "C89", "title": "Splitting a splay tree divides its entries at the key", "statement": "For a SplayTree built by any history of inserts of distinct keys, split(x) leaves exactly the entries with keys not greater than x in the tree and returns a SplayTree with exactly the entries with greater keys: searches and in-order traversals of both answer accordingly, and the returned tree can be used further.", "quantifier": "every history that builds the tree, every x (present or not), every later history on the returned tree", "why_tests_cant": "The claim is about every reachable state, i.e. every operation history of any length; tests run a handful of histories.", "anchors": ["pydatastructs/trees/binary_trees.py:SplayTree.split", "pydatastructs/trees/binary_trees.py:SplayTree.splay"]}
{"id": "C90", "title": "Joining two splay trees unites their entries", "statement": "For two SplayTrees that are not empty, built by any histories of inserts of distinct keys: if every key of the first is less than every key of the second, join makes the first tree answer searches and the in-order traversal for all entries of both; otherwise it raises ValueError.", "quantifier": "every pair of histories that build the trees", "why_tests_cant": "The claim is about every reachable state, i.e. every operation history of any length; tests run a handful of histories.", "anchors": ["pydatastructs/trees/binary_trees.py:SplayTree.join", "pydatastructs/trees/binary_trees.py:SplayTree.splay"]}
{"id": "C91", "title": "Bubble, insertion, cocktail and merge sort are stable", "statement": "With a comparator that holds exactly when its first argument may come first (such as the default), bubble_sort, insertion_sort, cocktail_shaker_sort and merge_sort_parallel keep elements that the order does not separate in their original sequence; brick_sort and brick_sort_parallel do so with a strict comparator, whatever the order of the jobs.", "quantifier": "every array with None cells, every range, every total preorder with such a comparator, every schedule of the parallel jobs of a phase", "why_tests_cant": "Stability is about every tie pattern in every array; a test only sees the ties it was written with, and elements that compare equal are usually indistinguishable in tests.", "anchors": ["pydatastructs/linear_data_structures/algorithms.py:bubble_sort", "pydatastructs/linear_data_structures/algorithms.py:insertion_sort", "pydatastructs/linear_data_structures/algorithms.py:cocktail_shaker_sort", "pydatastructs/linear_data_structures/algorithms.py:merge_sort_parallel", "pydatastructs/linear_data_structures/algorithms.py:brick_sort", "pydatastructs/linear_data_structures/algorithms.py:brick_sort_parallel"]}
{"id": "C92", "title": "quick_sort sorts whatever pivots are picked", "statement": "With any function pick_pivot_element that returns an element of the current range, quick_sort ends without exception and leaves the range a sorted permutation of itself, everything outside untouched.", "quantifier": "every array with None cells, every range, every total preorder, every pivot function", "why_tests_cant": "The pivot function is supplied by the user and is called on every sub-range that arises; a test can only try a few of them.", "anchors": ["pydatastructs/linear_data_structures/algorithms.py:quick_sort"]}
{"id": "C93", "title": "Sorting a dynamic array compacts and orders its live elements", "statement": "After any history of appends, deletes and sorts on a DynamicOneDimensionalArray, sorting it leaves exactly the live elements, in order, at the positions from 0, and later appends and deletes work as before; iterating it in reverse visits the live elements backwards.", "quantifier": "every history of appends, deletes and sorts, every sorting function of the library, every total preorder", "why_tests_cant": "The claim is about every reachable state, i.e. every operation history of any length; tests run a handful of histories.", "anchors": ["pydatastructs/linear_data_structures/arrays.py:DynamicOneDimensionalArray._modify", "pydatastructs/linear_data_structures/arrays.py:DynamicOneDimensionalArray.__reversed__", "pydatastructs/linear_data_structures/algorithms.py:merge_sort_parallel", "pydatastructs/linear_data_structures/algorithms.py:bubble_sort", "pydatastructs/linear_data_structures/algorithms.py:quick_sort", "pydatastructs/linear_data_structures/algorithms.py:heapsort"]}
{"id": "C94", "title": "bubble_sort with the LLVM back end sorts", "statement": "bubble_sort(array, start=\u2026, end=\u2026, dtype=\u2026, backend=Backend.LLVM) ends without exception and leaves the range a sorted permutation of itself with the None cells last, everything outside untouched; a value that does not fit the element type is an OverflowError, and a comparator is refused.", "quantifier": "every array of integers with None cells, every range, every element type, every history of earlier LLVM sorts in the process", "why_tests_cant": "The machine code is generated once and cached; that it sorts every array, with no read outside the buffer and no overflowing index, is a statement about all lengths and values.", "anchors": ["pydatastructs/linear_data_structures/_backend/cpp/algorithms/llvm_algorithms.py:_build_bubble_sort_ir", "pydatastructs/linear_data_structures/_backend/cpp/algorithms/llvm_algorithms.py:get_bubble_sort_ptr", "pydatastructs/linear_data_structures/_backend/cpp/algorithms/quadratic_time_sort.hpp:bubble_sort_llvm"]}
{"id": "C95", "title": "selection_sort with the LLVM back end sorts", "statement": "selection_sort(array, start=\u2026, end=\u2026, dtype=\u2026, backend=Backend.LLVM) ends without exception and leaves the range a sorted permutation of itself with the None cells last, whatever was called before.", "quantifier": "every array of integers with None cells, every range, every element type, every history of earlier LLVM sorts in the process", "why_tests_cant": "What a call executes depends on what earlier calls left in a process-wide cache; a test sees one history.", "anchors": ["pydatastructs/linear_data_structures/_backend/cpp/algorithms/llvm_algorithms.py:_build_selection_sort_ir", "pydatastructs/linear_data_structures/_backend/cpp/algorithms/llvm_algorithms.py:get_selection_sort_ptr", "pydatastructs/linear_data_structures/_backend/cpp/algorithms/quadratic_time_sort.hpp:selection_sort_llvm"]}
{"id": "C96", "title": "The C++ quadratic sorts sort", "statement": "bubble_sort, selection_sort and insertion_sort with backend=Backend.CPP end without exception and leave the range a sorted permutation of itself (None cells last), everything outside untouched.", "quantifier": "every array with None cells, also empty ones, every range, every total preorder and compatible comparator", "why_tests_cant": "Loop bounds are unsigned machine integers; whether they wrap around depends on lengths and ranges a test does not enumerate.", "anchors": ["pydatastructs/linear_data_structures/_backend/cpp/algorithms/quadratic_time_sort.hpp:bubble_sort_impl", "pydatastructs/linear_data_structures/_backend/cpp/algorithms/quadratic_time_sort.hpp:selection_sort_impl", "pydatastructs/linear_data_structures/_backend/cpp/algorithms/quadratic_time_sort.hpp:insertion_sort_impl", "utils/_backend/cpp/utils.hpp:_comp"]}
{"id": "C97", "title": "The C++ quick sort sorts", "statement": "quick_sort with backend=Backend.CPP ends and leaves the range a sorted permutation of itself (None cells last), everything outside untouched.", "quantifier": "every array with None cells, every range, every total preorder and compatible comparator", "why_tests_cant": "Whether the loop ends depends on the arrangement of the whole range; the arrays in the tests happen to be benign.", "anchors": ["pydatastructs/linear_data_structures/_backend/cpp/algorithms/quick_sort.hpp:quick_sort_impl", "pydatastructs/linear_data_structures/_backend/cpp/algorithms/quick_sort.hpp:quick_sort_partition"]}
{"id": "C98", "title": "The C++ searches find exactly the values that are there", "statement": "With backend=Backend.CPP, linear_search answers the least position of the range that holds the value, binary_search and jump_search on a non-empty sorted range (None cells last) answer a position of the range that holds the value; all answer None exactly when the value is not in the range, and no machine integer overflows.", "quantifier": "every array of less than 2^30 cells, every range, every value including None, every total order and compatible comparator", "why_tests_cant": "A statement about every value, present or absent, in every sorted array, and about every intermediate machine integer.", "anchors": ["pydatastructs/linear_data_structures/_backend/cpp/algorithms/misc_algorithms.hpp:linear_search", "pydatastructs/linear_data_structures/_backend/cpp/algorithms/misc_algorithms.hpp:binary_search", "pydatastructs/linear_data_structures/_backend/cpp/algorithms/misc_algorithms.hpp:jump_search"]}
{"id": "C99", "title": "The C++ is_ordered answers whether the range is sorted", "statement": "is_ordered with backend=Backend.CPP returns True exactly when the elements of the range that are not None are in order.", "quantifier": "every array with None cells, every range, every total preorder and compatible comparator", "why_tests_cant": "It must be right for every arrangement, in particular for ties and None cells anywhere.", "anchors": ["pydatastructs/linear_data_structures/_backend/cpp/algorithms/misc_algorithms.hpp:is_ordered_impl"]}
{"id": "C100", "title": "A C++ adjacency-list graph is a labelled digraph", "statement": "After any history of add_vertex, remove_vertex, add_edge and remove_edge, a Graph with backend=Backend.CPP and implementation adjacency_list answers num_vertices, num_edges, is_adjacent, neighbors and get_edge like the set of vertices and costed edges built by the same history; calls that name unknown vertices raise, and change nothing.", "quantifier": "every history, every iteration order of the hash tables", "why_tests_cant": "The claim is about every reachable state, i.e. every operation history of any length; tests run a handful of histories.", "anchors": ["pydatastructs/graphs/_backend/cpp/AdjacencyList.hpp:AdjacencyListGraph_add_edge", "pydatastructs/graphs/_backend/cpp/AdjacencyList.hpp:AdjacencyListGraph_remove_vertex", "pydatastructs/graphs/_backend/cpp/AdjacencyList.hpp:AdjacencyListGraph_get_edge", "pydatastructs/graphs/_backend/cpp/AdjacencyList.hpp:AdjacencyListGraph_num_edges"]}
{"id": "C101", "title": "The C++ Dijkstra computes shortest distances", "statement": "shortest_paths(graph, 'dijkstra', source) with backend=Backend.CPP ends and returns, for every vertex, the length of a shortest walk from the source over the edges with a value that is not negative (infinite if there is none) and predecessors that describe walks of these lengths; with a target it returns the distance of the target.", "quantifier": "every graph built by any history of operations, every source and target, every iteration order of the hash tables", "why_tests_cant": "Optimality ranges over all walks in all graphs, and the vectors of the function are indexed by ids that depend on the whole history.", "anchors": ["pydatastructs/graphs/_backend/cpp/Algorithms.hpp:shortest_paths_dijkstra_adjacency_list"]}
{"id": "C102", "title": "The C++ breadth first search visits every reachable vertex once, level by level", "statement": "breadth_first_search(graph, source, operation, *args) with backend=Backend.CPP calls operation(node, next, *args) exactly once for every vertex that can be reached from the source (other than the source), in the order of the distances and from a node one step closer; a false answer ends the search, an exception of the operation ends it and is propagated; an unknown source raises.", "quantifier": "every graph built by any history of operations on either implementation, every source, every operation that does not change the graph, every iteration order of the hash tables", "why_tests_cant": "The order and completeness of the calls is a statement about all graphs and all answers of a user supplied function.", "anchors": ["pydatastructs/graphs/_backend/cpp/Algorithms.hpp:breadth_first_search_adjacency_list", "pydatastructs/graphs/_backend/cpp/Algorithms.hpp:breadth_first_search_adjacency_matrix"]}
{"id": "C103", "title": "A C++ adjacency-matrix graph is a labelled digraph on its fixed vertices", "statement": "After any history of add_edge and remove_edge, a Graph with backend=Backend.CPP and implementation adjacency_matrix answers num_vertices, num_edges, is_adjacent, neighbors and get_edge like the set of vertices and costed edges built by the same history; a call that raises changes nothing.", "quantifier": "every list of distinct vertex names, every history, every iteration order of the hash tables", "why_tests_cant": "The claim is about every reachable state, i.e. every operation history of any length; tests run a handful of histories.", "anchors": ["pydatastructs/graphs/_backend/cpp/AdjacencyMatrix.hpp:AdjacencyMatrixGraph_add_edge", "pydatastructs/graphs/_backend/cpp/AdjacencyMatrix.hpp:AdjacencyMatrixGraph_remove_edge", "pydatastructs/graphs/_backend/cpp/AdjacencyMatrix.hpp:AdjacencyMatrixGraph_get_edge", "pydatastructs/graphs/_backend/cpp/AdjacencyMatrix.hpp:AdjacencyMatrixGraph_num_edges"]}
{"id": "C104", "title": "The C++ Prim returns a minimum spanning tree", "statement": "minimum_spanning_tree(graph, 'prim') with backend=Backend.CPP on an undirected graph (every edge added in both directions with the same value) ends and returns a graph whose vertices are those connected to the first vertex and whose edges, in both directions, form a spanning tree of least total value of that part; the input graph is unchanged and the result can be used like any other graph.", "quantifier": "every undirected graph built by any history of operations, every iteration order of the hash tables, every choice the priority queue makes among equal values", "why_tests_cant": "Minimality ranges over all spanning trees of all graphs, and ties are resolved by the standard library in an unspecified way.", "anchors": ["pydatastructs/graphs/_backend/cpp/Algorithms.hpp:minimum_spanning_tree_prim_adjacency_list"]}
{"id": "C105", "title": "The C++ dynamic array and array stack keep their elements in order", "statement": "With backend=Backend.CPP, a DynamicOneDimensionalArray keeps its elements as a sequence under append and delete across every growth and contraction, and an array Stack answers push, pop, peek, len and is_empty as a list; pop and peek on an empty stack raise IndexError; the buffer is never left.", "quantifier": "every history of calls, objects of every kind, every load factor", "why_tests_cant": "The claim is about every reachable state, i.e. every operation history of any length; tests run a handful of histories.", "anchors": ["pydatastructs/linear_data_structures/_backend/cpp/arrays/DynamicOneDimensionalArray.hpp:DynamicOneDimensionalArray__modify", "pydatastructs/linear_data_structures/_backend/cpp/arrays/DynamicOneDimensionalArray.hpp:DynamicOneDimensionalArray_append", "pydatastructs/linear_data_structures/_backend/cpp/arrays/DynamicOneDimensionalArray.hpp:DynamicOneDimensionalArray_delete", "pydatastructs/miscellaneous_data_structures/_backend/cpp/stack/ArrayStack.hpp:ArrayStack_pop", "pydatastructs/miscellaneous_data_structures/_backend/cpp/stack/ArrayStack.hpp:ArrayStack_push"]}
{"id": "C106", "title": "The C++ binary search tree finds what was inserted", "statement": "After any history of inserts, a BinarySearchTree with backend=Backend.CPP (with the default or a supplied strict comparison) answers search with the data inserted last for every key that compares equal to an inserted one, lists the keys in order, answers lower_bound and upper_bound with the least key at or above and above, and, with order statistics, select and rank count in the order of the keys.", "quantifier": "every history of inserts, every key, every strict total comparison", "why_tests_cant": "The claim is about every reachable state, i.e. every operation history of any length; tests run a handful of histories.", "anchors": ["pydatastructs/trees/_backend/cpp/BinarySearchTree.hpp:BinarySearchTree_insert", "pydatastructs/trees/_backend/cpp/BinarySearchTree.hpp:BinarySearchTree_search", "pydatastructs/trees/_backend/cpp/BinarySearchTree.hpp:BinarySearchTree__bound_helper", "pydatastructs/trees/_backend/cpp/BinarySearchTree.hpp:BinarySearchTree_select", "pydatastructs/trees/_backend/cpp/BinarySearchTree.hpp:BinarySearchTree_rank"]}
{"id": "C107", "title": "Deleting from the C++ binary search tree", "statement": "After any history of inserts and deletes, a BinarySearchTree with backend=Backend.CPP answers searches and the in-order traversal for exactly the keys that were inserted after their last delete; delete returns True exactly when the key was present, and no call leaves the memory of the tree.", "quantifier": "every history of inserts and deletes", "why_tests_cant": "The claim is about every reachable state, i.e. every operation history of any length; tests run a handful of histories.", "anchors": ["pydatastructs/trees/_backend/cpp/BinarySearchTree.hpp:BinarySearchTree_delete", "pydatastructs/linear_data_structures/_backend/cpp/arrays/ArrayForTrees.hpp:ArrayForTrees__modify", "pydatastructs/linear_data_structures/_backend/cpp/arrays/ArrayForTrees.hpp:ArrayForTrees_append"]}
{"id": "C108", "title": "The C++ lowest common ancestor", "statement": "After any history of inserts, lowest_common_ancestor(j, k) with backend=Backend.CPP and either algorithm answers the key of the deepest node that has both as descendants if both were inserted, and raises ValueError otherwise.", "quantifier": "every history of inserts, every pair of keys, both algorithms", "why_tests_cant": "Which node is deepest depends on the whole shape; the tests use one small tree with keys that the interpreter shares.", "anchors": ["pydatastructs/trees/_backend/cpp/BinarySearchTree.hpp:BinarySearchTree__lca_1", "pydatastructs/trees/_backend/cpp/BinarySearchTree.hpp:BinarySearchTree__lca_2", "pydatastructs/trees/_backend/cpp/BinarySearchTree.hpp:BinarySearchTree__simple_path"]}
{"id": "C109", "title": "The C++ traversals visit every node once in their order", "statement": "BinaryTreeTraversal with backend=Backend.CPP: pre-, in-, post-, out-order and breadth first traversal from any node of a binary tree end and return exactly the nodes of its subtree, each once, in the order the name says.", "quantifier": "every binary tree, every start node", "why_tests_cant": "Termination and completeness are statements about all shapes of trees.", "anchors": ["pydatastructs/trees/_backend/cpp/BinaryTreeTraversal.hpp:BinaryTreeTraversal__pre_order", "pydatastructs/trees/_backend/cpp/BinaryTreeTraversal.hpp:BinaryTreeTraversal__in_order", "pydatastructs/trees/_backend/cpp/BinaryTreeTraversal.hpp:BinaryTreeTraversal__post_order", "pydatastructs/trees/_backend/cpp/BinaryTreeTraversal.hpp:BinaryTreeTraversal_breadth_first_search"]}
{"id": "C110", "title": "The C++ Fenwick tree answers prefix sums under updates", "statement": "With backend=Backend.CPP, after any history of updates BinaryIndexedTree.get_sum(l, r) equals the sum of the current values in l..r, an update outside the array raises IndexError and changes nothing.", "quantifier": "every integer array and update history", "why_tests_cant": "The sums are computed in machine integers along paths that depend on every bit of the index; a test sees a few small values.", "anchors": ["pydatastructs/trees/_backend/cpp/BinaryIndexedTree.hpp:BinaryIndexedTree_update", "pydatastructs/trees/_backend/cpp/BinaryIndexedTree.hpp:BinaryIndexedTree_get_prefix_sum", "pydatastructs/trees/_backend/cpp/BinaryIndexedTree.hpp:BinaryIndexedTree_get_sum", "pydatastructs/trees/_backend/cpp/BinaryIndexedTree.hpp:BinaryIndexedTree___new__"]}
{"id": "C111", "title": "The C++ AVL tree is balanced and finds what was inserted", "statement": "After any history of inserts, an AVLTree with backend=Backend.CPP answers search with the data inserted last for every inserted key, lists the keys in order, answers lower_bound, upper_bound and, with order statistics, select and rank in the order of the keys, stores the height of every node, and sibling subtrees differ in height by at most one, so that the height is logarithmic.", "quantifier": "every history of inserts, of every length, every strict total comparison", "why_tests_cant": "Balance depends on the whole history, and positions are compared by object identity, which changes behaviour only beyond 257 nodes; no test is that long.", "anchors": ["pydatastructs/trees/_backend/cpp/AVLTree.hpp:AVLTree_insert", "pydatastructs/trees/_backend/cpp/AVLTree.hpp:AVLTree__balance_insertion", "pydatastructs/trees/_backend/cpp/SelfBalancingBinaryTree.hpp:SelfBalancingBinaryTree__left_rotate"]}
{"id": "C112", "title": "Deleting from the C++ AVL tree", "statement": "After any history of inserts and deletes, an AVLTree with backend=Backend.CPP answers searches, in-order traversal and, with order statistics, select and rank for exactly the keys present, stores the height of every node and is balanced; delete returns True exactly when the key was present.", "quantifier": "every history of inserts and deletes", "why_tests_cant": "The claim is about every reachable state, i.e. every operation history of any length; tests run a handful of histories.", "anchors": ["pydatastructs/trees/_backend/cpp/AVLTree.hpp:AVLTree_delete", "pydatastructs/trees/_backend/cpp/AVLTree.hpp:AVLTree__balance_delete", "pydatastructs/trees/_backend/cpp/BinarySearchTree.hpp:BinarySearchTree_delete"]}
{"id": "C113", "title": "The C++ red-black tree is balanced and finds what was inserted", "statement": "After any history of inserts, a RedBlackTree with backend=Backend.CPP answers search with the data inserted last for every inserted key, lists the keys in order and answers lower_bound and upper_bound; every node is black or red, the root is black, no red node has a red child and all ways down pass the same number of black nodes, so that the height is logarithmic.", "quantifier": "every history of inserts, every strict total comparison", "why_tests_cant": "The claim is about every reachable state, i.e. every operation history of any length; tests run a handful of histories.", "anchors": ["pydatastructs/trees/_backend/cpp/RedBlackTree.hpp:RedBlackTree_insert", "pydatastructs/trees/_backend/cpp/RedBlackTree.hpp:RedBlackTree___fix_insert", "pydatastructs/trees/_backend/cpp/SelfBalancingBinaryTree.hpp:SelfBalancingBinaryTree__left_rotate"]}
{"id": "C114", "title": "Deleting from the C++ red-black tree", "statement": "After any history of inserts and deletes, a RedBlackTree with backend=Backend.CPP answers searches and the in-order traversal for exactly the keys present and is a red-black tree; delete returns True exactly when the key was present.", "quantifier": "every history of inserts and deletes", "why_tests_cant": "The claim is about every reachable state, i.e. every operation history of any length; tests run a handful of histories.", "anchors": ["pydatastructs/trees/_backend/cpp/RedBlackTree.hpp:RedBlackTree_delete", "pydatastructs/trees/_backend/cpp/RedBlackTree.hpp:RedBlackTree___fix_deletion", "pydatastructs/trees/_backend/cpp/RedBlackTree.hpp:RedBlackTree__transplant_values"]}
{"id": "C115", "title": "The C++ splay tree finds what was inserted", "statement": "After any history of inserts, a SplayTree with backend=Backend.CPP has the key inserted last at the root, lists the inserted keys in order with the data inserted last, and answers search, lower_bound and upper_bound for exactly those keys.", "quantifier": "every history of inserts, every strict total comparison", "why_tests_cant": "The claim is about every reachable state, i.e. every operation history of any length; tests run a handful of histories.", "anchors": ["pydatastructs/trees/_backend/cpp/SplayTree.hpp:SplayTree_insert", "pydatastructs/trees/_backend/cpp/SplayTree.hpp:SplayTree_splay"]}
{"id": "C116", "title": "Deleting from the C++ splay tree", "statement": "After any history of inserts and deletes, a SplayTree with backend=Backend.CPP answers searches and the in-order traversal for exactly the keys present; delete returns True exactly when the key was present.", "quantifier": "every history of inserts and deletes", "why_tests_cant": "The claim is about every reachable state, i.e. every operation history of any length; tests run a handful of histories.", "anchors": ["pydatastructs/trees/_backend/cpp/SplayTree.hpp:SplayTree_delete", "pydatastructs/trees/_backend/cpp/SplayTree.hpp:SplayTree_splay", "pydatastructs/trees/_backend/cpp/BinarySearchTree.hpp:BinarySearchTree_delete"]}
{"id": "C117", "title": "Splitting a C++ splay tree", "statement": "split(x) on a SplayTree with backend=Backend.CPP leaves the entries with keys up to x in the tree and returns a tree with the greater ones, which can be used further.", "quantifier": "every tree built by inserts and deletes and every x", "why_tests_cant": "The claim is about every reachable state, i.e. every operation history of any length; tests run a handful of histories.", "anchors": ["pydatastructs/trees/_backend/cpp/SplayTree.hpp:SplayTree_split", "pydatastructs/trees/_backend/cpp/SplayTree.hpp:SplayTree__pre_order"]}
{"id": "C118", "title": "Joining C++ splay trees", "statement": "join(other) on a SplayTree with backend=Backend.CPP makes the tree serve the entries of both when all its keys are less than those of the other, and raises ValueError otherwise.", "quantifier": "every pair of trees that are not empty", "why_tests_cant": "The claim is about every reachable state, i.e. every operation history of any length; tests run a handful of histories.", "anchors": ["pydatastructs/trees/_backend/cpp/SplayTree.hpp:SplayTree_join"]}
{"id": "C119", "title": "C++ Cartesian trees and treaps: search order and heap order", "statement": "After any history of insert(key, priority, data) calls a CartesianTree with backend=Backend.CPP lists the inserted keys in order with the data and the priority given last, answers search for exactly those keys, and no node has a smaller priority than a node above it; likewise a Treap for every outcome of rand().", "quantifier": "every history of inserts, every integer priority, every strict total comparison, every sequence of random numbers", "why_tests_cant": "Priorities are stored as C doubles and the shape depends on all of them; a test uses a handful of small ones.", "anchors": ["pydatastructs/trees/_backend/cpp/CartesianTree.hpp:CartesianTree_insert", "pydatastructs/trees/_backend/cpp/CartesianTree.hpp:Cartesian_Tree__bubble_up", "pydatastructs/trees/_backend/cpp/Treap.hpp:Treap_insert"]}
{"id": "C120", "title": "Deleting from C++ Cartesian trees and treaps", "statement": "After any history of inserts and deletes a CartesianTree or Treap with backend=Backend.CPP answers searches and the in-order traversal for exactly the keys present and is a heap for the priorities; delete returns True exactly when the key was present.", "quantifier": "every history of inserts and deletes", "why_tests_cant": "The claim is about every reachable state, i.e. every operation history of any length; tests run a handful of histories.", "anchors": ["pydatastructs/trees/_backend/cpp/CartesianTree.hpp:CartesianTree_delete", "pydatastructs/trees/_backend/cpp/CartesianTree.hpp:Cartesian_Tree__trickle_down", "pydatastructs/trees/_backend/cpp/BinarySearchTree.hpp:BinarySearchTree_delete"]}
{"id": "C121", "title": "The array of a tree keeps every other node when one is removed", "statement": "delete(i) of ArrayForTrees, in Python and in C++, keeps every node but the one at i: if less than a quarter of the cells remains in use the nodes move to the front in the same order, every left, right and parent link leads to the same node as before, and the dictionary returned maps every remaining key to its new position; otherwise no node moves and None is returned.", "quantifier": "every array of tree nodes with distinct keys, every position, every length", "why_tests_cant": "Whether the array contracts, and which nodes move, depends on the whole history of insertions and deletions.", "anchors": ["pydatastructs/linear_data_structures/arrays.py:ArrayForTrees._modify", "pydatastructs/linear_data_structures/arrays.py:DynamicOneDimensionalArray.delete", "pydatastructs/linear_data_structures/_backend/cpp/arrays/ArrayForTrees.hpp:ArrayForTrees__modify"]}
{"id": "C122", "title": "An algorithm name selects the algorithm it stands for, or is refused", "statement": "For minimum_spanning_tree, minimum_spanning_tree_parallel, strongly_connected_components, shortest_paths, all_pair_shortest_paths, topological_sort, topological_sort_parallel and max_flow: a documented name given as algorithm runs the algorithm it stands for, and every other string raises NotImplementedError before anything is done to the graph; breadth and depth first search exist for both implementations of graphs.", "quantifier": "every string given as algorithm, both implementations, both back ends", "why_tests_cant": "The name of a function is built from the string and looked up in the whole module; a test tries a handful of strings out of infinitely many.", "anchors": ["pydatastructs/graphs/algorithms.py:minimum_spanning_tree", "pydatastructs/graphs/algorithms.py:shortest_paths", "pydatastructs/graphs/algorithms.py:all_pair_shortest_paths", "pydatastructs/graphs/algorithms.py:topological_sort", "pydatastructs/graphs/algorithms.py:max_flow", "pydatastructs/graphs/algorithms.py:strongly_connected_components"]}
{"id": "C123", "title": "find answers all positions of the query or refuses the algorithm name", "statement": "find(text, query, algorithm) returns exactly the positions where the query occurs for every name it accepts, and raises NotImplementedError for every other string that does not start with an underscore.", "quantifier": "every string given as algorithm, every text and every query that is not empty", "why_tests_cant": "The name of a function is built from the string and looked up in the whole module, helper functions included; a test tries a handful of strings.", "anchors": ["pydatastructs/strings/algorithms.py:find"]}
{"id": "C124", "title": "Logarithmic operations take logarithmically many steps", "statement": "binary_search, lower_bound and upper_bound in m elements look at no more than log2(m) + 1 of them, whatever the contents; insert and extract of a heap of n elements whose nodes have at least two children move an element by no more than log2(n + 1) levels; a binomial heap of n elements has no more than log2(n) + 1 trees; prefix sums and updates of a Fenwick tree of n elements touch no more than log2(n) + 1 cells; find_root of a key in a set of m keys follows no more than log2(m) links as long as make_root is not called.", "quantifier": "every array, heap, tree and every history of calls, of any size", "why_tests_cant": "A time bound is a claim about inputs of every size; a test measures a few sizes.", "anchors": ["pydatastructs/linear_data_structures/algorithms.py:binary_search", "pydatastructs/linear_data_structures/algorithms.py:lower_bound", "pydatastructs/linear_data_structures/algorithms.py:upper_bound", "pydatastructs/trees/heaps.py:DHeap.insert", "pydatastructs/trees/heaps.py:DHeap.extract", "pydatastructs/trees/heaps.py:BinomialHeap", "pydatastructs/trees/binary_trees.py:BinaryIndexedTree", "pydatastructs/miscellaneous_data_structures/disjoint_set.py:DisjointSetForest.find_root", "pydatastructs/miscellaneous_data_structures/disjoint_set.py:DisjointSetForest.make_root"]}
{"id": "C125", "title": "Choosing the C++ back end does not change the answers", "statement": "bubble_sort, selection_sort, insertion_sort, quick_sort, linear_search, binary_search and is_ordered, the array stack, the binary indexed tree, the search trees (binary search tree, AVL, red-black, splay and Cartesian tree, treap) and adjacency-list graphs give, call by call, the same results with backend=Backend.CPP as with backend=Backend.PYTHON; trees even have the same nodes in the same positions of their arrays.", "quantifier": "every array, comparator and range, every history of calls", "why_tests_cant": "The two back ends are separate programs; equality on a few inputs says nothing about the others, and equality of histories is a claim about all of them.", "anchors": ["pydatastructs/linear_data_structures/_backend/cpp/algorithms/quadratic_time_sort.hpp:bubble_sort", "pydatastructs/linear_data_structures/_backend/cpp/algorithms/quick_sort.hpp:quick_sort", "pydatastructs/trees/_backend/cpp/BinarySearchTree.hpp:BinarySearchTree_insert", "pydatastructs/trees/_backend/cpp/BinarySearchTree.hpp:BinarySearchTree_delete", "pydatastructs/trees/_backend/cpp/RedBlackTree.hpp:RedBlackTree_insert", "pydatastructs/graphs/_backend/cpp/AdjacencyList.hpp:AdjacencyListGraph_add_edge", "pydatastructs/linear_data_structures/algorithms.py:bubble_sort", "pydatastructs/trees/binary_trees.py:BinarySearchTree.insert", "pydatastructs/graphs/adjacency_list.py:AdjacencyList.add_edge"]}
{"id": "C126", "title": "Balanced search trees work in logarithmic time", "statement": "In an AVLTree into which keys from a set of n keys are inserted, in any order and however often, no loop of insert, search, lower_bound, upper_bound and, with order statistics, select and rank takes more than 1.5 log2(n + 1) + 3 rounds; in a RedBlackTree into which n different keys are inserted, no loop of insert, search, lower_bound and upper_bound takes more than 2 log2(n + 1) + 4 rounds.", "quantifier": "every history of insertions of any length, every key looked up and every strict total comparison", "why_tests_cant": "A time bound is a claim about trees of every size built by every history; a test measures a few.", "anchors": ["pydatastructs/trees/binary_trees.py:AVLTree.insert", "pydatastructs/trees/binary_trees.py:RedBlackTree.insert", "pydatastructs/trees/binary_trees.py:BinarySearchTree.search", "pydatastructs/trees/binary_trees.py:BinarySearchTree.lower_bound", "pydatastructs/trees/binary_trees.py:BinarySearchTree.select", "pydatastructs/trees/binary_trees.py:BinarySearchTree.rank"]}
{"id": "C127", "title": "The choice of the sorting algorithm does not matter", "statement": "When no two different values of the range are equivalent under the comparator, bubble, selection, insertion, merge, quick (default pivot), heap, shell, intro and cocktail shaker sort all leave the same array behind, sorting twice is sorting once, and the arrangement before does not matter; with equivalent values this holds for the stable sorts. counting_sort and radix_sort agree with them on integers.", "quantifier": "every array, range, comparator of a total preorder, depth limit and threshold of intro_sort and schedule of the parallel brick sort", "why_tests_cant": "Agreement of different programs on all inputs; comparing outputs on samples does not show it.", "anchors": ["pydatastructs/linear_data_structures/algorithms.py:bubble_sort", "pydatastructs/linear_data_structures/algorithms.py:selection_sort", "pydatastructs/linear_data_structures/algorithms.py:merge_sort_parallel", "pydatastructs/linear_data_structures/algorithms.py:quick_sort", "pydatastructs/linear_data_structures/algorithms.py:heapsort", "pydatastructs/linear_data_structures/algorithms.py:intro_sort", "pydatastructs/linear_data_structures/algorithms.py:counting_sort", "pydatastructs/linear_data_structures/algorithms.py:radix_sort"]}
{"id": "C128", "title": "next_permutation steps through all arrangements", "statement": "The client loop that begins with the sorted arrangement and calls next_permutation until it answers False meets every arrangement of the values exactly once, in lexicographic order, n! of them when the n values are different; begun elsewhere it meets exactly the arrangements from there on. When the values are different, prev_permutation undoes next_permutation.", "quantifier": "every list of values, with repetitions or not, of any length, and every strict total comparison", "why_tests_cant": "The number of arrangements grows as n!; a test enumerates them for a few small n.", "anchors": ["pydatastructs/linear_data_structures/algorithms.py:next_permutation", "pydatastructs/linear_data_structures/algorithms.py:prev_permutation"]}
{"id": "C129", "title": "The shortest path algorithms agree", "statement": "Without a negative cycle, Bellman-Ford from each vertex and Floyd-Warshall answer the same distances; with non-negative weights Dijkstra's algorithm too; Johnson's algorithm raises ValueError exactly when Bellman-Ford finds a negative cycle from some vertex, and otherwise answers the same.", "quantifier": "every weighted graph, pair of vertices and iteration order of the edge dictionary", "why_tests_cant": "Agreement of different programs on all graphs; comparing outputs on samples does not show it.", "anchors": ["pydatastructs/graphs/algorithms.py:_bellman_ford_adjacency_list", "pydatastructs/graphs/algorithms.py:_floyd_warshall_adjacency_list", "pydatastructs/graphs/algorithms.py:_dijkstra_adjacency_list", "pydatastructs/graphs/algorithms.py:_johnson_adjacency_list"]}
{"id": "C130", "title": "The search trees are interchangeable", "statement": "After the same non-empty history of insertions, a BinarySearchTree, an AVLTree, a RedBlackTree, a CartesianTree or Treap (whatever the priorities) and, where its insertions are sound, a SplayTree show a client the same: search finds the same keys with the same data, lower_bound and upper_bound answer the same keys, and the in-order traversal lists the same keys and data.", "quantifier": "every non-empty history of insertions, keys repeated or not, every priority assignment and every strict total comparison", "why_tests_cant": "Agreement of five programs over all histories; comparing outputs on samples does not show it.", "anchors": ["pydatastructs/trees/binary_trees.py:BinarySearchTree", "pydatastructs/trees/binary_trees.py:AVLTree", "pydatastructs/trees/binary_trees.py:RedBlackTree", "pydatastructs/trees/binary_trees.py:CartesianTree", "pydatastructs/trees/binary_trees.py:SplayTree", "pydatastructs/trees/binary_trees.py:BinaryTreeTraversal"]}
{"id": "C131", "title": "The priority queues are interchangeable, and each of them sorts", "statement": "On a history of push, pop, peek and is_empty calls in which entries with equivalent priorities are equal, the linked-list, binary-heap and binomial-heap priority queues give the same answers, call by call; pushing entries and popping them all returns the values in priority order with each of them.", "quantifier": "every history of calls, every total preorder of priorities and every strict or non-strict comparator for it", "why_tests_cant": "Agreement of three programs over all histories; comparing outputs on samples does not show it.", "anchors": ["pydatastructs/miscellaneous_data_structures/queue.py:LinkedListPriorityQueue", "pydatastructs/miscellaneous_data_structures/queue.py:BinaryHeapPriorityQueue", "pydatastructs/miscellaneous_data_structures/queue.py:BinomialHeapPriorityQueue"]}
{"id": "C132", "title": "The algorithms of find agree", "statement": "find(text, query, algorithm) returns the same positions for kmp, rabin_karp, boyer_moore and z_function.", "quantifier": "every text and query", "why_tests_cant": "Agreement of four programs on all strings; a hash collision or a separator in the text does not turn up in samples.", "anchors": ["pydatastructs/strings/algorithms.py:_knuth_morris_pratt", "pydatastructs/strings/algorithms.py:_rabin_karp", "pydatastructs/strings/algorithms.py:_boyer_moore", "pydatastructs/strings/algorithms.py:_z_function"]}
{"id": "C133", "title": "A C++ one-dimensional array stores what it is given", "statement": "OneDimensionalArray with backend=Backend.CPP: a constructor makes the given cells or refuses them; reading a valid index returns the object last stored there, other indices raise IndexError (OverflowError beyond 64 bits); storing an object that is not an instance of the type is refused and changes nothing; fill and len behave like those of a list; on calls with valid indices and instances of the type the answers are those of the Python array.", "quantifier": "every constructor call, every history of reads, writes, fills and len calls", "why_tests_cant": "The claim is about every reachable state, i.e. every operation history of any length; tests run a handful of histories.", "anchors": ["pydatastructs/linear_data_structures/_backend/cpp/arrays/OneDimensionalArray.hpp:OneDimensionalArray___new__", "pydatastructs/linear_data_structures/_backend/cpp/arrays/OneDimensionalArray.hpp:OneDimensionalArray___setitem__", "pydatastructs/linear_data_structures/_backend/cpp/arrays/OneDimensionalArray.hpp:OneDimensionalArray_fill"]}
{"id": "C134", "title": "The C++ arrays and stacks hold a reference for every cell and give it back", "statement": "No object stored in a C++ OneDimensionalArray, DynamicOneDimensionalArray or Stack is freed while a cell or the caller still refers to it, and once it is in no cell any more, or the array is gone, the array keeps no reference to it.", "quantifier": "every constructor call, every history of calls, every number of references held elsewhere", "why_tests_cant": "A reference count that is wrong by one shows up only when an object happens to be freed; no assertion on results sees it.", "anchors": ["pydatastructs/linear_data_structures/_backend/cpp/arrays/OneDimensionalArray.hpp:OneDimensionalArray___new__", "pydatastructs/linear_data_structures/_backend/cpp/arrays/OneDimensionalArray.hpp:OneDimensionalArray_dealloc", "pydatastructs/linear_data_structures/_backend/cpp/arrays/DynamicOneDimensionalArray.hpp:DynamicOneDimensionalArray_delete", "pydatastructs/miscellaneous_data_structures/_backend/cpp/stack/ArrayStack.hpp:ArrayStack_pop"]}
{"id": "C135", "title": "The minimum spanning tree algorithms agree", "statement": "On an undirected connected graph with costs and at least one edge, Kruskal and parallel Kruskal (adjacency list and matrix), Prim and parallel Prim, and Prim with backend=Backend.CPP return graphs in which get_edge shows the same total cost, which is the least possible; if no two edges have the same cost they show the same edges.", "quantifier": "every such graph, every number of threads, every iteration order of the C++ hash maps and every choice of the priority queue among equal entries", "why_tests_cant": "Seven programs that choose edges in different orders; equality of the results rests on the theory of minimum spanning trees, not on samples.", "anchors": ["pydatastructs/graphs/algorithms.py:_minimum_spanning_tree_kruskal_adjacency_list", "pydatastructs/graphs/algorithms.py:_minimum_spanning_tree_kruskal_adjacency_matrix", "pydatastructs/graphs/algorithms.py:_minimum_spanning_tree_prim_adjacency_list", "pydatastructs/graphs/algorithms.py:_minimum_spanning_tree_parallel_kruskal_adjacency_list", "pydatastructs/graphs/algorithms.py:_minimum_spanning_tree_parallel_prim_adjacency_list"]}
{"id": "C136", "title": "The maximum flow algorithms agree", "statement": "max_flow with 'edmonds_karp' and with 'dinic' returns the same value.", "quantifier": "every network with non-negative capacities", "why_tests_cant": "Two loops over searches in a changing residual network; whether they find the same paths is a statement about all networks.", "anchors": ["pydatastructs/graphs/algorithms.py:_max_flow_edmonds_karp_", "pydatastructs/graphs/algorithms.py:_max_flow_dinic_"]}
{"id": "C137", "title": "The algorithms for strongly connected components agree", "statement": "strongly_connected_components with 'kosaraju' and with 'tarjan' returns the same sets of vertices, up to order.", "quantifier": "every directed graph", "why_tests_cant": "Two different traversals; agreement on the sets is a statement about all digraphs.", "anchors": ["pydatastructs/graphs/algorithms.py:_strongly_connected_components_kosaraju_adjacency_list", "pydatastructs/graphs/algorithms.py:_strongly_connected_components_tarjan_adjacency_list"]}
{"id": "C138", "title": "Range query objects share the array of their caller", "statement": "RangeQueryStatic and RangeQueryDynamic refuse an empty array with ValueError and an unknown data_structure with NotImplementedError; with the supported ones no answer and no later content of the array passed to the constructor depends on which was chosen: update(i, x) makes the caller's array hold x at i exactly as array[i] = x does, and queries answer from it.", "quantifier": "every array, every name, every associative function, every history of updates and queries with looks at the caller's array in between (queries after updates with a negative index: see C47)", "why_tests_cant": "Two objects over one shared array, one of which keeps a second copy in its nodes; a statement about all histories.", "anchors": ["pydatastructs/miscellaneous_data_structures/algorithms.py:RangeQueryStatic", "pydatastructs/miscellaneous_data_structures/algorithms.py:RangeQueryDynamic", "pydatastructs/miscellaneous_data_structures/segment_tree.py:OneDimensionalArraySegmentTree.update"]}
{"id": "C139", "title": "A segment tree answers once it is built", "statement": "An ArraySegmentTree refuses query and update with ValueError until build is called; build ends, makes is_ready true, and calling it again changes nothing.", "quantifier": "every array and every history of build, update, query and is_ready calls in any order", "why_tests_cant": "The order of the calls and the length of the array are arbitrary; whether build ends is a statement about all arrays.", "anchors": ["pydatastructs/miscellaneous_data_structures/segment_tree.py:OneDimensionalArraySegmentTree.build", "pydatastructs/miscellaneous_data_structures/segment_tree.py:OneDimensionalArraySegmentTree.is_ready", "pydatastructs/miscellaneous_data_structures/segment_tree.py:ArraySegmentTree"]}
{"id": "C140", "title": "The shape of a multi-dimensional array", "statement": "MultiDimensionalArray(dtype, d1, ..., dk) refuses a dimension below 1 with ValueError, otherwise it has d1*...*dk cells holding None and shape is (d1, ..., dk); fill(x) makes every cell dtype(x) and keeps the shape, and if dtype(x) raises nothing changes.", "quantifier": "every list of integers as dimensions, every state of the array, every element and every conversion", "why_tests_cant": "The number of dimensions and their sizes are arbitrary; shape is computed back from products.", "anchors": ["pydatastructs/linear_data_structures/arrays.py:MultiDimensionalArray.__new__", "pydatastructs/linear_data_structures/arrays.py:MultiDimensionalArray.shape", "pydatastructs/linear_data_structures/arrays.py:MultiDimensionalArray.fill"]}
{"id": "C141", "title": "Skip list levels and text", "statement": "After any history of insertions, searches and extractions, `levels` is the number of levels of the skip list: the lowest level holds every element in order, each level holds some of the elements of the level below it, the highest is not empty when there are two or more, and there are at most one more than the insertions made. `str` ends and shows exactly these levels, the highest first, one line per level and one column per element, with the element where its node reaches the level and None elsewhere. (The full claim, that the lowest line shows every element, holds exactly when no key occurs twice.)", "quantifier": "every history of calls, every sequence of random bits, every total order of keys, every way of showing a node", "why_tests_cant": "the levels depend on the random bits of all the insertions and on which towers were removed; tests fix one seed", "anchors": ["pydatastructs/linear_data_structures/linked_lists.py:SkipList.__str__", "pydatastructs/linear_data_structures/linked_lists.py:SkipList.levels", "pydatastructs/linear_data_structures/linked_lists.py:SkipList._add_level"]}
{"id": "C142", "title": "Sort, then search", "statement": "After any of the sorting functions, the searches answer questions about the values that were in the array before: linear_search, binary_search and jump_search return a position that holds the value exactly if the value was among them and None otherwise, lower_bound returns how many of the values are smaller and upper_bound that number plus the number of occurrences.", "quantifier": "every non-empty array of values, every sorting algorithm (nine comparison sorts, every depth limit and threshold of intro_sort), every value searched, every total order without ties", "why_tests_cant": "sorting and searching are tested apart, on a few arrays; the contract that connects them (what a search requires of its input is what a sort guarantees) quantifies over all arrays", "anchors": ["pydatastructs/linear_data_structures/algorithms.py:binary_search", "pydatastructs/linear_data_structures/algorithms.py:lower_bound", "pydatastructs/linear_data_structures/algorithms.py:upper_bound", "pydatastructs/linear_data_structures/algorithms.py:jump_search", "pydatastructs/linear_data_structures/algorithms.py:quick_sort"]}
{"id": "C143", "title": "The implementation of a stack or queue is chosen by name and does not matter", "statement": "Stack, Queue and PriorityQueue make the implementation named, with the items given, and raise NotImplementedError for every other name. The stacks of both names answer every history alike, the queues of both names too, and a queue that is not double-ended raises NotImplementedError for appendleft and pop without being disturbed. The three priority queues serve by priority. (False of the code where: peek of an empty stack raises with one implementation and answers None with the other; an array queue cannot be made from an empty list; array queues lose elements in the histories of C31; the binomial heap ignores the comparator.)", "quantifier": "every name, every initial list of items, every history of calls, every compatible comparator", "why_tests_cant": "that two implementations agree on every history is a statement about pairs of runs; tests compare a few hand-made ones with literals", "anchors": ["pydatastructs/miscellaneous_data_structures/stack.py:Stack.__new__", "pydatastructs/miscellaneous_data_structures/queue.py:Queue.__new__", "pydatastructs/miscellaneous_data_structures/queue.py:PriorityQueue.__new__", "pydatastructs/miscellaneous_data_structures/queue.py:Queue._double_ended_check"]}
{"id": "C144", "title": "Topological sorting, strongly connected components and searches agree", "statement": "topological_sort and topological_sort_parallel return an order of the vertices in which every edge goes forward if every set that strongly_connected_components(graph, 'tarjan') returns is a single vertex without an edge to itself, and raise ValueError otherwise; two vertices are in the same set exactly if a breadth first search from each of them visits the other, and exactly if a depth first search does.", "quantifier": "every finite digraph in an adjacency list, every pair of vertices; for the parallel version every positive number of threads and every schedule", "why_tests_cant": "a test can compare the algorithms on a few graphs; that they agree needs the correctness of each of them on every graph", "anchors": ["pydatastructs/graphs/algorithms.py:topological_sort", "pydatastructs/graphs/algorithms.py:topological_sort_parallel", "pydatastructs/graphs/algorithms.py:strongly_connected_components", "pydatastructs/graphs/algorithms.py:breadth_first_search", "pydatastructs/graphs/algorithms.py:depth_first_search"]}
{"id": "C145", "title": "Searches and shortest paths agree", "statement": "On a weighted graph without a negative cycle, breadth first and depth first search from s visit the same vertices, namely those to which shortest_paths(\u2026, 'bellman_ford') and all_pair_shortest_paths(\u2026, 'floyd_warshall') answer a finite distance; if every edge weighs 1, breadth first search calls the operation on the vertices in the order of these distances, each from a vertex that is one closer.", "quantifier": "every weighted digraph without a negative cycle, every source and every vertex", "why_tests_cant": "a test can compare the algorithms on a few graphs; that they agree needs the correctness of each of them on every graph", "anchors": ["pydatastructs/graphs/algorithms.py:breadth_first_search", "pydatastructs/graphs/algorithms.py:depth_first_search", "pydatastructs/graphs/algorithms.py:shortest_paths", "pydatastructs/graphs/algorithms.py:all_pair_shortest_paths"]}
{"id": "C146", "title": "The structures for range sums agree", "statement": "For the same non-empty array of integers, after the same updates (at any non-negative index, with any value), a BinaryIndexedTree, a dynamic range query object with a segment tree, one with the array itself and, while no sum leaves the range of a long, the C++ BinaryIndexedTree answer the same sum for every range of the array, and raise IndexError for the same updates; on an array that is not updated a sparse table and a static array query do too.", "quantifier": "every non-empty array of integers, every history of updates and sums of ranges l \u2264 r < n", "why_tests_cant": "a test can compare the structures for some histories; that four data structures with different layouts of partial sums stay equal has to hold for all", "anchors": ["pydatastructs/trees/binary_trees.py:BinaryIndexedTree", "pydatastructs/miscellaneous_data_structures/algorithms.py:RangeQueryDynamicSegmentTree", "pydatastructs/miscellaneous_data_structures/algorithms.py:RangeQueryDynamicArray", "pydatastructs/miscellaneous_data_structures/algorithms.py:RangeQueryStaticSparseTable", "pydatastructs/miscellaneous_data_structures/algorithms.py:RangeQueryStaticArray"]}
{"id": "C147", "title": "Containers that keep their keys in order sort as the sorting functions do", "statement": "For different keys in any order there is one arrangement s of them such that bubble, selection, insertion, merge, quick, heap, shell, intro and cocktail shaker sort all turn the array of the keys into s; the in-order traversal of a BinarySearchTree, AVLTree, RedBlackTree, CartesianTree or Treap, or SplayTree in which they are inserted lists s; the linked-list, binary-heap and binomial-heap priority queues into which they are pushed give them back in the order s; and a skip list into which they are inserted reads s from left to right.", "quantifier": "every non-empty list of different keys, every strict total order and comparator that is compatible with it, all data, priorities and coin flips", "why_tests_cant": "a test can compare the outputs for some lists; that fifteen different data structures and algorithms define the same order has to hold for every list, priority and coin", "anchors": ["pydatastructs/trees/binary_trees.py:BinarySearchTree.insert", "pydatastructs/trees/binary_trees.py:AVLTree.insert", "pydatastructs/trees/binary_trees.py:RedBlackTree.insert", "pydatastructs/trees/binary_trees.py:CartesianTree.insert", "pydatastructs/trees/binary_trees.py:SplayTree.insert", "pydatastructs/trees/binary_trees.py:BinaryTreeTraversal.depth_first_search", "pydatastructs/linear_data_structures/queue.py:PriorityQueue", "pydatastructs/linear_data_structures/linked_lists.py:SkipList.insert", "pydatastructs/linear_data_structures/algorithms.py:bubble_sort"]}
{"id": "C148", "title": "front, rear and str of an array queue show where its elements are", "statement": "After any calls for which an ArrayQueue answers like a list, front and rear are the positions in its array of the first and last elements, the elements lie between them in order, and str shows exactly the elements that are in the queue.", "quantifier": "every starting list and every sequence of append, appendleft, pop, popleft and len calls", "why_tests_cant": "the two positions are changed by every call and renumbered whenever the array is compacted, so their meaning depends on the whole history", "anchors": ["pydatastructs/miscellaneous_data_structures/queue.py:ArrayQueue.front", "pydatastructs/miscellaneous_data_structures/queue.py:ArrayQueue.rear", "pydatastructs/miscellaneous_data_structures/queue.py:ArrayQueue.__str__"]}
{"id": "C149", "title": "Tarjan's algorithm lists the components in reverse topological order", "statement": "strongly_connected_components with the Tarjan algorithm lists the components so that a component that can be reached from another one comes before it; for a digraph without cycle the vertices in the opposite order are therefore in topological order.", "quantifier": "every digraph, every order of its vertices and of the neighbours of each", "why_tests_cant": "the order is produced by the nesting of the recursive calls on the whole graph; a test sees the order for a few graphs only, and a set comparison, as the repository makes it, does not see it at all", "anchors": ["pydatastructs/graphs/algorithms.py:_strongly_connected_components_tarjan_adjacency_list", "pydatastructs/graphs/algorithms.py:_tarjan_dfs"]}
{"id": "C150", "title": "Bridges are the edges that every spanning tree needs", "statement": "On an undirected graph with costs find_bridges reports an edge exactly if every spanning forest of the graph contains it; on a connected graph every minimum spanning tree algorithm (Kruskal and Prim, sequential and parallel, on lists and matrices, and Prim in C++) therefore returns a graph that shows every bridge, with its cost, in both directions.", "quantifier": "every undirected graph with costs, every number of threads, every iteration order of the hash maps and every choice among several least queue entries", "why_tests_cant": "find_bridges decides by discovery times, the spanning tree algorithms by costs; that they agree on the edges that cannot be spared has to hold for every graph and every choice of the algorithms", "anchors": ["pydatastructs/graphs/algorithms.py:find_bridges", "pydatastructs/graphs/algorithms.py:minimum_spanning_tree", "pydatastructs/graphs/algorithms.py:minimum_spanning_tree_parallel"]}
{"id": "C151", "title": "Common subsequences, increasing subsequences and sorting agree", "statement": "For a non-empty list of ints and the array that any of the nine comparison sorts makes of it, longest_common_subsequence of the two is a longest non-decreasing subsequence of the list, and has the length of longest_increasing_subsequence if the elements are different. The length that longest_common_subsequence finds does not depend on the order of its arguments.", "quantifier": "every non-empty list of ints, every comparator that is compatible with <=; every two lists", "why_tests_cant": "three independent algorithms (two dynamic programs and a sort) have to agree on every list", "anchors": ["pydatastructs/linear_data_structures/algorithms.py:longest_common_subsequence", "pydatastructs/linear_data_structures/algorithms.py:longest_increasing_subsequence", "pydatastructs/linear_data_structures/algorithms.py:bubble_sort"]}
{"id": "C152", "title": "A C++ graph node or edge keeps the data it is given", "statement": "With backend=Backend.CPP the data of a graph node and the value of an edge read back, after any history of assignments, exactly the last value given by the constructor or by an assignment; an edge refuses values other than None, ints, floats and strings with TypeError and keeps its value.", "quantifier": "every class of node and the edge, every first value, every history of assignments and reads", "why_tests_cant": "Tests store a small int or a short string; the values that are lost or changed are particular ints and strings, and the claim is about every value and history.", "anchors": ["pydatastructs/utils/_backend/cpp/GraphNode.hpp:GraphNode_set", "pydatastructs/utils/_backend/cpp/AdjacencyListGraphNode.hpp:AdjacencyListGraphNode_set_data", "pydatastructs/utils/_backend/cpp/GraphEdge.hpp:GraphEdge_set_value"]}
{"id": "C153", "title": "The neighbours of an AdjacencyListGraphNode are a map from names to data", "statement": "After any history of add_adjacent_node and remove_adjacent_node on an AdjacencyListGraphNode, constructed with or without a list of neighbours, in Python and in C++: name in node.adjacent and the data of the neighbours are those of the map built by the same history; adding a neighbour again changes its data, and removing a name that is no neighbour raises ValueError.", "quantifier": "every list of neighbours given to the constructor, every history, names and data arbitrary", "why_tests_cant": "Which of the calls behave differently depends on earlier calls with the same name; tests add two neighbours once.", "anchors": ["pydatastructs/utils/misc_util.py:AdjacencyListGraphNode.add_adjacent_node", "pydatastructs/utils/misc_util.py:AdjacencyListGraphNode.remove_adjacent_node", "pydatastructs/utils/_backend/cpp/AdjacencyListGraphNode.hpp:AdjacencyListGraphNode_add_adjacent_node"]}
{"id": "C154", "title": "Graph(*vertices) is the edgeless graph on its vertices, of the implementation they are made for", "statement": "Graph(*vertices, implementation=\u2026, backend=\u2026), for vertices without neighbours with different names made for one implementation of one back end, is a graph of that implementation, whether it is named or not, with exactly these vertices, in which no two vertices are adjacent; with an adjacency list it is the graph to which the vertices are added one after another. Any other name of an implementation raises NotImplementedError.", "quantifier": "every list of vertices with different names that are no attributes of nodes or graphs, both back ends, both implementations, every string as implementation, every iteration order of the hash maps", "why_tests_cant": "Tests construct graphs with two or three vertices, always of one back end and mostly with the default implementation.", "anchors": ["pydatastructs/graphs/graph.py:Graph.__new__", "pydatastructs/graphs/adjacency_list.py:AdjacencyList.__new__", "pydatastructs/graphs/adjacency_matrix.py:AdjacencyMatrix.__new__"]}
{"id": "C155", "title": "A search tree constructed with a key is the tree into which it was inserted", "statement": "Constructed with a key, with root_data or without, a binary search tree is exactly the tree that inserting the key with this data into a newly made tree gives, so that every later operation behaves in the same way. Data without a key raises ValueError.", "quantifier": "every key, datum or None, is_order_statistic, comparator, both back ends", "why_tests_cant": "Tests construct each tree with one key and data, and look at the string of it.", "anchors": ["pydatastructs/trees/binary_trees.py:BinaryTree.__new__", "pydatastructs/trees/_backend/cpp/BinaryTree.hpp:BinaryTree___new__"]}
{"id": "C156", "title": "A binomial heap made from given trees serves their entries", "statement": "BinomialHeap(root_list), for a list or a tuple of different heap-ordered trees, is a mergeable priority queue of the entries of the trees: in every history of insert, find_minimum, delete_minimum and merge with other heaps made in this way, find_minimum returns an entry of least key, delete_minimum deletes one, and both raise IndexError when there is none. This holds for any orders of the trees, in any sequence, repeated or not, and whether or not the trees have the shapes of binomial trees.", "quantifier": "every list or tuple of heap-ordered trees with non-negative orders, every total preorder of keys, every history of calls, every list of trees of the heaps merged", "why_tests_cant": "Tests make heaps from a list of two or three trees of increasing orders, always of the right shape.", "anchors": ["pydatastructs/trees/heaps.py:BinomialHeap.__new__", "pydatastructs/trees/heaps.py:BinomialHeap.delete_minimum", "pydatastructs/trees/heaps.py:BinomialHeap.merge"]}
{"id": "C157", "title": "The list given to a binomial heap keeps its trees", "statement": "After BinomialHeap(root_list) of a list, and any history of insert, find_minimum, delete_minimum and merge on the heap, the list object of the caller has the same elements at the same places.", "quantifier": "every list of heap-ordered trees, every total preorder of keys, every history of calls", "why_tests_cant": "Tests give a literal list that nobody looks at afterwards.", "anchors": ["pydatastructs/trees/heaps.py:BinomialHeap.__new__", "pydatastructs/trees/heaps.py:BinomialHeap.delete_minimum"]}
{"id": "C158", "title": "Two heaps made from the same nodes each serve their entries", "statement": "After DHeap(nodes, \u2026) and then a second DHeap(nodes, \u2026) of the same list of TreeNodes, each of the two heaps, taken by itself, serves the entries of the nodes in its own order: the first extract of each gives an entry that is least in its order.", "quantifier": "every list of nodes, both orders and all arities of the two heaps, every total preorder of keys, every history of calls on one of the heaps", "why_tests_cant": "Tests make new nodes for each heap.", "anchors": ["pydatastructs/trees/heaps.py:DHeap.__new__", "pydatastructs/trees/heaps.py:DHeap._swap"]}
