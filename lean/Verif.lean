import Verif.FlowSpec
import Verif.GraphSpec
import Verif.Lemmas.Avl
import Verif.Lemmas.AvlDelete
import Verif.Lemmas.BTree
import Verif.Lemmas.Bind
import Verif.Lemmas.Brick
import Verif.Lemmas.BstDelete
import Verif.Lemmas.BstInsert
import Verif.Lemmas.Bubble
import Verif.Lemmas.CartDelete
import Verif.Lemmas.Chain
import Verif.Lemmas.Cocktail
import Verif.Lemmas.Contract
import Verif.Lemmas.ContractTree
import Verif.Lemmas.CppAvl
import Verif.Lemmas.CppAvlAny
import Verif.Lemmas.CppBst
import Verif.Lemmas.CppCart
import Verif.Lemmas.CppContract
import Verif.Lemmas.CppDijkstra
import Verif.Lemmas.CppLen
import Verif.Lemmas.CppQuick
import Verif.Lemmas.CppRb
import Verif.Lemmas.CppRbDelete
import Verif.Lemmas.CppSort
import Verif.Lemmas.CppSplay
import Verif.Lemmas.CppTree
import Verif.Lemmas.Dist
import Verif.Lemmas.Doda
import Verif.Lemmas.GraphSearch
import Verif.Lemmas.Heap
import Verif.Lemmas.Insertion
import Verif.Lemmas.IntervalTree
import Verif.Lemmas.Intro
import Verif.Lemmas.LinkedList
import Verif.Lemmas.LinkedListWalk
import Verif.Lemmas.Lists
import Verif.Lemmas.Llvm
import Verif.Lemmas.LlvmSort
import Verif.Lemmas.Merge
import Verif.Lemmas.Perm
import Verif.Lemmas.Py
import Verif.Lemmas.Quick
import Verif.Lemmas.RedBlack
import Verif.Lemmas.RedBlackDelete
import Verif.Lemmas.RedBlackFix
import Verif.Lemmas.RingLoose
import Verif.Lemmas.Rotate
import Verif.Lemmas.SkipList
import Verif.Lemmas.Sort
import Verif.Lemmas.SortForm
import Verif.Lemmas.SplayDelete
import Verif.Lemmas.SplayJoin
import Verif.Lemmas.SplaySplit
import Verif.Lemmas.Stable
import Verif.Lemmas.Trace
import Verif.Lemmas.Walk
import Verif.Model.Array
import Verif.Model.ArrayMore
import Verif.Model.ArrayNew
import Verif.Model.Avl
import Verif.Model.BfsParallel
import Verif.Model.BinaryTree
import Verif.Model.BinomialHeap
import Verif.Model.BinomialRoots
import Verif.Model.BinomialShared
import Verif.Model.Bridges
import Verif.Model.Cartesian
import Verif.Model.Comparator
import Verif.Model.Containers
import Verif.Model.Cpp
import Verif.Model.CppArray
import Verif.Model.CppAvl
import Verif.Model.CppBfs
import Verif.Model.CppBst
import Verif.Model.CppCart
import Verif.Model.CppDoda
import Verif.Model.CppFenwick
import Verif.Model.CppGraph
import Verif.Model.CppMatrix
import Verif.Model.CppPrim
import Verif.Model.CppRb
import Verif.Model.CppRotate
import Verif.Model.CppSearch
import Verif.Model.CppSort
import Verif.Model.CppSplay
import Verif.Model.CppTraversal
import Verif.Model.Dict
import Verif.Model.DisjointSet
import Verif.Model.DisjointSorted
import Verif.Model.Dispatch
import Verif.Model.Distribution
import Verif.Model.DodaSort
import Verif.Model.Dp
import Verif.Model.Fenwick
import Verif.Model.FloydWarshall
import Verif.Model.FreeNode
import Verif.Model.Graph
import Verif.Model.GraphNew
import Verif.Model.GraphSearch
import Verif.Model.Heap
import Verif.Model.HeapShared
import Verif.Model.IntervalTree
import Verif.Model.Intro
import Verif.Model.Johnson
import Verif.Model.Kahn
import Verif.Model.KahnParallel
import Verif.Model.Kosaraju
import Verif.Model.Kruskal
import Verif.Model.LinkedContainers
import Verif.Model.LinkedList
import Verif.Model.Llvm
import Verif.Model.LlvmSort
import Verif.Model.Matrix
import Verif.Model.MaxFlow
import Verif.Model.Multiset
import Verif.Model.Prim
import Verif.Model.QueueView
import Verif.Model.RangeNew
import Verif.Model.RangeQuery
import Verif.Model.RedBlack
import Verif.Model.RedBlackDelete
import Verif.Model.Search
import Verif.Model.ShortestPaths
import Verif.Model.SkipList
import Verif.Model.SkipStr
import Verif.Model.Sort
import Verif.Model.Splay
import Verif.Model.SplayJoin
import Verif.Model.StackQueue
import Verif.Model.Strings
import Verif.Model.Tarjan
import Verif.Model.TreeNew
import Verif.Model.TreeTraversal
import Verif.Model.Trie
import Verif.Props.Array
import Verif.Props.ArrayDeque
import Verif.Props.ArrayDequeExact
import Verif.Props.ArrayExact
import Verif.Props.ArrayMore
import Verif.Props.ArrayQueue
import Verif.Props.ArrayQueueExact
import Verif.Props.ArrayStack
import Verif.Props.Avl
import Verif.Props.AvlDelete
import Verif.Props.Backends
import Verif.Props.BackendsDijkstra
import Verif.Props.BackendsGraph
import Verif.Props.BackendsMatrix
import Verif.Props.BellmanFord
import Verif.Props.BfsParallel
import Verif.Props.BinomialHeap
import Verif.Props.BinomialRoots
import Verif.Props.BinomialShared
import Verif.Props.BoyerMoore
import Verif.Props.Bridges
import Verif.Props.BridgesTree
import Verif.Props.Bst
import Verif.Props.BstDelete
import Verif.Props.BstLastFirst
import Verif.Props.Bucket
import Verif.Props.BucketExact
import Verif.Props.CartAgain
import Verif.Props.CartDelete
import Verif.Props.Cartesian
import Verif.Props.Comparator
import Verif.Props.ComponentsAgree
import Verif.Props.Containers
import Verif.Props.ContainersDeque
import Verif.Props.Contract
import Verif.Props.Counting
import Verif.Props.CppArray
import Verif.Props.CppAvl
import Verif.Props.CppAvlBig
import Verif.Props.CppAvlDelete
import Verif.Props.CppBfs
import Verif.Props.CppBst
import Verif.Props.CppBstLastFirst
import Verif.Props.CppCart
import Verif.Props.CppCartAgain
import Verif.Props.CppCartDelete
import Verif.Props.CppDijkstra
import Verif.Props.CppDoda
import Verif.Props.CppFenwick
import Verif.Props.CppGraph
import Verif.Props.CppLcaExact
import Verif.Props.CppMatrix
import Verif.Props.CppPrim
import Verif.Props.CppQuickExact
import Verif.Props.CppRb
import Verif.Props.CppRbAgain
import Verif.Props.CppRbDelete
import Verif.Props.CppRefs
import Verif.Props.CppSearch
import Verif.Props.CppSort
import Verif.Props.CppSplay
import Verif.Props.CppSplayDelete
import Verif.Props.CppSplayJoin
import Verif.Props.Dijkstra
import Verif.Props.DisjointSet
import Verif.Props.DisjointSorted
import Verif.Props.Dispatch
import Verif.Props.DispatchNames
import Verif.Props.Doda
import Verif.Props.DodaSort
import Verif.Props.Fenwick
import Verif.Props.FindAgree
import Verif.Props.FlowAgree
import Verif.Props.FloydWarshall
import Verif.Props.FreeNode
import Verif.Props.Graph
import Verif.Props.GraphMatrix
import Verif.Props.GraphNew
import Verif.Props.GraphSearch
import Verif.Props.Heap
import Verif.Props.HeapShared
import Verif.Props.IntervalTree
import Verif.Props.Intro
import Verif.Props.Johnson
import Verif.Props.Kahn
import Verif.Props.KahnParallel
import Verif.Props.Kmp
import Verif.Props.Kosaraju
import Verif.Props.Kruskal
import Verif.Props.Lca
import Verif.Props.LcaExact
import Verif.Props.Lcs
import Verif.Props.LcsLis
import Verif.Props.LinkedContainers
import Verif.Props.LinkedList
import Verif.Props.Lis
import Verif.Props.Llvm
import Verif.Props.LlvmVerify
import Verif.Props.Matrix
import Verif.Props.MaxFlow
import Verif.Props.MdaExact
import Verif.Props.Mst
import Verif.Props.MstAgree
import Verif.Props.Multiset
import Verif.Props.MultisetThin
import Verif.Props.NodeData
import Verif.Props.OrderedAgree
import Verif.Props.PathsAgree
import Verif.Props.Perm
import Verif.Props.PermAll
import Verif.Props.PermExact
import Verif.Props.Prim
import Verif.Props.QueueView
import Verif.Props.QueuesAgree
import Verif.Props.QuickPivot
import Verif.Props.QuickPivotExact
import Verif.Props.RabinKarp
import Verif.Props.Radix
import Verif.Props.RadixExact
import Verif.Props.RangeNew
import Verif.Props.RbAgain
import Verif.Props.RedBlack
import Verif.Props.RedBlackDelete
import Verif.Props.RingBack
import Verif.Props.RingMended
import Verif.Props.Scc
import Verif.Props.SccAgree
import Verif.Props.SccOrder
import Verif.Props.Search
import Verif.Props.SegmentTree
import Verif.Props.SkipList
import Verif.Props.SkipStr
import Verif.Props.Sort
import Verif.Props.SortMore
import Verif.Props.SortSearch
import Verif.Props.SortsAgree
import Verif.Props.SortsExact
import Verif.Props.SparseTable
import Verif.Props.Splay
import Verif.Props.SplayDelete
import Verif.Props.SplayJoin
import Verif.Props.SplaySplit
import Verif.Props.Stable
import Verif.Props.Steps
import Verif.Props.StringSpec
import Verif.Props.SumsAgree
import Verif.Props.Traversal
import Verif.Props.TreeNew
import Verif.Props.TreeSteps
import Verif.Props.TreeStepsMore
import Verif.Props.TreesAgree
import Verif.Props.Trie
import Verif.Props.ZFunction
import Verif.Py
import Verif.Spec
import Verif.WeightSpec
