import Verif.Py
import Verif.Model.Strings

/-!
# Choosing a function by its name

The functions of graphs/algorithms.py and `find` of strings/algorithms.py put the name of a function together from the argument `algorithm` and
look it up among the attributes of their module. The attributes with one leading underscore are listed here with the number of positional arguments
they accept. Attributes without an underscore are not reachable, because every name that is built starts with one; attributes such as `__name__`
start and end with two underscores, and the names built by the graph functions do not end so (for `find` see `findPick`).
-/
namespace Model
open Py

/-- The functions of graphs/algorithms.py:1-1350 with a leading underscore (`pairComp` is the imported `_comp`, line 8), and the C++ functions used by
the same entry points. -/
inductive GFn
  | pairComp | bfs | generateLayer | bfsParallel | mstObject | sortEdges | kruskal | prim | kruskalParallel | findMin | primParallel
  | visit | assign | kosaraju | tarjanDfs | tarjan | dfs | bellmanFord | dijkstra | floydWarshall | johnson | kahn | kahnParallel
  | bfsMaxFlow | edmondsKarp | dfsMaxFlow | dinic
  | cppPrim | cppDijkstra | cppBfsList | cppBfsMatrix
  deriving DecidableEq

/-- An attribute of a module: its name, the function, and how many positional arguments the function accepts (at least, and at most if bounded).
(e.g. graphs/algorithms.py:242) -/
structure Attr (φ : Type) where
  name : String
  fn : φ
  least : Nat
  most : Option Nat
  deriving DecidableEq

/-- `hasattr(algorithms, func)` and `getattr(algorithms, func)(…)` with `n` positional arguments: `NotImplementedError` without such an attribute,
`TypeError` for a wrong number of arguments, otherwise the function that runs. (e.g. graphs/algorithms.py:345-350) -/
def callByName {φ : Type} (attrs : List (Attr φ)) (name : String) (n : Nat) : PyM φ :=
  match attrs.find? (fun a => a.name == name) with
  | none => .error .notImplemented
  | some a => if a.least ≤ n ∧ a.most.all (n ≤ ·) then .ok a.fn else .error .typeError

/-- The attributes of the module, graphs/algorithms.py:8-1253: the `def`s and the aliases such as line 125. -/
def graphAttrs : List (Attr GFn) := [
  ⟨"_comp", .pairComp, 3, some 3⟩,
  ⟨"_breadth_first_search_adjacency_list", .bfs, 3, none⟩,
  ⟨"_breadth_first_search_adjacency_matrix", .bfs, 3, none⟩,
  ⟨"_generate_layer", .generateLayer, 0, some 0⟩,
  ⟨"_breadth_first_search_parallel_adjacency_list", .bfsParallel, 4, none⟩,
  ⟨"_breadth_first_search_parallel_adjacency_matrix", .bfsParallel, 4, none⟩,
  ⟨"_generate_mst_object", .mstObject, 1, some 1⟩,
  ⟨"_sort_edges", .sortEdges, 1, some 2⟩,
  ⟨"_minimum_spanning_tree_kruskal_adjacency_list", .kruskal, 1, some 1⟩,
  ⟨"_minimum_spanning_tree_kruskal_adjacency_matrix", .kruskal, 1, some 1⟩,
  ⟨"_minimum_spanning_tree_prim_adjacency_list", .prim, 1, some 1⟩,
  ⟨"_minimum_spanning_tree_parallel_kruskal_adjacency_list", .kruskalParallel, 2, some 2⟩,
  ⟨"_minimum_spanning_tree_parallel_kruskal_adjacency_matrix", .kruskalParallel, 2, some 2⟩,
  ⟨"_find_min", .findMin, 3, some 3⟩,
  ⟨"_minimum_spanning_tree_parallel_prim_adjacency_list", .primParallel, 2, some 2⟩,
  ⟨"_visit", .visit, 5, some 5⟩,
  ⟨"_assign", .assign, 5, some 5⟩,
  ⟨"_strongly_connected_components_kosaraju_adjacency_list", .kosaraju, 1, some 1⟩,
  ⟨"_strongly_connected_components_kosaraju_adjacency_matrix", .kosaraju, 1, some 1⟩,
  ⟨"_tarjan_dfs", .tarjanDfs, 8, some 8⟩,
  ⟨"_strongly_connected_components_tarjan_adjacency_list", .tarjan, 1, some 1⟩,
  ⟨"_strongly_connected_components_tarjan_adjacency_matrix", .tarjan, 1, some 1⟩,
  ⟨"_depth_first_search_adjacency_list", .dfs, 3, none⟩,
  ⟨"_depth_first_search_adjacency_matrix", .dfs, 3, none⟩,
  ⟨"_bellman_ford_adjacency_list", .bellmanFord, 3, some 3⟩,
  ⟨"_bellman_ford_adjacency_matrix", .bellmanFord, 3, some 3⟩,
  ⟨"_dijkstra_adjacency_list", .dijkstra, 3, some 3⟩,
  ⟨"_dijkstra_adjacency_matrix", .dijkstra, 3, some 3⟩,
  ⟨"_floyd_warshall_adjacency_list", .floydWarshall, 1, some 1⟩,
  ⟨"_floyd_warshall_adjacency_matrix", .floydWarshall, 1, some 1⟩,
  ⟨"_johnson_adjacency_list", .johnson, 1, some 1⟩,
  ⟨"_kahn_adjacency_list", .kahn, 1, some 1⟩,
  ⟨"_kahn_adjacency_list_parallel", .kahnParallel, 2, some 2⟩,
  ⟨"_breadth_first_search_max_flow", .bfsMaxFlow, 4, some 5⟩,
  ⟨"_max_flow_edmonds_karp_", .edmondsKarp, 3, some 3⟩,
  ⟨"_depth_first_search_max_flow_dinic", .dfsMaxFlow, 6, some 6⟩,
  ⟨"_max_flow_dinic_", .dinic, 3, some 3⟩]

/-- The attribute `_impl` of a graph. (graphs/adjacency_list.py:28, graphs/adjacency_matrix.py:32) -/
inductive GImpl | list | matrix
  deriving DecidableEq

/-- graphs/adjacency_list.py:28, graphs/adjacency_matrix.py:32: the values of `_impl`. -/
def GImpl.name : GImpl → String
  | .list => "adjacency_list"
  | .matrix => "adjacency_matrix"

/-- The two back ends that an entry point distinguishes: `Backend.PYTHON` and any other. (graphs/algorithms.py:84, utils/misc_util.py:36) -/
inductive GBackend | python | cpp
  deriving DecidableEq

/-- utils/misc_util.py:35-38 `raise_if_backend_is_not_python`. -/
def pythonOnly (b : GBackend) : PyM Unit :=
  match b with
  | .python => .ok ()
  | .cpp => .error .valueError

/-- graphs/algorithms.py:84-101 `breadth_first_search(graph, source_node, operation, *args)` with `extra` further arguments. The answer of this and the
following definitions is the function that runs; `none` means that the call returns `None` at once. -/
def pickBfs (b : GBackend) (g : GImpl) (extra : Nat) : PyM (Option GFn) := do
  match b with
  | .python => do
    let f ← callByName graphAttrs ("_breadth_first_search_" ++ g.name) (3 + extra)
    .ok (some f)
  | .cpp =>
    if g.name = "adjacency_list" then .ok (some .cppBfsList)
    else if g.name = "adjacency_matrix" then .ok (some .cppBfsMatrix)
    else .ok none

/-- graphs/algorithms.py:180-189 `breadth_first_search_parallel(graph, source_node, num_threads, operation, *args)`. -/
def pickBfsParallel (b : GBackend) (g : GImpl) (extra : Nat) : PyM (Option GFn) := do
  pythonOnly b
  let f ← callByName graphAttrs ("_breadth_first_search_parallel_" ++ g.name) (4 + extra)
  .ok (some f)

/-- graphs/algorithms.py:341-354 `minimum_spanning_tree(graph, algorithm)`. -/
def pickMst (b : GBackend) (g : GImpl) (algorithm : String) : PyM (Option GFn) := do
  match b with
  | .python => do
    let f ← callByName graphAttrs ("_minimum_spanning_tree_" ++ algorithm ++ "_" ++ g.name) 1
    .ok (some f)
  | .cpp => if g.name = "adjacency_list" ∧ algorithm = "prim" then .ok (some .cppPrim) else .ok none

/-- graphs/algorithms.py:487-496 `minimum_spanning_tree_parallel(graph, algorithm, num_threads)`. -/
def pickMstParallel (b : GBackend) (g : GImpl) (algorithm : String) : PyM (Option GFn) := do
  pythonOnly b
  let f ← callByName graphAttrs ("_minimum_spanning_tree_parallel_" ++ algorithm ++ "_" ++ g.name) 2
  .ok (some f)

/-- graphs/algorithms.py:643-652 `strongly_connected_components(graph, algorithm)`. -/
def pickScc (b : GBackend) (g : GImpl) (algorithm : String) : PyM (Option GFn) := do
  pythonOnly b
  let f ← callByName graphAttrs ("_strongly_connected_components_" ++ algorithm ++ "_" ++ g.name) 1
  .ok (some f)

/-- graphs/algorithms.py:711-720 `depth_first_search(graph, source_node, operation, *args)`. -/
def pickDfs (b : GBackend) (g : GImpl) (extra : Nat) : PyM (Option GFn) := do
  pythonOnly b
  let f ← callByName graphAttrs ("_depth_first_search_" ++ g.name) (3 + extra)
  .ok (some f)

/-- graphs/algorithms.py:807-819 `shortest_paths(graph, algorithm, source, target="")`. -/
def pickShortestPaths (b : GBackend) (g : GImpl) (algorithm : String) : PyM (Option GFn) := do
  match b with
  | .python => do
    let f ← callByName graphAttrs ("_" ++ algorithm ++ "_" ++ g.name) 3
    .ok (some f)
  | .cpp => if g.name = "adjacency_list" ∧ algorithm = "dijkstra" then .ok (some .cppDijkstra) else .ok none

/-- graphs/algorithms.py:936-944 `all_pair_shortest_paths(graph, algorithm)`. -/
def pickAllPairs (b : GBackend) (g : GImpl) (algorithm : String) : PyM (Option GFn) := do
  pythonOnly b
  let f ← callByName graphAttrs ("_" ++ algorithm ++ "_" ++ g.name) 1
  .ok (some f)

/-- graphs/algorithms.py:1064-1072 `topological_sort(graph, algorithm)`. -/
def pickTopo (b : GBackend) (g : GImpl) (algorithm : String) : PyM (Option GFn) := do
  pythonOnly b
  let f ← callByName graphAttrs ("_" ++ algorithm ++ "_" ++ g.name) 1
  .ok (some f)

/-- graphs/algorithms.py:1145-1153 `topological_sort_parallel(graph, algorithm, num_threads)`. -/
def pickTopoParallel (b : GBackend) (g : GImpl) (algorithm : String) : PyM (Option GFn) := do
  pythonOnly b
  let f ← callByName graphAttrs ("_" ++ algorithm ++ "_" ++ g.name ++ "_parallel") 2
  .ok (some f)

/-- graphs/algorithms.py:1273-1283 `max_flow(graph, source, sink, algorithm)`; the implementation of the graph is not looked at. -/
def pickMaxFlow (b : GBackend) (algorithm : String) : PyM (Option GFn) := do
  pythonOnly b
  let f ← callByName graphAttrs ("_max_flow_" ++ algorithm ++ "_") 3
  .ok (some f)

/-! ## `find` -/

/-- The functions of strings/algorithms.py:87-247 with a leading underscore. -/
inductive SFn | kmp | kmpTable | doMatch | pPow | hashStr | rabinKarp | boyerMoore | zVector | zFunction
  deriving DecidableEq

/-- strings/algorithms.py:87-237, the `def`s and the alias of line 93. -/
def stringAttrs : List (Attr SFn) := [
  ⟨"_knuth_morris_pratt", .kmp, 2, some 2⟩,
  ⟨"_kmp", .kmp, 2, some 2⟩,
  ⟨"_build_kmp_table", .kmpTable, 1, some 1⟩,
  ⟨"_do_match", .doMatch, 3, some 3⟩,
  ⟨"_p_pow", .pPow, 1, some 3⟩,
  ⟨"_hash_str", .hashStr, 1, some 3⟩,
  ⟨"_rabin_karp", .rabinKarp, 2, some 2⟩,
  ⟨"_boyer_moore", .boyerMoore, 2, some 2⟩,
  ⟨"_z_vector", .zVector, 2, some 2⟩,
  ⟨"_z_function", .zFunction, 2, some 2⟩]

/-- strings/algorithms.py:75-84: which function `find(text, query, algorithm)` runs. A name with a second underscore can also be one of the attributes
that every module has (`__name__`, `__class__`, …); these are not in the list, so the model only speaks of an `algorithm` that does not start with one. -/
def findPick (b : GBackend) (algorithm : String) : PyM SFn := do
  pythonOnly b
  callByName stringAttrs ("_" ++ algorithm) 2

/-- strings/algorithms.py:12-84 `find(text, query, algorithm)`: the positions that are returned. `other` stands for what the helper functions compute when they
are called with a text and a query. `_z_vector` is modelled for a query that is not empty. -/
def find (other : SFn → List Char → List Char → PyM (List Int)) (b : GBackend) (algorithm : String) (text query : List Char) : PyM (List Int) := do
  let f ← findPick b algorithm
  match f with
  | .kmp => kmpFind text query
  | .rabinKarp => rkFind (text.map Char.toNat) (query.map Char.toNat)
  | .boyerMoore => bmFind text query
  | .zFunction => zFind '$' text query
  | .zVector => if query = [] then other .zVector text query else do
    let z ← zVector '$' text query
    .ok (z.map fun (i : Nat) => (i : Int))
  | f => other f text query

end Model
