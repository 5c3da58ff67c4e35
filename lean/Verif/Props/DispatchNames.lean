import Verif.Props.Dispatch
import Verif.Props.Kmp
import Verif.Props.BoyerMoore
import Verif.Props.RabinKarp
import Verif.Props.ZFunction

/-!
# C122, C123: which function an algorithm name selects
-/
namespace Props
open Py Model Spec

/-- The names the documentation gives, with the algorithms they stand for, where the algorithm exists for the implementation of the graph. -/
inductive Entry | mst | mstParallel | scc | shortestPaths | allPairs | topologicalSort | topologicalSortParallel | maxFlow

def Entry.pick : Entry → GBackend → GImpl → String → PyM (Option GFn)
  | .mst => pickMst
  | .mstParallel => pickMstParallel
  | .scc => pickScc
  | .shortestPaths => pickShortestPaths
  | .allPairs => pickAllPairs
  | .topologicalSort => pickTopo
  | .topologicalSortParallel => pickTopoParallel
  | .maxFlow => fun b _ => pickMaxFlow b

def Entry.names : Entry → GImpl → List (String × GFn)
  | .mst, .list => [("kruskal", .kruskal), ("prim", .prim)]
  | .mst, .matrix => [("kruskal", .kruskal)]
  | .mstParallel, .list => [("kruskal", .kruskalParallel), ("prim", .primParallel)]
  | .mstParallel, .matrix => [("kruskal", .kruskalParallel)]
  | .scc, _ => [("kosaraju", .kosaraju), ("tarjan", .tarjan)]
  | .shortestPaths, _ => [("bellman_ford", .bellmanFord), ("dijkstra", .dijkstra)]
  | .allPairs, .list => [("floyd_warshall", .floydWarshall), ("johnson", .johnson)]
  | .allPairs, .matrix => [("floyd_warshall", .floydWarshall)]
  | .topologicalSort, .list => [("kahn", .kahn)]
  | .topologicalSort, .matrix => []
  | .topologicalSortParallel, .list => [("kahn", .kahnParallel)]
  | .topologicalSortParallel, .matrix => []
  | .maxFlow, _ => [("edmonds_karp", .edmondsKarp), ("dinic", .dinic)]

/-- The full statement: for every entry point and both implementations, the documented names run the algorithm they name and every other string
raises `NotImplementedError`. -/
def C122_full : Prop := ∀ (e : Entry) (g : GImpl), Documented (e.pick .python g) (e.names g)

/-- `shortest_paths(graph, 'floyd_warshall', …)` is a `TypeError`; `all_pair_shortest_paths(graph, 'kahn')` sorts the graph topologically. -/
theorem C122_full_false : ¬ C122_full ∧ pickShortestPaths .python .list "floyd_warshall" = .error .typeError ∧
    pickAllPairs .python .list "kahn" = .ok (some .kahn) ∧ pickTopo .python .list "floyd_warshall" = .ok (some .floydWarshall) := by
  have h1 : pickAllPairs .python .list "kahn" = .ok (some .kahn) := C122_all_pairs_list.1 _ _ (by simp)
  refine ⟨?_, C122_shortest_paths_list.1 _ _ (by simp), h1, C122_topological_sort_list.1 _ _ (by simp)⟩
  intro h
  have := (h .allPairs .list).2 "kahn" (by decide +kernel)
  rw [show Entry.allPairs.pick .python .list "kahn" = _ from h1] at this
  cases this

/-- Four entry points are right for every string. -/
theorem C122_documented_partial (g : GImpl) : Documented (pickMstParallel .python g) (Entry.mstParallel.names g) ∧
    Documented (pickScc .python g) (Entry.scc.names g) ∧ Documented (pickTopoParallel .python g) (Entry.topologicalSortParallel.names g) ∧
    Documented (pickMaxFlow .python) (Entry.maxFlow.names g) := by
  cases g
  · exact ⟨C122_mst_parallel_list, C122_scc_list, C122_topological_sort_parallel_list, C122_max_flow⟩
  · exact ⟨C122_mst_parallel_matrix, C122_scc_matrix, C122_topological_sort_parallel_matrix, C122_max_flow⟩

/-- At every entry point the documented names are served. -/
theorem C122_names_served_partial (e : Entry) (g : GImpl) (name : String) (f : GFn) (h : (name, f) ∈ e.names g) :
    e.pick .python g name = .ok (some f) := by
  cases e <;> cases g <;> simp only [Entry.names, List.mem_cons, List.not_mem_nil, or_false, Prod.mk.injEq] at h
  all_goals try exact h.elim
  all_goals simp only [Entry.pick]
  · rcases h with ⟨rfl, rfl⟩ | ⟨rfl, rfl⟩ <;> exact C122_mst_list.1 _ _ (by simp)
  · rcases h with ⟨rfl, rfl⟩; exact C122_mst_matrix.1 _ _ (by simp)
  · rcases h with ⟨rfl, rfl⟩ | ⟨rfl, rfl⟩ <;> exact C122_mst_parallel_list.1 _ _ (by simp)
  · rcases h with ⟨rfl, rfl⟩; exact C122_mst_parallel_matrix.1 _ _ (by simp)
  · rcases h with ⟨rfl, rfl⟩ | ⟨rfl, rfl⟩ <;> exact C122_scc_list.1 _ _ (by simp)
  · rcases h with ⟨rfl, rfl⟩ | ⟨rfl, rfl⟩ <;> exact C122_scc_matrix.1 _ _ (by simp)
  · rcases h with ⟨rfl, rfl⟩ | ⟨rfl, rfl⟩ <;> exact C122_shortest_paths_list.1 _ _ (by simp)
  · rcases h with ⟨rfl, rfl⟩ | ⟨rfl, rfl⟩ <;> exact C122_shortest_paths_matrix.1 _ _ (by simp)
  · rcases h with ⟨rfl, rfl⟩ | ⟨rfl, rfl⟩ <;> exact C122_all_pairs_list.1 _ _ (by simp)
  · rcases h with ⟨rfl, rfl⟩; exact C122_all_pairs_matrix.1 _ _ (by simp)
  · rcases h with ⟨rfl, rfl⟩; exact C122_topological_sort_list.1 _ _ (by simp)
  · rcases h with ⟨rfl, rfl⟩; exact C122_topological_sort_parallel_list.1 _ _ (by simp)
  · rcases h with ⟨rfl, rfl⟩ | ⟨rfl, rfl⟩ <;> exact C122_max_flow.1 _ _ (by simp)
  · rcases h with ⟨rfl, rfl⟩ | ⟨rfl, rfl⟩ <;> exact C122_max_flow.1 _ _ (by simp)

/-- The searches exist for both implementations, whatever the number of further arguments. -/
theorem C122_searches (g : GImpl) (extra : Nat) : pickBfs .python g extra = .ok (some .bfs) ∧
    pickDfs .python g extra = .ok (some .dfs) ∧ pickBfsParallel .python g extra = .ok (some .bfsParallel) := by
  have hb : ∀ (name : String) (k : Nat) (f : GFn), graphAttrs.find? (fun a => a.name == name) = some ⟨name, f, k, none⟩ →
      callByName graphAttrs name (k + extra) = .ok f := by
    intro name k f h
    rw [callByName, h]
    dsimp only
    rw [if_pos ⟨by omega, rfl⟩]
  cases g
  all_goals
    refine ⟨?_, ?_, ?_⟩
    · rw [pickBfs]; rw [hb _ 3 .bfs (by decide +kernel)]; rfl
    · rw [pickDfs]; dsimp only [pythonOnly]; rw [ok_bind, hb _ 3 .dfs (by decide +kernel)]; rfl
    · rw [pickBfsParallel]; dsimp only [pythonOnly]; rw [ok_bind, hb _ 4 .bfsParallel (by decide +kernel)]; rfl

/-- With the C++ back end `minimum_spanning_tree` knows only Prim, and `shortest_paths` only Dijkstra, on adjacency lists; any other request returns
`None` without an exception. The other entry points raise `ValueError`. -/
theorem C122_cpp (g : GImpl) (name : String) :
    pickMst .cpp g name = .ok (if g = .list ∧ name = "prim" then some .cppPrim else none) ∧
    pickShortestPaths .cpp g name = .ok (if g = .list ∧ name = "dijkstra" then some .cppDijkstra else none) ∧
    ∀ e : Entry, e ≠ .mst → e ≠ .shortestPaths → e.pick .cpp g name = .error .valueError := by
  have hm : GImpl.matrix.name ≠ "adjacency_list" := by decide +kernel
  refine ⟨?_, ?_, ?_⟩
  · rw [pickMst]
    cases g
    · by_cases h : name = "prim" <;> simp [GImpl.name, h]
    · simp [hm]
  · rw [pickShortestPaths]
    cases g
    · by_cases h : name = "dijkstra" <;> simp [GImpl.name, h]
    · simp [hm]
  · intro e h h'
    cases e
    case mst => exact absurd rfl h
    case shortestPaths => exact absurd rfl h'
    all_goals rfl

/-- With the C++ back end breadth first search runs the implementation for the kind of graph that is given; depth first search and the parallel
search raise `ValueError`. -/
theorem C122_cpp_searches (g : GImpl) (extra : Nat) :
    pickBfs .cpp g extra = .ok (some (match g with | .list => .cppBfsList | .matrix => .cppBfsMatrix)) ∧
    pickDfs .cpp g extra = .error .valueError ∧ pickBfsParallel .cpp g extra = .error .valueError := by
  have hm : GImpl.matrix.name ≠ "adjacency_list" := by decide +kernel
  refine ⟨?_, rfl, rfl⟩
  rw [pickBfs]
  cases g
  · simp [GImpl.name]
  · dsimp only
    rw [if_neg hm]
    simp [GImpl.name]

/-! ## C123 -/

/-- The full statement: for every string as algorithm (names of module attributes with two underscores aside) `find` returns all positions where the query occurs,
or raises `NotImplementedError`. -/
def C123_full : Prop := ∀ (other : SFn → List Char → List Char → PyM (List Int)) (algorithm : String), ¬ "_".toList <+: algorithm.toList →
  (∀ text query, query ≠ [] → find other .python algorithm text query = .ok (occurrences text query)) ∨
  ∀ text query, find other .python algorithm text query = .error .notImplemented

/-- Which function runs, for every string. -/
theorem C123_find_pick : AnswersTo (findPick .python) [("knuth_morris_pratt", .ok .kmp), ("kmp", .ok .kmp), ("build_kmp_table", .error .typeError),
    ("do_match", .error .typeError), ("p_pow", .ok .pPow), ("hash_str", .ok .hashStr), ("rabin_karp", .ok .rabinKarp), ("boyer_moore", .ok .boyerMoore),
    ("z_vector", .ok .zVector), ("z_function", .ok .zFunction)] := by
  have hr : reached stringAttrs "_" "" = [⟨"knuth_morris_pratt", .kmp, 2, some 2⟩, ⟨"kmp", .kmp, 2, some 2⟩, ⟨"build_kmp_table", .kmpTable, 1, some 1⟩,
      ⟨"do_match", .doMatch, 3, some 3⟩, ⟨"p_pow", .pPow, 1, some 3⟩, ⟨"hash_str", .hashStr, 1, some 3⟩, ⟨"rabin_karp", .rabinKarp, 2, some 2⟩,
      ⟨"boyer_moore", .boyerMoore, 2, some 2⟩, ⟨"z_vector", .zVector, 2, some 2⟩, ⟨"z_function", .zFunction, 2, some 2⟩] := by decide +kernel
  have h := call_answers 2 (reached stringAttrs "_" "") (by rw [hr]; decide +kernel)
  have e : findPick .python = fun alg => callByName (reached stringAttrs "_" "") alg 2 := by
    funext alg
    rw [← call_reached, String.append_empty]; rfl
  rw [e]
  rw [hr] at h ⊢
  exact h

/-- What the documented names answer, and that every string that is not the name of a function of the module raises `NotImplementedError`. -/
theorem C123_find_partial (other : SFn → List Char → List Char → PyM (List Int)) (text query : List Char) (hq : query ≠ []) :
    find other .python "kmp" text query = .ok (occurrences text query) ∧
    find other .python "knuth_morris_pratt" text query = .ok (occurrences text query) ∧
    find other .python "boyer_moore" text query = .ok (occurrences text query) ∧
    ('$' ∉ text → find other .python "z_function" text query = .ok (occurrences text query)) ∧
    find other .python "rabin_karp" text query = rkFind (text.map Char.toNat) (query.map Char.toNat) ∧
    ∀ name, name ∉ ["knuth_morris_pratt", "kmp", "build_kmp_table", "do_match", "p_pow", "hash_str", "rabin_karp", "boyer_moore", "z_vector", "z_function"] →
      find other .python name text query = .error .notImplemented := by
  have h := C123_find_pick
  have hf : ∀ (name : String) (f : SFn), findPick .python name = .ok f →
      find other .python name text query = find.match_1 (fun _ => PyM (List Int)) f (fun _ => kmpFind text query)
        (fun _ => rkFind (text.map Char.toNat) (query.map Char.toNat)) (fun _ => bmFind text query) (fun _ => zFind '$' text query)
        (fun _ => if query = [] then other .zVector text query else do
          let z ← zVector '$' text query
          .ok (z.map fun (i : Nat) => (i : Int))) (fun f => other f text query) := by
    intro name f hp
    rw [find, hp]; rfl
  refine ⟨?_, ?_, ?_, ?_, ?_, ?_⟩
  · rw [hf _ _ (h.1 "kmp" (.ok .kmp) (by simp))]; exact C50_kmp text query hq
  · rw [hf _ _ (h.1 "knuth_morris_pratt" (.ok .kmp) (by simp))]; exact C50_kmp text query hq
  · rw [hf _ _ (h.1 "boyer_moore" (.ok .boyerMoore) (by simp))]; exact C52_boyer_moore text query hq
  · intro hs
    rw [hf _ _ (h.1 "z_function" (.ok .zFunction) (by simp))]; exact C53_z_function_partial '$' text query hq hs
  · rw [hf _ _ (h.1 "rabin_karp" (.ok .rabinKarp) (by simp))]
  · intro name hn
    rw [find, h.2 name hn]; rfl

/-- `find("ab", "b", "z_vector")` answers `[0, 1]`, the lengths of the matches, although the query occurs at position 1 only. -/
theorem C123_z_vector (other : SFn → List Char → List Char → PyM (List Int)) : find other .python "z_vector" ['a', 'b'] ['b'] = .ok [0, 1] ∧
    occurrences ['a', 'b'] ['b'] = [1] := by
  refine ⟨?_, by decide +kernel⟩
  rw [find, C123_find_pick.1 "z_vector" (.ok .zVector) (by simp)]
  rw [ok_bind]
  dsimp only
  rw [if_neg (by simp), show zVector '$' ['a', 'b'] ['b'] = .ok [0, 1] by decide +kernel]
  rfl

theorem C123_full_false : ¬ C123_full := by
  intro h
  have h1 := C123_z_vector fun _ _ _ => .ok []
  rcases h (fun _ _ _ => .ok []) "z_vector" (by decide +kernel) with h2 | h2
  · have := h2 ['a', 'b'] ['b'] (by simp)
    rw [h1.1, h1.2] at this
    cases this
  · have := h2 ['a', 'b'] ['b']
    rw [h1.1] at this
    cases this

example : pickMst .python .matrix "prim" = .error .notImplemented := C122_mst_matrix.2 _ (by decide +kernel)
example : find (fun _ _ _ => .ok []) .python "boyer_moore" "abcabc".toList "bc".toList = .ok [1, 4] := by
  rw [(C123_find_partial _ _ _ (by simp)).2.2.1]; decide +kernel

end Props
