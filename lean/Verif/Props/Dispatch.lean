import Verif.Model.Dispatch
import Verif.Lemmas.Bind

/-!
# C122: what every algorithm name reaches
-/
namespace Props
open Py Model

/-! ## Names that are put together -/

/-- The part of `name` between `pre` and `suf`. -/
def middle (pre suf name : List Char) : Option (List Char) :=
  if pre.isPrefixOf name ∧ suf.isSuffixOf (name.drop pre.length) then
    some ((name.drop pre.length).take (name.length - pre.length - suf.length))
  else none

theorem middle_iff {pre suf name alg : List Char} : pre ++ alg ++ suf = name ↔ middle pre suf name = some alg := by
  constructor
  · rintro rfl
    rw [middle, if_pos]
    · simp [List.append_assoc]
    · simp [List.append_assoc]
  · intro h
    rw [middle] at h
    split at h
    case isTrue hc =>
      obtain ⟨h1, h2⟩ := hc
      obtain ⟨r, rfl⟩ := List.isPrefixOf_iff_prefix.1 h1
      rw [List.drop_left] at h h2
      obtain ⟨a, rfl⟩ := List.isSuffixOf_iff_suffix.1 h2
      simp at h
      rw [h]; simp
    case isFalse => cases h

/-- The attributes that a name between `pre` and `suf` can reach, under that name. -/
def reached {φ : Type} (attrs : List (Attr φ)) (pre suf : String) : List (Attr φ) :=
  attrs.filterMap fun a => (middle pre.toList suf.toList a.name.toList).map fun m => { a with name := String.ofList m }

theorem find_reached {φ : Type} (pre suf alg : String) (attrs : List (Attr φ)) :
    (attrs.find? fun a => a.name == pre ++ alg ++ suf).map (fun a => (a.fn, a.least, a.most)) =
    ((reached attrs pre suf).find? fun a => a.name == alg).map (fun a => (a.fn, a.least, a.most)) := by
  induction attrs with
  | nil => rfl
  | cons a as ih =>
    rw [reached, List.filterMap_cons]
    have key : (a.name = pre ++ alg ++ suf) ↔ middle pre.toList suf.toList a.name.toList = some alg.toList := by
      rw [← middle_iff, ← String.toList_inj, String.toList_append, String.toList_append, eq_comm]
    by_cases h : a.name = pre ++ alg ++ suf
    · rw [List.find?_cons_of_pos (by simpa using h), key.1 h]
      dsimp only [Option.map_some]
      rw [List.find?_cons_of_pos (by simp)]
      rfl
    · rw [List.find?_cons_of_neg (by simpa using h), ih]
      cases hm : middle pre.toList suf.toList a.name.toList with
      | none => rfl
      | some m =>
        dsimp only [Option.map_some]
        rw [List.find?_cons_of_neg]
        · rfl
        · intro h'
          apply h; rw [key, hm]
          have : String.ofList m = alg := by simpa using h'
          rw [← this]; simp

theorem call_reached {φ : Type} (attrs : List (Attr φ)) (pre suf alg : String) (n : Nat) :
    callByName attrs (pre ++ alg ++ suf) n = callByName (reached attrs pre suf) alg n := by
  have h := find_reached pre suf alg attrs
  rw [callByName, callByName]
  cases h1 : attrs.find? (fun a => a.name == pre ++ alg ++ suf) with
  | none =>
    cases h2 : (reached attrs pre suf).find? (fun a => a.name == alg) with
    | none => rfl
    | some b => rw [h1, h2] at h; cases h
  | some a =>
    cases h2 : (reached attrs pre suf).find? (fun a => a.name == alg) with
    | none => rw [h1, h2] at h; cases h
    | some b =>
      rw [h1, h2] at h
      simp only [Option.map_some, Option.some.injEq, Prod.mk.injEq] at h
      dsimp only
      rw [h.1, h.2.1, h.2.2]

/-! ## The specification -/

/-- What is said of names: the name, and what happens. -/
abbrev Said (φ : Type) := List (String × PyM φ)

/-- A name that is listed does what the list says, every other name raises `NotImplementedError`. -/
def AnswersTo {φ : Type} (pick : String → PyM φ) (said : Said φ) : Prop :=
  (∀ name r, (name, r) ∈ said → pick name = r) ∧ ∀ name, name ∉ said.map (·.1) → pick name = .error .notImplemented

/-- The documented names run the named algorithm, every other name raises `NotImplementedError`. -/
def Documented (pick : String → PyM (Option GFn)) (names : List (String × GFn)) : Prop :=
  AnswersTo pick (names.map fun p => (p.1, .ok (some p.2)))

def outcome {φ : Type} (n : Nat) (a : Attr φ) : PyM φ := if a.least ≤ n ∧ a.most.all (n ≤ ·) then .ok a.fn else .error .typeError

theorem call_answers {φ : Type} (n : Nat) : ∀ attrs : List (Attr φ), (attrs.map (·.name)).Nodup →
    AnswersTo (fun alg => callByName attrs alg n) (attrs.map fun a => (a.name, outcome n a)) := by
  intro attrs hd
  have none_of : ∀ name, name ∉ attrs.map (·.name) → attrs.find? (fun a => a.name == name) = none := by
    intro name h
    rw [List.find?_eq_none]
    intro a ha hn
    exact h (List.mem_map.2 ⟨a, ha, by simpa using hn⟩)
  constructor
  · intro name r h
    obtain ⟨a, ha, he⟩ := List.mem_map.1 h
    cases he
    have hf : attrs.find? (fun b => b.name == a.name) = some a := by
      clear h none_of
      induction attrs with
      | nil => cases ha
      | cons b bs ih =>
        rcases List.mem_cons.1 ha with rfl | hb
        · rw [List.find?_cons_of_pos (by simp)]
        · rw [List.map_cons, List.nodup_cons] at hd
          rw [List.find?_cons_of_neg, ih hd.2 hb]
          intro e
          apply hd.1
          have e : b.name = a.name := by simpa using e
          rw [e]; exact List.mem_map.2 ⟨a, hb, rfl⟩
    dsimp only
    rw [callByName, hf]; rfl
  · intro name h
    dsimp only
    rw [callByName, none_of]
    intro h'
    apply h
    rw [List.map_map]; exact h'

theorem AnswersTo.some {φ : Type} {pick : String → PyM φ} {said : Said φ} (h : AnswersTo pick said) :
    AnswersTo (fun a => (do let f ← pick a; .ok (Option.some f) : PyM (Option φ))) (said.map fun p => (p.1, do let f ← p.2; .ok (Option.some f))) := by
  constructor
  · intro name r hm
    obtain ⟨p, hp, he⟩ := List.mem_map.1 hm
    cases he
    dsimp only
    rw [h.1 p.1 p.2 hp]
  · intro name hm
    rw [List.map_map] at hm
    dsimp only
    rw [h.2 name hm]; rfl

/-- The functions reached by a name between `pre` and `suf`, called with `n` arguments. -/
theorem pick_answers (pre suf : String) (n : Nat) (l : List (Attr GFn)) (hl : reached graphAttrs pre suf = l) (hd : (l.map (·.name)).Nodup) :
    AnswersTo (fun alg => (do let f ← callByName graphAttrs (pre ++ alg ++ suf) n; .ok (Option.some f) : PyM (Option GFn)))
      (l.map fun a => (a.name, do let f ← outcome n a; .ok (Option.some f))) := by
  subst hl
  have := (call_answers n _ hd).some
  rw [List.map_map] at this
  simp only [call_reached]
  exact this

/-! ## C122 -/

theorem joined (pre alg : String) (g : GImpl) : pre ++ alg ++ "_" ++ g.name = pre ++ alg ++ ("_" ++ g.name) := String.append_assoc ..

theorem joinedParallel (pre alg : String) (g : GImpl) :
    pre ++ alg ++ "_" ++ g.name ++ "_parallel" = pre ++ alg ++ ("_" ++ g.name ++ "_parallel") := by
  simp only [String.append_assoc]

/-- `minimum_spanning_tree`: the documented names work, the names of the parallel versions raise `TypeError`. -/
theorem C122_mst_list : AnswersTo (pickMst .python .list) [("kruskal", .ok (some .kruskal)), ("prim", .ok (some .prim)), ("parallel_kruskal", .error .typeError), ("parallel_prim", .error .typeError)] := by
  have h := pick_answers "_minimum_spanning_tree_" ("_" ++ GImpl.list.name) 1
    [⟨"kruskal", .kruskal, 1, some 1⟩, ⟨"prim", .prim, 1, some 1⟩, ⟨"parallel_kruskal", .kruskalParallel, 2, some 2⟩, ⟨"parallel_prim", .primParallel, 2,
     some 2⟩] (by decide +kernel) (by decide +kernel)
  simp only [← joined] at h
  exact h

theorem C122_mst_matrix : AnswersTo (pickMst .python .matrix) [("kruskal", .ok (some .kruskal)), ("parallel_kruskal", .error .typeError)] := by
  have h := pick_answers "_minimum_spanning_tree_" ("_" ++ GImpl.matrix.name) 1
    [⟨"kruskal", .kruskal, 1, some 1⟩, ⟨"parallel_kruskal", .kruskalParallel, 2, some 2⟩] (by decide +kernel) (by decide +kernel)
  simp only [← joined] at h
  exact h

/-- `minimum_spanning_tree_parallel`. -/
theorem C122_mst_parallel_list : AnswersTo (pickMstParallel .python .list) [("kruskal", .ok (some .kruskalParallel)), ("prim", .ok (some .primParallel))] := by
  have h := pick_answers "_minimum_spanning_tree_parallel_" ("_" ++ GImpl.list.name) 2
    [⟨"kruskal", .kruskalParallel, 2, some 2⟩, ⟨"prim", .primParallel, 2, some 2⟩] (by decide +kernel) (by decide +kernel)
  simp only [← joined] at h
  exact h

theorem C122_mst_parallel_matrix : AnswersTo (pickMstParallel .python .matrix) [("kruskal", .ok (some .kruskalParallel))] := by
  have h := pick_answers "_minimum_spanning_tree_parallel_" ("_" ++ GImpl.matrix.name) 2
    [⟨"kruskal", .kruskalParallel, 2, some 2⟩] (by decide +kernel) (by decide +kernel)
  simp only [← joined] at h
  exact h

/-- `strongly_connected_components`. -/
theorem C122_scc_list : AnswersTo (pickScc .python .list) [("kosaraju", .ok (some .kosaraju)), ("tarjan", .ok (some .tarjan))] := by
  have h := pick_answers "_strongly_connected_components_" ("_" ++ GImpl.list.name) 1
    [⟨"kosaraju", .kosaraju, 1, some 1⟩, ⟨"tarjan", .tarjan, 1, some 1⟩] (by decide +kernel) (by decide +kernel)
  simp only [← joined] at h
  exact h

theorem C122_scc_matrix : AnswersTo (pickScc .python .matrix) [("kosaraju", .ok (some .kosaraju)), ("tarjan", .ok (some .tarjan))] := by
  have h := pick_answers "_strongly_connected_components_" ("_" ++ GImpl.matrix.name) 1
    [⟨"kosaraju", .kosaraju, 1, some 1⟩, ⟨"tarjan", .tarjan, 1, some 1⟩] (by decide +kernel) (by decide +kernel)
  simp only [← joined] at h
  exact h

/-- `shortest_paths`: beside the documented names, the names of all other functions of the module are accepted; those that take three arguments run. -/
theorem C122_shortest_paths_list : AnswersTo (pickShortestPaths .python .list) [("breadth_first_search", .ok (some .bfs)), ("breadth_first_search_parallel", .error .typeError), ("minimum_spanning_tree_kruskal", .error
    .typeError), ("minimum_spanning_tree_prim", .error .typeError), ("minimum_spanning_tree_parallel_kruskal", .error .typeError),
    ("minimum_spanning_tree_parallel_prim", .error .typeError), ("strongly_connected_components_kosaraju", .error .typeError),
    ("strongly_connected_components_tarjan", .error .typeError), ("depth_first_search", .ok (some .dfs)), ("bellman_ford", .ok (some .bellmanFord)),
    ("dijkstra", .ok (some .dijkstra)), ("floyd_warshall", .error .typeError), ("johnson", .error .typeError), ("kahn", .error .typeError)] := by
  have h := pick_answers "_" ("_" ++ GImpl.list.name) 3
    [⟨"breadth_first_search", .bfs, 3, none⟩, ⟨"breadth_first_search_parallel", .bfsParallel, 4, none⟩, ⟨"minimum_spanning_tree_kruskal", .kruskal, 1,
     some 1⟩, ⟨"minimum_spanning_tree_prim", .prim, 1, some 1⟩, ⟨"minimum_spanning_tree_parallel_kruskal", .kruskalParallel, 2, some 2⟩,
     ⟨"minimum_spanning_tree_parallel_prim", .primParallel, 2, some 2⟩, ⟨"strongly_connected_components_kosaraju", .kosaraju, 1, some 1⟩,
     ⟨"strongly_connected_components_tarjan", .tarjan, 1, some 1⟩, ⟨"depth_first_search", .dfs, 3, none⟩, ⟨"bellman_ford", .bellmanFord, 3, some 3⟩,
     ⟨"dijkstra", .dijkstra, 3, some 3⟩, ⟨"floyd_warshall", .floydWarshall, 1, some 1⟩, ⟨"johnson", .johnson, 1, some 1⟩, ⟨"kahn", .kahn, 1, some 1⟩] (by decide +kernel) (by decide +kernel)
  simp only [← joined] at h
  exact h

theorem C122_shortest_paths_matrix : AnswersTo (pickShortestPaths .python .matrix) [("breadth_first_search", .ok (some .bfs)), ("breadth_first_search_parallel", .error .typeError), ("minimum_spanning_tree_kruskal", .error
    .typeError), ("minimum_spanning_tree_parallel_kruskal", .error .typeError), ("strongly_connected_components_kosaraju", .error .typeError),
    ("strongly_connected_components_tarjan", .error .typeError), ("depth_first_search", .ok (some .dfs)), ("bellman_ford", .ok (some .bellmanFord)),
    ("dijkstra", .ok (some .dijkstra)), ("floyd_warshall", .error .typeError)] := by
  have h := pick_answers "_" ("_" ++ GImpl.matrix.name) 3
    [⟨"breadth_first_search", .bfs, 3, none⟩, ⟨"breadth_first_search_parallel", .bfsParallel, 4, none⟩, ⟨"minimum_spanning_tree_kruskal", .kruskal, 1,
     some 1⟩, ⟨"minimum_spanning_tree_parallel_kruskal", .kruskalParallel, 2, some 2⟩, ⟨"strongly_connected_components_kosaraju", .kosaraju, 1, some
     1⟩, ⟨"strongly_connected_components_tarjan", .tarjan, 1, some 1⟩, ⟨"depth_first_search", .dfs, 3, none⟩, ⟨"bellman_ford", .bellmanFord, 3, some
     3⟩, ⟨"dijkstra", .dijkstra, 3, some 3⟩, ⟨"floyd_warshall", .floydWarshall, 1, some 1⟩] (by decide +kernel) (by decide +kernel)
  simp only [← joined] at h
  exact h

/-- `all_pair_shortest_paths`: every function of the module that takes one argument runs under its name. -/
theorem C122_all_pairs_list : AnswersTo (pickAllPairs .python .list) [("breadth_first_search", .error .typeError), ("breadth_first_search_parallel", .error .typeError), ("minimum_spanning_tree_kruskal", .ok (some
    .kruskal)), ("minimum_spanning_tree_prim", .ok (some .prim)), ("minimum_spanning_tree_parallel_kruskal", .error .typeError),
    ("minimum_spanning_tree_parallel_prim", .error .typeError), ("strongly_connected_components_kosaraju", .ok (some .kosaraju)),
    ("strongly_connected_components_tarjan", .ok (some .tarjan)), ("depth_first_search", .error .typeError), ("bellman_ford", .error .typeError),
    ("dijkstra", .error .typeError), ("floyd_warshall", .ok (some .floydWarshall)), ("johnson", .ok (some .johnson)), ("kahn", .ok (some .kahn))] := by
  have h := pick_answers "_" ("_" ++ GImpl.list.name) 1
    [⟨"breadth_first_search", .bfs, 3, none⟩, ⟨"breadth_first_search_parallel", .bfsParallel, 4, none⟩, ⟨"minimum_spanning_tree_kruskal", .kruskal, 1,
     some 1⟩, ⟨"minimum_spanning_tree_prim", .prim, 1, some 1⟩, ⟨"minimum_spanning_tree_parallel_kruskal", .kruskalParallel, 2, some 2⟩,
     ⟨"minimum_spanning_tree_parallel_prim", .primParallel, 2, some 2⟩, ⟨"strongly_connected_components_kosaraju", .kosaraju, 1, some 1⟩,
     ⟨"strongly_connected_components_tarjan", .tarjan, 1, some 1⟩, ⟨"depth_first_search", .dfs, 3, none⟩, ⟨"bellman_ford", .bellmanFord, 3, some 3⟩,
     ⟨"dijkstra", .dijkstra, 3, some 3⟩, ⟨"floyd_warshall", .floydWarshall, 1, some 1⟩, ⟨"johnson", .johnson, 1, some 1⟩, ⟨"kahn", .kahn, 1, some 1⟩] (by decide +kernel) (by decide +kernel)
  simp only [← joined] at h
  exact h

theorem C122_all_pairs_matrix : AnswersTo (pickAllPairs .python .matrix) [("breadth_first_search", .error .typeError), ("breadth_first_search_parallel", .error .typeError), ("minimum_spanning_tree_kruskal", .ok (some
    .kruskal)), ("minimum_spanning_tree_parallel_kruskal", .error .typeError), ("strongly_connected_components_kosaraju", .ok (some .kosaraju)),
    ("strongly_connected_components_tarjan", .ok (some .tarjan)), ("depth_first_search", .error .typeError), ("bellman_ford", .error .typeError),
    ("dijkstra", .error .typeError), ("floyd_warshall", .ok (some .floydWarshall))] := by
  have h := pick_answers "_" ("_" ++ GImpl.matrix.name) 1
    [⟨"breadth_first_search", .bfs, 3, none⟩, ⟨"breadth_first_search_parallel", .bfsParallel, 4, none⟩, ⟨"minimum_spanning_tree_kruskal", .kruskal, 1,
     some 1⟩, ⟨"minimum_spanning_tree_parallel_kruskal", .kruskalParallel, 2, some 2⟩, ⟨"strongly_connected_components_kosaraju", .kosaraju, 1, some
     1⟩, ⟨"strongly_connected_components_tarjan", .tarjan, 1, some 1⟩, ⟨"depth_first_search", .dfs, 3, none⟩, ⟨"bellman_ford", .bellmanFord, 3, some
     3⟩, ⟨"dijkstra", .dijkstra, 3, some 3⟩, ⟨"floyd_warshall", .floydWarshall, 1, some 1⟩] (by decide +kernel) (by decide +kernel)
  simp only [← joined] at h
  exact h

/-- `topological_sort`: likewise. -/
theorem C122_topological_sort_list : AnswersTo (pickTopo .python .list) [("breadth_first_search", .error .typeError), ("breadth_first_search_parallel", .error .typeError), ("minimum_spanning_tree_kruskal", .ok (some
    .kruskal)), ("minimum_spanning_tree_prim", .ok (some .prim)), ("minimum_spanning_tree_parallel_kruskal", .error .typeError),
    ("minimum_spanning_tree_parallel_prim", .error .typeError), ("strongly_connected_components_kosaraju", .ok (some .kosaraju)),
    ("strongly_connected_components_tarjan", .ok (some .tarjan)), ("depth_first_search", .error .typeError), ("bellman_ford", .error .typeError),
    ("dijkstra", .error .typeError), ("floyd_warshall", .ok (some .floydWarshall)), ("johnson", .ok (some .johnson)), ("kahn", .ok (some .kahn))] := by
  have h := pick_answers "_" ("_" ++ GImpl.list.name) 1
    [⟨"breadth_first_search", .bfs, 3, none⟩, ⟨"breadth_first_search_parallel", .bfsParallel, 4, none⟩, ⟨"minimum_spanning_tree_kruskal", .kruskal, 1,
     some 1⟩, ⟨"minimum_spanning_tree_prim", .prim, 1, some 1⟩, ⟨"minimum_spanning_tree_parallel_kruskal", .kruskalParallel, 2, some 2⟩,
     ⟨"minimum_spanning_tree_parallel_prim", .primParallel, 2, some 2⟩, ⟨"strongly_connected_components_kosaraju", .kosaraju, 1, some 1⟩,
     ⟨"strongly_connected_components_tarjan", .tarjan, 1, some 1⟩, ⟨"depth_first_search", .dfs, 3, none⟩, ⟨"bellman_ford", .bellmanFord, 3, some 3⟩,
     ⟨"dijkstra", .dijkstra, 3, some 3⟩, ⟨"floyd_warshall", .floydWarshall, 1, some 1⟩, ⟨"johnson", .johnson, 1, some 1⟩, ⟨"kahn", .kahn, 1, some 1⟩] (by decide +kernel) (by decide +kernel)
  simp only [← joined] at h
  exact h

theorem C122_topological_sort_matrix : AnswersTo (pickTopo .python .matrix) [("breadth_first_search", .error .typeError), ("breadth_first_search_parallel", .error .typeError), ("minimum_spanning_tree_kruskal", .ok (some
    .kruskal)), ("minimum_spanning_tree_parallel_kruskal", .error .typeError), ("strongly_connected_components_kosaraju", .ok (some .kosaraju)),
    ("strongly_connected_components_tarjan", .ok (some .tarjan)), ("depth_first_search", .error .typeError), ("bellman_ford", .error .typeError),
    ("dijkstra", .error .typeError), ("floyd_warshall", .ok (some .floydWarshall))] := by
  have h := pick_answers "_" ("_" ++ GImpl.matrix.name) 1
    [⟨"breadth_first_search", .bfs, 3, none⟩, ⟨"breadth_first_search_parallel", .bfsParallel, 4, none⟩, ⟨"minimum_spanning_tree_kruskal", .kruskal, 1,
     some 1⟩, ⟨"minimum_spanning_tree_parallel_kruskal", .kruskalParallel, 2, some 2⟩, ⟨"strongly_connected_components_kosaraju", .kosaraju, 1, some
     1⟩, ⟨"strongly_connected_components_tarjan", .tarjan, 1, some 1⟩, ⟨"depth_first_search", .dfs, 3, none⟩, ⟨"bellman_ford", .bellmanFord, 3, some
     3⟩, ⟨"dijkstra", .dijkstra, 3, some 3⟩, ⟨"floyd_warshall", .floydWarshall, 1, some 1⟩] (by decide +kernel) (by decide +kernel)
  simp only [← joined] at h
  exact h

/-- `topological_sort_parallel`. -/
theorem C122_topological_sort_parallel_list : AnswersTo (pickTopoParallel .python .list) [("kahn", .ok (some .kahnParallel))] := by
  have h := pick_answers "_" ("_" ++ GImpl.list.name ++ "_parallel") 2
    [⟨"kahn", .kahnParallel, 2, some 2⟩] (by decide +kernel) (by decide +kernel)
  simp only [← joinedParallel] at h
  exact h

theorem C122_topological_sort_parallel_matrix : AnswersTo (pickTopoParallel .python .matrix) [] := by
  have h := pick_answers "_" ("_" ++ GImpl.matrix.name ++ "_parallel") 2
    [] (by decide +kernel) (by decide +kernel)
  simp only [← joinedParallel] at h
  exact h

/-- `max_flow`. -/
theorem C122_max_flow : AnswersTo (pickMaxFlow .python) [("edmonds_karp", .ok (some .edmondsKarp)), ("dinic", .ok (some .dinic))] := by
  have h := pick_answers "_max_flow_" "_" 3
    [⟨"edmonds_karp", .edmondsKarp, 3, some 3⟩, ⟨"dinic", .dinic, 3, some 3⟩] (by decide +kernel) (by decide +kernel)
  exact h

end Props
