import Verif.Model.Dict
import Verif.Model.ShortestPaths

/-!
# The adjacency-list graph of the C++ back end and its Dijkstra

`Graph(..., backend=Backend.CPP)` and `shortest_paths(graph, 'dijkstra', ..., backend=Backend.CPP)`. Vertices and edges are reached through
hash maps, whose iteration order is unspecified: the functions that iterate take the order as an argument. Every call of `add_vertex`
passes a fresh node without neighbours. Edge values are `None` or ints (floats and strings are not modelled). Reference counts are not
modelled, and `int` counters do not overflow.
-/
namespace Model.Cpp
open Py Model

/-- utils/_backend/cpp/GraphEdge.hpp:13-19 `GraphEdge`: the names of the end points and the value, `none` for `None`. -/
structure CEdge where
  source : String
  target : String
  value : Option Int
  deriving DecidableEq

/-- graphs/_backend/cpp/AdjacencyList.hpp:16-28 `AdjacencyListGraph`. A pointer to a node is its `internal_id`; `idMap` gives the names in
`adjacent` of the node (utils/_backend/cpp/AdjacencyListGraphNode.hpp:13-21), which are always nodes of this graph. -/
structure CGraph where
  nodes : List Nat
  edges : PyDict String CEdge
  nodeMap : String → Option Nat
  idMap : Nat → Option (List String)
  idToName : Nat → Option String
  nameToId : String → Option Nat
  nextId : Nat

/-- graphs/_backend/cpp/AdjacencyList.hpp:49-97 `AdjacencyListGraph_new` without vertices (graphs/adjacency_list.py:31-34 adds them one by one). -/
def cgNew : CGraph := ⟨[], PyDict.empty, fun _ => none, fun _ => none, fun _ => none, fun _ => none, 0⟩

/-- Assignment to or removal from a map, e.g. graphs/_backend/cpp/AdjacencyList.hpp:126-129. -/
def upd {κ β : Type} [DecidableEq κ] (f : κ → β) (k : κ) (v : β) : κ → β := fun j => if j = k then v else f j

/-- graphs/_backend/cpp/AdjacencyList.hpp:99-101 `make_edge_key`. -/
def edgeKey (source target : String) : String := source ++ "_" ++ target

/-- graphs/_backend/cpp/AdjacencyList.hpp:103-132 `add_vertex`. -/
def cgAddVertex (g : CGraph) (name : String) : PyM CGraph :=
  if (g.nodeMap name).isSome then .error .valueError
  else
    let id := g.nextId
    .ok { g with
      nextId := id + 1
      nodes := g.nodes ++ [id]
      nodeMap := upd g.nodeMap name (some id)
      idMap := upd g.idMap id (some [])
      idToName := upd g.idToName id (some name)
      nameToId := upd g.nameToId name (some id) }

/-- `name_to_id.find(name)`, then `id_map[id]` as a node: `KeyError` if there is no such name; if the id has no node the null pointer is
used (graphs/_backend/cpp/AdjacencyList.hpp:141-147, 168-174, 193-200). -/
def cgNode (g : CGraph) (name : String) : PyM (Nat × List String) :=
  match g.nameToId name with
  | none => .error .keyError
  | some id =>
    match g.idMap id with
    | some adj => .ok (id, adj)
    | none => .error .undefined

/-- graphs/_backend/cpp/AdjacencyList.hpp:135-154 `is_adjacent`. -/
def cgIsAdjacent (g : CGraph) (n1 n2 : String) : PyM Bool := do
  let (_, adj) ← cgNode g n1
  .ok (decide (n2 ∈ adj))

/-- graphs/_backend/cpp/AdjacencyList.hpp:156-158 `num_vertices`. -/
def cgNumVertices (g : CGraph) : Nat := g.nodes.length

/-- graphs/_backend/cpp/AdjacencyList.hpp:160-162 `num_edges`. -/
def cgNumEdges (g : CGraph) : Nat := g.edges.keys.length

/-- graphs/_backend/cpp/AdjacencyList.hpp:164-185 `neighbors`, the names of the nodes; `order` is the iteration order of the hash map. -/
def cgNeighbors (order : List String → List String) (g : CGraph) (name : String) : PyM (List String) := do
  let (_, adj) ← cgNode g name
  .ok (order adj)

/-- `key.substr(0, key.find('_'))` and `key.substr(key.find('_') + 1)` for a key with an underscore
(graphs/_backend/cpp/AdjacencyList.hpp:223-225, Algorithms.hpp:336-338). -/
def splitKey (key : String) : String × String :=
  (String.ofList (key.toList.takeWhile (· ≠ '_')), String.ofList ((key.toList.dropWhile (· ≠ '_')).drop 1))

/-- graphs/_backend/cpp/AdjacencyList.hpp:187-236 `remove_vertex`. (`name` in the C++ code is the name of the node found.) -/
def cgRemoveVertex (g : CGraph) (arg : String) : PyM CGraph := do
  let (id, _) ← cgNode g arg
  let name := (g.idToName id).getD ""
  let stays (key : String) : Bool := (splitKey key).1 ≠ name && (splitKey key).2 ≠ name
  .ok { g with
    nodes := g.nodes.filter (· ≠ id)
    nodeMap := upd g.nodeMap name none
    idMap := fun i => if i = id then none else (g.idMap i).map (·.erase name)
    nameToId := upd g.nameToId name none
    idToName := upd g.idToName id none
    edges := ⟨g.edges.keys.filter stays, fun k => if stays k then g.edges.val k else none⟩ }

/-- graphs/_backend/cpp/AdjacencyList.hpp:239-253 `get_edge`. -/
def cgGetEdge (g : CGraph) (source target : String) : Option CEdge := g.edges.val (edgeKey source target)

/-- `map.erase(key)` (graphs/_backend/cpp/AdjacencyList.hpp:280-284). -/
def mapErase {β : Type} (m : PyDict String β) (key : String) : PyDict String β :=
  ⟨m.keys.erase key, fun j => if j = key then none else m.val j⟩

/-- graphs/_backend/cpp/AdjacencyList.hpp:255-287 `remove_edge`. -/
def cgRemoveEdge (g : CGraph) (source target : String) : PyM CGraph :=
  match g.nodeMap source, g.nodeMap target with
  | some id, some _ =>
    .ok { g with
      idMap := upd g.idMap id ((g.idMap id).map (·.erase target))
      edges := mapErase g.edges (edgeKey source target) }
  | _, _ => .error .keyError

/-- Does the int fit into `int64_t`? (utils/_backend/cpp/GraphEdge.hpp:52-54 `PyLong_AsLongLong`) -/
def fits64 : Option Int → Bool
  | none => true
  | some x => decide (-2 ^ 63 ≤ x ∧ x < 2 ^ 63)

/-- graphs/_backend/cpp/AdjacencyList.hpp:289-338 `add_edge`. For an int that does not fit the constructor of the edge returns an object although an
exception is pending, which CPython turns into `SystemError`. -/
def cgAddEdge (g : CGraph) (source target : String) (cost : Option Int) : PyM CGraph :=
  match g.nodeMap source with
  | none => .error .valueError
  | some id =>
    match g.nodeMap target with
    | none => .error .valueError
    | some _ =>
      if fits64 cost then
        .ok { g with
          edges := g.edges.set (edgeKey source target) ⟨source, target, cost⟩
          idMap := upd g.idMap id ((g.idMap id).map fun adj => if target ∈ adj then adj else adj ++ [target]) }
      else .error .systemError

/-! ## Dijkstra -/

/-- `vec[i]` of a `std::vector`: undefined behaviour past the end (graphs/_backend/cpp/Algorithms.hpp:351-372). -/
def vget {β : Type} (l : List β) (i : Nat) : PyM β :=
  match l[i]? with
  | some x => .ok x
  | none => .error .undefined

/-- `vec[i] = x` (graphs/_backend/cpp/Algorithms.hpp:361). -/
def vset {β : Type} (l : List β) (i : Nat) (x : β) : PyM (List β) := if i < l.length then .ok (l.set i x) else .error .undefined

/-- `name_to_id[name]`: a name that is not there is added with the value 0 (graphs/_backend/cpp/Algorithms.hpp:339-340, 361, 424). -/
def idOf (g : CGraph) (name : String) : Nat × CGraph :=
  match g.nameToId name with
  | some id => (id, g)
  | none => (0, { g with nameToId := upd g.nameToId name (some 0) })

/-- The adjacency vectors of graphs/_backend/cpp/Algorithms.hpp:334-353; a `double` is an exact integer here (true for sums below 2⁵³). -/
abbrev Adj := List (List (Nat × Int))

/-- graphs/_backend/cpp/Algorithms.hpp:335-353, one edge. -/
def djEdge (key : String) (s : Adj × CGraph) : PyM (Adj × CGraph) := do
  let (adj, g) := s
  let (u, g) := idOf g (splitKey key).1
  let (v, g) := idOf g (splitKey key).2
  match g.edges.val key with
  | none => .error .undefined
  | some e =>
    match e.value with
    | none => .ok (adj, g)
    | some w =>
      if w < 0 then .ok (adj, g)
      else do
        let row ← vget adj u
        let adj ← vset adj u (row ++ [(v, w)])
        .ok (adj, g)

/-- Local variables of graphs/_backend/cpp/Algorithms.hpp:355-363; `none` in `dist` is infinity, in `pred` it is -1. -/
structure Dj where
  dist : List (Option Int)
  pred : List (Option Nat)
  pq : List (Int × Nat)

/-- The order of `std::pair<double, int>` (graphs/_backend/cpp/Algorithms.hpp:357-358). -/
def entryLe (a b : Int × Nat) : Bool := decide (a.1 < b.1) || (decide (a.1 = b.1) && decide (a.2 ≤ b.2))

/-- `pq.top()` of a queue that has at least the entry `e` (graphs/_backend/cpp/Algorithms.hpp:366): the least entry. -/
def pqTop (e : Int × Nat) (es : List (Int × Nat)) : Int × Nat := es.foldl (fun a b => if entryLe a b then a else b) e

/-- graphs/_backend/cpp/Algorithms.hpp:369-377, one outgoing edge of `u`. -/
def djArc (u : Nat) (a : Nat × Int) (s : Dj) : PyM Dj := do
  let du ← vget s.dist u
  let dv ← vget s.dist a.1
  match du with
  | none => .ok s
  | some du =>
    if infLt (some (du + a.2)) dv then do
      let dist ← vset s.dist a.1 (some (du + a.2))
      let pred ← vset s.pred a.1 (some u)
      .ok ⟨dist, pred, (du + a.2, a.1) :: s.pq⟩
    else .ok s

/-- Body of the `while (!pq.empty())` loop, graphs/_backend/cpp/Algorithms.hpp:366-378. -/
def djBody (adj : Adj) (s : Dj) : PyM Dj :=
  match s.pq with
  | [] => .ok s
  | e :: es => do
    let top := pqTop e es
    let s := { s with pq := s.pq.erase top }
    let d ← vget s.dist top.2
    if infLt d (some top.1) then .ok s
    else do
      let row ← vget adj top.2
      forList row s (djArc top.2)

/-- graphs/_backend/cpp/Algorithms.hpp:385-419: the two dictionaries. `id_to_name[id]` is the empty string for an id without name. -/
def djDicts (g : CGraph) (s : Dj) (V : Nat) : PyM (PyDict String (Option Int) × PyDict String (Option String)) := do
  let dist ← forRange 0 V PyDict.empty fun id d => do
    let x ← vget s.dist id
    .ok (d.set ((g.idToName id).getD "") x)
  let pred ← forRange 0 V PyDict.empty fun id d => do
    let p ← vget s.pred id
    .ok (d.set ((g.idToName id).getD "") (p.map fun u => (g.idToName u).getD ""))
  .ok (dist, pred)

/-- graphs/_backend/cpp/Algorithms.hpp:330-379: everything up to the end of the `while` loop; `order` is the iteration order of `edges`. The graph
is part of the result, because unknown names are added to `name_to_id`. (`node_map.size()` is the number of nodes: both are updated together.) -/
def djRun (order : List String → List String) (fuel : Nat) (g : CGraph) (source : String) : PyM (Dj × CGraph) := do
  let V := g.nodes.length
  let (adj, g) ← forList (order g.edges.keys) ((List.replicate V [] : Adj), g) djEdge
  let (src, g) := idOf g source
  let dist ← vset (List.replicate V none) src (some 0)
  let s ← whileLoop fuel (fun s : Dj => .ok (!s.pq.isEmpty)) (djBody adj) ⟨dist, List.replicate V none, [(0, src)]⟩
  .ok (s, g)

/-- graphs/_backend/cpp/Algorithms.hpp:318-459 `shortest_paths_dijkstra_adjacency_list` without target. -/
def cgDijkstra (order : List String → List String) (fuel : Nat) (g : CGraph) (source : String) :
    PyM ((PyDict String (Option Int) × PyDict String (Option String)) × CGraph) := do
  let (s, g) ← djRun order fuel g source
  let r ← djDicts g s g.nodes.length
  .ok (r, g)

/-- graphs/_backend/cpp/Algorithms.hpp:318-459 with a target (423-445). -/
def cgDijkstraTo (order : List String → List String) (fuel : Nat) (g : CGraph) (source target : String) :
    PyM ((Option Int × PyDict String (Option String)) × CGraph) := do
  let (s, g) ← djRun order fuel g source
  let r ← djDicts g s g.nodes.length
  let (id, g) := idOf g target
  let d ← vget s.dist id
  .ok ((d, r.2), g)

end Model.Cpp
