import Verif.Model.CppGraph

/-!
# Prim's algorithm of the C++ back end

`minimum_spanning_tree(graph, 'prim', backend=Backend.CPP)`. The nodes of the graph that is built are the node objects of the input graph. Which of
several least entries `std::priority_queue` delivers is left open: `top` chooses.
-/
namespace Model.Cpp
open Py Model

/-- graphs/_backend/cpp/Algorithms.hpp:173-190 `EdgeTuple`; values are `None` or ints. -/
structure PEntry where
  src : Nat
  dst : Nat
  value : Option Int
  deriving DecidableEq

/-- graphs/_backend/cpp/Algorithms.hpp:179-189 `operator>` (`DataType::None` comes before `DataType::Int`). -/
def pgt (a b : PEntry) : Bool :=
  match a.value, b.value with
  | some x, some y => decide (x > y)
  | some _, none => true
  | none, _ => false

/-- Local variables of graphs/_backend/cpp/Algorithms.hpp:171-198 and the input graph, whose nodes are changed. -/
structure PrimC where
  g : CGraph
  mst : CGraph
  pq : List PEntry
  visited : List Nat

/-- graphs/_backend/cpp/Algorithms.hpp:204-209 and 254-263: the node is added to the new graph. -/
def primAddC (id : Nat) (name : String) (st : PrimC) : PyM PrimC :=
  match st.g.idMap id with
  | none => .error .undefined
  | some adj =>
    .ok { st with mst := { st.mst with
      nodes := st.mst.nodes ++ [id]
      nodeMap := upd st.mst.nodeMap name (some id)
      idMap := upd st.mst.idMap id (some adj)
      idToName := upd st.mst.idToName id (some name)
      nameToId := upd st.mst.nameToId name (some id) } }

/-- graphs/_backend/cpp/Algorithms.hpp:211-235 (without check) and 293-317 (with check), one outgoing edge: it is queued, unless it leads to a visited node. -/
def primPushOne (check : Bool) (id : Nat) (name a : String) (st : PrimC) : PyM PrimC :=
  let found := idOf st.g a
  let st := { st with g := found.2 }
  if check && decide (found.1 ∈ st.visited) then .ok st
  else match st.g.edges.val (edgeKey name a) with
    | none => .error .undefined
    | some e => .ok { st with pq := st.pq ++ [⟨id, found.1, e.value⟩] }

/-- graphs/_backend/cpp/Algorithms.hpp:211-236 and 292-318: the outgoing edges of a node are queued. -/
def primPush (order : String → List String → List String) (check : Bool) (id : Nat) (name : String) (st : PrimC) : PyM PrimC :=
  match st.g.idMap id with
  | none => .error .undefined
  | some adj => forList (order name adj) st fun a st => primPushOne check id name a st

/-- `u->adjacent[name] = …` (graphs/_backend/cpp/Algorithms.hpp:270-271). -/
def primLink (id : Nat) (name : String) (g : CGraph) : CGraph :=
  { g with idMap := upd g.idMap id ((g.idMap id).map fun adj => if name ∈ adj then adj else adj ++ [name]) }

/-- graphs/_backend/cpp/Algorithms.hpp:243-292: the edge is added to the new graph. -/
def primTreeEdge (e : PEntry) (st : PrimC) : PyM PrimC := do
  let u := (st.g.idToName e.src).getD ""
  let v := (st.g.idToName e.dst).getD ""
  let st ← if (st.mst.idMap e.src).isSome then .ok st else primAddC e.src u st
  let st ← if (st.mst.idMap e.dst).isSome then .ok st else primAddC e.dst v st
  .ok { st with
    g := primLink e.dst u (primLink e.src v st.g)
    mst := { st.mst with edges := (st.mst.edges.set (edgeKey u v) ⟨u, v, e.value⟩).set (edgeKey v u) ⟨v, u, e.value⟩ } }

/-- graphs/_backend/cpp/Algorithms.hpp:238-319, one iteration. -/
def primBodyC (order : String → List String → List String) (top : List PEntry → PEntry) (st : PrimC) : PyM PrimC := do
  let e := top st.pq
  let st := { st with pq := st.pq.erase e }
  if e.dst ∈ st.visited then .ok st
  else
    let st := { st with visited := st.visited ++ [e.dst] }
    let st ← primTreeEdge e st
    primPush order true e.dst ((st.g.idToName e.dst).getD "") st

/-- The nodes of the new graph are those of the input graph (graphs/_backend/cpp/Algorithms.hpp:200, 255): the new graph as it is at the end. -/
def primShare (st : PrimC) : CGraph := { st.mst with idMap := fun id => if (st.mst.idMap id).isSome then st.g.idMap id else none }

/-- graphs/_backend/cpp/Algorithms.hpp:162-324 `minimum_spanning_tree_prim_adjacency_list`: the result and the input graph afterwards. `graph->nodes[0]` of an
empty graph is undefined. -/
def cgPrim (order : String → List String → List String) (top : List PEntry → PEntry) (g : CGraph) (fuel : Nat) : PyM (CGraph × CGraph) :=
  match g.nodes with
  | [] => .error .undefined
  | id :: _ => do
    let name := (g.idToName id).getD ""
    let st ← primAddC id name ⟨g, cgNew, [], [id]⟩
    let st ← primPush order false id name st
    let st ← whileLoop fuel (fun st : PrimC => .ok (!st.pq.isEmpty)) (primBodyC order top) st
    .ok (primShare st, st.g)

end Model.Cpp
