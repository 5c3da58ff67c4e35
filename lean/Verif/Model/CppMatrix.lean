import Verif.Model.CppBfs

/-!
# The adjacency-matrix graph of the C++ back end

`Graph(..., implementation='adjacency_matrix', backend=Backend.CPP)`. The vertices are fixed by the constructor. Costs are `None`, ints (a `double`
is an exact integer here, true up to 2⁵³) or something that is not a number. The one reference count that goes wrong is modelled: the caller
of `get_edge` uses the result and drops it before the next call.
-/
namespace Model.Cpp
open Py Model

/-- graphs/_backend/cpp/AdjacencyMatrix.hpp:15-22 `AdjacencyMatrixGraph`; `node_map` has the same names as `matrix`. With each edge object: has it been freed? -/
structure CMat where
  nodes : List String
  matrix : PyDict String (PyDict String Bool)
  weights : String → Option (CEdge × Bool)

/-- graphs/_backend/cpp/AdjacencyMatrix.hpp:44-92 `AdjacencyMatrixGraph_new`, 65-79 for each vertex. -/
def cmNew (names : List String) : CMat :=
  ⟨names, names.foldl (fun m n => m.set n PyDict.empty) PyDict.empty, fun _ => none⟩

/-- The argument `cost` of graphs/_backend/cpp/AdjacencyMatrix.hpp:94-101: `other` is an object that `PyFloat_AsDouble` refuses. -/
inductive CCost
  | absent
  | number (x : Int)
  | other
  deriving DecidableEq

/-- `matrix[src][dst] = b` for a row that exists (graphs/_backend/cpp/AdjacencyMatrix.hpp:112, 143). -/
def cmPut (g : CMat) (s t : String) (b : Bool) : CMat :=
  match g.matrix.val s with
  | some row => { g with matrix := g.matrix.set s (row.set t b) }
  | none => g

/-- graphs/_backend/cpp/AdjacencyMatrix.hpp:94-132 `add_edge`: the state after the call and the exception, if any. -/
def cmAddEdge (g : CMat) (s t : String) (cost : CCost) : CMat × Option PyErr :=
  if (g.matrix.val s).isNone || (g.matrix.val t).isNone then (g, some .valueError)
  else
    let g := cmPut g s t true
    match cost with
    | .absent => (g, none)
    | .other => (g, some .typeError)
    | .number x => ({ g with weights := upd g.weights (edgeKey s t) (some (⟨s, t, some x⟩, false)) }, none)

/-- graphs/_backend/cpp/AdjacencyMatrix.hpp:134-149 `remove_edge`. -/
def cmRemoveEdge (g : CMat) (s t : String) : CMat :=
  if (g.matrix.val s).isSome then
    let g := cmPut g s t false
    { g with weights := upd g.weights (edgeKey s t) none }
  else g

/-- The names with a `true` entry, in iteration order (graphs/_backend/cpp/AdjacencyMatrix.hpp:165-172, Algorithms.hpp:121-122). -/
def cmTrue (order : List String → List String) (row : PyDict String Bool) : List String := (order row.keys).filter fun t => (row.val t).getD false

/-- graphs/_backend/cpp/AdjacencyMatrix.hpp:151-174 `neighbors`. -/
def cmNeighbors (order : List String → List String) (g : CMat) (v : String) : PyM (List String) :=
  match g.matrix.val v with
  | none => .error .keyError
  | some row => .ok (cmTrue order row)

/-- graphs/_backend/cpp/AdjacencyMatrix.hpp:177-180 `num_vertices`. -/
def cmNumVertices (g : CMat) : Nat := g.nodes.length

/-- graphs/_backend/cpp/AdjacencyMatrix.hpp:182-192 `num_edges`. -/
def cmNumEdges (g : CMat) : Nat :=
  (g.matrix.keys.map fun v => match g.matrix.val v with
    | some row => (row.keys.filter fun t => (row.val t).getD false).length
    | none => 0).sum

/-- graphs/_backend/cpp/AdjacencyMatrix.hpp:194-206 `get_edge`. The returned reference is not counted: when the caller drops it, the object of the map is
freed; to return it once more is undefined behaviour. -/
def cmGetEdge (g : CMat) (s t : String) : PyM (Option CEdge) × CMat :=
  match g.weights (edgeKey s t) with
  | none => (.ok none, g)
  | some (e, false) => (.ok (some e), { g with weights := upd g.weights (edgeKey s t) (some (e, true)) })
  | some (_, true) => (.error .undefined, g)

/-- graphs/_backend/cpp/AdjacencyMatrix.hpp:208-224 `is_adjacent`. -/
def cmIsAdjacent (g : CMat) (s t : String) : Bool :=
  match g.matrix.val s with
  | none => false
  | some row => (row.val t).getD false

/-- graphs/_backend/cpp/Algorithms.hpp:86-160 `breadth_first_search_adjacency_matrix`. (A row that is missing would be added empty, 119.) -/
def cmBfs (op : List (String × String) → PyM Bool) (order : String → List String → List String) (g : CMat) (source : String) (fuel : Nat) :
    PyM (BfsC String) :=
  match g.matrix.val source with
  | none => .error .keyError
  | some _ => bfsC op (fun v => .ok (((g.matrix.val v).map (cmTrue (order v))).getD [])) source fuel

end Model.Cpp
