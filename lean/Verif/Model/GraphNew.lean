import Verif.Model.Dispatch
import Verif.Model.Graph
import Verif.Model.CppMatrix

/-!
# The constructor of graphs

`Graph(*vertices, implementation=…, backend=…)` (graphs/graph.py:71-87) for vertices without neighbours.
-/
namespace Model
open Py Model.Cpp

/-- A vertex: its name, the back end that made it and the implementation it is made for. (utils/misc_util.py:400-416, 464-474) -/
structure Vtx where
  name : String
  backend : GBackend
  impl : GImpl

/-- The attribute `_impl`, which the C++ nodes do not have. (utils/misc_util.py:407, 470) -/
def Vtx.attr (v : Vtx) : Option String :=
  match v.backend with
  | .python => some v.impl.name
  | .cpp => none

/-- What `Graph` returns. (graphs/graph.py:71-87) -/
inductive GraphObj where
  | list (g : AList)
  | matrix (g : AMat)
  | cppList (g : CGraph)
  | cppMatrix (g : CMat)

/-- graphs/graph.py:73-77: `implementation`, or `args[0]._impl`, or `'adjacency_list'` if there is no vertex or no attribute. -/
def graphImpl (vs : List Vtx) (implementation : Option String) : String :=
  match implementation with
  | some s => s
  | none =>
    match vs with
    | [] => "adjacency_list"
    | v :: _ => v.attr.getD "adjacency_list"

/-- graphs/adjacency_list.py:22-29 `AdjacencyList.__new__`. (A vertex whose name is an attribute of graphs hides it, or is
overwritten at once if it is called `vertices`, `edge_weights` or `_impl`: not modelled, such names are excluded.) -/
def alCtor (names : List String) : AList := ⟨names, fun n => if n ∈ names then some [] else none, fun _ => none⟩

/-- graphs/adjacency_list.py:30-34 with graphs/_backend/cpp/AdjacencyList.hpp:110-113: the vertices one by one; a node of another kind is refused. -/
def cgCtor (vs : List Vtx) : PyM CGraph :=
  forList vs cgNew fun v g =>
    match v.backend, v.impl with
    | .cpp, .list => cgAddVertex g v.name
    | _, _ => .error .typeError

/-- graphs/_backend/cpp/AdjacencyMatrix.hpp:66-80: a node of another kind is refused. -/
def cmCtor (vs : List Vtx) : PyM CMat :=
  if vs.all fun v => match v.backend, v.impl with
    | .cpp, .matrix => true
    | _, _ => false
  then .ok (cmNew (vs.map Vtx.name))
  else .error .typeError

/-- graphs/graph.py:71-87 `Graph.__new__`. -/
def graphNew (b : GBackend) (vs : List Vtx) (implementation : Option String) : PyM GraphObj :=
  let s := graphImpl vs implementation
  if s = "adjacency_list" then
    match b with
    | .python => .ok (.list (alCtor (vs.map Vtx.name)))
    | .cpp => do
      let g ← cgCtor vs
      .ok (.cppList g)
  else if s = "adjacency_matrix" then
    match b with
    | .python => .ok (.matrix (amNew (vs.map Vtx.name)))
    | .cpp => do
      let g ← cmCtor vs
      .ok (.cppMatrix g)
  else .error .notImplemented

end Model
