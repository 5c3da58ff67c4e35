import Verif.Model.DisjointSet
import Verif.Model.Graph
import Verif.Model.Sort

/-!
# Kruskal's algorithm (graphs/algorithms.py:228-256, 356-371)

`items` is the list of the values of `graph.edge_weights` in insertion order. The graph that is built is of either implementation; its
`add_edge` is a parameter.
-/
namespace Model
open Py
variable {μ : Type} (addEdge : μ → String → String → Option Int → PyM μ)

/-- algorithms.py:248-252 (and 364-368), one edge. -/
def kruskalEdge (e : GEdge) (st : μ × Dsu String) : PyM (μ × Dsu String) := do
  let (dsf, ru) ← dsuFind st.2 e.source
  let (dsf, rv) ← dsuFind dsf e.target
  if ru ≠ rv then
    let mst ← addEdge st.1 e.source e.target (some e.value)
    let mst ← addEdge mst e.target e.source (some e.value)
    let dsf ← dsuUnion dsf e.source e.target
    .ok (mst, dsf)
  else .ok (st.1, dsf)

/-- algorithms.py:244-246: one set per vertex. -/
def kruskalSets (vertices : List String) : Dsu String := vertices.foldl dsuMake dsuNew

/-- Insertion of an edge in front of the first one that is not lighter. (algorithms.py:232-240: one step of `sorted`) -/
def stableInsert (e : GEdge) : List GEdge → List GEdge
  | [] => [e]
  | f :: l => if e.value ≤ f.value then e :: f :: l else f :: stableInsert e l

/-- algorithms.py:232-236, without `num_threads`: `sorted(edges, key=…)`, the one list that is sorted by weight and keeps the order of edges of
the same weight. -/
def sortEdges (items : List GEdge) : List GEdge := items.foldr stableInsert []

/-- algorithms.py:242-253 from the object of line 243. -/
def kruskal (mst : μ) (vertices : List String) (items : List GEdge) : PyM μ := do
  let (mst, _) ← forList (sortEdges items) (mst, kruskalSets vertices) fun e st => kruskalEdge addEdge e st
  .ok mst

/-- One entry of the list sorted by `merge_sort_parallel`; `None` cannot be unpacked. (algorithms.py:361-363) -/
def kruskalCell (e : Option GEdge) (st : μ × Dsu String) : PyM (μ × Dsu String) :=
  match e with
  | some e => kruskalEdge addEdge e st
  | none => .error .typeError

/-- algorithms.py:356-369, with `_sort_edges` of line 238-240. -/
def kruskalParallel (mst : μ) (vertices : List String) (items : List GEdge) (fuel : Nat) : PyM μ := do
  let edges ← mergeSort (fun u v : GEdge => decide (u.value ≤ v.value)) fuel (items.map some) 0 items.length
  let (mst, _) ← forList edges (mst, kruskalSets vertices) fun e st => kruskalCell addEdge e st
  .ok mst

/-- algorithms.py:228-230 `_generate_mst_object` for adjacency lists: a new graph object on the *same* node objects, so with the adjacent
nodes of the input graph. (And what is added to the nodes of the new graph is added to the input graph as well.) -/
def mstObjectList (g : AList) : AList := ⟨g.vertices, g.adjacent, fun _ => none⟩

/-- algorithms.py:228-230 `_generate_mst_object` for adjacency matrices: the matrix belongs to the graph object. -/
def mstObjectMatrix (g : AMat) : AMat := amNew g.vertices

end Model
