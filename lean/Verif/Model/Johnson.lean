import Verif.Model.ShortestPaths

/-!
# Johnson's algorithm (`graphs/algorithms.py:977-1018`)

Adjacency lists only: there is no version for matrices. The algorithm iterates over `graph.edge_weights`, so the keys of that dictionary are
part of the state, in insertion order. `none` stands for `float('inf')`.
-/
namespace Model
open Py

/-- The graph and the keys of `graph.edge_weights` in insertion order. (algorithms.py:978, 992) -/
structure JGraph where
  g : AList
  keys : List String

section
variable (gAttr nAttr : String → Bool)

/-- The name of the extra vertex (algorithms.py:978). -/
def hubName : String := "__q__"

/-- `graph.add_edge(source, target, cost)` (adjacency_list.py:70-89): a new key goes to the end of `edge_weights`. -/
def jnAddEdge (s : JGraph) (source target : String) (cost : Int) : PyM JGraph := do
  let g ← alAddEdge gAttr nAttr s.g source target (some cost)
  .ok ⟨g, if source ++ "_" ++ target ∈ s.keys then s.keys else s.keys ++ [source ++ "_" ++ target]⟩

/-- `graph.remove_edge(source, target)` (adjacency_list.py:96-101). -/
def jnRemoveEdge (s : JGraph) (source target : String) : PyM JGraph := do
  let g ← alRemoveEdge nAttr s.g source target
  .ok ⟨g, s.keys.erase (source ++ "_" ++ target)⟩

/-- algorithms.py:982-983, one vertex. -/
def jnSpoke (v : String) (s : JGraph) : PyM JGraph := if v ≠ hubName then jnAddEdge gAttr nAttr s hubName v 0 else .ok s

/-- algorithms.py:978-983: the extra vertex, with an edge of weight 0 to each vertex. -/
def jnHub (s : JGraph) : PyM JGraph :=
  let s := { s with g := alAddVertex gAttr s.g hubName }
  forList s.g.vertices s fun v s => jnSpoke gAttr nAttr v s

/-- `graph.edge_weights[key]`. (algorithms.py:998, 1000) -/
def jnEdge (g : AList) (k : String) : PyM GEdge :=
  match g.weights k with
  | none => .error .keyError
  | some e => .ok e

/-- algorithms.py:987-991: the edges of the extra vertex. -/
def jnSpokes (s : JGraph) : PyM (List (String × String)) :=
  forList s.keys [] fun k acc => do
    let e ← jnEdge s.g k
    if e.source = hubName then .ok (acc ++ [(e.source, e.target)]) else .ok acc

/-- algorithms.py:993-995: the extra vertex is removed again. -/
def jnUnhub (s : JGraph) (es : List (String × String)) : PyM JGraph := do
  let s ← forList es s fun e s => jnRemoveEdge nAttr s e.1 e.2
  let g ← alRemoveVertex nAttr s.g hubName
  .ok { s with g := g }

/-- A distance used as a number. Every distance from the extra vertex is finite; the case of `float('inf')` is not modelled further. (algorithms.py:1000, 1016) -/
def jnFinite : Option Int → PyM Int
  | none => .error .valueError
  | some d => .ok d

/-- algorithms.py:998-1000, one key: the value of the edge is changed in place. -/
def jnShift (h : PyDict String (Option Int)) (k : String) (g : AList) : PyM AList := do
  let e ← jnEdge g k
  let u ← h.get e.source
  let u ← jnFinite u
  let v ← h.get e.target
  let v ← jnFinite v
  .ok { g with weights := sset g.weights k (some { e with value := e.value + (u - v) }) }

/-- algorithms.py:997-1000. -/
def jnReweight (h : PyDict String (Option Int)) (s : JGraph) : PyM AList := forList s.keys s.g fun k g => jnShift h k g

/-- algorithms.py:1010-1013: `u` when the predecessor is `None` or `u`, otherwise `None`. -/
def jnNext (u : String) (p : Option String) : Option String := if p = none ∨ p = some u then some u else none

/-- algorithms.py:1014-1017, the distance from `u` to `v`: a vertex that is not a key is infinitely far. -/
def jnDistance (h dist : PyDict String (Option Int)) (u v : String) : PyM (Option Int) :=
  match dist.val v with
  | none => .ok none
  | some d => do
    let hu ← h.get u
    let hu ← jnFinite hu
    let hv ← h.get v
    let hv ← jnFinite hv
    .ok (d.map fun d => d - hu + hv)

/-- The two results. (algorithms.py:1020) -/
structure JResult where
  dist : PyDict String (PyDict String (Option Int))
  next : PyDict String (PyDict String (Option String))

/-- algorithms.py:1010-1017, one pair. -/
def jnCell (h dist : PyDict String (Option Int)) (pred : PyDict String (Option String)) (u v : String)
    (r : PyDict String (Option Int) × PyDict String (Option String)) : PyM (PyDict String (Option Int) × PyDict String (Option String)) := do
  let p ← pred.get v
  let d ← jnDistance h dist u v
  .ok (r.1.set v d, r.2.set v (jnNext u p))

/-- algorithms.py:1005-1017, one vertex `u`. -/
def jnRow (h : PyDict String (Option Int)) (g : AList) (u : String) (r : JResult) : PyM JResult := do
  let dp ← dijkstra g.vertices g.weights u
  let row ← forList g.vertices (PyDict.empty, PyDict.empty) fun v row => jnCell h dp.1 dp.2 u v row
  .ok ⟨r.dist.set u row.1, r.next.set u row.2⟩

/-- algorithms.py:977-1018 `_johnson_adjacency_list(graph)`: the results and the graph afterwards. -/
def johnson (fuel : Nat) (s : JGraph) : PyM (JResult × AList) := do
  let s ← jnHub gAttr nAttr s
  let hp ← bellmanFord s.g.vertices (alNeighbors s.g) s.g.weights hubName fuel
  let es ← jnSpokes s
  let s ← jnUnhub nAttr s es
  let g ← jnReweight hp.1 s
  let r ← forList g.vertices ⟨PyDict.empty, PyDict.empty⟩ fun u r => jnRow hp.1 g u r
  .ok (r, g)

end
end Model
