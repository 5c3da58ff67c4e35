import Verif.Model.Graph
import Verif.Model.Dict
import Verif.Model.BinomialHeap

/-!
# Shortest paths (graphs/algorithms.py:821-940)

The functions use `graph.vertices`, `graph.neighbors` and `graph.edge_weights` of either graph class. Weights are integers; `none` stands for
`float('inf')`.
-/
namespace Model
open Py

/-- `a < b` where `none` is infinity. (algorithms.py:841) -/
def infLt : Option Int → Option Int → Bool
  | some a, some b => decide (a < b)
  | some _, none => true
  | none, _ => false

/-! ## Bellman-Ford -/

/-- The local variables of algorithms.py:822-831. -/
structure BF where
  dist : PyDict String (Option Int)
  pred : PyDict String (Option String)
  visited : PyDict String Bool
  cnts : PyDict String Nat
  que : List String

/-- algorithms.py:824-831; the names of the vertices are distinct. -/
def bfInit (vertices : List String) (source : String) : BF :=
  ⟨(PyDict.const vertices none).set source (some 0), PyDict.const vertices none, PyDict.const vertices false, PyDict.const vertices 0, [source]⟩

/-- algorithms.py:836-846, one neighbour `v` of `u`. -/
def bfRelax (vertices : List String) (weights : String → Option GEdge) (u v : String) (st : BF) : PyM BF := do
  let du ← st.dist.get u
  match du with
  | none => .ok st
  | some du =>
    match weights (u ++ "_" ++ v) with
    | none => .error .keyError
    | some e => do
      let dv ← st.dist.get v
      if infLt (some (du + e.value)) dv then do
        let st := { st with dist := st.dist.set v (some (du + e.value)), pred := st.pred.set v (some u) }
        let cu ← st.cnts.get u
        let st := { st with cnts := st.cnts.set v (cu + 1) }
        if cu + 1 ≥ vertices.length then .error .valueError
        else do
          let seen ← st.visited.get v
          if !seen then .ok { st with que := st.que ++ [v], visited := st.visited.set v true }
          else .ok st
      else .ok st

/-- algorithms.py:833-846 `while que`. -/
def bfLoop (vertices : List String) (neighbors : String → PyM (List String)) (weights : String → Option GEdge) : Nat → BF → PyM BF
  | 0, _ => .error .outOfFuel
  | fuel + 1, st =>
    match st.que with
    | [] => .ok st
    | u :: rest => do
      let st := { st with que := rest, visited := st.visited.set u false }
      let ns ← neighbors u
      let st ← forList ns st fun v st => bfRelax vertices weights u v st
      bfLoop vertices neighbors weights fuel st

/-- algorithms.py:821-852 `_bellman_ford_adjacency_list` (and `_matrix`) without target. -/
def bellmanFord (vertices : List String) (neighbors : String → PyM (List String)) (weights : String → Option GEdge) (source : String)
    (fuel : Nat) : PyM (PyDict String (Option Int) × PyDict String (Option String)) := do
  let st ← bfLoop vertices neighbors weights fuel (bfInit vertices source)
  .ok (st.dist, st.pred)

/-- algorithms.py:848-850 and 881-883: the answer when a target is given. -/
def toTarget (target : String) (r : PyDict String (Option Int) × PyDict String (Option String)) :
    PyM (Option Int × PyDict String (Option String)) := do
  let d ← r.1.get target
  .ok (d, r.2)

/-! ## Dijkstra -/

/-- `a <= b` where `none` is infinity. (heaps.py:411-433 on the keys of the queue of algorithms.py:866-878) -/
def infLe (a b : Option Int) : Bool := !infLt b a

/-- `a + b` where `none` is infinity. (algorithms.py:841-842) -/
def infAdd : Option Int → Int → Option Int
  | some a, b => some (a + b)
  | none, _ => none

/-- The local variables of algorithms.py:858-868. -/
structure Dijkstra where
  visited : PyDict String Bool
  dist : PyDict String (Option Int)
  pred : PyDict String (Option String)
  pq : List (BinTree (Option Int) String)

/-- algorithms.py:859-866; the names of the vertices are distinct. -/
def djInit (vertices : List String) (start : String) : Dijkstra :=
  ⟨PyDict.const vertices false, (PyDict.const (vertices.filter fun v => v ≠ start) none).set start (some 0), PyDict.const vertices none, []⟩

/-- algorithms.py:867-868: all vertices are pushed. -/
def djFill (st : Dijkstra) : PyM Dijkstra :=
  forList st.dist.keys st fun v st => do
    let d ← st.dist.get v
    let pq ← bhInsert infLe st.pq d v
    .ok { st with pq := pq }

/-- algorithms.py:872-878, one vertex `v`. -/
def djRelax (weights : String → Option GEdge) (u v : String) (st : Dijkstra) : PyM Dijkstra :=
  match weights (u ++ "_" ++ v) with
  | none => .ok st
  | some e =>
    if e.value ≥ 0 then do
      let seen ← st.visited.get v
      if seen then .ok st
      else do
        let dv ← st.dist.get v
        let du ← st.dist.get u
        if infLt (infAdd du e.value) dv then do
          let pq ← bhInsert infLe st.pq (infAdd du e.value) v
          .ok { st with dist := st.dist.set v (infAdd du e.value), pred := st.pred.set v (some u), pq := pq }
        else .ok st
    else .ok st

/-- algorithms.py:869-878, one of the `V` rounds. -/
def djRound (vertices : List String) (weights : String → Option GEdge) (st : Dijkstra) : PyM Dijkstra := do
  let (u, pq) ← bpqPop infLe st.pq
  let st := { st with pq := pq, visited := st.visited.set u true }
  forList vertices st fun v st => djRelax weights u v st

/-- algorithms.py:857-883 `_dijkstra_adjacency_list` (and `_matrix`) without target. -/
def dijkstra (vertices : List String) (weights : String → Option GEdge) (start : String) :
    PyM (PyDict String (Option Int) × PyDict String (Option String)) := do
  let st ← djFill (djInit vertices start)
  let st ← forRange 0 vertices.length st fun _ st => djRound vertices weights st
  .ok (st.dist, st.pred)

end Model
