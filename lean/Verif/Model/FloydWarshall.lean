import Verif.Model.ShortestPaths

/-!
# Model of Floyd-Warshall (`graphs/algorithms.py:946-975`)

`items` is the list of the values of `graph.edge_weights` in insertion order. A missing key of an inner dictionary of `dist` is an infinite distance.
-/
namespace Model
open Py

/-- A value of `next_vertex[i][j]`. The program writes `next_vertex.get(i + '_' + k, None)`, which is `None`, or the inner dictionary of the vertex
`i_k` if there is a vertex of that name. (algorithms.py:956, 960, 968) -/
inductive NextVertex
  | name (v : String)
  | none
  | row (v : String)
deriving DecidableEq

/-- algorithms.py:947: the two dictionaries. -/
structure FW where
  dist : PyDict String (PyDict String Int)
  next : PyDict String (PyDict String NextVertex)

/-- `d[i][j] = x`, as at algorithms.py:955-956, 959-960 and 970-971. -/
def setCell {β : Type} (d : PyDict String (PyDict String β)) (i j : String) (x : β) : PyM (PyDict String (PyDict String β)) := do
  let row ← d.get i
  .ok (d.set i (row.set j x))

/-- `dist.get(i, {}).get(j, float('inf'))`, algorithms.py:965-967. -/
def getCell (d : PyDict String (PyDict String Int)) (i j : String) : Option Int := (d.val i).bind fun r => r.val j

/-- `a + b` where `none` is infinity. (algorithms.py:969-970) -/
def infSum : Option Int → Option Int → Option Int
  | some a, some b => some (a + b)
  | _, _ => none

/-- algorithms.py:950-952. -/
def fwInit (vertices : List String) : FW := ⟨PyDict.const vertices PyDict.empty, PyDict.const vertices PyDict.empty⟩

/-- algorithms.py:955-956, one edge. -/
def fwEdge (e : GEdge) (st : FW) : PyM FW := do
  let dist ← setCell st.dist e.source e.target e.value
  let next ← setCell st.next e.source e.target (.name e.source)
  .ok ⟨dist, next⟩

/-- algorithms.py:959-960, one vertex. -/
def fwDiag (v : String) (st : FW) : PyM FW := do
  let dist ← setCell st.dist v v 0
  let next ← setCell st.next v v (.name v)
  .ok ⟨dist, next⟩

/-- algorithms.py:968: `next_vertex.get(i + '_' + k, None)`. -/
def fwNext (next : PyDict String (PyDict String NextVertex)) (i k : String) : NextVertex :=
  match next.val (i ++ "_" ++ k) with
  | some _ => .row (i ++ "_" ++ k)
  | none => .none

/-- algorithms.py:965-971, the body of the innermost loop. -/
def fwCell (k i j : String) (st : FW) : PyM FW :=
  match infSum (getCell st.dist i k) (getCell st.dist k j) with
  | none => .ok st
  | some s =>
    if infLt (some s) (getCell st.dist i j) then do
      let dist ← setCell st.dist i j s
      let next ← setCell st.next i j (fwNext st.next i k)
      .ok ⟨dist, next⟩
    else .ok st

/-- algorithms.py:963-971, the row of `i`. -/
def fwRow (vertices : List String) (k i : String) (st : FW) : PyM FW := forList vertices st fun j st => fwCell k i j st

/-- algorithms.py:962-971, one `k`. -/
def fwPhase (vertices : List String) (k : String) (st : FW) : PyM FW := forList vertices st fun i st => fwRow vertices k i st

/-- algorithms.py:946-973 `_floyd_warshall_adjacency_list` (and `_matrix`). -/
def floydWarshall (vertices : List String) (items : List GEdge) : PyM FW := do
  let st ← forList items (fwInit vertices) fun e st => fwEdge e st
  let st ← forList vertices st fun v st => fwDiag v st
  forList vertices st fun k st => fwPhase vertices k st

end Model
