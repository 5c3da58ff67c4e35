import Verif.Model.Dict

/-!
# Model of Tarjan's strongly connected components (`graphs/algorithms.py:546-590`)

`neighbors v` is the list of the names of `graph.neighbors(v)`. The stack (a deque, algorithms.py:30) is a list with its top first. A component (a
Python set) is the list of its elements in the order in which they are added. Python's recursion limit is not modelled: the number `fuel` bounds the
depth of the recursion, and the theorems hold for every sufficiently large `fuel`.
-/
namespace Model
open Py

/-- algorithms.py:546-587: the variables shared by the calls. -/
structure Tarjan where
  index : Int
  stack : List String
  indices : PyDict String Int
  lowLinks : PyDict String Int
  onStacks : PyDict String Bool
  components : List (List String)

/-- algorithms.py:572-581. -/
def tjInit (vertices : List String) : Tarjan :=
  ⟨0, [], PyDict.const vertices (-1), PyDict.const vertices (-1), PyDict.const vertices false, []⟩

/-- algorithms.py:547-551. -/
def tjEnter (u : String) (st : Tarjan) : Tarjan :=
  { st with indices := st.indices.set u st.index, lowLinks := st.lowLinks.set u st.index, index := st.index + 1, stack := u :: st.stack,
            onStacks := st.onStacks.set u true }

/-- algorithms.py:557 and 559: `low_links[u] = min(low_links[u], low_links[v])`. -/
def tjLower (u v : String) (st : Tarjan) : PyM Tarjan := do
  let lu ← st.lowLinks.get u
  let lv ← st.lowLinks.get v
  .ok { st with lowLinks := st.lowLinks.set u (if lv < lu then lv else lu) }

/-- algorithms.py:554-559, one neighbour; `dfs` is the recursive call. -/
def tjNeighbor (dfs : String → Tarjan → PyM Tarjan) (u v : String) (st : Tarjan) : PyM Tarjan := do
  let i ← st.indices.get v
  if i = -1 then do
    let st ← dfs v st
    tjLower u v st
  else do
    let o ← st.onStacks.get v
    if o then tjLower u v st else .ok st

/-- algorithms.py:562-568: the vertices are popped up to and including `u`. -/
def tjPop (u : String) : List String → PyDict String Bool → List String → List String × PyDict String Bool × List String
  | [], on, c => ([], on, c)
  | w :: s, on, c => if w = u then (s, on.set w false, c ++ [w]) else tjPop u s (on.set w false) (c ++ [w])

/-- algorithms.py:561-569. -/
def tjLeave (u : String) (st : Tarjan) : PyM Tarjan := do
  let lu ← st.lowLinks.get u
  let iu ← st.indices.get u
  if lu = iu then
    let (s, on, c) := tjPop u st.stack st.onStacks []
    .ok { st with stack := s, onStacks := on, components := st.components ++ [c] }
  else .ok st

/-- algorithms.py:546-569 `_tarjan_dfs`. -/
def tarjanDfs (neighbors : String → PyM (List String)) : Nat → String → Tarjan → PyM Tarjan
  | 0, _, _ => .error .outOfFuel
  | fuel + 1, u, st => do
    let ns ← neighbors u
    let st ← forList ns (tjEnter u st) fun v st => tjNeighbor (tarjanDfs neighbors fuel) u v st
    tjLeave u st

/-- algorithms.py:584-585, one vertex. -/
def tjRoot (neighbors : String → PyM (List String)) (fuel : Nat) (u : String) (st : Tarjan) : PyM Tarjan := do
  let i ← st.indices.get u
  if i = -1 then tarjanDfs neighbors fuel u st else .ok st

/-- algorithms.py:571-587 `_strongly_connected_components_tarjan_adjacency_list` (and `_matrix`). -/
def tarjan (vertices : List String) (neighbors : String → PyM (List String)) (fuel : Nat) : PyM (List (List String)) := do
  let st ← forList vertices (tjInit vertices) fun u st => tjRoot neighbors fuel u st
  .ok st.components

end Model
