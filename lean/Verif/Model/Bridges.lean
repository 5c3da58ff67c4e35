import Verif.Py

/-!
# Model of `find_bridges` (`graphs/algorithms.py:1286-1388`)

`neighbors v` is the list of the names of `graph.neighbors(v)`. Vertices are numbered as in the program. Python's recursion limit is not modelled: the
number `fuel` bounds the depth of the recursion, and the theorems hold for every sufficiently large `fuel`. Two strings are compared by code points, as
in Python; `bridges.sort()` is written as an insertion sort.
-/
namespace Model
open Py

/-- algorithms.py:1351-1356: the variables shared by the calls of `dfs`. -/
structure Bridges where
  visited : List Bool
  disc : List Int
  low : List Int
  parent : List Int
  found : List (Nat × Nat)
  time : Int

/-- `mapping[v]` (algorithms.py:1343); no name occurs twice among the vertices. -/
def brIndex (vertices : List String) (v : String) : PyM Nat :=
  if v ∈ vertices then .ok (vertices.idxOf v) else .error .keyError

/-- algorithms.py:1323-1351: the names, then the neighbours by name, then by number. -/
def brAdjacency (vertices : List String) (neighbors : String → PyM (List String)) : PyM (List (List Nat)) := do
  let adj ← vertices.mapM neighbors
  adj.mapM fun l => l.mapM (brIndex vertices)

/-- algorithms.py:1353-1358. -/
def brInit (n : Nat) : Bridges :=
  ⟨List.replicate n false, List.replicate n 0, List.replicate n 0, List.replicate n (-1), [], 0⟩

/-- algorithms.py:1362-1364. -/
def brEnter (u : Nat) (st : Bridges) : PyM Bridges := do
  let visited ← wr st.visited u true
  let disc ← wr st.disc u st.time
  let low ← wr st.low u st.time
  .ok { st with visited := visited, disc := disc, low := low, time := st.time + 1 }

/-- `low[u] = min(low[u], x)` (algorithms.py:1367, 1371) -/
def brLower (u : Nat) (x : Int) (st : Bridges) : PyM Bridges := do
  let lu ← rd st.low u
  let low ← wr st.low u (if x < lu then x else lu)
  .ok { st with low := low }

/-- algorithms.py:1371-1372. -/
def brReport (u v : Nat) (st : Bridges) : PyM Bridges := do
  let lv ← rd st.low v
  let du ← rd st.disc u
  .ok (if lv > du then { st with found := st.found ++ [(u, v)] } else st)

/-- algorithms.py:1366-1374, one neighbour; `dfs` is the recursive call. -/
def brNeighbor (dfs : Nat → Bridges → PyM Bridges) (u v : Nat) (st : Bridges) : PyM Bridges := do
  let seen ← rd st.visited v
  if seen = false then do
    let parent ← wr st.parent v u
    let st ← dfs v { st with parent := parent }
    let lv ← rd st.low v
    let st ← brLower u lv st
    brReport u v st
  else do
    let p ← rd st.parent u
    if (v : Int) ≠ p then do
      let dv ← rd st.disc v
      brLower u dv st
    else .ok st

/-- algorithms.py:1360-1374 `dfs`. -/
def brDfs (adj : List (List Nat)) : Nat → Nat → Bridges → PyM Bridges
  | 0, _, _ => .error .outOfFuel
  | fuel + 1, u, st => do
    let st ← brEnter u st
    let ns ← rd adj u
    forList ns st fun v st => brNeighbor (brDfs adj fuel) u v st

/-- algorithms.py:1376-1378, one vertex. -/
def brRoot (adj : List (List Nat)) (fuel : Nat) (i : Nat) (st : Bridges) : PyM Bridges := do
  let seen ← rd st.visited i
  if seen = false then brDfs adj fuel i st else .ok st

/-- algorithms.py:1382-1387. -/
def brName (vertices : List String) (e : Nat × Nat) : PyM (String × String) := do
  let a ← rd vertices e.1
  let b ← rd vertices e.2
  .ok (if a ≤ b then (a, b) else (b, a))

/-- The comparison of tuples of strings. (algorithms.py:1385) -/
def pairLe (x y : String × String) : Bool := decide (x.1 < y.1) || (x.1 == y.1 && decide (x.2 ≤ y.2))

/-- algorithms.py:1385: one step of `bridges.sort()`. -/
def pairInsert (x : String × String) : List (String × String) → List (String × String)
  | [] => [x]
  | y :: l => if pairLe x y then x :: y :: l else y :: pairInsert x l

/-- algorithms.py:1321-1389 `find_bridges`. -/
def findBridges (vertices : List String) (neighbors : String → PyM (List String)) (fuel : Nat) : PyM (List (String × String)) := do
  let adj ← brAdjacency vertices neighbors
  let st ← forRange 0 vertices.length (brInit vertices.length) fun i st => brRoot adj fuel i st
  let bridges ← st.found.mapM (brName vertices)
  .ok (bridges.foldr pairInsert [])

end Model
