import Verif.Model.Dict

/-!
# Model of Kosaraju's strongly connected components (`graphs/algorithms.py:498-544`)

`neighbors v` is the list of the names of `graph.neighbors(v)`. The stacks are Python lists; here their top is first. The dictionaries `visited` and
`assigned` only ever hold `True`: they are the lists of their keys. The test `top is stack[-1]` compares objects; since the names that are pushed
have not been visited and `top` has, it says that nothing was pushed, and the model compares the names. A component (a set) is the list of its
elements in the order in which they are added.
-/
namespace Model
open Py

/-- algorithms.py:498-511: the variables of `_visit`. -/
structure KVisit where
  stack : List String
  visited : List String
  incoming : PyDict String (List String)
  L : List String

/-- algorithms.py:505-509, one neighbour of `top`. -/
def kosNeighbor (top n : String) (st : KVisit) : KVisit :=
  let st := { st with incoming := st.incoming.set n ((st.incoming.val n).getD [] ++ [top]) }
  if n ∈ st.visited then st else { st with stack := n :: st.stack }

/-- algorithms.py:510-511. -/
def kosPop (top : String) (st : KVisit) : KVisit :=
  match st.stack with
  | [] => st
  | x :: rest => if top = x then { st with stack := rest, L := st.L ++ [x] } else st

/-- algorithms.py:500-511, the `while` loop. -/
def kosVisitLoop (neighbors : String → PyM (List String)) : Nat → KVisit → PyM KVisit
  | 0, _ => .error .outOfFuel
  | fuel + 1, st =>
    match st.stack with
    | [] => .ok st
    | top :: _ =>
      if top ∈ st.visited then kosVisitLoop neighbors fuel (kosPop top st)
      else do
        let ns ← neighbors top
        let st := ns.foldl (fun st n => kosNeighbor top n st) { st with visited := st.visited ++ [top] }
        kosVisitLoop neighbors fuel (kosPop top st)

/-- algorithms.py:498-511 `_visit`, and the test of line 529. -/
def kosVisit (neighbors : String → PyM (List String)) (fuel : Nat) (u : String) (st : KVisit) : PyM KVisit :=
  if u ∈ st.visited then .ok st else kosVisitLoop neighbors fuel { st with stack := [u] }

/-- algorithms.py:513-524: the variables of `_assign`. -/
structure KAssign where
  stack : List String
  assigned : List String
  component : List String

/-- algorithms.py:520-522, one vertex of `incoming[top]`. -/
def kosPush (n : String) (st : KAssign) : KAssign := if n ∈ st.assigned then st else { st with stack := n :: st.stack }

/-- algorithms.py:523-524. -/
def kosDrop (top : String) (st : KAssign) : KAssign :=
  match st.stack with
  | [] => st
  | x :: rest => if top = x then { st with stack := rest } else st

/-- algorithms.py:515-524, the `while` loop. -/
def kosAssignLoop (incoming : PyDict String (List String)) : Nat → KAssign → PyM KAssign
  | 0, _ => .error .outOfFuel
  | fuel + 1, st =>
    match st.stack with
    | [] => .ok st
    | top :: _ =>
      if top ∈ st.assigned then kosAssignLoop incoming fuel (kosDrop top st)
      else do
        let ns ← incoming.get top
        let st := ns.foldl (fun st n => kosPush n st) { st with assigned := st.assigned ++ [top], component := st.component ++ [top] }
        kosAssignLoop incoming fuel (kosDrop top st)

/-- algorithms.py:535-539, one vertex of `L`; the state is `(assigned, components)`. -/
def kosAssign (incoming : PyDict String (List String)) (fuel : Nat) (v : String) (st : List String × List (List String)) :
    PyM (List String × List (List String)) :=
  if v ∈ st.1 then .ok st
  else do
    let r ← kosAssignLoop incoming fuel ⟨[v], st.1, []⟩
    .ok (r.assigned, if r.component ≠ [] then st.2 ++ [r.component] else st.2)

/-- algorithms.py:526-541 `_strongly_connected_components_kosaraju_adjacency_list` (and `_matrix`). `L` is walked from its end. -/
def kosaraju (vertices : List String) (neighbors : String → PyM (List String)) (fuel : Nat) : PyM (List (List String)) := do
  let st ← forList vertices ⟨[], [], PyDict.empty, []⟩ fun u st => kosVisit neighbors fuel u st
  let r ← forList st.L.reverse ([], []) fun v r => kosAssign st.incoming fuel v r
  .ok r.2

end Model
