import Verif.Py

/-!
# Breadth and depth first search (graphs/algorithms.py:103-126 and 722-745)

The functions are written against `graph.neighbors`, for either graph class: `neighbors v` is the list of the names of the neighbours, or the
exception that the call raises. `Stack = Queue = deque` (algorithms.py:30), a list here, front first. The user's `operation` may keep a
state: its answer is a function of all calls made so far, the current one included. The model returns the calls in order.
-/
namespace Model
open Py
variable {V : Type} [DecidableEq V]

/-- A call `operation(curr, next)`; `none` is the empty string passed for a vertex without neighbours. (graphs/algorithms.py:115, 121) -/
abbrev OpCall (V : Type) := V × Option V

/-- The local variables. `visited` lists the keys of the dictionary in insertion order. `expanded` is not in the code: it records the arguments of
the calls of `graph.neighbors`. `stop` says that the function has returned. (graphs/algorithms.py:105-109, 724-728) -/
structure Search (V : Type) where
  frontier : List V
  visited : List V
  calls : List (OpCall V)
  expanded : List V
  stop : Bool

variable (op : List (OpCall V) → Bool)

/-- algorithms.py:113-119 and 732-738, the `for` loop. -/
def searchExpand (curr : V) : List V → Search V → Search V
  | [], s => s
  | n :: ns, s =>
    if n ∉ s.visited then
      if !op (s.calls ++ [(curr, some n)]) then { s with calls := s.calls ++ [(curr, some n)], stop := true }
      else searchExpand curr ns { s with
        calls := s.calls ++ [(curr, some n)], frontier := s.frontier ++ [n], visited := s.visited ++ [n] }
    else searchExpand curr ns s

/-- algorithms.py:111-123 and 730-742, one vertex. -/
def searchVisit (neighbors : V → PyM (List V)) (curr : V) (s : Search V) : PyM (Search V) := do
  let next ← neighbors curr
  let s := { s with expanded := s.expanded ++ [curr] }
  if next.length ≠ 0 then .ok (searchExpand op curr next s)
  else if !op (s.calls ++ [(curr, none)]) then .ok { s with calls := s.calls ++ [(curr, none)], stop := true }
  else .ok { s with calls := s.calls ++ [(curr, none)] }

/-- algorithms.py:109-123 `while len(bfs_queue) != 0`. -/
def bfsLoop (neighbors : V → PyM (List V)) : Nat → Search V → PyM (Search V)
  | 0, _ => .error .outOfFuel
  | fuel + 1, s =>
    if s.stop then .ok s
    else match s.frontier with
      | [] => .ok s
      | curr :: rest => do
        let s ← searchVisit op neighbors curr { s with frontier := rest }
        bfsLoop neighbors fuel s

/-- algorithms.py:103-123 `_breadth_first_search_adjacency_list` (and `_matrix`). -/
def bfs (neighbors : V → PyM (List V)) (source : V) (fuel : Nat) : PyM (Search V) :=
  bfsLoop op neighbors fuel ⟨[source], [source], [], [], false⟩

/-- algorithms.py:728-742 `while len(dfs_stack) != 0`; `pop` takes the last element. -/
def dfsLoop (neighbors : V → PyM (List V)) : Nat → Search V → PyM (Search V)
  | 0, _ => .error .outOfFuel
  | fuel + 1, s =>
    if s.stop then .ok s
    else match s.frontier.getLast? with
      | none => .ok s
      | some curr => do
        let s ← searchVisit op neighbors curr { s with frontier := s.frontier.dropLast }
        dfsLoop neighbors fuel s

/-- algorithms.py:722-742 `_depth_first_search_adjacency_list` (and `_matrix`). -/
def dfs (neighbors : V → PyM (List V)) (source : V) (fuel : Nat) : PyM (Search V) :=
  dfsLoop op neighbors fuel ⟨[source], [source], [], [], false⟩

end Model
