import Verif.Model.GraphSearch

/-!
# Parallel breadth first search (graphs/algorithms.py:191-224)

Each job is submitted and its `result()` awaited before the next one is submitted (lines 217-221), so the jobs run one after the other: there
is no interleaving. What is not determined is the order in which a Python set is iterated: `ord k l` is the order in which the set
of layer `k`, whose elements were inserted in the order `l`, is iterated.
-/
namespace Model
open Py
variable {V : Type} [DecidableEq V]

/-- algorithms.py:197-202, the `for` loop of `_generate_layer`. `visited.get(next_node, False)` looks up a node object in a dictionary whose
keys are strings, so it is always `False` and the `if` is always taken; `visited` is never read otherwise and not modelled.
`status and operation(...)` does not call `operation` once `status` is false. -/
def genExpand (op : List (OpCall V) → Bool) (curr : V) : List V → List V × List (OpCall V) × Bool → List V × List (OpCall V) × Bool
  | [], st => st
  | n :: ns, (next, calls, status) =>
    let calls' := if status then calls ++ [(curr, some n)] else calls
    let status' := status && op calls'
    genExpand op curr ns (if n ∈ next then next else next ++ [n], calls', status')

/-- algorithms.py:191-205 `_generate_layer`: next layer, calls and the returned status. -/
def genLayer (op : List (OpCall V) → Bool) (neighbors : V → PyM (List V)) (curr : V) (next : List V) (calls : List (OpCall V)) :
    PyM (List V × List (OpCall V) × Bool) := do
  let ns ← neighbors curr
  if ns.length ≠ 0 then .ok (genExpand op curr ns (next, calls, true))
  else .ok (next, calls ++ [(curr, none)], op (calls ++ [(curr, none)]))

/-- algorithms.py:216-221: the jobs of one layer; the status that remains is that of the last one. -/
def genAll (op : List (OpCall V) → Bool) (neighbors : V → PyM (List V)) :
    List V → List V × List (OpCall V) × Bool → PyM (List V × List (OpCall V) × Bool)
  | [], st => .ok st
  | v :: vs, (next, calls, _) => do
    let st ← genLayer op neighbors v next calls
    genAll op neighbors vs st

/-- algorithms.py:214-224 `while len(layers[layer]) != 0`. -/
def bfsParLoop (op : List (OpCall V) → Bool) (neighbors : V → PyM (List V)) (ord : Nat → List V → List V) :
    Nat → Nat → List V → List (OpCall V) → PyM (List (OpCall V))
  | 0, _, _, _ => .error .outOfFuel
  | fuel + 1, k, layer, calls =>
    match layer with
    | [] => .ok calls
    | _ :: _ => do
      let (next, calls, status) ← genAll op neighbors (ord k layer) ([], calls, true)
      if !status then .ok calls
      else bfsParLoop op neighbors ord fuel (k + 1) next calls

/-- algorithms.py:207-224 `_breadth_first_search_parallel_adjacency_list`; `source_node` need not be a vertex here. -/
def bfsParallel (op : List (OpCall V) → Bool) (neighbors : V → PyM (List V)) (ord : Nat → List V → List V) (source : V) (fuel : Nat) :
    PyM (List (OpCall V)) :=
  bfsParLoop op neighbors ord fuel 0 [source] []

end Model
