import Verif.Model.CppGraph

/-!
# Breadth first search of the C++ back end

`breadth_first_search(graph, source, operation, *args, backend=Backend.CPP)`. The operation answers a truth value or raises, depending on the calls
made so far; it does not change the graph. Nodes are represented by their names.
-/
namespace Model.Cpp
open Py Model

/-- graphs/_backend/cpp/Algorithms.hpp:29-32 (and 109-113), the local variables; `calls` are the calls of the operation, `exc` is the exception with which the
function has returned. -/
structure BfsC (V : Type) where
  queue : List V
  visited : List V
  calls : List (V × V)
  exc : Option PyErr

variable {V : Type} [DecidableEq V] (op : List (V × V) → PyM Bool)

/-- graphs/_backend/cpp/Algorithms.hpp:38-75 (and 121-152), the neighbours of `node`. The answer of the operation is thrown away. -/
def bfsArcs (node : V) : List V → BfsC V → BfsC V
  | [], s => s
  | n :: ns, s =>
    if n ∈ s.visited then bfsArcs node ns s
    else
      let calls := s.calls ++ [(node, n)]
      match op calls with
      | .error e => { s with calls := calls, exc := some e }
      | .ok _ => bfsArcs node ns { s with calls := calls, visited := s.visited ++ [n], queue := s.queue ++ [n] }

/-- graphs/_backend/cpp/Algorithms.hpp:34-76 (and 115-153), the loop. -/
def bfsLoopC (neighbors : V → PyM (List V)) : Nat → BfsC V → PyM (BfsC V)
  | 0, _ => .error .outOfFuel
  | fuel + 1, s =>
    if s.exc.isSome then .ok s
    else match s.queue with
      | [] => .ok s
      | node :: rest => do
        let ns ← neighbors node
        bfsLoopC neighbors fuel (bfsArcs op node ns { s with queue := rest })

/-- graphs/_backend/cpp/Algorithms.hpp:29-83 (and 109-160) from the start node on. -/
def bfsC (neighbors : V → PyM (List V)) (source : V) (fuel : Nat) : PyM (BfsC V) :=
  bfsLoopC op neighbors fuel ⟨[source], [source], [], none⟩

/-- `node->adjacent` of a node reached by name, iterated in the order of the hash map (graphs/_backend/cpp/Algorithms.hpp:38). -/
def cgAdjacent (order : String → List String → List String) (g : CGraph) (name : String) : PyM (List String) :=
  match g.nodeMap name with
  | none => .error .undefined
  | some id =>
    match g.idMap id with
    | none => .error .undefined
    | some adj => .ok (order name adj)

/-- graphs/_backend/cpp/Algorithms.hpp:11-84 `breadth_first_search_adjacency_list`: for an unknown source `it->second` of the end iterator is used. -/
def cgBfs (op : List (String × String) → PyM Bool) (order : String → List String → List String) (g : CGraph) (source : String) (fuel : Nat) :
    PyM (BfsC String) :=
  match g.nodeMap source with
  | none => .error .undefined
  | some _ => bfsC op (cgAdjacent order g) source fuel

end Model.Cpp
