import Verif.Py

/-!
# Graphs: `AdjacencyList` (graphs/adjacency_list.py), `AdjacencyMatrix` (graphs/adjacency_matrix.py) and their nodes
(utils/misc_util.py:374-474)

Vertices are stored as attributes of the graph object, and the neighbours of a vertex as attributes of its node object, so a name can
clash with an attribute that these objects have anyway (`"name"`, `"vertices"`, `"neighbors"`, …). The two predicates `gAttr` and `nAttr`
say which names do. Every call of `add_vertex` passes a fresh node without neighbours.
-/
namespace Model
open Py

/-- misc_util.py:476-509 `GraphEdge`: the names of the end points and the value. -/
structure GEdge where
  source : String
  target : String
  value : Int
  deriving DecidableEq

/-! ## AdjacencyList -/

/-- adjacency_list.py:19-29. `adjacent` maps a vertex name to the attribute `adjacent` of its node, `none` when the graph has no such
attribute. The attributes that a node has for its neighbours are always those listed in `adjacent` (both are updated together at
misc_util.py:426-428, 437-438 and adjacency_list.py:66-67), so one list models both. -/
structure AList where
  vertices : List String
  adjacent : String → Option (List String)
  weights : String → Option GEdge

/-- adjacency_list.py:19-29 `__new__` without vertices. -/
def alNew : AList := ⟨[], fun _ => none, fun _ => none⟩

/-- Attribute or dictionary assignment. (e.g. adjacency_list.py:59, 88) -/
def sset {β : Type} (f : String → β) (k : String) (v : β) : String → β := fun j => if j = k then v else f j

section
variable (gAttr nAttr : String → Bool)

/-- `self.__getattribute__(name)` used as a node: a missing attribute raises `AttributeError`, and so does the use of an attribute of the
graph that is not a node. (e.g. adjacency_list.py:53) -/
def alNode (g : AList) (name : String) : PyM (List String) :=
  match g.adjacent name with
  | some adj => .ok adj
  | none => .error .attributeError

/-- `hasattr(self, name)` for the graph. (adjacency_list.py:57) -/
def alHas (g : AList) (name : String) : Bool := gAttr name || (g.adjacent name).isSome

/-- `hasattr(node, name)` for a node with the given neighbours. (adjacency_list.py:44) -/
def nodeHas (adj : List String) (name : String) : Bool := nAttr name || decide (name ∈ adj)

/-- adjacency_list.py:42-44 `is_adjacent`. -/
def alIsAdjacent (g : AList) (n1 n2 : String) : PyM Bool := do
  let adj ← alNode g n1
  .ok (nodeHas nAttr adj n2)

/-- adjacency_list.py:46-47 `num_vertices`. -/
def alNumVertices (g : AList) : Nat := g.vertices.length

/-- adjacency_list.py:52-54 `neighbors`, returning the names of the nodes. -/
def alNeighbors (g : AList) (name : String) : PyM (List String) := do
  let adj ← alNode g name
  forList adj [] fun v acc => do
    let _ ← alNode g v
    .ok (acc ++ [v])

/-- adjacency_list.py:49-50 `num_edges`. -/
def alNumEdges (g : AList) : PyM Nat :=
  forList g.vertices 0 fun v n => do
    let l ← alNeighbors g v
    .ok (n + l.length)

/-- adjacency_list.py:56-59 `add_vertex` with a fresh node. -/
def alAddVertex (g : AList) (name : String) : AList :=
  if alHas gAttr g name then g
  else { g with vertices := g.vertices ++ [name], adjacent := sset g.adjacent name (some []) }

/-- adjacency_list.py:61-68 `remove_vertex`; `delattr` raises `AttributeError` for a missing attribute (deleting an attribute that is not a
vertex is modelled in the same way). `edge_weights` is not touched. -/
def alRemoveVertex (g : AList) (name : String) : PyM AList := do
  let _ ← alNode g name
  let g := { g with adjacent := sset g.adjacent name none, vertices := g.vertices.erase name }
  forList g.vertices g fun v g => do
    let adj ← alNode g v
    if nodeHas nAttr adj name then
      if name ∈ adj then .ok { g with adjacent := sset g.adjacent v (some (adj.erase name)) }
      else .error .attributeError
    else .ok g

/-- misc_util.py:418-428 `add_adjacent_node` on the node `source` with neighbours `adj`: `getattr(self, name).data = data` changes nothing
that can be observed through the graph for a neighbour, and raises `AttributeError` for another attribute of the node. -/
def alAddAdjacent (g : AList) (source : String) (adj : List String) (target : String) : PyM AList :=
  if nodeHas nAttr adj target then
    if target ∈ adj then .ok g else .error .attributeError
  else .ok { g with adjacent := sset g.adjacent source (some (adj ++ [target])) }

/-- adjacency_list.py:70-89 `add_edge`. -/
def alAddEdge (g : AList) (source target : String) (cost : Option Int) : PyM AList :=
  if !alHas gAttr g source then .error .valueError
  else if !alHas gAttr g target then .error .valueError
  else do
    let adj ← alNode g source
    let _ ← alNode g target
    let g ← alAddAdjacent nAttr g source adj target
    match cost with
    | none => .ok g
    | some c => .ok { g with weights := sset g.weights (source ++ "_" ++ target) (some ⟨source, target, c⟩) }

/-- adjacency_list.py:91-94 `get_edge`. -/
def alGetEdge (g : AList) (source target : String) : Option GEdge := g.weights (source ++ "_" ++ target)

/-- adjacency_list.py:96-101 `remove_edge` with misc_util.py:430-438 `remove_adjacent_node`. -/
def alRemoveEdge (g : AList) (source target : String) : PyM AList := do
  let adj ← alNode g source
  let _ ← alNode g target
  if !nodeHas nAttr adj target then .error .valueError
  else if target ∈ adj then
    .ok { g with
      adjacent := sset g.adjacent source (some (adj.erase target))
      weights := sset g.weights (source ++ "_" ++ target) none }
  else .error .valueError

end

/-! ## AdjacencyMatrix -/

/-- adjacency_matrix.py:20-34: `matrix` is a dictionary of rows, a row a dictionary from names to booleans in insertion order. -/
structure AMat where
  vertices : List String
  rows : String → Option (List (String × Bool))
  weights : String → Option GEdge

/-- adjacency_matrix.py:20-34 `__new__`; the names of the vertices are distinct. -/
def amNew (vertices : List String) : AMat := ⟨vertices, fun v => if v ∈ vertices then some [] else none, fun _ => none⟩

/-- `row.get(name, False)`. (adjacency_matrix.py:45) -/
def rowGet (row : List (String × Bool)) (name : String) : Bool :=
  match row with
  | [] => false
  | (k, b) :: row => if k = name then b else rowGet row name

/-- `row[name] = b`. (adjacency_matrix.py:85) -/
def rowSet (row : List (String × Bool)) (name : String) (b : Bool) : List (String × Bool) :=
  match row with
  | [] => [(name, b)]
  | (k, c) :: row => if k = name then (k, b) :: row else (k, c) :: rowSet row name b

/-- adjacency_matrix.py:42-45 `is_adjacent`. -/
def amIsAdjacent (g : AMat) (n1 n2 : String) : Bool := rowGet ((g.rows n1).getD []) n2

/-- adjacency_matrix.py:47-48 `num_vertices`. -/
def amNumVertices (g : AMat) : Nat := g.vertices.length

/-- adjacency_matrix.py:50-51 `num_edges`: the rows of the vertices (`matrix` has no other rows). -/
def amNumEdges (g : AMat) : Nat := (g.vertices.map fun v => ((g.rows v).getD []).length).sum

/-- adjacency_matrix.py:53-61 `neighbors`, returning names. -/
def amNeighbors (g : AMat) (name : String) : List String :=
  (((g.rows name).getD []).filter fun e => e.2).map fun e => e.1

/-- adjacency_matrix.py:71-90 `add_edge`. -/
def amAddEdge (g : AMat) (source target : String) (cost : Option Int) : PyM AMat :=
  match g.rows source, g.rows target with
  | none, _ => .error .valueError
  | some _, none => .error .valueError
  | some row, some _ =>
    let g := { g with rows := sset g.rows source (some (rowSet row target true)) }
    match cost with
    | none => .ok g
    | some c => .ok { g with weights := sset g.weights (source ++ "_" ++ target) (some ⟨source, target, c⟩) }

/-- adjacency_matrix.py:92-95 `get_edge`. -/
def amGetEdge (g : AMat) (source target : String) : Option GEdge := g.weights (source ++ "_" ++ target)

/-- adjacency_matrix.py:97-100 `remove_edge`: `matrix[source]` raises `KeyError` for an unknown source; the target is not checked. -/
def amRemoveEdge (g : AMat) (source target : String) : PyM AMat :=
  match g.rows source with
  | none => .error .keyError
  | some row => .ok { g with
      rows := sset g.rows source (some (rowSet row target false))
      weights := sset g.weights (source ++ "_" ++ target) none }

end Model
