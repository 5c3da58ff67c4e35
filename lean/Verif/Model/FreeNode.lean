import Verif.Model.CppGraph

/-!
# Nodes and edges of graphs as objects of their own

The data of the nodes and edges of the C++ back end (utils/_backend/cpp/GraphNode.hpp, AdjacencyListGraphNode.hpp, GraphEdge.hpp), and
`AdjacencyListGraphNode` with its neighbours in Python (utils/misc_util.py:374-438) and in C++. Strings that are data are lists of code
points, so that lone surrogates can be told apart; the names of neighbours are strings without surrogates.
-/
namespace Model
open Py

/-- A Python object as the C++ conversions tell it apart (utils/_backend/cpp/GraphNode.hpp:56-82): `bool` counts as `int`, a float is given by
its bits, every other object by its identity. -/
inductive PVal where
  | none
  | int (i : Int)
  | float (bits : Nat)
  | str (points : List Nat)
  | obj (id : Nat)
  deriving DecidableEq

namespace Cpp

/-- utils/_backend/cpp/GraphNode.hpp:25-26 `data` with `data_type`. `freed o`: the cell still points to `o`, whose reference it has given
back (we take it that this was the last one). -/
inductive CCell where
  | none
  | int (i : Int)
  | double (bits : Nat)
  | str (points : List Nat)
  | obj (id : Nat)
  | freed (id : Nat)
  deriving DecidableEq

/-- Which class the field belongs to: `GraphNode` (and `AdjacencyMatrixGraphNode`, utils/_backend/cpp/AdjacencyMatrixGraphNode.hpp:19-29, which
inherits everything), `AdjacencyListGraphNode`, `GraphEdge` (utils/_backend/cpp/GraphEdge.hpp:13-19). -/
inductive CKind where
  | node
  | listNode
  | edge
  deriving DecidableEq

/-- Can the string not be encoded, so that `PyUnicode_AsUTF8` returns the null pointer? (utils/_backend/cpp/GraphNode.hpp:73) -/
def surrogate (s : List Nat) : Bool := s.any fun c => decide (0xD800 ≤ c ∧ c ≤ 0xDFFF)

/-- `std::string(const char*)` reads up to the first null character. (utils/_backend/cpp/GraphNode.hpp:74) -/
def cString (s : List Nat) : List Nat := s.takeWhile (· ≠ 0)

/-- The data of a new object (utils/_backend/cpp/GraphNode.hpp:56-82, utils/_backend/cpp/AdjacencyListGraphNode.hpp:57-76,
utils/_backend/cpp/GraphEdge.hpp:49-64). An int that does not fit leaves an exception pending behind a returned object, which
CPython turns into `SystemError`; `std::string` of the null pointer is undefined. -/
def cellNew (k : CKind) : PVal → PyM CCell
  | .none => .ok .none
  | .int i => if fits64 (some i) then .ok (.int i) else .error .systemError
  | .float b => .ok (.double b)
  | .str s => if surrogate s then .error .undefined else .ok (.str (cString s))
  | .obj o => if k = .edge then .error .typeError else .ok (.obj o)

/-- The assignment to the field (utils/_backend/cpp/GraphNode.hpp:142-178, utils/_backend/cpp/AdjacencyListGraphNode.hpp:169-197,
utils/_backend/cpp/GraphEdge.hpp:108-128): the exception, if there is one, and the new content. An int that does not fit is stored as -1
and leaves `OverflowError` pending behind a setter that reports success; we take it as `SystemError`, raised at once. -/
def cellSet (k : CKind) (c : CCell) : PVal → Option PyErr × CCell
  | .none => (Option.none, .none)
  | .int i => if fits64 (some i) then (Option.none, .int i) else (some .systemError, .int (-1))
  | .float b => (Option.none, .double b)
  | .str s =>
    if surrogate s then
      match k with
      | .listNode => (some .valueError, match c with | .obj o => .freed o | c => c)
      | _ => (some .undefined, c)
    else (Option.none, .str (cString s))
  | .obj o => if k = .edge then (some .typeError, c) else (Option.none, .obj o)

/-- Reading the field (utils/_backend/cpp/GraphNode.hpp:120-140, utils/_backend/cpp/AdjacencyListGraphNode.hpp:152-167,
utils/_backend/cpp/GraphEdge.hpp:94-106). -/
def cellGet : CCell → PyM PVal
  | .none => .ok .none
  | .int i => .ok (.int i)
  | .double b => .ok (.float b)
  | .str s => .ok (.str s)
  | .obj o => .ok (.obj o)
  | .freed _ => .error .undefined

/-! ## The neighbours of a C++ node -/

/-- What `adjacent` maps a name to: a node, given by its data, or whatever `add_adjacent_node` put there.
(utils/_backend/cpp/AdjacencyListGraphNode.hpp:20) -/
inductive CEntry where
  | node (data : CCell)
  | value (v : PVal)
  deriving DecidableEq

/-- utils/_backend/cpp/AdjacencyListGraphNode.hpp:20 `adjacent`. -/
def CAdj : Type := String → Option CEntry

/-- `PyArg_ParseTuple` with `"s"` rejects a string with a null character. (utils/_backend/cpp/AdjacencyListGraphNode.hpp:100) -/
def nullIn (name : String) : Bool := name.toList.any (· = Char.ofNat 0)

/-- The constructor with a list of nodes, given by their names and data (utils/_backend/cpp/AdjacencyListGraphNode.hpp:78-92). -/
def cnodeNew (nodes : List (String × CCell)) : CAdj :=
  nodes.foldl (fun a n => sset a n.1 (some (.node n.2))) fun _ => Option.none

/-- utils/_backend/cpp/AdjacencyListGraphNode.hpp:97-119 `add_adjacent_node`: the exception, if there is one, and the new neighbours. -/
def cnodeAdd (a : CAdj) (name : String) (data : PVal) : Option PyErr × CAdj :=
  if nullIn name then (some .valueError, a)
  else match a name with
    | Option.none =>
      match cellNew .listNode data with
      | .ok c => (Option.none, sset a name (some (.node c)))
      | .error .undefined => (some .undefined, a)
      | .error _ => (some .runtimeError, a)
    | some _ => (Option.none, sset a name (some (.value data)))

/-- utils/_backend/cpp/AdjacencyListGraphNode.hpp:121-137 `remove_adjacent_node`. -/
def cnodeRemove (a : CAdj) (name : String) : Option PyErr × CAdj :=
  if nullIn name then (some .valueError, a)
  else match a name with
    | some _ => (Option.none, sset a name Option.none)
    | Option.none => (some .valueError, a)

/-- `name in node.adjacent` (utils/_backend/cpp/AdjacencyListGraphNode.hpp:199-208 `get_adjacent`). -/
def cnodeHas (a : CAdj) (name : String) : Bool := (a name).isSome

/-- `node.adjacent[name].data` (utils/_backend/cpp/AdjacencyListGraphNode.hpp:199-208, 152-167): `KeyError` for another name; the data of what is
no node is taken not to exist. -/
def cnodeData (a : CAdj) (name : String) : PyM PVal :=
  match a name with
  | Option.none => .error .keyError
  | some (.node c) => cellGet c
  | some (.value _) => .error .attributeError

end Cpp

/-! ## The neighbours of a Python node -/

/-- An element of `adjacent`: a name (misc_util.py:428) or a node (misc_util.py:411). -/
inductive AdjItem where
  | name (s : String)
  | node (s : String)
  deriving DecidableEq

/-- misc_util.py:400-413: `adjacent`, and the attributes of the object that are nodes, given by their data. -/
structure PNode where
  adjacent : List AdjItem
  nodes : String → Option PVal

/-- misc_util.py:400-413 `__new__` with a list of nodes, given by their names and data. -/
def pnodeNew (l : List (String × PVal)) : PNode :=
  ⟨l.map fun n => .node n.1, l.foldl (fun f n => sset f n.1 (some n.2)) fun _ => none⟩

section
variable (nAttr : String → Bool)

/-- `hasattr(self, name)`; `nAttr` says which names are attributes that are not neighbours. (misc_util.py:423, 435) -/
def pnodeAttr (p : PNode) (name : String) : Bool := (p.nodes name).isSome || nAttr name

/-- misc_util.py:418-428 `add_adjacent_node`: the exception, if there is one, and the new node. Setting `data` of an attribute that is no
node is taken to raise `AttributeError`. -/
def pnodeAdd (p : PNode) (name : String) (data : PVal) : Option PyErr × PNode :=
  if pnodeAttr nAttr p name then
    match p.nodes name with
    | some _ => (none, { p with nodes := sset p.nodes name (some data) })
    | none => (some .attributeError, p)
  else (none, ⟨p.adjacent ++ [.name name], sset p.nodes name (some data)⟩)

/-- misc_util.py:430-438 `remove_adjacent_node`. A name is never equal to a node. Deleting an attribute that is no node is not reached: its
name is not in `adjacent`. -/
def pnodeRemove (p : PNode) (name : String) : Option PyErr × PNode :=
  if !pnodeAttr nAttr p name then (some .valueError, p)
  else if .name name ∈ p.adjacent then (none, ⟨p.adjacent.erase (.name name), sset p.nodes name none⟩)
  else (some .valueError, p)

/-- `name in node.adjacent` (misc_util.py:411-412). -/
def pnodeHas (p : PNode) (name : String) : Bool := decide (.name name ∈ p.adjacent)

/-- `getattr(node, name).data` of a neighbour (misc_util.py:410, 427); other attributes are taken to have no data. -/
def pnodeData (p : PNode) (name : String) : PyM PVal :=
  match p.nodes name with
  | some v => .ok v
  | none => .error .attributeError

end
end Model
