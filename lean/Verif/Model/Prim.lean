import Verif.Model.BinomialHeap
import Verif.Model.Graph

/-!
# Prim's algorithm (graphs/algorithms.py:258-278) and its parallel version (373-423)

For adjacency lists (the only graphs for which they are implemented). The vertices of the graph that is built are the node objects of the input
graph, so the two graphs share the lists of adjacent nodes. Weights are integers.

The bodies of the two versions are the same text, except that the parallel version has `num_threads` queues `q[j]` and dictionaries `e[j]`,
with `j = v2q[w]` for the vertex `w`. The sequential version is modelled with one queue and one dictionary, `j = 0`.
-/
namespace Model
open Py

/-- `<=` on the priorities. (heaps.py:411-433 on the priorities) -/
def primLe (a b : Int) : Bool := decide (a ≤ b)

/-- queue.py:474-498: the queue `q` of algorithms.py:259. -/
abbrev PrimHeap := List (BinTree Int String)

/-- The local variables: the input graph (whose nodes are changed), `mst`, the queues, the dictionaries `e`. (algorithms.py:258-279) -/
structure Prim where
  g : AList
  mst : AList
  q : List PrimHeap
  e : Nat → String → Option GEdge

variable (gAttr nAttr : String → Bool)

/-- adjacency_list.py:56-59 `add_vertex` with a node object whose adjacent nodes are `adj`. -/
def alAddNode (m : AList) (name : String) (adj : List String) : AList :=
  if alHas gAttr m name then m
  else { m with vertices := m.vertices ++ [name], adjacent := sset m.adjacent name (some adj) }

/-- The nodes of `mst` are nodes of the input graph. (algorithms.py:266, 269) -/
def shareNodes (g mst : AList) : AList :=
  { g with adjacent := fun v => match mst.adjacent v with
      | some a => some a
      | none => g.adjacent v }

/-- `mst.add_edge(s, t, value)`, with its effect on the nodes of the input graph. (algorithms.py:270-271) -/
def primAddEdge (st : Prim) (s t : String) (value : Int) : PyM Prim := do
  let mst ← alAddEdge gAttr nAttr st.mst s t (some value)
  .ok { st with mst := mst, g := shareNodes st.g mst }

/-- algorithms.py:266-270 (and 408-412): the edge by which `v` is connected; `idx` is the number of the dictionary. -/
def primConnect (idx : Nat) (v : String) (st : Prim) : PyM Prim :=
  match st.e idx v with
  | some edge => do
    let adj ← alNode st.g edge.target
    let st := { st with mst := alAddNode gAttr st.mst edge.target adj }
    let st ← primAddEdge gAttr nAttr st edge.source edge.target edge.value
    primAddEdge gAttr nAttr st edge.target edge.source edge.value
  | none => .ok st

/-- algorithms.py:272-277 (and 414-420), one neighbour `w` of `v`. -/
def primNeighbor (slot : String → PyM Nat) (v w : String) (st : Prim) : PyM Prim :=
  match st.g.weights (v ++ "_" ++ w) with
  | none => .error .keyError
  | some vw => do
    let j ← slot w
    let h ← rd st.q j
    let h ← bhInsert primLe h vw.value w
    let q ← wr st.q j h
    let e := match st.e j w with
      | none => fun i u => if i = j ∧ u = w then some vw else st.e i u
      | some old => if old.value > vw.value then fun i u => if i = j ∧ u = w then some vw else st.e i u else st.e
    .ok { st with q := q, e := e }

/-- algorithms.py:264-277 (and 406-420): the vertex `v` has been taken from the queue. -/
def primVisit (slot : String → PyM Nat) (idx : Nat) (v : String) (st : Prim) : PyM Prim :=
  if alHas gAttr st.mst v then .ok st
  else do
    let adj ← alNode st.g v
    let st := { st with mst := alAddNode gAttr st.mst v adj }
    let st ← primConnect gAttr nAttr idx v st
    let ns ← alNeighbors st.g v
    forList ns st fun w st => primNeighbor slot v w st

/-- algorithms.py:262-277 `while not q.is_empty`. -/
def primLoop : Nat → Prim → PyM Prim
  | 0, _ => .error .outOfFuel
  | fuel + 1, st => do
    let h ← rd st.q 0
    if bhIsEmpty h then .ok st
    else
      let (v, h) ← bpqPop primLe h
      let q ← wr st.q 0 h
      let st ← primVisit gAttr nAttr (fun _ => .ok 0) 0 v { st with q := q }
      primLoop fuel st

/-- algorithms.py:258-278 `_minimum_spanning_tree_prim_adjacency_list`: the result and the input graph afterwards. For a graph without vertices
`next` raises `StopIteration`, written as `indexError` here. -/
def prim (g : AList) (fuel : Nat) : PyM (AList × AList) :=
  match g.vertices with
  | [] => .error .indexError
  | start :: _ => do
    let h ← bhInsert primLe [] 0 start
    let st ← primLoop gAttr nAttr fuel ⟨g, alNew, [h], fun _ _ => none⟩
    .ok (st.mst, st.g)

/-! ## The parallel version -/

/-- algorithms.py:385-387: `v2q`. -/
def primSlot (vertices : List String) (n : Nat) (v : String) : PyM Nat :=
  if v ∈ vertices then .ok (vertices.idxOf v % n) else .error .keyError

/-- algorithms.py:373-377 `_find_min` for one queue; the jobs are awaited one by one. -/
def primPeek (h : PrimHeap) : PyM (Option (BinNode Int String)) :=
  if bhIsEmpty h then .ok none
  else do
    let (n, _) ← bhFindMin primLe h
    .ok (some n)

/-- algorithms.py:397-401 with `_comp` (utils/_misc… `None` last): the first of the nodes with the smallest key. -/
def primBest : List (Option (BinNode Int String)) → Option (BinNode Int String) → Option (BinNode Int String)
  | [], best => best
  | none :: l, best => primBest l best
  | some n :: l, none => primBest l (some n)
  | some n :: l, some b => if n.key < b.key then primBest l (some n) else primBest l (some b)

/-- algorithms.py:390-420 `while True`. -/
def primParLoop (slot : String → PyM Nat) : Nat → Prim → PyM Prim
  | 0, _ => .error .outOfFuel
  | fuel + 1, st => do
    let vs ← forList st.q [] fun h acc => do
      let p ← primPeek h
      .ok (acc ++ [p])
    match primBest vs none with
    | none => .ok st
    | some n => do
      let idx ← slot n.data
      let h ← rd st.q idx
      let (_, h) ← bpqPop primLe h
      let q ← wr st.q idx h
      let st ← primVisit gAttr nAttr slot idx n.data { st with q := q }
      primParLoop slot fuel st

/-- algorithms.py:379-423 `_minimum_spanning_tree_parallel_prim_adjacency_list`. -/
def primParallel (g : AList) (threads fuel : Nat) : PyM (AList × AList) :=
  match g.vertices with
  | [] => .error .indexError
  | start :: _ =>
    if threads = 0 then .error .zeroDivision
    else do
      let q := List.replicate threads ([] : PrimHeap)
      let h ← rd q 0
      let h ← bhInsert primLe h 0 start
      let q ← wr q 0 h
      let st ← primParLoop gAttr nAttr (primSlot g.vertices threads) fuel ⟨g, alNew, q, fun _ _ => none⟩
      .ok (st.mst, st.g)

end Model
