import Verif.Model.Dict
import Verif.Model.Graph

/-!
# Topological sorting, `kahn` (graphs/algorithms.py:1074-1098)

For adjacency lists (the only graphs for which it is implemented). The sort consumes the graph: it removes the edges.
-/
namespace Model
open Py
variable (nAttr : String → Bool)

/-- algorithms.py:1079 -/
def kahnIncr (v : String) (deg : PyDict String Int) : PyM (PyDict String Int) := do
  let c ← deg.get v
  .ok (deg.set v (c + 1))

/-- algorithms.py:1078-1079: the neighbours of one vertex. -/
def kahnCountVertex (g : AList) (u : String) (deg : PyDict String Int) : PyM (PyDict String Int) := do
  let ns ← alNeighbors g u
  forList ns deg fun v deg => kahnIncr v deg

/-- algorithms.py:1076-1079: the in-degrees. -/
def kahnCount (g : AList) : PyM (PyDict String Int) :=
  forList g.vertices (PyDict.const g.vertices 0) fun u deg => kahnCountVertex g u deg

/-- algorithms.py:1081-1083, one vertex. -/
def kahnInitVertex (u : String) (st : List String × PyDict String Int) : PyM (List String × PyDict String Int) := do
  let c ← st.2.get u
  if c = 0 then
    let deg ← st.2.pop u
    .ok (st.1 ++ [u], deg)
  else .ok st

/-- algorithms.py:1090-1094, one edge. -/
def kahnRelax (n m : String) (st : AList × List String × PyDict String Int) : PyM (AList × List String × PyDict String Int) := do
  let g ← alRemoveEdge nAttr st.1 n m
  let c ← st.2.2.get m
  let deg := st.2.2.set m (c - 1)
  if c - 1 = 0 then
    let deg ← deg.pop m
    .ok (g, st.2.1 ++ [m], deg)
  else .ok (g, st.2.1, deg)

/-- algorithms.py:1086-1094 `while S`: the graph, the queue, the in-degrees and the result `L`. -/
def kahnLoop : Nat → AList → List String → PyDict String Int → List String → PyM (AList × PyDict String Int × List String)
  | 0, _, _, _, _ => .error .outOfFuel
  | _ + 1, g, [], deg, L => .ok (g, deg, L)
  | fuel + 1, g, n :: S, deg, L => do
    let ns ← alNeighbors g n
    let (g, S, deg) ← forList ns (g, S, deg) fun m st => kahnRelax nAttr n m st
    kahnLoop fuel g S deg (L ++ [n])

/-- algorithms.py:1074-1098 `_kahn_adjacency_list`: the result and the graph afterwards. -/
def kahn (g : AList) (fuel : Nat) : PyM (List String × AList) := do
  let deg ← kahnCount g
  let (S, deg) ← forList g.vertices ([], deg) fun u st => kahnInitVertex u st
  let (g, deg, L) ← kahnLoop nAttr fuel g S deg []
  if deg.keys ≠ [] then .error .valueError
  else .ok (L, g)

end Model
