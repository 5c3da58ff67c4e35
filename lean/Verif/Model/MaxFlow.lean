import Verif.Model.ShortestPaths

/-!
# Model of maximum flow (`graphs/algorithms.py:1189-1270`)

`neighbors v` is the list of the names of `graph.neighbors(v)`, `weights` is the dictionary behind `graph.get_edge`. Capacities are integers. The
dictionary `flow_passed`, with its default 0, is kept as it is in the program.
-/
namespace Model
open Py

/-- algorithms.py:1213, 1255: the dictionary `flow_passed`. -/
abbrev FlowPassed := PyDict (String × String) Int

/-- `flow_passed.get((u, v), 0)` (algorithms.py:1200, 1237) -/
def flowAt (F : FlowPassed) (u v : String) : Int := (F.val (u, v)).getD 0

/-- algorithms.py:1220-1223 and 1245-1248: `x` units pass from `u` to `v`. -/
def flowPass (F : FlowPassed) (u v : String) (x : Int) : FlowPassed :=
  let F := F.set (u, v) (flowAt F u v + x)
  F.set (v, u) (flowAt F v u - x)

/-- The local variables of the search; `ret` is the flow of line 1206 once the function has returned. (algorithms.py:1190-1193) -/
structure FlowBfs where
  queue : List String
  parent : PyDict String String
  pathC : PyDict String (Option Int)
  ret : Option Int

/-- `min(a, b)` where `none` is infinity. (algorithms.py:1203, 1243) -/
def infMin : Option Int → Int → Int
  | none, b => b
  | some a, b => if b < a then b else a

/-- `graph.get_edge(u, v).value`: `AttributeError` if there is no such edge weight. (algorithms.py:1199, 1236) -/
def capacity (weights : String → Option GEdge) (u v : String) : PyM Int :=
  match weights (u ++ "_" ++ v) with
  | some e => .ok e.value
  | none => .error .attributeError

/-- algorithms.py:1198-1207, the `for` loop over the neighbours of `curr`. -/
def flowEdges (weights : String → Option GEdge) (sink : String) (forDinic : Bool) (F : FlowPassed) (curr : String) : List String → FlowBfs → PyM FlowBfs
  | [], st => .ok st
  | next :: rest, st => do
    let cap ← capacity weights curr next
    if cap ≠ 0 ∧ (st.parent.val next).isNone ∧ cap - flowAt F curr next > 0 then do
      let c ← st.pathC.get curr
      let st := { st with parent := st.parent.set next curr, pathC := st.pathC.set next (some (infMin c (cap - flowAt F curr next))) }
      if next = sink ∧ forDinic = false then .ok { st with ret := some (infMin c (cap - flowAt F curr next)) }
      else flowEdges weights sink forDinic F curr rest { st with queue := st.queue ++ [next] }
    else flowEdges weights sink forDinic F curr rest st

/-- algorithms.py:1194-1208, the `while` loop. -/
def flowLoop (neighbors : String → PyM (List String)) (weights : String → Option GEdge) (sink : String) (forDinic : Bool) (F : FlowPassed) :
    Nat → FlowBfs → PyM FlowBfs
  | 0, _ => .error .outOfFuel
  | fuel + 1, st =>
    match st.queue with
    | [] => .ok st
    | curr :: rest => do
      let ns ← neighbors curr
      let st ← flowEdges weights sink forDinic F curr ns { st with queue := rest }
      if st.ret.isSome then .ok st else flowLoop neighbors weights sink forDinic F fuel st

/-- algorithms.py:1189-1208 `_breadth_first_search_max_flow`. -/
def flowBfs (neighbors : String → PyM (List String)) (weights : String → Option GEdge) (source sink : String) (forDinic : Bool) (F : FlowPassed)
    (fuel : Nat) : PyM (Int × PyDict String String) := do
  let st ← flowLoop neighbors weights sink forDinic F fuel ⟨[source], PyDict.empty, PyDict.empty.set source none, none⟩
  .ok (st.ret.getD 0, st.parent)

/-- algorithms.py:1218-1224, the path is walked back from `current` to the source. -/
def ekAugment (parent : PyDict String String) (source : String) (x : Int) : Nat → String → FlowPassed → PyM FlowPassed
  | 0, _, _ => .error .outOfFuel
  | fuel + 1, current, F =>
    if current = source then .ok F
    else do
      let prev ← parent.get current
      ekAugment parent source x fuel prev (flowPass F prev current x)

/-- algorithms.py:1214-1226; the search is made at the head of the loop. -/
def ekLoop (neighbors : String → PyM (List String)) (weights : String → Option GEdge) (source sink : String) (inner : Nat) :
    Nat → Int → FlowPassed → PyM Int
  | 0, _, _ => .error .outOfFuel
  | fuel + 1, m, F => do
    let (x, parent) ← flowBfs neighbors weights source sink false F inner
    if x = 0 then .ok m
    else do
      let F ← ekAugment parent source x inner sink F
      ekLoop neighbors weights source sink inner fuel (m + x) F

/-- algorithms.py:1211-1226 `_max_flow_edmonds_karp_`. -/
def maxFlowEdmondsKarp (neighbors : String → PyM (List String)) (weights : String → Option GEdge) (source sink : String) (fuel : Nat) : PyM Int :=
  ekLoop neighbors weights source sink fuel fuel 0 PyDict.empty

/-- algorithms.py:1235-1250, the `for` loop over the neighbours of `u`; `dfs` is the recursive call. -/
def dinicEdges (weights : String → Option GEdge) (parent : PyDict String String) (dfs : String → Option Int → FlowPassed → PyM (Int × FlowPassed))
    (u : String) (flow : Option Int) : List String → FlowPassed → PyM (Int × FlowPassed)
  | [], F => .ok (0, F)
  | next :: rest, F => do
    let cap ← capacity weights u next
    if parent.val next = some u ∧ u ≠ "" ∧ cap - flowAt F u next > 0 then do
      let (x, F) ← dfs next (some (infMin flow (cap - flowAt F u next))) F
      if x > 0 then .ok (x, flowPass F u next x) else dinicEdges weights parent dfs u flow rest F
    else dinicEdges weights parent dfs u flow rest F

/-- algorithms.py:1229-1250 `_depth_first_search_max_flow_dinic`. The flow `inf` is passed on only for the source: it is returned only when source and
sink are equal, and then the caller never ends. -/
def dinicDfs (neighbors : String → PyM (List String)) (weights : String → Option GEdge) (parent : PyDict String String) (sink : String) :
    Nat → String → Option Int → FlowPassed → PyM (Int × FlowPassed)
  | 0, _, _, _ => .error .outOfFuel
  | fuel + 1, u, flow, F =>
    if u = sink then
      match flow with
      | some x => .ok (x, F)
      | none => .error .outOfFuel
    else do
      let ns ← neighbors u
      dinicEdges weights parent (dinicDfs neighbors weights parent sink fuel) u flow ns F

/-- algorithms.py:1261-1268, the inner loop. -/
def dinicPaths (neighbors : String → PyM (List String)) (weights : String → Option GEdge) (parent : PyDict String String) (source sink : String)
    (inner : Nat) : Nat → Int → FlowPassed → PyM (Int × FlowPassed)
  | 0, _, _ => .error .outOfFuel
  | fuel + 1, m, F => do
    let (x, F) ← dinicDfs neighbors weights parent sink inner source none F
    if x ≤ 0 then .ok (m, F) else dinicPaths neighbors weights parent source sink inner fuel (m + x) F

/-- algorithms.py:1256-1270, the outer loop. -/
def dinicLoop (neighbors : String → PyM (List String)) (weights : String → Option GEdge) (source sink : String) (inner : Nat) :
    Nat → Int → FlowPassed → PyM Int
  | 0, _, _ => .error .outOfFuel
  | fuel + 1, m, F => do
    let (_, parent) ← flowBfs neighbors weights source sink true F inner
    if (parent.val sink).isNone then .ok m
    else do
      let (m, F) ← dinicPaths neighbors weights parent source sink inner inner m F
      dinicLoop neighbors weights source sink inner fuel m F

/-- algorithms.py:1253-1270 `_max_flow_dinic_`. -/
def maxFlowDinic (neighbors : String → PyM (List String)) (weights : String → Option GEdge) (source sink : String) (fuel : Nat) : PyM Int :=
  dinicLoop neighbors weights source sink fuel fuel 0 PyDict.empty

end Model
