import Verif.Model.Kahn

/-!
# Parallel topological sorting (graphs/algorithms.py:1155-1186)

In each round the jobs of the source vertices run in a pool of `threads` workers, then their vertices are removed. A job reads the neighbours of its
vertex and then removes its edges one by one; these are the atomic steps. `sched r k` chooses which of the running jobs makes step `k` of
round `r`; the first `threads` unfinished jobs are running. (A job may also start before the later ones are submitted; these schedules are
among those considered, because a job that has not been picked yet has not done anything. A call of `remove_edge` is one step: it only writes
to the node of its own vertex, and pops its own key from `edge_weights`.) An exception in a job ends this job only:
nobody asks for the result of its future.
-/
namespace Model
open Py
variable (nAttr : String → Bool)

/-- algorithms.py:1164-1166 -/
def collectStep (deg : PyDict String Int) (u : String) (S : List String) : PyM (List String) := do
  let c ← deg.get u
  if c = 0 then .ok (S ++ [u]) else .ok S

/-- algorithms.py:1158-1167 `_collect_source_nodes`. -/
def collectSources (g : AList) : PyM (List String) := do
  let deg ← kahnCount g
  forList deg.keys [] fun u S => collectStep deg u S

/-- A job: its vertex and, once it has called `graph.neighbors` (line 1170), the neighbours still to be treated. (algorithms.py:1166-1178) -/
abbrev Job := String × Option (List String)

/-- algorithms.py:1169-1171 `_job`: one atomic step of the job number `i`. -/
def jobStep (g : AList) (pool : List Job) (i : Nat) : AList × List Job :=
  match pool[i]? with
  | none => (g, pool)
  | some (u, none) =>
    match alNeighbors g u with
    | .ok ns => (g, pool.set i (u, some ns))
    | .error _ => (g, pool.eraseIdx i)
  | some (_, some []) => (g, pool.eraseIdx i)
  | some (u, some (v :: vs)) =>
    match alRemoveEdge nAttr g u v with
    | .ok g' => (g', pool.set i (u, some vs))
    | .error _ => (g, pool.eraseIdx i)

/-- algorithms.py:1176-1179: the pool runs until all jobs have ended (`with` waits for them). -/
def poolRun (threads : Nat) (sched : Nat → Nat) : Nat → Nat → AList → List Job → PyM AList
  | 0, _, _, _ => .error .outOfFuel
  | _ + 1, _, g, [] => .ok g
  | fuel + 1, k, g, pool =>
    let (g, pool) := jobStep nAttr g pool (sched k % min threads pool.length)
    poolRun threads sched fuel (k + 1) g pool

/-- algorithms.py:1175-1182: the rounds. -/
def kahnParLoop (threads : Nat) (sched : Nat → Nat → Nat) (fuel : Nat) : Nat → Nat → AList → List String → List String → PyM (AList × List String)
  | 0, _, _, _, _ => .error .outOfFuel
  | _ + 1, _, g, [], L => .ok (g, L)
  | rounds + 1, r, g, S, L => do
    let g ← poolRun nAttr threads (sched r) fuel 0 g (S.map fun u => (u, none))
    let g ← forList S g fun u g => alRemoveVertex nAttr g u
    let S' ← collectSources g
    kahnParLoop threads sched fuel rounds (r + 1) g S' (L ++ S)

/-- algorithms.py:1155-1186 `_kahn_adjacency_list_parallel`; `ThreadPoolExecutor` raises `ValueError` for `num_threads = 0`, which only
happens if there is a source vertex. -/
def kahnParallel (threads : Nat) (sched : Nat → Nat → Nat) (g : AList) (fuel : Nat) : PyM (List String) := do
  let n := g.vertices.length
  let S ← collectSources g
  let (_, L) ← kahnParLoop nAttr threads sched fuel fuel 0 g S []
  if L.length ≠ n then .error .valueError else .ok L

end Model
