import Verif.Py

/-!
# `matrix_multiply_parallel` (linear_data_structures/algorithms.py:426-493)

A matrix is the list of its rows; the entries are integers. `None` entries of the result are `none`.
-/
namespace Model
open Py

/-- `m[i][j]`. (algorithms.py:428-429) -/
def rd2 {β : Type} (m : List (List β)) (i j : Nat) : PyM β := do
  let row ← rd m i
  rd row j

/-- `m[i][j] = v`; the rows of `C` are distinct objects (nested comprehension, algorithms.py:482). -/
def wr2 {β : Type} (m : List (List β)) (i j : Nat) (v : β) : PyM (List (List β)) := do
  let row ← rd m i
  let row ← wr row j v
  wr m i row

/-- algorithms.py:426-430 `_matrix_multiply_helper`: note `range(len(m1))`, the number of *rows* of `m1`. -/
def matHelper (m1 m2 : List (List Int)) (row col : Nat) : PyM Int :=
  forRange 0 m1.length 0 fun i s => do
    let x ← rd2 m1 row i
    let y ← rd2 m2 i col
    .ok (s + x * y)

/-- One job and the assignment of its result (algorithms.py:487-490). -/
def matCell (m1 m2 : List (List Int)) (ij : Nat × Nat) (c : List (List (Option Int))) : PyM (List (List (Option Int))) := do
  let v ← matHelper m1 m2 ij.1 ij.2
  wr2 c ij.1 ij.2 (some v)

/-- The cells in the order of the two `for` loops (algorithms.py:485-486). -/
def matCells (rows cols : Nat) : List (Nat × Nat) :=
  (List.range rows).flatMap fun i => (List.range cols).map fun j => (i, j)

/-- algorithms.py:474-492. `sched` reorders the jobs; in the code, which waits for every job before it submits the next, it is
the identity. The result matrix has `row_matrix_2` rows and `col_matrix_1` columns (line 482). -/
def matMul (sched : List (Nat × Nat) → List (Nat × Nat)) (m1 m2 : List (List Int)) : PyM (List (List (Option Int))) := do
  let r1 ← rd m1 0
  let r2 ← rd m2 0
  if r1.length ≠ m2.length then .error .valueError
  else forList (sched (matCells m1.length r2.length)) (List.replicate m2.length (List.replicate r1.length none)) (matCell m1 m2)

end Model
