import Verif.Model.Array

/-!
# Sorting a dynamic array

Model of the last statement of the sorting functions, `array._modify(True)`
(`/repo/pydatastructs/linear_data_structures/algorithms.py:136-137` and the same two lines in the other sorts), and of
`_modify(force=True)` (`/repo/pydatastructs/linear_data_structures/arrays.py:377-396`). `len(array)` of a dynamic array is its capacity
(`__len__` is inherited, arrays.py:152-153), so that the default `end` is the last cell.
-/
namespace Model
open Py
variable {α : Type}

/-- arrays.py:382-385 `i = -1; while self._data[i] is None: i -= 1; self._last_pos_filled = i % self._size`: the first argument is the
number of cells not yet looked at, the result is the new `_last_pos_filled + 1`. When all cells are `None` (or there is none) the index
leaves the list: `IndexError`. -/
def dodaLast (data : List (Option α)) : Nat → PyM Nat
  | 0 => .error .indexError
  | k + 1 => do
    let x ← rd data k
    match x with
    | some _ => .ok (k + 1)
    | none => dodaLast data k

/-- arrays.py:377-396 `_modify(force=True)`. -/
def Doda.modifyForce (low : Nat → Nat → Bool) (d : Doda α) : PyM (Doda α) := do
  let cnt ← dodaLast d.data d.size
  Doda.modify low { d with cnt := cnt }

/-- A sort applied to a dynamic array: the cells are sorted in place (`sort` is the model of the sort on a list of cells), then
`array._modify(True)` (algorithms.py:136-137, 202-203, 276-277, 340-341, 686-687, 790-791, 1382-1383, 1457-1458, 1530-1531, 1929-1930). -/
def Doda.sortWith (low : Nat → Nat → Bool) (sort : List (Option α) → Nat → Nat → PyM (List (Option α))) (d : Doda α)
    (start stop : Nat) : PyM (Doda α) := do
  let data ← sort d.data start stop
  Doda.modifyForce low { d with data := data }

/-- arrays.py:431-433 `__reversed__`: the cells from the last filled position down to the first. -/
def Doda.reversed (d : Doda α) : List (Option α) := (d.data.take d.cnt).reverse

end Model
