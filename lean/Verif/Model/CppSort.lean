import Verif.Model.Cpp

/-!
# The sorts of the C++ back end

`bubble_sort`, `selection_sort`, `insertion_sort`, `quick_sort` with `backend=Backend.CPP` on a `OneDimensionalArray`; on a
`DynamicOneDimensionalArray` the cells are treated in the same way and `_modify(True)` is called afterwards (not modelled here).
`start` and `end` are natural numbers or absent.
-/
namespace Model.Cpp
open Py
variable {α : Type _}

/-- Exchange of the cells `i` and `j` as the sorts do it: `tmp = array[i]; array[i] = array[j]; array[j] = tmp`
(linear_data_structures/_backend/cpp/algorithms/quadratic_time_sort.hpp:20-23, quick_sort.hpp:39-42). -/
def swap (i j : Nat) : CM α Unit := do
  let tmp ← getItem i
  let y ← getItem j
  setItem i y
  setItem j tmp

/-- linear_data_structures/_backend/cpp/algorithms/quadratic_time_sort.hpp:12-28 `bubble_sort_impl`. -/
def bubbleImpl (tcomp : α → α → Bool) (lower upper arrLength : Nat) : CM α Unit :=
  cfor 0 (sz ((arrLength : Int) - 1)) fun _ =>
    cfor lower upper fun j => do
      let x ← getItem j
      let y ← getItem (sz (j + 1))
      if !(← comp tcomp x y) then swap (sz (j + 1)) j

/-- linear_data_structures/_backend/cpp/algorithms/quadratic_time_sort.hpp:31-68 `bubble_sort`. -/
def bubbleSort (tcomp : α → α → Bool) (a : List (Option α)) (start stop : Option Nat) : PyM (List (Option α)) :=
  finish (bubbleImpl tcomp (start.getD 0) (stop.getD (lastIndex a)) a.length ⟨a, false⟩).2

/-- The loop over `j` of `selection_sort_impl`, with the current `j_min`
(linear_data_structures/_backend/cpp/algorithms/quadratic_time_sort.hpp:621-627); the first argument is the number of remaining iterations. -/
def selectMin (tcomp : α → α → Bool) : Nat → Nat → Nat → CM α Nat
  | 0, _, jMin => pure jMin
  | n + 1, j, jMin => do
    let x ← getItem jMin
    let y ← getItem j
    if !(← comp tcomp x y) then selectMin tcomp n (j + 1) j else selectMin tcomp n (j + 1) jMin

/-- linear_data_structures/_backend/cpp/algorithms/quadratic_time_sort.hpp:616-634 `selection_sort_impl`. -/
def selectionImpl (tcomp : α → α → Bool) (lower upper : Nat) : CM α Unit :=
  cfor lower (sz (upper + 1)) fun i => do
    let jMin ← selectMin tcomp (sz (upper + 1) - sz (i + 1)) (sz (i + 1)) i
    swap jMin i

/-- linear_data_structures/_backend/cpp/algorithms/quadratic_time_sort.hpp:637-672 `selection_sort`. -/
def selectionSort (tcomp : α → α → Bool) (a : List (Option α)) (start stop : Option Nat) : PyM (List (Option α)) :=
  finish (selectionImpl tcomp (start.getD 0) (stop.getD (lastIndex a)) ⟨a, false⟩).2

/-- The inner `while` loop of `insertion_sort_impl`; the result is the final `j`
(linear_data_structures/_backend/cpp/algorithms/quadratic_time_sort.hpp:1228-1233). -/
def insertShift (tcomp : α → α → Bool) (lower : Nat) (temp : Option (Option α)) : Nat → CM α Nat
  | 0 => pure 0
  | j + 1 =>
    if lower < j + 1 then do
      let x ← getItem j
      if !(← comp tcomp x temp) then do
        let x ← getItem j
        setItem (j + 1) x
        insertShift tcomp lower temp j
      else pure (j + 1)
    else pure (j + 1)

/-- linear_data_structures/_backend/cpp/algorithms/quadratic_time_sort.hpp:1222-1237 `insertion_sort_impl`. -/
def insertionImpl (tcomp : α → α → Bool) (lower upper : Nat) : CM α Unit :=
  cfor (sz (lower + 1)) (sz (upper + 1)) fun i => do
    let temp ← getItem i
    let j ← insertShift tcomp lower temp i
    setItem j temp

/-- linear_data_structures/_backend/cpp/algorithms/quadratic_time_sort.hpp:1239-1275 `insertion_sort`. -/
def insertionSort (tcomp : α → α → Bool) (a : List (Option α)) (start stop : Option Nat) : PyM (List (Option α)) :=
  finish (insertionImpl tcomp (start.getD 0) (stop.getD (lastIndex a)) ⟨a, false⟩).2

/-- The loop of `quick_sort_partition` (linear_data_structures/_backend/cpp/algorithms/quick_sort.hpp:34-44); `k = i + 1`, the first argument is
the number of remaining iterations. (`i` is an `int64_t` and may be -1; it is only used as an index after it was incremented.) -/
def partLoop (tcomp : α → α → Bool) (x : Option (Option α)) : Nat → Nat → Nat → CM α Nat
  | 0, _, k => pure k
  | n + 1, j, k => do
    let y ← getItem j
    if ← comp tcomp y x then
      swap k j
      partLoop tcomp x n (j + 1) (k + 1)
    else partLoop tcomp x n (j + 1) k

/-- linear_data_structures/_backend/cpp/algorithms/quick_sort.hpp:11-52 `quick_sort_partition` with the default pivot `array[high]`. (A function
`pick_pivot_element` is called with an argument list that lacks the terminating `NULL`: undefined behaviour, not modelled.) -/
def quickPartition (tcomp : α → α → Bool) (low high : Nat) : CM α Nat := do
  let x ← getItem high
  let k ← partLoop tcomp x (high - low) low low
  swap k high
  pure k

/-- Body of the `while ( !rstack.empty() )` loop (linear_data_structures/_backend/cpp/algorithms/quick_sort.hpp:63-77). The stack holds
`low, high` pairs, the top first. -/
def quickStep (tcomp : α → α → Bool) : St α × List (Nat × Nat) → PyM (St α × List (Nat × Nat))
  | (s, []) => .ok (s, [])
  | (s, (low, high) :: stack) =>
    let (p, s) := quickPartition tcomp low high s
    let stack := if low < sz ((p : Int) - 1) then (low, sz ((p : Int) - 1)) :: stack else stack
    let stack := if sz (p + 1) < high then (sz (p + 1), high) :: stack else stack
    .ok (s, stack)

/-- linear_data_structures/_backend/cpp/algorithms/quick_sort.hpp:54-80 `quick_sort_impl`. -/
def quickImpl (tcomp : α → α → Bool) (fuel : Nat) (lower upper : Nat) (s : St α) : PyM (St α) := do
  let (s, _) ← whileLoop fuel (fun s : St α × List (Nat × Nat) => .ok (!s.2.isEmpty)) (quickStep tcomp) (s, [(lower, upper)])
  .ok s

/-- linear_data_structures/_backend/cpp/algorithms/quick_sort.hpp:82-117 `quick_sort`. -/
def quickSort (tcomp : α → α → Bool) (fuel : Nat) (a : List (Option α)) (start stop : Option Nat) : PyM (List (Option α)) := do
  let s ← quickImpl tcomp fuel (start.getD 0) (stop.getD (lastIndex a)) ⟨a, false⟩
  finish s

end Model.Cpp
