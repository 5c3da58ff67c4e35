import Verif.Py

/-!
# Searching

Models of the searching functions of `/repo/pydatastructs/linear_data_structures/algorithms.py`. Unless said otherwise the
keyword `end` (inclusive) is represented by `stop = end + 1`. Arrays of `linear_search`, `binary_search`, `jump_search`,
`lower_bound`, `upper_bound` are lists of values; a `None` cell would be just another value for `linear_search` and makes
the comparators of the others raise `TypeError` (not modelled).
-/
namespace Model
open Py
variable {α : Type}

/-- algorithms.py:1585-1591 `linear_search` (Python backend): `for i in range(start, end + 1)`. The first argument is the
number of remaining iterations. -/
def linearSearchLoop [DecidableEq α] (a : List α) (value : α) : Nat → Nat → PyM (Option Nat)
  | 0, _ => .ok none
  | n + 1, i => do
    let x ← rd a i
    if x = value then .ok (some i) else linearSearchLoop a value n (i + 1)

/-- algorithms.py:1585-1591 `linear_search`. -/
def linearSearch [DecidableEq α] (a : List α) (value : α) (start stop : Nat) : PyM (Option Nat) :=
  linearSearchLoop a value (stop - start) start

/-- algorithms.py:1657-1667 `binary_search` (Python backend): `left`, `right = stop - 1`. -/
def binarySearchLoop [DecidableEq α] (comp : α → α → Bool) (a : List α) (value : α) :
    Nat → Nat → Nat → PyM (Option Nat)
  | 0, _, _ => .error .outOfFuel
  | fuel + 1, left, stop =>
    if left < stop then do
      let right := stop - 1
      let middle := left / 2 + right / 2 + left % 2 * right % 2
      let x ← rd a middle
      if x = value then .ok (some middle)
      else if comp x value then binarySearchLoop comp a value fuel (middle + 1) stop
      else binarySearchLoop comp a value fuel left middle
    else .ok none

/-- algorithms.py:1655-1669 `binary_search`. -/
def binarySearch [DecidableEq α] (comp : α → α → Bool) (fuel : Nat) (a : List α) (value : α) (start stop : Nat) :
    PyM (Option Nat) :=
  binarySearchLoop comp a value fuel start stop

/-- First loop of `jump_search` (algorithms.py:1736-1740): `none` is the early `return None`, otherwise the final
`(prev, current_position)`. `end_` is inclusive. -/
def jumpLoop1 (comp : α → α → Bool) (a : List α) (value : α) (step end_ : Nat) :
    Nat → Nat → Nat → PyM (Option (Nat × Nat))
  | 0, _, _ => .error .outOfFuel
  | fuel + 1, prev, cur => do
    let x ← rd a (min cur end_)
    if comp x value then
      if cur > end_ then .ok none
      else jumpLoop1 comp a value step end_ fuel cur (cur + step)
    else .ok (some (prev, cur))

/-- Second loop of `jump_search` (algorithms.py:1741-1744): `while prev <= min(current_position, end)`. -/
def jumpLoop2 [DecidableEq α] (a : List α) (value : α) (last : Nat) : Nat → Nat → PyM (Option Nat)
  | 0, _ => .error .outOfFuel
  | fuel + 1, prev =>
    if prev ≤ last then do
      let x ← rd a prev
      if x = value then .ok (some prev) else jumpLoop2 a value last fuel (prev + 1)
    else .ok none

/-- Integer square root by search: the largest `r ≤ n` with `r * r ≤ n` (counting down from the first argument). (algorithms.py:1736: `int(sqrt(n))`) -/
def isqrtFrom (n : Nat) : Nat → Nat
  | 0 => 0
  | r + 1 => if (r + 1) * (r + 1) ≤ n then r + 1 else isqrtFrom n r

/-- algorithms.py:1730-1746 `jump_search` (Python backend), `end_` inclusive, `start ≤ end_`.
`int(sqrt(n))` is modelled as the exact integer square root. -/
def jumpSearch [DecidableEq α] (comp : α → α → Bool) (fuel : Nat) (a : List α) (value : α) (start end_ : Nat) :
    PyM (Option Nat) := do
  let step := isqrtFrom (end_ + 1 - start) (end_ + 1 - start)
  match ← jumpLoop1 comp a value step end_ fuel start step with
  | none => .ok none
  | some (prev, cur) => jumpLoop2 a value (min cur end_) fuel prev

/-- The `while start <= inclusive_end` loop shared by `lower_bound` and `upper_bound`: `go x` says "move right".
`stop = inclusive_end + 1`. (algorithms.py:985-996, 1058-1069) -/
def boundLoop (go : α → Bool) (a : List α) : Nat → Nat → Nat → Nat → PyM Nat
  | 0, _, _, _ => .error .outOfFuel
  | fuel + 1, start, stop, index =>
    if start < stop then do
      let mid := (start + (stop - 1)) / 2
      let x ← rd a mid
      if go x then boundLoop go a fuel (mid + 1) stop index
      else boundLoop go a fuel start mid mid
    else .ok index

/-- algorithms.py:1055-1070 `lower_bound`; here `end_` is exclusive, as in the code. -/
def lowerBound (comp : α → α → Bool) (fuel : Nat) (a : List α) (value : α) (start end_ : Nat) : PyM Nat := do
  let x ← rd a start
  let index := if !(comp x value) then start else end_
  boundLoop (fun y => comp y value) a fuel start end_ index

/-- algorithms.py:982-997 `upper_bound`; `end_` is exclusive, as in the code. -/
def upperBound (comp : α → α → Bool) (fuel : Nat) (a : List α) (value : α) (start end_ : Nat) : PyM Nat := do
  let x ← rd a start
  let index := if comp value x then start else end_
  boundLoop (fun y => !(comp value y)) a fuel start end_ index

/-- algorithms.py:915-925 `is_ordered` (Python backend): `for i in range(lower + 1, upper + 1)`; the first argument is the
number of remaining iterations. Cells may be `None`. -/
def isOrderedLoop (comp : α → α → Bool) (a : List (Option α)) : Nat → Nat → PyM Bool
  | 0, _ => .ok true
  | n + 1, i => do
    let x ← rd a i
    match x with
    | none => isOrderedLoop comp a n (i + 1)
    | some u =>
      let y ← rd a (i - 1)
      match y with
      | none => isOrderedLoop comp a n (i + 1)
      | some v => if comp u v then .ok false else isOrderedLoop comp a n (i + 1)

/-- algorithms.py:908-925 `is_ordered`. -/
def isOrdered (comp : α → α → Bool) (a : List (Option α)) (start stop : Nat) : PyM Bool :=
  isOrderedLoop comp a (stop - (start + 1)) (start + 1)

end Model
