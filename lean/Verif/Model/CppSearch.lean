import Verif.Model.Cpp
import Verif.Model.Search

/-!
# The searches of the C++ back end

`is_ordered`, `linear_search`, `binary_search`, `jump_search` with `backend=Backend.CPP`. `start` and `end` are natural numbers or
absent. The arguments of the loops that count iterations are the numbers of remaining iterations. Equality of cells is the
equality of the stored objects (`PyObject_RichCompareBool(u, value, Py_EQ)`, assumed not to raise).
-/
namespace Model.Cpp
open Py
variable {α : Type}

/-- `u == Py_None` (linear_data_structures/_backend/cpp/algorithms/misc_algorithms.hpp:18). -/
def isNone (u : Option (Option α)) : Bool :=
  match u with
  | some none => true
  | _ => false

/-- The `for` loop of `is_ordered_impl`, linear_data_structures/_backend/cpp/algorithms/misc_algorithms.hpp:13-22. -/
def orderedLoop (tcomp : α → α → Bool) : Nat → Nat → CM α Bool
  | 0, _ => pure true
  | n + 1, i => do
    let x ← getItem i
    let y ← getItem (sz ((i : Int) - 1))
    if isNone x || isNone y then orderedLoop tcomp n (i + 1)
    else if ← comp tcomp x y then pure false
    else orderedLoop tcomp n (i + 1)

/-- What Python sees when the function returns a result (`return res`, linear_data_structures/_backend/cpp/algorithms/misc_algorithms.hpp:61,115). -/
def result {β : Type} (r : β × St α) : PyM β := if r.2.err then .error .systemError else .ok r.1

/-- linear_data_structures/_backend/cpp/algorithms/misc_algorithms.hpp:11-62 `is_ordered`. -/
def isOrdered (tcomp : α → α → Bool) (a : List (Option α)) (start stop : Option Nat) : PyM Bool :=
  let lower := start.getD 0
  let upper := stop.getD (lastIndex a)
  result (orderedLoop tcomp (sz (upper + 1) - sz (lower + 1)) (sz (lower + 1)) ⟨a, false⟩)

/-- `PyObject_RichCompareBool(u, value, Py_EQ) == 1`; with `NULL` it fails and sets an exception
(linear_data_structures/_backend/cpp/algorithms/misc_algorithms.hpp:95-101). -/
def equal [DecidableEq α] (u : Option (Option α)) (value : Option α) : CM α Bool := fun s =>
  match u with
  | some x => (decide (x = value), s)
  | none => (false, { s with err := true })

/-- The loop of `linear_search`, linear_data_structures/_backend/cpp/algorithms/misc_algorithms.hpp:93-112. -/
def linearLoop [DecidableEq α] (value : Option α) : Nat → Nat → CM α (Option Nat)
  | 0, _ => pure none
  | n + 1, i => do
    let u ← getItem i
    if ← equal u value then pure (some i) else linearLoop value n (i + 1)

/-- linear_data_structures/_backend/cpp/algorithms/misc_algorithms.hpp:64-116 `linear_search`. -/
def linearSearch [DecidableEq α] (a : List (Option α)) (value : Option α) (start stop : Option Nat) : PyM (Option Nat) :=
  let lower := start.getD 0
  let upper := stop.getD (lastIndex a)
  result (linearLoop value (sz (upper + 1) - lower) lower ⟨a, false⟩)

/-- Conversion of a `size_t` to `int`: the value modulo 2³², between -2³¹ and 2³¹ - 1
(linear_data_structures/_backend/cpp/algorithms/misc_algorithms.hpp:152 `int left = lower, right = upper`). -/
def toInt32 (n : Nat) : Int := ((n : Int) + 2 ^ 31) % 2 ^ 32 - 2 ^ 31

/-- Conversion of an `int` to `size_t` (linear_data_structures/_backend/cpp/algorithms/misc_algorithms.hpp:156 `PyLong_FromSize_t(middle)`). -/
def ofInt32 (n : Int) : Nat := sz n

/-- The loop of `binary_search`, linear_data_structures/_backend/cpp/algorithms/misc_algorithms.hpp:153-178. An `int` addition that overflows is
undefined behaviour (it does not happen: see `C98_binary_search`). `/` and `%` truncate towards zero. -/
def binaryLoop [DecidableEq α] (tcomp : α → α → Bool) (value : Option α) : Nat → Int → Int → St α → PyM (Option Nat × St α)
  | 0, _, _, _ => .error .outOfFuel
  | fuel + 1, left, right, s =>
    if left ≤ right then
      let middle := left.tdiv 2 + right.tdiv 2 + (left.tmod 2 * right).tmod 2
      if middle < -2 ^ 31 ∨ 2 ^ 31 ≤ middle then .error .undefined
      else
        let (u, s) := getItem (ofInt32 middle) s
        let (q, s) := equal u value s
        if q then .ok (some (ofInt32 middle), s)
        else
          let (c, s) := comp tcomp u (some value) s
          if c then
            if 2 ^ 31 ≤ middle + 1 then .error .undefined else binaryLoop tcomp value fuel (middle + 1) right s
          else
            if middle - 1 < -2 ^ 31 then .error .undefined else binaryLoop tcomp value fuel left (middle - 1) s
    else .ok (none, s)

/-- linear_data_structures/_backend/cpp/algorithms/misc_algorithms.hpp:118-182 `binary_search`. -/
def binarySearch [DecidableEq α] (tcomp : α → α → Bool) (fuel : Nat) (a : List (Option α)) (value : Option α) (start stop : Option Nat) :
    PyM (Option Nat) := do
  let r ← binaryLoop tcomp value fuel (toInt32 (start.getD 0)) (toInt32 (stop.getD (lastIndex a))) ⟨a, false⟩
  result r

/-- The first loop of `jump_search`, linear_data_structures/_backend/cpp/algorithms/misc_algorithms.hpp:223-230; the result is `prev`. `int`s are compared
with the `size_t` `upper` after conversion. -/
def jumpLoop [DecidableEq α] (tcomp : α → α → Bool) (value : Option α) (step : Int) (upper : Nat) :
    Nat → Int → Int → Option (Option α) → St α → PyM (Int × St α)
  | 0, _, _, _, _ => .error .outOfFuel
  | fuel + 1, prev, pos, u, s =>
    if ofInt32 pos ≤ upper then
      let (c, s) := comp tcomp u (some value) s
      if c then
        if 2 ^ 31 ≤ pos + step then .error .undefined
        else if upper < ofInt32 (pos + step) then .ok (pos, s)
        else
          let (u, s) := getItem (ofInt32 (pos + step)) s
          jumpLoop tcomp value step upper fuel pos (pos + step) u s
      else .ok (prev, s)
    else .ok (prev, s)

/-- The second loop of `jump_search`, linear_data_structures/_backend/cpp/algorithms/misc_algorithms.hpp:232-251. -/
def jumpScan [DecidableEq α] (value : Option α) (upper : Nat) : Nat → Int → St α → PyM (Option Nat × St α)
  | 0, _, _ => .error .outOfFuel
  | fuel + 1, prev, s =>
    if ofInt32 prev ≤ upper then
      let (u, s) := getItem (ofInt32 prev) s
      let (q, s) := equal u value s
      if q then .ok (some (ofInt32 prev), s)
      else if 2 ^ 31 ≤ prev + 1 then .error .undefined
      else jumpScan value upper fuel (prev + 1) s
    else .ok (none, s)

/-- linear_data_structures/_backend/cpp/algorithms/misc_algorithms.hpp:184-255 `jump_search`. `int(sqrt(double(n)))` is the exact integer square root
(`n` is below 2⁵³ in every theorem). -/
def jumpSearch [DecidableEq α] (tcomp : α → α → Bool) (fuel : Nat) (a : List (Option α)) (value : Option α) (start stop : Option Nat) :
    PyM (Option Nat) := do
  let lower := start.getD 0
  let upper := stop.getD (lastIndex a)
  let n := sz ((upper : Int) - lower + 1)
  let step : Int := isqrtFrom n n
  let prev := toInt32 lower
  let (u, s) := getItem (ofInt32 prev) ⟨a, false⟩
  let (prev, s) ← jumpLoop tcomp value step upper fuel prev prev u s
  let r ← jumpScan value upper fuel prev s
  result r

end Model.Cpp
