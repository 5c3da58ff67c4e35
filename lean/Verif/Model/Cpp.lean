import Verif.Py

/-!
# The fragment of C++ and of CPython's C interface used by `backend=Backend.CPP`

Objects are values; a `PyObject*` that may be `NULL` is an `Option`. The interpreter's pending exception is one flag: which exception
it is does not matter, because the modelled functions return a result although an exception is pending, and CPython then raises
`SystemError` ("returned a result with an exception set"). Reference counts are not modelled.
-/
namespace Model.Cpp
open Py
variable {α β : Type _}

/-- Number of values of `size_t` on a 64-bit platform (linear_data_structures/_backend/cpp/algorithms/quick_sort.hpp:58 `size_t low, high, p`). -/
def W : Nat := 2 ^ 64

/-- A C++ `OneDimensionalArray` and the interpreter's error indicator
(linear_data_structures/_backend/cpp/arrays/OneDimensionalArray.hpp:240-262: `_data`, `_size`, `PyErr_Occurred()`). -/
structure St (α : Type _) where
  cells : List (Option α)
  err : Bool
  deriving DecidableEq

/-- Code that runs with such an array; it never jumps out, exceptions are only noted in `err`
(linear_data_structures/_backend/cpp/algorithms/quick_sort.hpp:30-78). -/
abbrev CM (α : Type _) (β : Type _) := St α → β × St α

instance : Monad (CM α) where
  pure x s := (x, s)
  bind m f s := f (m s).1 (m s).2

/-- `PyObject_GetItem(array, i)`: linear_data_structures/_backend/cpp/arrays/OneDimensionalArray.hpp:240-262. `NULL` if an exception is pending or if
the index is out of range, which sets one. -/
def getItem (i : Nat) : CM α (Option (Option α)) := fun s =>
  if s.err then (none, s)
  else match s.cells[i]? with
    | some x => (some x, s)
    | none => (none, { s with err := true })

/-- `PyObject_SetItem(array, i, v)`: linear_data_structures/_backend/cpp/arrays/OneDimensionalArray.hpp:264-301. Nothing is stored if `v` is `NULL`, an
exception is pending or the index is out of range. The type check is not modelled. -/
def setItem (i : Nat) (v : Option (Option α)) : CM α Unit := fun s =>
  match v with
  | none => ((), { s with err := true })
  | some x =>
    if s.err then ((), s)
    else if i < s.cells.length then ((), { s with cells := s.cells.set i x })
    else ((), { s with err := true })

/-- utils/_backend/cpp/utils.hpp:107-139 `_comp(u, v, tcomp) == 1`: comparing with `NULL` sets an exception. The comparator (the default is `<=`)
is a total function that answers `True` or `False`. -/
def comp (tcomp : α → α → Bool) (u v : Option (Option α)) : CM α Bool := fun s =>
  match u, v with
  | some none, _ => (false, s)
  | _, some none => (true, s)
  | some (some x), some (some y) => (tcomp x y, s)
  | _, _ => (false, { s with err := true })

/-- `n` iterations of `body` with the loop variable counting up from `i`
(the `for` loops of linear_data_structures/_backend/cpp/algorithms/quadratic_time_sort.hpp:12-28). -/
def cloop (body : Nat → CM α Unit) : Nat → Nat → CM α Unit
  | 0, _ => pure ()
  | n + 1, i => do
    body i
    cloop body n (i + 1)

/-- `for (size_t i = lo; i < hi; i++) body` (linear_data_structures/_backend/cpp/algorithms/quadratic_time_sort.hpp:14-15); `lo` and `hi` are values of `size_t`, so `i` does not wrap. -/
def cfor (lo hi : Nat) (body : Nat → CM α Unit) : CM α Unit := cloop body (hi - lo) lo

/-- A value of `size_t`: arithmetic is modulo 2⁶⁴ (linear_data_structures/_backend/cpp/algorithms/quick_sort.hpp:68 `p - 1`, quadratic_time_sort.hpp:618 `upper + 1`). -/
def sz (i : Int) : Nat := (i % 2 ^ 64).toNat

/-- What Python sees when the function returns the array: `SystemError` if an exception is pending
(the `return args0` of linear_data_structures/_backend/cpp/algorithms/quadratic_time_sort.hpp:67, quick_sort.hpp:116). -/
def finish (s : St α) : PyM (List (Option α)) := if s.err then .error .systemError else .ok s.cells

/-- `PyObject_Length(array) - 1`, the default of `end` (linear_data_structures/_backend/cpp/algorithms/quadratic_time_sort.hpp:55). -/
def lastIndex (a : List (Option α)) : Nat := sz ((a.length : Int) - 1)

end Model.Cpp
