import Verif.Model.CppDoda

/-!
# The one-dimensional array of the C++ back end, with its reference counts

`OneDimensionalArray(..., backend=Backend.CPP)`. Cells hold objects, `none` is `None`. `inst x` is `isinstance(x, dtype)`. `owns x` is the number of
`Py_INCREF` minus the number of `Py_DECREF` the code of the array has done on the object `x`, where a reference obtained from `PyObject_GetItem` counts as
an increment and a reference returned to the caller as a decrement. References to `None`, to the indices, to the array itself and to its type
are left out (`None` is never freed since Python 3.12).
-/
namespace Model.Cpp
open Py Model
variable {α : Type} [DecidableEq α]

/-- The state of an array: linear_data_structures/_backend/cpp/arrays/OneDimensionalArray.hpp:11-16 `_data` (`_size` is its length). -/
structure RArr (α : Type) where
  data : List (Option α)
  owns : α → Int

/-- `Py_INCREF` (linear_data_structures/_backend/cpp/arrays/OneDimensionalArray.hpp:263, 297, 319). -/
def incref (owns : α → Int) (x : Option α) : α → Int := fun y => if x = some y then owns y + 1 else owns y

/-- `Py_XDECREF` (linear_data_structures/_backend/cpp/arrays/OneDimensionalArray.hpp:299, 321). -/
def decref (owns : α → Int) (x : Option α) : α → Int := fun y => if x = some y then owns y - 1 else owns y

/-- linear_data_structures/_backend/cpp/arrays/OneDimensionalArray.hpp:23-30 `cleanup_partial_data`. -/
def cleanupPartial (owns : α → Int) (cells : List (Option α)) : α → Int := cells.foldl decref owns

/-- The loops of linear_data_structures/_backend/cpp/arrays/OneDimensionalArray.hpp:115-145, 202-230 that take over the elements of a list or tuple; the references held and the cells, or the
exception. `None` is checked like every other object. -/
def caLoad (inst : Option α → Bool) : List (Option α) → List (Option α) → (α → Int) → (α → Int) × PyM (List (Option α))
  | [], cells, owns => (owns, .ok cells)
  | x :: xs, cells, owns =>
    if inst x then caLoad inst xs (cells ++ [x]) (incref owns x)
    else (cleanupPartial (decref (incref owns x) x) cells, .error .typeError)

/-- linear_data_structures/_backend/cpp/arrays/OneDimensionalArray.hpp:32-241 `__new__(dtype, elements)`. -/
def caOfList (inst : Option α → Bool) (l : List (Option α)) : (α → Int) × PyM (List (Option α)) := caLoad inst l [] fun _ => 0

/-- linear_data_structures/_backend/cpp/arrays/OneDimensionalArray.hpp:64-148 `__new__(dtype, size, elements)` or `__new__(dtype, elements, size)`. -/
def caOfListSize (inst : Option α → Bool) (l : List (Option α)) (n : Nat) : (α → Int) × PyM (List (Option α)) :=
  if n ≠ l.length then (fun _ => 0, .error .valueError) else caOfList inst l

/-- linear_data_structures/_backend/cpp/arrays/OneDimensionalArray.hpp:149-187 `__new__(dtype, n)` or `__new__(dtype, n, init=x)`: one reference to `init` is acquired with
`PyObject_GetItem`, and `init` is stored `n` times. -/
def caOfSize (inst : Option α → Bool) (n : Nat) (init : Option (Option α)) : (α → Int) × PyM (List (Option α)) :=
  match init with
  | none => (fun _ => 0, .ok (List.replicate n none))
  | some x =>
    if x ≠ none ∧ inst x = false then (incref (fun _ => 0) x, .error .typeError)
    else (incref (fun _ => 0) x, .ok (List.replicate n x))

/-- Whether `PyLong_AsLongLong` succeeds (linear_data_structures/_backend/cpp/arrays/OneDimensionalArray.hpp:250, 279). -/
def fitsLongLong (i : Int) : Bool := decide (-2 ^ 63 ≤ i ∧ i < 2 ^ 63)

/-- linear_data_structures/_backend/cpp/arrays/OneDimensionalArray.hpp:243-265 `__getitem__`. The reference that is added goes to the caller. -/
def caGet (a : RArr α) (i : Int) : PyM (Option α) :=
  if fitsLongLong i = false then .error .overflowError
  else if i < 0 ∨ i ≥ a.data.length then .error .indexError
  else vget a.data i.toNat

/-- linear_data_structures/_backend/cpp/arrays/OneDimensionalArray.hpp:267-302 `__setitem__` with utils/_backend/cpp/utils.hpp:70-80: when the type does not fit the `TypeError` is printed and
cleared, `-1` is returned, and the interpreter raises `SystemError`. -/
def caSet (inst : Option α → Bool) (a : RArr α) (i : Int) (v : Option α) : PyM (RArr α) :=
  if fitsLongLong i = false then .error .overflowError
  else if i < 0 ∨ i ≥ a.data.length then .error .indexError
  else if v ≠ none ∧ inst v = false then .error .systemError
  else do
    let old ← vget a.data i.toNat
    let owns := incref a.owns v
    let data ← vset a.data i.toNat v
    .ok ⟨data, decref owns old⟩

/-- The loop of linear_data_structures/_backend/cpp/arrays/OneDimensionalArray.hpp:317-322: `k` cells from `i` on. -/
def caFillLoop (v : Option α) : Nat → Nat → RArr α → PyM (RArr α)
  | 0, _, a => .ok a
  | k + 1, i, a => do
    let old ← vget a.data i
    let owns := incref a.owns v
    let data ← vset a.data i v
    caFillLoop v k (i + 1) ⟨data, decref owns old⟩

/-- linear_data_structures/_backend/cpp/arrays/OneDimensionalArray.hpp:304-325 `fill`. -/
def caFill (inst : Option α → Bool) (a : RArr α) (v : Option α) : PyM (RArr α) :=
  if v ≠ none ∧ inst v = false then .error .typeError else caFillLoop v a.data.length 0 a

/-- linear_data_structures/_backend/cpp/arrays/OneDimensionalArray.hpp:327-329 `__len__`. -/
def caLen (a : RArr α) : Nat := a.data.length

/-- linear_data_structures/_backend/cpp/arrays/OneDimensionalArray.hpp:18-21 `dealloc`: the buffer is freed; the references held afterwards. -/
def caDealloc (a : RArr α) : α → Int := a.owns

/-! ## The dynamic array and the stack -/

/-- linear_data_structures/_backend/cpp/arrays/DynamicOneDimensionalArray.hpp:14-21: a dynamic array and the references it holds. -/
structure RDyn (α : Type) where
  d : Doda α
  owns : α → Int

/-- linear_data_structures/_backend/cpp/arrays/DynamicOneDimensionalArray.hpp:26-60 `__new__`: the array of `OneDimensionalArray`, and what it holds. -/
def rdOf (r : (α → Int) × PyM (List (Option α))) : PyM (RDyn α) := do
  let cells ← r.2
  .ok ⟨dcOfList cells, r.1⟩

/-- linear_data_structures/_backend/cpp/arrays/DynamicOneDimensionalArray.hpp:85-131 `_modify`: pointers are copied, no reference is taken or given back. -/
def rdModify (low : Nat → Nat → Bool) (force : Bool) (s : RDyn α) : PyM (RDyn α) := do
  let d ← dcModify low force s.d
  .ok ⟨d, s.owns⟩

/-- linear_data_structures/_backend/cpp/arrays/DynamicOneDimensionalArray.hpp:133-162 `append`: `el` comes with a reference from `PyObject_GetItem`. What the cell held before is not given back. -/
def rdAppend (low : Nat → Nat → Bool) (s : RDyn α) (el : Option α) : PyM (RDyn α) := do
  let d ← dcAppend low s.d el
  .ok ⟨d, incref s.owns el⟩

/-- linear_data_structures/_backend/cpp/arrays/DynamicOneDimensionalArray.hpp:164-187 `delete`: the cell is overwritten with `None`, the reference is not given back. -/
def rdDelete (low : Nat → Nat → Bool) (s : RDyn α) (i : Int) : PyM (RDyn α) := do
  let d ← dcDelete low s.d i
  .ok ⟨d, s.owns⟩

/-- linear_data_structures/_backend/cpp/arrays/DynamicOneDimensionalArray.hpp:67-70 `__setitem__`. -/
def rdSet (inst : Option α → Bool) (s : RDyn α) (i : Int) (v : Option α) : PyM (RDyn α) := do
  let a ← caSet inst ⟨s.d.data, s.owns⟩ i v
  .ok ⟨{ s.d with data := a.data }, a.owns⟩

/-- linear_data_structures/_backend/cpp/arrays/DynamicOneDimensionalArray.hpp:72-74 `fill`. -/
def rdFill (inst : Option α → Bool) (s : RDyn α) (v : Option α) : PyM (RDyn α) := do
  let a ← caFill inst ⟨s.d.data, s.owns⟩ v
  .ok ⟨{ s.d with data := a.data }, a.owns⟩

/-- miscellaneous_data_structures/_backend/cpp/stack/ArrayStack.hpp:72-88 `push`. When the stack is empty the object is fetched once more to look at its type, and that reference is not
given back. -/
def rsPush (low : Nat → Nat → Bool) (s : RDyn α) (x : Option α) : PyM (RDyn α) :=
  rdAppend low (if csIsEmpty s.d then ⟨s.d, incref s.owns x⟩ else s) x

/-- miscellaneous_data_structures/_backend/cpp/stack/ArrayStack.hpp:90-103 `pop`: the reference from `__getitem__` goes to the caller. -/
def rsPop (low : Nat → Nat → Bool) (s : RDyn α) : PyM (Option α × RDyn α) := do
  let (x, d) ← csPop low s.d
  .ok (x, ⟨d, s.owns⟩)

end Model.Cpp
