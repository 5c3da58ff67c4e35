import Verif.Model.Array
import Verif.Model.CppGraph

/-!
# The dynamic array and the array stack of the C++ back end

`DynamicOneDimensionalArray(..., backend=Backend.CPP)` and `Stack(..., backend=Backend.CPP)`. The state is that of the Python class: the cells (`none`
is `None`), `_num` and `cnt = _last_pos_filled + 1`; both recorded sizes are the length of the buffer. Objects are not converted, so any objects can be
stored, `None` included. Reading or writing outside the buffer is undefined. `low num size` stands for `((float) _num)/((float) _size) < _load_factor`.
Reference counts are not modelled, and `long` does not overflow.
-/
namespace Model.Cpp
open Py Model
variable {α : Type}

/-- linear_data_structures/_backend/cpp/arrays/DynamicOneDimensionalArray.hpp:26-60 `__new__` with a list of objects. -/
def dcOfList (l : List (Option α)) : Doda α :=
  let num := match l with
    | [] => 0
    | none :: _ => 0
    | some _ :: _ => l.length
  ⟨l, num, num⟩

/-- The `while` loop of linear_data_structures/_backend/cpp/arrays/DynamicOneDimensionalArray.hpp:100-104, with `j + 1`: the last cell that is not `None`.
If there is none, `_data[-1]` is read. -/
def dcLast (data : List (Option α)) : Nat → PyM Nat
  | 0 => .error .undefined
  | j + 1 => do
    match ← vget data j with
    | none => dcLast data j
    | some _ => .ok (j + 1)

/-- linear_data_structures/_backend/cpp/arrays/DynamicOneDimensionalArray.hpp:115-121: the copying loop. -/
def dcCompact : List (Option α) → Nat → List (Option α) → PyM (List (Option α) × Nat)
  | [], j, new => .ok (new, j)
  | none :: src, j, new => dcCompact src j new
  | some x :: src, j, new => do
    let new ← vset new j (some x)
    dcCompact src (j + 1) new

/-- linear_data_structures/_backend/cpp/arrays/DynamicOneDimensionalArray.hpp:85-131 `_modify`. Without cells the quotient is NaN, which is not smaller
than anything; `for i ≤ _last_pos_filled` reads outside the buffer if `_last_pos_filled` is too large. -/
def dcModify (low : Nat → Nat → Bool) (force : Bool) (d : Doda α) : PyM (Doda α) := do
  let cnt ← if force then dcLast d.data d.data.length else .ok d.cnt
  if d.data.length ≠ 0 ∧ low d.num d.data.length then
    if cnt ≤ d.data.length then do
      let (new, j) ← dcCompact (d.data.take cnt) 0 (List.replicate (2 * d.num + 1) none)
      .ok ⟨new, d.num, j⟩
    else .error .undefined
  else .ok { d with cnt := cnt }

/-- linear_data_structures/_backend/cpp/arrays/DynamicOneDimensionalArray.hpp:133-162 `append`; the loops of 143-149 copy the first `cnt` cells into a buffer filled with `None`. -/
def dcAppend (low : Nat → Nat → Bool) (d : Doda α) (el : Option α) : PyM (Doda α) := do
  let size := d.data.length
  let data ← if d.cnt = size then vset (d.data.take d.cnt ++ List.replicate (2 * size + 1 - d.cnt) none) d.cnt el
    else vset d.data d.cnt el
  dcModify low false ⟨data, d.num + 1, d.cnt + 1⟩

/-- linear_data_structures/_backend/cpp/arrays/DynamicOneDimensionalArray.hpp:164-187 `delete`. -/
def dcDelete (low : Nat → Nat → Bool) (d : Doda α) (idx : Int) : PyM (Doda α) :=
  if idx ≤ (d.cnt : Int) - 1 ∧ 0 ≤ idx then do
    match ← vget d.data idx.toNat with
    | none => .ok d
    | some _ => do
      let data ← vset d.data idx.toNat none
      dcModify low false ⟨data, d.num - 1, if (d.cnt : Int) - 1 = idx then d.cnt - 1 else d.cnt⟩
  else .ok d

/-- linear_data_structures/_backend/cpp/arrays/DynamicOneDimensionalArray.hpp:62-65 `__getitem__`, with linear_data_structures/_backend/cpp/arrays/OneDimensionalArray.hpp:243-265. -/
def dcGet (d : Doda α) (i : Int) : PyM (Option α) :=
  if i < 0 ∨ i ≥ d.data.length then .error .indexError else vget d.data i.toNat

/-- linear_data_structures/_backend/cpp/arrays/DynamicOneDimensionalArray.hpp:76-78 `__len__`. -/
def dcLen (d : Doda α) : Nat := d.data.length

/-! ## The stack -/

/-- miscellaneous_data_structures/_backend/cpp/stack/ArrayStack.hpp:20-60 `__new__`. -/
def csNew (items : Option (List (Option α))) : Doda α := dcOfList (items.getD [])

/-- miscellaneous_data_structures/_backend/cpp/stack/ArrayStack.hpp:62-70 `is_empty`. -/
def csIsEmpty (s : Doda α) : Bool := decide (s.cnt = 0)

/-- miscellaneous_data_structures/_backend/cpp/stack/ArrayStack.hpp:72-88 `push`. (The recorded type is not looked at again.) -/
def csPush (low : Nat → Nat → Bool) (s : Doda α) (x : Option α) : PyM (Doda α) := dcAppend low s x

/-- miscellaneous_data_structures/_backend/cpp/stack/ArrayStack.hpp:90-103 `pop`. -/
def csPop (low : Nat → Nat → Bool) (s : Doda α) : PyM (Option α × Doda α) :=
  if csIsEmpty s then .error .indexError
  else do
    let x ← dcGet s ((s.cnt : Int) - 1)
    let s ← dcDelete low s ((s.cnt : Int) - 1)
    .ok (x, s)

/-- miscellaneous_data_structures/_backend/cpp/stack/ArrayStack.hpp:105-109 `peek`. -/
def csPeek (s : Doda α) : PyM (Option α) := dcGet s ((s.cnt : Int) - 1)

/-- miscellaneous_data_structures/_backend/cpp/stack/ArrayStack.hpp:111-113 `__len__`. -/
def csLen (s : Doda α) : Nat := s.num

end Model.Cpp
