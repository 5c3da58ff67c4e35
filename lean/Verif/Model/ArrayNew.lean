import Verif.Model.Array

/-! # `OneDimensionalArray.__new__` and its argument

The constructor converts the elements of the sequence it is given *in that sequence*. -/
namespace Model
open Py
variable {α : Type}

/-- `for i in range(len(a)): if _check_type(a[i], dtype) is False: a[i] = dtype(a[i])` on a list (arrays.py:92-94, 98-100, 118-120): the list afterwards and the
exception of the first conversion that raises. `isT` is `_check_type(·, dtype)`. -/
def convInPlace (isT : α → Bool) (conv : α → PyM α) : List α → List α × Option PyErr
  | [] => ([], none)
  | x :: xs =>
    if isT x then
      let r := convInPlace isT conv xs
      (x :: r.1, r.2)
    else match conv x with
      | .error e => (x :: xs, some e)
      | .ok y =>
        let r := convInPlace isT conv xs
        (y :: r.1, r.2)

/-- `OneDimensionalArray(dtype, l)` for a list `l` (arrays.py:116-121): the array and the caller's list after the call. -/
def odaFromList (isT : α → Bool) (conv : α → PyM α) (l : List α) : PyM (Oda α) × List α :=
  match convInPlace isT conv l with
  | (l', some e) => (.error e, l')
  | (l', none) => (.ok ⟨l'.length, l'.map some⟩, l')

/-- `OneDimensionalArray(dtype, l)` for a tuple `l` (arrays.py:116-121): a tuple has no item assignment, so an element of another type raises `TypeError`,
after `dtype(l[i])` was evaluated. -/
def odaFromTuple (isT : α → Bool) (conv : α → PyM α) (l : List α) : PyM (Oda α) :=
  match l.find? (fun x => !isT x) with
  | none => .ok ⟨l.length, l.map some⟩
  | some x => do
    let _ ← conv x
    .error .typeError

/-- `OneDimensionalArray(dtype, l, n)` or `OneDimensionalArray(dtype, n, l)` for a list `l` (arrays.py:89-110): the array and the caller's list after the call. -/
def odaFromListSize (isT : α → Bool) (conv : α → PyM α) (l : List α) (n : Int) : PyM (Oda α) × List α :=
  match convInPlace isT conv l with
  | (l', some e) => (.error e, l')
  | (l', none) => if n ≠ l'.length then (.error .valueError, l') else (.ok ⟨l'.length, l'.map some⟩, l')

end Model
