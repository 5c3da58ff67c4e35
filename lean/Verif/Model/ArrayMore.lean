import Verif.Model.Array

/-!
# More of `MultiDimensionalArray`: any integers as dimensions, `shape`, `fill`

Models of linear_data_structures/arrays.py:202-239, 269-280.
-/
namespace Model
open Py
variable {α : Type}

/-- The suffix products of the dimensions, with the final `1`, as Python integers (arrays.py:221-232). -/
def mdaSizesInt : List Int → List Int
  | [] => [1]
  | d :: ds => (d :: ds).foldl (· * ·) 1 :: mdaSizesInt ds

/-- `_sizes` and `_data` of a new array, or the exception (arrays.py:202-237 `__new__`, any integers as dimensions). `[None] * n` is
empty for a negative `n`. -/
def mdaNewInt (dims : List Int) : PyM (List Int × List (Option α)) :=
  match dims with
  | [] => .error .valueError
  | [n] => .ok ([n, 1], List.replicate n.toNat none)
  | d :: ds =>
    if (d :: ds).any (fun x => decide (x < 1)) then .error .valueError
    else .ok (mdaSizesInt (d :: ds), List.replicate ((mdaSizesInt ds).headD 1 * d).toNat none)

/-- arrays.py:274-280 `shape`: `_sizes[i - 1] // _sizes[i]` for `i` from 1. -/
def mdaShape : List Int → List Int
  | s :: t :: rest => Int.fdiv s t :: mdaShape (t :: rest)
  | _ => []

/-- arrays.py:269-272 `fill`; `self._dtype(element)` may raise. -/
def Mda.fill (conv : α → PyM α) (a : Mda α) (element : α) : PyM (Mda α) := do
  let element ← conv element
  let data ← forRange 0 a.data.length a.data fun i d => wr d i (some element)
  .ok { a with data := data }

end Model
