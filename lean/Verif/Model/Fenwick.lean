import Mathlib.Data.Int.Bitwise
import Verif.Py

/-!
# `BinaryIndexedTree` (trees/binary_trees.py:1763-1888, Python backend)

The elements are integers; indices are non-negative. `tree`, `flag` are Python lists, `array` a `OneDimensionalArray`.
-/
namespace Model
open Py

/-- binary_trees.py:1794 `__slots__`. -/
structure Fenwick where
  tree : List Int
  array : List Int
  flag : List Bool

/-- `index & (-index)`: the bitwise and of Python's (unbounded two's complement) integers is `Int.land`. (binary_trees.py:1839, 1862) -/
def lowBit (index : Nat) : Nat := (Int.land (index : Int) (-(index : Int))).toNat

/-- binary_trees.py:1832-1834 and 1838-1840: `while index < self.array._size + 1: tree[index] += value; index += index & (-index)`. -/
def bitAdd (size : Nat) (value : Int) : Nat → Nat → List Int → PyM (List Int)
  | 0, _, _ => .error .outOfFuel
  | fuel + 1, index, tree =>
    if index < size + 1 then do
      let x ← rd tree index
      let tree ← wr tree index (x + value)
      bitAdd size value fuel (index + lowBit index) tree
    else .ok tree

/-- binary_trees.py:1815-1841 `update`. -/
def bitUpdate (s : Fenwick) (index : Nat) (value : Int) : PyM Fenwick := do
  let fl ← rd s.flag index
  let (flag, delta) ← if fl = false then do
      let flag ← wr s.flag index true
      .ok (flag, value)
    else do
      let old ← rd s.array index
      .ok (s.flag, value - old)
  let tree ← bitAdd s.array.length delta (s.array.length + 2) (index + 1) s.tree
  let array ← wr s.array index value
  .ok ⟨tree, array, flag⟩

/-- binary_trees.py:1796-1808 `__new__`; the empty list raises `IndexError` (`array[0]`). -/
def bitNew (array : List Int) : PyM Fenwick := do
  let _ ← rd array 0
  forRange 0 array.length ⟨List.replicate (array.length + 2) 0, array, List.replicate array.length false⟩ fun i s => do
    let x ← rd array i
    bitUpdate s i x

/-- binary_trees.py:1860-1863: the loop of `get_prefix_sum`. -/
def bitSumLoop (tree : List Int) : Nat → Nat → Int → PyM Int
  | 0, _, _ => .error .outOfFuel
  | fuel + 1, index, sum =>
    if 0 < index then do
      let x ← rd tree index
      bitSumLoop tree fuel (index - lowBit index) (sum + x)
    else .ok sum

/-- binary_trees.py:1843-1864 `get_prefix_sum`. -/
def bitPrefix (s : Fenwick) (index : Nat) : PyM Int := bitSumLoop s.tree (index + 2) (index + 1) 0

/-- binary_trees.py:1866-1888 `get_sum`. -/
def bitSum (s : Fenwick) (left right : Nat) : PyM Int :=
  if 1 ≤ left then do
    let x ← bitPrefix s right
    let y ← bitPrefix s (left - 1)
    .ok (x - y)
  else bitPrefix s right

end Model
