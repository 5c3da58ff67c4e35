import Verif.Model.Fenwick

/-!
# The Fenwick tree of the C++ back end

`BinaryIndexedTree(array, backend=Backend.CPP)`: model of `/repo/pydatastructs/trees/_backend/cpp/BinaryIndexedTree.hpp`. The values are Python ints; all arithmetic is on
`long` (64 bits, an overflow is undefined behaviour). The C++ code never looks at the interpreter's pending exception: a call that returns with one pending raises `SystemError`,
whatever it has done to the tree. The state is that of the Python class. Reference counts are not modelled.
-/
namespace Model.Cpp
open Py Model

/-- Is the integer a value of `long`? (trees/_backend/cpp/BinaryIndexedTree.hpp:28 `long index`.) -/
def inLong (x : Int) : Bool := decide (-2 ^ 63 ≤ x ∧ x < 2 ^ 63)

/-- `PyLong_AsLong(x)` and whether it sets an exception (trees/_backend/cpp/BinaryIndexedTree.hpp:28-29). -/
def asLong (x : Int) : Int × Bool := if inLong x then (x, false) else (-1, true)

/-- The result of an arithmetic operation on `long`s (trees/_backend/cpp/BinaryIndexedTree.hpp:37 `curr + value`). -/
def longOp (x : Int) : PyM Int := if inLong x then .ok x else .error .undefined

/-- trees/_backend/cpp/BinaryIndexedTree.hpp:35-39 and 44-48: the loop of `update`. -/
def cbAdd (size : Nat) (value : Int) : Nat → Nat → List Int → PyM (List Int)
  | 0, _, _ => .error .outOfFuel
  | fuel + 1, index, tree =>
    if index < size + 1 then do
      let x ← rd tree index
      let y ← longOp (x + value)
      let tree ← wr tree index y
      cbAdd size value fuel (index + lowBit index) tree
    else .ok tree

/-- trees/_backend/cpp/BinaryIndexedTree.hpp:27-52 `update`: the tree and whether an exception is pending. For an index outside the array `PyList_GetItem(flag, index)` is `NULL`,
which is not `PyZero`, and line 42 reads `_data[index]`. -/
def cbUpdate (s : Fenwick) (index value : Int) : PyM (Fenwick × Bool) := do
  let i := asLong index
  let v := asLong value
  if 0 ≤ i.1 ∧ i.1 < s.array.length then do
    let n := i.1.toNat
    let fl ← rd s.flag n
    let (flag, delta) ← if fl = false then do
        let flag ← wr s.flag n true
        .ok (flag, v.1)
      else do
        let old ← rd s.array n
        let d ← longOp (v.1 - old)
        .ok (s.flag, d)
    let tree ← cbAdd s.array.length delta (s.array.length + 2) (n + 1) s.tree
    let array ← wr s.array n v.1
    .ok (⟨tree, array, flag⟩, i.2 || v.2)
  else .error .undefined

/-- trees/_backend/cpp/BinaryIndexedTree.hpp:54-79 `__new__` (the exceptions of the calls of `update` stay pending); `type(array[0])` raises `IndexError` for an empty
list (trees/binary_trees.py:1799). -/
def cbNew (array : List Int) : PyM Fenwick := do
  let _ ← rd array 0
  let r ← forRange 0 array.length ((⟨List.replicate (array.length + 2) 0, array, List.replicate array.length false⟩ : Fenwick), false) fun i s => do
    let x ← rd array i
    let r ← cbUpdate s.1 i x
    .ok (r.1, s.2 || r.2)
  if r.2 then .error .systemError else .ok r.1

/-- trees/_backend/cpp/BinaryIndexedTree.hpp:85-88: the loop of `get_prefix_sum`. Outside the list `PyLong_AsLong(NULL)` is -1, and an exception is pending. -/
def cbSumLoop (tree : List Int) : Nat → Nat → Int × Bool → PyM (Int × Bool)
  | 0, _, _ => .error .outOfFuel
  | fuel + 1, index, sum =>
    if 0 < index then do
      let x := match tree[index]? with
        | some x => (x, false)
        | none => (-1, true)
      let y ← longOp (sum.1 + x.1)
      cbSumLoop tree fuel (index - lowBit index) (y, sum.2 || x.2)
    else .ok sum

/-- trees/_backend/cpp/BinaryIndexedTree.hpp:81-91 `get_prefix_sum`: the answer and whether an exception is pending. -/
def cbPrefix (s : Fenwick) (index : Int) : PyM (Int × Bool) := do
  let i := asLong index
  let j ← longOp (i.1 + 1)
  cbSumLoop s.tree (j.toNat + 1) j.toNat (0, i.2)

/-- trees/_backend/cpp/BinaryIndexedTree.hpp:93-104 `get_sum`. -/
def cbSum (s : Fenwick) (left right : Int) : PyM (Int × Bool) := do
  let l := asLong left
  let r := asLong right
  if l.1 ≥ 1 then do
    let x ← cbPrefix s r.1
    let y ← cbPrefix s (l.1 - 1)
    let d ← longOp (x.1 - y.1)
    .ok (d, l.2 || r.2 || x.2 || y.2)
  else do
    let x ← cbPrefix s r.1
    .ok (x.1, l.2 || r.2 || x.2)

end Model.Cpp
