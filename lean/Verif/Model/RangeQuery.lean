import Verif.Py
import Verif.Model.Matrix
import Verif.Model.Array

/-!
# Range queries: `SparseTable`, `ArraySegmentTree`, `RangeQueryStatic`, `RangeQueryDynamic`

Models of miscellaneous_data_structures/sparse_table.py, segment_tree.py and algorithms.py. The array is a list of values (no `None`
cells). The parameter `func`, called with a tuple of one or two entries of which any can be `None`, is a structure of two functions.
-/
namespace Model
open Py
variable {α : Type}

/-- The callable `func`: `func((x,))` and `func((x, y))`. (segment_tree.py:121-130 and sparse_table.py:57-79) -/
structure QFunc (α : Type) where
  one : Option α → Option α
  two : Option α → Option α → Option α

/-- The common shape of `minimum`, `greatest_common_divisor`, `summation` (utils/misc_util.py:608-636). -/
def qfuncOf (op : α → α → α) : QFunc α where
  one x := x
  two x y := match x, y with
    | x, none => x
    | none, y => y
    | some x, some y => some (op x y)

/-- misc_util.py:608-616 `minimum`. -/
def qMinimum : QFunc Int := qfuncOf min
/-- misc_util.py:618-626 `greatest_common_divisor`. -/
def qGcd : QFunc Int := qfuncOf fun x y => (Int.gcd x y : Int)
/-- misc_util.py:628-636 `summation`. -/
def qSum : QFunc Int := qfuncOf fun x y => x + y

/-- misc_util.py:599-606 `_check_range_query_inputs((start, end), (0, n))`. -/
def checkRange (start stop : Int) (n : Nat) : PyM Unit :=
  if start ≥ stop then .error .valueError
  else if start < 0 ∨ stop > n then .error .indexError
  else .ok ()

/-! ## SparseTable -/

/-- sparse_table.py:71-72. -/
def stFirst (f : QFunc α) (a : List α) (t : List (List (Option α))) : PyM (List (List (Option α))) :=
  forRange 0 a.length t fun i t => do
    let x ← rd a i
    wr2 t i 0 (f.one (some x))

/-- sparse_table.py:75-77: the inner loop. `range(size - (1 << j) + 1)` is empty when `1 << j` exceeds `size`. -/
def stColumn (f : QFunc α) (n j : Nat) (t : List (List (Option α))) : PyM (List (List (Option α))) :=
  forRange 0 (n + 1 - 2 ^ j) t fun i t => do
    let x ← rd2 t i (j - 1)
    let y ← rd2 t (i + 2 ^ (j - 1)) (j - 1)
    wr2 t i j (f.two x y)

/-- sparse_table.py:57-79 `__new__`; `int(math.log2(size))` is modelled by the exact `Nat.log2`. -/
def stNew (f : QFunc α) (a : List α) : PyM (List (List (Option α))) :=
  if a.length = 0 then .error .valueError
  else do
    let logSize := Nat.log2 a.length + 1
    let t ← stFirst f a (List.replicate a.length (List.replicate logSize none))
    forRange 1 (logSize + 1) t (stColumn f a.length)

/-- sparse_table.py:100-104: the `while j >= 0` loop; the first argument is `j + 1`. -/
def stQueryLoop (f : QFunc α) (t : List (List (Option α))) (end_ : Nat) : Nat → Nat → Option α → PyM (Option α)
  | 0, _, answer => .ok answer
  | j + 1, start, answer =>
    if start + 2 ^ j ≤ end_ + 1 then do
      let x ← rd2 t start j
      stQueryLoop f t end_ j (start + 2 ^ j) (f.two answer x)
    else stQueryLoop f t end_ j start answer

/-- sparse_table.py:85-105 `query` (`end` inclusive); `math.log2` of a non-positive number raises `ValueError`. -/
def stQuery (f : QFunc α) (t : List (List (Option α))) (start end_ : Nat) : PyM (Option α) :=
  if end_ + 1 ≤ start then .error .valueError
  else stQueryLoop f t end_ (Nat.log2 (end_ + 1 - start) + 2) start none

/-! ## RangeQueryStatic -/

/-- algorithms.py:135-137 `RangeQueryStaticSparseTable.query`; `n` is the second entry of `bounds`. -/
def rqSparseQuery (f : QFunc α) (t : List (List (Option α))) (n : Nat) (start end_ : Int) : PyM (Option α) := do
  checkRange start (end_ + 1) n
  stQuery f t start.toNat end_.toNat

/-- algorithms.py:154-165 `RangeQueryStaticArray.query`. -/
def rqArrayQuery (f : QFunc α) (a : List α) (start end_ : Int) : PyM (Option α) := do
  checkRange start (end_ + 1) a.length
  let s := start.toNat
  let e := end_.toNat
  if e + 1 - s = 1 then do
    let x ← rd a s
    .ok (f.one (some x))
  else do
    let x ← rd a s
    let y ← rd a (s + 1)
    forRange (s + 2) (e + 1) (f.two (some x) (some y)) fun i acc => do
      let z ← rd a i
      .ok (f.two acc (some z))

/-! ## ArraySegmentTree -/

/-- A `TreeNode` of the segment tree: `key = (start, end)`, `data`, `left`, `right` (utils/misc_util.py:TreeNode). -/
structure SegNode (α : Type) where
  lo : Nat
  hi : Nat
  data : Option α
  left : Option Nat
  right : Option Nat

/-- The nodes (numbered in order of creation; `nodes` is defined below `fresh`), and the underlying array `_array`. The root is node 0
once the tree is built. (segment_tree.py:121-130) -/
structure Seg (α : Type) where
  nodes : Nat → SegNode α
  fresh : Nat
  array : List α

/-- Assignment of a node's attributes. (segment_tree.py:141-172) -/
def Seg.put (s : Seg α) (i : Nat) (n : SegNode α) : Seg α := { s with nodes := fun j => if j = i then n else s.nodes j }

/-- `TreeNode((lo, hi), None)`: gets the number `fresh`. (segment_tree.py:146, 166, 170) -/
def Seg.alloc (s : Seg α) (lo hi : Nat) : Seg α :=
  { s with nodes := fun j => if j = s.fresh then ⟨lo, hi, none, none, none⟩ else s.nodes j, fresh := s.fresh + 1 }

/-- `node.data` of `node.left`, `node.right`: `AttributeError` on `None`. (segment_tree.py:162, 195) -/
def Seg.dataOf (s : Seg α) (p : Option Nat) : PyM (Option α) :=
  match p with
  | some i => .ok (s.nodes i).data
  | none => .error .attributeError

/-- segment_tree.py:151-172: one iteration of the `while not recursion_stack.is_empty` loop of `build`; the stack is a list with the
top first. -/
def segBuildBody (f : QFunc α) (st : Seg α × List Nat) : PyM (Seg α × List Nat) :=
  match st with
  | (_, []) => .error .indexError
  | (s, i :: stack) =>
    let n := s.nodes i
    if n.lo = n.hi then do
      let x ← rd s.array n.lo
      .ok (s.put i { n with data := some x }, stack)
    else
      match n.left, n.right with
      | some l, some r => do
        let x ← s.dataOf (some l)
        let y ← s.dataOf (some r)
        .ok (s.put i { n with data := f.two x y }, stack)
      | left, right =>
        let mid := (n.lo + n.hi) / 2
        let (s, stack1) := match left with
          | none =>
            let l := s.fresh
            let s := s.alloc n.lo mid
            (s.put i { s.nodes i with left := some l }, l :: i :: stack)
          | some _ => (s, i :: stack)
        let (s, stack2) := match right with
          | none =>
            let r := s.fresh
            let s := s.alloc (mid + 1) n.hi
            (s.put i { s.nodes i with right := some r }, r :: stack1)
          | some _ => (s, stack1)
        .ok (s, stack2)

/-- segment_tree.py:141-172 `build` of a new tree on a non-empty array (for the empty array the root has the range `(0, -1)`;
not modelled). -/
def segBuild (f : QFunc α) (fuel : Nat) (a : List α) : PyM (Seg α) := do
  let s : Seg α := ⟨fun _ => ⟨0, a.length - 1, none, none, none⟩, 1, a⟩
  let (s, _) ← whileLoop fuel (fun st : Seg α × List Nat => .ok (!st.2.isEmpty)) (segBuildBody f) (s, [0])
  .ok s

/-- `array[index] = value` on a `OneDimensionalArray` (arrays.py:139-145): negative indices count from the end. -/
def setAt (a : List α) (index : Int) (value : α) : PyM (List α) :=
  match listIndex a.length index with
  | some k => wr a k value
  | none => .error .indexError

/-- segment_tree.py:189-191 and 197-199: after `pop`, the entry below is replaced by itself with `child` set. -/
def segMark : List (Nat × Bool) → List (Nat × Bool)
  | [] => []
  | (p, _) :: stack => (p, true) :: stack

/-- algorithms.py:310-311 `RangeQueryDynamicArray.update`. -/
def rqArrayUpdate (a : List α) (index : Int) (value : α) : PyM (List α) := setAt a index value

/-- segment_tree.py:182-205: one iteration of the loop of `update`; an entry of the stack is a node and whether its `child` is set. -/
def segUpdateBody (f : QFunc α) (index : Int) (value : α) (st : Seg α × List (Nat × Bool)) : PyM (Seg α × List (Nat × Bool)) :=
  match st with
  | (_, []) => .error .indexError
  | (s, (i, child) :: stack) =>
    let n := s.nodes i
    if n.lo = n.hi then do
      let array ← setAt s.array index value
      .ok (Seg.put { s with array := array } i { n with data := some value }, segMark stack)
    else if child then do
      let x ← s.dataOf n.left
      let y ← s.dataOf n.right
      .ok (s.put i { n with data := f.two x y }, segMark stack)
    else
      let mid := (n.lo + n.hi) / 2
      let c := if (n.lo : Int) ≤ index ∧ index ≤ (mid : Int) then n.left else n.right
      match c with
      | some c => .ok (s, (c, false) :: (i, child) :: stack)
      | none => .error .typeError

/-- segment_tree.py:174-205 `update` of a built tree. -/
def segUpdate (f : QFunc α) (fuel : Nat) (s : Seg α) (index : Int) (value : α) : PyM (Seg α) := do
  let (s, _) ← whileLoop fuel (fun st : Seg α × List (Nat × Bool) => .ok (!st.2.isEmpty)) (segUpdateBody f index value) (s, [(0, false)])
  .ok s

/-- segment_tree.py:207-217 `_query`. -/
def segQueryAux (f : QFunc α) (s : Seg α) : Nat → Option Nat → Nat → Nat → Nat → Nat → PyM (Option α)
  | 0, _, _, _, _, _ => .error .outOfFuel
  | fuel + 1, node, start, stop, l, r =>
    if r < start ∨ stop < l then .ok none
    else if l ≤ start ∧ stop ≤ r then s.dataOf node
    else
      match node with
      | none => .error .attributeError
      | some i => do
        let mid := (start + stop) / 2
        let x ← segQueryAux f s fuel (s.nodes i).left start mid l r
        let y ← segQueryAux f s fuel (s.nodes i).right (mid + 1) stop l r
        .ok (f.two x y)

/-- segment_tree.py:219-225 `query` of a built tree (`end` inclusive). -/
def segQuery (f : QFunc α) (fuel : Nat) (s : Seg α) (start end_ : Nat) : PyM (Option α) :=
  segQueryAux f s fuel (some 0) 0 (s.array.length - 1) start end_

/-- algorithms.py:330-332 `RangeQueryDynamicSegmentTree.query`; `n` is the second entry of `bounds`. -/
def rqSegQuery (f : QFunc α) (fuel : Nat) (s : Seg α) (n : Nat) (start end_ : Int) : PyM (Option α) := do
  checkRange start (end_ + 1) n
  segQuery f fuel s start.toNat end_.toNat

end Model
