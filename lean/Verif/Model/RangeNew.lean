import Verif.Model.RangeQuery

/-!
# `RangeQueryStatic(...)`, `RangeQueryDynamic(...)`: the constructors that choose the data structure by name

Model of miscellaneous_data_structures/algorithms.py:82-96, 122-130, 144-148, 241-256, 296-311, 317-335. An object is one of the
two implementations; the segment tree holds the array of its caller (`segment_tree.py:123-130`: `obj._array = array`), so do the array
implementations.
-/
namespace Model
open Py
variable {α : Type}

/-- The object returned by `RangeQueryStatic.__new__`. The sparse table keeps `bounds` (algorithms.py:122-130), the other one the array
(algorithms.py:144-148). -/
inductive RqStatic (α : Type) where
  | sparse (table : List (List (Option α))) (n : Nat)
  | array (a : List α)

/-- algorithms.py:82-96 `RangeQueryStatic.__new__`. -/
def RqStatic.new (f : QFunc α) (name : String) (a : List α) : PyM (RqStatic α) :=
  if a.length = 0 then .error .valueError
  else if name = "array" then .ok (.array a)
  else if name = "sparse_table" then do
    let t ← stNew f a
    .ok (.sparse t a.length)
  else .error .notImplemented

/-- algorithms.py:135-137, 154-165 `query`. -/
def RqStatic.query (f : QFunc α) : RqStatic α → Int → Int → PyM (Option α)
  | .sparse t n, start, end_ => rqSparseQuery f t n start end_
  | .array a, start, end_ => rqArrayQuery f a start end_

/-- The object returned by `RangeQueryDynamic.__new__`; `bounds` of the segment tree is taken at construction (algorithms.py:323). -/
inductive RqDynamic (α : Type) where
  | seg (s : Seg α) (n : Nat)
  | array (a : List α)

/-- algorithms.py:241-256 `RangeQueryDynamic.__new__`, 317-324 and 296-301 the constructors it calls. -/
def RqDynamic.new (f : QFunc α) (fuel : Nat) (name : String) (a : List α) : PyM (RqDynamic α) :=
  if a.length = 0 then .error .valueError
  else if name = "array" then .ok (.array a)
  else if name = "segment_tree" then do
    let s ← segBuild f fuel a
    .ok (.seg s a.length)
  else .error .notImplemented

/-- algorithms.py:307-308, 330-332 `query`. -/
def RqDynamic.query (f : QFunc α) (fuel : Nat) : RqDynamic α → Int → Int → PyM (Option α)
  | .seg s n, start, end_ => rqSegQuery f fuel s n start end_
  | .array a, start, end_ => rqArrayQuery f a start end_

/-- algorithms.py:310-311, 334-335 `update`. -/
def RqDynamic.update (f : QFunc α) (fuel : Nat) : RqDynamic α → Int → α → PyM (RqDynamic α)
  | .seg s n, index, value => do
    let s ← segUpdate f fuel s index value
    .ok (.seg s n)
  | .array a, index, value => do
    let a ← rqArrayUpdate a index value
    .ok (.array a)

/-- The array of the caller: both implementations keep a reference to it and write into it (segment_tree.py:186,
algorithms.py:311). -/
def RqDynamic.caller : RqDynamic α → List α
  | .seg s _ => s.array
  | .array a => a

/-! ## ArraySegmentTree: before and after `build` -/

/-- An `ArraySegmentTree`: `_root` is `None` until `build` is called. (segment_tree.py:121-130) -/
inductive SegTree (α : Type) where
  | raw (array : List α)
  | ready (s : Seg α)

/-- segment_tree.py:68-75 `ArraySegmentTree.__new__`. -/
def SegTree.new (dimensions : Int) (a : List α) : PyM (SegTree α) :=
  if dimensions = 1 then .ok (.raw a) else .error .notImplemented

/-- segment_tree.py:137-139 `is_ready`. -/
def SegTree.isReady : SegTree α → Bool
  | .raw _ => false
  | .ready _ => true

/-- A node with its bounds as Python integers: the bounds of the root of the tree of an empty array are `(0, -1)`.
(segment_tree.py:146) -/
structure SegNodeI where
  lo : Int
  hi : Int
  left : Option Nat
  right : Option Nat

/-- segment_tree.py:151-172: the loop of `build` on an empty array, on which no leaf can be read: `self._array[start]` is an
`IndexError`. The nodes carry no data yet; the data of an inner node is computed once both children exist. The stack has its top first. -/
def segBuildEmptyBody (st : (Nat → SegNodeI) × Nat × List Nat) : PyM ((Nat → SegNodeI) × Nat × List Nat) :=
  match st with
  | (_, _, []) => .error .indexError
  | (nodes, fresh, i :: stack) =>
    let n := nodes i
    if n.lo = n.hi then .error .indexError
    else
      match n.left, n.right with
      | some _, some _ => .ok (nodes, fresh, stack)
      | left, right =>
        let mid := Int.fdiv (n.lo + n.hi) 2
        let (n, nodes, fresh, stack1) := match left with
          | none => ({ n with left := some fresh }, (fun j => if j = fresh then (⟨n.lo, mid, none, none⟩ : SegNodeI) else nodes j), fresh + 1,
              fresh :: i :: stack)
          | some _ => (n, nodes, fresh, i :: stack)
        let (n, nodes, fresh, stack2) := match right with
          | none => ({ n with right := some fresh }, (fun j => if j = fresh then (⟨mid + 1, n.hi, none, none⟩ : SegNodeI) else nodes j),
              fresh + 1, fresh :: stack1)
          | some _ => (n, nodes, fresh, stack1)
        .ok ((fun j => if j = i then n else nodes j), fresh, stack2)

/-- segment_tree.py:141-172 `build`. -/
def SegTree.build (f : QFunc α) (fuel : Nat) : SegTree α → PyM (SegTree α)
  | .ready s => .ok (.ready s)
  | .raw [] => do
    let st ← whileLoop fuel (fun st : (Nat → SegNodeI) × Nat × List Nat => .ok (!st.2.2.isEmpty)) segBuildEmptyBody
      (fun _ => ⟨0, -1, none, none⟩, 1, [0])
    .ok (.ready ⟨fun i => ⟨(st.1 i).lo.toNat, (st.1 i).hi.toNat, none, (st.1 i).left, (st.1 i).right⟩, st.2.1, []⟩)
  | .raw a => do
    let s ← segBuild f fuel a
    .ok (.ready s)

/-- segment_tree.py:174-205 `update`. -/
def SegTree.update (f : QFunc α) (fuel : Nat) (index : Int) (value : α) : SegTree α → PyM (SegTree α)
  | .raw _ => .error .valueError
  | .ready s => do
    let s ← segUpdate f fuel s index value
    .ok (.ready s)

/-- segment_tree.py:219-225 `query`. -/
def SegTree.query (f : QFunc α) (fuel : Nat) (start end_ : Nat) : SegTree α → PyM (Option α)
  | .raw _ => .error .valueError
  | .ready s => segQuery f fuel s start end_

end Model
