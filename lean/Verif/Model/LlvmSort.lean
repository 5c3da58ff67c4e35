import Verif.Model.Llvm

/-!
# `bubble_sort` and `selection_sort` with `backend=Backend.LLVM`

Models llvm_algorithms.py (the cache of compiled functions) and
pydatastructs/linear_data_structures/_backend/cpp/algorithms/quadratic_time_sort.hpp 70-614, 675-1219 (the C++ functions
that copy the cells into a buffer, call the compiled function and copy the result back). The array holds Python ints or
`None`; the branches for `float32` and `float64` (446-594, 1051-1199) do the same with floating-point buffers and are not modelled.
-/
open Py
namespace Model.Llvm

/-- The integer types of `_SUPPORTED` (llvm_algorithms.py 4-9). -/
inductive Dtype where
  | int32 | int64
  deriving DecidableEq, Repr

/-- The number of bits (llvm_algorithms.py 5-6). -/
def Dtype.bits : Dtype → Nat
  | .int32 => 32
  | .int64 => 64

/-- `_fn_ptr_cache` (llvm_algorithms.py 13): the compiled function per element type, one dictionary for both sorts. -/
abbrev Cache := Dtype → Option Fn

/-- The two functions the module can compile: `get_bubble_sort_ptr` and `get_selection_sort_ptr` (llvm_algorithms.py
37-42, 168-174). -/
inductive Kind where
  | bubble | selection
  deriving DecidableEq, Repr

/-- The builder behind each (llvm_algorithms.py 45-127, 177-261). -/
def Kind.build : Kind → BuildM Unit
  | .bubble => buildBubble
  | .selection => buildSelection false

/-- `get_bubble_sort_ptr`, `_materialize` (llvm_algorithms.py 37-42, 129-166) and `get_selection_sort_ptr`,
`_materialize_selection` (168-174, 264-291): the cached function for this element type, whatever it is; otherwise compile and cache. -/
def getPtr (k : Kind) (cache : Cache) (d : Dtype) : PyM Fn × Cache :=
  match cache d with
  | some f => (.ok f, cache)
  | none =>
    match compile k.build with
    | .ok f => (.ok f, fun d' => if d' = d then some f else cache d')
    | .error e => (.error e, cache)

/-- `PyLong_AsLong` and the range check, or `PyLong_AsLongLong` (quadratic_time_sort.hpp 305-321, 374-384): an int that does
not fit raises `OverflowError`. -/
def toBuf (w : Nat) : List Int → PyM (List (BitVec w))
  | [] => .ok []
  | v :: vs => do
    if -(2 ^ (w - 1) : Int) ≤ v ∧ v < 2 ^ (w - 1) then
      let r ← toBuf w vs
      .ok (BitVec.ofInt w v :: r)
    else .error .overflowError

/-- `(size_t) PyLong_AsSsize_t(obj)` (quadratic_time_sort.hpp 121-131): a negative number wraps around. -/
def sizeT (i : Int) : Nat := (i % 2 ^ 64).toNat

/-- quadratic_time_sort.hpp 342-372: the sorted values, then `None`s, written back from position `lower`. -/
def writeBack (a : List (Option Int)) (lower N : Nat) (buf : List Int) : List (Option Int) :=
  a.take lower ++ (buf.map some ++ List.replicate (N - buf.length) none) ++ a.drop (lower + N)

/-- `bubble_sort_llvm` and `selection_sort_llvm` (quadratic_time_sort.hpp 70-614, 675-1219) on the cells `a`, with the optional arguments
`start`, `end`, `comp` and `dtype` (`none` is inferred: the cells are ints, 147-151, 204-206). Returns the cells afterwards and the
cache; when it raises the cells are unchanged. -/
def sortLlvm (k : Kind) (fuel : Nat) (cache : Cache) (a : List (Option Int)) (start stop : Option Int) (hasComp : Bool)
    (dtype : Option Dtype) : PyM (List (Option Int)) × Cache :=
  let len := a.length
  if len = 0 then (.ok a, cache) else
  let lower := sizeT (start.getD 0)
  let upper := sizeT (stop.getD (len - 1))
  if upper < lower ∨ len ≤ lower then (.ok a, cache) else
  let upper := if len ≤ upper then len - 1 else upper
  if hasComp then (.error .notImplemented, cache) else
  let N := upper - lower + 1
  let vals := ((a.drop lower).take N).filterMap id
  if vals = [] then (.ok a, cache) else
  if 2 ^ 31 - 1 < N then (.error .overflowError, cache) else
  let d := dtype.getD .int64
  match getPtr k cache d with
  | (.error e, cache) => (.error e, cache)
  | (.ok f, cache) =>
    (do
      let buf ← toBuf d.bits vals
      let buf ← call (fun x y : BitVec d.bits => y.slt x) f fuel buf (BitVec.ofNat 32 buf.length)
      .ok (writeBack a lower N (buf.map BitVec.toInt)), cache)

end Model.Llvm
