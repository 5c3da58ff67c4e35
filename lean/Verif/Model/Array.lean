import Verif.Py

/-!
# Arrays

Models of `/repo/pydatastructs/linear_data_structures/arrays.py`. A cell is `Option α` (`none` is Python's `None`).
-/
namespace Model
open Py
variable {α : Type}

/-- The position of a Python list of length `n` denoted by the integer `i` (negative indices count from the end);
`none` when Python raises `IndexError`. (arrays.py:137, 145: `self._data[i]`) -/
def listIndex (n : Nat) (i : Int) : Option Nat :=
  if 0 ≤ i then (if i < n then some i.toNat else none)
  else if 0 ≤ i + n then some (i + n).toNat else none

/-! ## OneDimensionalArray -/

/-- arrays.py:76 `__slots__ = ['_size', '_data', '_dtype']`. The dtype is passed to the operations as a conversion. -/
structure Oda (α : Type) where
  size : Nat
  data : List (Option α)

/-- Convert every element with the dtype, as the loops at arrays.py:92-94, 98-100, 118-120 do. -/
def convAll (conv : α → PyM α) : List α → PyM (List α)
  | [] => .ok []
  | x :: xs => do
    let y ← conv x
    let ys ← convAll conv xs
    .ok (y :: ys)

/-- `OneDimensionalArray(dtype, n, init=v)` (arrays.py:112-115); `v` is not converted by the code. -/
def Oda.ofSize (n : Nat) (init : Option α) : Oda α := ⟨n, List.replicate n init⟩

/-- `OneDimensionalArray(dtype, elements)` (arrays.py:116-121). -/
def Oda.ofList (conv : α → PyM α) (l : List α) : PyM (Oda α) := do
  let l ← convAll conv l
  .ok ⟨l.length, l.map some⟩

/-- `OneDimensionalArray(dtype, elements, size)` or with the two swapped (arrays.py:89-110). -/
def Oda.ofListSize (conv : α → PyM α) (l : List α) (n : Nat) : PyM (Oda α) := do
  let l ← convAll conv l
  if n ≠ l.length then .error .valueError else .ok ⟨n, l.map some⟩

/-- arrays.py:133-137 `__getitem__`. -/
def Oda.get (a : Oda α) (i : Int) : PyM (Option α) :=
  if i ≥ a.size ∨ i < 0 then .error .indexError
  else match listIndex a.data.length i with
    | some k => rd a.data k
    | none => .error .indexError

/-- arrays.py:139-145 `__setitem__`: no bounds check besides that of the Python list. -/
def Oda.set (conv : α → PyM α) (a : Oda α) (i : Int) (v : Option α) : PyM (Oda α) := do
  let v ← match v with
    | none => .ok none
    | some x => do
      let y ← conv x
      .ok (some y)
  match listIndex a.data.length i with
  | some k => do
    let data ← wr a.data k v
    .ok { a with data := data }
  | none => .error .indexError

/-- arrays.py:147-150 `fill`. -/
def Oda.fill (conv : α → PyM α) (a : Oda α) (v : α) : PyM (Oda α) := do
  let v ← conv v
  let data ← forRange 0 a.size a.data (fun i d => wr d i (some v))
  .ok { a with data := data }

/-- arrays.py:152-153 `__len__`. -/
def Oda.len (a : Oda α) : Nat := a.size

/-! ## MultiDimensionalArray -/

/-- arrays.py:200-237 `_sizes`, `_data`. -/
structure Mda (α : Type) where
  sizes : List Nat
  data : List (Option α)

/-- The suffix products `d_sizes` of the dimensions, with the final `1` (arrays.py:221-232). -/
def mdaSizes : List Nat → List Nat
  | [] => [1]
  | d :: ds => (d :: ds).foldl (· * ·) 1 :: mdaSizes ds

/-- arrays.py:204-237 `__new__` with at least one dimension. For a single dimension the code does not test `< 1` (210-215). -/
def Mda.new (dims : List Nat) : PyM (Mda α) :=
  match dims with
  | [] => .error .valueError
  | [n] => .ok ⟨[n, 1], List.replicate n none⟩
  | d :: ds =>
    if (d :: ds).any (fun x => decide (x < 1)) then .error .valueError
    else .ok ⟨mdaSizes (d :: ds), List.replicate ((mdaSizes ds).headD 1 * d) none⟩

/-- arrays.py:262-267 `_compare_shape`: compares the index with `_sizes[i]`, the product of the dimensions from `i` on. -/
def Mda.checkShape (a : Mda α) (idx : List Int) : PyM Unit :=
  if idx.length ≠ a.sizes.length - 1 then .error .indexError
  else if (idx.zip a.sizes).any (fun p => decide (p.1 ≥ (p.2 : Int))) then .error .indexError
  else .ok ()

/-- `position += self._sizes[i + 1] * indices[i]` (arrays.py:247-249, 257-259); `sizes` starts at `_sizes[1]`. -/
def mdaPosition : List Int → List Nat → Int
  | i :: is, s :: ss => s * i + mdaPosition is ss
  | _, _ => 0

/-- arrays.py:243-250 `__getitem__`; the index is the list of indices (a single `int` is the list of one). -/
def Mda.get (a : Mda α) (idx : List Int) : PyM (Option α) := do
  a.checkShape idx
  match listIndex a.data.length (mdaPosition idx (a.sizes.drop 1)) with
  | some k => rd a.data k
  | none => .error .indexError

/-- arrays.py:252-260 `__setitem__`. -/
def Mda.set (a : Mda α) (idx : List Int) (v : Option α) : PyM (Mda α) := do
  a.checkShape idx
  match listIndex a.data.length (mdaPosition idx (a.sizes.drop 1)) with
  | some k => do
    let data ← wr a.data k v
    .ok { a with data := data }
  | none => .error .indexError

/-! ## DynamicOneDimensionalArray -/

/-- arrays.py:359, 361-369: `_data`, `_num` and `cnt = _last_pos_filled + 1`; `_size` is the length of `_data`. -/
structure Doda (α : Type) where
  data : List (Option α)
  num : Nat
  cnt : Nat
  deriving DecidableEq

/-- `_size`. (arrays.py:421-423) -/
def Doda.size (d : Doda α) : Nat := d.data.length

/-- arrays.py:361-369 with a size and no `init`: all cells `None`. -/
def Doda.ofSize (n : Nat) : Doda α := ⟨List.replicate n none, 0, 0⟩

/-- arrays.py:361-369 with a list of (already converted, hence not `None`) elements. -/
def Doda.ofList (l : List α) : Doda α := ⟨l.map some, l.length, l.length⟩

/-- The copying loop of `_modify` (arrays.py:389-393): live cells of the source go to positions `j, j+1, …`; returns the new
data and the final `j`. -/
def dodaCompact : List (Option α) → Nat → List (Option α) → PyM (List (Option α) × Nat)
  | [], j, new => .ok (new, j)
  | none :: src, j, new => dodaCompact src j new
  | some x :: src, j, new => do
    let new ← wr new j (some x)
    dodaCompact src (j + 1) new

/-- arrays.py:377-396 `_modify()` (without `force`); `low num size` stands for `_num/_size < _load_factor`. -/
def Doda.modify (low : Nat → Nat → Bool) (d : Doda α) : PyM (Doda α) :=
  if d.size = 0 then .error .zeroDivision
  else if low d.num d.size then do
    let (new, j) ← dodaCompact (d.data.take d.cnt) 0 (List.replicate (2 * d.num + 1) none)
    .ok ⟨new, d.num, j⟩
  else .ok d

/-- The default `_load_factor = 0.25`. (arrays.py:366) -/
def quarter (num size : Nat) : Bool := decide (4 * num < size)

/-- The copying loop of `append` (arrays.py:400-402): `arr_new[i] = self[i]`. -/
def dodaCopy (src : List (Option α)) : Nat → Nat → List (Option α) → PyM (List (Option α))
  | 0, _, new => .ok new
  | n + 1, i, new => do
    let x ← rd src i
    let new ← wr new i x
    dodaCopy src n (i + 1) new

/-- arrays.py:398-410 `append`. -/
def Doda.append (low : Nat → Nat → Bool) (d : Doda α) (x : α) : PyM (Doda α) := do
  let data ← if d.cnt = d.size then do
      let new ← dodaCopy d.data d.cnt 0 (List.replicate (2 * d.size + 1) none)
      wr new d.cnt (some x)
    else wr d.data d.cnt (some x)
  Doda.modify low ⟨data, d.num + 1, d.cnt + 1⟩

/-- `self[i]` (inherited `__getitem__`, arrays.py:133-137). -/
def Doda.get (d : Doda α) (i : Int) : PyM (Option α) :=
  if i ≥ d.size ∨ i < 0 then .error .indexError else rd d.data i.toNat

/-- `self[i] = v` (inherited `__setitem__`) for a non-negative index. (arrays.py:139-145, used in arrays.py:404-417) -/
def Doda.set (d : Doda α) (i : Nat) (v : Option α) : PyM (Doda α) := do
  let data ← wr d.data i v
  .ok { d with data := data }

/-- arrays.py:412-419 `delete`. -/
def Doda.delete (low : Nat → Nat → Bool) (d : Doda α) (idx : Int) : PyM (Doda α) :=
  if idx ≤ (d.cnt : Int) - 1 ∧ 0 ≤ idx then do
    let x ← d.get idx
    match x with
    | none => .ok d
    | some _ => do
      let d ← d.set idx.toNat none
      let d := { d with num := d.num - 1 }
      let d := if (d.cnt : Int) - 1 = idx then { d with cnt := d.cnt - 1 } else d
      d.modify low
  else .ok d

end Model
