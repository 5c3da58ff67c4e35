import Verif.Model.Array

/-!
# Array-backed stacks and queues

Models of `ArrayStack` (`/repo/pydatastructs/miscellaneous_data_structures/stack.py`) and `ArrayQueue` (`queue.py` in the same
directory). Simplification: all elements have one type, so the dtype coercion of the underlying array is the identity.
-/
namespace Model
open Py
variable {α : Type}

/-! ## ArrayStack -/

/-- stack.py:100-110: `items` is a dynamic array, empty or built from a list. -/
def stackNew (items : Option (List α)) : Doda α :=
  match items with
  | none => Doda.ofSize 0
  | some l => Doda.ofList l

/-- stack.py:117-120 `push`. -/
def stackPush (s : Doda α) (x : α) : PyM (Doda α) := s.append quarter x

/-- stack.py:130-132 `is_empty`. -/
def stackIsEmpty (s : Doda α) : Bool := decide (s.cnt = 0)

/-- stack.py:122-128 `pop`. -/
def stackPop (s : Doda α) : PyM (Option α × Doda α) :=
  if stackIsEmpty s then .error .indexError
  else do
    let x ← s.get ((s.cnt : Int) - 1)
    let s ← s.delete quarter ((s.cnt : Int) - 1)
    .ok (x, s)

/-- stack.py:134-136 `peek`. -/
def stackPeek (s : Doda α) : PyM (Option α) := s.get ((s.cnt : Int) - 1)

/-- stack.py:138-139 `__len__`. -/
def stackLen (s : Doda α) : Nat := s.num

/-! ## ArrayQueue -/

/-- queue.py:108: `items`, `_front`, `_rear`. -/
structure AQueue (α : Type) where
  items : Doda α
  front : Int
  rear : Int
  deriving DecidableEq

/-- queue.py:110-129 `__new__` (a list of items is not empty there: `items[0]` is read). -/
def queueNew (items : Option (List α)) : PyM (AQueue α) :=
  match items with
  | none => .ok ⟨Doda.ofSize 0, -1, -1⟩
  | some [] => .error .indexError
  | some l => .ok ⟨Doda.ofList l, 0, (l.length : Int) - 1⟩

/-- queue.py:201-206 `is_empty`, `__len__`. -/
def queueLen (q : AQueue α) : Nat := q.items.num

/-- queue.py:137-142 `append`. -/
def queueAppend (q : AQueue α) (x : α) : PyM (AQueue α) := do
  let front := if q.items.num = 0 then 0 else q.front
  let items ← q.items.append quarter x
  .ok ⟨items, front, q.rear + 1⟩

/-- `temp.append(self.items._data[i])` for `i` in `range(front, rear + 1)` (queue.py:152-153): a Python list read, negative indices
wrap; `None` cells are read as such. -/
def queueCopy (data : List (Option α)) : Nat → Int → PyM (List (Option α))
  | 0, _ => .ok []
  | n + 1, i => do
    let x ← match listIndex data.length i with
      | some k => rd data k
      | none => .error .indexError
    let rest ← queueCopy data n (i + 1)
    .ok (x :: rest)

/-- The new `DynamicOneDimensionalArray(type(temp[0]), temp)` (queue.py:154): a `None` in `temp` is passed to the dtype, which
raises `TypeError` (for `int`). -/
def dodaOfOptions : List (Option α) → PyM (List α)
  | [] => .ok []
  | none :: _ => .error .typeError
  | some x :: l => do
    let r ← dodaOfOptions l
    .ok (x :: r)

/-- queue.py:144-155 `appendleft` of a double-ended queue. -/
def queueAppendleft (q : AQueue α) (x : α) : PyM (AQueue α) := do
  let (front, rear) := if q.items.num = 0 then (0, -1) else (q.front, q.rear)
  let old ← queueCopy q.items.data (rear + 1 - front).toNat front
  let l ← dodaOfOptions (some x :: old)
  .ok ⟨Doda.ofList l, front, rear + 1⟩

/-- queue.py:157-172 `popleft`. -/
def queuePopleft (q : AQueue α) : PyM (Option α × AQueue α) :=
  if q.items.num = 0 then .error .indexError
  else do
    let x ← q.items.get q.front
    let (front, rear) :=
      if q.front = q.rear then (-1, -1)
      else if quarter (q.items.num - 1) q.items.size then (0, q.rear)
      else (q.front + 1, q.rear)
    let items ← q.items.delete quarter q.front
    .ok (x, ⟨items, front, rear⟩)

/-- queue.py:174-191 `pop` of a double-ended queue. -/
def queuePop (q : AQueue α) : PyM (Option α × AQueue α) :=
  if q.items.num = 0 then .error .indexError
  else do
    let x ← q.items.get q.rear
    let (front, rear) :=
      if q.front = q.rear then (-1, -1)
      else if quarter (q.items.num - 1) q.items.size then (0, q.rear)
      else (q.front, q.rear - 1)
    let items ← q.items.delete quarter q.rear
    .ok (x, ⟨items, front, rear⟩)

end Model
