import Verif.Model.StackQueue
import Verif.Model.LinkedContainers
import Verif.Model.BinomialHeap
import Verif.Model.Heap

/-!
# `Stack(...)`, `Queue(...)`, `PriorityQueue(...)`: the constructors that choose the implementation by name

Models of miscellaneous_data_structures/stack.py:56-73, 180-192, queue.py:57-72, 143-144, 173-174, 332-346, 396-402, 444-450, 477-482, 497-499. The
backend is the Python one. Simplification: the items are a list, and all elements have one type (a `dtype` is not modelled).
-/
namespace Model
open Py
variable {α ν π : Type}

/-- What `Stack(...)` returns (stack.py:56-73). -/
inductive StackObj (α : Type) where
  | array (s : Doda α)
  | linked (s : LL α Unit)

/-- `Stack.__new__` (stack.py:56-73). -/
def StackObj.new (name : String) (items : Option (List α)) : PyM (StackObj α) :=
  if name = "array" then .ok (.array (stackNew items))
  else if name = "linked_list" then do
    let s ← lstackNew items
    .ok (.linked s)
  else .error .notImplemented

/-- `is_empty` and `len` of a `LinkedListStack` (stack.py:180-182, 187-192). -/
def lstackLen (s : LL α Unit) : Nat := s.size
@[inherit_doc lstackLen] def lstackIsEmpty (s : LL α Unit) : Bool := lstackLen s == 0

/-- What `Queue(...)` returns (queue.py:57-72), with the attribute `_double_ended`. -/
inductive QueueObj (α : Type) where
  | array (q : AQueue α) (doubleEnded : Bool)
  | linked (s : LL α Unit) (doubleEnded : Bool)

/-- `Queue.__new__` (queue.py:57-72). -/
def QueueObj.new (name : String) (items : Option (List α)) (doubleEnded : Bool) : PyM (QueueObj α) :=
  if name = "array" then do
    let q ← queueNew items
    .ok (.array q doubleEnded)
  else if name = "linked_list" then do
    let s ← lqueueNew items
    .ok (.linked s doubleEnded)
  else .error .notImplemented

/-- `ArrayQueue.appendleft` (queue.py:143-155) with its check. -/
def aqueueAppendleft (doubleEnded : Bool) (q : AQueue α) (x : α) : PyM (AQueue α) := do
  doubleEndedCheck doubleEnded
  queueAppendleft q x

/-- `ArrayQueue.pop` (queue.py:173-191) with its check. -/
def aqueuePop (doubleEnded : Bool) (q : AQueue α) : PyM (Option α × AQueue α) := do
  doubleEndedCheck doubleEnded
  queuePop q

/-- What `PriorityQueue(...)` returns (queue.py:332-346): a `LinkedListPriorityQueue` or `BinaryHeapPriorityQueue` with its comparator
or a `BinomialHeapPriorityQueue`, which takes none. -/
inductive PqObj (π ν : Type) where
  | linked (comp : π → π → Bool) (s : LL π ν)
  | heap (comp : π → π → Bool) (s : DHeap (π × ν))
  | binomial (h : List (BinTree π ν))

/-- `PriorityQueue.__new__` (queue.py:332-346); the three constructors make an empty list, an empty heap and an empty binomial heap
(queue.py:396-402, 444-450, 477-482). -/
def PqObj.new (name : String) (comp : π → π → Bool) : PyM (PqObj π ν) :=
  if name = "linked_list" then .ok (.linked comp LL.new)
  else if name = "binary_heap" then .ok (.heap comp ⟨Doda.ofSize 0, 0⟩)
  else if name = "binomial_heap" then .ok (.binomial [])
  else .error .notImplemented

end Model
