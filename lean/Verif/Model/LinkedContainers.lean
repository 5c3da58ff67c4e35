import Verif.Model.LinkedList

/-!
# Stacks, queues and priority queues backed by a singly linked list

`miscellaneous_data_structures/stack.py:148-200`, `queue.py:213-275` and `queue.py:388-434`. The state is the `SinglyLinkedList`.
-/
namespace Model
open Py
variable {α ν π : Type}

/-- `LinkedListStack.push` (stack.py:172-173); the node's key is the pushed value, its data `None`. -/
def lstackPush (s : LL α Unit) (x : α) : PyM (LL α Unit) := sllClass.appendleft s (x, ())

/-- `LinkedListStack.pop` (stack.py:175-178), returns the node. -/
def lstackPop (s : LL α Unit) : PyM (LL α Unit × Nat) :=
  if s.size = 0 then .error .indexError else sllClass.popleft s

/-- `LinkedListStack.peek` (stack.py:184-186), a node or `None`. -/
def lstackPeek (s : LL α Unit) : Option Nat := s.head

/-- `LinkedListStack.__new__` (stack.py:152-165). -/
def lstackNew (items : Option (List α)) : PyM (LL α Unit) :=
  forList (items.getD []) LL.new (fun x s => lstackPush s x)

/-- `Queue._double_ended_check` (queue.py:78-82). -/
def doubleEndedCheck (doubleEnded : Bool) : PyM Unit := if doubleEnded then .ok () else .error .notImplemented

/-- `LinkedListQueue.append` (queue.py:238-239). -/
def lqueueAppend (s : LL α Unit) (x : α) : PyM (LL α Unit) := sllClass.append s (x, ())

/-- `LinkedListQueue.appendleft` (queue.py:241-244). -/
def lqueueAppendleft (de : Bool) (s : LL α Unit) (x : α) : PyM (LL α Unit) := do
  doubleEndedCheck de
  sllClass.appendleft s (x, ())

/-- `LinkedListQueue.pop` (queue.py:246-251). -/
def lqueuePop (de : Bool) (s : LL α Unit) : PyM (LL α Unit × Nat) := do
  doubleEndedCheck de
  if s.size = 0 then .error .indexError else sllClass.popright s

/-- `LinkedListQueue.popleft` (queue.py:253-257). -/
def lqueuePopleft (s : LL α Unit) : PyM (LL α Unit × Nat) :=
  if s.size = 0 then .error .indexError else sllClass.popleft s

/-- `LinkedListQueue.__new__` (queue.py:217-231). -/
def lqueueNew (items : Option (List α)) : PyM (LL α Unit) :=
  forList (items.getD []) LL.new (fun x s => lqueueAppend s x)

/-- The loop state of `_find_peek`: `walk, i, max_i, max_p`. (queue.py:416-417) -/
structure PeekSt where
  walk : Option Nat
  i : Nat
  maxI : Nat
  maxP : Option Nat

/-- One round of the loop of `_find_peek` (queue.py:418-423). -/
def findPeekBody (comp : π → π → Bool) (s : LL π ν) (st : PeekSt) : PyM PeekSt := do
  let x ← payload s st.walk
  let y ← payload s st.maxP
  let w ← deref st.walk
  let st := if comp x.1 y.1 then { st with maxI := st.i, maxP := st.walk } else st
  .ok { st with i := st.i + 1, walk := s.next w }

/-- `LinkedListPriorityQueue._find_peek` (queue.py:412-426), returns `(max_p, max_i)`. -/
def lpqFindPeek (comp : π → π → Bool) (s : LL π ν) : PyM (Option Nat × Nat) :=
  if s.size = 0 then .error .indexError
  else do
    let st ← whileLoop (s.fresh + 1) (fun st : PeekSt => .ok st.walk.isSome) (findPeekBody comp s) ⟨s.head, 0, 0, s.head⟩
    .ok (st.maxP, st.maxI)

/-- `LinkedListPriorityQueue.push` (queue.py:404-405). -/
def lpqPush (s : LL π ν) (value : ν) (priority : π) : PyM (LL π ν) := sllClass.append s (priority, value)

/-- `LinkedListPriorityQueue.pop` (queue.py:407-410), returns the node whose `data` is returned. -/
def lpqPop (comp : π → π → Bool) (s : LL π ν) : PyM (LL π ν × Nat) := do
  let r ← lpqFindPeek comp s
  sllClass.extract s r.2

end Model
