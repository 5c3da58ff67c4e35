import Verif.Py

/-!
# Model of the linked lists (`linear_data_structures/linked_lists.py`, lines 14-639)

Nodes live in a store addressed by numbers: `val`, `next` and `prev` are the attributes of the node with a given number,
`fresh` is the first number not yet used. `None` is `none`. Attribute access on `None` raises `AttributeError`.
A `while` loop that walks along `next` is given as many iterations as it could need if it ended at all
(a walk without an end visits some node twice after `fresh` steps), so `outOfFuel` means that Python would loop for ever.
After an exception the model keeps the object as it was before the call; this is exact for `IndexError` and `ValueError`, which are
raised before anything is changed, and for `AttributeError` the model does not follow what happens to the object.
-/
namespace Model
open Py

/-- A node carries `key` and `data` (`utils/misc_util.py:LinkedListNode`). -/
abbrev Pay (κ δ : Type) := κ × δ

/-- A linked list object (`head`, `tail`, `size`, linked_lists.py:18, 248, 398) together with the node store. -/
structure LL (κ δ : Type) where
  val : Nat → Option (Pay κ δ)
  next : Nat → Option Nat
  prev : Nat → Option Nat
  fresh : Nat
  head : Option Nat
  tail : Option Nat
  size : Nat

namespace LL
variable {κ δ : Type}

/-- `__new__` (linked_lists.py:250-257, 400-407). -/
def new : LL κ δ := ⟨fun _ => none, fun _ => none, fun _ => none, 0, none, none, 0⟩

/-- `p.next = q`. (e.g. linked_lists.py:321) -/
def setNext (s : LL κ δ) (p : Nat) (q : Option Nat) : LL κ δ := { s with next := fun j => if j = p then q else s.next j }

/-- `p.prev = q`. (e.g. linked_lists.py:320) -/
def setPrev (s : LL κ δ) (p : Nat) (q : Option Nat) : LL κ δ := { s with prev := fun j => if j = p then q else s.prev j }

/-- `LinkedListNode(key, data, links=[…], addrs=[None, …])`: the new node gets the number `s.fresh`. (utils/misc_util.py:308-322) -/
def alloc (s : LL κ δ) (x : Pay κ δ) : LL κ δ :=
  { s with
    val := fun j => if j = s.fresh then some x else s.val j
    next := fun j => if j = s.fresh then none else s.next j
    prev := fun j => if j = s.fresh then none else s.prev j
    fresh := s.fresh + 1 }

end LL

variable {κ δ : Type}

/-- The node an attribute is read from or written to: `AttributeError` on `None`. (e.g. linked_lists.py:122-125) -/
def deref (p : Option Nat) : PyM Nat :=
  match p with
  | some i => .ok i
  | none => .error .attributeError

/-- `node.key`, `node.data`. (utils/misc_util.py:305-325) -/
def payload (s : LL κ δ) (p : Option Nat) : PyM (Pay κ δ) := do
  let i ← deref p
  match s.val i with
  | some x => .ok x
  | none => .error .attributeError

/-- The loop `while counter != index: prev_node = current_node; current_node = current_node.next; counter += 1` started at
`self.head` (linked_lists.py:121-125, 311-317, 342-348, 444-450, 472-478); returns `(prev_node, current_node)`. -/
def llWalk (s : LL κ δ) (index : Int) : PyM (Option Nat × Option Nat) := do
  let r ← whileLoop (s.fresh + index.natAbs + 1) (fun st : Int × Option Nat × Option Nat => .ok (st.1 != index))
    (fun st => do
      let c ← deref st.2.2
      .ok (st.1 + 1, st.2.2, s.next c))
    (0, none, s.head)
  .ok r.2

/-- `LinkedList.search` (linked_lists.py:27-35). The loop state is the current node, the result `some` when the loop has returned. -/
def llSearch [DecidableEq κ] (s : LL κ δ) (key : κ) : PyM (Option Nat) := do
  let r ← whileLoop (s.fresh + 1) (fun st : Option Nat × Option (Option Nat) => .ok (st.1.isSome && st.2.isNone))
    (fun st => do
      let x ← payload s st.1
      if x.1 = key then .ok (st.1, some st.1)
      else
        let c ← deref st.1
        let cur := s.next c
        if cur = s.head then .ok (cur, some none) else .ok (cur, none))
    (s.head, none)
  .ok (r.2.getD none)

/-- `LinkedList.__str__` (linked_lists.py:37-48): the list of the nodes' contents in the order of the walk. -/
def llStr (s : LL κ δ) : PyM (List (Pay κ δ)) := do
  let r ← whileLoop (s.fresh + 1) (fun st : Option Nat × Bool × List (Pay κ δ) => .ok (st.1.isSome && !st.2.1))
    (fun st => do
      let x ← payload s st.1
      let c ← deref st.1
      let cur := s.next c
      .ok (cur, decide (cur = s.head), st.2.2 ++ [x]))
    (s.head, false, [])
  .ok r.2.2

/-- Not code of the library: what a client sees who follows `prev` from `tail` until `None` or back at `tail`. (the links are those of linked_lists.py:249-357) -/
def llBackward (s : LL κ δ) : PyM (List (Pay κ δ)) := do
  let r ← whileLoop (s.fresh + 1) (fun st : Option Nat × Bool × List (Pay κ δ) => .ok (st.1.isSome && !st.2.1))
    (fun st => do
      let x ← payload s st.1
      let c ← deref st.1
      let cur := s.prev c
      .ok (cur, decide (cur = s.tail), st.2.2 ++ [x]))
    (s.tail, false, [])
  .ok r.2.2

/-- `LinkedList.__getitem__` (linked_lists.py:107-126). -/
def llGet (s : LL κ δ) (index : Int) : PyM (Option Nat) := do
  let index := if index < 0 then s.size + index else index
  if index ≥ s.size then .error .indexError
  else do
    let r ← llWalk s index
    .ok r.2

/-! ## Singly linked list -/

/-- `SinglyLinkedList.insert_after` (linked_lists.py:414-423). -/
def sllInsertAfter (s : LL κ δ) (p : Nat) (x : Pay κ δ) : PyM (LL κ δ) :=
  let n := s.fresh
  let s : LL κ δ := { s.alloc x with size := s.size + 1 }
  let s : LL κ δ := s.setNext n (s.next p)
  let s : LL κ δ := s.setNext p (some n)
  .ok (if s.next n = none then { s with tail := some n } else s)

/-- `SinglyLinkedList.insert_at` (linked_lists.py:425-459). -/
def sllInsertAt (s : LL κ δ) (index : Int) (x : Pay κ δ) : PyM (LL κ δ) :=
  let index := if s.size = 0 ∧ (index = 0 ∨ index = -1) then 0 else index
  let index := if index < 0 then s.size + index else index
  if index > s.size then .error .indexError
  else
    let n := s.fresh
    let s : LL κ δ := { s.alloc x with size := s.size + 1 }
    if s.size = 1 then .ok { s with head := some n, tail := some n }
    else if index = s.size - 1 then do
      let t ← deref s.tail
      let s : LL κ δ := s.setNext n (s.next t)
      let s : LL κ δ := s.setNext t (some n)
      .ok { s with tail := some n }
    else do
      let r ← llWalk s index
      let s : LL κ δ := s.setNext n r.2
      let s : LL κ δ := match r.1 with
        | some p => s.setNext p (some n)
        | none => s
      let s : LL κ δ := if s.next n = none then { s with tail := some n } else s
      .ok (if index = 0 then { s with head := some n } else s)

/-- `SinglyLinkedList.extract` (linked_lists.py:461-484); returns the removed node. -/
def sllExtract (s : LL κ δ) (index : Int) : PyM (LL κ δ × Nat) :=
  if s.size = 0 then .error .valueError
  else
    let index := if index < 0 then s.size + index else index
    if index ≥ s.size then .error .indexError
    else do
      let s : LL κ δ := { s with size := s.size - 1 }
      let r ← llWalk s index
      let c ← deref r.2
      let s : LL κ δ := match r.1 with
        | some p => s.setNext p (s.next c)
        | none => s
      let s : LL κ δ := if index = 0 then { s with head := s.next c } else s
      let s : LL κ δ := if index = s.size then { s with tail := r.1 } else s
      .ok (s, c)

/-! ## Doubly linked list -/

/-- `DoublyLinkedList.insert_after` (linked_lists.py:264-276). -/
def dllInsertAfter (s : LL κ δ) (p : Nat) (x : Pay κ δ) : PyM (LL κ δ) :=
  let n := s.fresh
  let s : LL κ δ := { s.alloc x with size := s.size + 1 }
  let s : LL κ δ := s.setNext n (s.next p)
  let s : LL κ δ := match s.next n with
    | some q => s.setPrev q (some n)
    | none => s
  let s : LL κ δ := s.setNext p (some n)
  let s : LL κ δ := s.setPrev n (some p)
  .ok (if s.next n = none then { s with tail := some n } else s)

/-- `DoublyLinkedList.insert_before` (linked_lists.py:278-289). -/
def dllInsertBefore (s : LL κ δ) (q : Nat) (x : Pay κ δ) : PyM (LL κ δ) :=
  let n := s.fresh
  let s : LL κ δ := { s.alloc x with size := s.size + 1 }
  let s : LL κ δ := s.setPrev n (s.prev q)
  let s : LL κ δ := s.setPrev q (some n)
  let s : LL κ δ := s.setNext n (some q)
  .ok (match s.prev n with
    | some p => s.setNext p (some n)
    | none => { s with head := some n })

/-- `DoublyLinkedList.insert_at` (linked_lists.py:291-329). -/
def dllInsertAt (s : LL κ δ) (index : Int) (x : Pay κ δ) : PyM (LL κ δ) :=
  let index := if s.size = 0 ∧ (index = 0 ∨ index = -1) then 0 else index
  let index := if index < 0 then s.size + index else index
  if index > s.size then .error .indexError
  else
    let n := s.fresh
    let s : LL κ δ := { s.alloc x with size := s.size + 1 }
    if s.size = 1 then .ok { s with head := some n, tail := some n }
    else if index = s.size - 1 then do
      let s : LL κ δ := s.setPrev n s.tail
      let t ← deref s.tail
      let s : LL κ δ := s.setNext n (s.next t)
      let s : LL κ δ := s.setNext t (some n)
      .ok { s with tail := some n }
    else do
      let r ← llWalk s index
      let s : LL κ δ := s.setPrev n r.1
      let s : LL κ δ := s.setNext n r.2
      let s : LL κ δ := match r.1 with
        | some p => s.setNext p (some n)
        | none => s
      let s : LL κ δ := match r.2 with
        | some q => s.setPrev q (some n)
        | none => s
      let s : LL κ δ := if s.next n = none then { s with tail := some n } else s
      .ok (if s.prev n = none then { s with head := some n } else s)

/-- `DoublyLinkedList.extract` (linked_lists.py:331-358). -/
def dllExtract (s : LL κ δ) (index : Int) : PyM (LL κ δ × Nat) :=
  if s.size = 0 then .error .valueError
  else
    let index := if index < 0 then s.size + index else index
    if index ≥ s.size then .error .indexError
    else do
      let s : LL κ δ := { s with size := s.size - 1 }
      let r ← llWalk s index
      let c ← deref r.2
      let s : LL κ δ := match r.1 with
        | some p => s.setNext p (s.next c)
        | none => s
      let s : LL κ δ := match s.next c with
        | some q => s.setPrev q r.1
        | none => s
      let s : LL κ δ := if index = 0 then { s with head := s.next c } else s
      let s : LL κ δ := if index = s.size then { s with tail := s.prev c } else s
      .ok (s, c)

/-! ## Circular lists -/

/-- `SinglyCircularLinkedList.insert_after` (linked_lists.py:531-535). -/
def scllInsertAfter (s : LL κ δ) (p : Nat) (x : Pay κ δ) : PyM (LL κ δ) := do
  let s ← sllInsertAfter s p x
  let a ← deref (s.next p)
  .ok (if s.next a = s.head then { s with tail := s.next p } else s)

/-- `SinglyCircularLinkedList.insert_at` (linked_lists.py:537-545). -/
def scllInsertAt (s : LL κ δ) (index : Int) (x : Pay κ δ) : PyM (LL κ δ) := do
  let s ← sllInsertAt s index x
  let s ← if s.size = 1 then do
      let h ← deref s.head
      .ok (s.setNext h s.head)
    else .ok s
  let g ← llGet s index
  let s ← if index = 0 then do
      let t ← deref s.tail
      .ok (s.setNext t g)
    else .ok s
  let n ← deref g
  .ok (if s.next n = s.head then { s with tail := some n } else s)

/-- `SinglyCircularLinkedList.extract` (linked_lists.py:547-553). -/
def scllExtract (s : LL κ δ) (index : Int) : PyM (LL κ δ × Nat) := do
  let (s, c) ← sllExtract s index
  match s.tail with
  | none => .ok ({ s with head := none }, c)
  | some t => .ok (if index = 0 then s.setNext t s.head else s, c)

/-- `DoublyCircularLinkedList.insert_after` (linked_lists.py:599-603). -/
def dcllInsertAfter (s : LL κ δ) (p : Nat) (x : Pay κ δ) : PyM (LL κ δ) := do
  let s ← dllInsertAfter s p x
  let a ← deref (s.next p)
  .ok (if s.next a = s.head then { s with tail := s.next p } else s)

/-- `DoublyCircularLinkedList.insert_before` (linked_lists.py:605-609). -/
def dcllInsertBefore (s : LL κ δ) (q : Nat) (x : Pay κ δ) : PyM (LL κ δ) := do
  let s ← dllInsertBefore s q x
  .ok (if some q = s.head then { s with head := s.prev q } else s)

/-- `DoublyCircularLinkedList.insert_at` (linked_lists.py:611-624). -/
def dcllInsertAt (s : LL κ δ) (index : Int) (x : Pay κ δ) : PyM (LL κ δ) := do
  let s ← dllInsertAt s index x
  let s ← if s.size = 1 then do
      let h ← deref s.head
      .ok ((s.setNext h s.head).setPrev h s.head)
    else .ok s
  let g ← llGet s index
  let s ← if index = 0 then do
      let t ← deref s.tail
      let s : LL κ δ := s.setNext t g
      let n ← deref g
      .ok (s.setPrev n s.tail)
    else .ok s
  let n ← deref g
  if s.next n = s.head then do
    let s := { s with tail := some n }
    let s : LL κ δ := s.setNext n s.head
    let h ← deref s.head
    .ok (s.setPrev h (some n))
  else .ok s

/-- `DoublyCircularLinkedList.extract` (linked_lists.py:626-632). -/
def dcllExtract (s : LL κ δ) (index : Int) : PyM (LL κ δ × Nat) := do
  let (s, c) ← dllExtract s index
  match s.tail with
  | none => .ok ({ s with head := none }, c)
  | some t => .ok (if index = 0 then s.setNext t s.head else s, c)

/-! ## The classes and the methods of the base class -/

/-- The methods a subclass of `LinkedList` overrides. (linked_lists.py:249-632) -/
structure LLClass (κ δ : Type) where
  insertAt : LL κ δ → Int → Pay κ δ → PyM (LL κ δ)
  insertAfter : LL κ δ → Nat → Pay κ δ → PyM (LL κ δ)
  insertBefore : LL κ δ → Nat → Pay κ δ → PyM (LL κ δ)
  extract : LL κ δ → Int → PyM (LL κ δ × Nat)

/-- `LinkedList.insert_before` (linked_lists.py:163-181), inherited by the singly linked lists. -/
def abstractInsertBefore (_ : LL κ δ) (_ : Nat) (_ : Pay κ δ) : PyM (LL κ δ) := .error .notImplemented

/-- `SinglyLinkedList`. (linked_lists.py:361-485) -/
def sllClass : LLClass κ δ := ⟨sllInsertAt, sllInsertAfter, abstractInsertBefore, sllExtract⟩
/-- `DoublyLinkedList`. (linked_lists.py:209-357) -/
def dllClass : LLClass κ δ := ⟨dllInsertAt, dllInsertAfter, dllInsertBefore, dllExtract⟩
/-- `SinglyCircularLinkedList`. (linked_lists.py:489-553) -/
def scllClass : LLClass κ δ := ⟨scllInsertAt, scllInsertAfter, abstractInsertBefore, scllExtract⟩
/-- `DoublyCircularLinkedList`. (linked_lists.py:557-632) -/
def dcllClass : LLClass κ δ := ⟨dcllInsertAt, dcllInsertAfter, dcllInsertBefore, dcllExtract⟩

/-- `appendleft` (linked_lists.py:128-144). -/
def LLClass.appendleft (c : LLClass κ δ) (s : LL κ δ) (x : Pay κ δ) : PyM (LL κ δ) := c.insertAt s 0 x
/-- `append` (linked_lists.py:146-161). -/
def LLClass.append (c : LLClass κ δ) (s : LL κ δ) (x : Pay κ δ) : PyM (LL κ δ) := c.insertAt s s.size x
/-- `popleft` (linked_lists.py:183-195). -/
def LLClass.popleft (c : LLClass κ δ) (s : LL κ δ) : PyM (LL κ δ × Nat) := c.extract s 0
/-- `popright` (linked_lists.py:197-209). -/
def LLClass.popright (c : LLClass κ δ) (s : LL κ δ) : PyM (LL κ δ × Nat) := c.extract s (-1)

end Model
