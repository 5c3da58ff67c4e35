import Verif.Model.Array

/-!
# `DHeap`, `BinaryHeap`, `TernaryHeap` (trees/heaps.py:78-203) and the binary-heap priority queue

A heap node is modelled by the value `(key, data)` it carries (an element of `α`); `_leftmost` and `_rightmost`, which only `__str__`
reads, are left out. `comp a b` is `self._comp(a.key, b.key)`. The loops `while True` run with a fuel that is computed from the
heap size; running out of it would show as the result `outOfFuel`, which the theorems exclude.
-/
namespace Model
open Py
variable {α : Type}

/-- `DHeap`: the array of nodes and `n = self._last_pos_filled + 1` (the heap keeps its own copy of that counter). (heaps.py:76-103) -/
structure DHeap (α : Type) where
  heap : Doda α
  n : Nat

/-- `self.heap[i]` followed by an attribute access: `AttributeError` on a `None` cell. (e.g. heaps.py:126-133) -/
def Doda.node (h : Doda α) (i : Nat) : PyM α := do
  match ← h.get i with
  | some x => .ok x
  | none => .error .attributeError

/-- heaps.py:116-122 `_swap`. -/
def heapSwap (h : Doda α) (i j : Nat) : PyM (Doda α) := do
  let x ← h.node i
  let y ← h.node j
  let h ← h.set i (some y)
  h.set j (some x)

/-- heaps.py:130-135: the `for j in range(l, r+1)` loop choosing `target` (`k` candidates left). -/
def heapPick (comp : α → α → Bool) (h : Doda α) (n : Nat) : Nat → Nat → Nat → PyM Nat
  | 0, _, target => .ok target
  | k + 1, j, target =>
    if j < n then do
      let x ← h.node j
      let y ← h.node target
      heapPick comp h n k (j + 1) (if comp x y then j else target)
    else .ok target

/-- heaps.py:124-141 `_heapify`. -/
def heapify (comp : α → α → Bool) (d n : Nat) : Nat → Nat → Doda α → PyM (Doda α)
  | 0, _, _ => .error .outOfFuel
  | fuel + 1, i, h => do
    let target ← heapPick comp h n d (d * i + 1) i
    if target ≠ i then do
      let h ← heapSwap h target i
      heapify comp d n fuel target h
    else .ok h

/-- heaps.py:109-114 `_build`. -/
def heapBuild (comp : α → α → Bool) (d : Nat) (s : DHeap α) : PyM (DHeap α) :=
  if d = 0 then .error .zeroDivision
  else do
    let h ← forDown 0 (s.n / d + 1) s.heap fun i h => heapify comp d s.n (s.n + 2) i h
    .ok ⟨h, s.n⟩

/-- heaps.py:79-103 `__new__` from a list of nodes. -/
def heapNew (comp : α → α → Bool) (d : Nat) (elements : List α) : PyM (DHeap α) :=
  heapBuild comp d ⟨Doda.ofList elements, elements.length⟩

/-- heaps.py:166-172: the `while True` loop of `insert`. -/
def heapUp (comp : α → α → Bool) (d : Nat) : Nat → Nat → Doda α → PyM (Doda α)
  | 0, _, _ => .error .outOfFuel
  | fuel + 1, i, h =>
    if i = 0 then .ok h
    else do
      let parent := (i - 1) / d
      let x ← h.node parent
      let y ← h.node i
      if comp x y then .ok h
      else do
        let h ← heapSwap h i parent
        heapUp comp d fuel parent h

/-- heaps.py:143-172 `insert`. -/
def heapInsert (comp : α → α → Bool) (d : Nat) (s : DHeap α) (x : α) : PyM (DHeap α) :=
  if d = 0 then .error .zeroDivision
  else do
    let h ← s.heap.append quarter x
    let h ← heapUp comp d (s.n + 1) s.n h
    .ok ⟨h, s.n + 1⟩

/-- heaps.py:174-196 `extract`. -/
def heapExtract (comp : α → α → Bool) (d : Nat) (s : DHeap α) : PyM (α × DHeap α) :=
  if s.n = 0 then .error .indexError
  else do
    let x ← s.heap.node 0
    let h ← heapSwap s.heap 0 (s.n - 1)
    let h ← h.delete quarter ((s.n - 1 : Nat) : Int)
    let h ← heapify comp d (s.n - 1) (s.n + 1) 0 h
    .ok (x, ⟨h, s.n - 1⟩)

/-- heaps.py:212-217 `is_empty` (reads the counter of the underlying array). -/
def heapIsEmpty (s : DHeap α) : Bool := s.heap.cnt == 0

/-- queue.py:456-460 `BinaryHeapPriorityQueue.peek`. -/
def heapPeek (s : DHeap α) : PyM α :=
  if heapIsEmpty s then .error .indexError else s.heap.node 0

/-- algorithms.py:328-332: the collecting loop of `heapsort`; `BinaryHeap(heap_property="min")` is a `DHeap` with `d = 2`
(heaps.py:276-281). -/
def heapsortCollect (comp : α → α → Bool) (i : Nat) (s : List (Option α) × DHeap α) : PyM (List (Option α) × DHeap α) := do
  let x ← rd s.1 i
  let h ← match x with
    | some x => heapInsert comp 2 s.2 x
    | none => .ok s.2
  let a ← wr s.1 i none
  .ok (a, h)

/-- algorithms.py:334-337: the writing loop of `heapsort`. -/
def heapsortWrite (comp : α → α → Bool) : Nat → Nat → List (Option α) → DHeap α → PyM (List (Option α))
  | 0, _, _, _ => .error .outOfFuel
  | fuel + 1, i, a, h =>
    if heapIsEmpty h then .ok a
    else do
      let (x, h) ← heapExtract comp 2 h
      let a ← wr a i (some x)
      heapsortWrite comp fuel (i + 1) a h

/-- algorithms.py:321-337 `heapsort`; `stop = end + 1` (see Model/Sort.lean); `comp` is `<=`. -/
def heapsort (comp : α → α → Bool) (a : List (Option α)) (start stop : Nat) : PyM (List (Option α)) := do
  let (a, h) ← forRange start stop (a, ⟨Doda.ofSize 0, 0⟩) (heapsortCollect comp)
  heapsortWrite comp (a.length + 1) start a h

end Model
