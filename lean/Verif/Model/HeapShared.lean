import Verif.Model.Heap

/-!
# Two heaps made from the same nodes

`DHeap.__new__` copies the list of nodes but not the nodes (trees/heaps.py:94-99), and `_swap` exchanges the keys and the data of two nodes
(heaps.py:116-122).
-/
namespace Model
open Py
variable {α : Type}

/-- heaps.py:79-103 twice on the same list of nodes. The second heap begins with what the nodes carry after the first was built, in the sequence of the list;
afterwards the first, whose cells are the same nodes in the same sequence, sees what the second has built. The result: both heaps. -/
def heapTwice (comp1 comp2 : α → α → Bool) (d1 d2 : Nat) (elements : List α) : PyM (DHeap α × DHeap α) := do
  let s1 ← heapNew comp1 d1 elements
  let s2 ← heapNew comp2 d2 (s1.heap.data.filterMap id)
  .ok (⟨{ s1.heap with data := s2.heap.data }, s1.n⟩, s2)

end Model
