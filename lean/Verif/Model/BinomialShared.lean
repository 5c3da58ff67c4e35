import Verif.Model.BinomialRoots

/-!
# The list given to the constructor of a binomial heap

`BinomialHeap.__new__` stores the list that it is given (trees/heaps.py:402), and `delete_minimum` removes from it in place (heaps.py:539).
-/
namespace Model
open Py
variable {κ δ : Type}

/-- A heap made from a list (heaps.py:402) together with that list, as the caller sees it: the numbers of the given trees that are still in it. `shared` says that
`root_list` is still this object. -/
structure BhShared (κ δ : Type) where
  heap : BhState κ δ
  caller : List Nat
  shared : Bool

/-- heaps.py:402 `obj.root_list = root_list`. -/
def bhShare (roots : List (BinTree κ δ)) : BhShared κ δ := ⟨bhNew true roots, List.range roots.length, true⟩

variable (le : κ → κ → Bool)

/-- heaps.py:489-503 `insert`; line 487 stores another list. -/
def shInsert (s : BhShared κ δ) (k : κ) (d : δ) : PyM (BhShared κ δ) := do
  let h ← bhsInsert le s.heap k d
  .ok ⟨h, s.caller, false⟩

/-- heaps.py:444-487 `merge`; line 487 stores another list. -/
def shMerge (s : BhShared κ δ) (o : BhState κ δ) : PyM (BhShared κ δ) := do
  let h ← bhsMerge le s.heap o
  .ok ⟨h, s.caller, false⟩

/-- heaps.py:530-541 `delete_minimum`: line 539 removes the tree in place, line 541 stores another list. -/
def shDeleteMin (s : BhShared κ δ) : PyM (BhShared κ δ) := do
  let (_, i) ← bhFindMin le s.heap.roots
  let h ← bhsDeleteMin le s.heap
  .ok ⟨h, if s.shared then s.caller.eraseIdx i else s.caller, false⟩

end Model
