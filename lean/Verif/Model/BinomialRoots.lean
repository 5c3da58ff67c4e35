import Verif.Model.BinomialHeap

/-!
# Binomial heaps constructed from given trees

`BinomialHeap(root_list)` (trees/heaps.py:392-403). `root_list` is documented to be a list, a tuple or an array; here a list or a tuple of
different trees that have a root and an order. The calls are those of Model/BinomialHeap.lean, with the attribute `root_list` kept as the
object that was given until `merge` replaces it by a list.
-/
namespace Model
open Py
variable {κ δ : Type}

/-- heaps.py:390 the attribute `root_list`; `isList` is false while it is the tuple given to the constructor. -/
structure BhState (κ δ : Type) where
  roots : List (BinTree κ δ)
  isList : Bool

/-- heaps.py:392-403 `BinomialHeap.__new__`: the object is stored as it is. -/
def bhNew (isList : Bool) (roots : List (BinTree κ δ)) : BhState κ δ := ⟨roots, isList⟩

variable (le : κ → κ → Bool)

/-- heaps.py:489-503 `insert`, heaps.py:487: afterwards `root_list` is a list. -/
def bhsInsert (s : BhState κ δ) (k : κ) (d : δ) : PyM (BhState κ δ) := do
  let h ← bhInsert le s.roots k d
  .ok ⟨h, true⟩

/-- heaps.py:444-487 `merge`; of the other heap only the length and the elements of `root_list` are read. -/
def bhsMerge (s o : BhState κ δ) : PyM (BhState κ δ) := do
  let h ← bhMerge le s.roots o.roots
  .ok ⟨h, true⟩

/-- heaps.py:530-541 `delete_minimum`; a tuple has no method `remove` (line 539). -/
def bhsDeleteMin (s : BhState κ δ) : PyM (BhState κ δ) := do
  let (n, i) ← bhFindMin le s.roots
  if s.isList then do
    let h ← bhMerge le (s.roots.eraseIdx i) (childTrees 0 n.children)
    .ok ⟨h, true⟩
  else .error .attributeError

end Model
