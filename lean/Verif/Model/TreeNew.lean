import Verif.Model.BinaryTree

/-!
# The constructor of binary trees

`BinaryTree.__new__(key, root_data)` (trees/binary_trees.py:58-76), which every binary tree of the Python back end inherits
(binary_trees.py:224-231, 685-692, 805-812, 906-913, 940-947, 1077-1084, 1239-1246).
-/
namespace Model
open Py
variable {κ δ : Type}

/-- binary_trees.py:66-76. Without data the key is dropped (line 68). The root is a `TreeNode` in every class, so it has neither a priority nor
a colour. -/
def treeNew (orderStat : Bool) (key : Option κ) (data : Option δ) : PyM (BTree κ δ) :=
  if key.isNone ∧ data.isSome then .error .valueError
  else
    let key := if data.isNone then none else key
    .ok ⟨[some { key := key, data := data, isRoot := true }], 1, 1, 0, 1, orderStat⟩

end Model
