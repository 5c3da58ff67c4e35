import Verif.Model.BinaryTree

/-!
# The comparator a tree gets

Model of the `comp` argument of the tree constructors (`/repo/pydatastructs/trees/binary_trees.py:58-76`), which every
binary tree class inherits.
-/
namespace Model
variable {κ : Type}

/-- binary_trees.py:73-74 `obj.comparator = lambda key1, key2: key1 < key2 if comp is None else comp`. The conditional
belongs to the body of the lambda: with a `comp`, the comparator answers the function `comp` itself, which is true as a
condition. Trees only use the comparator in conditions (binary_trees.py:253, 282, 297), so its answer is modelled by its
truth value. -/
def treeComparator (lt : κ → κ → Bool) (comp : Option (κ → κ → Bool)) : κ → κ → Bool :=
  match comp with
  | none => lt
  | some _ => fun _ _ => true

end Model
