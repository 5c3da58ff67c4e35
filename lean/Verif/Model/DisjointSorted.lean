import Verif.Model.DisjointSet

/-! # The output order of `DisjointSetForest.disjoint_sets` (disjoint_set.py:139-144) -/
namespace Model
open Py
variable {κ : Type} [DecidableEq κ]

/-- `a <= b` on the keys, from `a < b` (`list.sort` only uses `<`). (disjoint_set.py:142) -/
def keyLe (lt : κ → κ → Bool) (a b : κ) : Bool := !(lt b a)

/-- `a <= b` on Python lists: lexicographic, the first position where they differ decides. (disjoint_set.py:143) -/
def groupLe (lt : κ → κ → Bool) : List κ → List κ → Bool
  | [], _ => true
  | _ :: _, [] => false
  | a :: as, b :: bs => if a = b then groupLe lt as bs else lt a b

/-- disjoint_set.py:128-144 `disjoint_sets`: every group is sorted, then the list of the groups. `list.sort` is the merge sort of the library. -/
def dsuSets (lt : κ → κ → Bool) (s : Dsu κ) : PyM (List (List κ)) := do
  let groups ← dsuGroups s
  .ok ((groups.map fun g => g.mergeSort (keyLe lt)).mergeSort (groupLe lt))

end Model
