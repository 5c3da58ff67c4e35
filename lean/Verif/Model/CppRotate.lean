import Verif.Model.CppBst

/-!
# Rotations of the C++ trees

Model of `/repo/pydatastructs/trees/_backend/cpp/SelfBalancingBinaryTree.hpp`. The methods that are not rotations call those of `BinarySearchTree`.
-/
namespace Model.Cpp
open Py
variable {κ δ : Type}

/-- trees/_backend/cpp/SelfBalancingBinaryTree.hpp:95-102, 107-109 and 165-177: the new child of the parent `p`, or the new root. -/
def cHoist (t : BTree κ δ) (p : Option Nat) (j k : Nat) : PyM (BTree κ δ) :=
  match p with
  | none => .ok { t with rootIdx := k }
  | some p => cTurn t p j (some k)

/-- trees/_backend/cpp/SelfBalancingBinaryTree.hpp:86-111 `_right_rotate(j, k)`. The assignment of `root_idx` is moved before the assignments of lines 105-106, which do
not touch `_data[k]->parent`. -/
def cRightRotate (t : BTree κ δ) (j k : Nat) : PyM (BTree κ δ) := do
  let nk ← cNode t k
  let t ← cModIf t nk.right (fun n => { n with parent := some j })
  let t ← cMod t j (fun n => { n with left := nk.right })
  let nj ← cNode t j
  let t ← cMod t k (fun n => { n with parent := nj.parent })
  let t ← cHoist t nj.parent j k
  let t ← cMod t j (fun n => { n with parent := some k })
  cMod t k (fun n => { n with right := some j })

/-- trees/_backend/cpp/SelfBalancingBinaryTree.hpp:113-138 `_left_rotate(j, k)`; same remark. -/
def cLeftRotate (t : BTree κ δ) (j k : Nat) : PyM (BTree κ δ) := do
  let nk ← cNode t k
  let t ← cModIf t nk.left (fun n => { n with parent := some j })
  let t ← cMod t j (fun n => { n with right := nk.left })
  let nj ← cNode t j
  let t ← cMod t k (fun n => { n with parent := nj.parent })
  let t ← cHoist t nj.parent j k
  let t ← cMod t j (fun n => { n with parent := some k })
  cMod t k (fun n => { n with left := some j })

/-- trees/_backend/cpp/SelfBalancingBinaryTree.hpp:140-179 `_left_right_rotate(j, k)`. -/
def cLeftRightRotate (t : BTree κ δ) (j k : Nat) : PyM (BTree κ δ) := do
  let nk ← cNode t k
  let i ← cIdx nk.right
  let ni ← cNode t i
  let t ← cMod t k (fun n => { n with right := ni.left })
  let t ← cMod t j (fun n => { n with left := ni.right })
  let t ← cModIf t ni.left (fun n => { n with parent := some k })
  let t ← cModIf t ni.right (fun n => { n with parent := some j })
  let nj ← cNode t j
  let t ← cMod t i (fun n => { n with left := some k, right := some j, parent := nj.parent })
  let t ← cMod t k (fun n => { n with parent := some i })
  let t ← cMod t j (fun n => { n with parent := some i })
  cHoist t nj.parent j i

/-- trees/_backend/cpp/SelfBalancingBinaryTree.hpp:181-220 `_right_left_rotate(j, k)`. -/
def cRightLeftRotate (t : BTree κ δ) (j k : Nat) : PyM (BTree κ δ) := do
  let nk ← cNode t k
  let i ← cIdx nk.left
  let ni ← cNode t i
  let t ← cMod t k (fun n => { n with left := ni.right })
  let t ← cMod t j (fun n => { n with right := ni.left })
  let t ← cModIf t ni.left (fun n => { n with parent := some j })
  let t ← cModIf t ni.right (fun n => { n with parent := some k })
  let nj ← cNode t j
  let t ← cMod t i (fun n => { n with right := some k, left := some j, parent := nj.parent })
  let t ← cMod t k (fun n => { n with parent := some i })
  let t ← cMod t j (fun n => { n with parent := some i })
  cHoist t nj.parent j i

end Model.Cpp
