import Verif.Model.CppRotate
import Verif.Model.CppTraversal
import Verif.Model.Cartesian

/-!
# The C++ Cartesian tree and treap

Model of `/repo/pydatastructs/trees/_backend/cpp/CartesianTree.hpp` and `Treap.hpp`. Positions are compared by identity; every position has one object, so identity is equality.
`search` is that of `BinarySearchTree`. Priorities given as Python integers are stored as C doubles; the doubles that occur are integers and are written as such. The doubles a treap draws lie
between 0 and 1; only their order matters, and they are written as the integers `rand()` returned.
-/
namespace Model.Cpp
open Py
variable {κ δ : Type}

/-- Rounding a natural number to 53 binary digits, ties to even, as `PyFloat_AsDouble` does (trees/_backend/cpp/CartesianTree.hpp:115). -/
def roundNat (n : Nat) : Nat :=
  let u := 2 ^ (n.log2 - 52)
  if 2 * (n % u) < u ∨ 2 * (n % u) = u ∧ (n / u) % 2 = 0 then n / u * u else (n / u + 1) * u

/-- `PyFloat_AsDouble(priority)` of a Python integer (trees/_backend/cpp/CartesianTree.hpp:115). An integer too great for a double sets an `OverflowError`, which is not looked at: `insert` goes on and returns `None`
with the error set, which the interpreter reports as a `SystemError`. -/
def asDouble (p : Int) : PyM Int :=
  if roundNat p.natAbs < 2 ^ 1024 then .ok (if p < 0 then -(roundNat p.natAbs : Int) else roundNat p.natAbs) else .error .systemError

/-- `node->priority`: a plain node, such as the root a tree is constructed with, is zeroed memory (utils/_backend/cpp/TreeNode.hpp:23-50). -/
def cPrio (n : BNode κ δ) : Int := n.prio.getD 0

/-- trees/_backend/cpp/CartesianTree.hpp:54: the condition of the loop of `_bubble_up`; `parent` is the node of `node->parent` whenever the latter is not `None`. -/
def cBubbleCond (i : Nat) (t : BTree κ δ) : PyM Bool := do
  let n ← cNode t i
  match n.parent with
  | none => .ok false
  | some p => do
    let m ← cNode t p
    .ok (decide (cPrio m > cPrio n))

/-- trees/_backend/cpp/CartesianTree.hpp:55-65, the body of the loop. -/
def cBubbleBody (i : Nat) (t : BTree κ δ) : PyM (BTree κ δ) := do
  let n ← cNode t i
  let p ← cIdx n.parent
  let m ← cNode t p
  if m.right = some i then cLeftRotate t p i else cRightRotate t p i

/-- trees/_backend/cpp/CartesianTree.hpp:47-71 `_bubble_up(node_idx)`. Before the loop the parent is taken for a position even if it is `None`. -/
def cBubbleUp (fuel : Nat) (t : BTree κ δ) (i : Nat) : PyM (BTree κ δ) := do
  let n ← cNode t i
  let _ ← cIdx n.parent
  let t ← whileLoop fuel (cBubbleCond i) (cBubbleBody i) t
  let n ← cNode t i
  if n.parent = none then cMod t i (fun n => { n with isRoot := true }) else .ok t

/-- trees/_backend/cpp/CartesianTree.hpp:105-127, `insert` with the priority as a double. -/
def cCartPut [DecidableEq κ] (cmp : κ → κ → Int) (fuel : Nat) (c : CTree κ δ) (k : κ) (prio : Int) (d : Option δ) : PyM (CTree κ δ) := do
  let c ← cInsert cmp fuel c k d
  let r ← cSearch cmp fuel c.t k
  let i ← cIdx r
  let n ← cNode c.t i
  let t ← cMod c.t i (fun n => { key := some k, data := d, prio := some prio, left := n.left, right := n.right, parent := n.parent })
  let t ← if n.isRoot then cMod t i (fun n => { n with isRoot := true }) else cBubbleUp fuel t i
  .ok { c with t := t }

/-- trees/_backend/cpp/CartesianTree.hpp:95-129 `CartesianTree.insert(key, priority, data)` with an integer priority. -/
def cCartInsert [DecidableEq κ] (cmp : κ → κ → Int) (fuel : Nat) (c : CTree κ δ) (k : κ) (prio : Int) (d : Option δ) : PyM (CTree κ δ) := do
  let p ← asDouble prio
  cCartPut cmp fuel c k p d

/-- trees/_backend/cpp/Treap.hpp:56-68 `Treap.insert(key, data)`; `prio` is what `rand()` returned. -/
def cTreapInsert [DecidableEq κ] (cmp : κ → κ → Int) (fuel : Nat) (c : CTree κ δ) (k : κ) (d : Option δ) (prio : Int) : PyM (CTree κ δ) :=
  cCartPut cmp fuel c k prio d

/-- trees/_backend/cpp/CartesianTree.hpp:77 `node->left != None || node->right != None`. -/
def cTrickleCond (i : Nat) (t : BTree κ δ) : PyM Bool := do
  let n ← cNode t i
  .ok (n.left.isSome || n.right.isSome)

/-- trees/_backend/cpp/CartesianTree.hpp:78-90, the body of the loop of `_trickle_down`. -/
def cTrickleBody (i : Nat) (t : BTree κ δ) : PyM (BTree κ δ) := do
  let n ← cNode t i
  match n.left, n.right with
  | none, r => do
    let r ← cIdx r
    cLeftRotate t i r
  | some l, none => cRightRotate t i l
  | some l, some r => do
    let a ← cNode t l
    let b ← cNode t r
    if cPrio a < cPrio b then cRightRotate t i l else cLeftRotate t i r

/-- trees/_backend/cpp/CartesianTree.hpp:73-93 `_trickle_down(node_idx)`. -/
def cTrickleDown (fuel : Nat) (t : BTree κ δ) (i : Nat) : PyM (BTree κ δ) := whileLoop fuel (cTrickleCond i) (cTrickleBody i) t

/-- trees/_backend/cpp/CartesianTree.hpp:131-149 `CartesianTree.delete(key)`, which is also that of a treap (trees/_backend/cpp/Treap.hpp:52-54), without `balancing_info`. `false` models `None`. -/
def cCartDelete [DecidableEq κ] (cmp : κ → κ → Int) (fuel : Nat) (c : CTree κ δ) (k : κ) : PyM (CTree κ δ × Bool) := do
  let r ← cSearch cmp fuel c.t k
  match r with
  | none => .ok (c, false)
  | some i => do
    let t ← cTrickleDown fuel c.t i
    cBstDelete cmp fuel { c with t := t } k

end Model.Cpp
