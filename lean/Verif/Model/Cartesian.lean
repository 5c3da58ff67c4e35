import Verif.Model.BinaryTree

/-!
# Cartesian trees and treaps

Model of `CartesianTree` and `Treap` (`/repo/pydatastructs/trees/binary_trees.py:768-921`), Python backend.
-/
namespace Model
open Py
variable {κ δ : Type}

/-- `a.priority > b.priority`: `AttributeError` when one of the nodes is a plain `TreeNode`. (binary_trees.py:822) -/
def prioGt (a b : Option Int) : PyM Bool :=
  match a, b with
  | some x, some y => .ok (decide (x > y))
  | _, _ => .error .attributeError

/-- binary_trees.py:822 `(node.parent is not None) and (parent.priority > node.priority)`. The variables `node` and `parent` are
references, so reading them is reading the cells; `parent` is the cell of `node.parent` whenever the latter is not `None`. -/
def bubbleCond (i : Nat) (t : BTree κ δ) : PyM Bool := do
  let n ← getNode t i
  match n.parent with
  | none => .ok false
  | some p => do
    let m ← getNode t p
    prioGt m.prio n.prio

/-- binary_trees.py:823-830, the body of the loop of `_bubble_up`. -/
def bubbleBody (i : Nat) (t : BTree κ δ) : PyM (BTree κ δ) := do
  let n ← getNode t i
  let p ← asIdx n.parent
  let m ← getNode t p
  if m.right = some i then leftRotate t p i else rightRotate t p i

/-- binary_trees.py:818-832 `_bubble_up(node_idx)`. -/
def bubbleUp (fuel : Nat) (t : BTree κ δ) (i : Nat) : PyM (BTree κ δ) := do
  let n ← getNode t i
  let _ ← getNode? t n.parent
  let t ← whileLoop fuel (bubbleCond i) (bubbleBody i) t
  let n ← getNode t i
  if n.parent = none then modNode t i (fun n => { n with isRoot := true }) else .ok t

/-- binary_trees.py:847-859 `CartesianTree.insert(key, priority, data)`. -/
def cartInsert [DecidableEq κ] (lt : κ → κ → Bool) (fuel : Nat) (t : BTree κ δ) (k : κ) (prio : Int) (d : Option δ) : PyM (BTree κ δ) := do
  let t ← bstInsert lt fuel t k d
  let r ← bstSearch lt fuel t k
  let i ← asIdx r
  let n ← getNode t i
  let t ← modNode t i (fun n => { key := some k, data := d, prio := some prio, left := n.left, right := n.right, parent := n.parent })
  if n.isRoot then modNode t i (fun n => { n with isRoot := true }) else bubbleUp fuel t i

/-- binary_trees.py:919-921 `Treap.insert(key, data)`; `prio` is what `random.random()` returned. -/
def treapInsert [DecidableEq κ] (lt : κ → κ → Bool) (fuel : Nat) (t : BTree κ δ) (k : κ) (d : Option δ) (prio : Int) : PyM (BTree κ δ) :=
  cartInsert lt fuel t k prio d

/-- binary_trees.py:836 `node.left is not None or node.right is not None`. -/
def trickleCond (i : Nat) (t : BTree κ δ) : PyM Bool := do
  let n ← getNode t i
  .ok (n.left.isSome || n.right.isSome)

/-- binary_trees.py:837-845, the body of the loop of `_trickle_down`. -/
def trickleBody (i : Nat) (t : BTree κ δ) : PyM (BTree κ δ) := do
  let n ← getNode t i
  match n.left, n.right with
  | none, r => do
    let r ← asIdx r
    leftRotate t i r
  | some l, none => rightRotate t i l
  | some l, some r => do
    let a ← getNode t l
    let b ← getNode t r
    let c ← prioGt b.prio a.prio
    if c then rightRotate t i l else leftRotate t i r

/-- binary_trees.py:834-845 `_trickle_down(node_idx)`. -/
def trickleDown (fuel : Nat) (t : BTree κ δ) (i : Nat) : PyM (BTree κ δ) := whileLoop fuel (trickleCond i) (trickleBody i) t

/-- binary_trees.py:861-866 `CartesianTree.delete(key)` (also of `Treap`), without `balancing_info`. `false` models `None`. -/
def cartDelete [DecidableEq κ] (lt : κ → κ → Bool) (fuel : Nat) (t : BTree κ δ) (k : κ) : PyM (BTree κ δ × Bool) := do
  let r ← bstSearch lt fuel t k
  match r with
  | none => .ok (t, false)
  | some i => do
    let t ← trickleDown fuel t i
    bstDelete lt fuel t k

end Model
