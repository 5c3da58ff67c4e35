import Verif.Model.BinaryTree

/-!
# Splay trees

Model of `SplayTree` (`/repo/pydatastructs/trees/binary_trees.py:1064-1209`), Python backend: `splay`, `insert` and `delete`.
`join` and `split` are modelled in `SplayJoin.lean`. `search` is inherited from `BinarySearchTree` and does not splay.
-/
namespace Model
open Py
variable {κ δ : Type}

/-- binary_trees.py:1088-1092 `_zig(x, p)`. -/
def zig (t : BTree κ δ) (x p : Nat) : PyM (BTree κ δ) := do
  let n ← getNode t p
  if n.left = some x then rightRotate t p x else leftRotate t p x

/-- binary_trees.py:1094-1096 `_zig_zig(x, p)`; `g` is `self.tree[p].parent`. -/
def zigZig (t : BTree κ δ) (x p g : Nat) : PyM (BTree κ δ) := do
  let t ← rightRotate t g p
  rightRotate t p x

/-- binary_trees.py:1101-1103 `_zag_zag(x, p)`. -/
def zagZag (t : BTree κ δ) (x p g : Nat) : PyM (BTree κ δ) := do
  let t ← leftRotate t g p
  leftRotate t p x

/-- binary_trees.py:1110-1123, the body of the loop of `splay(x, p)`; the second component is `p`. The node `self.tree[self.tree[p].parent]` is read
once, in Python it is read by every test that needs it. -/
def splayBody (x : Nat) (s : BTree κ δ × Option Nat) : PyM (BTree κ δ × Option Nat) := do
  let p ← asIdx s.2
  let n ← getNode s.1 p
  let t ← match n.parent with
    | none => zig s.1 x p
    | some g => do
      let m ← getNode s.1 g
      if n.left = some x ∧ m.left = some p then zigZig s.1 x p g
      else if n.right = some x ∧ m.right = some p then zagZag s.1 x p g
      else if n.left = some x ∧ m.right = some p then rightLeftRotate s.1 g p
      else leftRightRotate s.1 g p
  let n ← getNode t x
  .ok (t, n.parent)

/-- binary_trees.py:1109: the condition of the loop. -/
def splayCond (x : Nat) (s : BTree κ δ × Option Nat) : PyM Bool := do
  let n ← getNode s.1 x
  .ok n.parent.isSome

/-- binary_trees.py:1108-1123 `splay(x, p)`. -/
def splay (fuel : Nat) (t : BTree κ δ) (x : Nat) (p : Option Nat) : PyM (BTree κ δ) := do
  let s ← whileLoop fuel (splayCond x) (splayBody x) (t, p)
  .ok s.1

/-- `self.search(key, parent=True)` unpacked into `(e, p)`; a search of an empty tree returns `None`, which cannot be unpacked. (binary_trees.py:1127, 1132) -/
def searchPair [DecidableEq κ] (lt : κ → κ → Bool) (fuel : Nat) (t : BTree κ δ) (k : κ) : PyM (Option Nat × Option Nat) := do
  match ← bstSearchP lt fuel t k with
  | some r => .ok r
  | none => .error .typeError

/-- binary_trees.py:1125-1129 `insert(key, x)`; `size` is positive after the insertion, so `size - 1` is not a negative index. -/
def splayInsert [DecidableEq κ] (lt : κ → κ → Bool) (fuel : Nat) (t : BTree κ δ) (k : κ) (d : Option δ) : PyM (BTree κ δ) := do
  let t ← bstInsert lt fuel t k d
  let (e, p) ← searchPair lt fuel t k
  let t ← modNode t (t.size - 1) (fun n => { n with parent := p })
  let e ← asIdx e
  splay fuel t e p

/-- binary_trees.py:1131-1137 `delete(x)`. -/
def splayDelete [DecidableEq κ] (lt : κ → κ → Bool) (fuel : Nat) (t : BTree κ δ) (k : κ) : PyM (BTree κ δ × Bool) := do
  let (e, p) ← searchPair lt fuel t k
  match e with
  | none => .ok (t, false)
  | some e => do
    let t ← splay fuel t e p
    bstDelete lt fuel t k

end Model
