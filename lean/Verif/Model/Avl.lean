import Verif.Model.BinaryTree

/-!
# AVL trees

Model of `AVLTree` (`/repo/pydatastructs/trees/binary_trees.py:923-1062`), Python backend.
-/
namespace Model
open Py
variable {κ δ : Type}

/-- binary_trees.py:948-951 `left_height`/`right_height` of the child link `o`. -/
def heightOf (t : BTree κ δ) (o : Option Nat) : PyM Int :=
  match o with
  | none => .ok (-1)
  | some i => do
    let m ← getNode t i
    .ok m.height

/-- binary_trees.py:952-953 `balance_factor(self.tree[w])`. -/
def balanceFactor (t : BTree κ δ) (w : Nat) : PyM Int := do
  let n ← getNode t w
  let r ← heightOf t n.right
  let l ← heightOf t n.left
  .ok (r - l)

/-- `self.tree[w].height = max(left_height, right_height) + 1` (binary_trees.py:960-961 and its copies). -/
def reheight (t : BTree κ δ) (w : Nat) : PyM (BTree κ δ) := do
  let n ← getNode t w
  let l ← heightOf t n.left
  let r ← heightOf t n.right
  modNode t w (fun n => { n with height := max l r + 1 })

/-- `if self.is_order_statistic: self.tree[w].size = ...` (binary_trees.py:962-964 and its copies). -/
def resizeIf (t : BTree κ δ) (w : Nat) : PyM (BTree κ δ) :=
  if t.orderStat then resize t w else .ok t

/-- binary_trees.py:958-964 `AVLTree._right_rotate`. -/
def avlRight (t : BTree κ δ) (j k : Nat) : PyM (BTree κ δ) := do
  let t ← rightRotate t j k
  let t ← reheight t j
  resizeIf t j

/-- binary_trees.py:994-1003 `AVLTree._left_rotate`. -/
def avlLeft (t : BTree κ δ) (j k : Nat) : PyM (BTree κ δ) := do
  let t ← leftRotate t j k
  let t ← reheight t j
  let t ← reheight t k
  resizeIf t j

/-- binary_trees.py:966-978 `AVLTree._left_right_rotate`. -/
def avlLeftRight (t : BTree κ δ) (j k : Nat) : PyM (BTree κ δ) := do
  let t ← leftRightRotate t j k
  let t ← reheight t j
  let t ← reheight t k
  let t ← resizeIf t j
  resizeIf t k

/-- binary_trees.py:980-992 `AVLTree._right_left_rotate`. -/
def avlRightLeft (t : BTree κ δ) (j k : Nat) : PyM (BTree κ δ) := do
  let t ← rightLeftRotate t j k
  let t ← reheight t j
  let t ← reheight t k
  let t ← resizeIf t j
  resizeIf t k

/-- `if l is not None and l == last and self.tree[l].left == last2last: rotate(walk, last)` and its three variants
(binary_trees.py:1018-1027): `l` is the child of `walk`, `side` selects the link of `l`. -/
def avlCase (t : BTree κ δ) (l last last2 : Option Nat) (side : BNode κ δ → Option Nat) (rotate : BTree κ δ → Nat → PyM (BTree κ δ)) :
    PyM (BTree κ δ) :=
  match l with
  | none => .ok t
  | some i =>
    if some i = last then do
      let n ← getNode t i
      if side n = last2 then rotate t i else .ok t
    else .ok t

/-- binary_trees.py:1016-1027: the rotations of `_balance_insertion` at `walk`. -/
def avlRebalance (t : BTree κ δ) (walk : Nat) (last last2 : Option Nat) : PyM (BTree κ δ) := do
  let n ← getNode t walk
  let l := n.left
  let t ← avlCase t l last last2 (·.left) (fun t k => avlRight t walk k)
  let m ← getNode t walk
  let r := m.right
  let t ← avlCase t r last last2 (·.right) (fun t k => avlLeft t walk k)
  let t ← avlCase t l last last2 (·.right) (fun t k => avlLeftRight t walk k)
  avlCase t r last last2 (·.left) (fun t k => avlRightLeft t walk k)

/-- The state of the loop of `_balance_insertion`: the tree, `walk` and the queue `path`. (binary_trees.py:1006-1008) -/
structure AvlSt (κ δ : Type) where
  t : BTree κ δ
  walk : Option Nat
  path : List (Option Nat)

/-- `while walk is not None`. (binary_trees.py:1009) -/
def avlCond (s : AvlSt κ δ) : PyM Bool := .ok s.walk.isSome

/-- `path.popleft()` twice (binary_trees.py:1014-1015). -/
def pop2 (path : List (Option Nat)) : PyM (Option Nat × Option Nat × List (Option Nat)) :=
  match path with
  | a :: b :: rest => .ok (a, b, rest)
  | _ => .error .indexError

/-- binary_trees.py:1010-1029, the body of the loop of `_balance_insertion`. -/
def avlBody (s : AvlSt κ δ) : PyM (AvlSt κ δ) := do
  let walk ← asIdx s.walk
  let t ← reheight s.t walk
  let t ← resizeIf t walk
  let p ← pop2 s.path
  let b ← balanceFactor t walk
  let t ← if b = 1 ∨ b = 0 ∨ b = -1 then .ok t else avlRebalance t walk p.1 p.2.1
  let n ← getNode t walk
  .ok ⟨t, n.parent, p.2.2 ++ [some walk, p.1]⟩

/-- binary_trees.py:1005-1029 `_balance_insertion(curr, last)`. -/
def avlBalance (fuel : Nat) (t : BTree κ δ) (curr : Nat) (last : Option Nat) : PyM (BTree κ δ) := do
  let s ← whileLoop fuel avlCond avlBody ⟨t, last, [some curr, last]⟩
  .ok s.t

/-- binary_trees.py:1031-1033 `AVLTree.insert`. -/
def avlInsert [DecidableEq κ] (lt : κ → κ → Bool) (fuel : Nat) (t : BTree κ δ) (k : κ) (d : Option δ) : PyM (BTree κ δ) := do
  let t ← bstInsert lt fuel t k d
  let n ← getNode t (t.size - 1)
  avlBalance fuel t (t.size - 1) n.parent

/-! ## Deletion -/

/-- binary_trees.py:1044-1055: the rotations of `_balance_deletion` at `walk`; `b` is the child on the higher side. -/
def avlDelRotate (t : BTree κ δ) (walk : Nat) : PyM (BTree κ δ) := do
  let f ← balanceFactor t walk
  let n ← getNode t walk
  if f < 0 then do
    let b ← asIdx n.left
    let g ← balanceFactor t b
    if g ≤ 0 then avlRight t walk b else avlLeftRight t walk b
  else do
    let b ← asIdx n.right
    let g ← balanceFactor t b
    if g ≥ 0 then avlLeft t walk b else avlRightLeft t walk b

/-- The loop condition `walk is not None` of `_balance_deletion`; the state is the tree and `walk`. (binary_trees.py:1037) -/
def avlDelCond (s : BTree κ δ × Option Nat) : PyM Bool := .ok s.2.isSome

/-- binary_trees.py:1038-1056, the body of the loop of `_balance_deletion`. -/
def avlDelBody (s : BTree κ δ × Option Nat) : PyM (BTree κ δ × Option Nat) := do
  let walk ← asIdx s.2
  let t ← reheight s.1 walk
  let t ← resizeIf t walk
  let b ← balanceFactor t walk
  let t ← if b = 1 ∨ b = 0 ∨ b = -1 then .ok t else avlDelRotate t walk
  let n ← getNode t walk
  .ok (t, n.parent)

/-- binary_trees.py:1035-1056 `_balance_deletion(start_idx, key)`; `key` is not used. -/
def avlBalanceDel (fuel : Nat) (t : BTree κ δ) (start : Option Nat) : PyM (BTree κ δ) := do
  let s ← whileLoop fuel avlDelCond avlDelBody (t, start)
  .ok s.1

/-- binary_trees.py:1059-1062 `AVLTree.delete`. It returns `True` whether or not the key was there. -/
def avlDelete [DecidableEq κ] (lt : κ → κ → Bool) (fuel : Nat) (t : BTree κ δ) (k : κ) : PyM (BTree κ δ × Bool) := do
  let r ← bstDeleteInfo lt fuel t k
  let t ← avlBalanceDel fuel r.1 r.2.1
  .ok (t, true)

end Model
