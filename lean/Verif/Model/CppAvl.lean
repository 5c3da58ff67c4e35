import Verif.Model.CppRotate
import Verif.Model.Avl

/-!
# The C++ AVL tree

Model of `/repo/pydatastructs/trees/_backend/cpp/AVLTree.hpp`. Positions are Python ints compared by identity. Every position has one object that all links to it share, with
one exception: `AVLTree_insert` makes a new object for the position of the new node (line 241). The interpreter keeps one object for each of the numbers up to 256, so the
new object is the one in the tree exactly when the position is at most 256. Reference counts are not modelled.
-/
namespace Model.Cpp
open Py Model
variable {κ δ : Type}

/-- A position object: `fresh` says that it was made by `PyLong_FromLong` and is not the object in the tree's links (trees/_backend/cpp/AVLTree.hpp:241). -/
structure PosObj where
  pos : Nat
  fresh : Bool
  deriving DecidableEq, Repr

/-- `link == o` (identity), for a link of the tree (trees/_backend/cpp/AVLTree.hpp:205-220). -/
def sameObj (link : Option Nat) (o : Option PosObj) : Bool :=
  match link, o with
  | none, none => true
  | some i, some p => decide (i = p.pos) && (!p.fresh || decide (p.pos ≤ 256))
  | _, _ => false

/-- trees/_backend/cpp/AVLTree.hpp:54-74 `left_height`/`right_height` of the child link `o`. -/
def cHeightOf (t : BTree κ δ) (o : Option Nat) : PyM Int :=
  match o with
  | none => .ok (-1)
  | some i => do
    let m ← cNode t i
    .ok m.height

/-- trees/_backend/cpp/AVLTree.hpp:76-79 `balance_factor`. -/
def cBalanceFactor (t : BTree κ δ) (w : Nat) : PyM Int := do
  let n ← cNode t w
  let r ← cHeightOf t n.right
  let l ← cHeightOf t n.left
  .ok (r - l)

/-- `_data[w]->height = std::max(lh, rh) + 1` (trees/_backend/cpp/AVLTree.hpp:87-89 and its copies). -/
def cReheight (t : BTree κ δ) (w : Nat) : PyM (BTree κ δ) := do
  let n ← cNode t w
  let l ← cHeightOf t n.left
  let r ← cHeightOf t n.right
  cMod t w (fun n => { n with height := max l r + 1 })

/-- `if (bt->is_order_statistic == true) _data[w]->size = ls + rs + 1` (trees/_backend/cpp/AVLTree.hpp:91-95 and its copies). -/
def cResizeIf (t : BTree κ δ) (w : Nat) : PyM (BTree κ δ) :=
  if t.orderStat then do
    let n ← cNode t w
    let a ← cLeftSize t n
    let b ← cRightSize t n
    cMod t w (fun n => { n with size := a + b + 1 })
  else .ok t

/-- trees/_backend/cpp/AVLTree.hpp:81-98 `_right_rotate`. -/
def cAvlRight (t : BTree κ δ) (j k : Nat) : PyM (BTree κ δ) := do
  let t ← cRightRotate t j k
  let t ← cReheight t j
  cResizeIf t j

/-- trees/_backend/cpp/AVLTree.hpp:154-175 `_left_rotate`. -/
def cAvlLeft (t : BTree κ δ) (j k : Nat) : PyM (BTree κ δ) := do
  let t ← cLeftRotate t j k
  let t ← cReheight t j
  let t ← cReheight t k
  cResizeIf t j

/-- trees/_backend/cpp/AVLTree.hpp:100-125 `_left_right_rotate`. -/
def cAvlLeftRight (t : BTree κ δ) (j k : Nat) : PyM (BTree κ δ) := do
  let t ← cLeftRightRotate t j k
  let t ← cReheight t j
  let t ← cReheight t k
  let t ← cResizeIf t j
  cResizeIf t k

/-- trees/_backend/cpp/AVLTree.hpp:127-152 `_right_left_rotate`. -/
def cAvlRightLeft (t : BTree κ δ) (j k : Nat) : PyM (BTree κ δ) := do
  let t ← cRightLeftRotate t j k
  let t ← cReheight t j
  let t ← cReheight t k
  let t ← cResizeIf t j
  cResizeIf t k

/-- `if (l != Py_None && l == last && _data[l]->left == last2last) rotate(walk, last)` and its three variants (trees/_backend/cpp/AVLTree.hpp:205-220). -/
def cAvlCase (t : BTree κ δ) (l : Option Nat) (last last2 : Option PosObj) (side : BNode κ δ → Option Nat) (rotate : BTree κ δ → Nat → PyM (BTree κ δ)) :
    PyM (BTree κ δ) :=
  match l with
  | none => .ok t
  | some i =>
    if sameObj (some i) last then do
      let n ← cNode t i
      if sameObj (side n) last2 then rotate t i else .ok t
    else .ok t

/-- trees/_backend/cpp/AVLTree.hpp:204-221: the rotations of `_balance_insertion` at `walk`. -/
def cAvlRebalance (t : BTree κ δ) (walk : Nat) (last last2 : Option PosObj) : PyM (BTree κ δ) := do
  let n ← cNode t walk
  let l := n.left
  let t ← cAvlCase t l last last2 (·.left) (fun t k => cAvlRight t walk k)
  let m ← cNode t walk
  let r := m.right
  let t ← cAvlCase t r last last2 (·.right) (fun t k => cAvlLeft t walk k)
  let t ← cAvlCase t l last last2 (·.right) (fun t k => cAvlLeftRight t walk k)
  cAvlCase t r last last2 (·.left) (fun t k => cAvlRightLeft t walk k)

/-- The state of the loop of `_balance_insertion`: the tree, `walk` and the two objects in the queue `path` (trees/_backend/cpp/AVLTree.hpp:182-185). The queue holds two
objects whenever the loop condition is tested. -/
structure CAvlSt (κ δ : Type) where
  t : BTree κ δ
  walk : Option Nat
  path : Option PosObj × Option PosObj

/-- `while (walk != Py_None)` (trees/_backend/cpp/AVLTree.hpp:187). -/
def cAvlCond (s : CAvlSt κ δ) : PyM Bool := .ok s.walk.isSome

/-- A link of the tree as an object (trees/_backend/cpp/AVLTree.hpp:222 `path.push(walk)`). -/
def linkObj (i : Nat) : PosObj := ⟨i, false⟩

/-- trees/_backend/cpp/AVLTree.hpp:188-225, the body of the loop of `_balance_insertion`. -/
def cAvlBody (s : CAvlSt κ δ) : PyM (CAvlSt κ δ) := do
  let walk ← cIdx s.walk
  let t ← cReheight s.t walk
  let t ← cResizeIf t walk
  let b ← cBalanceFactor t walk
  let t ← if b = 1 ∨ b = 0 ∨ b = -1 then .ok t else cAvlRebalance t walk s.path.1 s.path.2
  let n ← cNode t walk
  .ok ⟨t, n.parent, some (linkObj walk), s.path.1⟩

/-- trees/_backend/cpp/AVLTree.hpp:177-228 `_balance_insertion(curr, last)`. -/
def cAvlBalance (fuel : Nat) (t : BTree κ δ) (curr : PosObj) (last : Option Nat) : PyM (BTree κ δ) := do
  let s ← whileLoop fuel cAvlCond cAvlBody ⟨t, last, some curr, last.map linkObj⟩
  .ok s.t

/-- trees/_backend/cpp/AVLTree.hpp:230-244 `insert`. -/
def cAvlInsert [DecidableEq κ] (cmp : κ → κ → Int) (fuel : Nat) (c : CTree κ δ) (k : κ) (d : Option δ) : PyM (CTree κ δ) := do
  let c ← cInsert cmp fuel c k d
  let n ← cNode c.t (c.t.size - 1)
  let t ← cAvlBalance fuel c.t ⟨c.t.size - 1, true⟩ n.parent
  .ok { c with t := t }

/-! ## Deletion -/

/-- trees/_backend/cpp/AVLTree.hpp:272-290: the rotations of `_balance_delete` at `walk`; `b` is the child on the higher side. -/
def cAvlDelRotate (t : BTree κ δ) (walk : Nat) : PyM (BTree κ δ) := do
  let f ← cBalanceFactor t walk
  let n ← cNode t walk
  if f < 0 then do
    let b ← cIdx n.left
    let g ← cBalanceFactor t b
    if g ≤ 0 then cAvlRight t walk b else cAvlLeftRight t walk b
  else do
    let b ← cIdx n.right
    let g ← cBalanceFactor t b
    if g ≥ 0 then cAvlLeft t walk b else cAvlRightLeft t walk b

/-- The loop condition `walk != Py_None` of `_balance_delete`; the state is the tree and `walk` (trees/_backend/cpp/AVLTree.hpp:260). -/
def cAvlDelCond (s : BTree κ δ × Option Nat) : PyM Bool := .ok s.2.isSome

/-- trees/_backend/cpp/AVLTree.hpp:261-292, the body of the loop of `_balance_delete`. -/
def cAvlDelBody (s : BTree κ δ × Option Nat) : PyM (BTree κ δ × Option Nat) := do
  let walk ← cIdx s.2
  let t ← cReheight s.1 walk
  let t ← cResizeIf t walk
  let b ← cBalanceFactor t walk
  let t ← if b = 1 ∨ b = 0 ∨ b = -1 then .ok t else cAvlDelRotate t walk
  let n ← cNode t walk
  .ok (t, n.parent)

/-- trees/_backend/cpp/AVLTree.hpp:254-296 `_balance_delete(start_idx, key)`; `key` is not used. -/
def cAvlBalanceDel (fuel : Nat) (t : BTree κ δ) (start : Option Nat) : PyM (BTree κ δ) := do
  let s ← whileLoop fuel cAvlDelCond cAvlDelBody (t, start)
  .ok s.1

/-- trees/_backend/cpp/BinarySearchTree.hpp:208-336 `delete(key, balancing_info=1)`: the tree and the position where balancing starts (`None` when the key is missing). -/
def cBstDeleteInfo [DecidableEq κ] (cmp : κ → κ → Int) (fuel : Nat) (c : CTree κ δ) (k : κ) : PyM (CTree κ δ × Option Nat) := do
  let res ← cSearchP cmp fuel c.t k
  match res with
  | none => .error .undefined
  | some (none, _) => .ok (c, none)
  | some (some walk, parent) => do
    let n ← cNode c.t walk
    cDelCases fuel c walk parent n

/-- trees/_backend/cpp/AVLTree.hpp:298-307 `delete`. It returns `True` whether or not the key was there. -/
def cAvlDelete [DecidableEq κ] (cmp : κ → κ → Int) (fuel : Nat) (c : CTree κ δ) (k : κ) : PyM (CTree κ δ × Bool) := do
  let r ← cBstDeleteInfo cmp fuel c k
  let t ← cAvlBalanceDel fuel r.1.t r.2
  .ok ({ r.1 with t := t }, true)

end Model.Cpp
