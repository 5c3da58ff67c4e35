import Verif.Model.BinaryTree

/-!
# Red-black trees: insertion

Model of `RedBlackTree.insert` (`/repo/pydatastructs/trees/binary_trees.py:1251-1337`), Python backend.
-/
namespace Model
open Py
variable {κ δ : Type}

/-- `n.color == c`: `AttributeError` when the node is a plain `TreeNode`. (e.g. binary_trees.py:1287) -/
def isCol (n : BNode κ δ) (c : Nat) : PyM Bool :=
  match n.color with
  | none => .error .attributeError
  | some x => .ok (decide (x = c))

/-- `self.tree[i].color = c`. (e.g. binary_trees.py:1293) -/
def paint (t : BTree κ δ) (i c : Nat) : PyM (BTree κ δ) := modNode t i (fun n => { n with color := some c })

/-- `self.tree[i].is_root = b`. (e.g. binary_trees.py:1317) -/
def setRoot (t : BTree κ δ) (i : Nat) (b : Bool) : PyM (BTree κ δ) := modNode t i (fun n => { n with isRoot := b })

/-- binary_trees.py:1251-1252 `_get_parent`. -/
def getParent (t : BTree κ δ) (i : Nat) : PyM (Option Nat) := do
  let n ← getNode t i
  .ok n.parent

/-- A use of `_get_parent(i)` as an index. (binary_trees.py:1252-1253) -/
def getParentIdx (t : BTree κ δ) (i : Nat) : PyM Nat := do
  let p ← getParent t i
  asIdx p

/-- binary_trees.py:1258-1268 `_get_sibling`. -/
def getSibling (t : BTree κ δ) (i : Nat) : PyM (Option Nat) := do
  let p ← getParent t i
  match p with
  | none => .ok none
  | some p => do
    let n ← getNode t p
    .ok (if n.left = some i then n.right else n.left)

/-- binary_trees.py:1270-1272 `_get_uncle`. -/
def getUncle (t : BTree κ δ) (i : Nat) : PyM (Option Nat) := do
  let p ← getParentIdx t i
  getSibling t p

/-- binary_trees.py:1274-1278 `_is_onleft`; `_is_onright` (1280-1283) is its negation. -/
def isOnLeft (t : BTree κ δ) (i : Nat) : PyM Bool := do
  let p ← getParentIdx t i
  let n ← getNode t p
  .ok (decide (n.left = some i))

/-- The local variables of the rotation branch: the tree, `node_idx` and `parent_idx`. (binary_trees.py:1298-1313) -/
structure RbMove (κ δ : Type) where
  t : BTree κ δ
  node : Nat
  parent : Nat

/-- binary_trees.py:1300-1306: the parent is a right child. -/
def rbTurnRight (t : BTree κ δ) (node parent : Nat) : PyM (RbMove κ δ) := do
  let onl ← isOnLeft t node
  let m ← if onl then do
      let t ← rightRotate t parent node
      let q ← getParentIdx t parent
      .ok (RbMove.mk t parent q)
    else .ok (RbMove.mk t node parent)
  let q ← getParentIdx m.t m.parent
  let t ← leftRotate m.t q m.parent
  .ok ⟨t, m.parent, q⟩

/-- binary_trees.py:1308-1314: the parent is a left child. -/
def rbTurnLeft (t : BTree κ δ) (node parent : Nat) : PyM (RbMove κ δ) := do
  let onl ← isOnLeft t node
  let m ← if onl then .ok (RbMove.mk t node parent)
    else do
      let t ← leftRotate t parent node
      let q ← getParentIdx t parent
      .ok (RbMove.mk t parent q)
  let q ← getParentIdx m.t m.parent
  let t ← rightRotate m.t q m.parent
  .ok ⟨t, m.parent, q⟩

/-- The state of the loop of `__fix_insert`; `stop` is set by `break`. (binary_trees.py:1286-1320) -/
structure RbSt (κ δ : Type) where
  t : BTree κ δ
  node : Nat
  stop : Bool

/-- binary_trees.py:1287-1288, the loop condition. -/
def rbCond (s : RbSt κ δ) : PyM Bool :=
  if s.stop then .ok false
  else do
    let n ← getNode s.t s.node
    match n.parent with
    | none => .ok false
    | some p => do
      let m ← getNode s.t p
      let b ← isCol m 1
      if b then isCol n 1 else .ok false

/-- `uncle_idx is not None and self.tree[uncle_idx].color == 1` (binary_trees.py:1292). -/
def isRedAt (t : BTree κ δ) (o : Option Nat) : PyM Bool :=
  match o with
  | none => .ok false
  | some u => do
    let n ← getNode t u
    isCol n 1

/-- binary_trees.py:1293-1296: the uncle is red. -/
def rbRecolor (t : BTree κ δ) (uncle : Option Nat) (parent : Nat) (grand : Option Nat) : PyM (RbMove κ δ) := do
  let u ← asIdx uncle
  let t ← paint t u 0
  let t ← paint t parent 0
  let g ← asIdx grand
  let t ← paint t g 1
  .ok ⟨t, g, parent⟩

/-- binary_trees.py:1298-1317: the uncle is black. -/
def rbRotate (t : BTree κ δ) (node parent : Nat) : PyM (RbMove κ δ) := do
  let t ← setRoot t t.rootIdx false
  let onl ← isOnLeft t parent
  let m ← if onl then rbTurnLeft t node parent else rbTurnRight t node parent
  let t ← paint m.t m.node 0
  let t ← paint t m.parent 1
  let t ← setRoot t t.rootIdx true
  .ok ⟨t, m.node, m.parent⟩

/-- binary_trees.py:1289-1319, the body of the loop. -/
def rbBody (s : RbSt κ δ) : PyM (RbSt κ δ) := do
  let parent ← getParentIdx s.t s.node
  let grand ← getParent s.t parent
  let uncle ← getUncle s.t s.node
  let red ← isRedAt s.t uncle
  let m ← if red then rbRecolor s.t uncle parent grand else rbRotate s.t s.node parent
  let n ← getNode m.t m.node
  .ok ⟨m.t, m.node, n.isRoot⟩

/-- binary_trees.py:1286-1320 `__fix_insert(node_idx)`. -/
def rbFix (fuel : Nat) (t : BTree κ δ) (i : Nat) : PyM (BTree κ δ) := do
  let s ← whileLoop fuel rbCond rbBody ⟨t, i, false⟩
  paint s.t s.t.rootIdx 0

/-- binary_trees.py:1322-1337 `RedBlackTree.insert(key, data)`. -/
def rbInsert [DecidableEq κ] (lt : κ → κ → Bool) (fuel : Nat) (t : BTree κ δ) (k : κ) (d : Option δ) : PyM (BTree κ δ) := do
  let t ← bstInsert lt fuel t k d
  let r ← bstSearch lt fuel t k
  let i ← asIdx r
  let n ← getNode t i
  let t ← modNode t i (fun n => { key := some k, data := d, color := some 1, left := n.left, right := n.right, parent := n.parent })
  if n.isRoot then do
    let t ← setRoot t i true
    paint t i 0
  else do
    let m ← getNode? t n.parent
    let b ← isCol m 1
    if b then rbFix fuel t i else .ok t

end Model
