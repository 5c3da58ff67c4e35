import Verif.Model.RedBlack

/-!
# Red-black trees: deletion

Model of `RedBlackTree.delete` (`/repo/pydatastructs/trees/binary_trees.py:1337-1560`), Python backend.
-/
namespace Model
open Py
variable {κ δ : Type}

/-- `self.tree[i].right is not None` (binary_trees.py:1338). -/
def predCond (t : BTree κ δ) (i : Nat) : PyM Bool := do
  let n ← getNode t i
  .ok n.right.isSome

/-- `node_idx = self.tree[node_idx].right` (binary_trees.py:1339). -/
def predBody (t : BTree κ δ) (i : Nat) : PyM Nat := do
  let n ← getNode t i
  asIdx n.right

/-- binary_trees.py:1337-1340 `_find_predecessor`. -/
def findPred (fuel : Nat) (t : BTree κ δ) (i : Nat) : PyM Nat := whileLoop fuel (predCond t) (predBody t) i

/-- binary_trees.py:1360-1363 `_is_leaf`. -/
def rbIsLeaf (n : BNode κ δ) : Bool := n.left.isNone && n.right.isNone

/-- binary_trees.py:1365-1368 `_has_two_child`. -/
def rbHasTwo (n : BNode κ δ) : Bool := n.left.isSome && n.right.isSome

/-- binary_trees.py:1355-1358 `_has_one_child`. -/
def rbHasOne (n : BNode κ δ) : Bool := !rbIsLeaf n && !rbHasTwo n

/-- binary_trees.py:1342-1353 `_transplant_values`: the tree and, in the case of a root with one child, its new key. -/
def rbTransplant (t : BTree κ δ) (i1 i2 : Nat) : PyM (BTree κ δ × Option κ) := do
  let n1 ← getNode t i1
  let n2 ← getNode t i2
  if n1.isRoot && rbHasOne n1 then do
    let t ← modNode t t.rootIdx (fun n => { n with key := n2.key, data := n2.data, left := n2.left, right := n2.right })
    let t ← modNode t i1 (fun n => { n with parent := none })
    let r ← getNode t t.rootIdx
    .ok (t, r.key)
  else do
    let t ← modNode t i1 (fun n => { n with key := n2.key, data := n2.data })
    .ok (t, none)

/-- binary_trees.py:1370-1376 `__has_red_child`. -/
def rbHasRedChild (t : BTree κ δ) (i : Nat) : PyM Bool := do
  let n ← getNode t i
  let l ← isRedAt t n.left
  if l then .ok true else isRedAt t n.right

/-- binary_trees.py:1378-1388 `_replace_node`. -/
def rbReplace (fuel : Nat) (t : BTree κ δ) (i : Nat) : PyM (Option Nat) := do
  let n ← getNode t i
  match n.left, n.right with
  | none, none => .ok none
  | some c, none => .ok (some c)
  | none, some c => .ok (some c)
  | some l, some _ => do
    let p ← findPred fuel t l
    .ok (some p)

/-- binary_trees.py:1390-1393 `__walk1_walk_isblack(color, node_idx1)`. -/
def rbBothBlack (t : BTree κ δ) (color : Option Nat) (i1 : Option Nat) : PyM Bool :=
  match i1 with
  | none => .ok (decide (color = some 0))
  | some i => do
    let n ← getNode t i
    let b ← isCol n 0
    .ok (b && decide (color = some 0))

/-- `self.tree[i].color`: `AttributeError` when the node is a plain `TreeNode`. (binary_trees.py:1397-1427) -/
def colorAt (t : BTree κ δ) (i : Nat) : PyM Nat := do
  let n ← getNode t i
  match n.color with
  | none => .error .attributeError
  | some c => .ok c

/-- binary_trees.py:1395-1401 `__left_left_siblingcase`. -/
def rbLL (t : BTree κ δ) (i : Nat) : PyM (BTree κ δ) := do
  let n ← getNode t i
  let p ← getParentIdx t i
  let pc ← colorAt t p
  let l ← asIdx n.left
  let c ← colorAt t i
  let t ← paint t l c
  let t ← paint t i pc
  rightRotate t p i

/-- binary_trees.py:1403-1410 `__right_left_siblingcase`. -/
def rbRL (t : BTree κ δ) (i : Nat) : PyM (BTree κ δ) := do
  let n ← getNode t i
  let p ← getParentIdx t i
  let pc ← colorAt t p
  let l ← asIdx n.left
  let t ← paint t l pc
  let t ← rightRotate t i l
  let c ← getParentIdx t i
  leftRotate t p c

/-- binary_trees.py:1412-1419 `__left_right_siblingcase`. -/
def rbLR (t : BTree κ δ) (i : Nat) : PyM (BTree κ δ) := do
  let n ← getNode t i
  let p ← getParentIdx t i
  let pc ← colorAt t p
  let r ← asIdx n.right
  let t ← paint t r pc
  let t ← leftRotate t i r
  let c ← getParentIdx t i
  rightRotate t p c

/-- binary_trees.py:1421-1427 `__right_right_siblingcase`. -/
def rbRR (t : BTree κ δ) (i : Nat) : PyM (BTree κ δ) := do
  let n ← getNode t i
  let p ← getParentIdx t i
  let pc ← colorAt t p
  let r ← asIdx n.right
  let c ← colorAt t i
  let t ← paint t r c
  let t ← paint t i pc
  leftRotate t p i

/-- The state of the loop of `__fix_deletion`: `node_idx` and whether `color == 0`. (binary_trees.py:1429-1431) -/
structure RbDelSt (κ δ : Type) where
  t : BTree κ δ
  node : Option Nat
  black : Bool

/-- `node_idx != self.root_idx and color == 0` (binary_trees.py:1432). -/
def rbDelCond (s : RbDelSt κ δ) : PyM Bool := .ok (decide (s.node ≠ some s.t.rootIdx) && s.black)

/-- binary_trees.py:1440-1447: the sibling is red. -/
def rbDelRed (t : BTree κ δ) (parent sib : Nat) : PyM (BTree κ δ) := do
  let t ← setRoot t t.rootIdx false
  let t ← paint t parent 1
  let t ← paint t sib 0
  let onl ← isOnLeft t sib
  let t ← if onl then rightRotate t parent sib else leftRotate t parent sib
  setRoot t t.rootIdx true

/-- binary_trees.py:1452-1463: which of the four cases applies to a black sibling with a red child. -/
def rbDelTurn (t : BTree κ δ) (sib : Nat) : PyM (BTree κ δ) := do
  let n ← getNode t sib
  let l ← isRedAt t n.left
  let onl ← isOnLeft t sib
  if l then (if onl then rbLL t sib else rbRL t sib)
  else (if onl then rbLR t sib else rbRR t sib)

/-- binary_trees.py:1451-1465: the sibling is black and has a red child. -/
def rbDelBlack (t : BTree κ δ) (parent sib : Nat) : PyM (BTree κ δ) := do
  let t ← setRoot t t.rootIdx false
  let t ← rbDelTurn t sib
  let t ← setRoot t t.rootIdx true
  paint t parent 0

/-- binary_trees.py:1433-1473, the body of the loop of `__fix_deletion`. -/
def rbDelBody (s : RbDelSt κ δ) : PyM (RbDelSt κ δ) := do
  let i ← asIdx s.node
  let sib ← getSibling s.t i
  let par ← getParent s.t i
  match sib with
  | none => .ok { s with node := par }
  | some sib => do
    let red ← isRedAt s.t (some sib)
    let parent ← asIdx par
    if red then do
      let t ← rbDelRed s.t parent sib
      .ok { s with t := t }
    else do
      let rc ← rbHasRedChild s.t sib
      if rc then do
        let t ← rbDelBlack s.t parent sib
        .ok { s with t := t, black := false }
      else do
        let t ← paint s.t sib 1
        let n ← getNode t parent
        let b ← isCol n 0
        if b then .ok { s with t := t, node := some parent }
        else do
          let t ← paint t parent 0
          .ok { s with t := t, black := false }

/-- binary_trees.py:1429-1473 `__fix_deletion(node_idx)`. -/
def rbFixDel (fuel : Nat) (t : BTree κ δ) (i : Nat) : PyM (BTree κ δ) := do
  let c ← colorAt t i
  let s ← whileLoop fuel rbDelCond rbDelBody ⟨t, some i, decide (c = 0)⟩
  .ok s.t

/-- binary_trees.py:1475-1489 `_remove_node`. In the case of one child the new positions are ignored (line 1488). -/
def rbRemove [DecidableEq κ] (fuel : Nat) (t : BTree κ δ) (i : Nat) : PyM (BTree κ δ) := do
  let par ← getParent t i
  let n ← getNode t i
  let r ← if rbIsLeaf n then do
      let p ← asIdx par
      delSlot t i p
    else if rbHasOne n then do
      let _ ← getNode? t par
      let _ ← getNode t t.rootIdx
      let res ← atDelete t i
      .ok (res.1, par)
    else .ok (t, par)
  updateSize fuel r.1 r.2

/-- binary_trees.py:1491-1499 `_delete_root`. -/
def rbDeleteRoot [DecidableEq κ] (t : BTree κ δ) (i : Nat) (i1 : Option Nat) : PyM (BTree κ δ) := do
  let n ← getNode t i
  if rbIsLeaf n then modNode t t.rootIdx (fun n => { n with data := none, key := none })
  else if rbHasOne n then do
    let c ← asIdx i1
    let r ← rbTransplant t i c
    let res ← atDelete r.1 c
    match res.2 with
    | none => .ok res.1
    | some ixs => do
      let root ← atIndex ixs r.2
      .ok { res.1 with rootIdx := root }
  else .ok t

/-- `if sibling_idx is not None: self.tree[sibling_idx].color = 1` (binary_trees.py:1511-1513). -/
def paintIf (t : BTree κ δ) (o : Option Nat) (c : Nat) : PyM (BTree κ δ) :=
  match o with
  | none => .ok t
  | some i => paint t i c

/-- binary_trees.py:1501-1519 `__leaf_case`. -/
def rbLeafCase [DecidableEq κ] (fuel : Nat) (t : BTree κ δ) (walk : Nat) (walk1 : Option Nat) : PyM (BTree κ δ) := do
  let par ← getParent t walk
  let c ← colorAt t walk
  match par with
  | none => rbDeleteRoot t walk walk1
  | some parent => do
    let bb ← rbBothBlack t (some c) walk1
    let t ← if bb then rbFixDel fuel t walk
      else do
        let sib ← getSibling t walk
        paintIf t sib 1
    let onl ← isOnLeft t walk
    let t ← modNode t parent (fun n => if onl then { n with left := none } else { n with right := none })
    rbRemove fuel t walk

/-- binary_trees.py:1521-1538 `__one_child_case`. -/
def rbOneCase [DecidableEq κ] (fuel : Nat) (t : BTree κ δ) (walk walk1 : Nat) : PyM (BTree κ δ) := do
  let c ← colorAt t walk
  let par ← getParent t walk
  match par with
  | none => rbDeleteRoot t walk (some walk1)
  | some parent => do
    let onl ← isOnLeft t walk
    let t ← modNode t parent (fun n => if onl then { n with left := some walk1 } else { n with right := some walk1 })
    let t ← modNode t walk1 (fun n => { n with parent := some parent })
    let t ← rbRemove fuel t walk
    let bb ← rbBothBlack t (some c) (some walk1)
    if bb then rbFixDel fuel t walk1 else paint t walk1 0

/-- binary_trees.py:1554-1557: the node `walk` has at most one child, `walk1`. -/
def rbDeleteNode [DecidableEq κ] (fuel : Nat) (t : BTree κ δ) (walk : Nat) (walk1 : Option Nat) : PyM (BTree κ δ) := do
  let n ← getNode t walk
  if rbIsLeaf n then rbLeafCase fuel t walk walk1
  else if rbHasOne n then do
    let w ← asIdx walk1
    rbOneCase fuel t walk w
  else .ok t

/-- binary_trees.py:1540-1560 `__two_child_case` and `delete(key)`: the tree and whether `True` is returned. -/
def rbDelete [DecidableEq κ] (lt : κ → κ → Bool) (fuel : Nat) (t : BTree κ δ) (k : κ) : PyM (BTree κ δ × Bool) := do
  let r ← bstSearch lt fuel t k
  match r with
  | none => .ok (t, false)
  | some walk => do
    let walk1 ← rbReplace fuel t walk
    let n ← getNode t walk
    let t ← if rbHasTwo n then do
        let s ← asIdx walk1
        let r ← rbTransplant t walk s
        let w1 ← rbReplace fuel r.1 s
        rbDeleteNode fuel r.1 s w1
      else rbDeleteNode fuel t walk walk1
    .ok (t, true)

end Model
