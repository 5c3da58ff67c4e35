import Verif.Model.CppRotate
import Verif.Model.RedBlackDelete

/-!
# The C++ red-black tree

Model of `/repo/pydatastructs/trees/_backend/cpp/RedBlackTree.hpp`. Positions are Python ints compared by identity; here every position object that is compared comes from a
link of the tree (or from `search`, which returns such a link), so identity is equality. Reading or writing through `None` (`PyLong_AsLong(None)` is -1) and through an empty
slot is the error `undefined`. Reference counts are not modelled.
-/
namespace Model.Cpp
open Py Model
variable {κ δ : Type}

/-- `node->color`, a `long` that a new node has as `1` (utils/_backend/cpp/TreeNode.hpp:48). -/
def cColor (n : BNode κ δ) : Nat := n.color.getD 1

/-- `_data[i]->color = c` (e.g. trees/_backend/cpp/RedBlackTree.hpp:119). -/
def cPaint (t : BTree κ δ) (i c : Nat) : PyM (BTree κ δ) := cMod t i (fun n => { n with color := some c })

/-- `_data[i]->is_root = b` (e.g. trees/_backend/cpp/RedBlackTree.hpp:123). -/
def cSetRoot (t : BTree κ δ) (i : Nat) (b : Bool) : PyM (BTree κ δ) := cMod t i (fun n => { n with isRoot := b })

/-- trees/_backend/cpp/RedBlackTree.hpp:43-48 `_get_parent`. -/
def cParent (t : BTree κ δ) (i : Nat) : PyM (Option Nat) := do
  let n ← cNode t i
  .ok n.parent

/-- `PyLong_AsLong(_get_parent(i))` (e.g. trees/_backend/cpp/RedBlackTree.hpp:55). -/
def cParentIdx (t : BTree κ δ) (i : Nat) : PyM Nat := do
  let p ← cParent t i
  cIdx p

/-- trees/_backend/cpp/RedBlackTree.hpp:59-79 `_get_sibling`. -/
def cSibling (t : BTree κ δ) (i : Nat) : PyM (Option Nat) := do
  let p ← cParent t i
  match p with
  | none => .ok none
  | some p => do
    let n ← cNode t p
    .ok (if n.left = some i then n.right else n.left)

/-- trees/_backend/cpp/RedBlackTree.hpp:81-87 `_get_uncle`. -/
def cUncle (t : BTree κ δ) (i : Nat) : PyM (Option Nat) := do
  let p ← cParentIdx t i
  cSibling t p

/-- trees/_backend/cpp/RedBlackTree.hpp:89-98 `_is_onleft`; `_is_onright` (100-106) is its negation. -/
def cOnLeft (t : BTree κ δ) (i : Nat) : PyM Bool := do
  let p ← cParentIdx t i
  let n ← cNode t p
  .ok (decide (n.left = some i))

/-- trees/_backend/cpp/RedBlackTree.hpp:124-133: the parent is a right child. -/
def cRbTurnRight (t : BTree κ δ) (node parent : Nat) : PyM (RbMove κ δ) := do
  let onl ← cOnLeft t node
  let m ← if onl then do
      let t ← cRightRotate t parent node
      let q ← cParentIdx t parent
      .ok (RbMove.mk t parent q)
    else .ok (RbMove.mk t node parent)
  let q ← cParentIdx m.t m.parent
  let t ← cLeftRotate m.t q m.parent
  .ok ⟨t, m.parent, q⟩

/-- trees/_backend/cpp/RedBlackTree.hpp:134-143: the parent is a left child. -/
def cRbTurnLeft (t : BTree κ δ) (node parent : Nat) : PyM (RbMove κ δ) := do
  let onl ← cOnLeft t node
  let m ← if onl then .ok (RbMove.mk t node parent)
    else do
      let t ← cLeftRotate t parent node
      let q ← cParentIdx t parent
      .ok (RbMove.mk t parent q)
  let q ← cParentIdx m.t m.parent
  let t ← cRightRotate m.t q m.parent
  .ok ⟨t, m.parent, q⟩

/-- trees/_backend/cpp/RedBlackTree.hpp:111, the loop condition of `__fix_insert`; `stop` is set by `break`. -/
def cRbCond (s : RbSt κ δ) : PyM Bool :=
  if s.stop then .ok false
  else do
    let n ← cNode s.t s.node
    match n.parent with
    | none => .ok false
    | some p => do
      let m ← cNode s.t p
      .ok (decide (cColor m = 1) && decide (cColor n = 1))

/-- `o != Py_None && _data[o]->color == 1` (trees/_backend/cpp/RedBlackTree.hpp:116). -/
def cRedAt (t : BTree κ δ) (o : Option Nat) : PyM Bool :=
  match o with
  | none => .ok false
  | some u => do
    let n ← cNode t u
    .ok (decide (cColor n = 1))

/-- trees/_backend/cpp/RedBlackTree.hpp:117-120: the uncle is red. -/
def cRbRecolor (t : BTree κ δ) (uncle : Option Nat) (parent : Nat) (grand : Option Nat) : PyM (RbMove κ δ) := do
  let u ← cIdx uncle
  let t ← cPaint t u 0
  let t ← cPaint t parent 0
  let g ← cIdx grand
  let t ← cPaint t g 1
  .ok ⟨t, g, parent⟩

/-- trees/_backend/cpp/RedBlackTree.hpp:122-147: the uncle is black. -/
def cRbRotate (t : BTree κ δ) (node parent : Nat) : PyM (RbMove κ δ) := do
  let t ← cSetRoot t t.rootIdx false
  let onl ← cOnLeft t parent
  let m ← if onl then cRbTurnLeft t node parent else cRbTurnRight t node parent
  let t ← cPaint m.t m.node 0
  let t ← cPaint t m.parent 1
  let t ← cSetRoot t t.rootIdx true
  .ok ⟨t, m.node, m.parent⟩

/-- trees/_backend/cpp/RedBlackTree.hpp:112-151, the body of the loop of `__fix_insert`. -/
def cRbBody (s : RbSt κ δ) : PyM (RbSt κ δ) := do
  let parent ← cParentIdx s.t s.node
  let grand ← cParent s.t parent
  let uncle ← cUncle s.t s.node
  let red ← cRedAt s.t uncle
  let m ← if red then cRbRecolor s.t uncle parent grand else cRbRotate s.t s.node parent
  let n ← cNode m.t m.node
  .ok ⟨m.t, m.node, n.isRoot⟩

/-- trees/_backend/cpp/RedBlackTree.hpp:108-154 `__fix_insert(node_idx)`. -/
def cRbFix (fuel : Nat) (t : BTree κ δ) (i : Nat) : PyM (BTree κ δ) := do
  let s ← whileLoop fuel cRbCond cRbBody ⟨t, i, false⟩
  cPaint s.t s.t.rootIdx 0

/-- trees/_backend/cpp/RedBlackTree.hpp:156-188 `insert`. -/
def cRbInsert [DecidableEq κ] (cmp : κ → κ → Int) (fuel : Nat) (c : CTree κ δ) (k : κ) (d : Option δ) : PyM (CTree κ δ) := do
  let c ← cInsert cmp fuel c k d
  let r ← cSearch cmp fuel c.t k
  let i ← cIdx r
  let n ← cNode c.t i
  let t ← cMod c.t i (fun n => { key := some k, data := d, color := some 1, left := n.left, right := n.right, parent := n.parent })
  if n.isRoot then do
    let t ← cSetRoot t i true
    let t ← cPaint t i 0
    .ok { c with t := t }
  else do
    let p ← cIdx n.parent
    let m ← cNode t p
    if cColor m = 1 then do
      let t ← cRbFix fuel t i
      .ok { c with t := t }
    else .ok { c with t := t }

/-! ## Deletion -/

/-- `_data[i]->right != Py_None` (trees/_backend/cpp/RedBlackTree.hpp:202). -/
def cPredCond (t : BTree κ δ) (i : Nat) : PyM Bool := do
  let n ← cNode t i
  .ok n.right.isSome

/-- `node_idx = _data[node_idx]->right` (trees/_backend/cpp/RedBlackTree.hpp:203). -/
def cPredBody (t : BTree κ δ) (i : Nat) : PyM Nat := do
  let n ← cNode t i
  cIdx n.right

/-- trees/_backend/cpp/RedBlackTree.hpp:198-206 `_find_predecessor`. -/
def cFindPred (fuel : Nat) (t : BTree κ δ) (i : Nat) : PyM Nat := whileLoop fuel (cPredCond t) (cPredBody t) i

/-- trees/_backend/cpp/RedBlackTree.hpp:208-215 `_is_leaf`. -/
def cIsLeaf (n : BNode κ δ) : Bool := decide (n.left = none) && decide (n.right = none)

/-- trees/_backend/cpp/RedBlackTree.hpp:217-224 `_has_two_child`. -/
def cHasTwo (n : BNode κ δ) : Bool := !decide (n.left = none) && !decide (n.right = none)

/-- trees/_backend/cpp/RedBlackTree.hpp:226-232 `_has_one_child`. -/
def cHasOne (n : BNode κ δ) : Bool := !cIsLeaf n && !cHasTwo n

/-- trees/_backend/cpp/RedBlackTree.hpp:234-254 `_transplant_values`: the tree and, in the case of a root with one child, its new key. Line 245 compares the parent of the
first node with `None` instead of assigning it, and so has no effect. -/
def cTransplant (t : BTree κ δ) (i1 i2 : Nat) : PyM (BTree κ δ × Option κ) := do
  let n1 ← cNode t i1
  let n2 ← cNode t i2
  if n1.isRoot && cHasOne n1 then do
    let t ← cMod t t.rootIdx (fun n => { n with key := n2.key, data := n2.data, left := n2.left, right := n2.right })
    let r ← cNode t t.rootIdx
    .ok (t, r.key)
  else do
    let t ← cMod t i1 (fun n => { n with key := n2.key, data := n2.data })
    .ok (t, none)

/-- trees/_backend/cpp/RedBlackTree.hpp:256-265 `__has_red_child`. -/
def cHasRedChild (t : BTree κ δ) (i : Nat) : PyM Bool := do
  let n ← cNode t i
  let l ← cRedAt t n.left
  if l then .ok true else cRedAt t n.right

/-- trees/_backend/cpp/RedBlackTree.hpp:267-290 `_replace_node`. -/
def cReplace (fuel : Nat) (t : BTree κ δ) (i : Nat) : PyM (Option Nat) := do
  let n ← cNode t i
  match n.left, n.right with
  | none, none => .ok none
  | some c, none => .ok (some c)
  | none, some c => .ok (some c)
  | some l, some _ => do
    let p ← cFindPred fuel t l
    .ok (some p)

/-- trees/_backend/cpp/RedBlackTree.hpp:292-301 `__walk1_walk_isblack(color, node_idx1)`; the object of the number 0 is unique. -/
def cBothBlack (t : BTree κ δ) (color : Nat) (i1 : Option Nat) : PyM Bool :=
  match i1 with
  | none => .ok (decide (color = 0))
  | some i => do
    let n ← cNode t i
    .ok (decide (cColor n = 0) && decide (color = 0))

/-- `_data[i]->color` (trees/_backend/cpp/RedBlackTree.hpp:309-355). -/
def cColorAt (t : BTree κ δ) (i : Nat) : PyM Nat := do
  let n ← cNode t i
  .ok (cColor n)

/-- trees/_backend/cpp/RedBlackTree.hpp:303-315 `__left_left_sublingcase`. -/
def cRbLL (t : BTree κ δ) (i : Nat) : PyM (BTree κ δ) := do
  let n ← cNode t i
  let p ← cParentIdx t i
  let pc ← cColorAt t p
  let l ← cIdx n.left
  let c ← cColorAt t i
  let t ← cPaint t l c
  let t ← cPaint t i pc
  cRightRotate t p i

/-- trees/_backend/cpp/RedBlackTree.hpp:317-330 `__right_left_sublingcase`. -/
def cRbRL (t : BTree κ δ) (i : Nat) : PyM (BTree κ δ) := do
  let n ← cNode t i
  let p ← cParentIdx t i
  let pc ← cColorAt t p
  let l ← cIdx n.left
  let t ← cPaint t l pc
  let t ← cRightRotate t i l
  let c ← cParentIdx t i
  cLeftRotate t p c

/-- trees/_backend/cpp/RedBlackTree.hpp:332-345 `__left_right_sublingcase`. -/
def cRbLR (t : BTree κ δ) (i : Nat) : PyM (BTree κ δ) := do
  let n ← cNode t i
  let p ← cParentIdx t i
  let pc ← cColorAt t p
  let r ← cIdx n.right
  let t ← cPaint t r pc
  let t ← cLeftRotate t i r
  let c ← cParentIdx t i
  cRightRotate t p c

/-- trees/_backend/cpp/RedBlackTree.hpp:347-359 `__right_right_sublingcase`. -/
def cRbRR (t : BTree κ δ) (i : Nat) : PyM (BTree κ δ) := do
  let n ← cNode t i
  let p ← cParentIdx t i
  let pc ← cColorAt t p
  let r ← cIdx n.right
  let c ← cColorAt t i
  let t ← cPaint t r c
  let t ← cPaint t i pc
  cLeftRotate t p i

/-- `node_idx != bt->root_idx && color == 0` (trees/_backend/cpp/RedBlackTree.hpp:367). -/
def cRbDelCond (s : RbDelSt κ δ) : PyM Bool := .ok (!decide (s.node = some s.t.rootIdx) && s.black)

/-- trees/_backend/cpp/RedBlackTree.hpp:375-386: the sibling is red. -/
def cRbDelRed (t : BTree κ δ) (parent sib : Nat) : PyM (BTree κ δ) := do
  let t ← cSetRoot t t.rootIdx false
  let t ← cPaint t parent 1
  let t ← cPaint t sib 0
  let onl ← cOnLeft t sib
  let t ← if onl then cRightRotate t parent sib else cLeftRotate t parent sib
  cSetRoot t t.rootIdx true

/-- trees/_backend/cpp/RedBlackTree.hpp:391-407: which of the four cases applies to a black sibling with a red child. -/
def cRbDelTurn (t : BTree κ δ) (sib : Nat) : PyM (BTree κ δ) := do
  let n ← cNode t sib
  let l ← cRedAt t n.left
  let onl ← cOnLeft t sib
  if l then (if onl then cRbLL t sib else cRbRL t sib)
  else (if onl then cRbLR t sib else cRbRR t sib)

/-- trees/_backend/cpp/RedBlackTree.hpp:389-409: the sibling is black and has a red child. -/
def cRbDelBlack (t : BTree κ δ) (parent sib : Nat) : PyM (BTree κ δ) := do
  let t ← cSetRoot t t.rootIdx false
  let t ← cRbDelTurn t sib
  let t ← cSetRoot t t.rootIdx true
  cPaint t parent 0

/-- trees/_backend/cpp/RedBlackTree.hpp:368-424, the body of the loop of `__fix_deletion`. -/
def cRbDelBody (s : RbDelSt κ δ) : PyM (RbDelSt κ δ) := do
  let i ← cIdx s.node
  let sib ← cSibling s.t i
  let par ← cParent s.t i
  match sib with
  | none => .ok { s with node := par }
  | some sib => do
    let red ← cRedAt s.t (some sib)
    let parent ← cIdx par
    if red then do
      let t ← cRbDelRed s.t parent sib
      .ok { s with t := t }
    else do
      let rc ← cHasRedChild s.t sib
      if rc then do
        let t ← cRbDelBlack s.t parent sib
        .ok { s with t := t, black := false }
      else do
        let t ← cPaint s.t sib 1
        let n ← cNode t parent
        if cColor n = 0 then .ok { s with t := t, node := some parent }
        else do
          let t ← cPaint t parent 0
          .ok { s with t := t, black := false }

/-- trees/_backend/cpp/RedBlackTree.hpp:361-426 `__fix_deletion(node_idx)`. -/
def cRbFixDel (fuel : Nat) (t : BTree κ δ) (i : Nat) : PyM (BTree κ δ) := do
  let c ← cColorAt t i
  let s ← whileLoop fuel cRbDelCond cRbDelBody ⟨t, some i, decide (c = 0)⟩
  .ok s.t

/-- trees/_backend/cpp/RedBlackTree.hpp:428-452 `_remove_node`. In the case of one child the new positions are ignored (line 448). -/
def cRbRemove [DecidableEq κ] (fuel : Nat) (c : CTree κ δ) (i : Nat) : PyM (CTree κ δ) := do
  let par ← cParent c.t i
  let n ← cNode c.t i
  let r ← if cIsLeaf n then do
      let p ← cIdx par
      cDelSlot c i p
    else if cHasOne n then do
      let p ← cIdx par
      let _ ← cNode c.t p
      let _ ← cNode c.t c.t.rootIdx
      let res ← cDelete c i
      .ok (res.1, par)
    else .ok (c, par)
  let t ← cUpdateSize fuel r.1.t r.2
  .ok { r.1 with t := t }

/-- trees/_backend/cpp/RedBlackTree.hpp:454-471 `_delete_root`. -/
def cRbDeleteRoot [DecidableEq κ] (c : CTree κ δ) (i : Nat) (i1 : Option Nat) : PyM (CTree κ δ) := do
  let n ← cNode c.t i
  if cIsLeaf n then do
    let t ← cMod c.t c.t.rootIdx (fun n => { n with data := none, key := none })
    .ok { c with t := t }
  else if cHasOne n then do
    let x ← cIdx i1
    let r ← cTransplant c.t i x
    let res ← cDelete { c with t := r.1 } x
    match res.2 with
    | none => .ok res.1
    | some ixs => do
      let root ← cIndex ixs r.2
      .ok { res.1 with t := { res.1.t with rootIdx := root } }
  else .ok c

/-- `if (o != Py_None) _data[o]->color = c` (trees/_backend/cpp/RedBlackTree.hpp:490-492). -/
def cPaintIf (t : BTree κ δ) (o : Option Nat) (c : Nat) : PyM (BTree κ δ) :=
  match o with
  | none => .ok t
  | some i => cPaint t i c

/-- trees/_backend/cpp/RedBlackTree.hpp:473-504 `__leaf_case`. -/
def cRbLeafCase [DecidableEq κ] (fuel : Nat) (c : CTree κ δ) (walk : Nat) (walk1 : Option Nat) : PyM (CTree κ δ) := do
  let par ← cParent c.t walk
  let col ← cColorAt c.t walk
  match par with
  | none => cRbDeleteRoot c walk walk1
  | some parent => do
    let bb ← cBothBlack c.t col walk1
    let t ← if bb then cRbFixDel fuel c.t walk
      else do
        let sib ← cSibling c.t walk
        cPaintIf c.t sib 1
    let onl ← cOnLeft t walk
    let t ← cMod t parent (fun n => if onl then { n with left := none } else { n with right := none })
    cRbRemove fuel { c with t := t } walk

/-- trees/_backend/cpp/RedBlackTree.hpp:506-535 `__one_child_case`. -/
def cRbOneCase [DecidableEq κ] (fuel : Nat) (c : CTree κ δ) (walk walk1 : Nat) : PyM (CTree κ δ) := do
  let col ← cColorAt c.t walk
  let par ← cParent c.t walk
  match par with
  | none => cRbDeleteRoot c walk (some walk1)
  | some parent => do
    let onl ← cOnLeft c.t walk
    let t ← cMod c.t parent (fun n => if onl then { n with left := some walk1 } else { n with right := some walk1 })
    let t ← cMod t walk1 (fun n => { n with parent := some parent })
    let c ← cRbRemove fuel { c with t := t } walk
    let bb ← cBothBlack c.t col (some walk1)
    if bb then do
      let t ← cRbFixDel fuel c.t walk1
      .ok { c with t := t }
    else do
      let t ← cPaint c.t walk1 0
      .ok { c with t := t }

/-- trees/_backend/cpp/RedBlackTree.hpp:562-567: the node `walk` has at most one child, `walk1`. -/
def cRbDeleteNode [DecidableEq κ] (fuel : Nat) (c : CTree κ δ) (walk : Nat) (walk1 : Option Nat) : PyM (CTree κ δ) := do
  let n ← cNode c.t walk
  if cIsLeaf n then cRbLeafCase fuel c walk walk1
  else if cHasOne n then do
    let w ← cIdx walk1
    cRbOneCase fuel c walk w
  else .ok c

/-- trees/_backend/cpp/RedBlackTree.hpp:537-575 `__two_child_case` and `delete(key)`: the tree and whether `True` is returned (otherwise `None`). -/
def cRbDelete [DecidableEq κ] (cmp : κ → κ → Int) (fuel : Nat) (c : CTree κ δ) (k : κ) : PyM (CTree κ δ × Bool) := do
  let r ← cSearch cmp fuel c.t k
  match r with
  | none => .ok (c, false)
  | some walk => do
    let walk1 ← cReplace fuel c.t walk
    let n ← cNode c.t walk
    let c ← if cHasTwo n then do
        let s ← cIdx walk1
        let r ← cTransplant c.t walk s
        let w1 ← cReplace fuel r.1 s
        cRbDeleteNode fuel { c with t := r.1 } s w1
      else cRbDeleteNode fuel c walk walk1
    .ok (c, true)

end Model.Cpp
