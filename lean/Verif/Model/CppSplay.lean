import Verif.Model.CppRotate
import Verif.Model.CppTraversal
import Verif.Model.Splay
import Verif.Model.SplayJoin

/-!
# The C++ splay tree

Model of `/repo/pydatastructs/trees/_backend/cpp/SplayTree.hpp`. Positions are compared by identity; every position has one object, so identity is equality. (After `join`
the links of the copied nodes are new objects, but no copy has a parent, so `splay` never compares them.) `search` is inherited from `BinarySearchTree` and does not splay.
-/
namespace Model.Cpp
open Py
variable {κ δ : Type}

/-- trees/_backend/cpp/SplayTree.hpp:46-59 `_zig(x, p)`. -/
def cZig (t : BTree κ δ) (x p : Nat) : PyM (BTree κ δ) := do
  let n ← cNode t p
  if n.left = some x then cRightRotate t p x else cLeftRotate t p x

/-- trees/_backend/cpp/SplayTree.hpp:61-70 `_zig_zig(x, p)`; `g` is `_data[p]->parent`. -/
def cZigZig (t : BTree κ δ) (x p g : Nat) : PyM (BTree κ δ) := do
  let t ← cRightRotate t g p
  cRightRotate t p x

/-- trees/_backend/cpp/SplayTree.hpp:81-90 `_zag_zag(x, p)`. -/
def cZagZag (t : BTree κ δ) (x p g : Nat) : PyM (BTree κ δ) := do
  let t ← cLeftRotate t g p
  cLeftRotate t p x

/-- trees/_backend/cpp/SplayTree.hpp:107-122, the body of the loop of `splay(x, p)` with `_zig_zag` and `_zag_zig` (lines 72-79, 92-99); the second component is `p`. The node of the grandparent
is read once. -/
def cSplayBody (x : Nat) (s : BTree κ δ × Option Nat) : PyM (BTree κ δ × Option Nat) := do
  let p ← cIdx s.2
  let n ← cNode s.1 p
  let t ← match n.parent with
    | none => cZig s.1 x p
    | some g => do
      let m ← cNode s.1 g
      if n.left = some x ∧ m.left = some p then cZigZig s.1 x p g
      else if n.right = some x ∧ m.right = some p then cZagZag s.1 x p g
      else if n.left = some x ∧ m.right = some p then cRightLeftRotate s.1 g p
      else cLeftRightRotate s.1 g p
  let n ← cNode t x
  .ok (t, n.parent)

/-- trees/_backend/cpp/SplayTree.hpp:106: the condition of the loop. -/
def cSplayCond (x : Nat) (s : BTree κ δ × Option Nat) : PyM Bool := do
  let n ← cNode s.1 x
  .ok n.parent.isSome

/-- trees/_backend/cpp/SplayTree.hpp:101-126 `splay(x, p)`. -/
def cSplay (fuel : Nat) (t : BTree κ δ) (x : Nat) (p : Option Nat) : PyM (BTree κ δ) := do
  let s ← whileLoop fuel (cSplayCond x) (cSplayBody x) (t, p)
  .ok s.1

/-- `search(key, parent=1)` unpacked with `PyTuple_GetItem` (trees/_backend/cpp/SplayTree.hpp:136-138, 151-153, 251-253): a search of an empty tree returns `None`, the items are `NULL`
and are used as positions. -/
def cSearchPair [DecidableEq κ] (cmp : κ → κ → Int) (fuel : Nat) (t : BTree κ δ) (k : κ) : PyM (Option Nat × Option Nat) := do
  match ← cSearchP cmp fuel t k with
  | some r => .ok r
  | none => .error .undefined

/-- trees/_backend/cpp/SplayTree.hpp:128-143 `insert(key, x)`. -/
def cSplayInsert [DecidableEq κ] (cmp : κ → κ → Int) (fuel : Nat) (c : CTree κ δ) (k : κ) (d : Option δ) : PyM (CTree κ δ) := do
  let c ← cInsert cmp fuel c k d
  let (e, p) ← cSearchPair cmp fuel c.t k
  let t ← cMod c.t (c.t.size - 1) (fun n => { n with parent := p })
  let e ← cIdx e
  let t ← cSplay fuel t e p
  .ok { c with t := t }

/-- trees/_backend/cpp/SplayTree.hpp:145-161 `delete(x)`; `None` is written as `false`. -/
def cSplayDelete [DecidableEq κ] (cmp : κ → κ → Int) (fuel : Nat) (c : CTree κ δ) (k : κ) : PyM (CTree κ δ × Bool) := do
  let (e, p) ← cSearchPair cmp fuel c.t k
  match e with
  | none => .ok (c, false)
  | some e => do
    let t ← cSplay fuel c.t e p
    cBstDelete cmp fuel { c with t := t } k

/-! ## split -/

/-- trees/_backend/cpp/SplayTree.hpp:230-241, the body of the loop of `_pre_order`. -/
def cSplayPreBody (t : BTree κ δ) (s : VisitSt κ δ) : PyM (VisitSt κ δ) :=
  match s.todo with
  | [] => .ok s
  | node :: rest => do
    let n ← cNode t node
    .ok ⟨cPush (cPush rest n.right) n.left, s.visit ++ [n]⟩

/-- trees/_backend/cpp/SplayTree.hpp:222-243 `_pre_order(node)`. -/
def cSplayPreOrder (fuel : Nat) (t : BTree κ δ) (node : Nat) : PyM (List (BNode κ δ)) := do
  let s ← whileLoop fuel visitCond (cSplayPreBody t) ⟨[node], []⟩
  .ok s.visit

/-- trees/_backend/cpp/SplayTree.hpp:272-274 on the new tree. A node without key is not inserted by this model (undefined); every node of a tree that is not empty has a key. -/
def cSplitInsert [DecidableEq κ] (cmp : κ → κ → Int) (fuel : Nat) (n : BNode κ δ) (o : CTree κ δ) : PyM (CTree κ δ) :=
  match n.key with
  | some k => cInsert cmp fuel o k n.data
  | none => .error .undefined

/-- trees/_backend/cpp/SplayTree.hpp:276-279, the body of the second loop of `split`: the cell of the element is overwritten with `None`, unchecked. -/
def cSplitClear [DecidableEq κ] (cmp : κ → κ → Int) (fuel : Nat) (n : BNode κ δ) (t : BTree κ δ) : PyM (BTree κ δ) :=
  match n.key with
  | some k => do
    let (e, _) ← cSearchPair cmp fuel t k
    let e ← cIdx e
    if e < t.arr.length then .ok { t with arr := t.arr.set e none } else .error .undefined
  | none => .error .undefined

/-- trees/_backend/cpp/SplayTree.hpp:245-285 `split(x)`: the tree, and what is returned. The new tree has the comparator of this one. -/
def cSplaySplit [DecidableEq κ] (cmp : κ → κ → Int) (fuel : Nat) (c : CTree κ δ) (x : κ) : PyM (CTree κ δ × Option (CTree κ δ)) := do
  let (e, p) ← cSearchPair cmp fuel c.t x
  match e with
  | none => .ok (c, none)
  | some e => do
    let t ← cSplay fuel c.t e p
    let o ← ctNew false none none
    let r ← cNode t t.rootIdx
    match r.right with
    | none => .ok ({ c with t := t }, some o)
    | some i => do
      let els ← cSplayPreOrder fuel t i
      let o ← forList els o (cSplitInsert cmp fuel)
      let t ← forList els.reverse t (cSplitClear cmp fuel)
      let t ← cMod t t.rootIdx (fun n => { n with right := none })
      .ok ({ c with t := t }, some o)

/-! ## join -/

/-- trees/_backend/cpp/SplayTree.hpp:169, the condition of the first loop of `join`. -/
def cJoinMaxCond (t : BTree κ δ) (i : Nat) : PyM Bool := do
  let n ← cNode t i
  .ok n.right.isSome

/-- trees/_backend/cpp/SplayTree.hpp:170. -/
def cJoinMaxBody (t : BTree κ δ) (i : Nat) : PyM Nat := do
  let n ← cNode t i
  cIdx n.right

/-- trees/_backend/cpp/SplayTree.hpp:173, the condition of the second loop of `join`. -/
def cJoinMinCond (t : BTree κ δ) (i : Nat) : PyM Bool := do
  let n ← cNode t i
  .ok n.left.isSome

/-- trees/_backend/cpp/SplayTree.hpp:174. -/
def cJoinMinBody (t : BTree κ δ) (i : Nat) : PyM Nat := do
  let n ← cNode t i
  cIdx n.left

/-- trees/_backend/cpp/SplayTree.hpp:204-210: the copy of a node of the other tree; it has no parent. -/
def cJoinCopy (up : Nat) (n : BNode κ δ) : BNode κ δ :=
  { key := n.key, data := n.data, left := n.left.map (· + up), right := n.right.map (· + up) }

/-- linear_data_structures/_backend/cpp/arrays/ArrayForTrees.hpp:137-166 `append`, called at trees/_backend/cpp/SplayTree.hpp:211 and 214; appending `None` counts as an element too. -/
def cJoinAppend [DecidableEq κ] (up : Nat) (x : Option (BNode κ δ)) (c : CTree κ δ) : PyM (CTree κ δ) :=
  if c.t.top = c.oda then do
    let r ← cModify ⟨{ c.t with
      arr := c.t.arr ++ x.map (cJoinCopy up) :: List.replicate (2 * c.oda + 1 - (c.t.top + 1)) none, top := c.t.top + 1, num := c.t.num + 1 }, 2 * c.oda + 1⟩
    .ok r.1
  else if c.t.top < c.t.arr.length then do
    let r ← cModify { c with t := { c.t with arr := c.t.arr.set c.t.top (x.map (cJoinCopy up)), top := c.t.top + 1, num := c.t.num + 1 } }
    .ok r.1
  else .error .undefined

/-- trees/_backend/cpp/SplayTree.hpp:195-220, the second half of `join`: the recorded size of the other array counts the cells that are read, the recorded size of this array is added to
the links. -/
def cJoinCopyAll [DecidableEq κ] (c o : CTree κ δ) : PyM (CTree κ δ) :=
  if o.oda ≤ o.t.arr.length then do
    let up := c.oda
    let c ← forList (o.t.arr.take o.oda) c (cJoinAppend up)
    let t ← cMod c.t c.t.rootIdx (fun n => { n with right := some (o.t.rootIdx + up) })
    .ok { c with t := t }
  else .error .undefined

/-- trees/_backend/cpp/SplayTree.hpp:163-220 `join(other)`: the keys are refused exactly when the comparator answers `0` (line 189). -/
def cSplayJoin [DecidableEq κ] (cmp : κ → κ → Int) (fuel : Nat) (c o : CTree κ δ) : PyM (CTree κ δ) := do
  let maxm ← whileLoop fuel (cJoinMaxCond c.t) (cJoinMaxBody c.t) c.t.rootIdx
  let minm ← whileLoop fuel (cJoinMinCond o.t) (cJoinMinBody o.t) o.t.rootIdx
  let a ← cNode c.t maxm
  let b ← cNode o.t minm
  let r ← cCmp cmp a.key b.key
  if r = 0 then .error .valueError
  else do
    let t ← cSplay fuel c.t maxm a.parent
    cJoinCopyAll { c with t := t } o

end Model.Cpp
