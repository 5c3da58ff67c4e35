import Verif.Model.Splay
import Verif.Model.TreeTraversal

/-!
# `join` and `split` of splay trees

Model of `SplayTree.join` and `SplayTree.split` (`/repo/pydatastructs/trees/binary_trees.py:1139-1209`), Python backend. Both trees use
the same comparator `lt` (`split` creates its second tree with the default one).
-/
namespace Model
open Py
variable {κ δ : Type}

/-! ## split -/

/-- binary_trees.py:1204 `super().insert(elements[i].key, elements[i].data)` on the new tree. A node without key is not inserted by this
model (`TypeError`); every node of a tree that is not empty has a key. -/
def splitInsert [DecidableEq κ] (lt : κ → κ → Bool) (fuel : Nat) (n : BNode κ δ) (o : BTree κ δ) : PyM (BTree κ δ) :=
  match n.key with
  | some k => bstInsert lt fuel o k n.data
  | none => .error .typeError

/-- binary_trees.py:1206-1207, the body of the second loop of `split`: the cell of the element is overwritten with `None`; the counters of the
array and of the tree stay as they are. -/
def splitClear [DecidableEq κ] (lt : κ → κ → Bool) (fuel : Nat) (n : BNode κ δ) (t : BTree κ δ) : PyM (BTree κ δ) :=
  match n.key with
  | some k => do
    let (e, _) ← searchPair lt fuel t k
    let e ← asIdx e
    let arr ← wr t.arr e none
    .ok { t with arr := arr }
  | none => .error .typeError

/-- binary_trees.py:1176-1209 `split(x)`: the tree, and what is returned. -/
def splaySplit [DecidableEq κ] (lt : κ → κ → Bool) (fuel : Nat) (t : BTree κ δ) (x : κ) : PyM (BTree κ δ × Option (BTree κ δ)) := do
  let (e, p) ← searchPair lt fuel t x
  match e with
  | none => .ok (t, none)
  | some e => do
    let t ← splay fuel t e p
    let r ← getNode t t.rootIdx
    match r.right with
    | none => .ok (t, some (btEmpty false))
    | some c => do
      let els ← treeDfs fuel t .pre (some c)
      let o ← forList els (btEmpty false) (splitInsert lt fuel)
      let t ← forList els.reverse t (splitClear lt fuel)
      let t ← modNode t t.rootIdx (fun n => { n with right := none })
      .ok (t, some o)

/-! ## join -/

/-- binary_trees.py:1152, the condition of the first loop of `join`: `self.tree[maxm].right is not None`. -/
def joinMaxCond (t : BTree κ δ) (i : Nat) : PyM Bool := do
  let n ← getNode t i
  .ok n.right.isSome

/-- binary_trees.py:1153 `maxm = self.tree[maxm].right`. -/
def joinMaxBody (t : BTree κ δ) (i : Nat) : PyM Nat := do
  let n ← getNode t i
  asIdx n.right

/-- binary_trees.py:1155, the condition of the second loop of `join`: `other.tree[minm].left is not None`. -/
def joinMinCond (t : BTree κ δ) (i : Nat) : PyM Bool := do
  let n ← getNode t i
  .ok n.left.isSome

/-- binary_trees.py:1156 `minm = other.tree[minm].left`. -/
def joinMinBody (t : BTree κ δ) (i : Nat) : PyM Nat := do
  let n ← getNode t i
  asIdx n.left

/-- binary_trees.py:1165-1169: the copy of a node of the other tree; it has no parent. -/
def joinCopy (up : Nat) (n : BNode κ δ) : BNode κ δ :=
  { key := n.key, data := n.data, left := n.left.map (· + up), right := n.right.map (· + up) }

/-- linear_data_structures/arrays.py:398-410 `append`, called at binary_trees.py:1170 and 1172; appending `None` counts as an element too. -/
def joinAppend [DecidableEq κ] (up : Nat) (c : Option (BNode κ δ)) (t : BTree κ δ) : PyM (BTree κ δ) := do
  let c := c.map (joinCopy up)
  let arr := if t.top = t.arr.length then
      t.arr ++ c :: List.replicate (2 * t.arr.length + 1 - (t.arr.length + 1)) none
    else t.arr.set t.top c
  let r ← atModify { t with arr := arr, top := t.top + 1, num := t.num + 1 }
  .ok r.1

/-- binary_trees.py:1139-1174 `join(other)`; the links of the copies are shifted by the *capacity* of the array (`_size`, line 1162). -/
def splayJoin [DecidableEq κ] (lt : κ → κ → Bool) (fuel : Nat) (t o : BTree κ δ) : PyM (BTree κ δ) := do
  let maxm ← whileLoop fuel (joinMaxCond t) (joinMaxBody t) t.rootIdx
  let minm ← whileLoop fuel (joinMinCond o) (joinMinBody o) o.rootIdx
  let a ← getNode t maxm
  let b ← getNode o minm
  let less ← cmpKey lt a.key b.key
  if less then do
    let t ← splay fuel t maxm a.parent
    let up := t.arr.length
    let t ← forList o.arr t (joinAppend up)
    modNode t t.rootIdx (fun n => { n with right := some (o.rootIdx + up) })
  else .error .valueError

end Model
