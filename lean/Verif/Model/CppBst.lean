import Verif.Model.BinaryTree

/-!
# The C++ binary search tree

Models of `/repo/pydatastructs/trees/_backend/cpp/BinarySearchTree.hpp` and of
`linear_data_structures/_backend/cpp/arrays/ArrayForTrees.hpp`, used with `backend=Backend.CPP`.

Keys are Python objects and the C++ code compares them by identity (`==` on `PyObject*`); so `=` on `κ` is *identity of objects*: two objects
with the same value are two elements of `κ`. The comparator is any function with integer answers. Indices are compared by identity too; every node has one index object
(the one stored in the link to it is also the one stored in the parent links of its children and the one returned by a walk), so there
identity is equality. `long` is not bounded. Reading an array cell that does not exist or that holds no node, using `None` as an index and
calling the comparator with `None` (it raises, and the result `NULL` is used) are undefined behaviour. Reference counts are not modelled.
-/
namespace Model.Cpp
open Py
variable {κ δ : Type}

/-- The tree and its `ArrayForTrees` (linear_data_structures/_backend/cpp/arrays/ArrayForTrees.hpp:14-20, trees/_backend/cpp/BinaryTree.hpp:14-20): `t.arr` are the cells
that are allocated, `_size` is always their number, and `oda` is the *recorded* number `_one_dimensional_array->_size`. -/
structure CTree (κ δ : Type) where
  t : BTree κ δ
  oda : Nat
  deriving DecidableEq, Repr

/-- trees/_backend/cpp/BinaryTree.hpp:26-80 `BinaryTree___new__` with the arguments `key` and `root_data`. The root node is made of the arguments themselves
(line 47), not of the `key` of line 42. -/
def ctNew (orderStat : Bool) (key : Option κ) (data : Option δ) : PyM (CTree κ δ) :=
  if key.isNone ∧ data.isSome then .error .valueError
  else .ok ⟨⟨[some { key := key, data := data, isRoot := true }], 1, 1, 0, 1, orderStat⟩, 1⟩

/-- `reinterpret_cast<TreeNode*>(_data[i])` (e.g. trees/_backend/cpp/BinarySearchTree.hpp:47). -/
def cNode (t : BTree κ δ) (i : Nat) : PyM (BNode κ δ) :=
  match t.arr[i]? with
  | some (some n) => .ok n
  | _ => .error .undefined

/-- `PyLong_AsLong(o)` where `o` may be `None` (e.g. trees/_backend/cpp/BinarySearchTree.hpp:72). -/
def cIdx (o : Option Nat) : PyM Nat :=
  match o with
  | some i => .ok i
  | none => .error .undefined

/-- `_data[i]->x = v` (e.g. trees/_backend/cpp/BinarySearchTree.hpp:148). -/
def cMod (t : BTree κ δ) (i : Nat) (f : BNode κ δ → BNode κ δ) : PyM (BTree κ δ) := do
  let n ← cNode t i
  .ok { t with arr := t.arr.set i (some (f n)) }

/-- `PyObject_CallObject(bt->comparator, (a, b))` (trees/_backend/cpp/BinarySearchTree.hpp:108-116). -/
def cCmp (cmp : κ → κ → Int) (a b : Option κ) : PyM Int :=
  match a, b with
  | some a, some b => .ok (cmp a b)
  | _, _ => .error .undefined

/-! ## ArrayForTrees -/

/-- `PyDict_GetItem(new_indices, key)` (trees/_backend/cpp/BinarySearchTree.hpp:247-248): `NULL` when missing. The dictionary compares by value; the model by identity, which
differs only when two equal keys are in the tree. -/
def cIndex [DecidableEq κ] (ixs : List (Option κ × Nat)) (k : Option κ) : PyM Nat :=
  match ixs.lookup k with
  | some j => .ok j
  | none => .error .undefined

/-- One link of the second loop of `_modify` (linear_data_structures/_backend/cpp/arrays/ArrayForTrees.hpp:111-125). -/
def cRelinkOne [DecidableEq κ] (t : BTree κ δ) (ixs : List (Option κ × Nat)) (o : Option Nat) : PyM (Option Nat) :=
  match o with
  | none => .ok none
  | some i => do
    let n ← cNode t i
    let j ← cIndex ixs n.key
    .ok (some j)

/-- linear_data_structures/_backend/cpp/arrays/ArrayForTrees.hpp:110-126, the body of the second loop of `_modify`. -/
def cRelinkNode [DecidableEq κ] (t : BTree κ δ) (ixs : List (Option κ × Nat)) (n : BNode κ δ) (out : List (Option (BNode κ δ))) :
    PyM (List (Option (BNode κ δ))) := do
  let l ← cRelinkOne t ixs n.left
  let r ← cRelinkOne t ixs n.right
  let p ← cRelinkOne t ixs n.parent
  .ok (out ++ [some { n with left := l, right := r, parent := p }])

/-- linear_data_structures/_backend/cpp/arrays/ArrayForTrees.hpp:86-135 `_modify`. The new array has `2*_num + 1` cells, but lines 129-130 both assign `_size`:
the recorded size `oda` keeps its value. -/
def cModify [DecidableEq κ] (c : CTree κ δ) : PyM (CTree κ δ × Option (List (Option κ × Nat))) :=
  if 4 * c.t.num < c.t.arr.length then do
    let p := atCompact (c.t.arr.take c.t.top) 0 [] []
    let out ← forList p.2 [] (cRelinkNode c.t p.1)
    .ok ({ c with t := { c.t with arr := out ++ List.replicate (2 * c.t.num + 1 - p.2.length) none, top := p.2.length } }, some p.1)
  else .ok (c, none)

/-- linear_data_structures/_backend/cpp/arrays/ArrayForTrees.hpp:137-166 `append`: the recorded size decides whether the array grows; otherwise the cell is written
unchecked. -/
def cAppend [DecidableEq κ] (c : CTree κ δ) (n : BNode κ δ) : PyM (CTree κ δ) :=
  if c.t.top = c.oda then do
    let r ← cModify ⟨{ c.t with
      arr := c.t.arr ++ some n :: List.replicate (2 * c.oda + 1 - (c.t.top + 1)) none, top := c.t.top + 1, num := c.t.num + 1 }, 2 * c.oda + 1⟩
    .ok r.1
  else if c.t.top < c.t.arr.length then do
    let r ← cModify { c with t := { c.t with arr := c.t.arr.set c.t.top (some n), top := c.t.top + 1, num := c.t.num + 1 } }
    .ok r.1
  else .error .undefined

/-- linear_data_structures/_backend/cpp/arrays/ArrayForTrees.hpp:168-191 `delete`. -/
def cDelete [DecidableEq κ] (c : CTree κ δ) (i : Nat) : PyM (CTree κ δ × Option (List (Option κ × Nat))) :=
  if i < c.t.top ∧ (c.t.arr[i]?).join.isSome then
    cModify { c with t := { c.t with arr := c.t.arr.set i none, num := c.t.num - 1, top := if c.t.top = i + 1 then i else c.t.top } }
  else .ok (c, none)

/-! ## BinarySearchTree -/

/-- trees/_backend/cpp/BinarySearchTree.hpp:43-52 `left_size`. -/
def cLeftSize (t : BTree κ δ) (n : BNode κ δ) : PyM Nat :=
  match n.left with
  | none => .ok 0
  | some i => do
    let m ← cNode t i
    .ok m.size

/-- trees/_backend/cpp/BinarySearchTree.hpp:54-63 `right_size`. -/
def cRightSize (t : BTree κ δ) (n : BNode κ δ) : PyM Nat :=
  match n.right with
  | none => .ok 0
  | some i => do
    let m ← cNode t i
    .ok m.size

/-- trees/_backend/cpp/BinarySearchTree.hpp:69-73, the body of the loop of `_update_size`. -/
def cSizeBody (s : BTree κ δ × Option Nat) : PyM (BTree κ δ × Option Nat) := do
  let w ← cIdx s.2
  let n ← cNode s.1 w
  let a ← cLeftSize s.1 n
  let b ← cRightSize s.1 n
  let t ← cMod s.1 w (fun n => { n with size := a + b + 1 })
  let n ← cNode t w
  .ok (t, n.parent)

/-- trees/_backend/cpp/BinarySearchTree.hpp:65-76 `_update_size`. -/
def cUpdateSize (fuel : Nat) (t : BTree κ δ) (start : Option Nat) : PyM (BTree κ δ) :=
  if t.orderStat then do
    let s ← whileLoop fuel walking cSizeBody (t, start)
    .ok s.1
  else .ok t

/-- trees/_backend/cpp/BinarySearchTree.hpp:95-122, the body of the loop of `search`: to the left exactly when the comparator answers `1`. -/
def cSearchBody [DecidableEq κ] (cmp : κ → κ → Int) (t : BTree κ δ) (k : κ) (s : BstSearchSt) : PyM BstSearchSt := do
  let w ← cIdx s.walk
  let n ← cNode t w
  if n.key = some k then .ok { s with found := true }
  else do
    let c ← cCmp cmp (some k) n.key
    .ok ⟨if c = 1 then n.left else n.right, some w, false⟩

/-- trees/_backend/cpp/BinarySearchTree.hpp:78-132 `search(key, parent=1)`; `none` when the single value `None` is returned (empty tree). -/
def cSearchP [DecidableEq κ] (cmp : κ → κ → Int) (fuel : Nat) (t : BTree κ δ) (k : κ) : PyM (Option (Option Nat × Option Nat)) := do
  let r ← cNode t t.rootIdx
  if r.key = none then .ok none
  else do
    let s ← whileLoop fuel bstSearchCond (cSearchBody cmp t k) ⟨some t.rootIdx, none, false⟩
    .ok (some (s.walk, s.parent))

/-- trees/_backend/cpp/BinarySearchTree.hpp:78-132 `search(key)`. -/
def cSearch [DecidableEq κ] (cmp : κ → κ → Int) (fuel : Nat) (t : BTree κ δ) (k : κ) : PyM (Option Nat) := do
  let r ← cSearchP cmp fuel t k
  .ok (r.bind (·.1))

/-- The state of the loop of `insert` (trees/_backend/cpp/BinarySearchTree.hpp:152-166): `walk`, `prev_node`, `flag`. -/
structure CInsertSt (κ δ : Type) where
  c : CTree κ δ
  walk : Option Nat
  prev : Option Nat
  flag : Bool

/-- trees/_backend/cpp/BinarySearchTree.hpp:183-187 / 194-198: hang the new node below `walk`. -/
def cInsertHere [DecidableEq κ] (c : CTree κ δ) (w : Nat) (prev : Option Nat) (k : κ) (d : Option δ)
    (link : Nat → BNode κ δ → BNode κ δ) : PyM (CTree κ δ) := do
  let c ← cAppend c { key := some k, data := d, parent := prev }
  let t ← cMod c.t w (link c.t.size)
  .ok { c with t := { t with size := t.size + 1 } }

/-- trees/_backend/cpp/BinarySearchTree.hpp:167-202, the body of the loop of `insert`: to the right exactly when the comparator answers `0`. -/
def cInsertBody [DecidableEq κ] (cmp : κ → κ → Int) (k : κ) (d : Option δ) (s : CInsertSt κ δ) : PyM (CInsertSt κ δ) := do
  let w ← cIdx s.walk
  let n ← cNode s.c.t w
  let b ← cCmp cmp (some k) n.key
  if b = 0 then do
    if n.right = none then do
      let c ← cInsertHere s.c w s.prev k d (fun i n => { n with right := some i })
      let m ← cNode c.t w
      .ok ⟨c, m.right, m.right, false⟩
    else .ok ⟨s.c, n.right, n.right, s.flag⟩
  else do
    if n.left = none then do
      let c ← cInsertHere s.c w s.prev k d (fun i n => { n with left := some i })
      let m ← cNode c.t w
      .ok ⟨c, m.left, m.left, false⟩
    else .ok ⟨s.c, n.left, n.left, s.flag⟩

/-- `while (flag)` (trees/_backend/cpp/BinarySearchTree.hpp:166). -/
def cInsertCond (s : CInsertSt κ δ) : PyM Bool := .ok s.flag

/-- trees/_backend/cpp/BinarySearchTree.hpp:152-206: `insert` after the search for the key has failed. -/
def cInsertNew [DecidableEq κ] (cmp : κ → κ → Int) (fuel : Nat) (c : CTree κ δ) (k : κ) (d : Option δ) : PyM (CTree κ δ) := do
  let r ← cNode c.t c.t.rootIdx
  if r.key = none then do
    let t ← cMod c.t c.t.rootIdx (fun n => { n with key := some k, data := d })
    .ok { c with t := t }
  else do
    let s ← whileLoop fuel cInsertCond (cInsertBody cmp k d) ⟨c, some c.t.rootIdx, some c.t.rootIdx, true⟩
    let t ← cUpdateSize fuel s.c.t s.walk
    .ok { s.c with t := t }

/-- trees/_backend/cpp/BinarySearchTree.hpp:134-206 `insert(key, data)`. -/
def cInsert [DecidableEq κ] (cmp : κ → κ → Int) (fuel : Nat) (c : CTree κ δ) (k : κ) (d : Option δ) : PyM (CTree κ δ) := do
  let res ← cSearch cmp fuel c.t k
  match res with
  | some i => do
    let t ← cMod c.t i (fun n => { n with data := d })
    .ok { c with t := t }
  | none => cInsertNew cmp fuel c k d

/-- trees/_backend/cpp/BinarySearchTree.hpp:338-384 `_bound_helper`; the fuel bounds the depth of the recursion. -/
def cBound [DecidableEq κ] (cmp : κ → κ → Int) (t : BTree κ δ) (bound : κ) (upper : Bool) : Nat → Option Nat → PyM (Option κ)
  | 0, _ => .error .outOfFuel
  | _ + 1, none => .ok none
  | fuel + 1, some i => do
    let n ← cNode t i
    if n.key = none then .ok none
    else if n.key = some bound then
      if upper then cBound cmp t bound upper fuel n.right else .ok n.key
    else do
      let c ← cCmp cmp n.key (some bound)
      if c = 1 then cBound cmp t bound upper fuel n.right
      else do
        let r ← cBound cmp t bound upper fuel n.left
        .ok (if r.isSome then r else n.key)

/-- trees/_backend/cpp/BinarySearchTree.hpp:386-389 `lower_bound`. -/
def cLower [DecidableEq κ] (cmp : κ → κ → Int) (fuel : Nat) (t : BTree κ δ) (k : κ) : PyM (Option κ) :=
  cBound cmp t k false fuel (some t.rootIdx)

/-- trees/_backend/cpp/BinarySearchTree.hpp:391-394 `upper_bound`. -/
def cUpper [DecidableEq κ] (cmp : κ → κ → Int) (fuel : Nat) (t : BTree κ δ) (k : κ) : PyM (Option κ) :=
  cBound cmp t k true fuel (some t.rootIdx)

/-! ### delete -/

/-- `new_indices = ArrayForTrees_delete(x)` and the lookups of `par_key` and `root_key`
(trees/_backend/cpp/BinarySearchTree.hpp:242-249, 276-283). -/
def cDelSlot [DecidableEq κ] (c : CTree κ δ) (x par : Nat) : PyM (CTree κ δ × Option Nat) := do
  let p ← cNode c.t par
  let r ← cNode c.t c.t.rootIdx
  let res ← cDelete c x
  match res.2 with
  | none => .ok (res.1, some par)
  | some ixs => do
    let a ← cIndex ixs p.key
    let root ← cIndex ixs r.key
    .ok ({ res.1 with t := { res.1.t with rootIdx := root } }, some a)

/-- trees/_backend/cpp/BinarySearchTree.hpp:234-241 / 309-314: the child link of `parent` that points at `walk` becomes `x`. -/
def cTurn (t : BTree κ δ) (parent walk : Nat) (x : Option Nat) : PyM (BTree κ δ) := do
  let p ← cNode t parent
  if p.left = some walk then cMod t parent (fun n => { n with left := x })
  else cMod t parent (fun n => { n with right := x })

/-- trees/_backend/cpp/BinarySearchTree.hpp:228-252: the node has no child. -/
def cDelLeaf [DecidableEq κ] (fuel : Nat) (c : CTree κ δ) (walk : Nat) (parent : Option Nat) : PyM (CTree κ δ × Option Nat) :=
  match parent with
  | none => do
    let t ← cMod c.t c.t.rootIdx (fun n => { n with data := none, key := none })
    let t ← cUpdateSize fuel t none
    .ok ({ c with t := t }, none)
  | some parent => do
    let t ← cTurn c.t parent walk none
    let r ← cDelSlot { c with t := t } walk parent
    let t ← cUpdateSize fuel r.1.t r.2
    .ok ({ r.1 with t := t }, r.2)

/-- `_data[twalk]->left != Py_None` (trees/_backend/cpp/BinarySearchTree.hpp:257). -/
def cSuccCond (t : BTree κ δ) (s : SuccSt) : PyM Bool := do
  let n ← cNode t s.twalk
  .ok n.left.isSome

/-- trees/_backend/cpp/BinarySearchTree.hpp:258-260. -/
def cSuccBody (t : BTree κ δ) (s : SuccSt) : PyM SuccSt := do
  let n ← cNode t s.twalk
  let i ← cIdx n.left
  .ok ⟨i, s.twalk, true⟩

/-- `if (right != Py_None) _data[right]->parent = par` (trees/_backend/cpp/BinarySearchTree.hpp:271-273). -/
def cModIf (t : BTree κ δ) (o : Option Nat) (f : BNode κ δ → BNode κ δ) : PyM (BTree κ δ) :=
  match o with
  | none => .ok t
  | some i => cMod t i f

/-- trees/_backend/cpp/BinarySearchTree.hpp:253-286: the node has two children. -/
def cDelTwo [DecidableEq κ] (fuel : Nat) (c : CTree κ δ) (walk : Nat) : PyM (CTree κ δ × Option Nat) := do
  let n ← cNode c.t walk
  let r ← cIdx n.right
  let s ← whileLoop fuel (cSuccCond c.t) (cSuccBody c.t) ⟨r, walk, false⟩
  let m ← cNode c.t s.twalk
  let t ← cMod c.t walk (fun n => { n with data := m.data, key := m.key })
  let t ← if s.flag then cMod t s.par (fun n => { n with left := m.right })
    else cMod t s.par (fun n => { n with right := m.right })
  let t ← cModIf t m.right (fun n => { n with parent := some s.par })
  let res ← cDelSlot { c with t := t } s.twalk s.par
  let t ← cUpdateSize fuel res.1.t res.2
  .ok ({ res.1 with t := t }, res.2)

/-- trees/_backend/cpp/BinarySearchTree.hpp:295-307: the node is the root and has one child. -/
def cDelOneRoot [DecidableEq κ] (c : CTree κ δ) (child : Nat) : PyM (CTree κ δ × Option Nat) := do
  let m ← cNode c.t child
  let t ← cMod c.t c.t.rootIdx (fun n => { n with left := m.left, right := m.right, data := m.data, key := m.key, parent := none })
  let res ← cDelete { c with t := t } child
  match res.2 with
  | none => .ok (res.1, none)
  | some ixs => do
    let root ← cIndex ixs m.key
    .ok ({ res.1 with t := { res.1.t with rootIdx := root } }, none)

/-- trees/_backend/cpp/BinarySearchTree.hpp:308-327: the node has one child and a parent. After a contraction lines 322-323 use `root_key` where the
Python code uses `par_key`, and write through the old index `child`. -/
def cDelOneInner [DecidableEq κ] (fuel : Nat) (c : CTree κ δ) (walk child parent : Nat) : PyM (CTree κ δ × Option Nat) := do
  let t ← cTurn c.t parent walk (some child)
  let t ← cMod t child (fun n => { n with parent := some parent })
  let _ ← cNode t parent
  let r ← cNode t t.rootIdx
  let res ← cDelete { c with t := t } walk
  match res.2 with
  | none => do
    let t ← cUpdateSize fuel res.1.t (some parent)
    .ok ({ res.1 with t := t }, some parent)
  | some ixs => do
    let root ← cIndex ixs r.key
    let t ← cMod res.1.t child (fun n => { n with parent := some root })
    let t ← cUpdateSize fuel { t with rootIdx := root } (some root)
    .ok ({ res.1 with t := t }, some root)

/-- trees/_backend/cpp/BinarySearchTree.hpp:228-328: the three cases of `delete`, for the node `n` at `walk`. -/
def cDelCases [DecidableEq κ] (fuel : Nat) (c : CTree κ δ) (walk : Nat) (parent : Option Nat) (n : BNode κ δ) : PyM (CTree κ δ × Option Nat) :=
  match n.left, n.right with
  | none, none => cDelLeaf fuel c walk parent
  | some _, some _ => cDelTwo fuel c walk
  | some x, none => (match parent with
      | none => cDelOneRoot c x
      | some p => cDelOneInner fuel c walk x p)
  | none, some x => (match parent with
      | none => cDelOneRoot c x
      | some p => cDelOneInner fuel c walk x p)

/-- trees/_backend/cpp/BinarySearchTree.hpp:208-336 `delete(key)`: the tree and whether `True` is returned. On an empty tree `search` returns `None`, of which
`PyTuple_GetItem` has no items: `NULL` is used as an index. -/
def cBstDelete [DecidableEq κ] (cmp : κ → κ → Int) (fuel : Nat) (c : CTree κ δ) (k : κ) : PyM (CTree κ δ × Bool) := do
  let res ← cSearchP cmp fuel c.t k
  match res with
  | none => .error .undefined
  | some (none, _) => .ok (c, false)
  | some (some walk, parent) => do
    let n ← cNode c.t walk
    let r ← cDelCases fuel c walk parent n
    .ok (r.1, true)

/-! ### select and rank -/

/-- trees/_backend/cpp/BinarySearchTree.hpp:615-635: to the left. The comparator is called before `left_walk != Py_None` is tested. -/
def cSelectLeft (cmp : κ → κ → Int) (t : BTree κ δ) (n : BNode κ δ) : PyM (Option Nat) := do
  let l ← cIdx n.left
  let m ← cNode t l
  let b ← cCmp cmp m.key n.key
  .ok (if b ≠ 0 then some l else n.right)

/-- trees/_backend/cpp/BinarySearchTree.hpp:636-657: to the right. The comparator is called before `right_walk != Py_None` is tested. -/
def cSelectRight (cmp : κ → κ → Int) (t : BTree κ δ) (n : BNode κ δ) : PyM (Option Nat) := do
  let r ← cIdx n.right
  let m ← cNode t r
  let b ← cCmp cmp m.key n.key
  .ok (if b = 0 then some r else n.left)

/-- trees/_backend/cpp/BinarySearchTree.hpp:605-657, the body of the loop of `select`. -/
def cSelectBody (cmp : κ → κ → Int) (t : BTree κ δ) (s : SelectSt κ δ) : PyM (SelectSt κ δ) := do
  let w ← cIdx s.walk
  let n ← cNode t w
  let l ← cLeftSize t n
  if s.i = l then .ok { s with out := some n }
  else if n.left = none ∧ n.right = none then .error .indexError
  else if s.i < l then do
    let w ← cSelectLeft cmp t n
    .ok { s with walk := w }
  else do
    let w ← cSelectRight cmp t n
    .ok { s with walk := w, i := s.i - (l + 1) }

/-- trees/_backend/cpp/BinarySearchTree.hpp:591-660 `select(i)`. -/
def cSelect (cmp : κ → κ → Int) (fuel : Nat) (t : BTree κ δ) (i : Int) : PyM (Option (BNode κ δ)) :=
  if i - 1 < 0 then .error .valueError
  else if i - 1 ≥ t.num then .error .valueError
  else do
    let s ← whileLoop fuel selectCond (cSelectBody cmp t) ⟨some t.rootIdx, i - 1, none⟩
    .ok s.out

/-- `_data[walk]->key != _data[root_idx]->key` (trees/_backend/cpp/BinarySearchTree.hpp:581). -/
def cRankCond [DecidableEq κ] (t : BTree κ δ) (s : Nat × Nat) : PyM Bool := do
  let n ← cNode t s.1
  let r ← cNode t t.rootIdx
  .ok (decide (n.key ≠ r.key))

/-- trees/_backend/cpp/BinarySearchTree.hpp:582-586. -/
def cRankBody (t : BTree κ δ) (s : Nat × Nat) : PyM (Nat × Nat) := do
  let n ← cNode t s.1
  let p ← cIdx n.parent
  let m ← cNode t p
  if some s.1 = m.right then do
    let a ← cLeftSize t m
    .ok (p, s.2 + (a + 1))
  else .ok (p, s.2)

/-- trees/_backend/cpp/BinarySearchTree.hpp:573-589 `rank(x)`. -/
def cRank [DecidableEq κ] (cmp : κ → κ → Int) (fuel : Nat) (t : BTree κ δ) (k : κ) : PyM (Option Nat) := do
  let res ← cSearch cmp fuel t k
  match res with
  | none => .ok none
  | some w => do
    let n ← cNode t w
    let a ← cLeftSize t n
    let s ← whileLoop fuel (cRankCond t) (cRankBody t) (w, a + 1)
    .ok (some s.2)

/-! ### lowest common ancestor -/

/-- `if (link != Py_None) stack.push(link)` (trees/_backend/cpp/BinarySearchTree.hpp:412-417). -/
def cPush (stack : List Nat) (o : Option Nat) : List Nat :=
  match o with
  | none => stack
  | some i => i :: stack

/-- trees/_backend/cpp/BinarySearchTree.hpp:405-418, the body of the search loop of `_simple_path`. -/
def cPathBody [DecidableEq κ] (t : BTree κ δ) (k : κ) (s : PathSt) : PyM PathSt :=
  match s.stack with
  | [] => .ok s
  | node :: stack => do
    let n ← cNode t node
    if n.key = some k then .ok ⟨stack, some node⟩
    else .ok ⟨cPush (cPush stack n.left) n.right, none⟩

/-- trees/_backend/cpp/BinarySearchTree.hpp:422-425: the climb (a node other than 0 without a parent is undefined). -/
def cClimbBody (t : BTree κ δ) (s : List Nat × Option Nat) : PyM (List Nat × Option Nat) := do
  let i ← cIdx s.2
  let n ← cNode t i
  .ok (i :: s.1, n.parent)

/-- trees/_backend/cpp/BinarySearchTree.hpp:396-429 `_simple_path(key, root)`. -/
def cSimplePath [DecidableEq κ] (fuel : Nat) (t : BTree κ δ) (k : κ) (root : Nat) : PyM (List Nat) := do
  let s ← whileLoop fuel pathCond (cPathBody t k) ⟨[root], none⟩
  match s.found with
  | none => .ok []
  | some i => do
    let c ← whileLoop fuel climbCond (cClimbBody t) ([], some i)
    .ok (0 :: c.1)

/-- The first loop of `_lca_1` (trees/_backend/cpp/BinarySearchTree.hpp:446-452). `same` says whether the two integer objects in the lists are the same object: by CPython's cache
of small integers they are when they are equal and at most 256, otherwise they are different objects. `none` when the loop ends. For `i = 0`, `PyList_GetItem(path1, -1)` is
`NULL`: undefined. -/
def cDiverge : Option Nat → List Nat → List Nat → PyM (Option Nat)
  | last, a :: as, b :: bs =>
    if a = b ∧ a ≤ 256 then cDiverge (some a) as bs
    else do
      let i ← cIdx last
      .ok (some i)
  | _, _, _ => .ok none

/-- trees/_backend/cpp/BinarySearchTree.hpp:431-465 `_lca_1`. Lines 432-436 convert the keys to `long` and back: `fresh` gives the object that results. The second loop
(454-463) has the condition that has just become false, so the last key of `path2` is returned. -/
def cLca1 [DecidableEq κ] (fresh : κ → κ) (fuel : Nat) (t : BTree κ δ) (j k : κ) : PyM (Option κ) := do
  let p1 ← cSimplePath fuel t (fresh j) t.rootIdx
  let p2 ← cSimplePath fuel t (fresh k) t.rootIdx
  if p1 = [] ∨ p2 = [] then .error .valueError
  else do
    let d ← cDiverge none p1 p2
    match d with
    | some i => do
      let n ← cNode t i
      .ok n.key
    | none => do
      let n ← cNode t (p2.getLastD 0)
      .ok n.key

/-- The loop of `_lca_2` (trees/_backend/cpp/BinarySearchTree.hpp:480-546): `u_left` and `v_left` are integers. -/
structure CLca2St (κ : Type) where
  curr : Option Nat
  uLeft : Int
  vLeft : Int
  out : Option (Option κ)

/-- `while (!(u_left ^ v_left))` with the returns of the loop (trees/_backend/cpp/BinarySearchTree.hpp:507). -/
def cLca2Cond (s : CLca2St κ) : PyM Bool := .ok (decide (s.uLeft = s.vLeft) && s.out.isNone)

/-- trees/_backend/cpp/BinarySearchTree.hpp:508-546. -/
def cLca2Body (cmp : κ → κ → Int) (t : BTree κ δ) (u v : Nat) (s : CLca2St κ) : PyM (CLca2St κ) := do
  let i ← cIdx s.curr
  let c ← cNode t i
  let next := if s.uLeft ≠ 0 ∧ s.vLeft ≠ 0 then c.left else c.right
  if next = some u ∨ next = some v then do
    let i ← cIdx next
    let n ← cNode t i
    .ok { s with curr := next, out := some n.key }
  else do
    let nu ← cNode t u
    let i ← cIdx next
    let n ← cNode t i
    let a ← cCmp cmp nu.key n.key
    let nv ← cNode t v
    let b ← cCmp cmp nv.key n.key
    .ok ⟨next, a, b, none⟩

/-- trees/_backend/cpp/BinarySearchTree.hpp:467-553 `_lca_2`. -/
def cLca2 [DecidableEq κ] (cmp : κ → κ → Int) (fuel : Nat) (t : BTree κ δ) (j k : κ) : PyM (Option κ) := do
  let ou ← cSearch cmp fuel t j
  let ov ← cSearch cmp fuel t k
  match ou, ov with
  | some u, some v => do
    let nu ← cNode t u
    let r ← cNode t t.rootIdx
    let a ← cCmp cmp nu.key r.key
    let nv ← cNode t v
    let b ← cCmp cmp nv.key r.key
    let s ← whileLoop fuel cLca2Cond (cLca2Body cmp t u v) ⟨some t.rootIdx, a, b, none⟩
    match s.out with
    | some o => .ok o
    | none => do
      let i ← cIdx s.curr
      let n ← cNode t i
      .ok n.key
  | _, _ => .error .valueError

end Model.Cpp
