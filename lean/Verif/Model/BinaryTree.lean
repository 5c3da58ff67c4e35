import Verif.Py

/-!
# Binary trees stored in an array

Models of `/repo/pydatastructs/trees/binary_trees.py` (`BinaryTree`, `BinarySearchTree`, the rotations of
`SelfBalancingBinaryTree`), of `ArrayForTrees` (`linear_data_structures/arrays.py:435-476`) and of `TreeNode`
(`utils/misc_util.py:49-91`). Python backend only.

Nodes refer to each other by position in the array. Node objects are never shared between two positions, so a node is
modelled by value and `self.tree[i].x = v` by rewriting the cell. The comparator is a parameter `lt` (`<` by default,
binary_trees.py:73-74).
-/
namespace Model
open Py
variable {κ δ : Type}

/-- utils/misc_util.py:49-91 `TreeNode`, 93-124 `CartesianTreeNode` (`priority`), 126-160 `RedBlackTreeNode` (`color`).
The last two fields are `none` when the object has no such attribute. Priorities are integers (the floats drawn by
`Treap` are multiples of 2⁻⁵³). -/
structure BNode (κ δ : Type) where
  key : Option κ
  data : Option δ
  left : Option Nat := none
  right : Option Nat := none
  parent : Option Nat := none
  height : Int := 0
  size : Nat := 1
  isRoot : Bool := false
  prio : Option Int := none
  color : Option Nat := none
  deriving DecidableEq, Repr

/-- binary_trees.py:55-56 `__slots__`; `arr`, `num`, `top` are `_data`, `_num`, `_last_pos_filled + 1` of the
`ArrayForTrees` in `tree`. -/
structure BTree (κ δ : Type) where
  arr : List (Option (BNode κ δ))
  num : Nat
  top : Nat
  rootIdx : Nat
  size : Nat
  orderStat : Bool
  deriving DecidableEq, Repr

/-- binary_trees.py:58-76 `BinaryTree.__new__()` without a key. -/
def btEmpty (orderStat : Bool) : BTree κ δ :=
  ⟨[some { key := none, data := none, isRoot := true }], 1, 1, 0, 1, orderStat⟩

/-- binary_trees.py:66-76 `BinaryTree.__new__(key, root_data)` with a key and data. -/
def btRooted (orderStat : Bool) (k : κ) (d : δ) : BTree κ δ :=
  ⟨[some { key := some k, data := some d, isRoot := true }], 1, 1, 0, 1, orderStat⟩

/-- Attribute access on an array cell: `AttributeError` on `None`. (arrays.py:133-137 and e.g. binary_trees.py:282) -/
def cell (o : Option (BNode κ δ)) : PyM (BNode κ δ) :=
  match o with
  | some n => .ok n
  | none => .error .attributeError

/-- Using an index that may be `None` (arrays.py:134: `None >= int` is a `TypeError`). -/
def asIdx (o : Option Nat) : PyM Nat :=
  match o with
  | some i => .ok i
  | none => .error .typeError

/-- `self.tree[i]` as a node (arrays.py:133-137). -/
def getNode (t : BTree κ δ) (i : Nat) : PyM (BNode κ δ) := do
  let o ← rd t.arr i
  cell o

/-- `self.tree[o]` where `o` may be `None`. (e.g. binary_trees.py:282) -/
def getNode? (t : BTree κ δ) (o : Option Nat) : PyM (BNode κ δ) := do
  let i ← asIdx o
  getNode t i

/-- `self.tree[i].x = v`. (e.g. binary_trees.py:258) -/
def modNode (t : BTree κ δ) (i : Nat) (f : BNode κ δ → BNode κ δ) : PyM (BTree κ δ) := do
  let n ← getNode t i
  .ok { t with arr := t.arr.set i (some (f n)) }

/-- `self.tree[o].x = v` where `o` may be `None`. (e.g. binary_trees.py:392) -/
def modNode? (t : BTree κ δ) (o : Option Nat) (f : BNode κ δ → BNode κ δ) : PyM (BTree κ δ) := do
  let i ← asIdx o
  modNode t i f

/-- `if o is not None: self.tree[o].x = v`. (e.g. binary_trees.py:419-420) -/
def modIf (t : BTree κ δ) (o : Option Nat) (f : BNode κ δ → BNode κ δ) : PyM (BTree κ δ) :=
  match o with
  | none => .ok t
  | some i => modNode t i f

/-- `self.comparator(a, b)`; comparing with `None` is a `TypeError`. (binary_trees.py:73-74) -/
def cmpKey (lt : κ → κ → Bool) (a b : Option κ) : PyM Bool :=
  match a, b with
  | some a, some b => .ok (lt a b)
  | _, _ => .error .typeError

/-! ## ArrayForTrees -/

/-- The first loop of `_modify` (arrays.py:455-462): live nodes move to the front; `new_indices` maps the key of each to its
new position (later entries first). The `j`-th write is within the `2*_num + 1` cells. -/
def atCompact [DecidableEq κ] : List (Option (BNode κ δ)) → Nat → List (Option κ × Nat) → List (BNode κ δ)
    → List (Option κ × Nat) × List (BNode κ δ)
  | [], _, ixs, out => (ixs, out)
  | none :: src, j, ixs, out => atCompact src j ixs out
  | some n :: src, j, ixs, out => atCompact src (j + 1) ((n.key, j) :: ixs) (out ++ [n])

/-- `new_indices[key]`: `KeyError` when missing. (binary_trees.py:400-401) -/
def atIndex [DecidableEq κ] (ixs : List (Option κ × Nat)) (k : Option κ) : PyM Nat :=
  match ixs.lookup k with
  | some j => .ok j
  | none => .error .keyError

/-- One link of the second loop (arrays.py:464-469): `new_indices[self[link].key]`. -/
def atRelink [DecidableEq κ] (t : BTree κ δ) (ixs : List (Option κ × Nat)) (o : Option Nat) : PyM (Option Nat) :=
  match o with
  | none => .ok none
  | some i => do
    let n ← getNode t i
    let j ← atIndex ixs n.key
    .ok (some j)

/-- The body of the second loop of `_modify` (arrays.py:464-469). -/
def atRelinkNode [DecidableEq κ] (t : BTree κ δ) (ixs : List (Option κ × Nat)) (n : BNode κ δ) (out : List (Option (BNode κ δ))) :
    PyM (List (Option (BNode κ δ))) := do
  let l ← atRelink t ixs n.left
  let r ← atRelink t ixs n.right
  let p ← atRelink t ixs n.parent
  .ok (out ++ [some { n with left := l, right := r, parent := p }])

/-- arrays.py:452-476 `ArrayForTrees._modify`: contracts when `_num/_size < 0.25` and then returns `new_indices`. -/
def atModify [DecidableEq κ] (t : BTree κ δ) : PyM (BTree κ δ × Option (List (Option κ × Nat))) :=
  if 4 * t.num < t.arr.length then do
    let c := atCompact (t.arr.take t.top) 0 [] []
    let out ← forList c.2 [] (atRelinkNode t c.1)
    .ok ({ t with arr := out ++ List.replicate (2 * t.num + 1 - c.2.length) none, top := c.2.length }, some c.1)
  else .ok (t, none)

/-- arrays.py:398-410 `append` (the value returned by `_modify` is dropped). -/
def atAppend [DecidableEq κ] (t : BTree κ δ) (n : BNode κ δ) : PyM (BTree κ δ) := do
  let arr := if t.top = t.arr.length then
      t.arr ++ some n :: List.replicate (2 * t.arr.length + 1 - (t.arr.length + 1)) none
    else t.arr.set t.top (some n)
  let r ← atModify { t with arr := arr, top := t.top + 1, num := t.num + 1 }
  .ok r.1

/-- arrays.py:412-419 `delete`; `None` (no `new_indices`) also when nothing is deleted. -/
def atDelete [DecidableEq κ] (t : BTree κ δ) (i : Nat) : PyM (BTree κ δ × Option (List (Option κ × Nat))) :=
  if i < t.top ∧ (t.arr[i]?).join.isSome then
    atModify { t with arr := t.arr.set i none, num := t.num - 1, top := if t.top = i + 1 then i else t.top }
  else .ok (t, none)

/-! ## BinarySearchTree -/

/-- binary_trees.py:220-221 `left_size`. -/
def leftSize (t : BTree κ δ) (n : BNode κ δ) : PyM Nat :=
  match n.left with
  | none => .ok 0
  | some i => do
    let m ← getNode t i
    .ok m.size

/-- binary_trees.py:222-223 `right_size`. -/
def rightSize (t : BTree κ δ) (n : BNode κ δ) : PyM Nat :=
  match n.right with
  | none => .ok 0
  | some i => do
    let m ← getNode t i
    .ok m.size

/-- `self.tree[w].size = left_size + right_size + 1` (binary_trees.py:237-239). -/
def resize (t : BTree κ δ) (w : Nat) : PyM (BTree κ δ) := do
  let n ← getNode t w
  let a ← leftSize t n
  let b ← rightSize t n
  modNode t w (fun n => { n with size := a + b + 1 })

/-- The body of the loop of `_update_size` (binary_trees.py:237-240). -/
def updateSizeBody (s : BTree κ δ × Option Nat) : PyM (BTree κ δ × Option Nat) := do
  let w ← asIdx s.2
  let t ← resize s.1 w
  let n ← getNode t w
  .ok (t, n.parent)

/-- `walk is not None`. (e.g. binary_trees.py:278) -/
def walking {σ : Type} (s : σ × Option Nat) : PyM Bool := .ok s.2.isSome

/-- binary_trees.py:233-240 `_update_size`. -/
def updateSize (fuel : Nat) (t : BTree κ δ) (start : Option Nat) : PyM (BTree κ δ) :=
  if t.orderStat then do
    let s ← whileLoop fuel walking updateSizeBody (t, start)
    .ok s.1
  else .ok t

/-- The state of the walk of `search` (binary_trees.py:274-275): `walk`, `parent` and whether the loop was left by `break`. -/
structure BstSearchSt where
  walk : Option Nat
  parent : Option Nat
  found : Bool

/-- `while walk is not None` (binary_trees.py:278), with the `break` of line 280. -/
def bstSearchCond (s : BstSearchSt) : PyM Bool := .ok (s.walk.isSome && !s.found)

/-- binary_trees.py:279-285, the body of the loop of `search`. -/
def bstSearchBody [DecidableEq κ] (lt : κ → κ → Bool) (t : BTree κ δ) (k : κ) (s : BstSearchSt) : PyM BstSearchSt := do
  let w ← asIdx s.walk
  let n ← getNode t w
  if n.key = some k then .ok { s with found := true }
  else do
    let b ← cmpKey lt (some k) n.key
    .ok ⟨if b then n.left else n.right, some w, false⟩

/-- binary_trees.py:272-286 `search(key, parent=True)`: `none` when the method returns the single value `None`
(empty tree), otherwise the pair. -/
def bstSearchP [DecidableEq κ] (lt : κ → κ → Bool) (fuel : Nat) (t : BTree κ δ) (k : κ) :
    PyM (Option (Option Nat × Option Nat)) := do
  let r ← getNode t t.rootIdx
  if r.key = none then .ok none
  else do
    let s ← whileLoop fuel bstSearchCond (bstSearchBody lt t k) ⟨some t.rootIdx, none, false⟩
    .ok (some (s.walk, s.parent))

/-- binary_trees.py:272-286 `search(key)`. -/
def bstSearch [DecidableEq κ] (lt : κ → κ → Bool) (fuel : Nat) (t : BTree κ δ) (k : κ) : PyM (Option Nat) := do
  let r ← bstSearchP lt fuel t k
  .ok (r.bind (·.1))

/-- The state of the walk of `insert` (binary_trees.py:252-269). -/
structure InsertSt (κ δ : Type) where
  t : BTree κ δ
  walk : Option Nat
  prev : Option Nat
  flag : Bool

/-- binary_trees.py:255-259 / 263-267: hang the new node below `walk`. -/
def insertHere [DecidableEq κ] (t : BTree κ δ) (w : Nat) (prev : Option Nat) (k : κ) (d : Option δ)
    (link : Nat → BNode κ δ → BNode κ δ) : PyM (BTree κ δ) := do
  let t ← atAppend t { key := some k, data := d, parent := prev }
  let t ← modNode t w (link t.size)
  .ok { t with size := t.size + 1 }

/-- binary_trees.py:253-269, the body of the loop of `insert`. -/
def insertBody [DecidableEq κ] (lt : κ → κ → Bool) (k : κ) (d : Option δ) (s : InsertSt κ δ) : PyM (InsertSt κ δ) := do
  let w ← asIdx s.walk
  let n ← getNode s.t w
  let b ← cmpKey lt (some k) n.key
  if !b then do
    if n.right = none then do
      let t ← insertHere s.t w s.prev k d (fun i n => { n with right := some i })
      let m ← getNode t w
      .ok ⟨t, m.right, m.right, false⟩
    else .ok ⟨s.t, n.right, n.right, s.flag⟩
  else do
    if n.left = none then do
      let t ← insertHere s.t w s.prev k d (fun i n => { n with left := some i })
      let m ← getNode t w
      .ok ⟨t, m.left, m.left, false⟩
    else .ok ⟨s.t, n.left, n.left, s.flag⟩

/-- `while flag` (binary_trees.py:252). -/
def insertCond (s : InsertSt κ δ) : PyM Bool := .ok s.flag

/-- binary_trees.py:246-270: `insert` after the search for an existing key has failed. -/
def bstInsertNew [DecidableEq κ] (lt : κ → κ → Bool) (fuel : Nat) (t : BTree κ δ) (k : κ) (d : Option δ) :
    PyM (BTree κ δ) := do
  let r ← getNode t t.rootIdx
  if r.key = none then modNode t t.rootIdx (fun n => { n with key := some k, data := d })
  else do
    let s ← whileLoop fuel insertCond (insertBody lt k d) ⟨t, some t.rootIdx, some t.rootIdx, true⟩
    updateSize fuel s.t s.walk

/-- binary_trees.py:242-270 `insert(key, data)`. -/
def bstInsert [DecidableEq κ] (lt : κ → κ → Bool) (fuel : Nat) (t : BTree κ δ) (k : κ) (d : Option δ) :
    PyM (BTree κ δ) := do
  let res ← bstSearch lt fuel t k
  match res with
  | some i => modNode t i (fun n => { n with data := d })
  | none => bstInsertNew lt fuel t k d

/-- binary_trees.py:288-307 `_bound_helper`; the fuel bounds the depth of the recursion. -/
def boundHelper [DecidableEq κ] (lt : κ → κ → Bool) (t : BTree κ δ) (bound : κ) (upper : Bool) :
    Nat → Option Nat → PyM (Option κ)
  | 0, _ => .error .outOfFuel
  | _ + 1, none => .ok none
  | fuel + 1, some i => do
    let n ← getNode t i
    if n.key = none then .ok none
    else if n.key = some bound then
      if upper then boundHelper lt t bound upper fuel n.right else .ok n.key
    else do
      let b ← cmpKey lt n.key (some bound)
      if b then boundHelper lt t bound upper fuel n.right
      else do
        let r ← boundHelper lt t bound upper fuel n.left
        .ok (if r.isSome then r else n.key)

/-- binary_trees.py:310-343 `lower_bound`. -/
def bstLower [DecidableEq κ] (lt : κ → κ → Bool) (fuel : Nat) (t : BTree κ δ) (k : κ) : PyM (Option κ) :=
  boundHelper lt t k false fuel (some t.rootIdx)

/-- binary_trees.py:345-377 `upper_bound`. -/
def bstUpper [DecidableEq κ] (lt : κ → κ → Bool) (fuel : Nat) (t : BTree κ δ) (k : κ) : PyM (Option κ) :=
  boundHelper lt t k true fuel (some t.rootIdx)

/-! ### delete -/

/-- `new_indices = self.tree.delete(x); if new_indices is not None: a = new_indices[par_key];
self.root_idx = new_indices[root_key]` (binary_trees.py:396-399, 425-428). -/
def delSlot [DecidableEq κ] (t : BTree κ δ) (x par : Nat) : PyM (BTree κ δ × Option Nat) := do
  let p ← getNode t par
  let r ← getNode t t.rootIdx
  let res ← atDelete t x
  match res.2 with
  | none => .ok (res.1, some par)
  | some ixs => do
    let a ← atIndex ixs p.key
    let root ← atIndex ixs r.key
    .ok ({ res.1 with rootIdx := root }, some a)

/-- binary_trees.py:388-392 / 444-447: the child link of `parent` that points at `walk` becomes `c`. -/
def relink (t : BTree κ δ) (parent walk : Nat) (c : Option Nat) : PyM (BTree κ δ) := do
  let p ← getNode t parent
  if p.left = some walk then modNode t parent (fun n => { n with left := c })
  else modNode t parent (fun n => { n with right := c })

/-- binary_trees.py:383-400: the node has no child. -/
def delLeaf [DecidableEq κ] (fuel : Nat) (t : BTree κ δ) (walk : Nat) (parent : Option Nat) :
    PyM (BTree κ δ × Option Nat) :=
  match parent with
  | none => do
    let t ← modNode t t.rootIdx (fun n => { n with data := none, key := none })
    let t ← updateSize fuel t none
    .ok (t, none)
  | some parent => do
    let t ← relink t parent walk none
    let r ← delSlot t walk parent
    let t ← updateSize fuel r.1 r.2
    .ok (t, r.2)

/-- binary_trees.py:404-410: `twalk`, `par`, `flag`. -/
structure SuccSt where
  twalk : Nat
  par : Nat
  flag : Bool

/-- `while self.tree[twalk].left is not None`. (binary_trees.py:409) -/
def succCond (t : BTree κ δ) (s : SuccSt) : PyM Bool := do
  let n ← getNode t s.twalk
  .ok n.left.isSome

/-- binary_trees.py:408-410. -/
def succBody (t : BTree κ δ) (s : SuccSt) : PyM SuccSt := do
  let n ← getNode t s.twalk
  let i ← asIdx n.left
  .ok ⟨i, s.twalk, true⟩

/-- binary_trees.py:402-429: the node has two children. -/
def delTwo [DecidableEq κ] (fuel : Nat) (t : BTree κ δ) (walk : Nat) : PyM (BTree κ δ × Option Nat) := do
  let n ← getNode t walk
  let r ← asIdx n.right
  let s ← whileLoop fuel (succCond t) (succBody t) ⟨r, walk, false⟩
  let m ← getNode t s.twalk
  let t ← modNode t walk (fun n => { n with data := m.data, key := m.key })
  let t ← if s.flag then modNode t s.par (fun n => { n with left := m.right })
    else modNode t s.par (fun n => { n with right := m.right })
  let t ← modIf t m.right (fun n => { n with parent := some s.par })
  let res ← delSlot t s.twalk s.par
  let t ← updateSize fuel res.1 res.2
  .ok (t, res.2)

/-- binary_trees.py:436-445: the node is the root and has one child; the root takes over the fields of the child. -/
def delOneRoot [DecidableEq κ] (t : BTree κ δ) (child : Nat) : PyM (BTree κ δ × Option Nat) := do
  let c ← getNode t child
  let t ← modNode t t.rootIdx (fun n => { n with left := c.left, right := c.right, data := c.data, key := c.key, parent := none })
  let res ← atDelete t child
  match res.2 with
  | none => .ok (res.1, none)
  | some ixs => do
    let root ← atIndex ixs c.key
    .ok ({ res.1 with rootIdx := root }, none)

/-- binary_trees.py:446-461: the node has one child and a parent. After a contraction line 458 writes through the *old*
index `child`. -/
def delOneInner [DecidableEq κ] (fuel : Nat) (t : BTree κ δ) (walk child parent : Nat) : PyM (BTree κ δ × Option Nat) := do
  let t ← relink t parent walk (some child)
  let t ← modNode t child (fun n => { n with parent := some parent })
  let p ← getNode t parent
  let r ← getNode t t.rootIdx
  let res ← atDelete t walk
  match res.2 with
  | none => do
    let t ← updateSize fuel res.1 (some parent)
    .ok (t, some parent)
  | some ixs => do
    let a ← atIndex ixs p.key
    let t ← modNode res.1 child (fun n => { n with parent := some a })
    let root ← atIndex ixs r.key
    let t ← updateSize fuel { t with rootIdx := root } (some a)
    .ok (t, some a)

/-- binary_trees.py:385-461: the three cases of `delete`, for the node `n` at `walk`. -/
def delCases [DecidableEq κ] (fuel : Nat) (t : BTree κ δ) (walk : Nat) (parent : Option Nat) (n : BNode κ δ) : PyM (BTree κ δ × Option Nat) :=
  match n.left, n.right with
  | none, none => delLeaf fuel t walk parent
  | some _, some _ => delTwo fuel t walk
  | some c, none => (match parent with
      | none => delOneRoot t c
      | some p => delOneInner fuel t walk c p)
  | none, some c => (match parent with
      | none => delOneRoot t c
      | some p => delOneInner fuel t walk c p)

/-- binary_trees.py:380-465 `delete(key)`: the tree, `a` (the balancing information) and whether something was deleted
(`True` or `None`). On an empty tree `search` returns `None`, which cannot be unpacked: `TypeError`. -/
def bstDeleteInfo [DecidableEq κ] (lt : κ → κ → Bool) (fuel : Nat) (t : BTree κ δ) (k : κ) :
    PyM (BTree κ δ × Option Nat × Bool) := do
  let res ← bstSearchP lt fuel t k
  match res with
  | none => .error .typeError
  | some (none, _) => .ok (t, none, false)
  | some (some walk, parent) => do
    let n ← getNode t walk
    let r ← delCases fuel t walk parent n
    .ok (r.1, r.2, true)

/-- binary_trees.py:380-465 `delete(key)` without `balancing_info`. -/
def bstDelete [DecidableEq κ] (lt : κ → κ → Bool) (fuel : Nat) (t : BTree κ δ) (k : κ) : PyM (BTree κ δ × Bool) := do
  let r ← bstDeleteInfo lt fuel t k
  .ok (r.1, r.2.2)

/-! ### select and rank -/

/-- The walk of `select` (binary_trees.py:489-518): `walk` and `i`, or the node that is returned. -/
structure SelectSt (κ δ : Type) where
  walk : Option Nat
  i : Int
  out : Option (BNode κ δ)

/-- `while walk is not None`, with the `return` of line 493. (binary_trees.py:495) -/
def selectCond (s : SelectSt κ δ) : PyM Bool := .ok (s.walk.isSome && s.out.isNone)

/-- `left_walk is not None and comparator(tree[left_walk].key, tree[walk].key)` (binary_trees.py:500-502). -/
def selectLeft (lt : κ → κ → Bool) (t : BTree κ δ) (n : BNode κ δ) : PyM (Option Nat) :=
  match n.left with
  | none => .ok n.right
  | some l => do
    let m ← getNode t l
    let b ← cmpKey lt m.key n.key
    .ok (if b then some l else n.right)

/-- `right_walk is not None and not comparator(tree[right_walk].key, tree[walk].key)` (binary_trees.py:507-509). -/
def selectRight (lt : κ → κ → Bool) (t : BTree κ δ) (n : BNode κ δ) : PyM (Option Nat) :=
  match n.right with
  | none => .ok n.left
  | some r => do
    let m ← getNode t r
    let b ← cmpKey lt m.key n.key
    .ok (if !b then some r else n.left)

/-- binary_trees.py:490-518, the body of the loop of `select`. -/
def selectBody (lt : κ → κ → Bool) (t : BTree κ δ) (s : SelectSt κ δ) : PyM (SelectSt κ δ) := do
  let w ← asIdx s.walk
  let n ← getNode t w
  let l ← leftSize t n
  if s.i = l then .ok { s with out := some n }
  else if n.left = none ∧ n.right = none then .error .indexError
  else if s.i < l then do
    let w ← selectLeft lt t n
    .ok { s with walk := w }
  else do
    let w ← selectRight lt t n
    .ok { s with walk := w, i := s.i - (l + 1) }

/-- binary_trees.py:467-518 `select(i)`; `none` when the loop ends without a `return`. -/
def bstSelect (lt : κ → κ → Bool) (fuel : Nat) (t : BTree κ δ) (i : Int) : PyM (Option (BNode κ δ)) :=
  if i - 1 < 0 then .error .valueError
  else if i - 1 ≥ t.num then .error .valueError
  else do
    let s ← whileLoop fuel selectCond (selectBody lt t) ⟨some t.rootIdx, i - 1, none⟩
    .ok s.out

/-- `self.tree[walk].key != self.tree[self.root_idx].key` (binary_trees.py:536). -/
def rankCond [DecidableEq κ] (t : BTree κ δ) (s : Nat × Nat) : PyM Bool := do
  let n ← getNode t s.1
  let r ← getNode t t.rootIdx
  .ok (decide (n.key ≠ r.key))

/-- binary_trees.py:537-540. -/
def rankBody (t : BTree κ δ) (s : Nat × Nat) : PyM (Nat × Nat) := do
  let n ← getNode t s.1
  let p ← asIdx n.parent
  let m ← getNode t p
  if some s.1 = m.right then do
    let a ← leftSize t m
    .ok (p, s.2 + (a + 1))
  else .ok (p, s.2)

/-- binary_trees.py:520-541 `rank(x)`. -/
def bstRank [DecidableEq κ] (lt : κ → κ → Bool) (fuel : Nat) (t : BTree κ δ) (k : κ) : PyM (Option Nat) := do
  let res ← bstSearch lt fuel t k
  match res with
  | none => .ok none
  | some w => do
    let n ← getNode t w
    let a ← leftSize t n
    let s ← whileLoop fuel (rankCond t) (rankBody t) (w, a + 1)
    .ok (some s.2)

/-! ### lowest common ancestor -/

/-- `if self.tree[node].left: stack.push(...)` (binary_trees.py:568-571): index `0` counts as false. -/
def pushTruthy (stack : List Nat) (o : Option Nat) : List Nat :=
  match o with
  | none => stack
  | some 0 => stack
  | some (i + 1) => (i + 1) :: stack

/-- The search part of `_simple_path` (binary_trees.py:563-571): the stack (top first) and the index found. The stack is the
library's `Stack`, whose last-in-first-out behaviour is C29/C33. -/
structure PathSt where
  stack : List Nat
  found : Option Nat

/-- `while not stack.is_empty`, with the `break` of line 567. (binary_trees.py:564) -/
def pathCond (s : PathSt) : PyM Bool := .ok (!s.stack.isEmpty && s.found.isNone)

/-- binary_trees.py:564-571. -/
def pathBody [DecidableEq κ] (t : BTree κ δ) (k : κ) (s : PathSt) : PyM PathSt :=
  match s.stack with
  | [] => .ok s
  | node :: stack => do
    let n ← getNode t node
    if n.key = some k then .ok ⟨stack, some node⟩
    else .ok ⟨pushTruthy (pushTruthy stack n.left) n.right, none⟩

/-- `while node_idx != 0` (binary_trees.py:576-578); the path is collected in front, i.e. already reversed. -/
def climbCond (s : List Nat × Option Nat) : PyM Bool := .ok (decide (s.2 ≠ some 0))

/-- binary_trees.py:577-578. -/
def climbBody (t : BTree κ δ) (s : List Nat × Option Nat) : PyM (List Nat × Option Nat) := do
  let i ← asIdx s.2
  let n ← getNode t i
  .ok (i :: s.1, n.parent)

/-- binary_trees.py:543-583 `_simple_path(key, root)`. -/
def simplePath [DecidableEq κ] (fuel : Nat) (t : BTree κ δ) (k : κ) (root : Nat) : PyM (List Nat) := do
  let s ← whileLoop fuel pathCond (pathBody t k) ⟨[root], none⟩
  match s.found with
  | none => .ok []
  | some i => do
    let c ← whileLoop fuel climbCond (climbBody t) ([], some i)
    .ok (0 :: c.1)

/-- The loop of `_lca_1` (binary_trees.py:595-599): `last` is `path1[i - 1]`; `none` when one path is a prefix of the other. For
`i = 0` Python reads `path1[-1]`, hence the initial value of `last` in `lca1`. -/
def lcaDiverge (last : Nat) : List Nat → List Nat → Option Nat
  | a :: as, b :: bs => if a ≠ b then some last else lcaDiverge a as bs
  | _, _ => none

/-- `path1 < path2` on lists (binary_trees.py:600). -/
def listLt : List Nat → List Nat → Bool
  | _, [] => false
  | [], _ :: _ => true
  | a :: as, b :: bs => if a = b then listLt as bs else decide (a < b)

/-- binary_trees.py:585-602 `_lca_1`. -/
def lca1 [DecidableEq κ] (fuel : Nat) (t : BTree κ δ) (j k : κ) : PyM (Option κ) := do
  let p1 ← simplePath fuel t j t.rootIdx
  let p2 ← simplePath fuel t k t.rootIdx
  if p1 = [] ∨ p2 = [] then .error .valueError
  else match lcaDiverge (p1.getLastD 0) p1 p2 with
    | some i => do
      let n ← getNode t i
      .ok n.key
    | none => do
      let n ← getNode t (if listLt p1 p2 then p1.getLastD 0 else p2.getLastD 0)
      .ok n.key

/-- The loop of `_lca_2` (binary_trees.py:614-628). -/
structure Lca2St (κ : Type) where
  curr : Option Nat
  uLeft : Bool
  vLeft : Bool
  out : Option (Option κ)

/-- `while not (u_left ^ v_left)`, with the returns of lines 622-623. (binary_trees.py:615) -/
def lca2Cond (s : Lca2St κ) : PyM Bool := .ok ((s.uLeft == s.vLeft) && s.out.isNone)

/-- binary_trees.py:615-628. `u` and `v` are indices, so `curr_root == u` excludes `None` (line 621-622 is dead code). -/
def lca2Body (lt : κ → κ → Bool) (t : BTree κ δ) (u v : Nat) (s : Lca2St κ) : PyM (Lca2St κ) := do
  let c ← getNode? t s.curr
  let next := if s.uLeft && s.vLeft then c.left else c.right
  if next = some u ∨ next = some v then do
    let n ← getNode? t next
    .ok { s with curr := next, out := some n.key }
  else do
    let nu ← getNode t u
    let n ← getNode? t next
    let a ← cmpKey lt nu.key n.key
    let nv ← getNode t v
    let b ← cmpKey lt nv.key n.key
    .ok ⟨next, a, b, none⟩

/-- binary_trees.py:604-632 `_lca_2`. -/
def lca2 [DecidableEq κ] (lt : κ → κ → Bool) (fuel : Nat) (t : BTree κ δ) (j k : κ) : PyM (Option κ) := do
  let ou ← bstSearch lt fuel t j
  let ov ← bstSearch lt fuel t k
  match ou, ov with
  | some u, some v => do
    let nu ← getNode t u
    let r ← getNode t t.rootIdx
    let a ← cmpKey lt nu.key r.key
    let nv ← getNode t v
    let b ← cmpKey lt nv.key r.key
    let s ← whileLoop fuel lca2Cond (lca2Body lt t u v) ⟨some t.rootIdx, a, b, none⟩
    match s.out with
    | some o => .ok o
    | none => do
      let n ← getNode? t s.curr
      .ok n.key
  | _, _ => .error .valueError

/-! ## Rotations of SelfBalancingBinaryTree -/

/-- The parent of `k` forgets `j` and points at `k`; without a parent `k` becomes the root (binary_trees.py:700-704,
707-709, 722-729). -/
def hoist (t : BTree κ δ) (p : Option Nat) (j k : Nat) : PyM (BTree κ δ) :=
  match p with
  | none => .ok { t with rootIdx := k }
  | some p => relink t p j (some k)

/-- binary_trees.py:694-709 `_right_rotate(j, k)`. The assignment of `root_idx` (707-709) is moved before the last two
assignments (705-706); these do not touch `tree[k].parent`. -/
def rightRotate (t : BTree κ δ) (j k : Nat) : PyM (BTree κ δ) := do
  let nk ← getNode t k
  let t ← modIf t nk.right (fun n => { n with parent := some j })
  let t ← modNode t j (fun n => { n with left := nk.right })
  let nj ← getNode t j
  let t ← modNode t k (fun n => { n with parent := nj.parent })
  let t ← hoist t nj.parent j k
  let t ← modNode t j (fun n => { n with parent := some k })
  modNode t k (fun n => { n with right := some j })

/-- binary_trees.py:751-766 `_left_rotate(j, k)`; same remark. -/
def leftRotate (t : BTree κ δ) (j k : Nat) : PyM (BTree κ δ) := do
  let nk ← getNode t k
  let t ← modIf t nk.left (fun n => { n with parent := some j })
  let t ← modNode t j (fun n => { n with right := nk.left })
  let nj ← getNode t j
  let t ← modNode t k (fun n => { n with parent := nj.parent })
  let t ← hoist t nj.parent j k
  let t ← modNode t j (fun n => { n with parent := some k })
  modNode t k (fun n => { n with left := some j })

/-- binary_trees.py:711-729 `_left_right_rotate(j, k)`. -/
def leftRightRotate (t : BTree κ δ) (j k : Nat) : PyM (BTree κ δ) := do
  let nk ← getNode t k
  let i ← asIdx nk.right
  let ni ← getNode t i
  let t ← modNode t k (fun n => { n with right := ni.left })
  let t ← modNode t j (fun n => { n with left := ni.right })
  let t ← modIf t ni.left (fun n => { n with parent := some k })
  let t ← modIf t ni.right (fun n => { n with parent := some j })
  let nj ← getNode t j
  let t ← modNode t i (fun n => { n with left := some k, right := some j, parent := nj.parent })
  let t ← modNode t k (fun n => { n with parent := some i })
  let t ← modNode t j (fun n => { n with parent := some i })
  hoist t nj.parent j i

/-- binary_trees.py:731-749 `_right_left_rotate(j, k)`. -/
def rightLeftRotate (t : BTree κ δ) (j k : Nat) : PyM (BTree κ δ) := do
  let nk ← getNode t k
  let i ← asIdx nk.left
  let ni ← getNode t i
  let t ← modNode t k (fun n => { n with left := ni.right })
  let t ← modNode t j (fun n => { n with right := ni.left })
  let t ← modIf t ni.left (fun n => { n with parent := some j })
  let t ← modIf t ni.right (fun n => { n with parent := some k })
  let nj ← getNode t j
  let t ← modNode t i (fun n => { n with right := some k, left := some j, parent := nj.parent })
  let t ← modNode t k (fun n => { n with parent := some i })
  let t ← modNode t j (fun n => { n with parent := some i })
  hoist t nj.parent j i

end Model
