import Verif.Py

/-!
# The one dimensional segment tree

Model of `OneDimensionalSegmentTree` (`/repo/pydatastructs/trees/space_partitioning_trees.py:11-245`). End points are of any type with an order `lt`
(`<`), `dec x` and `inc x` stand for `x - 1` and `x + 1`. The `TreeNode` made for a segment by `build` (line 177) is an object of its own, compared
by identity: it is represented by the position of the segment in `self.segments`. `query` is modelled for the default `init_node`.
`__str__` is not modelled.
-/
namespace Model
open Py
variable {α : Type}

/-- A `TreeNode` of the tree: `key` is `[lc, lo, hi, rc]`; utils/misc_util.py:76-91. -/
structure IvNode (α : Type) where
  lc : Bool
  lo : α
  hi : α
  rc : Bool
  left : Option Int := none
  right : Option Int := none
  data : Option (List Nat) := none

/-- space_partitioning_trees.py:51 `__slots__`; `root_idx` is `-1` when the tree is built. -/
structure IvTree (α : Type) where
  segments : List (α × α)
  tree : List (IvNode α)
  cache : Bool

/-- space_partitioning_trees.py:53-66 `__new__`, for a list of pairs: each pair is sorted. (The list given by the caller is changed in the same way, and a tuple
of pairs raises `TypeError`: neither is modelled.) -/
def ivNew (lt : α → α → Bool) (segs : List (α × α)) : IvTree α :=
  ⟨segs.map fun s => if lt s.2 s.1 then (s.2, s.1) else s, [], false⟩

/-- space_partitioning_trees.py:71-76 `_union`. -/
def ivUnion (i1 i2 : IvNode α) : IvNode α := { lc := i1.lc, lo := i1.lo, hi := i2.hi, rc := i2.rc }

/-- space_partitioning_trees.py:78-94 `_intersect`, `None` being the absent child. `c1` and `c2` are `None` unless the ends touch. -/
def ivIntersect [DecidableEq α] (lt : α → α → Bool) (i1 : IvNode α) (i2 : Option (IvNode α)) : Bool :=
  match i2 with
  | none => false
  | some i2 =>
    if lt i1.hi i2.lo || lt i2.hi i1.lo then false
    else
      let c1 : Option Bool := if i1.hi = i2.lo then some (i1.rc && i2.lc) else none
      let c2 : Option Bool := if i2.hi = i1.lo then some (i2.rc && i1.lc) else none
      if c1 = some false && c2 = some false then false else true

/-- space_partitioning_trees.py:96-111 `_contains`, for nodes that are not `None`. -/
def ivContains [DecidableEq α] (lt : α → α → Bool) (i1 i2 : IvNode α) : Bool :=
  if lt i1.lo i2.lo && lt i2.hi i1.hi then true
  else if i1.lo = i2.lo && lt i2.hi i1.hi then i1.lc || !i2.lc
  else if lt i1.lo i2.lo && decide (i1.hi = i2.hi) then i1.rc || !i2.rc
  else if i1.lo = i2.lo && decide (i1.hi = i2.hi) then !((!i1.rc && i2.rc) || (!i1.lc && i2.lc))
  else false

/-- The position that a Python index means: a negative one counts from the end. (space_partitioning_trees.py:115, 179) -/
def ivPos (t : List (IvNode α)) (i : Int) : PyM Nat :=
  let j := if i < 0 then i + t.length else i
  if 0 ≤ j ∧ j < t.length then .ok j.toNat else .error .indexError

/-- `self.tree[i]`. (space_partitioning_trees.py:116-118) -/
def ivAt (t : List (IvNode α)) (i : Int) : PyM (IvNode α) := do rd t (← ivPos t i)

/-- The child that an attribute `left` or `right` names, `None` if there is none (space_partitioning_trees.py:119-126). -/
def ivChild (t : List (IvNode α)) (o : Option Int) : PyM (Option (IvNode α)) :=
  match o with
  | none => .ok none
  | some i => do .ok (some (← ivAt t i))

/-- space_partitioning_trees.py:113-131 `_iterate`. The last element of the Python list `calls` is the head of the list here. -/
def ivIterate [DecidableEq α] (lt : α → α → Bool) (t : List (IvNode α)) (calls : List (Option Int)) (q : IvNode α) (idx : Int) :
    PyM (List (Option Int)) := do
  let n ← ivAt t idx
  let rc ← ivChild t n.right
  let lc ← ivChild t n.left
  let calls := if ivIntersect lt q rc then n.right :: calls else calls
  .ok (if ivIntersect lt q lc then n.left :: calls else calls)

/-- space_partitioning_trees.py:143 `endpoints.sort()`. -/
def ivInsert (lt : α → α → Bool) (x : α) : List α → List α
  | [] => [x]
  | y :: ys => if lt y x then y :: ivInsert lt x ys else x :: y :: ys

/-- space_partitioning_trees.py:143 `endpoints.sort()`. -/
def ivSort (lt : α → α → Bool) (l : List α) : List α := l.foldr (ivInsert lt) []

/-- space_partitioning_trees.py:147-153: the elementary intervals from the end point `x` on, the remaining end points being `rest`. -/
def ivElems (inc : α → α) (x : α) : List α → List (IvNode α)
  | [] => [{ lc := true, lo := x, hi := x, rc := true }, { lc := false, lo := x, hi := inc x, rc := false }]
  | y :: rest => { lc := true, lo := x, hi := x, rc := true } :: { lc := false, lo := x, hi := y, rc := false } :: ivElems inc y rest

/-- space_partitioning_trees.py:157-169: one round of pairing; the first argument is `m`. The deque is a list. -/
def ivPair : Nat → List (IvNode α) → List (IvNode α) → PyM (List (IvNode α) × List (IvNode α))
  | m + 2, queue, tree =>
    match queue with
    | i1 :: i2 :: queue =>
      ivPair m (queue ++ [{ ivUnion i1 i2 with left := some tree.length, right := some (tree.length + 1) }]) (tree ++ [i1, i2])
    | _ => .error .indexError
  | 1, queue, tree =>
    match queue with
    | il :: queue => .ok (queue ++ [il], tree)
    | [] => .error .indexError
  | 0, queue, tree => .ok (queue, tree)

/-- space_partitioning_trees.py:156-169: the rounds. -/
def ivRounds (fuel : Nat) (queue tree : List (IvNode α)) : PyM (List (IvNode α) × List (IvNode α)) :=
  whileLoop fuel (fun st => .ok (decide (st.1.length > 1))) (fun st => ivPair st.1.length st.1 st.2) (queue, tree)

/-- `calls.pop()` followed by the use of the value as an index; `None` is not an index. (space_partitioning_trees.py:179, 223) -/
def ivIdx (o : Option Int) : PyM Int :=
  match o with
  | some i => .ok i
  | none => .error .typeError

/-- space_partitioning_trees.py:182-184: `if data is None: data = []`, `data.append(I)`. -/
def ivStore (t : List (IvNode α)) (idx : Int) (name : Nat) : PyM (List (IvNode α)) := do
  let p ← ivPos t idx
  let n ← rd t p
  wr t p { n with data := some (n.data.getD [] ++ [name]) }

/-- space_partitioning_trees.py:178-186: one round of the loop of `build` over the calls. -/
def ivPlaceBody [DecidableEq α] (lt : α → α → Bool) (I : IvNode α) (name : Nat) (st : List (Option Int) × List (IvNode α)) :
    PyM (List (Option Int) × List (IvNode α)) :=
  match st.1 with
  | [] => .error .indexError
  | c :: calls => do
    let idx ← ivIdx c
    let n ← ivAt st.2 idx
    if ivContains lt I n then do
      let t ← ivStore st.2 idx name
      .ok (calls, t)
    else do
      let calls ← ivIterate lt st.2 calls I idx
      .ok (calls, st.2)

/-- space_partitioning_trees.py:177-186: one segment. -/
def ivPlace [DecidableEq α] (lt : α → α → Bool) (fuel : Nat) (name : Nat) (seg : α × α) (t : List (IvNode α)) : PyM (List (IvNode α)) := do
  let I : IvNode α := { lc := true, lo := seg.1, hi := seg.2, rc := true }
  let st ← whileLoop fuel (fun st => .ok (!st.1.isEmpty)) (ivPlaceBody lt I name) ([some (-1)], t)
  .ok st.2

/-- space_partitioning_trees.py:176-186: the loop over the segments, the first of which has the position `name`. -/
def ivPlaceAll [DecidableEq α] (lt : α → α → Bool) (fuel : Nat) : Nat → List (α × α) → List (IvNode α) → PyM (List (IvNode α))
  | _, [], t => .ok t
  | name, seg :: segs, t => do
    let t ← ivPlace lt fuel name seg t
    ivPlaceAll lt fuel (name + 1) segs t

/-- space_partitioning_trees.py:133-187 `build`. -/
def ivBuild [DecidableEq α] (lt : α → α → Bool) (dec inc : α → α) (fuel : Nat) (s : IvTree α) : PyM (IvTree α) :=
  if s.cache then .ok s
  else
    match ivSort lt (s.segments.flatMap fun g => [g.1, g.2]) with
    | [] => .error .indexError
    | x :: rest => do
      let (queue, tree) ← ivRounds fuel ({ lc := false, lo := dec x, hi := x, rc := false } :: ivElems inc x rest) []
      match queue with
      | [] => .error .indexError
      | ir :: _ => do
        let tree := tree ++ [{ ir with left := some (-3), right := some (-2) }]
        let tree ← ivPlaceAll lt fuel 0 s.segments tree
        .ok { s with tree := tree, cache := true }

/-- space_partitioning_trees.py:222-226: one round of the loop of `query`. -/
def ivQueryBody [DecidableEq α] (lt : α → α → Bool) (t : List (IvNode α)) (q : IvNode α) (st : List (Option Int) × List Nat) :
    PyM (List (Option Int) × List Nat) :=
  match st.1 with
  | [] => .error .indexError
  | c :: calls => do
    let idx ← ivIdx c
    let n ← ivAt t idx
    let out := match n.data with
      | some d => st.2 ++ d
      | none => st.2
    let calls ← ivIterate lt t calls q idx
    .ok (calls, out)

/-- space_partitioning_trees.py:189-227 `query`: the positions of the segments returned, without repetitions (`set(intervals)`). -/
def ivQuery [DecidableEq α] (lt : α → α → Bool) (dec inc : α → α) (fuel : Nat) (s : IvTree α) (x : α) : PyM (IvTree α × List Nat) := do
  let s ← ivBuild lt dec inc fuel s
  let q : IvNode α := { lc := true, lo := x, hi := x, rc := true }
  let st ← whileLoop fuel (fun st => .ok (!st.1.isEmpty)) (ivQueryBody lt s.tree q) ([some (-1)], [])
  .ok (s, st.2.eraseDups)

end Model
