import Verif.Py

/-!
# Binomial trees and heaps (miscellaneous_data_structures/binomial_trees.py, trees/heaps.py:357-582) and the priority queue on top
(miscellaneous_data_structures/queue.py:469-498)

Nodes are trees (values). A node object has exactly one place in the forest of one heap: `merge` moves the nodes of the other heap, which is
not used afterwards. The attributes `parent` and `is_root` of a node are then determined by its place: `is_root` is set at
binomial_trees.py:55 and cleared at line 86; `parent` is only read when `is_root` is false (heaps.py:561-562).
`le` is the operator `<=` of the keys; `a > b` is modelled as the negation of `a <= b`.
-/
namespace Model
open Py

/-- misc_util.py:157-217 `BinomialTreeNode`. `children` is a `DynamicOneDimensionalArray` that is only appended to: a list (see C26). -/
inductive BinNode (κ δ : Type) where
  | mk (key : κ) (data : δ) (children : List (BinNode κ δ))

variable {κ δ : Type}

/-- misc_util.py:192-209: attribute `key`. -/
def BinNode.key : BinNode κ δ → κ
  | .mk k _ _ => k
/-- misc_util.py:192-209: attribute `data`. -/
def BinNode.data : BinNode κ δ → δ
  | .mk _ d _ => d
/-- misc_util.py:192-209: attribute `children`. -/
def BinNode.children : BinNode κ δ → List (BinNode κ δ)
  | .mk _ _ cs => cs

/-- binomial_trees.py:9-58 `BinomialTree` with a root. -/
structure BinTree (κ δ : Type) where
  root : BinNode κ δ
  order : Nat

/-- binomial_trees.py:64-87 `add_sub_tree`. -/
def addSubTree (t1 t2 : BinTree κ δ) : PyM (BinTree κ δ) :=
  if t1.order ≠ t2.order then .error .valueError
  else .ok ⟨.mk t1.root.key t1.root.data (t1.root.children ++ [t2.root]), t1.order + 1⟩

variable (le : κ → κ → Bool)

/-- heaps.py:411-432 `merge_tree`. -/
def mergeTree (t1 t2 : BinTree κ δ) : PyM (BinTree κ δ) :=
  if le t1.root.key t2.root.key then addSubTree t1 t2 else addSubTree t2 t1

/-- heaps.py:434-442 `_merge_heap_last_new_tree`. -/
def mergeLast (roots : List (BinTree κ δ)) (t : BinTree κ δ) : PyM (List (BinTree κ δ)) :=
  match roots.getLast? with
  | some l =>
    if l.order = t.order then do
      let m ← mergeTree le l t
      .ok (roots.dropLast ++ [m])
    else .ok (roots ++ [t])
  | none => .ok (roots ++ [t])

/-- heaps.py:453-486: the three loops of `merge` on the not yet consumed parts of the two lists of roots (which contain no `None`). Every
iteration consumes a tree, so `len + len` iterations are enough. -/
def mergeHeaps : Nat → List (BinTree κ δ) → List (BinTree κ δ) → List (BinTree κ δ) → PyM (List (BinTree κ δ))
  | _, [], [], acc => .ok acc
  | 0, _, _, _ => .error .outOfFuel
  | fuel + 1, t :: ts, [], acc => do
    let acc ← mergeLast le acc t
    mergeHeaps fuel ts [] acc
  | fuel + 1, [], u :: us, acc => do
    let acc ← mergeLast le acc u
    mergeHeaps fuel [] us acc
  | fuel + 1, t :: ts, u :: us, acc =>
    if t.order = u.order then do
      let m ← mergeTree le t u
      let acc ← mergeLast le acc m
      mergeHeaps fuel ts us acc
    else if t.order < u.order then do
      let acc ← mergeLast le acc t
      mergeHeaps fuel ts (u :: us) acc
    else do
      let acc ← mergeLast le acc u
      mergeHeaps fuel (t :: ts) us acc

/-- heaps.py:444-487 `merge`: the new list of roots of the current heap. -/
def bhMerge (h1 h2 : List (BinTree κ δ)) : PyM (List (BinTree κ δ)) := mergeHeaps le (h1.length + h2.length) h1 h2 []

/-- heaps.py:489-503 `insert`. -/
def bhInsert (h : List (BinTree κ δ)) (key : κ) (data : δ) : PyM (List (BinTree κ δ)) :=
  bhMerge le h [⟨.mk key data [], 0⟩]

/-- heaps.py:515-525: the loop of `find_minimum`; `best` is `(min_node, min_idx)`. -/
def findMinLoop : List (BinTree κ δ) → Nat → Option (BinNode κ δ × Nat) → Option (BinNode κ δ × Nat)
  | [], _, best => best
  | t :: ts, idx, none => findMinLoop ts (idx + 1) (some (t.root, idx))
  | t :: ts, idx, some (n, i) =>
    if !le n.key t.root.key then findMinLoop ts (idx + 1) (some (t.root, idx)) else findMinLoop ts (idx + 1) (some (n, i))

/-- heaps.py:505-528 `find_minimum(get_index=True)`. -/
def bhFindMin (h : List (BinTree κ δ)) : PyM (BinNode κ δ × Nat) :=
  match findMinLoop le h 0 none with
  | some r => .ok r
  | none => .error .indexError

/-- heaps.py:535-538: a tree of order `k` for the child at position `k`. -/
def childTrees : Nat → List (BinNode κ δ) → List (BinTree κ δ)
  | _, [] => []
  | k, c :: cs => ⟨c, k⟩ :: childTrees (k + 1) cs

/-- heaps.py:530-541 `delete_minimum`. `remove` deletes the first tree that is the same object, i.e. position `min_idx`. -/
def bhDeleteMin (h : List (BinTree κ δ)) : PyM (List (BinTree κ δ)) := do
  let (n, i) ← bhFindMin le h
  bhMerge le (h.eraseIdx i) (childTrees 0 n.children)

/-- heaps.py:543-545 `is_empty`. -/
def bhIsEmpty (h : List (BinTree κ δ)) : Bool := h.isEmpty

/-- heaps.py:559-568 `decrease_key` on the node that is reached from the root by the positions `path`; the flag says whether the node
that was decreased has arrived here (the `while` loop goes on with its parent). -/
def decreaseNode (newKey : κ) : List Nat → BinNode κ δ → PyM (BinNode κ δ × Bool)
  | [], .mk k d cs => if le k newKey then .error .valueError else .ok (.mk newKey d cs, true)
  | i :: path, .mk k d cs =>
    match cs[i]? with
    | none => .error .indexError
    | some c => do
      let (c, moving) ← decreaseNode newKey path c
      if moving && !le k c.key then .ok (.mk c.key c.data (cs.set i (.mk k d c.children)), true)
      else .ok (.mk k d (cs.set i c), false)

/-- heaps.py:547-568 `decrease_key`; the node is given by the position of its tree and the path in it. -/
def bhDecreaseKey (h : List (BinTree κ δ)) (tree : Nat) (path : List Nat) (newKey : κ) : PyM (List (BinTree κ δ)) :=
  match h[tree]? with
  | none => .error .indexError
  | some t => do
    let (n, _) ← decreaseNode le newKey path t.root
    .ok (h.set tree ⟨n, t.order⟩)

/-- heaps.py:570-582 `delete`; `minusOne` is `fun k => k - 1`. -/
def bhDelete (minusOne : κ → κ) (h : List (BinTree κ δ)) (tree : Nat) (path : List Nat) : PyM (List (BinTree κ δ)) := do
  let (n, _) ← bhFindMin le h
  let h ← bhDecreaseKey le h tree path (minusOne n.key)
  bhDeleteMin le h

/-! ## queue.py:469-498 `BinomialHeapPriorityQueue` -/

/-- queue.py:484-487 `pop`: the data of the node found, and the heap without it. -/
def bpqPop (h : List (BinTree κ δ)) : PyM (δ × List (BinTree κ δ)) := do
  let (n, _) ← bhFindMin le h
  let h ← bhDeleteMin le h
  .ok (n.data, h)

end Model
