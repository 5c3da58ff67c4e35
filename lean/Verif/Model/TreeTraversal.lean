import Verif.Model.BinaryTree

/-!
# Traversals of binary trees

Model of `BinaryTreeTraversal` (`/repo/pydatastructs/trees/binary_trees.py:1562-1761`). The `Stack` is the library's stack
(last-in-first-out: C29, C33), written as a list with the top first; `Queue` is `collections.deque` (binary_trees.py:2).
-/
namespace Model
open Py
variable {κ δ : Type}

/-- The state of an explicit-stack traversal: the stack or queue, and `visit`. (binary_trees.py:1624-1640, 1724-1761) -/
structure VisitSt (κ δ : Type) where
  todo : List Nat
  visit : List (BNode κ δ)

/-- `while not s.is_empty` / `while len(q) > 0`. (binary_trees.py:1633, 1754) -/
def visitCond (s : VisitSt κ δ) : PyM Bool := .ok (!s.todo.isEmpty)

/-- The index in front of a stack, if any: `if o is not None: s.push(o)`. (binary_trees.py:1636-1639) -/
def pushIf (o : Option Nat) (stack : List Nat) : List Nat :=
  match o with
  | none => stack
  | some i => i :: stack

/-- binary_trees.py:1634-1639, the body of `_pre_order`. -/
def preBody (t : BTree κ δ) (s : VisitSt κ δ) : PyM (VisitSt κ δ) :=
  match s.todo with
  | [] => .ok s
  | node :: rest => do
    let n ← getNode t node
    .ok ⟨pushIf n.left (pushIf n.right rest), s.visit ++ [n]⟩

/-- binary_trees.py:1624-1640 `_pre_order`. -/
def preOrder (fuel : Nat) (t : BTree κ δ) (node : Nat) : PyM (List (BNode κ δ)) := do
  let s ← whileLoop fuel visitCond (preBody t) ⟨[node], []⟩
  .ok s.visit

/-- The state of `_in_order`: the stack, `node` and `visit`. (binary_trees.py:1642-1658) -/
structure InSt (κ δ : Type) where
  stack : List Nat
  node : Option Nat
  visit : List (BNode κ δ)

/-- `while not s.is_empty or node is not None` (binary_trees.py:1650). -/
def inCond (s : InSt κ δ) : PyM Bool := .ok (!s.stack.isEmpty || s.node.isSome)

/-- binary_trees.py:1651-1657, the body of `_in_order`. -/
def inBody (t : BTree κ δ) (s : InSt κ δ) : PyM (InSt κ δ) :=
  match s.node with
  | some i => do
    let n ← getNode t i
    .ok ⟨i :: s.stack, n.left, s.visit⟩
  | none =>
    match s.stack with
    | [] => .ok s
    | i :: rest => do
      let n ← getNode t i
      .ok ⟨rest, n.right, s.visit ++ [n]⟩

/-- binary_trees.py:1642-1658 `_in_order`. -/
def inOrder (fuel : Nat) (t : BTree κ δ) (node : Nat) : PyM (List (BNode κ δ)) := do
  let s ← whileLoop fuel inCond (inBody t) ⟨[], some node, []⟩
  .ok s.visit

/-- The state of `_post_order`: the stack, `visit` and the flags `last`. (binary_trees.py:1660-1684) -/
structure PostSt (κ δ : Type) where
  stack : List Nat
  visit : List (BNode κ δ)
  last : List Bool

/-- `while not s.is_empty` (binary_trees.py:1671). -/
def postCond (s : PostSt κ δ) : PyM Bool := .ok (!s.stack.isEmpty)

/-- `o is None or last[o]` (binary_trees.py:1674). -/
def postDone (last : List Bool) (o : Option Nat) : PyM Bool :=
  match o with
  | none => .ok true
  | some i => rd last i

/-- binary_trees.py:1672-1683, the body of `_post_order`. -/
def postBody (t : BTree κ δ) (s : PostSt κ δ) : PyM (PostSt κ δ) :=
  match s.stack with
  | [] => .ok s
  | node :: rest => do
    let n ← getNode t node
    let cl ← postDone s.last n.left
    let cr ← postDone s.last n.right
    if cl && cr then do
      let last ← wr s.last node true
      .ok ⟨rest, s.visit ++ [n], last⟩
    else
      .ok { s with stack := pushIf (if cl then none else n.left) (pushIf (if cr then none else n.right) (node :: rest)) }

/-- binary_trees.py:1660-1684 `_post_order`; `last` has `tree.size` entries. -/
def postOrder (fuel : Nat) (t : BTree κ δ) (node : Nat) : PyM (List (BNode κ δ)) := do
  let s ← whileLoop fuel postCond (postBody t) ⟨[node], [], List.replicate t.size false⟩
  .ok s.visit

/-- binary_trees.py:1686-1691 `_out_order`. -/
def outOrder (fuel : Nat) (t : BTree κ δ) (node : Nat) : PyM (List (BNode κ δ)) := do
  let l ← inOrder fuel t node
  .ok l.reverse

/-- The four orders accepted by `depth_first_search`. (binary_trees.py:1693-1722) -/
inductive DfsOrder where
  | pre | ino | post | out

/-- binary_trees.py:1693-1724 `depth_first_search(order, node)`; `none` stands for the default node. An unknown order raises
`NotImplementedError`, which the type excludes here. -/
def treeDfs (fuel : Nat) (t : BTree κ δ) (order : DfsOrder) (node : Option Nat) : PyM (List (BNode κ δ)) :=
  match order with
  | .pre => preOrder fuel t (node.getD t.rootIdx)
  | .ino => inOrder fuel t (node.getD t.rootIdx)
  | .post => postOrder fuel t (node.getD t.rootIdx)
  | .out => outOrder fuel t (node.getD t.rootIdx)

/-- binary_trees.py:1755-1760, the body of `breadth_first_search`. -/
def bfsTreeBody (t : BTree κ δ) (s : VisitSt κ δ) : PyM (VisitSt κ δ) :=
  match s.todo with
  | [] => .ok s
  | node :: rest => do
    let n ← getNode t node
    .ok ⟨rest ++ pushIf n.left (pushIf n.right []), s.visit ++ [n]⟩

/-- binary_trees.py:1726-1761 `breadth_first_search(node)`. -/
def treeBfs (fuel : Nat) (t : BTree κ δ) (node : Option Nat) : PyM (List (BNode κ δ)) := do
  let s ← whileLoop fuel visitCond (bfsTreeBody t) ⟨[node.getD t.rootIdx], []⟩
  .ok s.visit

end Model
