import Verif.Model.CppBst
import Verif.Model.TreeTraversal

/-!
# The C++ traversals of binary trees

Model of `/repo/pydatastructs/trees/_backend/cpp/BinaryTreeTraversal.hpp`. `std::stack` and `std::queue` are lists, the top or front first. An unknown order or strategy
raises `NotImplementedError`, which the types exclude here.
-/
namespace Model.Cpp
open Py
variable {κ δ : Type}

/-- trees/_backend/cpp/BinaryTreeTraversal.hpp:90-99, the body of `_pre_order`. -/
def ctPreBody (t : BTree κ δ) (s : VisitSt κ δ) : PyM (VisitSt κ δ) :=
  match s.todo with
  | [] => .ok s
  | node :: rest => do
    let n ← cNode t node
    .ok ⟨cPush (cPush rest n.right) n.left, s.visit ++ [n]⟩

/-- trees/_backend/cpp/BinaryTreeTraversal.hpp:81-102 `_pre_order`. -/
def ctPreOrder (fuel : Nat) (t : BTree κ δ) (node : Nat) : PyM (List (BNode κ δ)) := do
  let s ← whileLoop fuel visitCond (ctPreBody t) ⟨[node], []⟩
  .ok s.visit

/-- trees/_backend/cpp/BinaryTreeTraversal.hpp:112-123, the body of `_in_order`. -/
def ctInBody (t : BTree κ δ) (s : InSt κ δ) : PyM (InSt κ δ) :=
  match s.node with
  | some i => do
    let n ← cNode t i
    .ok ⟨i :: s.stack, n.left, s.visit⟩
  | none =>
    match s.stack with
    | [] => .error .undefined
    | i :: rest => do
      let n ← cNode t i
      .ok ⟨rest, n.right, s.visit ++ [n]⟩

/-- trees/_backend/cpp/BinaryTreeTraversal.hpp:104-125 `_in_order`. -/
def ctInOrder (fuel : Nat) (t : BTree κ δ) (node : Nat) : PyM (List (BNode κ δ)) := do
  let s ← whileLoop fuel inCond (ctInBody t) ⟨[], some node, []⟩
  .ok s.visit

/-- The state of `_post_order` (trees/_backend/cpp/BinaryTreeTraversal.hpp:127-139): the stack, `visit`, the list `last` and whether an exception is pending. -/
structure CtPostSt (κ δ : Type) where
  stack : List Nat
  visit : List (BNode κ δ)
  last : List Bool
  err : Bool

/-- `PyList_GetItem(last, o) == PyOne` for a link `o` (trees/_backend/cpp/BinaryTreeTraversal.hpp:144-149): outside the list the answer is `NULL`, which is
not `PyOne`, and an exception is pending. -/
def ctDone (last : List Bool) (o : Option Nat) : Bool × Bool :=
  match o with
  | none => (true, false)
  | some i => match last[i]? with
    | some b => (b, false)
    | none => (false, true)

/-- `while (!s.empty())` (trees/_backend/cpp/BinaryTreeTraversal.hpp:139). -/
def ctPostCond (s : CtPostSt κ δ) : PyM Bool := .ok (!s.stack.isEmpty)

/-- trees/_backend/cpp/BinaryTreeTraversal.hpp:140-163, the body of `_post_order`. -/
def ctPostBody (t : BTree κ δ) (s : CtPostSt κ δ) : PyM (CtPostSt κ δ) :=
  match s.stack with
  | [] => .ok s
  | node :: rest => do
    let n ← cNode t node
    let cl := ctDone s.last n.left
    let cr := ctDone s.last n.right
    if cl.1 && cr.1 then
      .ok ⟨rest, s.visit ++ [n], s.last.set node true, s.err || cl.2 || cr.2 || decide (s.last.length ≤ node)⟩
    else
      .ok { s with
        stack := cPush (cPush (node :: rest) (if cr.1 then none else n.right)) (if cl.1 then none else n.left)
        err := s.err || cl.2 || cr.2 }

/-- trees/_backend/cpp/BinaryTreeTraversal.hpp:127-165 `_post_order`; `last` has `tree->size` entries. Returning the list while an exception is pending is a `SystemError`. -/
def ctPostOrder (fuel : Nat) (t : BTree κ δ) (node : Nat) : PyM (List (BNode κ δ)) := do
  let s ← whileLoop fuel ctPostCond (ctPostBody t) ⟨[node], [], List.replicate t.size false, false⟩
  if s.err then .error .systemError else .ok s.visit

/-- trees/_backend/cpp/BinaryTreeTraversal.hpp:167-172 `_out_order`. -/
def ctOutOrder (fuel : Nat) (t : BTree κ δ) (node : Nat) : PyM (List (BNode κ δ)) := do
  let l ← ctInOrder fuel t node
  .ok l.reverse

/-- trees/_backend/cpp/BinaryTreeTraversal.hpp:174-201 `depth_first_search(node, order)`; `none` stands for the default node. -/
def ctDfs (fuel : Nat) (t : BTree κ δ) (order : DfsOrder) (node : Option Nat) : PyM (List (BNode κ δ)) :=
  match order with
  | .pre => ctPreOrder fuel t (node.getD t.rootIdx)
  | .ino => ctInOrder fuel t (node.getD t.rootIdx)
  | .post => ctPostOrder fuel t (node.getD t.rootIdx)
  | .out => ctOutOrder fuel t (node.getD t.rootIdx)

/-- trees/_backend/cpp/BinaryTreeTraversal.hpp:220-230, the body of `breadth_first_search`. -/
def ctBfsBody (t : BTree κ δ) (s : VisitSt κ δ) : PyM (VisitSt κ δ) :=
  match s.todo with
  | [] => .ok s
  | node :: rest => do
    let n ← cNode t node
    .ok ⟨rest ++ cPush (cPush [] n.right) n.left, s.visit ++ [n]⟩

/-- trees/_backend/cpp/BinaryTreeTraversal.hpp:203-238 `breadth_first_search(node)`. -/
def ctBfs (fuel : Nat) (t : BTree κ δ) (node : Option Nat) : PyM (List (BNode κ δ)) := do
  let s ← whileLoop fuel visitCond (ctBfsBody t) ⟨[node.getD t.rootIdx], []⟩
  .ok s.visit

end Model.Cpp
