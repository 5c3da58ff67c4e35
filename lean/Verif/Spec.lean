import Verif.Py

/-!
# Specification vocabulary

Small definitions used in the statements of the properties. They do not mention the model.
-/
namespace Spec

/-- `le` is a total preorder: the meaning of "an order to sort by". -/
structure TotalPreorder {α : Type _} (le : α → α → Prop) : Prop where
  total : ∀ a b, le a b ∨ le b a
  trans : ∀ a b c, le a b → le b c → le a c

/-- A boolean comparator is compatible with `le`: when it says yes the first argument may come first, when it
says no the second may. A strict (`<`) and a non-strict (`<=`) comparator are both compatible with `≤`. -/
structure Compat {α : Type _} (comp : α → α → Bool) (le : α → α → Prop) : Prop where
  yes : ∀ a b, comp a b = true → le a b
  no : ∀ a b, comp a b = false → le b a

/-- Order on array cells that may hold `None`: `None` is the largest. -/
def noneLast {α : Type _} (le : α → α → Prop) : Option α → Option α → Prop
  | _, none => True
  | none, some _ => False
  | some a, some b => le a b

/-- The cells `lo ≤ i < hi` of the array are in order. -/
def SortedRange {α : Type _} (le : α → α → Prop) (a : List α) (lo hi : Nat) : Prop :=
  ∀ i j x y, lo ≤ i → i < j → j < hi → a[i]? = some x → a[j]? = some y → le x y

/-- `b` is `a` with its cells `lo ≤ i < hi` rearranged: same multiset of elements, nothing changed outside
the range. -/
def Rearranged {α : Type _} (a b : List α) (lo hi : Nat) : Prop :=
  b.Perm a ∧ ∀ i, i < lo ∨ hi ≤ i → b[i]? = a[i]?

/-- What sorting the cells `lo ≤ i < hi` of `a` must produce. -/
def SortsTo {α : Type _} (le : α → α → Prop) (a b : List α) (lo hi : Nat) : Prop :=
  Rearranged a b lo hi ∧ SortedRange le b lo hi

/-- A fuel-indexed computation ends with result `r`: some number of iterations suffices, and giving more
does not change anything. -/
def EndsWith {α : Type _} (f : Nat → α) (r : α) : Prop := ∃ n₀, ∀ n, n₀ ≤ n → f n = r

/-- A fuel-indexed computation ends without exception in a result satisfying `P`, as soon as it is given enough
iterations. -/
def EndsIn {ε α : Type _} (f : Nat → Except ε α) (P : α → Prop) : Prop :=
  ∃ n₀, ∀ n, n₀ ≤ n → ∃ r, f n = .ok r ∧ P r

/-- A strict total order. -/
structure StrictTotal {α : Type _} (lt : α → α → Prop) : Prop where
  irrefl : ∀ a, ¬ lt a a
  trans : ∀ a b c, lt a b → lt b c → lt a c
  tri : ∀ a b, lt a b ∨ a = b ∨ lt b a

/-! ## Observing an object through a history of calls -/

/-- What the caller of a method sees. -/
inductive Out (α : Type) where
  | done
  | elem (x : α)
  | nothing
  | count (n : Nat)
  | flag (b : Bool)
  | raised (e : Py.PyErr)
  deriving DecidableEq, Repr

/-- The outputs of a sequence of calls made on one object. -/
def trace {σ ω ο : Type} (step : σ → ω → σ × ο) : σ → List ω → List ο
  | _, [] => []
  | s, op :: ops => (step s op).2 :: trace step (step s op).1 ops

/-- The state after a sequence of calls. -/
def final {σ ω ο : Type} (step : σ → ω → σ × ο) : σ → List ω → σ
  | s, [] => s
  | s, op :: ops => final step (step s op).1 ops

end Spec
