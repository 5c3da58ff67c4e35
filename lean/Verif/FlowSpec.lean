import Mathlib.Algebra.BigOperators.Group.Finset.Basic
import Mathlib.Algebra.Order.BigOperators.Group.Finset
import Mathlib.Algebra.BigOperators.Ring.Finset
import Mathlib.Tactic.Linarith
import Verif.GraphSpec

/-!
# Specification vocabulary for maximum flow

`S` is the finite set of vertices, `cap u v` the capacity from `u` to `v` (0 if there is no edge).
-/
namespace Spec

variable {V : Type} [DecidableEq V]

/-- A feasible flow from `s` to `t`: within the capacities, and what enters an inner vertex leaves it. -/
structure IsFlow (S : Finset V) (cap : V → V → Int) (s t : V) (f : V → V → Int) : Prop where
  nonneg : ∀ u v, 0 ≤ f u v
  le_cap : ∀ u v, f u v ≤ cap u v
  conserved : ∀ v ∈ S, v ≠ s → v ≠ t → ∑ w ∈ S, f w v = ∑ w ∈ S, f v w

/-- What leaves the source, less what enters it. -/
def flowValue (S : Finset V) (s : V) (f : V → V → Int) : Int := ∑ w ∈ S, f s w - ∑ w ∈ S, f w s

/-- `m` is the greatest value of a feasible flow. -/
def IsMaxFlow (S : Finset V) (cap : V → V → Int) (s t : V) (m : Int) : Prop :=
  (∃ f, IsFlow S cap s t f ∧ flowValue S s f = m) ∧ ∀ f, IsFlow S cap s t f → flowValue S s f ≤ m

/-- No path from `s` to `t` has spare capacity on all its edges. -/
def Blocking (cap : V → V → Int) (s t : V) (f : V → V → Int) : Prop :=
  ¬ Relation.ReflTransGen (fun u v => f u v < cap u v) s t

end Spec
