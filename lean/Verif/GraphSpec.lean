/-!
# Specification vocabulary for the graph algorithms

A finite digraph is given by its list of vertices and the list of neighbours of each vertex.
-/
namespace Spec

/-- The lists of vertices and neighbours form a finite digraph. -/
structure FinGraph {V : Type _} (verts : List V) (nbr : V → List V) : Prop where
  nodup : verts.Nodup
  closed : ∀ v ∈ verts, ∀ w ∈ nbr v, w ∈ verts
  simple : ∀ v ∈ verts, (nbr v).Nodup

/-- A walk of `n` edges from `u` to `v`. -/
inductive Walk {V : Type _} (nbr : V → List V) (u : V) : V → Nat → Prop
  | nil : Walk nbr u u 0
  | snoc {v w n} : Walk nbr u v n → w ∈ nbr v → Walk nbr u w (n + 1)

/-- `v` can be reached from `u`. -/
def Reach {V : Type _} (nbr : V → List V) (u v : V) : Prop := ∃ n, Walk nbr u v n

/-- The number of edges of a shortest walk from `u` to `v`. -/
def IsDist {V : Type _} (nbr : V → List V) (u v : V) (n : Nat) : Prop := Walk nbr u v n ∧ ∀ m, Walk nbr u v m → n ≤ m

theorem Reach.refl {V : Type _} (nbr : V → List V) (u : V) : Reach nbr u u := ⟨0, .nil⟩

theorem Reach.snoc {V : Type _} {nbr : V → List V} {u v w : V} (h : Reach nbr u v) (hw : w ∈ nbr v) : Reach nbr u w :=
  ⟨_, .snoc h.choose_spec hw⟩

theorem Reach.trans {V : Type _} {nbr : V → List V} {u v w : V} (h : Reach nbr u v) (h' : Reach nbr v w) : Reach nbr u w := by
  obtain ⟨n, h'⟩ := h'
  induction h' with
  | nil => exact h
  | snoc _ hw ih => exact ih.snoc hw

/-- A set that contains the start and is closed under neighbours contains everything reachable. -/
theorem Reach.of_closed {V : Type _} {nbr : V → List V} {P : V → Prop} (hc : ∀ v, P v → ∀ w ∈ nbr v, P w) {u v : V} (hu : P u)
    (h : Reach nbr u v) : P v := by
  obtain ⟨n, h⟩ := h
  induction h with
  | nil => exact hu
  | snoc _ hw ih => exact hc _ ih _ hw

end Spec
