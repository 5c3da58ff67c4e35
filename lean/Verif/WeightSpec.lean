/-!
# Specification vocabulary for shortest paths

A weighted digraph is given by the weight of the edge from one vertex to another, if there is one.
-/
namespace Spec

/-- A walk from `u` to `v` whose edges have total weight `c`. -/
inductive WalkW {V : Type _} (wt : V → V → Option Int) (u : V) : V → Int → Prop
  | nil : WalkW wt u u 0
  | snoc {v w c x} : WalkW wt u v c → wt v w = some x → WalkW wt u w (c + x)

/-- `c` is the least weight of a walk from `u` to `v`. -/
def IsShortest {V : Type _} (wt : V → V → Option Int) (u v : V) (c : Int) : Prop := WalkW wt u v c ∧ ∀ c', WalkW wt u v c' → c ≤ c'

/-- A cycle of negative weight that can be reached from `u`. -/
def NegativeCycle {V : Type _} (wt : V → V → Option Int) (u : V) : Prop := ∃ x c c', WalkW wt u x c ∧ WalkW wt x x c' ∧ c' < 0

/-- The answer of a shortest path algorithm for the vertices `u`, `v`: the least weight of a walk, or `none` for infinity when there is no walk. -/
def Distance {V : Type _} (wt : V → V → Option Int) (u v : V) : Option Int → Prop
  | some c => IsShortest wt u v c
  | none => ∀ c, ¬ WalkW wt u v c

theorem WalkW.append {V : Type _} {wt : V → V → Option Int} {u v w : V} {a b : Int} (h : WalkW wt u v a) (h' : WalkW wt v w b) :
    WalkW wt u w (a + b) := by
  induction h' with
  | nil => rw [Int.add_zero]; exact h
  | snoc _ hx ih => rw [← Int.add_assoc]; exact ih.snoc hx

theorem WalkW.cons {V : Type _} {wt : V → V → Option Int} {u v w : V} {x b : Int} (hx : wt u v = some x) (h' : WalkW wt v w b) :
    WalkW wt u w (x + b) := by
  have := WalkW.append (WalkW.snoc .nil hx) h'
  rwa [Int.zero_add] at this

/-- If every edge keeps the potential, so does every walk. -/
theorem WalkW.potential {V : Type _} {wt : V → V → Option Int} {D : V → Option Int}
    (h : ∀ u du, D u = some du → ∀ w x, wt u w = some x → ∃ dw, D w = some dw ∧ dw ≤ du + x) {u v : V} {c du : Int} (hu : D u = some du)
    (hw : WalkW wt u v c) : ∃ dv, D v = some dv ∧ dv ≤ du + c := by
  induction hw with
  | nil => exact ⟨du, hu, by omega⟩
  | snoc _ hx ih =>
    obtain ⟨dv, h1, h2⟩ := ih
    obtain ⟨dw, h3, h4⟩ := h _ _ h1 _ _ hx
    exact ⟨dw, h3, by omega⟩

end Spec
