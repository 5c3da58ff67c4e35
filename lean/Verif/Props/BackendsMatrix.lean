import Verif.Props.BackendsGraph
import Verif.Props.CppMatrix
import Verif.Props.GraphMatrix

/-! # C125: adjacency-matrix graphs with both back ends -/
namespace Props
open Py Model Model.Cpp Spec

/-- The Python call for a call of the C++ graph. -/
def CMatCall.toPy : CMatCall → GraphOp
  | .addEdge s t (.number x) => .addEdge s t (some x)
  | .addEdge s t _ => .addEdge s t none
  | .removeEdge s t => .removeEdge s t
  | .isAdjacent s t => .isAdjacent s t
  | .neighbors v => .neighbors v
  | .numVertices => .numVertices
  | .numEdges => .numEdges
  | .getEdge s t => .getEdge s t

/-- The call names vertices of the graph and gives, if any, a number as cost. `get_edge` is not called. -/
def CMatCall.Known (names : List String) : CMatCall → Prop
  | .addEdge s t c => s ∈ names ∧ t ∈ names ∧ c ≠ .other
  | .removeEdge s t => s ∈ names ∧ t ∈ names
  | .isAdjacent s t => s ∈ names ∧ t ∈ names
  | .neighbors v => v ∈ names
  | .getEdge _ _ => False
  | _ => True

theorem sameMatrix_step (d : Digraph) (c : CMatOp) (hk : c.1.Known d.verts) :
    (fixedSpec d c.1.toPy).1 = (matWant d c).1 ∧ (matWant d c).1.verts = d.verts ∧ BothSay (fixedSpec d c.1.toPy).2 (matWant d c).2 := by
  obtain ⟨c, o⟩ := c
  cases c with
  | addEdge s t cost =>
    obtain ⟨h1, h2, h3⟩ := hk
    cases cost with
    | other => exact absurd rfl h3
    | absent => simp [CMatCall.toPy, fixedSpec, digraphSpec, matWant, h1, h2, Digraph.addEdge, BothSay]
    | number x => simp [CMatCall.toPy, fixedSpec, digraphSpec, matWant, h1, h2, Digraph.addEdge, Digraph.setCost, BothSay]
  | removeEdge s t => simp [CMatCall.toPy, fixedSpec, matWant, hk.1, Digraph.setCost, BothSay]
  | isAdjacent s t => simp [CMatCall.toPy, fixedSpec, matWant, BothSay]
  | neighbors v =>
    have hk : v ∈ d.verts := hk
    simp [CMatCall.toPy, fixedSpec, matWant, hk, BothSay]
  | numVertices => simp [CMatCall.toPy, fixedSpec, matWant, BothSay]
  | numEdges => simp [CMatCall.toPy, fixedSpec, matWant, BothSay]
  | getEdge s t => exact hk.elim

theorem bothSay_of {a b : GraphOut} {x y : CGraphOut} (h1 : SameOut a b) (h2 : BothSay b y) (h3 : CSame x y) : BothSay a x := by
  cases a <;> cases b <;> cases x <;> cases y <;> simp_all [SameOut, BothSay, CSame]
  all_goals try exact h1.trans (h2.trans h3.symm)
  all_goals simp_all [BothSay]

theorem sameMatrix_run : ∀ (ops : List CMatOp) (d : Digraph) (as : List GraphOut) (xs : List CGraphOut), (∀ c ∈ ops, c.1.Known d.verts) →
    SameOuts as (trace fixedSpec d (ops.map (·.1.toPy))) → CSames xs (trace matWant d ops) → BothAnswer as xs := by
  intro ops
  induction ops with
  | nil =>
    intro d as xs _ h1 h2
    cases as with
    | cons a as => exact h1.elim
    | nil => cases xs with
      | cons x xs => exact h2.elim
      | nil => trivial
  | cons c ops ih =>
    intro d as xs hk h1 h2
    obtain ⟨g1, g2, g3⟩ := sameMatrix_step d c (hk c (by simp))
    simp only [List.map_cons, trace] at h1 h2
    cases as with
    | nil => exact h1.elim
    | cons a as => cases xs with
      | nil => exact h2.elim
      | cons x xs =>
        refine ⟨bothSay_of h1.1 g3 h2.1, ih (matWant d c).1 as xs (fun c' hc' => by rw [g2]; exact hk c' (by simp [hc'])) ?_ h2.2⟩
        rw [← g1]; exact h1.2

/-- Adjacency matrices: histories that name vertices of the graph and give numbers as costs, if any, and that do not both remove edges and count them (Python counts removed edges,
`C125_matrix_count`): all answers are the same, for every order of the hash tables. Missing: `get_edge` (a second one for the same edge is undefined behaviour in C++, `C103_full_false`). -/
theorem C125_matrix_partial (names : List String) (hn : names.Nodup) (hb : ∀ v ∈ names, NoBar v) (ops : List CMatOp) (ho : ∀ c ∈ ops, ∀ l, (c.2 l).Perm l)
    (hk : ∀ c ∈ ops, c.1.Known names) (hc : (∀ c ∈ ops, c.1 ≠ .numEdges) ∨ ∀ c ∈ ops, ∀ s t, c.1 ≠ .removeEdge s t) :
    BothAnswer (trace amStep (amNew names) (ops.map (·.1.toPy))) (trace cmStep (cmNew names) ops) := by
  have hall : ∀ op ∈ ops.map (·.1.toPy), op.All NoBar := by
    intro op hop
    obtain ⟨⟨c, o⟩, hc, rfl⟩ := List.mem_map.1 hop
    have := hk _ hc
    cases c with
    | addEdge s t cost => cases cost <;> exact ⟨hb _ this.1, hb _ this.2.1⟩
    | removeEdge s t => exact ⟨hb _ this.1, hb _ this.2⟩
    | isAdjacent s t => exact ⟨hb _ this.1, hb _ this.2⟩
    | neighbors v => exact hb _ this
    | getEdge s t => exact this.elim
    | numVertices => trivial
    | numEdges => trivial
  have hpy : SameOuts (trace amStep (amNew names) (ops.map (·.1.toPy))) (trace fixedSpec (fixedVerts names) (ops.map (·.1.toPy))) := by
    rcases hc with hc | hc
    · refine C57_observations_partial NoBar separable_noUnderscore names hn _ hall fun op hop => ?_
      obtain ⟨⟨c, o⟩, hm, rfl⟩ := List.mem_map.1 hop
      have := hc _ hm
      cases c with
      | addEdge s t cost => cases cost <;> simp [CMatCall.toPy]
      | numEdges => exact absurd rfl this
      | _ => simp [CMatCall.toPy]
    · refine C57_add_only_partial NoBar separable_noUnderscore names hn _ hall fun op hop s t => ?_
      obtain ⟨⟨c, o⟩, hm, rfl⟩ := List.mem_map.1 hop
      have := hc _ hm
      cases c with
      | addEdge s t cost => cases cost <;> simp [CMatCall.toPy]
      | removeEdge s t => exact absurd rfl (this s t)
      | _ => simp [CMatCall.toPy]
  refine sameMatrix_run ops _ _ _ hk hpy (C103_structure_partial names hn ops ho fun c hm => ⟨fun a b e => ?_, fun a b e => ?_⟩)
  · have := hk c hm; rw [e] at this; exact this
  · have := hk c hm; rw [e] at this; exact this.2.2 rfl

/-- Counting after a removal: Python counts the removed edge, C++ does not. -/
theorem C125_matrix_count : trace amStep (amNew ["a", "b"]) [.addEdge "a" "b" none, .removeEdge "a" "b", .numEdges] = [.done, .done, .count 1] ∧
    trace cmStep (cmNew ["a", "b"]) ([.addEdge "a" "b" .absent, .removeEdge "a" "b", .numEdges].map fun o => (o, fun l => l)) = [.done, .done, .count 0] := by decide

/-- A history for the theorem: the rows are iterated backwards. -/
example : BothAnswer (trace amStep (amNew ["a", "b", "c"]) ([.addEdge "a" "b" (.number 3), .addEdge "a" "c" .absent, .neighbors "a", .removeEdge "a" "b", .isAdjacent "a" "b"].map CMatCall.toPy))
    (trace cmStep (cmNew ["a", "b", "c"]) ([.addEdge "a" "b" (.number 3), .addEdge "a" "c" .absent, .neighbors "a", .removeEdge "a" "b", .isAdjacent "a" "b"].map fun o => (o, List.reverse))) := by
  have := C125_matrix_partial ["a", "b", "c"] (by decide) (by simp [NoBar])
    ([.addEdge "a" "b" (.number 3), .addEdge "a" "c" .absent, .neighbors "a", .removeEdge "a" "b", .isAdjacent "a" "b"].map fun o => (o, List.reverse))
    (by simp [List.reverse_perm]) (by simp [CMatCall.Known]) (.inl (by simp))
  exact this

end Props
