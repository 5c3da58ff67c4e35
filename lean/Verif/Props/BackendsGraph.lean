import Verif.Props.Graph
import Verif.Props.CppGraph

/-!
# C125: adjacency-list graphs with either back end
-/
namespace Props
open Py Model Model.Cpp Spec

/-- The same answer: the neighbours in any order. -/
def BothSay : GraphOut → CGraphOut → Prop
  | .done, .done => True
  | .flag a, .flag b => a = b
  | .names a, .names b => a.Perm b
  | .count a, .count b => a = b
  | .edge none, .edge none => True
  | .edge (some a), .edge (some b) => a.source = b.source ∧ a.target = b.target ∧ b.value = some a.value
  | _, _ => False

/-- Call by call the same answers. -/
def BothAnswer : List GraphOut → List CGraphOut → Prop
  | [], [] => True
  | a :: as, b :: bs => BothSay a b ∧ BothAnswer as bs
  | _, _ => False

/-- The call makes sense in the graph `d`: a vertex that is added is new, the others it names are there, an edge that is removed is there, costs are ints of 64 bits; if `get_edge` is
used (`costs`), every edge that is added has a cost. -/
def Sensible (costs : Prop) (d : Digraph) : GraphOp → Prop
  | .addVertex v => v ∉ d.verts
  | .removeVertex v => v ∈ d.verts
  | .addEdge s t x => s ∈ d.verts ∧ t ∈ d.verts ∧ CostFits x ∧ (costs → x ≠ none)
  | .removeEdge s t => s ∈ d.verts ∧ t ∈ d.verts ∧ (s, t) ∈ d.edges
  | .isAdjacent s _ => s ∈ d.verts
  | .neighbors v => v ∈ d.verts
  | .getEdge _ _ => costs
  | _ => True

/-- Every call of the history makes sense when it is made. -/
def SensibleAll (costs : Prop) : Digraph → List GraphOp → Prop
  | _, [] => True
  | d, op :: ops => Sensible costs d op ∧ SensibleAll costs (digraphSpec d op).1 ops

/-- The graphs the two specifications speak of. -/
structure SameGraph (costs : Prop) (d c : Digraph) : Prop where
  verts : c.verts = d.verts
  edges : c.edges = d.edges
  cost : costs → ∀ a b, c.cost a b = d.cost a b
  full : costs → ∀ a b, (a, b) ∈ d.edges ↔ d.cost a b ≠ none

theorem sameGraph_step {costs : Prop} {d c : Digraph} (h : SameGraph costs d c) (op : GraphOp) (order : List String → List String) (ho : ∀ l, (order l).Perm l)
    (hs : Sensible costs d op) : SameGraph costs (digraphSpec d op).1 (cppGraphSpec c (op, order)).1 ∧ BothSay (digraphSpec d op).2 (cppGraphSpec c (op, order)).2 := by
  obtain ⟨h1, h2, h3, h4⟩ := h
  cases op with
  | addVertex v =>
    have hv : v ∉ d.verts := hs
    simp only [digraphSpec, cppGraphSpec, h1, if_neg hv]
    exact ⟨⟨rfl, h2, h3, h4⟩, trivial⟩
  | removeVertex v =>
    have hv : v ∈ d.verts := hs
    simp only [digraphSpec, cppGraphSpec, h1, if_pos hv, h2]
    refine ⟨⟨rfl, rfl, fun hc a b => ?_, fun hc a b => ?_⟩, trivial⟩
    · simp only [h3 hc]
    · have := h4 hc a b
      simp only [List.mem_filter, this]
      by_cases ha : a = v <;> by_cases hb : b = v <;> simp [ha, hb]
  | addEdge s t x =>
    obtain ⟨a1, a2, a3, a4⟩ := hs
    simp only [digraphSpec, cppGraphSpec, h1, if_pos (And.intro a1 a2), if_pos a3, h2]
    refine ⟨⟨rfl, rfl, fun hc a b => ?_, fun hc a b => ?_⟩, trivial⟩
    · cases x with
      | none => exact absurd rfl (a4 hc)
      | some x => simp only [h3 hc]
    · cases x with
      | none => exact absurd rfl (a4 hc)
      | some x =>
        have := h4 hc a b
        simp only
        by_cases hab : a = s ∧ b = t
        · obtain ⟨rfl, rfl⟩ := hab
          simp only [and_self, if_true, ne_eq, reduceCtorEq, not_false_eq_true, iff_true]
          split <;> simp_all
        · rw [if_neg hab, ← this]
          have hne : (a, b) ≠ (s, t) := fun e => hab (by injection e with e1 e2; exact ⟨e1, e2⟩)
          split
          · rfl
          · simp [hne]
  | removeEdge s t =>
    obtain ⟨a1, a2, a3⟩ := hs
    simp only [digraphSpec, cppGraphSpec, h1, if_pos (And.intro a1 a2), if_pos a3, h2]
    refine ⟨⟨rfl, rfl, fun hc a b => ?_, fun hc a b => ?_⟩, trivial⟩
    · simp only [h3 hc]
    · have := h4 hc a b
      simp only [List.mem_filter, this]
      by_cases hab : a = s ∧ b = t
      · obtain ⟨rfl, rfl⟩ := hab; simp
      · have hne : (a, b) ≠ (s, t) := fun e => hab (by injection e with e1 e2; exact ⟨e1, e2⟩)
        rw [if_neg hab]; simp [hne]
  | isAdjacent s t =>
    have hv : s ∈ d.verts := hs
    simp only [digraphSpec, cppGraphSpec, h1, if_pos hv, h2]
    exact ⟨⟨h1, h2, h3, h4⟩, rfl⟩
  | neighbors v =>
    have hv : v ∈ d.verts := hs
    simp only [digraphSpec, cppGraphSpec, h1, if_pos hv]
    refine ⟨⟨h1, h2, h3, h4⟩, ?_⟩
    show (d.nbrs v).Perm (order (c.nbrs v))
    rw [show c.nbrs v = d.nbrs v by simp only [Digraph.nbrs, h2]]
    exact (ho _).symm
  | numVertices => exact ⟨⟨h1, h2, h3, h4⟩, by show d.verts.length = c.verts.length; rw [h1]⟩
  | numEdges => exact ⟨⟨h1, h2, h3, h4⟩, by show d.edges.length = c.edges.length; rw [h2]⟩
  | getEdge s t =>
    have hc : costs := hs
    refine ⟨⟨h1, h2, h3, h4⟩, ?_⟩
    have := h4 hc s t
    simp only [digraphSpec, cppGraphSpec, h2, h3 hc]
    cases e : d.cost s t with
    | none => rw [e] at this; rw [if_neg (by simpa using this)]; exact trivial
    | some x => rw [e] at this; rw [if_pos (by simpa using this)]; exact ⟨rfl, rfl, rfl⟩

theorem sameGraph_run {costs : Prop} : ∀ (ops : List CGraphOp) (d c : Digraph), SameGraph costs d c → (∀ o ∈ ops, ∀ l, (o.2 l).Perm l) →
    SensibleAll costs d (ops.map (·.1)) → BothAnswer (trace digraphSpec d (ops.map (·.1))) (trace cppGraphSpec c ops) := by
  intro ops
  induction ops with
  | nil => intros; trivial
  | cons op ops ih =>
    rintro d c h ho ⟨hs, hr⟩
    obtain ⟨h1, h2⟩ := sameGraph_step h op.1 op.2 (ho op (by simp)) hs
    exact ⟨h2, ih _ _ h1 (fun o h => ho o (by simp [h])) hr⟩

theorem sameGraph_empty (costs : Prop) : SameGraph costs Digraph.empty Digraph.empty :=
  ⟨rfl, rfl, fun _ _ _ => rfl, fun _ a b => by simp [Digraph.empty]⟩

variable {gAttr nAttr : String → Bool}

/-- **C125**, adjacency-list graphs, without `get_edge`: in every history of calls that make sense, with names that have no underscore and are not attributes of a Python graph or node,
and with every iteration order of the hash maps, both back ends give the same answers. Missing: the calls that raise (the exceptions differ) and the names left out. -/
theorem C125_graph_partial (ops : List CGraphOp) (hp : ∀ c ∈ ops, c.1.All (Plain gAttr nAttr)) (hb : ∀ c ∈ ops, c.1.All NoBar) (ho : ∀ c ∈ ops, ∀ l, (c.2 l).Perm l)
    (hg : ∀ c ∈ ops, ∀ s t, c.1 ≠ .getEdge s t) (hs : SensibleAll False Digraph.empty (ops.map (·.1))) :
    BothAnswer (trace (alStep gAttr nAttr) alNew (ops.map (·.1))) (trace cgStep cgNew ops) := by
  rw [C100_labels_partial ops hb, C56_structure_partial (ops.map (·.1)) (by simpa using fun a b h => hp (a, b) h) (by
    intro op ho
    obtain ⟨c, hc, rfl⟩ := List.mem_map.1 ho
    exact hg c hc)]
  exact sameGraph_run ops _ _ (sameGraph_empty _) ho hs

/-- The same with `get_edge`, if every edge is added with a cost and no vertex is removed that has an edge. -/
theorem C125_graph_costs_partial (ops : List CGraphOp) (hp : ∀ c ∈ ops, c.1.All (Plain gAttr nAttr)) (hb : ∀ c ∈ ops, c.1.All NoBar) (ho : ∀ c ∈ ops, ∀ l, (c.2 l).Perm l)
    (hu : Unhooked Digraph.empty (ops.map (·.1))) (hs : SensibleAll True Digraph.empty (ops.map (·.1))) :
    BothAnswer (trace (alStep gAttr nAttr) alNew (ops.map (·.1))) (trace cgStep cgNew ops) := by
  rw [C100_labels_partial ops hb, C56_labels_partial NoBar separable_noUnderscore (ops.map (·.1)) (by simpa using fun a b h => hp (a, b) h) (by simpa using fun a b h => hb (a, b) h) hu]
  exact sameGraph_run ops _ _ (sameGraph_empty _) ho hs

/-- Adding a vertex twice: Python replaces it, C++ raises. -/
theorem C125_graph_twice : trace (alStep exGAttr exNAttr) alNew [.addVertex "a", .addVertex "a"] = [.done, .done] ∧
    trace cgStep cgNew ([.addVertex "a", .addVertex "a"].map fun o => (o, fun l => l)) = [.done, .raised .valueError] := by decide

/-- An edge without a cost: `get_edge` gives `None` in Python and an edge in C++. -/
theorem C125_graph_no_cost : trace (alStep exGAttr exNAttr) alNew [.addVertex "a", .addVertex "b", .addEdge "a" "b" none, .getEdge "a" "b"] = [.done, .done, .done, .edge none] ∧
    trace cgStep cgNew ([.addVertex "a", .addVertex "b", .addEdge "a" "b" none, .getEdge "a" "b"].map fun o => (o, fun l => l)) =
      [.done, .done, .done, .edge (some ⟨"a", "b", none⟩)] := by decide

/-- A history for the theorems: the hash map is iterated backwards. -/
def exSensible : List CGraphOp := ([.addVertex "a", .addVertex "b", .addVertex "c", .addEdge "a" "b" (some 3), .addEdge "a" "c" (some (-4)), .neighbors "a", .getEdge "a" "c",
  .addEdge "a" "b" (some 7), .getEdge "a" "b", .removeEdge "a" "b", .getEdge "a" "b", .removeVertex "b", .isAdjacent "a" "c", .numEdges, .numVertices] : List GraphOp).map fun o => (o, List.reverse)

example : BothAnswer (trace (alStep exGAttr exNAttr) alNew (exSensible.map (·.1))) (trace cgStep cgNew exSensible) := by
  refine C125_graph_costs_partial exSensible ?_ ?_ ?_ ?_ ?_
  · simp [exSensible, GraphOp.All, Plain]; decide
  · simp [exSensible, GraphOp.All, NoBar]
  · intro c hc l
    obtain ⟨o, _, rfl⟩ := List.mem_map.1 hc
    exact List.reverse_perm l
  · simp only [exSensible, List.map_map, List.map_cons, List.map_nil, Function.comp, Unhooked]
    simp [digraphSpec, Digraph.empty]
    intro w hw; simp [hw]
  · simp only [exSensible, List.map_map, List.map_cons, List.map_nil, Function.comp, SensibleAll, Sensible]
    simp [digraphSpec, Digraph.empty, CostFits]

end Props
