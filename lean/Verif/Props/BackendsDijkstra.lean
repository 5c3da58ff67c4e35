import Verif.Props.BackendsGraph
import Verif.Props.CppDijkstra
import Verif.Props.Dijkstra

/-! # C125: Dijkstra's algorithm with both back ends -/
namespace Props
open Py Model Model.Cpp Spec

theorem sameGraph_final {costs : Prop} : ∀ (ops : List CGraphOp) (d c : Digraph), SameGraph costs d c → (∀ o ∈ ops, ∀ l, (o.2 l).Perm l) →
    SensibleAll costs d (ops.map (·.1)) → SameGraph costs (final digraphSpec d (ops.map (·.1))) (final cppGraphSpec c ops) := by
  intro ops
  induction ops with
  | nil => intro d c h _ _; exact h
  | cons op ops ih =>
    rintro d c h ho ⟨hs, hr⟩
    exact ih _ _ (sameGraph_step h op.1 op.2 (ho op (by simp)) hs).1 (fun o h => ho o (by simp [h])) hr

section
variable {gAttr nAttr : String → Bool}

theorem al_final_weights {P : String → Prop} (hP : Separable P) : ∀ (ops : List GraphOp) (g : AList) (d : Digraph), AlRep g d → AlWeights P g d →
    (∀ op ∈ ops, op.All (Plain gAttr nAttr)) → (∀ op ∈ ops, op.All P) → (∀ op ∈ ops, ∀ v, op ≠ .removeVertex v) →
    AlRep (final (alStep gAttr nAttr) g ops) (final digraphSpec d ops) ∧ AlWeights P (final (alStep gAttr nAttr) g ops) (final digraphSpec d ops) := by
  intro ops
  induction ops with
  | nil => intro g d h hw _ _ _; exact ⟨h, hw⟩
  | cons op ops ih =>
    intro g d h hw hp hq hk
    have hw' := alStep_weights (gAttr := gAttr) (nAttr := nAttr) hP h hw op (hp op (by simp)) (hq op (by simp)) (fun v e => absurd e (hk op (by simp) v))
    have h' : AlRep (alStep gAttr nAttr g op).1 (digraphSpec d op).1 := by
      by_cases hg : ∃ s t, op = .getEdge s t
      · obtain ⟨s, t, rfl⟩ := hg; exact h
      · exact (alStep_structure h op (hp op (by simp)) (fun s t e => hg ⟨s, t, e⟩)).2
    exact ih _ _ h' hw' (fun o ho => hp o (by simp [ho])) (fun o ho => hq o (by simp [ho])) (fun o ho => hk o (by simp [ho]))

theorem distance_unique {V : Type _} {wt : V → V → Option Int} {u v : V} {x y : Option Int} (h : Distance wt u v x) (h' : Distance wt u v y) : x = y := by
  cases x with
  | none => cases y with
    | none => rfl
    | some y => exact absurd h'.1 (h y)
  | some x => cases y with
    | none => exact absurd h.1 (h' x)
    | some y =>
      have := h.2 y h'.1
      have := h'.2 x h.1
      exact congrArg some (by omega)

/-- Both back ends say the same distances: Python returns `(distances, predecessors)`, C++ ends with the dictionaries of `r`. -/
def SameDistances (py : PyM (PyDict String (Option Int) × PyDict String (Option String)))
    (cpp : Nat → PyM ((PyDict String (Option Int) × PyDict String (Option String)) × CGraph)) (verts : List String) : Prop :=
  ∃ dist pred, py = .ok (dist, pred) ∧ EndsIn cpp fun r => ∀ v ∈ verts, ∃ x, dist.val v = some x ∧ r.1.1.val v = some x

/-- `shortest_paths(g, 'dijkstra', source)` on adjacency lists: every edge is added with a cost, no cost is negative and no vertex is removed. The distances are the same if there are
fewer edges than vertices or any two edges into the same vertex have the same cost (where the Python function is right, C66). Missing: `C125_dijkstra_detour`. -/
theorem C125_dijkstra_partial (ops : List CGraphOp) (hp : ∀ c ∈ ops, c.1.All (Plain gAttr nAttr)) (hb : ∀ c ∈ ops, c.1.All NoBar) (ho : ∀ c ∈ ops, ∀ l, (c.2 l).Perm l)
    (hk : KeepsVertices ops) (hs : SensibleAll True Digraph.empty (ops.map (·.1))) (d : Digraph) (hd : d = final digraphSpec Digraph.empty (ops.map (·.1)))
    (hpos : ∀ u v x, Digraph.wt d u v = some x → 0 ≤ x)
    (hgood : edgesFrom d.verts (Digraph.wt d) d.verts < d.verts.length ∨ ∀ u u' v x x', Digraph.wt d u v = some x → Digraph.wt d u' v = some x' → x = x')
    (order : List String → List String) (hord : ∀ l, (order l).Perm l) (source : String) (hsrc : source ∈ d.verts) :
    SameDistances (dijkstra (final (alStep gAttr nAttr) alNew (ops.map (·.1))).vertices (final (alStep gAttr nAttr) alNew (ops.map (·.1))).weights source)
      (fun fuel => cgDijkstra order fuel (final cgStep cgNew ops) source) d.verts := by
  subst hd
  have hS := sameGraph_final ops _ _ (sameGraph_empty True) ho hs
  have hkp : ∀ op ∈ ops.map (·.1), ∀ v, op ≠ .removeVertex v := by
    intro op hop v
    obtain ⟨c, hc, rfl⟩ := List.mem_map.1 hop
    exact hk c hc v
  obtain ⟨hR, hW⟩ := al_final_weights (gAttr := gAttr) (nAttr := nAttr) (P := NoBar) separable_noUnderscore (ops.map (·.1)) alNew Digraph.empty
    ⟨rfl, by simp [Digraph.empty], by simp [alNew, Digraph.empty], by simp [Digraph.empty], by simp [Digraph.empty]⟩ ⟨by simp [alNew, Digraph.empty]⟩
    (by simpa using fun a b h => hp (a, b) h) (by simpa using fun a b h => hb (a, b) h) hkp
  have hverts : ∀ v ∈ (final digraphSpec Digraph.empty (ops.map (·.1))).verts, NoBar v := by
    have key : ∀ (l : List GraphOp) (d : Digraph), (∀ v ∈ d.verts, NoBar v) → (∀ op ∈ l, op.All NoBar) → (∀ op ∈ l, ∀ v, op ≠ .removeVertex v) →
        ∀ v ∈ (final digraphSpec d l).verts, NoBar v := by
      intro l
      induction l with
      | nil => intro d h _ _; exact h
      | cons op l ih =>
        intro d h ha hr
        refine ih _ ?_ (fun o ho => ha o (by simp [ho])) (fun o ho => hr o (by simp [ho]))
        cases op with
        | addVertex w =>
          intro v hv
          simp only [digraphSpec] at hv
          split at hv
          · exact h v hv
          · rcases List.mem_append.1 hv with hv | hv
            · exact h v hv
            · rw [List.mem_singleton.1 hv]; exact ha (.addVertex w) List.mem_cons_self
        | removeVertex w => exact absurd rfl (hr _ (by simp) w)
        | addEdge s t c => intro v hv; simp only [digraphSpec] at hv; split at hv <;> exact h v hv
        | removeEdge s t =>
          intro v hv
          simp only [digraphSpec] at hv
          split at hv
          · split at hv <;> exact h v hv
          · exact h v hv
        | isAdjacent s t => intro v hv; simp only [digraphSpec] at hv; split at hv <;> exact h v hv
        | neighbors w => intro v hv; simp only [digraphSpec] at hv; split at hv <;> exact h v hv
        | numVertices => exact h
        | numEdges => exact h
        | getEdge s t => exact h
    exact key _ _ (by simp [Digraph.empty]) (by simpa using fun a b h => hb (a, b) h) hkp
  have hG := hR.wgraph ⟨fun s t h1 h2 => hW.get s t (hverts s h1) (hverts t h2)⟩
    (fun e he => by
      have := (hS.full trivial e.1 e.2).1 he
      exact Option.isSome_iff_ne_none.2 this)
    (fun u v x hx => (hS.full trivial u v).2 (by rw [hx]; simp))
  have hsv : (final (alStep gAttr nAttr) alNew (ops.map (·.1))).vertices = (final digraphSpec Digraph.empty (ops.map (·.1))).verts := hR.verts
  have hpy : ∃ dist pred, dijkstra (final (alStep gAttr nAttr) alNew (ops.map (·.1))).vertices (final (alStep gAttr nAttr) alNew (ops.map (·.1))).weights source = .ok (dist, pred) ∧
      ∀ v ∈ (final digraphSpec Digraph.empty (ops.map (·.1))).verts, ∃ x, dist.val v = some x ∧ Distance (Digraph.wt (final digraphSpec Digraph.empty (ops.map (·.1)))) source v x := by
    rcases hgood with h | h
    · obtain ⟨dist, pred, e, -, hx⟩ := C66_few_edges_partial hG (by rw [hsv]; exact hsrc) hpos (by rw [hsv]; exact h)
      exact ⟨dist, pred, e, by rw [hsv] at hx; exact hx⟩
    · obtain ⟨dist, pred, e, -, hx⟩ := C66_by_target_partial hG (by rw [hsv]; exact hsrc) hpos h
      exact ⟨dist, pred, e, by rw [hsv] at hx; exact hx⟩
  have hwt : Digraph.wt (final cppGraphSpec Digraph.empty ops) = Digraph.wt (final digraphSpec Digraph.empty (ops.map (·.1))) := by
    funext a b
    simp only [Digraph.wt, hS.edges, hS.cost trivial a b]
  obtain ⟨dist, pred, e, hx⟩ := hpy
  obtain ⟨n, hn⟩ := C101_exact_partial ops hb hk order hord source (by rw [hS.verts]; exact hsrc)
  refine ⟨dist, pred, e, n, fun m hm => ?_⟩
  obtain ⟨r, hr, hA, -⟩ := hn m hm
  refine ⟨r, hr, fun v hv => ?_⟩
  obtain ⟨x, h1, h2⟩ := hx v hv
  obtain ⟨y, h3, h4⟩ := hA.exact v (by rw [hS.verts]; exact hv)
  rw [hwt, nonneg_eq hpos] at h4
  rw [distance_unique h4 h2] at h3
  exact ⟨x, h1, h3⟩
end

/-- The calls that build the graph of `C66_full_false`. -/
def exDetourCalls : List CGraphOp := exDetourOps.map fun o => (o, fun l => l)

/-- Elsewhere the back ends differ: on this graph Python says that `e` cannot be reached from `s`, C++ says 104. -/
theorem C125_dijkstra_detour :
    (dijkstra (final (alStep exGAttr exNAttr) alNew exDetourOps).vertices (final (alStep exGAttr exNAttr) alNew exDetourOps).weights "s").map (fun r => r.1.val "e") = .ok (some none) ∧
    (cgDijkstra (fun l => l) 40 (final cgStep cgNew exDetourCalls) "s").map (fun r => r.1.1.val "e") = .ok (some (some 104)) := by
  constructor <;> decide +kernel

/-- A history for the theorem: three roads between four places. -/
def exTrailOps : List GraphOp := [.addVertex "s", .addVertex "a", .addVertex "b", .addVertex "c", .addEdge "s" "a" (some 4), .addEdge "s" "b" (some 1), .addEdge "b" "a" (some 2)]

example : SameDistances (dijkstra (final (alStep exGAttr exNAttr) alNew exTrailOps).vertices (final (alStep exGAttr exNAttr) alNew exTrailOps).weights "s")
    (fun fuel => cgDijkstra List.reverse fuel (final cgStep cgNew (exTrailOps.map fun o => (o, List.reverse))) "s") ["s", "a", "b", "c"] := by
  have := C125_dijkstra_partial (gAttr := exGAttr) (nAttr := exNAttr) (exTrailOps.map fun o => (o, List.reverse)) (by simp [exTrailOps, GraphOp.All, Plain]; decide)
    (by simp [exTrailOps, GraphOp.All, NoBar]) (by simp [List.reverse_perm]) (by simp [KeepsVertices, exTrailOps])
    (by simp [exTrailOps, SensibleAll, Sensible, digraphSpec, Digraph.empty, CostFits]) _ rfl
    (by
      intro u v x hx
      have := (Digraph.wt_some hx).2
      simp [exTrailOps, final, digraphSpec, Digraph.empty] at this
      repeat' split at this
      all_goals simp_all
      all_goals omega)
    (.inl (by decide +kernel)) List.reverse (fun l => List.reverse_perm l) "s" (by decide +kernel)
  exact this

end Props
