import Verif.Props.BackendsDijkstra
import Verif.Props.FloydWarshall
import Verif.Props.Johnson

/-!
# C129: the shortest path algorithms agree

Bellman-Ford, Floyd-Warshall, Johnson and Dijkstra answer the same distances on the same graph, as far as each of them is exact; where the
code of Dijkstra's algorithm is not exact its answers are never smaller.
-/
namespace Props
open Py Spec Model

section
variable {vs : List String} {nb : String → PyM (List String)} {ws : String → Option GEdge} {wt : String → String → Option Int}

/-- What Bellman-Ford answers for `u`, `v`. -/
def BfSays (vs : List String) (nb : String → PyM (List String)) (ws : String → Option GEdge) (u v : String) (d : Option Int) : Prop :=
  ∃ dist pred, EndsWith (fun fuel => bellmanFord vs nb ws u fuel) (.ok (dist, pred)) ∧ dist.val v = some d

/-- What Floyd-Warshall answers for `u`, `v` (a missing entry is infinity). -/
def FwSays (vs : List String) (items : List GEdge) (u v : String) (d : Option Int) : Prop :=
  ∃ st row, floydWarshall vs items = .ok st ∧ st.dist.val u = some row ∧ row.val v = d

/-- What Dijkstra's algorithm answers for `u`, `v`. -/
def DjSays (vs : List String) (ws : String → Option GEdge) (u v : String) (d : Option Int) : Prop :=
  ∃ dist pred, dijkstra vs ws u = .ok (dist, pred) ∧ dist.val v = some d

/-- `d ≤ e`, `none` standing for infinity. -/
def AtMost : Option Int → Option Int → Prop
  | _, none => True
  | none, some _ => False
  | some d, some e => d ≤ e

theorem walk_of_nonneg {u v : String} {c : Int} (h : WalkW (nonneg wt) u v c) : WalkW wt u v c := by
  induction h with
  | nil => exact .nil
  | snoc _ hx ih => exact ih.snoc (nonneg_some.mp hx).1

theorem bf_distance (hg : WGraph vs nb ws wt) (hn : ∀ u, ¬ NegativeCycle wt u) {u v : String} (hu : u ∈ vs) (hv : v ∈ vs) :
    ∃ d, BfSays vs nb ws u v d ∧ Distance wt u v d := by
  obtain ⟨r, e, ⟨h, _⟩ | ⟨_, dist, pred, rfl, _, _, h⟩⟩ := C65_bellman_ford hg hu
  · exact absurd h (hn u)
  · obtain ⟨d, h1, h2, _⟩ := h v hv
    exact ⟨d, ⟨dist, pred, e, h1⟩, h2⟩

/-- Without a negative cycle: Bellman-Ford from `u` and Floyd-Warshall answer the same for every pair of vertices, in whatever order the dictionary
of the edges is iterated. -/
theorem C129_bellman_ford_floyd (hg : WGraph vs nb ws wt) {items : List GEdge} (hit : EdgeItems wt items) (hn : ∀ u, ¬ NegativeCycle wt u)
    {u v : String} (hu : u ∈ vs) (hv : v ∈ vs) : ∃ d, BfSays vs nb ws u v d ∧ FwSays vs items u v d ∧ Distance wt u v d := by
  obtain ⟨d, h1, h2⟩ := bf_distance hg hn hu hv
  obtain ⟨st, e, _, h⟩ := C67_floyd_warshall hg hit hn
  obtain ⟨row, e1, h3⟩ := h u hu
  exact ⟨d, h1, ⟨st, row, e, e1, distance_unique (h3 v hv) h2⟩, h2⟩

/-- Without a negative cycle, whatever the weights: no answer of Dijkstra's algorithm is less than that of Bellman-Ford. -/
theorem C129_dijkstra_never_less (hg : WGraph vs nb ws wt) (hn : ∀ u, ¬ NegativeCycle wt u) {u v : String} (hu : u ∈ vs) (hv : v ∈ vs) :
    ∃ d e, BfSays vs nb ws u v d ∧ DjSays vs ws u v e ∧ AtMost d e := by
  obtain ⟨d, h1, h2⟩ := bf_distance hg hn hu hv
  obtain ⟨dist, pred, e, hs⟩ := C66_sound_partial hg hu
  obtain ⟨x, hx, hw⟩ := hs.walk v hv
  refine ⟨d, x, h1, ⟨dist, pred, e, hx⟩, ?_⟩
  cases x with
  | none => cases d <;> trivial
  | some c =>
    have hw' : WalkW wt u v c := walk_of_nonneg (hw c rfl)
    cases d with
    | none => exact absurd hw' (h2 c)
    | some d => exact h2.2 c hw'

/-- With non-negative weights, and fewer edges than vertices or equal weights of the edges into the same vertex (C66): the three answer the same. -/
theorem C129_dijkstra_partial (hg : WGraph vs nb ws wt) {items : List GEdge} (hit : EdgeItems wt items) (hpos : ∀ u v x, wt u v = some x → 0 ≤ x)
    (heasy : edgesFrom vs wt vs < vs.length ∨ ∀ u u' v x x', wt u v = some x → wt u' v = some x' → x = x')
    {u v : String} (hu : u ∈ vs) (hv : v ∈ vs) :
    ∃ d, BfSays vs nb ws u v d ∧ FwSays vs items u v d ∧ DjSays vs ws u v d ∧ Distance wt u v d := by
  have hn : ∀ u, ¬ NegativeCycle wt u := by
    rintro u ⟨x, c, c', _, h, hlt⟩
    have := walk_nonneg hpos h
    omega
  obtain ⟨d, h1, h2, h3⟩ := C129_bellman_ford_floyd hg hit hn hu hv
  refine ⟨d, h1, h2, ?_, h3⟩
  have : ∃ dist pred, dijkstra vs ws u = .ok (dist, pred) ∧ DijkstraSound vs wt u dist pred ∧
      ∀ v ∈ vs, ∃ d, dist.val v = some d ∧ Distance wt u v d := by
    rcases heasy with h | h
    · exact C66_few_edges_partial hg hu hpos h
    · exact C66_by_target_partial hg hu hpos h
  obtain ⟨dist, pred, e, _, h⟩ := this
  obtain ⟨d', e', h'⟩ := h v hv
  rw [distance_unique h3 h']
  exact ⟨dist, pred, e, e'⟩

end

/-- Johnson's algorithm: the graph it is called on has a negative cycle exactly if Bellman-Ford finds one from some vertex, and then both raise
`ValueError`; otherwise no answer of Johnson's algorithm is less than that of Bellman-Ford. -/
theorem C129_johnson {gAttr nAttr : String → Bool} {s : JGraph} {d : Digraph} (h : JInput gAttr nAttr s d) :
    ((∃ u ∈ d.verts, EndsWith (fun fuel => bellmanFord s.g.vertices (alNeighbors s.g) s.g.weights u fuel) (.error .valueError)) ∧
      EndsWith (fun n => johnson gAttr nAttr n s) (.error .valueError)) ∨
    ∃ r g, EndsWith (fun n => johnson gAttr nAttr n s) (.ok (r, g)) ∧
      ∀ u ∈ d.verts, ∀ v ∈ d.verts, ∃ x y, BfSays s.g.vertices (alNeighbors s.g) s.g.weights u v x ∧ jAnswer r u v = some y ∧ AtMost x y ∧
        (Easy d → x = y) := by
  have hg : WGraph s.g.vertices (alNeighbors s.g) s.g.weights (Digraph.wt d) :=
    h.rep.rep.wgraph ⟨fun a b ha hb => h.rep.weights.get a b (.inl ha) (.inl hb)⟩ h.costs h.only
  have hvs : s.g.vertices = d.verts := h.rep.rep.verts
  obtain ⟨res, e, ⟨hc, rfl⟩ | ⟨hc, r, g, rfl, hs, hx⟩⟩ := johnson_main h
  · left
    refine ⟨?_, e⟩
    obtain ⟨u, c, hw, hlt⟩ := hc
    have hu : u ∈ d.verts := by
      rw [← hvs]
      cases hw with
      | nil => omega
      | snoc _ hx => exact (hg.ends _ _ _ hx).2
    obtain ⟨r, e', ⟨_, rfl⟩ | ⟨hno, _⟩⟩ := C65_bellman_ford hg (src := u) (by rw [hvs]; exact hu)
    · exact ⟨u, hu, e'⟩
    · exact absurd ⟨u, 0, c, .nil, hw, hlt⟩ hno
  · right
    refine ⟨r, g, e, fun u hu v hv => ?_⟩
    have hn : ∀ u, ¬ NegativeCycle (Digraph.wt d) u := fun u ⟨x, c, c', _, hw, hlt⟩ => hc ⟨x, c', hw, hlt⟩
    obtain ⟨x, h1, h2⟩ := bf_distance hg hn (by rw [hvs]; exact hu) (by rw [hvs]; exact hv)
    obtain ⟨y, h3, h4⟩ := hs.walk u hu v hv
    refine ⟨x, y, h1, h3, ?_, fun hE => ?_⟩
    · cases y with
      | none => cases x <;> trivial
      | some c =>
        cases x with
        | none => exact absurd (h4 c rfl) (h2 c)
        | some x => exact h2.2 c (h4 c rfl)
    · obtain ⟨y', h5, h6⟩ := hx hE u hu v hv
      rw [h3] at h5
      cases h5
      exact distance_unique h2 h6

/-- The full statement: with non-negative weights the answers are the same. -/
def C129_full : Prop := ∀ (vs : List String) (nb : String → PyM (List String)) (ws : String → Option GEdge) (wt : String → String → Option Int),
  WGraph vs nb ws wt → (∀ u v x, wt u v = some x → 0 ≤ x) → ∀ u ∈ vs, ∀ v ∈ vs, ∀ d e, BfSays vs nb ws u v d → DjSays vs ws u v e → d = e

/-- False: the graph of C66, in which Dijkstra's algorithm gives up the vertex `e` that Bellman-Ford reaches. -/
theorem C129_full_false : ¬ C129_full := by
  intro h
  have hpos : ∀ u v x, Digraph.wt exDetourD u v = some x → 0 ≤ x := by
    intro u v x hx
    have := (Digraph.wt_some hx).2
    rw [exDetour_cost] at this
    repeat' split at this
    all_goals simp_all
    all_goals omega
  have hn : ∀ u, ¬ NegativeCycle (Digraph.wt exDetourD) u := by
    rintro u ⟨x, c, c', _, h, hlt⟩
    have := walk_nonneg hpos h
    omega
  have hs : "s" ∈ exDetour.vertices := by decide +kernel
  have he : "e" ∈ exDetour.vertices := by decide +kernel
  obtain ⟨d, h1, h2⟩ := bf_distance exDetour_wgraph hn hs he
  obtain ⟨dist, pred, e, hd⟩ := C66_sound_partial exDetour_wgraph hs
  have h3 : (dijkstra exDetour.vertices exDetour.weights "s").map (fun r => r.1.val "e") = .ok (some none) := by decide +kernel
  rw [e] at h3
  simp only [Except.map, Except.ok.injEq] at h3
  have := h _ _ _ _ exDetour_wgraph hpos "s" hs "e" he d none h1 ⟨dist, pred, e, h3⟩
  subst this
  have w : WalkW (Digraph.wt exDetourD) "s" "e" (0 + 10 + 100 + 1) := by
    refine WalkW.snoc (WalkW.snoc (WalkW.snoc .nil (v := "s") (w := "a") ?_) (w := "d") ?_) ?_ <;> decide +kernel
  exact h2 _ w

/-! ## The hypotheses are met -/

example := C129_bellman_ford_floyd exRoads_wgraph exRoads_items exRoads_noNegative (u := "d") (v := "b") (by decide +kernel) (by decide +kernel)
example := C129_dijkstra_never_less exRoads_wgraph exRoads_noNegative (u := "d") (v := "b") (by decide +kernel) (by decide +kernel)
example := C129_johnson exDetour_input

end Props
