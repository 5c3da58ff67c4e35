import Verif.Props.KahnParallel
import Verif.Props.Scc
import Verif.Props.GraphSearch
import Verif.Props.PathsAgree

/-!
# C144: topological sorting, strongly connected components and searches agree
# C145: breadth first search and shortest paths agree
-/
namespace Props
open Py Model Spec

/-! ## C144 -/

/-- No component has a second vertex, and no vertex an edge to itself. -/
def AllSingle (d : Digraph) (cs : List (List String)) : Prop := (∀ C ∈ cs, C.length = 1) ∧ ∀ v, (v, v) ∉ d.edges

theorem walk_reach {V : Type} {nbr : V → List V} {u v : V} {n : Nat} (h : Walk nbr u v n) : Reach nbr u v := ⟨n, h⟩

private theorem acyclic_single {g : AList} {d : Digraph} (h : AlRep g d) {cs : List (List String)} (hc : SccPartition d.verts d.nbrs cs) :
    d.Acyclic ↔ AllSingle d cs := by
  constructor
  · intro ha
    refine ⟨fun C hC => ?_, fun v hv => ?_⟩
    · have hn : C.Nodup := by
        have h1 : cs.flatten.Nodup := hc.partition.nodup_iff.2 h.nodup
        exact (List.pairwise_flatten.1 h1).1 C hC
      cases C with
      | nil => exact absurd rfl (hc.nonempty _ hC)
      | cons x C =>
        cases C with
        | nil => rfl
        | cons y C =>
          obtain ⟨⟨m, h1⟩, n, h2⟩ := (hc.strong _ hC x List.mem_cons_self y).1 (by simp)
          have hxy : x ≠ y := by
            rintro rfl
            simp at hn
          have hm : 0 < m := by
            rcases Nat.eq_zero_or_pos m with h0 | h0
            · subst h0; cases h1; exact absurd rfl hxy
            · exact h0
          exact absurd (Walk.append h1 h2) (ha x (m + n) (by omega))
    · have h1 : Walk d.nbrs v v (0 + 1) := .snoc .nil (mem_nbrs.2 hv)
      exact ha v 1 (by omega) h1
  · rintro ⟨h1, h2⟩ v k hk hw
    cases hw with
    | nil => omega
    | @snoc u _ k hw hu =>
      have he := mem_nbrs.1 hu
      have hv : v ∈ d.verts := (h.ends _ he).2
      obtain ⟨C, hC, hvC⟩ := List.mem_flatten.1 (hc.partition.mem_iff.2 hv)
      have huC : u ∈ C := (hc.strong C hC v hvC u).2 ⟨walk_reach hw, ⟨0 + 1, .snoc .nil hu⟩⟩
      have hl := h1 C hC
      obtain ⟨x, rfl⟩ := List.length_eq_one_iff.1 hl
      simp only [List.mem_singleton] at hvC huC
      rw [hvC, huC] at he
      exact h2 _ he

/-- **C144**: on every stored digraph Tarjan's algorithm answers, and `topological_sort` and `topological_sort_parallel` (any number of threads, any schedule) return an order in which every edge
goes forward if every component is a single vertex without an edge to itself, and raise `ValueError` otherwise. -/
theorem C144_topological_sort {g : AList} {d : Digraph} (h : AlRep g d) (hp : ∀ v ∈ d.verts, nAttr v = false) {threads : Nat} (ht : 0 < threads) (sched : Nat → Nat → Nat) :
    ∃ cs, EndsWith (fun fuel => tarjan g.vertices (alNeighbors g) fuel) (.ok cs) ∧
      (AllSingle d cs → EndsIn (fun fuel => kahn nAttr g fuel) (fun r => TopoOrder d r.1) ∧ EndsIn (fun fuel => kahnParallel nAttr threads sched g fuel) fun L => TopoOrder d L) ∧
      (¬ AllSingle d cs → EndsWith (fun fuel => kahn nAttr g fuel) (.error .valueError) ∧
        EndsWith (fun fuel => kahnParallel nAttr threads sched g fuel) (.error .valueError)) := by
  have hg : FinGraph d.verts d.nbrs := ⟨h.nodup, fun v _ w hw => (h.ends _ (mem_nbrs.1 hw)).2, fun v _ => nbrs_nodup h.enodup v⟩
  obtain ⟨cs, e, hc⟩ := C69_tarjan hg (nb := alNeighbors g) (fun v hv => by rw [alNeighbors_of h, if_pos hv])
  have hiff := acyclic_single h hc
  obtain ⟨k1, k2⟩ := C61_kahn h hp
  obtain ⟨p1, p2⟩ := C62_kahn_parallel h hp ht sched
  refine ⟨cs, by rw [h.verts]; exact e, fun hs => ⟨?_, p1 (hiff.2 hs)⟩, fun hs => ⟨k2 fun ha => hs (hiff.1 ha), p2 fun ha => hs (hiff.1 ha)⟩⟩
  obtain ⟨n, hn⟩ := k1 (hiff.2 hs)
  refine ⟨n, fun m hm => ?_⟩
  obtain ⟨r, e, hr⟩ := hn m hm
  exact ⟨r, e, hr.1⟩

/-- The vertices a search visits: the source, and those passed to the operation as second argument. -/
def visits {V : Type} (source : V) (r : Search V) (v : V) : Prop := v = source ∨ ∃ c, (c, some v) ∈ r.calls

theorem visits_iff {V : Type} [DecidableEq V] {nbr : V → List V} {source : V} {r : Search V} (h : SearchSpec nbr source r) (v : V) : visits source r v ↔ Reach nbr source v := by
  have hm : (∃ c, (c, some v) ∈ r.calls) ↔ v ∈ r.calls.filterMap fun c => c.2 := by
    rw [List.mem_filterMap]
    constructor
    · rintro ⟨c, hc⟩; exact ⟨_, hc, rfl⟩
    · rintro ⟨⟨c, w⟩, hc, hw⟩
      dsimp only at hw
      subst hw
      exact ⟨c, hc⟩
  rw [visits, hm, h.found]
  constructor
  · rintro (rfl | ⟨h1, _⟩)
    · exact Reach.refl _ _
    · exact h1
  · intro h1
    by_cases he : v = source
    · exact .inl he
    · exact .inr ⟨h1, he⟩

/-- **C144**: two vertices are in the same component exactly if a breadth first search from each visits the other, and exactly if a depth first search does. -/
theorem C144_searches {vs : List String} {nbr : String → List String} {nb : String → PyM (List String)} (hg : FinGraph vs nbr) (hn : ∀ v ∈ vs, nb v = .ok (nbr v)) :
    ∃ cs, EndsWith (fun fuel => tarjan vs nb fuel) (.ok cs) ∧ ∀ u ∈ vs, ∀ v ∈ vs, ∃ bu bv fu fv,
      EndsWith (fun fuel => bfs (fun _ => true) nb u fuel) (.ok bu) ∧ EndsWith (fun fuel => bfs (fun _ => true) nb v fuel) (.ok bv) ∧
      EndsWith (fun fuel => dfs (fun _ => true) nb u fuel) (.ok fu) ∧ EndsWith (fun fuel => dfs (fun _ => true) nb v fuel) (.ok fv) ∧
      ((∃ C ∈ cs, u ∈ C ∧ v ∈ C) ↔ visits u bu v ∧ visits v bv u) ∧ ((∃ C ∈ cs, u ∈ C ∧ v ∈ C) ↔ visits u fu v ∧ visits v fv u) := by
  obtain ⟨cs, e, hc⟩ := C69_tarjan hg hn
  refine ⟨cs, e, fun u hu v hv => ?_⟩
  obtain ⟨bu, e1, h1, _⟩ := C58_bfs hg hn hu
  obtain ⟨bv, e2, h2, _⟩ := C58_bfs hg hn hv
  obtain ⟨fu, e3, h3, _⟩ := C59_dfs hg hn hu
  obtain ⟨fv, e4, h4, _⟩ := C59_dfs hg hn hv
  have key : (∃ C ∈ cs, u ∈ C ∧ v ∈ C) ↔ Reach nbr u v ∧ Reach nbr v u := by
    constructor
    · rintro ⟨C, hC, huC, hvC⟩
      exact (hc.strong C hC u huC v).1 hvC
    · intro h
      obtain ⟨C, hC, huC⟩ := List.mem_flatten.1 (hc.partition.mem_iff.2 hu)
      exact ⟨C, hC, huC, (hc.strong C hC u huC v).2 h⟩
  refine ⟨bu, bv, fu, fv, e1, e2, e3, e4, ?_, ?_⟩
  · rw [key, visits_iff h1.toSearchSpec, visits_iff h2.toSearchSpec]
  · rw [key, visits_iff h3, visits_iff h4]

/-! ## C145 -/

section
variable {vs : List String} {nb : String → PyM (List String)} {ws : String → Option GEdge} {wt : String → String → Option Int}

/-- The neighbours in a list. -/
private def nbrOf (nb : String → PyM (List String)) (v : String) : List String := match nb v with
  | .ok l => l
  | .error _ => []

private theorem nbrOf_spec (hw : WGraph vs nb ws wt) {v : String} (hv : v ∈ vs) : nb v = .ok (nbrOf nb v) ∧ ∀ w, w ∈ nbrOf nb v ↔ (wt v w).isSome := by
  obtain ⟨l, e, hl⟩ := hw.nbrs v hv
  rw [nbrOf, e]
  exact ⟨rfl, hl⟩

private theorem walk_weight (hw : WGraph vs nb ws wt) {u v : String} (hu : u ∈ vs) : Reach (nbrOf nb) u v ↔ ∃ c, WalkW wt u v c := by
  constructor
  · rintro ⟨n, h⟩
    have : v ∈ vs ∧ ∃ c, WalkW wt u v c := by
      induction h with
      | nil => exact ⟨hu, 0, .nil⟩
      | snoc _ hm ih =>
        obtain ⟨hx, c, hc⟩ := ih
        obtain ⟨x, hx2⟩ := Option.isSome_iff_exists.1 (((nbrOf_spec hw hx).2 _).1 hm)
        exact ⟨(hw.ends _ _ _ hx2).2, _, hc.snoc hx2⟩
    exact this.2
  · rintro ⟨c, h⟩
    induction h with
    | nil => exact Reach.refl _ _
    | snoc h1 hx ih => exact ih.snoc (((nbrOf_spec hw (hw.ends _ _ _ hx).1).2 _).2 (by rw [hx]; rfl))

private theorem walk_unit (hw : WGraph vs nb ws wt) (h1 : ∀ u v x, wt u v = some x → x = 1) {u v : String} (hu : u ∈ vs) (c : Int) :
    WalkW wt u v c ↔ ∃ n : Nat, c = n ∧ Walk (nbrOf nb) u v n := by
  constructor
  · intro h
    induction h with
    | nil => exact ⟨0, rfl, .nil⟩
    | snoc h2 hx ih =>
      obtain ⟨n, rfl, hn⟩ := ih
      refine ⟨n + 1, by rw [h1 _ _ _ hx]; rfl, hn.snoc (((nbrOf_spec hw (hw.ends _ _ _ hx).1).2 _).2 (by rw [hx]; rfl))⟩
  · rintro ⟨n, rfl, h⟩
    have : v ∈ vs ∧ WalkW wt u v n := by
      induction h with
      | nil => exact ⟨hu, .nil⟩
      | snoc _ hm ih =>
        obtain ⟨hx, hc⟩ := ih
        obtain ⟨x, hx2⟩ := Option.isSome_iff_exists.1 (((nbrOf_spec hw hx).2 _).1 hm)
        have := hc.snoc hx2
        rw [h1 _ _ _ hx2] at this
        exact ⟨(hw.ends _ _ _ hx2).2, by push_cast; exact this⟩
    exact this.2

/-- **C145**: in a weighted graph without a negative cycle, breadth first and depth first search from `s` visit the same vertices, namely those whose distance from `s` is finite in the
answers of Bellman-Ford and of Floyd-Warshall. -/
theorem C145_reachable (hw : WGraph vs nb ws wt) {items : List GEdge} (hit : EdgeItems wt items) (hnd : ∀ v ∈ vs, ∀ l, nb v = .ok l → l.Nodup)
    (hneg : ∀ u, ¬ NegativeCycle wt u) {s : String} (hs : s ∈ vs) :
    ∃ b f, EndsWith (fun fuel => bfs (fun _ => true) nb s fuel) (.ok b) ∧ EndsWith (fun fuel => dfs (fun _ => true) nb s fuel) (.ok f) ∧
      ∀ v ∈ vs, ∃ d, BfSays vs nb ws s v d ∧ FwSays vs items s v d ∧ (visits s b v ↔ d.isSome) ∧ (visits s f v ↔ d.isSome) := by
  have hg : FinGraph vs (nbrOf nb) := ⟨hw.nodup, fun v hv w hm => by
      obtain ⟨x, hx⟩ := Option.isSome_iff_exists.1 (((nbrOf_spec hw hv).2 _).1 hm)
      exact (hw.ends _ _ _ hx).2, fun v hv => hnd v hv _ (nbrOf_spec hw hv).1⟩
  have hn : ∀ v ∈ vs, nb v = .ok (nbrOf nb v) := fun v hv => (nbrOf_spec hw hv).1
  obtain ⟨b, e1, h1, _⟩ := C58_bfs hg hn hs
  obtain ⟨f, e2, h2, _⟩ := C59_dfs hg hn hs
  refine ⟨b, f, e1, e2, fun v hv => ?_⟩
  obtain ⟨d, k1, k2, k3⟩ := C129_bellman_ford_floyd hw hit hneg hs hv
  have key : Reach (nbrOf nb) s v ↔ d.isSome := by
    rw [walk_weight hw hs]
    cases d with
    | none => exact ⟨fun ⟨c, hc⟩ => absurd hc (k3 c), fun h => by cases h⟩
    | some c => exact ⟨fun _ => rfl, fun _ => ⟨c, k3.1⟩⟩
  exact ⟨d, k1, k2, by rw [visits_iff h1.toSearchSpec, key], by rw [visits_iff h2, key]⟩

/-- **C145**: if every edge weighs 1, breadth first search calls the operation on the vertices in the order of the distances that Bellman-Ford answers, each from a vertex that is one
closer. -/
theorem C145_levels (hw : WGraph vs nb ws wt) (hnd : ∀ v ∈ vs, ∀ l, nb v = .ok l → l.Nodup) (h1 : ∀ u v x, wt u v = some x → x = 1) {s : String} (hs : s ∈ vs) :
    ∃ b, EndsWith (fun fuel => bfs (fun _ => true) nb s fuel) (.ok b) ∧
      (∀ c v, (c, some v) ∈ b.calls → ∃ n : Nat, BfSays vs nb ws s c (some n) ∧ BfSays vs nb ws s v (some (n + 1))) ∧
      (b.calls.filterMap fun c => c.2).Pairwise fun v w => ∃ m n : Nat, m ≤ n ∧ BfSays vs nb ws s v (some m) ∧ BfSays vs nb ws s w (some n) := by
  have hg : FinGraph vs (nbrOf nb) := ⟨hw.nodup, fun v hv w hm => by
      obtain ⟨x, hx⟩ := Option.isSome_iff_exists.1 (((nbrOf_spec hw hv).2 _).1 hm)
      exact (hw.ends _ _ _ hx).2, fun v hv => hnd v hv _ (nbrOf_spec hw hv).1⟩
  have hn : ∀ v ∈ vs, nb v = .ok (nbrOf nb v) := fun v hv => (nbrOf_spec hw hv).1
  have hneg : ∀ u, ¬ NegativeCycle wt u := by
    rintro u ⟨x, c, c', _, h, hlt⟩
    have := walk_nonneg (fun u v x hx => by rw [h1 u v x hx]; decide) h
    omega
  obtain ⟨b, e1, hb, _⟩ := C58_bfs hg hn hs
  have says : ∀ v n, IsDist (nbrOf nb) s v n → BfSays vs nb ws s v (some n) := by
    intro v n hd
    have hv : v ∈ vs := Walk.verts hg.closed hs hd.1
    obtain ⟨d, k1, k2⟩ := bf_distance hw hneg hs hv
    have hD : Distance wt s v (some n) := by
      refine ⟨(walk_unit hw h1 hs _).2 ⟨n, rfl, hd.1⟩, fun c' hc' => ?_⟩
      obtain ⟨m, rfl, hm⟩ := (walk_unit hw h1 hs _).1 hc'
      have := hd.2 m hm
      omega
    rw [distance_unique k2 hD] at k1
    exact k1
  have dist : ∀ v, v ∈ b.calls.filterMap (fun c => c.2) → ∃ n, IsDist (nbrOf nb) s v n := by
    intro v hv
    obtain ⟨⟨c, w⟩, hc, hw⟩ := List.mem_filterMap.1 hv
    dsimp only at hw
    subst hw
    obtain ⟨n, _, h2⟩ := hb.level c v hc
    exact ⟨_, h2⟩
  refine ⟨b, e1, ?_, ?_⟩
  · intro c v hc
    obtain ⟨n, h2, h3⟩ := hb.level c v hc
    exact ⟨n, says _ _ h2, by have := says _ _ h3; push_cast at this; exact this⟩
  · refine hb.order.imp_of_mem ?_
    intro v w hv hw ho
    obtain ⟨m, hm⟩ := dist v hv
    obtain ⟨n, hn⟩ := dist w hw
    exact ⟨m, n, ho m n hm hn, says _ _ hm, says _ _ hn⟩

end

/-! ## Concrete cases -/

example : AllSingle (final digraphSpec Digraph.empty exDagOps) [["c"], ["b"], ["d"], ["a"]] ∧ AlRep (final (alStep exGAttr exNAttr) alNew exDagOps) (final digraphSpec Digraph.empty exDagOps) ∧
    ¬ AllSingle (final digraphSpec Digraph.empty exDagOps) [["c", "b"], ["d"], ["a"]] := by
  refine ⟨⟨by decide, ?_⟩, al_history_rep _ ?_ ?_, ?_⟩
  · intro v hv
    have : ∀ e ∈ (final digraphSpec Digraph.empty exDagOps).edges, e.1 ≠ e.2 := by decide +kernel
    exact this _ hv rfl
  · simp [exDagOps, GraphOp.All, Plain]; decide
  · simp [exDagOps]
  · rintro ⟨h, _⟩
    exact absurd (h ["c", "b"] (by decide)) (by decide)

example := C144_searches (vs := ["a", "b", "c", "d", "e", "f"]) (nbr := exScc) (nb := fun x => .ok (exScc x)) ⟨by decide +kernel, by decide +kernel, by decide +kernel⟩ fun _ _ => rfl

private theorem rep_lists {g : AList} {d : Digraph} (h : AlRep g d) : ∀ v ∈ g.vertices, ∀ l, alNeighbors g v = .ok l → l.Nodup := by
  intro v hv l e
  rw [h.verts] at hv
  rw [alNeighbors_of h, if_pos hv] at e
  cases e
  exact nbrs_nodup h.enodup v

example := C145_reachable exRoads_wgraph exRoads_items (rep_lists exRoads_rep) exRoads_noNegative (s := "c") (by decide +kernel)

/-- A square with a diagonal, every edge of weight 1. -/
def exUnitOps : List GraphOp := [.addVertex "a", .addVertex "b", .addVertex "c", .addVertex "d", .addEdge "a" "b" (some 1), .addEdge "b" "c" (some 1), .addEdge "c" "d" (some 1),
  .addEdge "d" "a" (some 1), .addEdge "a" "c" (some 1)]
def exUnit : AList := final (alStep exGAttr exNAttr) alNew exUnitOps
def exUnitD : Digraph := final digraphSpec Digraph.empty exUnitOps

theorem exUnit_rep : AlRep exUnit exUnitD :=
  al_history_rep exUnitOps (by
    intro op h
    simp only [exUnitOps, List.mem_cons, List.not_mem_nil, or_false] at h
    rcases h with rfl | rfl | rfl | rfl | rfl | rfl | rfl | rfl | rfl <;> simp only [GraphOp.All, Plain] <;> decide) (by
    intro op h s t e; subst e; simp [exUnitOps] at h)

theorem exUnit_cost (u v : String) : exUnitD.cost u v = if u = "a" ∧ v = "c" then some 1 else if u = "d" ∧ v = "a" then some 1 else if u = "c" ∧ v = "d" then some 1 else
    if u = "b" ∧ v = "c" then some 1 else if u = "a" ∧ v = "b" then some 1 else none := by
  simp [exUnitD, exUnitOps, final, digraphSpec, Digraph.empty]

theorem exUnit_wgraph : WGraph exUnit.vertices (alNeighbors exUnit) exUnit.weights (Digraph.wt exUnitD) := by
  have hv : exUnitD.verts = ["a", "b", "c", "d"] := by decide +kernel
  have he : exUnitD.edges = [("a", "b"), ("b", "c"), ("c", "d"), ("d", "a"), ("a", "c")] := by decide +kernel
  refine exUnit_rep.wgraph ⟨?_⟩ ?_ ?_
  · intro s t hs ht
    rw [hv] at hs ht
    revert t
    revert s
    decide +kernel
  · rw [he]; decide +kernel
  · intro u v x hx
    rw [exUnit_cost] at hx
    rw [he]
    repeat' split at hx
    all_goals simp_all

example :=
  C145_levels (s := "a") exUnit_wgraph (rep_lists exUnit_rep) (fun u v x hx => by
    have := (Digraph.wt_some hx).2
    rw [exUnit_cost] at this
    repeat' split at this
    all_goals simp_all) (by decide +kernel)

end Props
