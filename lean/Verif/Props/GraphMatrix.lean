import Verif.Props.Graph

/-!
# C57: the adjacency matrix is a labelled digraph on a fixed set of vertices
-/
namespace Props
open Py Model Spec

/-- What the calls mean on an abstract digraph whose vertices are fixed. An edge that does not exist can be removed; a missing source then
raises `KeyError`. -/
def fixedSpec (d : Digraph) : GraphOp → Digraph × GraphOut
  | .addEdge s t c => digraphSpec d (.addEdge s t c)
  | .removeEdge s t =>
    if s ∈ d.verts then
      ({ d with
         edges := d.edges.filter fun e => e ≠ (s, t)
         cost := fun a b => if a = s ∧ b = t then none else d.cost a b }, .done)
    else (d, .raised .keyError)
  | .isAdjacent s t => (d, .flag (decide ((s, t) ∈ d.edges)))
  | .neighbors v => (d, .names (d.nbrs v))
  | .numVertices => (d, .count d.verts.length)
  | .numEdges => (d, .count d.edges.length)
  | .getEdge s t => (d, .edge ((d.cost s t).map fun c => ⟨s, t, c⟩))
  | .addVertex _ => (d, .raised .notImplemented)
  | .removeVertex _ => (d, .raised .notImplemented)

/-- The calls on the model (adjacency_matrix.py:63-69 for the two that are not implemented). -/
def amStep (g : AMat) : GraphOp → AMat × GraphOut
  | .addEdge s t c => gUpd g (amAddEdge g s t c)
  | .removeEdge s t => gUpd g (amRemoveEdge g s t)
  | .isAdjacent s t => (g, .flag (amIsAdjacent g s t))
  | .neighbors v => (g, .names (amNeighbors g v))
  | .numVertices => (g, .count (amNumVertices g))
  | .numEdges => (g, .count (amNumEdges g))
  | .getEdge s t => (g, .edge (amGetEdge g s t))
  | .addVertex _ => (g, .raised .notImplemented)
  | .removeVertex _ => (g, .raised .notImplemented)

/-- The order of the neighbours is not specified. -/
def SameOut : GraphOut → GraphOut → Prop
  | .names l, .names l' => l.Perm l'
  | a, b => a = b

def SameOuts : List GraphOut → List GraphOut → Prop
  | [], [] => True
  | a :: as, b :: bs => SameOut a b ∧ SameOuts as bs
  | _, _ => False

/-- `ever` is the list of the pairs that were ever named in a successful `add_edge` or `remove_edge`. -/
structure AmRep (P : String → Prop) (g : AMat) (d : Digraph) (ever : List (String × String)) : Prop where
  verts : g.vertices = d.verts
  nodup : d.verts.Nodup
  rows : ∀ v, g.rows v = if v ∈ d.verts then
    some ((ever.filter fun e => e.1 = v).map fun e => (e.2, decide (e ∈ d.edges))) else none
  sub : ∀ e ∈ d.edges, e ∈ ever
  src : ∀ e ∈ ever, e.1 ∈ d.verts
  enodup : ever.Nodup
  dnodup : d.edges.Nodup
  get : ∀ s t, P s → P t → g.weights (s ++ "_" ++ t) = (d.cost s t).map fun c => ⟨s, t, c⟩

/-- How `ever` grows. -/
def everStep (verts : List String) (ever : List (String × String)) : GraphOp → List (String × String)
  | .addEdge s t _ => if s ∈ verts ∧ t ∈ verts ∧ (s, t) ∉ ever then ever ++ [(s, t)] else ever
  | .removeEdge s t => if s ∈ verts ∧ (s, t) ∉ ever then ever ++ [(s, t)] else ever
  | _ => ever

theorem rowGet_map (es : List (String × String)) (f : String × String → Bool) (v t : String) :
    rowGet ((es.filter fun e => decide (e.1 = v)).map fun e => (e.2, f e)) t = (decide ((v, t) ∈ es) && f (v, t)) := by
  induction es with
  | nil => simp [rowGet]
  | cons e es ih =>
    obtain ⟨a, b⟩ := e
    by_cases ha : a = v
    · subst ha
      simp only [decide_true, List.filter_cons_of_pos, List.map_cons, rowGet]
      by_cases hb : b = t
      · subst hb; simp
      · simp [hb, ih, Ne.symm hb]
    · simp [ha, ih, Ne.symm ha]

theorem rowSet_map (es : List (String × String)) (hn : es.Nodup) (f : String × String → Bool) (v t : String) (b : Bool) :
    rowSet ((es.filter fun e => decide (e.1 = v)).map fun e => (e.2, f e)) t b =
      ((if (v, t) ∈ es then es else es ++ [(v, t)]).filter fun e => decide (e.1 = v)).map
        fun e => (e.2, if e = (v, t) then b else f e) := by
  induction es with
  | nil => simp [rowSet]
  | cons e es ih =>
    obtain ⟨hne, hn⟩ := List.nodup_cons.1 hn
    have ih := ih hn
    obtain ⟨a, c⟩ := e
    by_cases ha : a = v
    · subst ha
      simp only [decide_true, List.filter_cons_of_pos, List.map_cons, rowSet]
      by_cases hc : c = t
      · subst hc
        simp only [if_true, List.mem_cons, true_or, decide_true, List.filter_cons_of_pos, List.map_cons]
        congr 1
        apply List.map_congr_left
        intro e he
        have : e ≠ (a, c) := fun h => hne (h ▸ (List.mem_filter.1 he).1)
        simp [this]
      · have h1 : ¬ (a, t) = (a, c) := fun h => hc (Prod.mk.inj h).2.symm
        have h2 : ¬ (a, c) = (a, t) := fun h => h1 h.symm
        simp only [hc, if_false, List.mem_cons, h1, false_or, ih]
        by_cases hm : (a, t) ∈ es <;> simp [hm, hc]
    · have h1 : ¬ (v, t) = (a, c) := fun h => ha (Prod.mk.inj h).1.symm
      simp only [List.mem_cons, h1, false_or]
      by_cases hm : (v, t) ∈ es <;> simp [hm, ha] at ih ⊢ <;> exact ih

theorem rowGet_of {P g d ever} (h : AmRep P g d ever) (s t : String) :
    amIsAdjacent g s t = decide ((s, t) ∈ d.edges) := by
  unfold amIsAdjacent
  rw [h.rows]
  split
  · rw [Option.getD_some, rowGet_map]
    by_cases hm : (s, t) ∈ d.edges
    · simp [hm, h.sub _ hm]
    · simp [hm]
  · rename_i hs
    have : (s, t) ∉ d.edges := fun hm => hs (h.src _ (h.sub _ hm))
    simp [rowGet, this]

theorem neighbors_perm {P g d ever} (h : AmRep P g d ever) (v : String) : (amNeighbors g v).Perm (d.nbrs v) := by
  unfold amNeighbors
  rw [h.rows]
  split
  · rename_i hv
    rw [Option.getD_some, List.filter_map, List.map_map]
    have hn1 : ((List.filter ((fun e : String × Bool => e.2) ∘ fun e => (e.2, decide (e ∈ d.edges))) (ever.filter fun e => decide (e.1 = v))).map
        ((fun e : String × Bool => e.1) ∘ fun e => (e.2, decide (e ∈ d.edges)))).Nodup := by
      rw [List.Nodup, List.pairwise_map]
      refine List.Pairwise.imp_of_mem ?_ (List.Pairwise.filter _ (List.Pairwise.filter _ h.enodup))
      intro a b ha hb hne heq
      simp only [List.mem_filter, decide_eq_true_eq] at ha hb
      exact hne (Prod.ext (ha.1.2.trans hb.1.2.symm) heq)
    refine (List.perm_ext_iff_of_nodup hn1 (nbrs_nodup h.dnodup v)).2 ?_
    intro w
    rw [mem_nbrs]
    simp only [List.mem_map, List.mem_filter, Function.comp_apply, decide_eq_true_eq]
    constructor
    · rintro ⟨⟨a, b⟩, ⟨⟨_, rfl⟩, hm⟩, rfl⟩; exact hm
    · intro hm; exact ⟨(v, w), ⟨⟨h.sub _ hm, rfl⟩, hm⟩, rfl⟩
  · rename_i hv
    have : d.nbrs v = [] := by
      rw [List.eq_nil_iff_forall_not_mem]
      intro w hw
      exact hv (h.src _ (h.sub _ (mem_nbrs.1 hw)))
    simp [this]

theorem numEdges_ever {P g d ever} (h : AmRep P g d ever) : amNumEdges g = ever.length := by
  unfold amNumEdges
  rw [h.verts, ← count_by_source d.verts h.nodup ever h.src]
  congr 1
  apply List.map_congr_left
  intro v hv
  rw [h.rows, if_pos hv]; simp

theorem amStep_ok {P : String → Prop} (hP : Separable P) {g d ever} (h : AmRep P g d ever) (op : GraphOp) (hq : (∃ v, P v) → op.All P) :
    (op ≠ .numEdges → op.All P → SameOut (amStep g op).2 (fixedSpec d op).2) ∧
    AmRep P (amStep g op).1 (fixedSpec d op).1 (everStep d.verts ever op) := by
  cases op with
  | addVertex v => exact ⟨fun _ _ => rfl, h⟩
  | removeVertex v => exact ⟨fun _ _ => rfl, h⟩
  | numVertices => exact ⟨fun _ _ => by simp [amStep, fixedSpec, amNumVertices, h.verts, SameOut], h⟩
  | numEdges => exact ⟨fun hh _ => absurd rfl hh, h⟩
  | neighbors v => exact ⟨fun _ _ => neighbors_perm h v, h⟩
  | isAdjacent s t => exact ⟨fun _ _ => by simp [amStep, fixedSpec, rowGet_of h, SameOut], h⟩
  | getEdge s t => exact ⟨fun _ hq => by simp [amStep, fixedSpec, amGetEdge, h.get s t hq.1 hq.2, SameOut], h⟩
  | addEdge s t c =>
    simp only [amStep, fixedSpec, digraphSpec, amAddEdge, everStep, h.rows]
    by_cases hs : s ∈ d.verts
    · by_cases ht : t ∈ d.verts
      · simp only [hs, ht, if_true, and_self, true_and]
        have key : AmRep P { g with
            rows := sset g.rows s (some (rowSet ((ever.filter fun e => e.1 = s).map fun e => (e.2, decide (e ∈ d.edges))) t true))
            weights := match c with
              | none => g.weights
              | some c => sset g.weights (s ++ "_" ++ t) (some ⟨s, t, c⟩) }
            { d with
              edges := if (s, t) ∈ d.edges then d.edges else d.edges ++ [(s, t)]
              cost := match c with
              | none => d.cost
              | some c => fun a b => if a = s ∧ b = t then some c else d.cost a b }
            (if (s, t) ∉ ever then ever ++ [(s, t)] else ever) := by
          have hmem : ∀ e, e ∈ (if (s, t) ∈ d.edges then d.edges else d.edges ++ [(s, t)]) ↔ e ∈ d.edges ∨ e = (s, t) := by
            intro e; split
            · constructor
              · exact Or.inl
              · rintro (h | rfl) <;> assumption
            · simp
          refine ⟨h.verts, h.nodup, ?_, ?_, ?_, ?_, ?_, ?_⟩
          · intro v
            simp only [sset, rowSet_map _ h.enodup, h.rows]
            by_cases hv : v = s
            · subst hv
              simp only [if_true, hs, Option.some.injEq, ite_not]
              apply List.map_congr_left
              intro e _
              simp only [hmem]
              by_cases he : e = (v, t) <;> simp [he]
            · simp only [hv, if_false]
              split
              · simp only [Option.some.injEq, ite_not]
                have : ((if (s, t) ∈ ever then ever else ever ++ [(s, t)]).filter fun e => decide (e.1 = v)) =
                    ever.filter fun e => decide (e.1 = v) := by
                  split
                  · rfl
                  · simp [Ne.symm hv]
                rw [this]
                apply List.map_congr_left
                intro e he
                have : e ≠ (s, t) := by rintro rfl; simp [Ne.symm hv] at he
                simp only [hmem, this, or_false]
              · rfl
          · intro e he
            rw [hmem] at he
            rcases he with he | rfl
            · split
              · simp [h.sub e he]
              · exact h.sub e he
            · split
              · simp
              · rename_i hh; exact Classical.not_not.1 hh
          · intro e he
            split at he
            · simp only [List.mem_append, List.mem_singleton] at he
              rcases he with he | rfl
              · exact h.src e he
              · exact hs
            · exact h.src e he
          · split
            · rename_i hh
              rw [List.nodup_append]
              exact ⟨h.enodup, by simp, by rintro a ha b hb rfl; simp at hb; exact hh (hb ▸ ha)⟩
            · exact h.enodup
          · dsimp only
            split
            · exact h.dnodup
            · rename_i hh
              rw [List.nodup_append]
              exact ⟨h.dnodup, by simp, by rintro a ha b hb rfl; simp at hb; exact hh (hb ▸ ha)⟩
          · intro s' t' hs' ht'
            cases c with
            | none => exact h.get s' t' hs' ht'
            | some c =>
              by_cases hst : s' = s ∧ t' = t
              · obtain ⟨rfl, rfl⟩ := hst; simp [sset]
              · have : ¬ s' ++ "_" ++ t' = s ++ "_" ++ t := fun e => hst (hP _ _ _ _ hs' ht' (hq ⟨_, hs'⟩).1 (hq ⟨_, hs'⟩).2 e)
                simp [sset, this, hst, h.get s' t' hs' ht']
        cases c
        · exact ⟨fun _ _ => rfl, key⟩
        · exact ⟨fun _ _ => rfl, key⟩
      · simp only [hs, ht, if_true, if_false, and_false, false_and, gUpd]; exact ⟨fun _ _ => rfl, h⟩
    · simp only [hs, if_false, false_and, gUpd]; exact ⟨fun _ _ => rfl, h⟩
  | removeEdge s t =>
    simp only [amStep, fixedSpec, amRemoveEdge, everStep, h.rows]
    by_cases hs : s ∈ d.verts
    · simp only [hs, if_true, true_and, gUpd]
      refine ⟨fun _ _ => rfl, h.verts, h.nodup, ?_, ?_, ?_, ?_, List.Pairwise.filter _ h.dnodup, ?_⟩
      · intro v
        simp only [sset, rowSet_map _ h.enodup, h.rows]
        by_cases hv : v = s
        · subst hv
          simp only [if_true, hs, Option.some.injEq, ite_not]
          apply List.map_congr_left
          intro e _
          by_cases he : e = (v, t) <;> simp [he]
        · simp only [hv, if_false]
          split
          · simp only [Option.some.injEq, ite_not]
            have : ((if (s, t) ∈ ever then ever else ever ++ [(s, t)]).filter fun e => decide (e.1 = v)) =
                ever.filter fun e => decide (e.1 = v) := by
              split
              · rfl
              · simp [Ne.symm hv]
            rw [this]
            apply List.map_congr_left
            intro e he
            have : e ≠ (s, t) := by rintro rfl; simp [Ne.symm hv] at he
            simp [this]
          · rfl
      · intro e he
        have := h.sub e (List.mem_filter.1 he).1
        split <;> simp [this]
      · intro e he
        split at he
        · simp only [List.mem_append, List.mem_singleton] at he
          rcases he with he | rfl
          · exact h.src e he
          · exact hs
        · exact h.src e he
      · split
        · rename_i hh
          rw [List.nodup_append]
          exact ⟨h.enodup, by simp, by rintro a ha b hb rfl; simp at hb; exact hh (hb ▸ ha)⟩
        · exact h.enodup
      · intro s' t' hs' ht'
        by_cases hst : s' = s ∧ t' = t
        · obtain ⟨rfl, rfl⟩ := hst; simp [sset]
        · have : ¬ s' ++ "_" ++ t' = s ++ "_" ++ t := fun e => hst (hP _ _ _ _ hs' ht' (hq ⟨_, hs'⟩).1 (hq ⟨_, hs'⟩).2 e)
          simp [sset, this, hst, h.get s' t' hs' ht']
    · simp only [hs, if_false, false_and, gUpd]; exact ⟨fun _ _ => rfl, h⟩

theorem fixed_verts (d : Digraph) (op : GraphOp) : (fixedSpec d op).1.verts = d.verts := by
  cases op <;> simp only [fixedSpec, digraphSpec] <;> split <;> rfl

theorem amNew_rep (P : String → Prop) (vs : List String) (hvs : vs.Nodup) : AmRep P (amNew vs) ⟨vs, [], fun _ _ => none⟩ [] :=
  ⟨rfl, hvs, by simp [amNew], by simp, by simp, by simp, by simp, by simp [amNew]⟩

/-- C57: for every set of vertices with separable names and every history, all observations except `num_edges` — `is_adjacent`, `neighbors` (in
some order), `get_edge`, `num_vertices`, the exceptions — are those of the abstract labelled digraph. -/
theorem C57_observations_partial (P : String → Prop) (hP : Separable P) (vs : List String) (hvs : vs.Nodup) (ops : List GraphOp)
    (hq : ∀ op ∈ ops, op.All P) (hn : ∀ op ∈ ops, op ≠ .numEdges) :
    SameOuts (trace amStep (amNew vs) ops) (trace fixedSpec ⟨vs, [], fun _ _ => none⟩ ops) := by
  have key : ∀ (ops : List GraphOp) (g : AMat) (d : Digraph) (ever), AmRep P g d ever → (∀ op ∈ ops, op.All P) →
      (∀ op ∈ ops, op ≠ .numEdges) → SameOuts (trace amStep g ops) (trace fixedSpec d ops) := by
    intro ops
    induction ops with
    | nil => intros; trivial
    | cons op ops ih =>
      intro g d ever h hq hn
      obtain ⟨e, h'⟩ := amStep_ok hP h op (fun _ => hq op (by simp))
      exact ⟨e (hn op (by simp)) (hq op (by simp)), ih _ _ _ h' (fun o ho => hq o (by simp [ho])) (fun o ho => hn o (by simp [ho]))⟩
  exact key ops _ _ _ (amNew_rep P vs hvs) hq hn

/-- Without `remove_edge`, `num_edges` is right as well. -/
theorem C57_add_only_partial (P : String → Prop) (hP : Separable P) (vs : List String) (hvs : vs.Nodup) (ops : List GraphOp)
    (hq : ∀ op ∈ ops, op.All P) (hn : ∀ op ∈ ops, ∀ s t, op ≠ .removeEdge s t) :
    SameOuts (trace amStep (amNew vs) ops) (trace fixedSpec ⟨vs, [], fun _ _ => none⟩ ops) := by
  have key : ∀ (ops : List GraphOp) (g : AMat) (d : Digraph) (ever), AmRep P g d ever → (∀ e ∈ ever, e ∈ d.edges) → (∀ op ∈ ops, op.All P) →
      (∀ op ∈ ops, ∀ s t, op ≠ .removeEdge s t) → SameOuts (trace amStep g ops) (trace fixedSpec d ops) := by
    intro ops
    induction ops with
    | nil => intros; trivial
    | cons op ops ih =>
      intro g d ever h hs hq hn
      obtain ⟨eo, h'⟩ := amStep_ok hP h op (fun _ => hq op (by simp))
      have hs' : ∀ e ∈ everStep d.verts ever op, e ∈ (fixedSpec d op).1.edges := by
        intro e he
        cases op with
        | removeEdge s t => exact absurd rfl (hn _ List.mem_cons_self s t)
        | addEdge s t c =>
          simp only [everStep, fixedSpec, digraphSpec] at he ⊢
          by_cases hst : s ∈ d.verts ∧ t ∈ d.verts
          · simp only [hst, true_and, and_self, if_true] at he ⊢
            have hx : e ∈ ever ∨ e = (s, t) := by
              split at he
              · simpa using he
              · exact Or.inl he
            rcases hx with hx | rfl
            · split
              · exact hs e hx
              · simp [hs e hx]
            · split
              · assumption
              · simp
          · simp only [hst, if_false] at he ⊢
            split at he
            · rename_i hh; exact absurd ⟨hh.1, hh.2.1⟩ hst
            · exact hs e he
        | _ => exact hs e he
      refine ⟨?_, ih _ _ _ h' hs' (fun o ho => hq o (by simp [ho])) (fun o ho => hn o (by simp [ho]))⟩
      by_cases hne : op = .numEdges
      · subst hne
        simp only [amStep, fixedSpec, SameOut, numEdges_ever h, GraphOut.count.injEq]
        exact ((List.perm_ext_iff_of_nodup h.enodup h.dnodup).2 (fun a => ⟨hs a, h.sub a⟩)).length_eq
      · exact eo hne (hq op (by simp))
  exact key ops _ _ _ (amNew_rep P vs hvs) (by simp) hq hn

/-- What `num_edges` really is, for every history: the number of different pairs that were ever named in a successful call of `add_edge` or
`remove_edge`. -/
theorem C57_num_edges_exact (vs : List String) (hvs : vs.Nodup) (ops : List GraphOp) :
    amNumEdges (final amStep (amNew vs) ops) = (ops.foldl (everStep vs) []).length := by
  have key : ∀ (ops : List GraphOp) (g : AMat) (d : Digraph) (ever), AmRep (fun _ => False) g d ever → d.verts = vs →
      amNumEdges (final amStep g ops) = (ops.foldl (everStep vs) ever).length := by
    intro ops
    induction ops with
    | nil => intro g d ever h _; exact numEdges_ever h
    | cons op ops ih =>
      intro g d ever h hd
      have h' := (amStep_ok (P := fun _ => False) (by intro _ _ _ _ h; exact h.elim) h op (by rintro ⟨_, h⟩; exact h.elim)).2
      simp only [final, List.foldl_cons]
      rw [ih _ _ _ h' ((fixed_verts d op).trans hd), hd]
  exact key ops _ _ _ (amNew_rep _ vs hvs) rfl

def exMatOps : List GraphOp := [.addEdge "a" "b" (some 3), .addEdge "a" "c" none, .removeEdge "a" "b", .isAdjacent "a" "b", .neighbors "a",
  .getEdge "a" "b", .addEdge "a" "b" (some 7), .neighbors "a", .getEdge "a" "b", .addEdge "a" "z" none, .removeEdge "z" "a"]

/-- Non-vacuity. -/
example : ["a", "b", "c"].Nodup ∧ (∀ op ∈ exMatOps, op.All fun v => '_' ∉ v.toList) ∧ (∀ op ∈ exMatOps, op ≠ .numEdges) ∧
    trace amStep (amNew ["a", "b", "c"]) exMatOps = [.done, .done, .done, .flag false, .names ["c"], .edge none, .done, .names ["b", "c"],
      .edge (some ⟨"a", "b", 7⟩), .raised .valueError, .raised .keyError] := by
  refine ⟨by decide, ?_, by decide, by decide⟩
  simp [exMatOps, GraphOp.All]

/-- The full C57. -/
def C57_full : Prop := ∀ (P : String → Prop), Separable P → ∀ (vs : List String), vs.Nodup → ∀ ops : List GraphOp, (∀ op ∈ ops, op.All P) →
  SameOuts (trace amStep (amNew vs) ops) (trace fixedSpec ⟨vs, [], fun _ _ => none⟩ ops)

/-- C57 is false of the code: removing the only edge leaves `num_edges` at 1. -/
theorem C57_full_false : ¬ C57_full := by
  intro h
  have := h _ separable_noUnderscore ["a", "b"] (by decide) [.addEdge "a" "b" none, .removeEdge "a" "b", .numEdges] (by simp [GraphOp.All])
  simp [SameOuts, SameOut, trace, amStep, fixedSpec, gUpd, amAddEdge, amRemoveEdge, amNew, amNumEdges, sset, rowSet, digraphSpec] at this

end Props
