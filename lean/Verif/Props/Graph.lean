import Verif.Spec
import Verif.Model.Graph
import Verif.Lemmas.Py
import Verif.Lemmas.Trace

/-!
# C56, C57: the two graph classes are labelled digraphs
-/
namespace Props
open Py Model Spec

inductive GraphOp
  | addVertex (v : String)
  | removeVertex (v : String)
  | addEdge (s t : String) (cost : Option Int)
  | removeEdge (s t : String)
  | isAdjacent (s t : String)
  | neighbors (v : String)
  | numVertices
  | numEdges
  | getEdge (s t : String)
  deriving DecidableEq

/-- What the caller sees. -/
inductive GraphOut
  | done
  | flag (b : Bool)
  | names (l : List String)
  | count (n : Nat)
  | edge (e : Option GEdge)
  | raised (e : PyErr)
  deriving DecidableEq

/-! ## Specification -/

/-- A labelled digraph: the vertices and the edges in the order in which they were added, and the costs of the edges that have one. -/
structure Digraph where
  verts : List String
  edges : List (String × String)
  cost : String → String → Option Int

def Digraph.nbrs (d : Digraph) (v : String) : List String := (d.edges.filter fun e => e.1 = v).map fun e => e.2

/-- What each call means on the abstract digraph. -/
def digraphSpec (d : Digraph) : GraphOp → Digraph × GraphOut
  | .addVertex v => (if v ∈ d.verts then d else { d with verts := d.verts ++ [v] }, .done)
  | .removeVertex v =>
    if v ∈ d.verts then
      ({ verts := d.verts.filter fun w => w ≠ v
         edges := d.edges.filter fun e => e.1 ≠ v ∧ e.2 ≠ v
         cost := fun a b => if a = v ∨ b = v then none else d.cost a b }, .done)
    else (d, .raised .attributeError)
  | .addEdge s t c =>
    if s ∈ d.verts ∧ t ∈ d.verts then
      ({ d with
         edges := if (s, t) ∈ d.edges then d.edges else d.edges ++ [(s, t)]
         cost := match c with
           | none => d.cost
           | some c => fun a b => if a = s ∧ b = t then some c else d.cost a b }, .done)
    else (d, .raised .valueError)
  | .removeEdge s t =>
    if s ∈ d.verts ∧ t ∈ d.verts then
      if (s, t) ∈ d.edges then
        ({ d with
           edges := d.edges.filter fun e => e ≠ (s, t)
           cost := fun a b => if a = s ∧ b = t then none else d.cost a b }, .done)
      else (d, .raised .valueError)
    else (d, .raised .attributeError)
  | .isAdjacent s t => if s ∈ d.verts then (d, .flag (decide ((s, t) ∈ d.edges))) else (d, .raised .attributeError)
  | .neighbors v => if v ∈ d.verts then (d, .names (d.nbrs v)) else (d, .raised .attributeError)
  | .numVertices => (d, .count d.verts.length)
  | .numEdges => (d, .count d.edges.length)
  | .getEdge s t => (d, .edge ((d.cost s t).map fun c => ⟨s, t, c⟩))

def Digraph.empty : Digraph := ⟨[], [], fun _ _ => none⟩

/-! ## The calls on the model -/

section
variable (gAttr nAttr : String → Bool)

def gUpd {σ : Type} (s : σ) : PyM σ → σ × GraphOut
  | .ok s' => (s', .done)
  | .error e => (s, .raised e)

def gAns {σ β : Type} (s : σ) (f : β → GraphOut) : PyM β → σ × GraphOut
  | .ok b => (s, f b)
  | .error e => (s, .raised e)

def alStep (g : AList) : GraphOp → AList × GraphOut
  | .addVertex v => (alAddVertex gAttr g v, .done)
  | .removeVertex v => gUpd g (alRemoveVertex nAttr g v)
  | .addEdge s t c => gUpd g (alAddEdge gAttr nAttr g s t c)
  | .removeEdge s t => gUpd g (alRemoveEdge nAttr g s t)
  | .isAdjacent s t => gAns g .flag (alIsAdjacent nAttr g s t)
  | .neighbors v => gAns g .names (alNeighbors g v)
  | .numVertices => (g, .count (alNumVertices g))
  | .numEdges => gAns g .count (alNumEdges g)
  | .getEdge s t => (g, .edge (alGetEdge g s t))

/-- The names used in a call satisfy `P`. -/
def GraphOp.All (P : String → Prop) : GraphOp → Prop
  | .addVertex v => P v
  | .removeVertex v => P v
  | .addEdge s t _ => P s ∧ P t
  | .removeEdge s t => P s ∧ P t
  | .isAdjacent s t => P s ∧ P t
  | .neighbors v => P v
  | .getEdge s t => P s ∧ P t
  | _ => True

/-- A name that is not an attribute that graph and node objects have anyway. -/
def Plain (v : String) : Prop := gAttr v = false ∧ nAttr v = false

/-- The structural part of the abstraction. -/
structure AlRep (g : AList) (d : Digraph) : Prop where
  verts : g.vertices = d.verts
  nodup : d.verts.Nodup
  adj : ∀ v, g.adjacent v = if v ∈ d.verts then some (d.nbrs v) else none
  ends : ∀ e ∈ d.edges, e.1 ∈ d.verts ∧ e.2 ∈ d.verts
  enodup : d.edges.Nodup

theorem mem_nbrs {d : Digraph} {v w : String} : w ∈ d.nbrs v ↔ (v, w) ∈ d.edges := by
  simp [Digraph.nbrs]

theorem nbrs_nodup {d : Digraph} (h : d.edges.Nodup) (v : String) : (d.nbrs v).Nodup := by
  unfold Digraph.nbrs
  have hn := List.Pairwise.filter (fun e : String × String => decide (e.1 = v)) h
  rw [List.Nodup, List.pairwise_map]
  refine List.Pairwise.imp_of_mem ?_ hn
  intro a b ha hb hne heq
  simp only [List.mem_filter, decide_eq_true_eq] at ha hb
  exact hne (Prod.ext (ha.2.trans hb.2.symm) heq)

variable {gAttr nAttr}

theorem alNode_of {g : AList} {d : Digraph} (h : AlRep g d) (v : String) :
    alNode g v = if v ∈ d.verts then .ok (d.nbrs v) else .error .attributeError := by
  unfold alNode
  rw [h.adj]
  split <;> simp_all

theorem alHas_of {g : AList} {d : Digraph} (h : AlRep g d) {v : String} (hp : gAttr v = false) :
    alHas gAttr g v = decide (v ∈ d.verts) := by
  unfold alHas
  rw [h.adj, hp]
  split <;> simp_all

theorem forList_collect {g : AList} {d : Digraph} (h : AlRep g d) : ∀ (l acc : List String), (∀ v ∈ l, v ∈ d.verts) →
    forList l acc (fun v acc => do let _ ← alNode g v; .ok (acc ++ [v])) = .ok (acc ++ l) := by
  intro l
  induction l with
  | nil => intro acc _; simp [forList]
  | cons a l ih =>
    intro acc hl
    have ha := hl a (by simp)
    simp only [forList, alNode_of h, if_pos ha]
    have := ih (acc ++ [a]) (fun v hv => hl v (by simp [hv]))
    simp only [alNode_of h] at this
    simpa [bind, Except.bind] using this

theorem alNeighbors_of {g : AList} {d : Digraph} (h : AlRep g d) {v : String} :
    alNeighbors g v = if v ∈ d.verts then .ok (d.nbrs v) else .error .attributeError := by
  unfold alNeighbors
  rw [alNode_of h]
  split
  · simp only [bind, Except.bind]
    exact (forList_collect h _ _ (fun w hw => (h.ends _ (mem_nbrs.1 hw)).2)).trans (by simp)
  · rfl

theorem forList_sum {g : AList} {d : Digraph} (h : AlRep g d) : ∀ (l : List String) (n : Nat), (∀ v ∈ l, v ∈ d.verts) →
    forList l n (fun v n => do let l ← alNeighbors g v; .ok (n + l.length)) = .ok (n + (l.map fun v => (d.nbrs v).length).sum) := by
  intro l
  induction l with
  | nil => intro n _; simp [forList]
  | cons a l ih =>
    intro n hl
    have ha := hl a (by simp)
    simp only [forList, alNeighbors_of h, if_pos ha]
    have := ih (n + (d.nbrs a).length) (fun v hv => hl v (by simp [hv]))
    simp only [alNeighbors_of h] at this
    simpa [bind, Except.bind, Nat.add_assoc] using this

theorem count_by_source : ∀ (vs : List String), vs.Nodup → ∀ (es : List (String × String)), (∀ e ∈ es, e.1 ∈ vs) →
    (vs.map fun v => ((es.filter fun e => decide (e.1 = v)).map fun e => e.2).length).sum = es.length := by
  intro vs hvs es
  induction es with
  | nil => intro _; clear hvs; induction vs <;> simp_all
  | cons e es ih =>
    intro he
    have hin := he e (by simp)
    have ih := ih (fun x hx => he x (by simp [hx]))
    have : ∀ ws : List String, ws.Nodup →
        (ws.map fun v => (((e :: es).filter fun e => decide (e.1 = v)).map fun e => e.2).length).sum
          = (ws.map fun v => ((es.filter fun e => decide (e.1 = v)).map fun e => e.2).length).sum + (if e.1 ∈ ws then 1 else 0) := by
      intro ws hws
      induction ws with
      | nil => simp
      | cons w ws ihw =>
        obtain ⟨hw, hws⟩ := List.nodup_cons.1 hws
        have := ihw hws
        simp only [List.map_cons, List.sum_cons, this]
        by_cases hew : e.1 = w
        · subst hew
          simp [hw]; omega
        · simp [hew]; omega
    rw [this vs hvs, ih, if_pos hin]; rfl

theorem alNumEdges_of {g : AList} {d : Digraph} (h : AlRep g d) : alNumEdges g = .ok d.edges.length := by
  unfold alNumEdges
  rw [h.verts, forList_sum h _ _ (fun v hv => hv), ← count_by_source d.verts h.nodup d.edges (fun e he => (h.ends e he).1)]
  simp [Digraph.nbrs]

/-- One pass of the loop of `remove_vertex`. -/
theorem forList_unlink (hn : nAttr name = false) : ∀ (l : List String) (g : AList), l.Nodup → (∀ v ∈ l, (g.adjacent v).isSome) →
    ∃ g', forList l g (fun v g => do
        let adj ← alNode g v
        if nodeHas nAttr adj name then
          if name ∈ adj then .ok { g with adjacent := sset g.adjacent v (some (adj.erase name)) }
          else .error .attributeError
        else .ok g) = .ok g' ∧
      g'.vertices = g.vertices ∧ g'.weights = g.weights ∧
      ∀ v, g'.adjacent v = if v ∈ l then (g.adjacent v).map (·.erase name) else g.adjacent v := by
  intro l
  induction l with
  | nil => intro g _ _; exact ⟨g, rfl, rfl, rfl, by simp⟩
  | cons a l ih =>
    intro g hnd hs
    obtain ⟨ha, hl⟩ := List.nodup_cons.1 hnd
    obtain ⟨adj, hadj⟩ := Option.isSome_iff_exists.1 (hs a (by simp))
    let g1 : AList := if name ∈ adj then { g with adjacent := sset g.adjacent a (some (adj.erase name)) } else g
    have e1 : g1.adjacent = sset g.adjacent a (some (adj.erase name)) := by
      by_cases hm : name ∈ adj
      · simp [g1, hm]
      · funext j
        simp only [g1, hm, if_false, sset]
        split
        · rename_i hj; rw [hj, hadj, List.erase_of_not_mem hm]
        · rfl
    have e2 : g1.vertices = g.vertices ∧ g1.weights = g.weights := by
      by_cases hm : name ∈ adj <;> simp [g1, hm]
    obtain ⟨g', hg', hv, hw, hA⟩ := ih g1 hl (fun v hv => by
      rw [e1]; unfold sset; split
      · rfl
      · exact hs v (by simp [hv]))
    refine ⟨g', ?_, hv.trans e2.1, hw.trans e2.2, ?_⟩
    · rw [← hg']
      simp only [forList]
      have : (do
        let adj ← alNode g a
        if nodeHas nAttr adj name then
          if name ∈ adj then .ok { g with adjacent := sset g.adjacent a (some (adj.erase name)) }
          else .error .attributeError
        else .ok g : PyM AList) = .ok g1 := by
        simp only [alNode, hadj, bind, Except.bind, nodeHas, hn, Bool.false_or, g1]
        by_cases hm : name ∈ adj <;> simp [hm]
      rw [this]; rfl
    · intro v
      rw [hA, e1]
      unfold sset
      by_cases hva : v = a
      · subst hva; simp [ha, hadj]
      · simp [hva]

theorem nbrs_filter {d : Digraph} (p : String × String → Bool) (v : String) :
    ((d.edges.filter p).filter fun e => decide (e.1 = v)).map (fun e => e.2) = (d.nbrs v).filter fun w => p (v, w) := by
  unfold Digraph.nbrs
  rw [List.filter_filter, List.filter_map, List.filter_filter]
  congr 1
  apply List.filter_congr
  rintro ⟨a, b⟩ _
  by_cases hav : a = v
  · subst hav; simp
  · simp [hav]

/-- The outcome of each call, on states that represent the same digraph. -/
theorem alStep_structure {g : AList} {d : Digraph} (h : AlRep g d) (op : GraphOp) (hp : op.All (Plain gAttr nAttr))
    (hg : ∀ s t, op ≠ .getEdge s t) :
    (alStep gAttr nAttr g op).2 = (digraphSpec d op).2 ∧ AlRep (alStep gAttr nAttr g op).1 (digraphSpec d op).1 := by
  cases op with
  | getEdge s t => exact absurd rfl (hg s t)
  | numVertices => exact ⟨by simp [alStep, digraphSpec, alNumVertices, h.verts], h⟩
  | numEdges => simp only [alStep, digraphSpec, alNumEdges_of h, gAns]; exact ⟨trivial, h⟩
  | neighbors v =>
    simp only [alStep, digraphSpec, alNeighbors_of h]
    split <;> exact ⟨rfl, h⟩
  | isAdjacent s t =>
    simp only [alStep, digraphSpec, alIsAdjacent, alNode_of h]
    split
    · simp only [bind, Except.bind, gAns, nodeHas, hp.2.2, Bool.false_or, mem_nbrs]; exact ⟨trivial, h⟩
    · exact ⟨rfl, h⟩
  | addVertex v =>
    simp only [alStep, digraphSpec, alAddVertex, alHas_of h hp.1]
    by_cases hv : v ∈ d.verts
    · simp only [hv, decide_true, if_true]; exact ⟨trivial, h⟩
    · simp only [hv, decide_false, if_false]
      refine ⟨trivial, ?_⟩
      simp only [Bool.false_eq_true, if_false]
      have hno : d.nbrs v = [] := by
        rw [List.eq_nil_iff_forall_not_mem]
        intro w hw
        exact hv (h.ends _ (mem_nbrs.1 hw)).1
      refine ⟨by simp [h.verts], ?_, ?_, ?_, h.enodup⟩
      · dsimp only
        rw [List.nodup_append]
        exact ⟨h.nodup, by simp, by rintro a ha b hb rfl; simp at hb; exact hv (hb ▸ ha)⟩
      · intro w
        simp only [sset]
        by_cases hw : w = v
        · subst hw; simp; exact hno
        · simp only [hw, if_false, h.adj, List.mem_append, List.mem_singleton, or_false]; rfl
      · intro e he
        have := h.ends e he
        simp [this.1, this.2]
  | removeVertex v =>
    simp only [alStep, digraphSpec, alRemoveVertex, alNode_of h]
    by_cases hv : v ∈ d.verts
    · simp only [hv, if_true]
      obtain ⟨g', hg', hV, _, hA⟩ := forList_unlink (nAttr := nAttr) (name := v) hp.2 (g.vertices.erase v)
        { g with adjacent := sset g.adjacent v none, vertices := g.vertices.erase v }
        (h.verts ▸ h.nodup.erase v) (by
          intro w hw
          rw [h.verts, h.nodup.mem_erase_iff] at hw
          simp [sset, hw.1, h.adj, hw.2])
      simp only [bind, Except.bind] at hg' ⊢
      rw [hg']
      refine ⟨rfl, ?_⟩
      have hf : d.verts.erase v = d.verts.filter (fun w => decide (w ≠ v)) := by
        rw [h.nodup.erase_eq_filter]
        apply List.filter_congr
        intro a _
        by_cases ha : a = v <;> simp [ha]
      dsimp only [gUpd] at hV hA ⊢
      refine ⟨by dsimp only; rw [hV, h.verts, hf], List.Pairwise.filter _ h.nodup, ?_, ?_, List.Pairwise.filter _ h.enodup⟩
      · intro w
        rw [hA, h.verts]
        dsimp only
        rw [hf]
        by_cases hwv : w = v
        · subst hwv; simp [sset]
        · by_cases hw : w ∈ d.verts
          · simp only [sset, hwv, if_false, h.adj, hw, if_true]
            rw [if_pos (by simp [hw, hwv]), if_pos (by simp [hw, hwv])]
            simp only [Digraph.nbrs, Option.map_some, Option.some.injEq]
            rw [nbrs_filter, ← Digraph.nbrs, (nbrs_nodup h.enodup w).erase_eq_filter]
            apply List.filter_congr
            intro a _
            by_cases ha : a = v <;> simp [ha, hwv]
          · simp [sset, hwv, h.adj, hw]
      · intro e he
        simp only [List.mem_filter, decide_eq_true_eq] at he ⊢
        have := h.ends e he.1
        exact ⟨⟨this.1, he.2.1⟩, ⟨this.2, he.2.2⟩⟩
    · simp only [hv, if_false]; exact ⟨rfl, h⟩
  | addEdge s t c =>
    simp only [alStep, digraphSpec, alAddEdge, alHas_of h hp.1.1, alHas_of h hp.2.1, alNode_of h]
    by_cases hs : s ∈ d.verts
    · by_cases ht : t ∈ d.verts
      · simp only [hs, ht, decide_true, Bool.not_true, if_true, and_self, bind, Except.bind, nodeHas, hp.2.2, alAddAdjacent,
          Bool.false_or, mem_nbrs, decide_eq_true_eq]
        by_cases hm : (s, t) ∈ d.edges
        · simp only [hm, if_true]
          have : AlRep g { d with cost := match c with
              | none => d.cost
              | some c => fun a b => if a = s ∧ b = t then some c else d.cost a b } := ⟨h.verts, h.nodup, h.adj, h.ends, h.enodup⟩
          cases c
          · exact ⟨rfl, this⟩
          · exact ⟨rfl, ⟨this.1, this.2, this.3, this.4, this.5⟩⟩
        · simp only [hm, if_false]
          have : AlRep { g with adjacent := sset g.adjacent s (some (d.nbrs s ++ [t])) }
            { d with
              edges := d.edges ++ [(s, t)]
              cost := match c with
              | none => d.cost
              | some c => fun a b => if a = s ∧ b = t then some c else d.cost a b } := by
            refine ⟨h.verts, h.nodup, ?_, ?_, ?_⟩
            · intro w
              simp only [sset, Digraph.nbrs, h.adj, List.filter_append, List.map_append]
              by_cases hw : w = s
              · subst hw; simp [hs]
              · simp [hw, eq_comm]
            · intro e he
              simp only [List.mem_append, List.mem_singleton] at he
              rcases he with he | rfl
              · exact h.ends e he
              · exact ⟨hs, ht⟩
            · dsimp only
              rw [List.nodup_append]
              exact ⟨h.enodup, by simp, by rintro a ha b hb rfl; simp at hb; exact hm (hb ▸ ha)⟩
          cases c
          · exact ⟨rfl, this⟩
          · exact ⟨rfl, ⟨this.1, this.2, this.3, this.4, this.5⟩⟩
      · simp [hs, ht, gUpd, h]
    · simp [hs, gUpd, h]
  | removeEdge s t =>
    simp only [alStep, digraphSpec, alRemoveEdge, alNode_of h]
    by_cases hs : s ∈ d.verts
    · by_cases ht : t ∈ d.verts
      · simp only [hs, ht, if_true, and_self, bind, Except.bind, nodeHas, hp.2.2, Bool.false_or, mem_nbrs]
        by_cases hm : (s, t) ∈ d.edges
        · simp only [hm, decide_true, Bool.not_true, if_true]
          refine ⟨rfl, ?_⟩
          simp only [Bool.false_eq_true, if_false, gUpd]
          refine ⟨h.verts, h.nodup, ?_, ?_, List.Pairwise.filter _ h.enodup⟩
          · intro w
            simp only [sset, h.adj]
            by_cases hw : w = s
            · subst hw
              simp only [if_true, hs, Option.some.injEq]
              simp only [Digraph.nbrs]
              rw [nbrs_filter, ← Digraph.nbrs, (nbrs_nodup h.enodup w).erase_eq_filter]
              apply List.filter_congr
              intro a _
              by_cases ha : a = t <;> simp [ha]
            · simp only [hw, if_false]
              split
              · simp only [Digraph.nbrs]
                rw [nbrs_filter, ← Digraph.nbrs, List.filter_eq_self.2]
                intro a _
                simp [hw]
              · rfl
          · intro e he
            exact h.ends e (List.mem_filter.1 he).1
        · simp only [hm, decide_false, Bool.not_false, if_true, if_false]; exact ⟨rfl, h⟩
      · simp [hs, ht, gUpd, h, bind, Except.bind]
    · simp [hs, gUpd, h, bind, Except.bind]

/-- C56, structure: for every history of calls on an initially empty graph that uses no reserved name — additions and removals of vertices and
edges, in any order, failing calls included — `is_adjacent`, `neighbors` (in order), `num_vertices`, `num_edges` and the exceptions are those
of the abstract digraph. `get_edge` is not observed here, see `C56_full_false`. -/
theorem C56_structure_partial (ops : List GraphOp) (hp : ∀ op ∈ ops, op.All (Plain gAttr nAttr)) (hg : ∀ op ∈ ops, ∀ s t, op ≠ .getEdge s t) :
    trace (alStep gAttr nAttr) alNew ops = trace digraphSpec Digraph.empty ops := by
  have key : ∀ (ops : List GraphOp) (g : AList) (d : Digraph), AlRep g d → (∀ op ∈ ops, op.All (Plain gAttr nAttr)) →
      (∀ op ∈ ops, ∀ s t, op ≠ .getEdge s t) → trace (alStep gAttr nAttr) g ops = trace digraphSpec d ops := by
    intro ops
    induction ops with
    | nil => intros; rfl
    | cons op ops ih =>
      intro g d h hp hg
      obtain ⟨e, h'⟩ := alStep_structure h op (hp op (by simp)) (hg op (by simp))
      simp only [trace, e]
      rw [ih _ _ h' (fun o ho => hp o (by simp [ho])) (fun o ho => hg o (by simp [ho]))]
  exact key ops _ _ ⟨rfl, by simp [Digraph.empty], by simp [alNew, Digraph.empty], by simp [Digraph.empty], by simp [Digraph.empty]⟩ hp hg

/-! ### `get_edge` -/

/-- The history never removes a vertex that still has an edge with a cost. -/
def Unhooked : Digraph → List GraphOp → Prop
  | _, [] => True
  | d, op :: ops => (∀ v, op = .removeVertex v → ∀ w, d.cost v w = none ∧ d.cost w v = none) ∧ Unhooked (digraphSpec d op).1 ops

/-- The names in use are such that `source_target` determines the pair. -/
def Separable (P : String → Prop) : Prop :=
  ∀ s t s' t', P s → P t → P s' → P t' → s ++ "_" ++ t = s' ++ "_" ++ t' → s = s' ∧ t = t'

/-- Names without underscore are separable. -/
theorem separable_noUnderscore : Separable fun v => '_' ∉ v.toList := by
  have key : ∀ (s t s' t' : List Char), '_' ∉ s → '_' ∉ s' → s ++ '_' :: t = s' ++ '_' :: t' → s = s' ∧ t = t' := by
    intro s
    induction s with
    | nil =>
      intro t s' t' _ h' h
      cases s' with
      | nil => simpa using h
      | cons c s' => simp at h h'; exact absurd h.1 h'.1
    | cons a s ih =>
      intro t s' t' h0 h' h
      cases s' with
      | nil => simp at h h0; exact absurd h.1.symm h0.1
      | cons c s' =>
        simp only [List.cons_append, List.cons.injEq] at h
        obtain ⟨e1, e2⟩ := ih t s' t' (fun hh => h0 (by simp [hh])) (fun hh => h' (by simp [hh])) h.2
        exact ⟨by rw [h.1, e1], e2⟩
  intro s t s' t' hs _ hs' _ h
  have h := congrArg String.toList h
  simp only [String.toList_append, List.append_assoc] at h
  have e : "_".toList = ['_'] := rfl
  rw [e] at h
  obtain ⟨e1, e2⟩ := key _ _ _ _ hs hs' h
  exact ⟨String.toList_inj.1 e1, String.toList_inj.1 e2⟩

structure AlWeights (P : String → Prop) (g : AList) (d : Digraph) : Prop where
  get : ∀ s t, P s → P t → g.weights (s ++ "_" ++ t) = (d.cost s t).map fun c => ⟨s, t, c⟩

theorem alStep_weights {P : String → Prop} (hP : Separable P) {g : AList} {d : Digraph} (h : AlRep g d) (hw : AlWeights P g d) (op : GraphOp)
    (hp : op.All (Plain gAttr nAttr)) (hq : op.All P) (hu : ∀ v, op = .removeVertex v → ∀ w, d.cost v w = none ∧ d.cost w v = none) :
    AlWeights P (alStep gAttr nAttr g op).1 (digraphSpec d op).1 := by
  cases op with
  | getEdge s t => exact hw
  | numVertices => exact hw
  | numEdges => simp only [alStep, digraphSpec, alNumEdges_of h, gAns]; exact hw
  | neighbors v => simp only [alStep, digraphSpec, alNeighbors_of h]; split <;> exact hw
  | isAdjacent s t =>
    simp only [alStep, digraphSpec, alIsAdjacent, alNode_of h]
    split <;> exact hw
  | addVertex v =>
    simp only [alStep, digraphSpec, alAddVertex]
    split <;> split <;> exact ⟨hw.1⟩
  | removeVertex v =>
    simp only [alStep, digraphSpec, alRemoveVertex, alNode_of h]
    by_cases hv : v ∈ d.verts
    · simp only [hv, if_true]
      obtain ⟨g', hg', hV, hW, hA⟩ := forList_unlink (nAttr := nAttr) (name := v) hp.2 (g.vertices.erase v)
        { g with adjacent := sset g.adjacent v none, vertices := g.vertices.erase v }
        (h.verts ▸ h.nodup.erase v) (by
          intro w hw
          rw [h.verts, h.nodup.mem_erase_iff] at hw
          simp [sset, hw.1, h.adj, hw.2])
      simp only [bind, Except.bind] at hg' ⊢
      rw [hg']
      refine ⟨fun s t hs ht => ?_⟩
      dsimp only [gUpd]
      rw [hW]
      dsimp only
      rw [hw.get s t hs ht]
      split
      · rename_i hst
        rcases hst with rfl | rfl
        · rw [(hu _ rfl t).1]
        · rw [(hu _ rfl s).2]
      · rfl
    · simp only [hv, if_false]; exact hw
  | addEdge s t c =>
    simp only [alStep, digraphSpec, alAddEdge, alHas_of h hp.1.1, alHas_of h hp.2.1, alNode_of h]
    by_cases hs : s ∈ d.verts
    · by_cases ht : t ∈ d.verts
      · simp only [hs, ht, decide_true, Bool.not_true, if_true, and_self, bind, Except.bind, nodeHas, hp.2.2, alAddAdjacent,
          Bool.false_or, mem_nbrs, decide_eq_true_eq]
        by_cases hm : (s, t) ∈ d.edges <;> cases c <;> simp only [hm, if_true, if_false, gUpd] <;> first
          | exact ⟨hw.1⟩
          | refine ⟨fun s' t' hs' ht' => ?_⟩
            by_cases hst : s' = s ∧ t' = t
            · obtain ⟨rfl, rfl⟩ := hst; simp [sset]
            · have : ¬ s' ++ "_" ++ t' = s ++ "_" ++ t := fun e => hst (hP _ _ _ _ hs' ht' hq.1 hq.2 e)
              simp [sset, this, hst, hw.get s' t' hs' ht']
      · simp [hs, ht, gUpd, hw]
    · simp [hs, gUpd, hw]
  | removeEdge s t =>
    simp only [alStep, digraphSpec, alRemoveEdge, alNode_of h]
    by_cases hs : s ∈ d.verts
    · by_cases ht : t ∈ d.verts
      · simp only [hs, ht, if_true, and_self, bind, Except.bind, nodeHas, hp.2.2, Bool.false_or, mem_nbrs]
        by_cases hm : (s, t) ∈ d.edges
        · simp only [hm, decide_true, Bool.not_true, if_true, gUpd]
          simp only [Bool.false_eq_true, if_false]
          refine ⟨fun s' t' hs' ht' => ?_⟩
          by_cases hst : s' = s ∧ t' = t
          · obtain ⟨rfl, rfl⟩ := hst; simp [sset]
          · have : ¬ s' ++ "_" ++ t' = s ++ "_" ++ t := fun e => hst (hP _ _ _ _ hs' ht' hq.1 hq.2 e)
            simp [sset, this, hst, hw.get s' t' hs' ht']
        · simp [hm, gUpd, hw]
      · simp [hs, ht, gUpd, hw, bind, Except.bind]
    · simp [hs, gUpd, hw, bind, Except.bind]

/-- C56 with `get_edge`: if moreover the names are separable (for instance contain no underscore) and no vertex is removed while it has an edge
with a cost, every observation, `get_edge` included, is that of the abstract labelled digraph. -/
theorem C56_labels_partial (P : String → Prop) (hP : Separable P) (ops : List GraphOp) (hp : ∀ op ∈ ops, op.All (Plain gAttr nAttr))
    (hq : ∀ op ∈ ops, op.All P) (hu : Unhooked Digraph.empty ops) :
    trace (alStep gAttr nAttr) alNew ops = trace digraphSpec Digraph.empty ops := by
  have key : ∀ (ops : List GraphOp) (g : AList) (d : Digraph), AlRep g d → AlWeights P g d → (∀ op ∈ ops, op.All (Plain gAttr nAttr)) →
      (∀ op ∈ ops, op.All P) → Unhooked d ops → trace (alStep gAttr nAttr) g ops = trace digraphSpec d ops := by
    intro ops
    induction ops with
    | nil => intros; rfl
    | cons op ops ih =>
      intro g d h hw hp hq hu
      have hw' := alStep_weights (gAttr := gAttr) (nAttr := nAttr) hP h hw op (hp op (by simp)) (hq op (by simp)) hu.1
      have h' : (alStep gAttr nAttr g op).2 = (digraphSpec d op).2 ∧ AlRep (alStep gAttr nAttr g op).1 (digraphSpec d op).1 := by
        by_cases hg : ∃ s t, op = .getEdge s t
        · obtain ⟨s, t, rfl⟩ := hg
          have := hq _ (List.mem_cons_self)
          exact ⟨by simp [alStep, digraphSpec, alGetEdge, hw.get s t this.1 this.2], h⟩
        · exact alStep_structure h op (hp op (by simp)) (fun s t e => hg ⟨s, t, e⟩)
      simp only [trace, h'.1]
      rw [ih _ _ h'.2 hw' (fun o ho => hp o (by simp [ho])) (fun o ho => hq o (by simp [ho])) hu.2]
  exact key ops _ _ ⟨rfl, by simp [Digraph.empty], by simp [alNew, Digraph.empty], by simp [Digraph.empty], by simp [Digraph.empty]⟩
    ⟨by simp [alNew, Digraph.empty]⟩ hp hq hu

end

/-- The attributes relevant to the examples. -/
def exGAttr (v : String) : Bool := v ∈ ["vertices", "edge_weights", "_impl", "neighbors", "num_edges"]
def exNAttr (v : String) : Bool := v ∈ ["name", "data", "_impl", "adjacent", "add_adjacent_node"]

def exGraphOps : List GraphOp := [.addVertex "a", .addVertex "b", .addVertex "c", .addEdge "a" "b" (some 3), .addEdge "a" "c" none,
  .addEdge "c" "a" (some 4), .addEdge "a" "b" (some 5), .getEdge "a" "b", .neighbors "a", .numEdges, .removeEdge "a" "b", .removeEdge "a" "b",
  .getEdge "a" "b", .isAdjacent "a" "b", .removeEdge "c" "a", .removeVertex "a", .neighbors "a", .numEdges, .numVertices]

/-- Non-vacuity: a history with labels, removals and failing calls meets the hypotheses; the answers are computed by the kernel. -/
example : (∀ op ∈ exGraphOps, op.All (Plain exGAttr exNAttr)) ∧ (∀ op ∈ exGraphOps, op.All fun v => '_' ∉ v.toList) ∧
    Unhooked Digraph.empty exGraphOps ∧
    trace (alStep exGAttr exNAttr) alNew exGraphOps = [.done, .done, .done, .done, .done, .done, .done, .edge (some ⟨"a", "b", 5⟩),
      .names ["b", "c"], .count 3, .done, .raised .valueError, .edge none, .flag false, .done, .done, .raised .attributeError,
      .count 0, .count 2] := by
  refine ⟨?_, ?_, ?_, ?_⟩
  · simp [exGraphOps, GraphOp.All, Plain]; decide
  · simp [exGraphOps, GraphOp.All]
  · simp [exGraphOps, Unhooked, digraphSpec, Digraph.empty]
    grind
  · decide

/-- The full C56. -/
def C56_full : Prop := ∀ (ops : List GraphOp), (∀ op ∈ ops, op.All (Plain exGAttr exNAttr)) →
  trace (alStep exGAttr exNAttr) alNew ops = trace digraphSpec Digraph.empty ops

/-- C56 is false of the code: `remove_vertex` leaves the costs of the removed edges behind, … -/
theorem C56_full_false : ¬ C56_full := by
  intro h
  have := h [.addVertex "a", .addVertex "b", .addEdge "a" "b" (some 3), .removeVertex "b", .getEdge "a" "b"]
    (by simp [GraphOp.All, Plain]; decide)
  exact absurd this (by decide)

/-- … and two pairs of vertices can share the key of their costs. -/
theorem C56_full_false_keys : ¬ C56_full := by
  intro h
  have := h [.addVertex "a", .addVertex "b_c", .addVertex "a_b", .addVertex "c", .addEdge "a" "b_c" (some 3), .getEdge "a_b" "c"]
    (by simp [GraphOp.All, Plain]; decide)
  exact absurd this (by decide)

/-- Reserved names break the structure too: every vertex is adjacent to a vertex called `name`. -/
theorem C56_reserved_name_false :
    trace (alStep exGAttr exNAttr) alNew [.addVertex "a", .addVertex "name", .isAdjacent "a" "name"] ≠
    trace digraphSpec Digraph.empty [.addVertex "a", .addVertex "name", .isAdjacent "a" "name"] := by decide

end Props
