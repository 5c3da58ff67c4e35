import Verif.Props.CppBfs
import Verif.Model.CppMatrix

/-! # C103: the adjacency-matrix graph of the C++ back end is a labelled digraph on a fixed set of vertices -/
namespace Props
open Py Model Spec Model.Cpp

inductive CMatCall
  | addEdge (s t : String) (c : CCost)
  | removeEdge (s t : String)
  | isAdjacent (s t : String)
  | neighbors (v : String)
  | numVertices
  | numEdges
  | getEdge (s t : String)

/-- A call together with the (unspecified) order in which a hash map is iterated during the call. -/
abbrev CMatOp := CMatCall × (List String → List String)

/-! ## Specification -/

def Digraph.addEdge (d : Digraph) (s t : String) : Digraph := { d with edges := if (s, t) ∈ d.edges then d.edges else d.edges ++ [(s, t)] }

def Digraph.setCost (d : Digraph) (s t : String) (x : Option Int) : Digraph := { d with cost := fun a b => if a = s ∧ b = t then x else d.cost a b }

/-- What the caller expects: a digraph with fixed vertices, `cost` gives the costs of the edges that have one; a call that raises changes nothing. -/
def matWant (d : Digraph) (c : CMatOp) : Digraph × CGraphOut :=
  match c.1 with
  | .addEdge s t cost =>
    if s ∈ d.verts ∧ t ∈ d.verts then
      match cost with
      | .absent => (d.addEdge s t, .done)
      | .number x => ((d.addEdge s t).setCost s t (some x), .done)
      | .other => (d, .raised .typeError)
    else (d, .raised .valueError)
  | .removeEdge s t => ({ d.setCost s t none with edges := d.edges.filter fun e => e ≠ (s, t) }, .done)
  | .isAdjacent s t => (d, .flag (decide ((s, t) ∈ d.edges)))
  | .neighbors v => if v ∈ d.verts then (d, .names (d.nbrs v)) else (d, .raised .keyError)
  | .numVertices => (d, .count d.verts.length)
  | .numEdges => (d, .count d.edges.length)
  | .getEdge s t => (d, .edge ((d.cost s t).map fun x => ⟨s, t, some x⟩))

/-- What happens: in addition the edges whose object has been handed out. -/
structure MatState where
  d : Digraph
  handed : List (String × String)

/-- The same with the two deviations: the edge object of a pair can be got once only, and a cost that is refused leaves the edge behind. -/
def matHappens (s : MatState) (c : CMatOp) : MatState × CGraphOut :=
  match c.1 with
  | .addEdge a b .other => if a ∈ s.d.verts ∧ b ∈ s.d.verts then ({ s with d := s.d.addEdge a b }, .raised .typeError) else (s, .raised .valueError)
  | .addEdge a b (.number x) =>
    (⟨(matWant s.d c).1, if a ∈ s.d.verts ∧ b ∈ s.d.verts then s.handed.filter fun e => e ≠ (a, b) else s.handed⟩, (matWant s.d (.addEdge a b (.number x), c.2)).2)
  | .removeEdge a b => (⟨(matWant s.d c).1, s.handed.filter fun e => e ≠ (a, b)⟩, .done)
  | .getEdge a b =>
    match s.d.cost a b with
    | none => (s, .edge none)
    | some x => if (a, b) ∈ s.handed then (s, .raised .undefined) else (⟨s.d, (a, b) :: s.handed⟩, .edge (some ⟨a, b, some x⟩))
  | _ => (⟨(matWant s.d c).1, s.handed⟩, (matWant s.d c).2)

/-- The order of the neighbours is not specified. -/
def CSame : CGraphOut → CGraphOut → Prop
  | .names l, .names l' => l.Perm l'
  | a, b => a = b

instance (a b : CGraphOut) : Decidable (CSame a b) := by
  unfold CSame
  split <;> infer_instance

def CSames : List CGraphOut → List CGraphOut → Prop
  | [], [] => True
  | a :: as, b :: bs => CSame a b ∧ CSames as bs
  | _, _ => False

/-! ## The calls on the model -/

def cmStep (g : CMat) (c : CMatOp) : CMat × CGraphOut :=
  match c.1 with
  | .addEdge s t cost => ((cmAddEdge g s t cost).1, match (cmAddEdge g s t cost).2 with | none => .done | some e => .raised e)
  | .removeEdge s t => (cmRemoveEdge g s t, .done)
  | .isAdjacent s t => (g, .flag (cmIsAdjacent g s t))
  | .neighbors v => cAns g .names (cmNeighbors c.2 g v)
  | .numVertices => (g, .count (cmNumVertices g))
  | .numEdges => (g, .count (cmNumEdges g))
  | .getEdge s t => ((cmGetEdge g s t).2, match (cmGetEdge g s t).1 with | .ok e => .edge e | .error e => .raised e)

/-! ## The proof -/

/-- No underscore in the first name of a call. -/
def CMatCall.plain : CMatCall → Prop
  | .addEdge s _ _ | .removeEdge s _ | .getEdge s _ => NoBar s
  | _ => True

/-- A row with the true entries `S`. -/
structure RowRep (row : PyDict String Bool) (S : String → Prop) : Prop where
  nodup : row.keys.Nodup
  keys : ∀ t, t ∈ row.keys ↔ (row.val t).isSome
  val : ∀ t, row.val t = some true ↔ S t

structure CmRep (plain : Prop) (g : CMat) (s : MatState) : Prop where
  verts : g.nodes = s.d.verts
  vnodup : s.d.verts.Nodup
  mkeys : g.matrix.keys = s.d.verts
  rows : ∀ v ∈ s.d.verts, ∃ row, g.matrix.val v = some row ∧ RowRep row fun t => (v, t) ∈ s.d.edges
  norow : ∀ v, v ∉ s.d.verts → g.matrix.val v = none
  ends : ∀ e ∈ s.d.edges, e.1 ∈ s.d.verts ∧ e.2 ∈ s.d.verts
  enodup : s.d.edges.Nodup
  costly : ∀ a b x, s.d.cost a b = some x → (a, b) ∈ s.d.edges
  weights : plain → ∀ a b, NoBar a → g.weights (edgeKey a b) = (s.d.cost a b).map fun x => (⟨a, b, some x⟩, decide ((a, b) ∈ s.handed))

theorem RowRep.set {row : PyDict String Bool} {S : String → Prop} (h : RowRep row S) (t : String) (b : Bool) :
    RowRep (row.set t b) fun u => if u = t then b = true else S u := by
  refine ⟨?_, ?_, ?_⟩
  · simp only [PyDict.set]
    split
    · exact h.nodup
    · rename_i hn
      have : t ∉ row.keys := fun hm => hn ((h.keys t).1 hm)
      exact List.nodup_append.2 ⟨h.nodup, by simp, by rintro a ha c hc rfl; simp at hc; subst hc; exact this ha⟩
  · intro u
    simp only [PyDict.set]
    by_cases hu : u = t
    · subst hu
      simp only [if_true, Option.isSome_some, iff_true]
      split
      · rename_i hs; exact (h.keys u).2 hs
      · simp
    · simp only [hu, if_false]
      rw [← h.keys u]
      split
      · rfl
      · simp [hu]
  · intro u
    simp only [PyDict.set]
    by_cases hu : u = t
    · subst hu; simp
    · simp only [hu, if_false]; exact h.val u

theorem RowRep.mem_true {row : PyDict String Bool} {S : String → Prop} (h : RowRep row S) {order : List String → List String} (ho : ∀ l, (order l).Perm l)
    (t : String) : t ∈ cmTrue order row ↔ S t := by
  rw [← h.val]
  simp only [cmTrue, List.mem_filter, (ho _).mem_iff, h.keys]
  cases row.val t with
  | none => simp
  | some b => simp

theorem RowRep.nodup_true {row : PyDict String Bool} {S : String → Prop} (h : RowRep row S) {order : List String → List String} (ho : ∀ l, (order l).Perm l) :
    (cmTrue order row).Nodup := ((ho _).nodup_iff.2 h.nodup).filter _

theorem RowRep.true_perm {row : PyDict String Bool} {S : String → Prop} (h : RowRep row S) {order : List String → List String} (ho : ∀ l, (order l).Perm l)
    {l : List String} (hn : l.Nodup) (hl : ∀ t, t ∈ l ↔ S t) : (cmTrue order row).Perm l :=
  (List.perm_ext_iff_of_nodup (h.nodup_true ho) hn).2 fun t => by rw [h.mem_true ho, hl]

theorem sum_by_source : ∀ (es : List (String × String)) (vs : List String), vs.Nodup → (∀ e ∈ es, e.1 ∈ vs) →
    (vs.map fun v => (es.filter fun e => decide (e.1 = v)).length).sum = es.length := by
  intro es
  induction es with
  | nil =>
    have z : ∀ vs : List String, (vs.map fun _ => 0).sum = 0 := by
      intro vs; induction vs with
      | nil => rfl
      | cons v vs ih => simpa using ih
    intro vs _ _
    simpa using z vs
  | cons e es ih =>
    intro vs hn hs
    have h1 := ih vs hn (fun x hx => hs x (by simp [hx]))
    have h2 : ∀ ws : List String, ws.Nodup → (ws.map fun v => ((e :: es).filter fun x => decide (x.1 = v)).length).sum =
        (ws.map fun v => (es.filter fun x => decide (x.1 = v)).length).sum + if e.1 ∈ ws then 1 else 0 := by
      intro ws
      induction ws with
      | nil => intro _; simp
      | cons w ws ih =>
        intro hn
        obtain ⟨hw, hn⟩ := List.nodup_cons.1 hn
        simp only [List.map_cons, List.sum_cons, ih hn]
        by_cases he : e.1 = w
        · subst he
          simp [hw]; omega
        · simp [he]; omega
    rw [h2 vs hn, h1, if_pos (hs e (by simp))]
    simp

theorem CmRep.numEdges {plain : Prop} {g : CMat} {s : MatState} (h : CmRep plain g s) : cmNumEdges g = s.d.edges.length := by
  rw [← sum_by_source s.d.edges s.d.verts h.vnodup fun e he => (h.ends e he).1]
  unfold cmNumEdges
  rw [h.mkeys]
  congr 1
  apply List.map_congr_left
  intro v hv
  obtain ⟨row, e, hr⟩ := h.rows v hv
  simp only [e]
  have := (hr.true_perm (order := fun l => l) (fun l => List.Perm.refl l) (nbrs_nodup h.enodup v) (fun t => mem_nbrs)).length_eq
  simp only [cmTrue] at this
  rw [this]
  simp [Digraph.nbrs]

theorem CmRep.isAdjacent {plain : Prop} {g : CMat} {s : MatState} (h : CmRep plain g s) (a b : String) :
    cmIsAdjacent g a b = decide ((a, b) ∈ s.d.edges) := by
  unfold cmIsAdjacent
  by_cases ha : a ∈ s.d.verts
  · obtain ⟨row, e, hr⟩ := h.rows a ha
    simp only [e]
    have := hr.val b
    cases hx : row.val b with
    | none => rw [hx] at this; simp at this; simp [this]
    | some x => rw [hx] at this; cases x <;> simp at this <;> simp [this]
  · rw [h.norow a ha]
    have : (a, b) ∉ s.d.edges := fun hm => ha (h.ends _ hm).1
    simp [this]

theorem CmRep.isSome {plain : Prop} {g : CMat} {s : MatState} (h : CmRep plain g s) (v : String) : (g.matrix.val v).isSome = decide (v ∈ s.d.verts) := by
  by_cases hv : v ∈ s.d.verts
  · obtain ⟨row, e, _⟩ := h.rows v hv; simp [e, hv]
  · simp [h.norow v hv, hv]

/-- Writing one entry of the matrix. -/
theorem CmRep.put {plain : Prop} {g : CMat} {s : MatState} (h : CmRep plain g s) {a b : String} (ha : a ∈ s.d.verts) (x : Bool) :
    (cmPut g a b x).nodes = g.nodes ∧ (cmPut g a b x).weights = g.weights ∧ (cmPut g a b x).matrix.keys = s.d.verts ∧
    (∀ v, v ∉ s.d.verts → (cmPut g a b x).matrix.val v = none) ∧
    ∀ v ∈ s.d.verts, ∃ row, (cmPut g a b x).matrix.val v = some row ∧ RowRep row fun t => if v = a ∧ t = b then x = true else (v, t) ∈ s.d.edges := by
  obtain ⟨row, e, hr⟩ := h.rows a ha
  simp only [cmPut, e, PyDict.set, Option.isSome_some, if_true]
  refine ⟨trivial, trivial, h.mkeys, ?_, ?_⟩
  · intro v hv
    rw [if_neg (by rintro rfl; exact hv ha)]
    exact h.norow v hv
  · intro v hv
    by_cases hva : v = a
    · subst hva
      refine ⟨_, by rw [if_pos rfl], ?_⟩
      have := hr.set b x
      simpa using (show RowRep ⟨_, _⟩ _ from this)
    · obtain ⟨row', e', hr'⟩ := h.rows v hv
      exact ⟨row', by rw [if_neg hva]; exact e', by simpa [hva] using hr'⟩

theorem CmRep.addEdge {plain : Prop} {g : CMat} {s : MatState} (h : CmRep plain g s) {a b : String} (ha : a ∈ s.d.verts) (hb : b ∈ s.d.verts) :
    CmRep plain (cmPut g a b true) ⟨s.d.addEdge a b, s.handed⟩ := by
  obtain ⟨h1, h2, h3, h4, h5⟩ := h.put (b := b) ha true
  refine ⟨h1.trans h.verts, h.vnodup, h3, ?_, h4, ?_, ?_, ?_, ?_⟩
  · intro v hv
    obtain ⟨row, e, hr⟩ := h5 v hv
    refine ⟨row, e, hr.nodup, hr.keys, fun t => (hr.val t).trans ?_⟩
    simp only [Digraph.addEdge]
    by_cases hvt : v = a ∧ t = b
    · obtain ⟨rfl, rfl⟩ := hvt
      simp only [and_self, if_true, true_iff]
      split <;> simp_all
    · rw [if_neg hvt]
      split
      · rfl
      · simp only [List.mem_append, List.mem_singleton, Prod.mk.injEq, hvt, or_false]
  · intro e he
    simp only [Digraph.addEdge] at he ⊢
    split at he
    · exact h.ends e he
    · rcases List.mem_append.1 he with he | he
      · exact h.ends e he
      · simp at he; subst he; exact ⟨ha, hb⟩
  · simp only [Digraph.addEdge]
    split
    · exact h.enodup
    · rename_i hn
      exact List.nodup_append.2 ⟨h.enodup, by simp, by rintro x hx y hy rfl; simp at hy; subst hy; exact hn hx⟩
  · intro u v x hx
    have := h.costly u v x hx
    simp only [Digraph.addEdge]
    split
    · exact this
    · simp [this]
  · intro hp u v hu
    rw [h2]
    exact h.weights hp u v hu

theorem CmRep.setCost {plain : Prop} {g : CMat} {s : MatState} (h : CmRep plain g s) {a b : String} (hab : (a, b) ∈ s.d.edges) (x : Int)
    (hp : plain → NoBar a) :
    CmRep plain { g with weights := upd g.weights (edgeKey a b) (some (⟨a, b, some x⟩, false)) }
      ⟨s.d.setCost a b (some x), s.handed.filter fun e => e ≠ (a, b)⟩ := by
  refine ⟨h.verts, h.vnodup, h.mkeys, h.rows, h.norow, h.ends, h.enodup, ?_, ?_⟩
  · intro u v y hy
    simp only [Digraph.setCost] at hy ⊢
    split at hy
    · rename_i huv; rw [huv.1, huv.2]; exact hab
    · exact h.costly u v y hy
  · intro hpl u v hu
    simp only [upd, Digraph.setCost]
    by_cases huv : u = a ∧ v = b
    · obtain ⟨rfl, rfl⟩ := huv
      simp
    · have hk : edgeKey u v ≠ edgeKey a b := fun e => huv (edgeKey_inj hu (hp hpl) e)
      rw [if_neg hk, if_neg huv, h.weights hpl u v hu]
      have : decide ((u, v) ∈ s.handed.filter fun e => decide (e ≠ (a, b))) = decide ((u, v) ∈ s.handed) := by
        simp [List.mem_filter, huv]
      rw [this]

theorem CmRep.removeEdge {plain : Prop} {g : CMat} {s : MatState} (h : CmRep plain g s) (a b : String) (hp : plain → NoBar a) :
    CmRep plain (cmRemoveEdge g a b) ⟨{ s.d.setCost a b none with edges := s.d.edges.filter fun e => e ≠ (a, b) }, s.handed.filter fun e => e ≠ (a, b)⟩ := by
  have hcost : ∀ u v y, (s.d.setCost a b none).cost u v = some y → (u, v) ∈ s.d.edges.filter fun e => decide (e ≠ (a, b)) := by
    intro u v y hy
    simp only [Digraph.setCost] at hy
    split at hy
    · cases hy
    · rename_i huv
      simp [List.mem_filter, h.costly u v y hy, huv]
  have hhand : ∀ u v, ¬ (u = a ∧ v = b) → decide ((u, v) ∈ s.handed.filter fun e => decide (e ≠ (a, b))) = decide ((u, v) ∈ s.handed) := by
    intro u v huv; simp [List.mem_filter, huv]
  unfold cmRemoveEdge
  rw [h.isSome]
  by_cases ha : a ∈ s.d.verts
  · rw [if_pos (by simpa using ha)]
    obtain ⟨h1, h2, h3, h4, h5⟩ := h.put (b := b) ha false
    refine ⟨h1.trans h.verts, h.vnodup, h3, ?_, h4, fun e he => h.ends e (List.mem_filter.1 he).1, h.enodup.filter _, hcost, ?_⟩
    · intro v hv
      obtain ⟨row, e, hr⟩ := h5 v hv
      refine ⟨row, e, hr.nodup, hr.keys, fun t => (hr.val t).trans ?_⟩
      by_cases hvt : v = a ∧ t = b
      · obtain ⟨rfl, rfl⟩ := hvt
        simp [List.mem_filter]
      · rw [if_neg hvt]
        simp [List.mem_filter, hvt]
    · intro hpl u v hu
      simp only [upd, Digraph.setCost]
      by_cases huv : u = a ∧ v = b
      · obtain ⟨rfl, rfl⟩ := huv; simp
      · have hk : edgeKey u v ≠ edgeKey a b := fun e => huv (edgeKey_inj hu (hp hpl) e)
        rw [if_neg hk, if_neg huv, h2, h.weights hpl u v hu, hhand u v huv]
  · rw [if_neg (by simpa using ha)]
    have hno : (a, b) ∉ s.d.edges := fun hm => ha (h.ends _ hm).1
    have hf : s.d.edges.filter (fun e => decide (e ≠ (a, b))) = s.d.edges := by
      apply List.filter_eq_self.2
      intro e he
      simp only [decide_eq_true_eq]
      rintro rfl
      exact hno he
    have hc : ∀ u v, (s.d.setCost a b none).cost u v = s.d.cost u v := by
      intro u v
      simp only [Digraph.setCost]
      split
      · rename_i huv
        rw [huv.1, huv.2]
        cases hx : s.d.cost a b with
        | none => rfl
        | some x => exact absurd (h.costly _ _ _ hx) hno
      · rfl
    refine ⟨h.verts, h.vnodup, h.mkeys, ?_, h.norow, ?_, by rw [hf]; exact h.enodup, hcost, ?_⟩
    · rw [hf]; exact h.rows
    · rw [hf]; exact h.ends
    · intro hpl u v hu
      dsimp only
      rw [h.weights hpl u v hu]
      simp only [hc]
      by_cases huv : u = a ∧ v = b
      · obtain ⟨rfl, rfl⟩ := huv
        cases hx : s.d.cost u v with
        | none => rfl
        | some x => exact absurd (h.costly _ _ _ hx) hno
      · rw [hhand u v huv]

/-- One call. For names with an underscore everything but `get_edge` is still right. -/
theorem cmStep_spec {plain : Prop} {g : CMat} {s : MatState} (h : CmRep plain g s) (c : CMatOp) (ho : ∀ l, (c.2 l).Perm l)
    (hp : plain → c.1.plain) (hq : plain ∨ ∀ a b, c.1 ≠ .getEdge a b) :
    CmRep plain (cmStep g c).1 (matHappens s c).1 ∧ CSame (cmStep g c).2 (matHappens s c).2 := by
  obtain ⟨c, order⟩ := c
  dsimp only at ho hp hq
  cases c with
  | addEdge a b cost =>
    have hnn : ∀ v, (g.matrix.val v).isNone = !decide (v ∈ s.d.verts) := by
      intro v; rw [← h.isSome]; cases g.matrix.val v <;> rfl
    by_cases hab : a ∈ s.d.verts ∧ b ∈ s.d.verts
    · have hc : ((g.matrix.val a).isNone || (g.matrix.val b).isNone) = false := by simp [hnn, hab]
      have h1 := h.addEdge hab.1 hab.2
      cases cost with
      | absent => simp only [cmStep, cmAddEdge, hc, matHappens, matWant, hab, and_self, if_true]; exact ⟨h1, rfl⟩
      | other => simp only [cmStep, cmAddEdge, hc, matHappens, hab, and_self, if_true]; exact ⟨h1, rfl⟩
      | number x =>
        simp only [cmStep, cmAddEdge, hc, matHappens, matWant, hab, and_self, if_true]
        refine ⟨?_, rfl⟩
        refine h1.setCost (a := a) (b := b) ?_ x (fun hpl => hp hpl)
        simp only [Digraph.addEdge]
        split <;> simp_all
    · have hc : ((g.matrix.val a).isNone || (g.matrix.val b).isNone) = true := by
        simp only [hnn]
        by_cases ha : a ∈ s.d.verts
        · have hb : b ∉ s.d.verts := fun hb => hab ⟨ha, hb⟩
          simp [hb]
        · simp [ha]
      cases cost <;> simp only [cmStep, cmAddEdge, hc, matHappens, matWant, hab, if_true, if_false] <;> exact ⟨h, rfl⟩
  | removeEdge a b => exact ⟨h.removeEdge a b (fun hpl => hp hpl), rfl⟩
  | isAdjacent a b => exact ⟨h, by simp only [cmStep, matHappens, matWant, h.isAdjacent, CSame]⟩
  | neighbors v =>
    simp only [cmStep, matHappens, matWant, cmNeighbors]
    by_cases hv : v ∈ s.d.verts
    · obtain ⟨row, e, hr⟩ := h.rows v hv
      simp only [e, cAns, hv, if_true]
      exact ⟨h, hr.true_perm ho (nbrs_nodup h.enodup v) fun t => mem_nbrs⟩
    · simp only [h.norow v hv, cAns, hv, if_false]
      exact ⟨h, rfl⟩
  | numVertices => exact ⟨h, by simp only [cmStep, matHappens, matWant, cmNumVertices, h.verts, CSame]⟩
  | numEdges => exact ⟨h, by simp only [cmStep, matHappens, matWant, h.numEdges, CSame]⟩
  | getEdge a b =>
    have hpl : plain := hq.resolve_right (fun hn => hn a b rfl)
    have ha : NoBar a := hp hpl
    have hw := h.weights hpl a b ha
    simp only [cmStep, matHappens, cmGetEdge, hw]
    cases hx : s.d.cost a b with
    | none => simp only [Option.map_none]; exact ⟨h, rfl⟩
    | some x =>
      simp only [Option.map_some]
      by_cases hh : (a, b) ∈ s.handed
      · simp only [hh, decide_true, if_true]; exact ⟨h, rfl⟩
      · simp only [hh, decide_false, if_false]
        refine ⟨⟨h.verts, h.vnodup, h.mkeys, h.rows, h.norow, h.ends, h.enodup, h.costly, ?_⟩, rfl⟩
        intro _ u v hu
        simp only [upd]
        by_cases huv : u = a ∧ v = b
        · obtain ⟨rfl, rfl⟩ := huv; simp [hx]
        · have hk : edgeKey u v ≠ edgeKey a b := fun e => huv (edgeKey_inj hu ha e)
          rw [if_neg hk, h.weights hpl u v hu]
          simp [huv]

theorem cmHistory {plain : Prop} : ∀ (ops : List CMatOp) (g : CMat) (s : MatState), CmRep plain g s → (∀ c ∈ ops, ∀ l, (c.2 l).Perm l) →
    (∀ c ∈ ops, (plain → c.1.plain) ∧ (plain ∨ ∀ a b, c.1 ≠ .getEdge a b)) →
    CSames (trace cmStep g ops) (trace matHappens s ops) ∧ CmRep plain (final cmStep g ops) (final matHappens s ops) := by
  intro ops
  induction ops with
  | nil => intro g s h _ _; exact ⟨trivial, h⟩
  | cons c ops ih =>
    intro g s h ho hp
    obtain ⟨h1, h2⟩ := cmStep_spec h c (ho c (by simp)) (hp c (by simp)).1 (hp c (by simp)).2
    obtain ⟨h3, h4⟩ := ih _ _ h1 (fun c hc => ho c (by simp [hc])) (fun c hc => hp c (by simp [hc]))
    exact ⟨⟨h2, h3⟩, h4⟩

theorem cmNew_keys : ∀ (names : List String) (m : PyDict String (PyDict String Bool)), names.Nodup → (∀ v ∈ names, m.val v = none) →
    (names.foldl (fun m n => m.set n PyDict.empty) m).keys = m.keys ++ names ∧
    ∀ v, (names.foldl (fun m n => m.set n PyDict.empty) m).val v = if v ∈ names then some PyDict.empty else m.val v := by
  intro names
  induction names with
  | nil => intro m _ _; simp
  | cons n names ih =>
    intro m hn hm
    obtain ⟨hnn, hn⟩ := List.nodup_cons.1 hn
    obtain ⟨h1, h2⟩ := ih (m.set n PyDict.empty) hn (by
      intro v hv
      simp only [PyDict.set]
      rw [if_neg (by rintro rfl; exact hnn hv)]
      exact hm v (by simp [hv]))
    simp only [List.foldl_cons]
    refine ⟨?_, ?_⟩
    · rw [h1]; simp [PyDict.set, hm n (by simp)]
    · intro v
      rw [h2]
      simp only [PyDict.set, List.mem_cons]
      by_cases hv : v ∈ names
      · simp [hv]
      · by_cases hvn : v = n
        · subst hvn; simp [hv]
        · simp [hv, hvn]

def fixedVerts (names : List String) : Digraph := ⟨names, [], fun _ _ => none⟩

theorem CmRep.new (plain : Prop) {names : List String} (hn : names.Nodup) : CmRep plain (cmNew names) ⟨fixedVerts names, []⟩ := by
  obtain ⟨h1, h2⟩ := cmNew_keys names PyDict.empty hn (by simp [PyDict.empty])
  refine ⟨rfl, hn, ?_, ?_, ?_, by simp [fixedVerts], by simp [fixedVerts], by simp [fixedVerts], ?_⟩
  · rw [cmNew, h1]; simp [PyDict.empty, fixedVerts]
  · intro v hv
    have hv : v ∈ names := hv
    refine ⟨PyDict.empty, by rw [cmNew, h2, if_pos hv], by simp [PyDict.empty], by simp [PyDict.empty], by simp [PyDict.empty, fixedVerts]⟩
  · intro v hv
    have hv : v ∉ names := hv
    rw [cmNew, h2, if_neg hv]; rfl
  · intro _ a b _; rfl

/-! ## The theorems -/

/-- C103, exactly what happens in every history of calls whose names have no underscore: each answer is that of the digraph, but an edge object can be got
once only, and a cost that is refused leaves the edge behind. -/
theorem C103_exact (names : List String) (hn : names.Nodup) (ops : List CMatOp) (ho : ∀ c ∈ ops, ∀ l, (c.2 l).Perm l) (hp : ∀ c ∈ ops, c.1.plain) :
    CSames (trace cmStep (cmNew names) ops) (trace matHappens ⟨fixedVerts names, []⟩ ops) :=
  (cmHistory (plain := True) ops _ _ (CmRep.new True hn) ho fun c hc => ⟨fun _ => hp c hc, Or.inl trivial⟩).1

theorem happens_want : ∀ (ops : List CMatOp) (d : Digraph), (∀ c ∈ ops, (∀ a b, c.1 ≠ .getEdge a b) ∧ ∀ a b, c.1 ≠ .addEdge a b .other) →
    trace matHappens ⟨d, []⟩ ops = trace matWant d ops ∧ final matHappens ⟨d, []⟩ ops = ⟨final matWant d ops, []⟩ := by
  intro ops
  induction ops with
  | nil => intro d _; exact ⟨rfl, rfl⟩
  | cons c ops ih =>
    intro d hc
    obtain ⟨h1, h2⟩ := hc c (by simp)
    have hstep : matHappens ⟨d, []⟩ c = (⟨(matWant d c).1, []⟩, (matWant d c).2) := by
      obtain ⟨c, order⟩ := c
      cases c with
      | addEdge a b cost =>
        cases cost with
        | other => exact absurd rfl (h2 a b)
        | absent => rfl
        | number x => simp [matHappens, matWant]
      | getEdge a b => exact absurd rfl (h1 a b)
      | removeEdge a b => simp [matHappens, matWant]
      | _ => rfl
    obtain ⟨h3, h4⟩ := ih (matWant d c).1 (fun c hc' => hc c (by simp [hc']))
    refine ⟨?_, ?_⟩
    · simp only [trace, hstep]; rw [h3]
    · simp only [final, List.foldl_cons, hstep] at h4 ⊢; exact h4

/-- C103 without `get_edge`: whatever the names, in every history in which every cost is a number or absent, every answer (`num_edges` included, compare
C57) is that of the digraph. -/
theorem C103_structure_partial (names : List String) (hn : names.Nodup) (ops : List CMatOp) (ho : ∀ c ∈ ops, ∀ l, (c.2 l).Perm l)
    (hc : ∀ c ∈ ops, (∀ a b, c.1 ≠ .getEdge a b) ∧ ∀ a b, c.1 ≠ .addEdge a b .other) :
    CSames (trace cmStep (cmNew names) ops) (trace matWant (fixedVerts names) ops) := by
  rw [← (happens_want ops _ hc).1]
  exact (cmHistory (plain := False) ops _ _ (CmRep.new False hn) ho fun c h => ⟨fun hf => hf.elim, Or.inr (hc c h).1⟩).1

/-- C103, the first `get_edge`: in such a history, without underscores, it returns the edge with the cost given last. -/
theorem C103_get_once_partial (names : List String) (hn : names.Nodup) (ops : List CMatOp) (ho : ∀ c ∈ ops, ∀ l, (c.2 l).Perm l) (hp : ∀ c ∈ ops, c.1.plain)
    (hc : ∀ c ∈ ops, (∀ a b, c.1 ≠ .getEdge a b) ∧ ∀ a b, c.1 ≠ .addEdge a b .other) (a b : String) (ha : NoBar a) (order : List String → List String) :
    (cmStep (final cmStep (cmNew names) ops) (.getEdge a b, order)).2 = (matWant (final matWant (fixedVerts names) ops) (.getEdge a b, order)).2 := by
  have h := (cmHistory (plain := True) ops _ _ (CmRep.new True hn) ho fun c hc => ⟨fun _ => hp c hc, Or.inl trivial⟩).2
  rw [(happens_want ops _ hc).2] at h
  have hw := h.weights trivial a b ha
  simp only [cmStep, cmGetEdge, matWant, hw]
  cases (final matWant (fixedVerts names) ops).cost a b <;> simp

/-- C103 as one would state it. -/
def C103_full : Prop := ∀ (names : List String), names.Nodup → ∀ ops : List CMatOp, (∀ c ∈ ops, ∀ l, (c.2 l).Perm l) → (∀ c ∈ ops, c.1.plain) →
    CSames (trace cmStep (cmNew names) ops) (trace matWant (fixedVerts names) ops)

def cmInOrder (c : CMatCall) : CMatOp := (c, fun l => l)

/-- Asking twice for an edge is undefined behaviour: the object has been freed. -/
theorem C103_full_false : ¬ C103_full := by
  intro h
  have := h ["a", "b"] (by decide) ([.addEdge "a" "b" (.number 3), .getEdge "a" "b", .getEdge "a" "b"].map cmInOrder)
    (by simp [cmInOrder]) (by simp [cmInOrder, CMatCall.plain, NoBar])
  have h2 := this.2.2.1
  exact absurd h2 (by decide)

/-- A call of `add_edge` that raises has added the edge. -/
theorem C103_raise_adds : ¬ C103_full := by
  intro h
  have := h ["a", "b"] (by decide) ([.addEdge "a" "b" .other, .isAdjacent "a" "b"].map cmInOrder)
    (by simp [cmInOrder]) (by simp [cmInOrder, CMatCall.plain, NoBar])
  have h2 := this.2.1
  exact absurd h2 (by decide)

/-- With underscores in the names an edge can have the cost of another. -/
theorem C103_collision : ¬ ∀ (names : List String), names.Nodup → ∀ ops : List CMatOp, (∀ c ∈ ops, ∀ l, (c.2 l).Perm l) →
    CSames (trace cmStep (cmNew names) ops) (trace matHappens ⟨fixedVerts names, []⟩ ops) := by
  intro h
  have := h ["a", "b_c", "a_b", "c"] (by decide) ([.addEdge "a" "b_c" (.number 3), .addEdge "a_b" "c" .absent, .getEdge "a_b" "c"].map cmInOrder)
    (by simp [cmInOrder])
  have h2 := this.2.2.1
  exact absurd h2 (by decide)

/-! ## C102 for matrices -/

/-- C102 for matrices: after any history, whatever the names, with any iteration order. -/
theorem C102_matrix_partial (names : List String) (hn : names.Nodup) (ops : List CMatOp) (ho' : ∀ c ∈ ops, ∀ l, (c.2 l).Perm l)
    (hc : ∀ c ∈ ops, (∀ a b, c.1 ≠ .getEdge a b) ∧ ∀ a b, c.1 ≠ .addEdge a b .other) {order : String → List String → List String}
    (ho : ∀ v l, (order v l).Perm l) (source : String) :
    (source ∉ names → ∀ op fuel, cmBfs op order (final cmStep (cmNew names) ops) source fuel = .error .keyError) ∧
    (source ∈ names → ∃ full, BfsCalls (final matWant (fixedVerts names) ops).nbrs source full ∧
      ∀ op, EndsIn (fun fuel => cmBfs op order (final cmStep (cmNew names) ops) source fuel) (BfsOutcome op full)) := by
  have h := (cmHistory (plain := False) ops _ _ (CmRep.new False hn) ho' fun c h => ⟨fun hf => hf.elim, Or.inr (hc c h).1⟩).2
  have hv : ∀ (ops : List CMatOp) (d : Digraph), (final matWant d ops).verts = d.verts := by
    intro ops
    induction ops with
    | nil => intro d; rfl
    | cons c ops ih =>
      intro d
      refine (ih (matWant d c).1).trans ?_
      obtain ⟨c, o⟩ := c
      cases c <;> simp only [matWant] <;> (repeat' split) <;> rfl
  have hverts := hv ops (fixedVerts names)
  rw [(happens_want ops _ hc).2] at h
  generalize final matWant (fixedVerts names) ops = d at *
  generalize final cmStep (cmNew names) ops = g at *
  have hverts : d.verts = names := hverts
  constructor
  · intro hs op fuel
    simp only [cmBfs, h.norow source (by simpa [hverts] using hs)]
  · intro hs
    have hrow : ∀ v ∈ d.verts, ∀ w, w ∈ ((g.matrix.val v).map (cmTrue (order v))).getD [] ↔ w ∈ d.nbrs v := by
      intro v hv w
      obtain ⟨row, e, hr⟩ := h.rows v hv
      simp only [e, Option.map_some, Option.getD_some, hr.mem_true (ho v), mem_nbrs]
    obtain ⟨full, h1, h2⟩ := bfsC_spec (verts := d.verts) (nbr := fun v => ((g.matrix.val v).map (cmTrue (order v))).getD [])
      (neighbors := fun v => .ok (((g.matrix.val v).map (cmTrue (order v))).getD [])) (source := source)
      ⟨h.vnodup, fun v hv w hw => (h.ends (v, w) (mem_nbrs.1 ((hrow v hv w).1 hw))).2, fun v hv => by
        obtain ⟨row, e, hr⟩ := h.rows v hv
        simp only [e, Option.map_some, Option.getD_some]
        exact hr.nodup_true (ho v)⟩
      (fun v _ => rfl) (by rw [hverts]; exact hs)
    refine ⟨full, h1.congr fun v w => ?_, fun op => ?_⟩
    · by_cases hv : v ∈ d.verts
      · exact hrow v hv w
      · simp only [h.norow v hv, Option.map_none, Option.getD_none, mem_nbrs]
        constructor
        · intro hw; cases hw
        · intro hw; exact absurd (h.ends _ hw).1 hv
    · obtain ⟨row, e, _⟩ := h.rows source (by rw [hverts]; exact hs)
      simpa only [cmBfs, e] using h2 op

/-! ## Non-vacuity -/

def exCMatOps : List CMatOp := [.addEdge "a" "b" (.number 3), .addEdge "b" "c" .absent, .addEdge "c" "a" (.number 5), .removeEdge "a" "b", .numEdges, .neighbors "b",
  .addEdge "a" "b" (.number 4), .isAdjacent "x" "a"].map fun c => (c, List.reverse)

example : (∀ c ∈ exCMatOps, ∀ l, (c.2 l).Perm l) ∧ (∀ c ∈ exCMatOps, c.1.plain) ∧
    (∀ c ∈ exCMatOps, (∀ a b, c.1 ≠ .getEdge a b) ∧ ∀ a b, c.1 ≠ .addEdge a b .other) := by
  refine ⟨?_, ?_, ?_⟩
  · simp [exCMatOps, List.reverse_perm]
  · simp [exCMatOps, CMatCall.plain, NoBar]
  · simp [exCMatOps]

example : trace cmStep (cmNew ["a", "b", "c"]) (exCMatOps ++ [(.getEdge "a" "b", id)]) =
    [.done, .done, .done, .done, .count 2, .names ["c"], .done, .flag false, .edge (some ⟨"a", "b", some 4⟩)] := by decide +kernel

example : (cmBfs (fun _ => .ok true) (fun _ l => l) (final cmStep (cmNew ["a", "b", "c"]) exCMatOps) "a" 9).map (fun r => r.calls) =
    .ok [("a", "b"), ("b", "c")] := by decide +kernel

end Props
