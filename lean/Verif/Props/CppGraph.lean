import Verif.Props.Graph
import Verif.Model.CppGraph

/-! # C100: the adjacency-list graph of the C++ back end is a labelled digraph -/
namespace Props
open Py Model Spec Model.Cpp

/-- What the caller sees. -/
inductive CGraphOut
  | done
  | flag (b : Bool)
  | names (l : List String)
  | count (n : Nat)
  | edge (e : Option CEdge)
  | raised (e : PyErr)
  deriving DecidableEq

/-! ## Specification -/

/-- A call together with the (unspecified) order in which a hash map is iterated during the call. -/
abbrev CGraphOp := GraphOp × (List String → List String)

/-- `None`, or an int of 64 bits. -/
def CostFits (x : Option Int) : Prop := ∀ y, x = some y → -9223372036854775808 ≤ y ∧ y ≤ 9223372036854775807

instance (x : Option Int) : Decidable (CostFits x) :=
  match x with
  | none => .isTrue (fun y h => by cases h)
  | some y => decidable_of_iff (-9223372036854775808 ≤ y ∧ y ≤ 9223372036854775807)
    ⟨fun h z e => by cases e; exact h, fun h => h y rfl⟩

theorem fits64_iff (x : Option Int) : fits64 x = true ↔ CostFits x := by
  cases x with
  | none => exact ⟨fun _ y h => (nomatch h), fun _ => rfl⟩
  | some y =>
    simp only [fits64, decide_eq_true_eq]
    constructor
    · intro h z e; cases e; omega
    · intro h; have := h y rfl; omega

/-- What each call means on an abstract digraph whose edges all carry a value, `none` for `None`: the value is that of the last `add_edge` for the pair. -/
def cppGraphSpec (d : Digraph) (c : CGraphOp) : Digraph × CGraphOut :=
  match c.1 with
  | .addVertex v => if v ∈ d.verts then (d, .raised .valueError) else ({ d with verts := d.verts ++ [v] }, .done)
  | .removeVertex v =>
    if v ∈ d.verts then
      ({ verts := d.verts.filter fun w => w ≠ v
         edges := d.edges.filter fun e => e.1 ≠ v ∧ e.2 ≠ v
         cost := fun a b => if a = v ∨ b = v then none else d.cost a b }, .done)
    else (d, .raised .keyError)
  | .addEdge s t x =>
    if s ∈ d.verts ∧ t ∈ d.verts then
      if CostFits x then
        ({ d with
           edges := if (s, t) ∈ d.edges then d.edges else d.edges ++ [(s, t)]
           cost := fun a b => if a = s ∧ b = t then x else d.cost a b }, .done)
      else (d, .raised .systemError)
    else (d, .raised .valueError)
  | .removeEdge s t =>
    if s ∈ d.verts ∧ t ∈ d.verts then
      ({ d with
         edges := d.edges.filter fun e => e ≠ (s, t)
         cost := fun a b => if a = s ∧ b = t then none else d.cost a b }, .done)
    else (d, .raised .keyError)
  | .isAdjacent s t => if s ∈ d.verts then (d, .flag (decide ((s, t) ∈ d.edges))) else (d, .raised .keyError)
  | .neighbors v => if v ∈ d.verts then (d, .names (c.2 (d.nbrs v))) else (d, .raised .keyError)
  | .numVertices => (d, .count d.verts.length)
  | .numEdges => (d, .count d.edges.length)
  | .getEdge s t => (d, .edge (if (s, t) ∈ d.edges then some ⟨s, t, d.cost s t⟩ else none))

/-! ## The calls on the model -/

def cUpd {σ : Type} (s : σ) : PyM σ → σ × CGraphOut
  | .ok s' => (s', .done)
  | .error e => (s, .raised e)

def cAns {σ β : Type} (s : σ) (f : β → CGraphOut) : PyM β → σ × CGraphOut
  | .ok b => (s, f b)
  | .error e => (s, .raised e)

def cgStep (g : CGraph) (c : CGraphOp) : CGraph × CGraphOut :=
  match c.1 with
  | .addVertex v => cUpd g (cgAddVertex g v)
  | .removeVertex v => cUpd g (cgRemoveVertex g v)
  | .addEdge s t x => cUpd g (cgAddEdge g s t x)
  | .removeEdge s t => cUpd g (cgRemoveEdge g s t)
  | .isAdjacent s t => cAns g .flag (cgIsAdjacent g s t)
  | .neighbors v => cAns g .names (cgNeighbors c.2 g v)
  | .numVertices => (g, .count (cgNumVertices g))
  | .numEdges => (g, .count (cgNumEdges g))
  | .getEdge s t => (g, .edge (cgGetEdge g s t))

/-! ## The proof -/

def NoBar (v : String) : Prop := '_' ∉ v.toList

theorem splitKey_edgeKey {s t : String} (h : NoBar s) : splitKey (edgeKey s t) = (s, t) := by
  have e : (edgeKey s t).toList = s.toList ++ '_' :: t.toList := by simp [edgeKey]
  have key : ∀ (l r : List Char), '_' ∉ l → (l ++ '_' :: r).takeWhile (· ≠ '_') = l ∧ (l ++ '_' :: r).dropWhile (· ≠ '_') = '_' :: r := by
    intro l r
    induction l with
    | nil => intro _; simp
    | cons a l ih =>
      intro hl
      have ha : a ≠ '_' := by rintro rfl; simp at hl
      have := ih (by intro hm; exact hl (by simp [hm]))
      simp [ha] at this ⊢
      exact this
  unfold splitKey
  rw [e, (key _ _ h).1, (key _ _ h).2]
  simp [String.ofList_toList]

theorem edgeKey_inj {s t s' t' : String} (h : NoBar s) (h' : NoBar s') (e : edgeKey s t = edgeKey s' t') : s = s' ∧ t = t' := by
  have := splitKey_edgeKey (t := t) h
  rw [e, splitKey_edgeKey h'] at this
  cases this
  exact ⟨rfl, rfl⟩

/-- The concrete graph represents the digraph. -/
structure CgRep (g : CGraph) (d : Digraph) : Prop where
  vnodup : d.verts.Nodup
  inodup : g.nodes.Nodup
  names : g.nodes.map g.idToName = d.verts.map some
  fresh : ∀ id ∈ g.nodes, id < g.nextId
  nodeMap : ∀ v, g.nodeMap v = g.nameToId v
  toId : ∀ v id, g.nameToId v = some id ↔ id ∈ g.nodes ∧ g.idToName id = some v
  live : ∀ v id, g.idToName id = some v → id ∈ g.nodes
  adj : ∀ v id, g.nameToId v = some id → g.idMap id = some (d.nbrs v)
  ends : ∀ e ∈ d.edges, e.1 ∈ d.verts ∧ e.2 ∈ d.verts
  enodup : d.edges.Nodup
  keys : g.edges.keys = d.edges.map fun e => edgeKey e.1 e.2
  val : ∀ e ∈ d.edges, g.edges.val (edgeKey e.1 e.2) = some ⟨e.1, e.2, d.cost e.1 e.2⟩
  noval : ∀ k, k ∉ g.edges.keys → g.edges.val k = none
  plain : ∀ v ∈ d.verts, NoBar v

theorem CgRep.mem {g : CGraph} {d : Digraph} (h : CgRep g d) (v : String) : v ∈ d.verts ↔ ∃ id, g.nameToId v = some id := by
  have : v ∈ d.verts ↔ some v ∈ g.nodes.map g.idToName := by rw [h.names]; simp
  rw [this, List.mem_map]
  constructor
  · rintro ⟨id, h1, h2⟩; exact ⟨id, (h.toId v id).2 ⟨h1, h2⟩⟩
  · rintro ⟨id, h1⟩; exact ⟨id, (h.toId v id).1 h1⟩

theorem CgRep.absent {g : CGraph} {d : Digraph} (h : CgRep g d) {v : String} (hv : v ∉ d.verts) : g.nameToId v = none := by
  cases e : g.nameToId v with
  | none => rfl
  | some id => exact absurd ((h.mem v).2 ⟨id, e⟩) hv

theorem CgRep.len {g : CGraph} {d : Digraph} (h : CgRep g d) : g.nodes.length = d.verts.length := by
  have := congrArg List.length h.names
  simpa using this

theorem CgRep.node {g : CGraph} {d : Digraph} (h : CgRep g d) (v : String) :
    (v ∉ d.verts ∧ cgNode g v = .error .keyError) ∨
    (v ∈ d.verts ∧ ∃ id, id ∈ g.nodes ∧ g.idToName id = some v ∧ g.nameToId v = some id ∧ cgNode g v = .ok (id, d.nbrs v)) := by
  by_cases hv : v ∈ d.verts
  · right
    obtain ⟨id, e⟩ := (h.mem v).1 hv
    refine ⟨hv, id, ((h.toId v id).1 e).1, ((h.toId v id).1 e).2, e, ?_⟩
    simp only [cgNode, e, h.adj v id e]
  · left
    exact ⟨hv, by simp only [cgNode, h.absent hv]⟩

/-- Distinct nodes have distinct names. -/
theorem CgRep.id_inj {g : CGraph} {d : Digraph} (h : CgRep g d) {v : String} {i j : Nat} (hi : i ∈ g.nodes) (hj : j ∈ g.nodes)
    (ei : g.idToName i = some v) (ej : g.idToName j = some v) : i = j := by
  have a := (h.toId v i).2 ⟨hi, ei⟩
  have b := (h.toId v j).2 ⟨hj, ej⟩
  rw [a] at b
  exact Option.some.inj b

theorem CgRep.empty : CgRep cgNew Digraph.empty := by
  refine ⟨by simp [Digraph.empty], by simp [cgNew], by simp [cgNew, Digraph.empty], by simp [cgNew], fun _ => rfl, ?_, by simp [cgNew], ?_, by simp [Digraph.empty],
    by simp [Digraph.empty], by simp [cgNew, Digraph.empty, PyDict.empty], by simp [Digraph.empty], by simp [cgNew, PyDict.empty], by simp [Digraph.empty]⟩
  · intro v id; simp [cgNew]
  · intro v id; simp [cgNew]

theorem CgRep.addVertex {g : CGraph} {d : Digraph} (h : CgRep g d) {v : String} (hv : v ∉ d.verts) (hp : NoBar v) :
    ∃ g', cgAddVertex g v = .ok g' ∧ CgRep g' { d with verts := d.verts ++ [v] } := by
  have hn := h.absent hv
  refine ⟨_, by simp only [cgAddVertex, h.nodeMap, hn]; rfl, ?_⟩
  have hno : d.nbrs v = [] := by
    rw [List.eq_nil_iff_forall_not_mem]
    intro w hw
    exact hv (h.ends _ (mem_nbrs.1 hw)).1
  have hlt : ∀ id ∈ g.nodes, id ≠ g.nextId := fun id hid => by have := h.fresh id hid; omega
  refine ⟨?_, ?_, ?_, ?_, ?_, ?_, ?_, ?_, ?_, h.enodup, h.keys, h.val, h.noval, ?_⟩
  · dsimp only
    rw [List.nodup_append]
    exact ⟨h.vnodup, by simp, by rintro a ha b hb rfl; simp at hb; exact hv (hb ▸ ha)⟩
  · dsimp only
    rw [List.nodup_append]
    exact ⟨h.inodup, by simp, by intro a ha b hb e; simp at hb; exact hlt a ha (e.trans hb)⟩
  · dsimp only
    rw [List.map_append, List.map_append, ← h.names]
    congr 1
    · apply List.map_congr_left
      intro id hid
      simp [upd, hlt id hid]
    · simp [upd]
  · dsimp only
    intro id hid
    rcases List.mem_append.1 hid with hid | hid
    · have := h.fresh id hid; omega
    · simp at hid; omega
  · intro w; simp only [upd, h.nodeMap]
  · intro w id
    simp only [upd, List.mem_append, List.mem_singleton]
    by_cases hw : w = v
    · subst hw
      simp only [if_true, Option.some.injEq]
      constructor
      · rintro rfl; simp
      · rintro ⟨h1, h2⟩
        by_cases hi : id = g.nextId
        · exact hi.symm
        · rw [if_neg hi] at h2
          have := (h.toId w id).2 ⟨by rcases h1 with h1 | h1; exact h1; exact absurd h1 hi, h2⟩
          rw [hn] at this; cases this
    · simp only [hw, if_false]
      rw [h.toId]
      constructor
      · rintro ⟨h1, h2⟩; exact ⟨Or.inl h1, by rw [if_neg (hlt id h1)]; exact h2⟩
      · rintro ⟨h1, h2⟩
        by_cases hi : id = g.nextId
        · rw [if_pos hi] at h2; exact absurd (Option.some.inj h2).symm hw
        · rw [if_neg hi] at h2; exact ⟨by rcases h1 with h1 | h1; exact h1; exact absurd h1 hi, h2⟩
  · intro w id
    simp only [upd, List.mem_append, List.mem_singleton]
    by_cases hi : id = g.nextId
    · intro _; exact Or.inr hi
    · simp only [hi, if_false]; intro e; exact Or.inl (h.live w id e)
  · intro w id
    simp only [upd]
    by_cases hw : w = v
    · subst hw
      simp only [if_true, Option.some.injEq]
      rintro rfl
      simp only [if_true]
      exact congrArg some hno.symm
    · simp only [hw, if_false]
      intro hid
      rw [if_neg (hlt id ((h.toId w id).1 hid).1), h.adj w id hid]; rfl
  · intro e he
    have := h.ends e he
    simp [this.1, this.2]
  · intro w hw
    rcases List.mem_append.1 hw with hw | hw
    · exact h.plain w hw
    · simp at hw; exact hw ▸ hp

theorem CgRep.removeVertex {g : CGraph} {d : Digraph} (h : CgRep g d) {v : String} {id : Nat} (hid : id ∈ g.nodes) (hname : g.idToName id = some v)
    (hnode : cgNode g v = .ok (id, d.nbrs v)) :
    ∃ g', cgRemoveVertex g v = .ok g' ∧ CgRep g' (cppGraphSpec d (.removeVertex v, fun l => l)).1 ∧ g'.nextId = g.nextId := by
  have hv : v ∈ d.verts := (h.mem v).2 ⟨id, (h.toId v id).2 ⟨hid, hname⟩⟩
  refine ⟨_, by simp only [cgRemoveVertex, hnode, ok_bind, hname, Option.getD_some]; rfl, ?_, by first | rfl | trivial⟩
  simp only [cppGraphSpec, hv, if_true]
  have hne : ∀ i ∈ g.nodes, i ≠ id → g.idToName i ≠ some v := fun i hi hne e => hne (h.id_inj hi hid e hname)
  have hkey : ∀ e ∈ d.edges, ((splitKey (edgeKey e.1 e.2)).1 ≠ v && (splitKey (edgeKey e.1 e.2)).2 ≠ v) = decide (e.1 ≠ v ∧ e.2 ≠ v) := by
    intro e he
    rw [splitKey_edgeKey (h.plain _ (h.ends e he).1)]
    simp
  have hkeys : (g.edges.keys.filter fun k => (splitKey k).1 ≠ v && (splitKey k).2 ≠ v) =
      (d.edges.filter fun e => decide (e.1 ≠ v ∧ e.2 ≠ v)).map fun e => edgeKey e.1 e.2 := by
    rw [h.keys, List.filter_map]
    congr 1
    exact List.filter_congr hkey
  refine ⟨List.Pairwise.filter _ h.vnodup, List.Pairwise.filter _ h.inodup, ?_, ?_, ?_, ?_, ?_, ?_, ?_, List.Pairwise.filter _ h.enodup, hkeys, ?_, ?_, ?_⟩
  · dsimp only
    have : ∀ (ns : List Nat) (vs : List String), (∀ i ∈ ns, i ∈ g.nodes) → ns.map g.idToName = vs.map some →
        (ns.filter fun i => decide (i ≠ id)).map (upd g.idToName id none) = (vs.filter fun w => decide (w ≠ v)).map some := by
      intro ns
      induction ns with
      | nil => intro vs _ e; cases vs with
        | nil => rfl
        | cons _ _ => simp at e
      | cons i ns ih =>
        intro vs hin e
        cases vs with
        | nil => simp at e
        | cons w vs =>
          simp only [List.map_cons, List.cons.injEq] at e
          have := ih vs (fun j hj => hin j (by simp [hj])) e.2
          by_cases hi : i = id
          · subst hi
            have hw : w = v := Option.some.inj (e.1.symm.trans hname)
            subst hw
            simpa using this
          · have hw : w ≠ v := by rintro rfl; exact hne i (hin i (by simp)) hi e.1
            simp only [List.filter_cons, hi, hw, ne_eq, not_false_eq_true, decide_true, if_true, List.map_cons, this]
            congr 1
            simp [upd, hi, e.1]
    exact this g.nodes d.verts (fun i hi => hi) h.names
  · intro i hi; exact h.fresh i (List.mem_filter.1 hi).1
  · intro w; simp only [upd, h.nodeMap]
  · intro w i
    simp only [upd, List.mem_filter, decide_eq_true_eq]
    by_cases hw : w = v
    · subst hw
      simp only [if_true]
      constructor
      · rintro ⟨⟩
      · rintro ⟨⟨h1, h2⟩, h3⟩
        rw [if_neg h2] at h3
        exact absurd h3 (hne i h1 h2)
    · simp only [hw, if_false]
      rw [h.toId]
      constructor
      · rintro ⟨h1, h2⟩
        have : i ≠ id := by rintro rfl; rw [hname] at h2; exact hw (Option.some.inj h2).symm
        exact ⟨⟨h1, this⟩, by rw [if_neg this]; exact h2⟩
      · rintro ⟨⟨h1, h2⟩, h3⟩
        rw [if_neg h2] at h3
        exact ⟨h1, h3⟩
  · intro w i
    simp only [upd, List.mem_filter, decide_eq_true_eq]
    by_cases hi : i = id
    · simp [hi]
    · simp only [hi, if_false]; intro e; exact ⟨h.live w i e, hi⟩
  · intro w i
    simp only [upd]
    by_cases hw : w = v
    · subst hw; simp
    · simp only [hw, if_false]
      intro hi
      have : i ≠ id := by
        rintro rfl
        have := ((h.toId w i).1 hi).2
        rw [hname] at this; exact hw (Option.some.inj this).symm
      rw [if_neg this, h.adj w i hi]
      simp only [Digraph.nbrs, Option.map_some, Option.some.injEq]
      rw [nbrs_filter, ← Digraph.nbrs, (nbrs_nodup h.enodup w).erase_eq_filter]
      apply List.filter_congr
      intro a _
      by_cases ha : a = v <;> simp [ha, hw]
  · intro e he
    simp only [List.mem_filter, decide_eq_true_eq] at he ⊢
    have := h.ends e he.1
    exact ⟨⟨this.1, he.2.1⟩, ⟨this.2, he.2.2⟩⟩
  · intro e he
    have he' := List.mem_filter.1 he
    have h2 := he'.2
    rw [← hkey e he'.1] at h2
    simp only [h2, if_true, h.val e he'.1]
    have : ¬ (e.1 = v ∨ e.2 = v) := by
      have := he'.2
      simp only [decide_eq_true_eq] at this
      rintro (x | x)
      · exact this.1 x
      · exact this.2 x
    rw [if_neg this]
  · intro k hk
    dsimp only at hk ⊢
    split
    · rename_i hs
      refine h.noval k fun hm => hk ?_
      exact List.mem_filter.2 ⟨hm, hs⟩
    · rfl
  · intro w hw; exact h.plain w (List.mem_filter.1 hw).1

theorem CgRep.key_mem {g : CGraph} {d : Digraph} (h : CgRep g d) {s t : String} (hs : NoBar s) :
    edgeKey s t ∈ g.edges.keys ↔ (s, t) ∈ d.edges := by
  rw [h.keys, List.mem_map]
  constructor
  · rintro ⟨e, he, ek⟩
    obtain ⟨h1, h2⟩ := edgeKey_inj (h.plain _ (h.ends e he).1) hs ek
    rw [← h1, ← h2]; exact he
  · intro he; exact ⟨(s, t), he, rfl⟩

theorem CgRep.getEdge {g : CGraph} {d : Digraph} (h : CgRep g d) {s t : String} (hs : NoBar s) :
    g.edges.val (edgeKey s t) = if (s, t) ∈ d.edges then some ⟨s, t, d.cost s t⟩ else none := by
  split
  · rename_i he; exact h.val (s, t) he
  · rename_i he
    exact h.noval _ (fun hm => he ((h.key_mem hs).1 hm))

theorem CgRep.addEdge {g : CGraph} {d : Digraph} (h : CgRep g d) {s t : String} (hs : s ∈ d.verts) (ht : t ∈ d.verts) {x : Option Int}
    (hx : fits64 x = true) :
    ∃ g', cgAddEdge g s t x = .ok g' ∧ CgRep g' { d with
           edges := if (s, t) ∈ d.edges then d.edges else d.edges ++ [(s, t)]
           cost := fun a b => if a = s ∧ b = t then x else d.cost a b } ∧ g'.nodes = g.nodes ∧ g'.nextId = g.nextId := by
  obtain ⟨ids, es⟩ := (h.mem s).1 hs
  obtain ⟨idt, et⟩ := (h.mem t).1 ht
  have hps := h.plain s hs
  refine ⟨_, by simp only [cgAddEdge, h.nodeMap, es, et, hx, if_true]; rfl, ?_, by first | rfl | trivial, by first | rfl | trivial⟩
  have hval : (g.edges.val (edgeKey s t)).isSome = decide ((s, t) ∈ d.edges) := by
    rw [h.getEdge hps]; split <;> simp_all
  have hmem : ∀ e : String × String, e ∈ (if (s, t) ∈ d.edges then d.edges else d.edges ++ [(s, t)]) ↔ e ∈ d.edges ∨ e = (s, t) := by
    intro e
    split
    · rename_i hm; constructor
      · exact Or.inl
      · rintro (a | rfl); exact a; exact hm
    · simp
  refine ⟨h.vnodup, h.inodup, h.names, h.fresh, h.nodeMap, h.toId, h.live, ?_, ?_, ?_, ?_, ?_, ?_, h.plain⟩
  · intro w i hi
    simp only [upd]
    by_cases hii : i = ids
    · subst hii
      have hw : w = s := by
        have a := ((h.toId w i).1 hi).2
        have b := ((h.toId s i).1 es).2
        rw [a] at b; exact Option.some.inj b
      subst hw
      simp only [if_true, h.adj w i hi, Option.map_some, Option.some.injEq, mem_nbrs]
      by_cases hm : (w, t) ∈ d.edges
      · simp only [hm, if_true]; rfl
      · simp [hm, Digraph.nbrs, List.filter_append]
    · have hw : w ≠ s := by rintro rfl; rw [es] at hi; exact hii (Option.some.inj hi).symm
      simp only [hii, if_false, h.adj w i hi, Digraph.nbrs, Option.some.injEq]
      split
      · rfl
      · simp [List.filter_append, Ne.symm hw]
  · intro e he
    rcases (hmem e).1 he with he | rfl
    · exact h.ends e he
    · exact ⟨hs, ht⟩
  · dsimp only
    split
    · exact h.enodup
    · rename_i hm
      rw [List.nodup_append]
      exact ⟨h.enodup, by simp, by rintro a ha b hb rfl; simp at hb; exact hm (hb ▸ ha)⟩
  · simp only [PyDict.set, hval, decide_eq_true_eq]
    split
    · exact h.keys
    · rw [h.keys, List.map_append]; rfl
  · intro e he
    have hpe : NoBar e.1 := by
      rcases (hmem e).1 he with he | rfl
      · exact h.plain _ (h.ends e he).1
      · exact hps
    simp only [PyDict.set]
    by_cases hk : edgeKey e.1 e.2 = edgeKey s t
    · obtain ⟨h1, h2⟩ := edgeKey_inj hpe hps hk
      rw [if_pos hk, if_pos ⟨h1, h2⟩, h1, h2]
    · rw [if_neg hk]
      have hne : ¬ (e.1 = s ∧ e.2 = t) := by rintro ⟨h1, h2⟩; exact hk (by rw [h1, h2])
      rw [if_neg hne]
      rcases (hmem e).1 he with he | rfl
      · exact h.val e he
      · exact absurd ⟨rfl, rfl⟩ hne
  · intro k hk
    simp only [PyDict.set, hval, decide_eq_true_eq] at hk ⊢
    have : k ≠ edgeKey s t := by
      rintro rfl
      apply hk
      split
      · rename_i hm; exact (h.key_mem hps).2 hm
      · simp
    rw [if_neg this]
    refine h.noval k fun hm => hk ?_
    split
    · exact hm
    · simp [hm]

theorem map_erase_key {s t : String} (hs : NoBar s) : ∀ (l : List (String × String)), (∀ e ∈ l, NoBar e.1) → l.Nodup →
    (l.map fun e => edgeKey e.1 e.2).erase (edgeKey s t) = (l.filter fun e => decide (e ≠ (s, t))).map fun e => edgeKey e.1 e.2 := by
  intro l
  induction l with
  | nil => intros; rfl
  | cons e l ih =>
    intro hp hn
    obtain ⟨h1, h2⟩ := List.nodup_cons.1 hn
    by_cases he : e = (s, t)
    · subst he
      simp only [List.map_cons, List.erase_cons_head, ne_eq, not_true_eq_false, decide_false, List.filter_cons, Bool.false_eq_true, if_false]
      rw [List.filter_eq_self.2]
      intro a ha
      simp only [decide_eq_true_eq]
      rintro rfl; exact h1 ha
    · have hk : edgeKey e.1 e.2 ≠ edgeKey s t := fun hk => he (Prod.ext (edgeKey_inj (hp e (by simp)) hs hk).1 (edgeKey_inj (hp e (by simp)) hs hk).2)
      simp only [List.map_cons, List.filter_cons, he, ne_eq, not_false_eq_true, decide_true, if_true]
      rw [List.erase_cons_tail (by simpa using hk), ih (fun a ha => hp a (by simp [ha])) h2]

theorem CgRep.removeEdge {g : CGraph} {d : Digraph} (h : CgRep g d) {s t : String} (hs : s ∈ d.verts) (ht : t ∈ d.verts) :
    ∃ g', cgRemoveEdge g s t = .ok g' ∧ CgRep g' { d with
         edges := d.edges.filter fun e => e ≠ (s, t)
         cost := fun a b => if a = s ∧ b = t then none else d.cost a b } ∧ g'.nodes = g.nodes ∧ g'.nextId = g.nextId := by
  obtain ⟨ids, es⟩ := (h.mem s).1 hs
  obtain ⟨idt, et⟩ := (h.mem t).1 ht
  have hps := h.plain s hs
  refine ⟨_, by simp only [cgRemoveEdge, h.nodeMap, es, et]; rfl, ?_, by first | rfl | trivial, by first | rfl | trivial⟩
  have hkeys := map_erase_key (t := t) hps d.edges (fun e he => h.plain _ (h.ends e he).1) h.enodup
  refine ⟨h.vnodup, h.inodup, h.names, h.fresh, h.nodeMap, h.toId, h.live, ?_, ?_, List.Pairwise.filter _ h.enodup, ?_, ?_, ?_, h.plain⟩
  · intro w i hi
    simp only [upd]
    by_cases hii : i = ids
    · subst hii
      have hw : w = s := by
        have a := ((h.toId w i).1 hi).2
        have b := ((h.toId s i).1 es).2
        rw [a] at b; exact Option.some.inj b
      subst hw
      simp only [if_true, h.adj w i hi, Option.map_some, Option.some.injEq]
      simp only [Digraph.nbrs]
      rw [nbrs_filter, ← Digraph.nbrs, (nbrs_nodup h.enodup w).erase_eq_filter]
      apply List.filter_congr
      intro a _
      by_cases ha : a = t <;> simp [ha]
    · have hw : w ≠ s := by rintro rfl; rw [es] at hi; exact hii (Option.some.inj hi).symm
      simp only [hii, if_false, h.adj w i hi, Option.some.injEq]
      simp only [Digraph.nbrs]
      rw [nbrs_filter, ← Digraph.nbrs, List.filter_eq_self.2]
      intro a _
      simp [hw]
  · intro e he
    exact h.ends e (List.mem_filter.1 he).1
  · simp only [mapErase, h.keys]; exact hkeys
  · intro e he
    obtain ⟨he1, he2⟩ := List.mem_filter.1 he
    simp only [decide_eq_true_eq] at he2
    simp only [mapErase]
    have hk : edgeKey e.1 e.2 ≠ edgeKey s t := fun hk =>
      he2 (Prod.ext (edgeKey_inj (h.plain _ (h.ends e he1).1) hps hk).1 (edgeKey_inj (h.plain _ (h.ends e he1).1) hps hk).2)
    rw [if_neg hk, h.val e he1, if_neg (by rintro ⟨a, b⟩; exact he2 (Prod.ext a b))]
  · intro k hk
    simp only [mapErase] at hk ⊢
    by_cases hks : k = edgeKey s t
    · rw [if_pos hks]
    · rw [if_neg hks]
      exact h.noval k fun hm => hk ((List.mem_erase_of_ne hks).2 hm)

/-- Each call has the right outcome. -/
theorem cgStep_spec {g : CGraph} {d : Digraph} (h : CgRep g d) (c : CGraphOp) (hp : c.1.All NoBar) :
    CgRep (cgStep g c).1 (cppGraphSpec d c).1 ∧ (cgStep g c).2 = (cppGraphSpec d c).2 := by
  obtain ⟨op, ord⟩ := c
  cases op with
  | numVertices => exact ⟨h, by simp [cgStep, cppGraphSpec, cgNumVertices, h.len]⟩
  | numEdges => exact ⟨h, by simp [cgStep, cppGraphSpec, cgNumEdges, h.keys]⟩
  | getEdge s t => exact ⟨h, by simp only [cgStep, cppGraphSpec, cgGetEdge, h.getEdge hp.1]⟩
  | isAdjacent s t =>
    rcases h.node s with ⟨h1, h2⟩ | ⟨h1, id, _, _, _, h2⟩
    · simp only [cgStep, cppGraphSpec, cgIsAdjacent, h2, error_bind, h1, if_false]; exact ⟨h, rfl⟩
    · simp only [cgStep, cppGraphSpec, cgIsAdjacent, h2, ok_bind, h1, if_true, mem_nbrs]; exact ⟨h, rfl⟩
  | neighbors v =>
    rcases h.node v with ⟨h1, h2⟩ | ⟨h1, id, _, _, _, h2⟩
    · simp only [cgStep, cppGraphSpec, cgNeighbors, h2, error_bind, h1, if_false]; exact ⟨h, rfl⟩
    · simp only [cgStep, cppGraphSpec, cgNeighbors, h2, ok_bind, h1, if_true]; exact ⟨h, rfl⟩
  | addVertex v =>
    by_cases hv : v ∈ d.verts
    · obtain ⟨id, e⟩ := (h.mem v).1 hv
      simp only [cgStep, cppGraphSpec, cgAddVertex, h.nodeMap, e, hv, if_true]; exact ⟨h, rfl⟩
    · obtain ⟨g', e, h'⟩ := h.addVertex hv hp
      simp only [cgStep, cppGraphSpec, e, hv, if_false]; exact ⟨h', rfl⟩
  | removeVertex v =>
    rcases h.node v with ⟨h1, h2⟩ | ⟨h1, id, h3, h4, _, h2⟩
    · simp only [cgStep, cppGraphSpec, cgRemoveVertex, h2, error_bind, h1, if_false]; exact ⟨h, rfl⟩
    · obtain ⟨g', e, h', _⟩ := h.removeVertex h3 h4 h2
      simp only [cppGraphSpec, h1, if_true] at h'
      simp only [cgStep, cppGraphSpec, e, h1, if_true]; exact ⟨h', rfl⟩
  | addEdge s t x =>
    by_cases hs : s ∈ d.verts
    · by_cases ht : t ∈ d.verts
      · by_cases hx : CostFits x
        · obtain ⟨g', e, h', _⟩ := h.addEdge hs ht ((fits64_iff x).2 hx)
          simp only [cgStep, cppGraphSpec, e, hs, ht, hx, and_self, if_true]; exact ⟨h', rfl⟩
        · have hx' : fits64 x = false := by rw [Bool.eq_false_iff]; exact fun e => hx ((fits64_iff x).1 e)
          obtain ⟨i, ei⟩ := (h.mem s).1 hs
          obtain ⟨j, ej⟩ := (h.mem t).1 ht
          simp only [cgStep, cppGraphSpec, cgAddEdge, h.nodeMap, ei, ej, hs, ht, hx, hx', and_self, if_true, if_false, Bool.false_eq_true]; exact ⟨h, rfl⟩
      · obtain ⟨i, ei⟩ := (h.mem s).1 hs
        simp only [cgStep, cppGraphSpec, cgAddEdge, h.nodeMap, ei, h.absent ht, ht, and_false, if_false]; exact ⟨h, rfl⟩
    · simp only [cgStep, cppGraphSpec, cgAddEdge, h.nodeMap, h.absent hs, hs, false_and, if_false]; exact ⟨h, rfl⟩
  | removeEdge s t =>
    by_cases hs : s ∈ d.verts
    · by_cases ht : t ∈ d.verts
      · obtain ⟨g', e, h', _⟩ := h.removeEdge hs ht
        simp only [cgStep, cppGraphSpec, e, hs, ht, and_self, if_true]; exact ⟨h', rfl⟩
      · obtain ⟨i, ei⟩ := (h.mem s).1 hs
        simp only [cgStep, cppGraphSpec, cgRemoveEdge, h.nodeMap, ei, h.absent ht, ht, and_false, if_false]; exact ⟨h, rfl⟩
    · simp only [cgStep, cppGraphSpec, cgRemoveEdge, h.nodeMap, h.absent hs, hs, false_and, if_false]; exact ⟨h, rfl⟩

theorem cgHistory {g : CGraph} {d : Digraph} (h : CgRep g d) : ∀ (ops : List CGraphOp), (∀ c ∈ ops, c.1.All NoBar) →
    trace cgStep g ops = trace cppGraphSpec d ops ∧ CgRep (final cgStep g ops) (final cppGraphSpec d ops) := by
  intro ops
  induction ops generalizing g d with
  | nil => intro _; exact ⟨rfl, h⟩
  | cons c ops ih =>
    intro hp
    obtain ⟨h1, h2⟩ := cgStep_spec h c (hp c (by simp))
    obtain ⟨h3, h4⟩ := ih h1 (fun o ho => hp o (by simp [ho]))
    exact ⟨by simp [trace, h2, h3], h4⟩

/-- C100: if no name contains an underscore, every observation in every history (with every iteration order of the hash maps) is that of the
abstract labelled digraph, `get_edge` and `num_edges` after `remove_vertex` included. -/
theorem C100_labels_partial (ops : List CGraphOp) (hp : ∀ c ∈ ops, c.1.All NoBar) :
    trace cgStep cgNew ops = trace cppGraphSpec Digraph.empty ops := (cgHistory CgRep.empty ops hp).1

/-- C100 as one would state it: whatever the names. -/
def C100_full : Prop := ∀ ops : List CGraphOp, trace cgStep cgNew ops = trace cppGraphSpec Digraph.empty ops

def inOrder (op : GraphOp) : CGraphOp := (op, fun l => l)

/-- `a → b_c` and `a_b → c` share their key: there seem to be one edge only. -/
theorem C100_full_false : ¬ C100_full := by
  intro h
  have := h ([.addVertex "a", .addVertex "b_c", .addVertex "a_b", .addVertex "c", .addEdge "a" "b_c" (some 3), .addEdge "a_b" "c" (some 4),
    .numEdges].map inOrder)
  exact absurd this (by decide)

/-- Removing a vertex can remove the edge of two others, and leave that of its own. -/
theorem C100_full_false_remove : ¬ C100_full := by
  intro h
  have := h ([.addVertex "a", .addVertex "a_b", .addVertex "c", .addEdge "a_b" "c" (some 4), .removeVertex "a", .getEdge "a_b" "c"].map inOrder)
  exact absurd this (by decide)

theorem C100_full_false_kept : ¬ C100_full := by
  intro h
  have := h ([.addVertex "a_b", .addVertex "c", .addEdge "a_b" "c" (some 4), .removeVertex "a_b", .numEdges].map inOrder)
  exact absurd this (by decide)

/-- What the Python back end gets wrong (C56) is right here: the cost of an edge goes with its vertex. -/
example : trace cgStep cgNew ([.addVertex "a", .addVertex "b", .addEdge "a" "b" (some 3), .getEdge "a" "b", .removeVertex "b", .getEdge "a" "b", .numEdges].map inOrder) =
    [.done, .done, .done, .edge (some ⟨"a", "b", some 3⟩), .done, .edge none, .count 0] := by decide

/-- An int that does not fit into 64 bits is refused, with `SystemError`; adding a vertex twice raises `ValueError`, where the documentation of
`Graph.add_vertex` promises that nothing happens. -/
example : trace cgStep cgNew ([.addVertex "a", .addVertex "a", .addEdge "a" "a" (some (2 ^ 63)), .numEdges].map inOrder) =
    [.done, .raised .valueError, .raised .systemError, .count 0] := by decide

end Props
