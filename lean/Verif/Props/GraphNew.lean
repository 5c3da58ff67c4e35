import Verif.Model.GraphNew
import Verif.Spec

/-!
# C154: the constructor of graphs
-/
namespace Props
open Py Model Model.Cpp Spec

/-! ## Specification -/

/-- The implementation of the graph. -/
def _root_.Model.GraphObj.kind : GraphObj → GImpl
  | .list _ => .list
  | .matrix _ => .matrix
  | .cppList _ => .list
  | .cppMatrix _ => .matrix

/-- `num_vertices()`. -/
def _root_.Model.GraphObj.numVertices : GraphObj → Nat
  | .list g => alNumVertices g
  | .matrix g => amNumVertices g
  | .cppList g => cgNumVertices g
  | .cppMatrix g => cmNumVertices g

/-- `is_adjacent(a, b)`; `nAttr` says which names are attributes of nodes anyway. -/
def _root_.Model.GraphObj.isAdjacent (nAttr : String → Bool) (a b : String) : GraphObj → PyM Bool
  | .list g => alIsAdjacent nAttr g a b
  | .matrix g => .ok (amIsAdjacent g a b)
  | .cppList g => cgIsAdjacent g a b
  | .cppMatrix g => .ok (cmIsAdjacent g a b)

/-- `neighbors(a)`, the names; `order` is the iteration order of the hash maps. -/
def _root_.Model.GraphObj.neighbors (order : List String → List String) (a : String) : GraphObj → PyM (List String)
  | .list g => alNeighbors g a
  | .matrix g => .ok (amNeighbors g a)
  | .cppList g => cgNeighbors order g a
  | .cppMatrix g => cmNeighbors order g a

/-- The vertices are made by the back end `b` for the implementation `i`. -/
def MadeFor (b : GBackend) (i : GImpl) (vs : List Vtx) : Prop := ∀ v ∈ vs, v.backend = b ∧ v.impl = i

/-- The graph has the given vertices and no edge. -/
structure NoEdgesOn (order : List String → List String) (nAttr : String → Bool) (names : List String) (g : GraphObj) : Prop where
  count : g.numVertices = names.length
  apart : ∀ a ∈ names, ∀ b ∈ names, g.isAdjacent nAttr a b = .ok false
  alone : ∀ a ∈ names, g.neighbors order a = .ok []

/-- The full property: with vertices of different names made for one implementation, `Graph` builds a graph of that implementation with these vertices
and no edge, whether the implementation is named or not; another name of an implementation is refused. -/
def C154_full : Prop := ∀ (order : List String → List String) (nAttr : String → Bool) (b : GBackend) (i : GImpl) (vs : List Vtx), order [] = [] →
  MadeFor b i vs → vs ≠ [] → (vs.map Vtx.name).Nodup → (∀ v ∈ vs, nAttr v.name = false) →
  (∀ s, s ≠ "adjacency_list" → s ≠ "adjacency_matrix" → graphNew b vs (some s) = .error .notImplemented) ∧
  ∀ s, s = none ∨ s = some i.name → ∃ g, graphNew b vs s = .ok g ∧ g.kind = i ∧ NoEdgesOn order nAttr (vs.map Vtx.name) g

/-! ## Proofs -/

/-- **C154**: every other name of an implementation is refused, whatever the vertices are. -/
theorem C154_unknown_implementation (b : GBackend) (vs : List Vtx) (s : String) (h1 : s ≠ "adjacency_list") (h2 : s ≠ "adjacency_matrix") :
    graphNew b vs (some s) = .error .notImplemented := by
  unfold graphNew graphImpl
  exact (if_neg h1).trans (if_neg h2)

theorem alCtor_node {names : List String} {a : String} (h : a ∈ names) : alNode (alCtor names) a = .ok [] := by
  simp only [alNode, alCtor, if_pos h]

theorem alCtor_no_edges (order : List String → List String) {nAttr : String → Bool} {names : List String} (hn : ∀ n ∈ names, nAttr n = false) :
    NoEdgesOn order nAttr names (.list (alCtor names)) := by
  refine ⟨rfl, fun a ha b hb => ?_, fun a ha => ?_⟩
  · simp only [GraphObj.isAdjacent, alIsAdjacent, alCtor_node ha]
    show Except.ok (nodeHas nAttr [] b) = _
    simp [nodeHas, hn b hb]
  · simp only [GraphObj.neighbors, alNeighbors, alCtor_node ha]
    rfl

theorem amNew_no_edges (order : List String → List String) (nAttr : String → Bool) (names : List String) :
    NoEdgesOn order nAttr names (.matrix (amNew names)) := by
  refine ⟨rfl, fun a ha b _ => ?_, fun a ha => ?_⟩
  · simp only [GraphObj.isAdjacent, amIsAdjacent, amNew, if_pos ha]; rfl
  · simp only [GraphObj.neighbors, amNeighbors, amNew, if_pos ha]; rfl

/-- The C++ graph after some vertices were added. -/
structure CgFresh (g : CGraph) (names : List String) : Prop where
  count : g.nodes.length = names.length
  map : ∀ n, (g.nodeMap n).isSome ↔ n ∈ names
  below : ∀ n id, g.nameToId n = some id → id < g.nextId
  node : ∀ n ∈ names, ∃ id, g.nameToId n = some id ∧ g.idMap id = some []

theorem cgNew_fresh : CgFresh cgNew [] :=
  ⟨rfl, fun n => ⟨fun h => (nomatch h), fun h => (nomatch h)⟩, fun n id h => (nomatch h), fun n h => (nomatch h)⟩

theorem cgAdd_fresh {g : CGraph} {names : List String} (h : CgFresh g names) {n : String} (hn : n ∉ names) :
    ∃ g', cgAddVertex g n = .ok g' ∧ CgFresh g' (names ++ [n]) := by
  have h1 : ¬ (g.nodeMap n).isSome = true := fun hs => hn ((h.map n).1 hs)
  refine ⟨_, by unfold cgAddVertex; rw [if_neg h1], ?_, fun m => ?_, fun m id hm => ?_, fun m hm => ?_⟩
  · simp [h.count]
  · by_cases e : m = n
    · subst e; simp [upd]
    · simp only [upd, if_neg e, List.mem_append, List.mem_singleton, e, or_false]; exact h.map m
  · by_cases e : m = n
    · simp only [upd, if_pos e] at hm; injection hm with hm; subst hm; exact Nat.lt_succ_self _
    · simp only [upd, if_neg e] at hm; exact Nat.lt_succ_of_lt (h.below m id hm)
  · by_cases e : m = n
    · exact ⟨g.nextId, by simp only [upd, if_pos e], by simp only [upd, if_true]⟩
    · have : m ∈ names := by
        rcases List.mem_append.1 hm with hm | hm
        · exact hm
        · exact absurd (List.mem_singleton.1 hm) e
      obtain ⟨id, h2, h3⟩ := h.node m this
      have hid := h.below m id h2
      refine ⟨id, by simp only [upd, if_neg e, h2], ?_⟩
      have : ¬ id = g.nextId := by omega
      simp only [upd, if_neg this, h3]

theorem cgLoop : ∀ (vs : List Vtx) (g : CGraph) (names : List String), MadeFor .cpp .list vs → CgFresh g names →
    (names ++ vs.map Vtx.name).Nodup →
    ∃ g', forList vs g (fun v g => match v.backend, v.impl with
      | .cpp, .list => cgAddVertex g v.name
      | _, _ => .error .typeError) = .ok g' ∧ CgFresh g' (names ++ vs.map Vtx.name) := by
  intro vs
  induction vs with
  | nil => intro g names _ h _; exact ⟨g, rfl, by simpa using h⟩
  | cons v vs ih =>
    intro g names hm h hd
    obtain ⟨hb, hi⟩ := hm v (List.mem_cons_self ..)
    have e : names ++ (v :: vs).map Vtx.name = (names ++ [v.name]) ++ vs.map Vtx.name := by simp
    rw [e] at hd ⊢
    have hn : v.name ∉ names := fun hin => by
      have := (List.nodup_append.1 ((List.nodup_append.1 hd).1)).2.2
      exact this _ hin _ (List.mem_singleton.2 rfl) rfl
    obtain ⟨g1, h1, h2⟩ := cgAdd_fresh h hn
    obtain ⟨g2, h3, h4⟩ := ih g1 _ (fun w hw => hm w (List.mem_cons_of_mem _ hw)) h2 hd
    refine ⟨g2, ?_, h4⟩
    unfold forList
    rw [hb, hi]
    simp only [h1]
    exact h3

theorem cgFresh_no_edges {order : List String → List String} (ho : order [] = []) (nAttr : String → Bool) {names : List String} {g : CGraph}
    (h : CgFresh g names) : NoEdgesOn order nAttr names (.cppList g) := by
  have hnode : ∀ a ∈ names, ∃ id, cgNode g a = .ok (id, []) := by
    intro a ha
    obtain ⟨id, h1, h2⟩ := h.node a ha
    exact ⟨id, by simp only [cgNode, h1, h2]⟩
  refine ⟨h.count, fun a ha b _ => ?_, fun a ha => ?_⟩
  · obtain ⟨id, h1⟩ := hnode a ha
    simp only [GraphObj.isAdjacent, cgIsAdjacent, h1]
    rfl
  · obtain ⟨id, h1⟩ := hnode a ha
    simp only [GraphObj.neighbors, cgNeighbors, h1]
    exact congrArg Except.ok ho

theorem cmFold_val : ∀ (names : List String) (m : PyDict String (PyDict String Bool)) (a : String),
    (a ∈ names ∨ m.val a = some PyDict.empty) → (names.foldl (fun m n => m.set n PyDict.empty) m).val a = some PyDict.empty := by
  intro names
  induction names with
  | nil =>
    rintro m a (h | h)
    · cases h
    · exact h
  | cons n names ih =>
    intro m a h
    refine ih _ a ?_
    by_cases e : a = n
    · right; subst e; simp [PyDict.set]
    · rcases h with h | h
      · rcases List.mem_cons.1 h with h | h
        · exact absurd h e
        · exact .inl h
      · right; simp [PyDict.set, e, h]

theorem cmNew_no_edges {order : List String → List String} (ho : order [] = []) (nAttr : String → Bool) (names : List String) :
    NoEdgesOn order nAttr names (.cppMatrix (cmNew names)) := by
  have hv : ∀ a ∈ names, (cmNew names).matrix.val a = some PyDict.empty := fun a ha => cmFold_val names _ a (.inl ha)
  refine ⟨rfl, fun a ha b _ => ?_, fun a ha => ?_⟩
  · simp only [GraphObj.isAdjacent, cmIsAdjacent, hv a ha]
    rfl
  · simp only [GraphObj.neighbors, cmNeighbors, hv a ha, cmTrue]
    have : (PyDict.empty : PyDict String Bool).keys = [] := rfl
    rw [this, ho]
    rfl

theorem named_graph (order : List String → List String) (nAttr : String → Bool) (b : GBackend) (i : GImpl) (vs : List Vtx) (ho : order [] = [])
    (hm : MadeFor b i vs) (hd : (vs.map Vtx.name).Nodup) (hn : ∀ v ∈ vs, nAttr v.name = false) (s : Option String)
    (hs : graphImpl vs s = i.name) :
    ∃ g, graphNew b vs s = .ok g ∧ g.kind = i ∧ NoEdgesOn order nAttr (vs.map Vtx.name) g := by
  have hn' : ∀ n ∈ vs.map Vtx.name, nAttr n = false := by
    intro n h
    obtain ⟨v, hv, rfl⟩ := List.mem_map.1 h
    exact hn v hv
  have hne : ¬ ("adjacency_matrix" = "adjacency_list") := by decide
  cases i with
  | list =>
    have hs : graphImpl vs s = "adjacency_list" := hs
    simp only [graphNew, hs, if_true]
    cases b with
    | python => exact ⟨_, rfl, rfl, alCtor_no_edges order hn'⟩
    | cpp =>
      obtain ⟨g, h1, h2⟩ := cgLoop vs cgNew [] hm cgNew_fresh (by simpa using hd)
      have h1 : cgCtor vs = .ok g := h1
      simp only [h1]
      exact ⟨_, rfl, rfl, cgFresh_no_edges ho nAttr (by simpa using h2)⟩
  | matrix =>
    have hs : graphImpl vs s = "adjacency_matrix" := hs
    simp only [graphNew, hs, if_neg hne, if_true]
    cases b with
    | python => exact ⟨_, rfl, rfl, amNew_no_edges order nAttr _⟩
    | cpp =>
      have h1 : cmCtor vs = .ok (cmNew (vs.map Vtx.name)) := by
        unfold cmCtor
        refine if_pos (List.all_eq_true.2 fun v hv => ?_)
        obtain ⟨h1, h2⟩ := hm v hv
        rw [h1, h2]
      simp only [h1]
      exact ⟨_, rfl, rfl, cmNew_no_edges ho nAttr _⟩

/-- **C154** (partial). Vertices of different names made for an implementation give a graph of that implementation with these vertices and no edge, if
the implementation is named; also if it is not, unless they are C++ nodes made for a matrix. Missing: those. -/
theorem C154_new_graph_partial (order : List String → List String) (nAttr : String → Bool) (b : GBackend) (i : GImpl) (vs : List Vtx)
    (ho : order [] = []) (hm : MadeFor b i vs) (hd : (vs.map Vtx.name).Nodup) (hn : ∀ v ∈ vs, nAttr v.name = false)
    (s : Option String) (hs : s = some i.name ∨ s = none ∧ vs ≠ [] ∧ ¬ (b = .cpp ∧ i = .matrix)) :
    ∃ g, graphNew b vs s = .ok g ∧ g.kind = i ∧ NoEdgesOn order nAttr (vs.map Vtx.name) g := by
  refine named_graph order nAttr b i vs ho hm hd hn s ?_
  rcases hs with rfl | ⟨rfl, hv, hb⟩
  · rfl
  · cases vs with
    | nil => exact absurd rfl hv
    | cons v vs =>
      obtain ⟨h1, h2⟩ := hm v (List.mem_cons_self ..)
      simp only [graphImpl, Vtx.attr, h1, h2]
      cases b with
      | python => rfl
      | cpp =>
        cases i with
        | list => rfl
        | matrix => exact absurd ⟨rfl, rfl⟩ hb

/-- **C154**, exactly: when the implementation is not named, C++ nodes made for a matrix are never accepted. -/
theorem C154_default_for_cpp_matrix (vs : List Vtx) (hm : MadeFor .cpp .matrix vs) (hv : vs ≠ []) : graphNew .cpp vs none = .error .typeError := by
  cases vs with
  | nil => exact absurd rfl hv
  | cons v vs =>
    obtain ⟨h1, h2⟩ := hm v (List.mem_cons_self ..)
    simp only [graphNew, graphImpl, Vtx.attr, h1, Option.getD_none, if_true, cgCtor, forList, h2]
    rfl

theorem C154_full_false : ¬ C154_full := by
  intro h
  obtain ⟨g, hg, _⟩ := (h id (fun _ => false) .cpp .matrix [⟨"A", .cpp, .matrix⟩] rfl
    (by intro v hv; rw [List.mem_singleton.1 hv]; exact ⟨rfl, rfl⟩) (by simp) (by simp) (fun _ _ => rfl)).2 none (.inl rfl)
  have := C154_default_for_cpp_matrix [⟨"A", .cpp, .matrix⟩] (by intro v hv; rw [List.mem_singleton.1 hv]; exact ⟨rfl, rfl⟩) (by simp)
  rw [this] at hg
  cases hg

/-- Without vertices and without a name, `Graph()` is an adjacency list. -/
theorem C154_no_vertices (order : List String → List String) (nAttr : String → Bool) (b : GBackend) (ho : order [] = []) :
    ∃ g, graphNew b [] none = .ok g ∧ g.kind = .list ∧ NoEdgesOn order nAttr [] g :=
  named_graph order nAttr b .list [] ho (fun v hv => (nomatch hv)) List.nodup_nil (fun v hv => (nomatch hv)) none rfl

/-! ### The constructor and `add_vertex` -/

theorem alFold_vertices (gAttr : String → Bool) : ∀ (names : List String) (g : AList),
    (∀ n, (g.adjacent n).isSome ↔ n ∈ g.vertices) → (∀ n ∈ g.vertices, g.adjacent n = some []) →
    (g.vertices ++ names).Nodup → (∀ n ∈ names, gAttr n = false) →
    (names.foldl (alAddVertex gAttr) g).vertices = g.vertices ++ names ∧
    (names.foldl (alAddVertex gAttr) g).adjacent = (fun n => if n ∈ g.vertices ++ names then some [] else none) ∧
    (names.foldl (alAddVertex gAttr) g).weights = g.weights := by
  intro names
  induction names with
  | nil =>
    intro g h1 h2 _ _
    refine ⟨by simp, funext fun n => ?_, rfl⟩
    simp only [List.append_nil, List.foldl_nil]
    by_cases hn : n ∈ g.vertices
    · rw [if_pos hn, h2 n hn]
    · rw [if_neg hn]
      cases hg : g.adjacent n with
      | none => rfl
      | some x => exact absurd ((h1 n).1 (by rw [hg]; rfl)) hn
  | cons n names ih =>
    intro g h1 h2 hd ha
    have e : g.vertices ++ n :: names = (g.vertices ++ [n]) ++ names := by simp
    rw [e] at hd ⊢
    have hn : n ∉ g.vertices := fun hin => by
      have := (List.nodup_append.1 ((List.nodup_append.1 hd).1)).2.2
      exact this _ hin _ (List.mem_singleton.2 rfl) rfl
    have hhas : ¬ alHas gAttr g n = true := by
      have h3 : (g.adjacent n).isSome = false := Bool.eq_false_iff.2 fun hs => hn ((h1 n).1 hs)
      simp [alHas, ha n (List.mem_cons_self ..), h3]
    have hstep : alAddVertex gAttr g n = { g with vertices := g.vertices ++ [n], adjacent := sset g.adjacent n (some []) } := by
      unfold alAddVertex; rw [if_neg hhas]
    rw [List.foldl_cons, hstep]
    refine ih { g with vertices := g.vertices ++ [n], adjacent := sset g.adjacent n (some []) } (fun m => ?_) (fun m hm => ?_) hd
      (fun m hm => ha m (List.mem_cons_of_mem _ hm))
    · by_cases em : m = n
      · subst em; simp [sset]
      · simp only [sset, if_neg em, List.mem_append, List.mem_singleton, em, or_false]; exact h1 m
    · by_cases em : m = n
      · simp only [sset, if_pos em]
      · simp only [sset, if_neg em]
        rcases List.mem_append.1 hm with hm | hm
        · exact h2 m hm
        · exact absurd (List.mem_singleton.1 hm) em

theorem alFold_adds (gAttr : String → Bool) : ∀ (names : List String) (g : AList),
    ∃ added, (names.foldl (alAddVertex gAttr) g).vertices = g.vertices ++ added ∧ added.Sublist names ∧
      (∀ n ∈ added, gAttr n = false) := by
  intro names
  induction names with
  | nil => intro g; exact ⟨[], by simp, List.Sublist.refl _, fun n h => (nomatch h)⟩
  | cons n names ih =>
    intro g
    obtain ⟨added, h1, h2, h3⟩ := ih (alAddVertex gAttr g n)
    rw [List.foldl_cons, h1]
    unfold alAddVertex
    split
    · exact ⟨added, rfl, h2.cons n, h3⟩
    · next hhas =>
      refine ⟨n :: added, by simp, h2.cons_cons n, fun m hm => ?_⟩
      rcases List.mem_cons.1 hm with rfl | hm
      · simp only [alHas, Bool.or_eq_true, not_or, Bool.not_eq_true] at hhas; exact hhas.1
      · exact h3 m hm

theorem alFold_nodup (gAttr : String → Bool) : ∀ (names : List String) (g : AList), g.vertices.Nodup →
    (∀ n ∈ g.vertices, (g.adjacent n).isSome) → (names.foldl (alAddVertex gAttr) g).vertices.Nodup := by
  intro names
  induction names with
  | nil => intro g h _; exact h
  | cons n names ih =>
    intro g h hs
    rw [List.foldl_cons]
    unfold alAddVertex
    split
    · exact ih g h hs
    · next hhas =>
      have hn : n ∉ g.vertices := fun hin => by
        simp only [alHas, Bool.or_eq_true, not_or] at hhas; exact hhas.2 (hs n hin)
      refine ih _ ?_ fun m hm => ?_
      · show (g.vertices ++ [n]).Nodup
        rw [List.nodup_append]
        exact ⟨h, by simp, fun x hx y hy e => hn (by rw [List.mem_singleton.1 hy] at e; exact e ▸ hx)⟩
      · by_cases em : m = n
        · simp [sset, em]
        · have hm : m ∈ g.vertices ++ [n] := hm
          simp only [sset, if_neg em]
          rcases List.mem_append.1 hm with hm | hm
          · exact hs m hm
          · exact absurd (List.mem_singleton.1 hm) em

/-- **C154**: a Python adjacency list constructed with vertices is the graph to which they are added one after another if and only if their names are
different and none of them is an attribute that graphs have anyway. -/
theorem C154_constructor_adds_exact (gAttr : String → Bool) (names : List String) :
    alCtor names = names.foldl (alAddVertex gAttr) alNew ↔ names.Nodup ∧ ∀ n ∈ names, gAttr n = false := by
  constructor
  · intro h
    have hv : names = (names.foldl (alAddVertex gAttr) alNew).vertices := congrArg AList.vertices h
    refine ⟨?_, ?_⟩
    · rw [hv]; exact alFold_nodup gAttr names alNew List.nodup_nil fun n h => (nomatch h)
    · obtain ⟨added, h1, h2, h3⟩ := alFold_adds gAttr names alNew
      rw [h1] at hv
      intro n hn
      rw [hv] at hn
      exact h3 n hn
  · rintro ⟨hd, ha⟩
    obtain ⟨h1, h2, h3⟩ := alFold_vertices gAttr names alNew (fun n => ⟨fun h => (nomatch h), fun h => (nomatch h)⟩)
      (fun n h => (nomatch h)) hd ha
    have : names.foldl (alAddVertex gAttr) alNew = ⟨names, fun n => if n ∈ names then some [] else none, fun _ => none⟩ := by
      cases hg : names.foldl (alAddVertex gAttr) alNew with
      | mk v a w =>
        rw [hg] at h1 h2 h3
        have h1 : v = names := h1
        have h2 : a = _ := h2
        have h3 : w = _ := h3
        rw [h1, h2, h3]
        rfl
    rw [this]
    rfl

/-- The C++ constructor refuses two vertices with the same name. -/
theorem C154_cpp_twice (n : String) : graphNew .cpp [⟨n, .cpp, .list⟩, ⟨n, .cpp, .list⟩] none = .error .valueError := by
  simp [graphNew, graphImpl, Vtx.attr, cgCtor, forList, cgAddVertex, cgNew, upd, bind, Except.bind]

example : ∃ g, graphNew .python [⟨"A", .python, .matrix⟩, ⟨"B", .python, .matrix⟩] none = .ok g ∧ g.kind = .matrix ∧ g.numVertices = 2 := by
  exact ⟨_, rfl, rfl, rfl⟩

example : MadeFor .cpp .list [⟨"A", .cpp, .list⟩, ⟨"B", .cpp, .list⟩] ∧ (["A", "B"] : List String).Nodup := by
  refine ⟨fun v hv => ?_, by decide⟩
  simp only [List.mem_cons, List.not_mem_nil, or_false] at hv
  rcases hv with rfl | rfl <;> exact ⟨rfl, rfl⟩

end Props
