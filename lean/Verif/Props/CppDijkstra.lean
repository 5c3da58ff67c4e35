import Verif.Props.CppGraph
import Verif.Props.Dijkstra
import Verif.Lemmas.CppDijkstra
import Verif.Lemmas.Bind

/-! # C101: Dijkstra's algorithm of the C++ back end -/
namespace Props
open Py Model Spec Model.Cpp

/-- What the caller wants to know: the vertices are the keys of both dictionaries, the distances are exact (over the edges with a value that is not
negative) and the predecessors describe walks of these lengths. -/
structure ShortestAnswer (d : Digraph) (source : String) (dist : PyDict String (Option Int)) (pred : PyDict String (Option String)) : Prop where
  keys : ∀ v, ((dist.val v).isSome ↔ v ∈ d.verts) ∧ ((pred.val v).isSome ↔ v ∈ d.verts)
  exact : ∀ v ∈ d.verts, ∃ x, dist.val v = some x ∧ Distance (nonneg (Digraph.wt d)) source v x
  pred : ∀ v ∈ d.verts, (pred.val v = some none ∧ (v = source ∨ dist.val v = some none)) ∨
    ∃ u du x, pred.val v = some (some u) ∧ dist.val u = some (some du) ∧ nonneg (Digraph.wt d) u v = some x ∧ dist.val v = some (some (du + x))

/-- No id is missing: the ids are 0, 1, …, as many as there are vertices. -/
def NoGap (g : CGraph) : Prop := ∀ id ∈ g.nodes, id < g.nodes.length

def nm (g : CGraph) (i : Nat) : String := (g.idToName i).getD ""

theorem mem_of_noGap {g : CGraph} (hn : g.nodes.Nodup) (hg : NoGap g) {i : Nat} (hi : i < g.nodes.length) : i ∈ g.nodes := by
  apply Classical.byContradiction
  intro hni
  have h1 : (i :: g.nodes).Nodup := List.nodup_cons.2 ⟨hni, hn⟩
  have h2 := nodup_length_le h1 (b := List.range g.nodes.length) (by
    intro x hx
    rcases List.mem_cons.1 hx with rfl | hx
    · simpa using hi
    · simpa using hg x hx)
  simp at h2
  omega

section
variable {g : CGraph} {d : Digraph}

/-- The weights between ids. -/
def idWt (g : CGraph) (d : Digraph) (u v : Nat) : Option Int :=
  match g.idToName u, g.idToName v with
  | some a, some b => nonneg (Digraph.wt d) a b
  | _, _ => none

theorem idWt_some {u v : Nat} {x : Int} : idWt g d u v = some x ↔
    ∃ a b, g.idToName u = some a ∧ g.idToName v = some b ∧ nonneg (Digraph.wt d) a b = some x := by
  unfold idWt
  split
  · rename_i a b ha hb
    constructor
    · intro h; exact ⟨a, b, ha, hb, h⟩
    · rintro ⟨a', b', ea, eb, h⟩
      rw [ha] at ea; rw [hb] at eb; cases ea; cases eb; exact h
  · rename_i hno
    constructor
    · rintro ⟨⟩
    · rintro ⟨a, b, ha, hb, _⟩; exact absurd hb (hno a b ha)

theorem idOf_some {name : String} {id : Nat} (h : g.nameToId name = some id) : idOf g name = (id, g) := by
  simp only [idOf, h]

/-- Building the adjacency vectors. -/
theorem djEdges_spec (h : CgRep g d) (hg : NoGap g) {order : List String → List String} (ho : ∀ l, (order l).Perm l) :
    ∃ adj, forList (order g.edges.keys) ((List.replicate g.nodes.length [] : Adj), g) djEdge = .ok (adj, g) ∧
      AdjOk g.nodes.length (idWt g d) adj := by
  have hmem : ∀ k ∈ order g.edges.keys, ∃ e ∈ d.edges, k = edgeKey e.1 e.2 := by
    intro k hk
    have := (ho _).mem_iff.1 hk
    rw [h.keys] at this
    obtain ⟨e, he, rfl⟩ := List.mem_map.1 this
    exact ⟨e, he, rfl⟩
  obtain ⟨s', e', ⟨A, hs, hA, _⟩⟩ := forList_spec
    (I := fun done rest (s : Adj × CGraph) => ∃ A : Nat → List (Nat × Int), s = (vec g.nodes.length A, g) ∧
      (∀ u v x, u < g.nodes.length → ((v, x) ∈ A u ↔ ∃ a b, edgeKey a b ∈ done ∧ (a, b) ∈ d.edges ∧ g.nameToId a = some u ∧ g.nameToId b = some v ∧
        d.cost a b = some x ∧ 0 ≤ x)) ∧ done ++ rest = order g.edges.keys)
    (body := djEdge) (order g.edges.keys) [] ((List.replicate g.nodes.length [] : Adj), g)
    ⟨fun _ => [], by rw [vec_replicate], by simp, by simp⟩
    (by
      rintro done key rest s ⟨A, rfl, hA, hrest⟩
      obtain ⟨⟨a, b⟩, he, rfl⟩ := hmem key (by rw [← hrest]; simp)
      obtain ⟨ha, hb⟩ := h.ends _ he
      obtain ⟨ia, eia⟩ := (h.mem a).1 ha
      obtain ⟨ib, eib⟩ := (h.mem b).1 hb
      have hpa := h.plain a ha
      have hia := hg ia ((h.toId a ia).1 eia).1
      dsimp only at hrest ⊢
      have hother : ∀ a' b', edgeKey a' b' ∈ done ++ [edgeKey a b] → (a', b') ∈ d.edges → edgeKey a' b' ∈ done ∨ (a', b') = (a, b) := by
        intro a' b' hm he'
        rcases List.mem_append.1 hm with hm | hm
        · exact Or.inl hm
        · right
          obtain ⟨h1, h2⟩ := edgeKey_inj (h.plain _ (h.ends _ he').1) hpa (List.mem_singleton.1 hm)
          exact Prod.ext h1 h2
      by_cases hx : ∃ x, d.cost a b = some x ∧ 0 ≤ x
      · obtain ⟨x, hc, hx⟩ := hx
        refine ⟨(vec g.nodes.length fun u => if u = ia then A ia ++ [(ib, x)] else A u, g), ?_, _, rfl, ?_, by rw [← hrest]; simp⟩
        · have hval := h.val _ he
          dsimp only at hval
          simp only [djEdge, splitKey_edgeKey hpa, idOf_some eia, idOf_some eib, hval, hc]
          rw [if_neg (by omega), vget_vec hia, ok_bind, vset_vec hia, ok_bind]
        · intro u v y hu
          constructor
          · intro hm
            by_cases hui : u = ia
            · rw [if_pos hui] at hm
              rcases List.mem_append.1 hm with hm | hm
              · obtain ⟨a', b', h1, h2⟩ := (hA ia v y hia).1 hm
                rw [hui]
                exact ⟨a', b', by simp [h1], h2⟩
              · have hm' : (v, y) = (ib, x) := by simpa using hm
                cases hm'
                exact ⟨a, b, by simp, he, by rw [hui]; exact eia, eib, hc, hx⟩
            · rw [if_neg hui] at hm
              obtain ⟨a', b', h1, h2⟩ := (hA u v y hu).1 hm
              exact ⟨a', b', by simp [h1], h2⟩
          · rintro ⟨a', b', h1, h2, h3, h4, h5, h6⟩
            rcases hother a' b' h1 h2 with h1 | h1
            · have := (hA u v y hu).2 ⟨a', b', h1, h2, h3, h4, h5, h6⟩
              by_cases hui : u = ia
              · subst hui; simp [this]
              · simp [hui, this]
            · cases h1
              rw [eia] at h3; rw [eib] at h4; rw [hc] at h5
              cases h3; cases h4; cases h5
              simp
      · refine ⟨(vec g.nodes.length A, g), ?_, A, rfl, ?_, by rw [← hrest]; simp⟩
        · have hval := h.val _ he
          dsimp only at hval
          simp only [djEdge, splitKey_edgeKey hpa, idOf_some eia, idOf_some eib, hval]
          cases hc : d.cost a b with
          | none => rfl
          | some x =>
            dsimp only
            rw [if_pos]
            apply Classical.byContradiction
            intro hn
            exact hx ⟨x, hc, by omega⟩
        · intro u v y hu
          rw [hA u v y hu]
          constructor
          · rintro ⟨a', b', h1, h2⟩; exact ⟨a', b', by simp [h1], h2⟩
          · rintro ⟨a', b', h1, h2, h3, h4, h5, h6⟩
            rcases hother a' b' h1 h2 with h1 | h1
            · exact ⟨a', b', h1, h2, h3, h4, h5, h6⟩
            · cases h1; exact absurd ⟨y, h5, h6⟩ hx)
  rw [List.nil_append] at hA
  refine ⟨vec g.nodes.length A, by rw [e', hs], vec_length _ _, ?_, ?_, ?_⟩
  · intro u row hrow v x
    have hu : u < g.nodes.length := by
      have := (List.getElem?_eq_some_iff.1 hrow).1
      rwa [vec_length] at this
    have : row = A u := by simp [vec, hu] at hrow; exact hrow.symm
    rw [this, hA u v x hu, idWt_some]
    constructor
    · rintro ⟨a, b, h1, h2, h3, h4, h5, h6⟩
      refine ⟨a, b, ((h.toId _ _).1 h3).2, ((h.toId _ _).1 h4).2, nonneg_some.2 ⟨?_, h6⟩⟩
      simp only [Digraph.wt, h2, if_true, h5]
    · rintro ⟨a, b, h1, h2, h3⟩
      obtain ⟨h4, h5⟩ := nonneg_some.1 h3
      obtain ⟨h6, h7⟩ := Digraph.wt_some h4
      refine ⟨a, b, ?_, h6, (h.toId _ _).2 ⟨h.live _ _ h1, h1⟩, (h.toId _ _).2 ⟨h.live _ _ h2, h2⟩, h7, h5⟩
      rw [(ho _).mem_iff, h.keys]
      exact List.mem_map.2 ⟨(a, b), h6, rfl⟩
  · intro u v x hw
    obtain ⟨a, b, h1, h2, h3⟩ := idWt_some.1 hw
    exact ⟨hg _ (h.live _ _ h1), hg _ (h.live _ _ h2)⟩
  · intro u v x hw
    obtain ⟨a, b, h1, h2, h3⟩ := idWt_some.1 hw
    exact (nonneg_some.1 h3).2

/-- A dictionary filled from a vector. -/
theorem fillDict {β : Type} (f : Nat → β) (name : Nat → String) {V : Nat} {body : Nat → PyDict String β → PyM (PyDict String β)}
    (hb : ∀ i, i < V → ∀ dd : PyDict String β, body i dd = .ok (dd.set (name i) (f i)))
    (hinj : ∀ i j, i < V → j < V → name i = name j → i = j) :
    ∃ dd, forRange 0 V (PyDict.empty : PyDict String β) body = .ok dd ∧ (∀ i, i < V → dd.val (name i) = some (f i)) ∧
      ∀ w, (dd.val w).isSome → ∃ i, i < V ∧ name i = w := by
  obtain ⟨dd, e, h1, h2⟩ := forRange_spec (I := fun k (dd : PyDict String β) => (∀ i, i < k → dd.val (name i) = some (f i)) ∧
      ∀ w, (dd.val w).isSome → ∃ i, i < k ∧ name i = w) (lo := 0) (hi := V) (s := PyDict.empty) (body := body) (Nat.zero_le _)
    ⟨by omega, by simp [PyDict.empty]⟩
    (by
      rintro k dd _ hk ⟨h1, h2⟩
      refine ⟨_, hb k hk dd, ?_, ?_⟩
      · intro i hi
        simp only [PyDict.set]
        by_cases hik : i = k
        · subst hik; simp
        · rw [if_neg (fun e => hik (hinj i k (by omega) hk e))]
          exact h1 i (by omega)
      · intro w hw
        simp only [PyDict.set] at hw
        by_cases hwk : w = name k
        · exact ⟨k, by omega, hwk.symm⟩
        · rw [if_neg hwk] at hw
          obtain ⟨i, hi, e⟩ := h2 w hw
          exact ⟨i, by omega, e⟩)
  exact ⟨dd, e, h1, h2⟩

theorem CgRep.named (h : CgRep g d) (hg : NoGap g) {i : Nat} (hi : i < g.nodes.length) :
    ∃ v, g.idToName i = some v ∧ v ∈ d.verts ∧ g.nameToId v = some i := by
  have hin := mem_of_noGap h.inodup hg hi
  have : g.idToName i ∈ g.nodes.map g.idToName := List.mem_map.2 ⟨i, hin, rfl⟩
  rw [h.names] at this
  obtain ⟨v, hv, e⟩ := List.mem_map.1 this
  exact ⟨v, e.symm, hv, (h.toId v i).2 ⟨hin, e.symm⟩⟩

theorem walk_to_names {u v : Nat} {c : Int} {a b : String} (hw : WalkW (idWt g d) u v c) (ha : g.idToName u = some a) (hb : g.idToName v = some b) :
    WalkW (nonneg (Digraph.wt d)) a b c := by
  induction hw generalizing b with
  | nil => rw [ha] at hb; cases hb; exact .nil
  | snoc _ hx ih =>
    obtain ⟨p, q, hp, hq, hx⟩ := idWt_some.1 hx
    rw [hb] at hq; cases hq
    exact (ih hp).snoc hx

theorem walk_to_ids (h : CgRep g d) {a b : String} {c : Int} (hw : WalkW (nonneg (Digraph.wt d)) a b c) {u : Nat} (ha : g.nameToId a = some u) :
    ∃ v, g.nameToId b = some v ∧ WalkW (idWt g d) u v c := by
  induction hw with
  | nil => exact ⟨u, ha, .nil⟩
  | snoc _ hx ih =>
    obtain ⟨v, hv, hw⟩ := ih
    have hb := (h.ends _ (Digraph.wt_some (nonneg_some.1 hx).1).1).2
    obtain ⟨w, ew⟩ := (h.mem _).1 hb
    exact ⟨w, ew, hw.snoc (idWt_some.2 ⟨_, _, ((h.toId _ _).1 hv).2, ((h.toId _ _).1 ew).2, hx⟩)⟩

theorem distance_ids (h : CgRep g d) {a b : String} {u v : Nat} (ha : g.nameToId a = some u) (hb : g.nameToId b = some v) {x : Option Int}
    (hd : Distance (idWt g d) u v x) : Distance (nonneg (Digraph.wt d)) a b x := by
  have back : ∀ c, WalkW (nonneg (Digraph.wt d)) a b c → WalkW (idWt g d) u v c := by
    intro c hw
    obtain ⟨v', hv', hw'⟩ := walk_to_ids h hw ha
    rw [hb] at hv'; cases hv'; exact hw'
  cases x with
  | none => intro c hw; exact hd c (back c hw)
  | some c => exact ⟨walk_to_names hd.1 ((h.toId _ _).1 ha).2 ((h.toId _ _).1 hb).2, fun c' hw => hd.2 c' (back c' hw)⟩

/-- The whole function, on a graph without gap in the ids. -/
theorem cgDijkstra_spec (h : CgRep g d) (hg : NoGap g) {order : List String → List String} (ho : ∀ l, (order l).Perm l) {source : String}
    (hs : source ∈ d.verts) :
    ∃ n₀, ∀ fuel, n₀ ≤ fuel → ∃ s D dist pred, djRun order fuel g source = .ok (s, g) ∧ s.dist = vec g.nodes.length D ∧
      djDicts g s g.nodes.length = .ok (dist, pred) ∧ ShortestAnswer d source dist pred ∧
      ∀ v id, g.nameToId v = some id → dist.val v = some (D id) := by
  obtain ⟨src, esrc⟩ := (h.mem source).1 hs
  have hsrc := hg src ((h.toId _ _).1 esrc).1
  obtain ⟨adj, eadj, hA⟩ := djEdges_spec h hg ho
  obtain ⟨n₀, hn⟩ := djLoop_spec hA hsrc
  refine ⟨n₀, fun fuel hf => ?_⟩
  obtain ⟨D, P, hD, eloop⟩ := hn fuel hf
  have hnm : ∀ {v i}, g.nameToId v = some i → nm g i = v := by
    intro v i e; simp [nm, ((h.toId v i).1 e).2]
  have hinj : ∀ i j, i < g.nodes.length → j < g.nodes.length → nm g i = nm g j → i = j := by
    intro i j hi hj e
    obtain ⟨v, _, _, ev⟩ := h.named hg hi
    obtain ⟨w, _, _, ew⟩ := h.named hg hj
    rw [hnm ev, hnm ew] at e
    subst e
    rw [ev] at ew; exact Option.some.inj ew
  obtain ⟨dist, edist, hdist, hdk⟩ := fillDict (V := g.nodes.length) D (nm g)
    (body := fun id dd => do let x ← vget (vec g.nodes.length D) id; .ok (dd.set ((g.idToName id).getD "") x))
    (fun i hi dd => by simp only [vget_vec hi, ok_bind]; rfl) hinj
  obtain ⟨pred, epred, hpred, hpk⟩ := fillDict (V := g.nodes.length) (fun i => (P i).map (nm g)) (nm g)
    (body := fun id dd => do
      let p ← vget (vec g.nodes.length P) id
      .ok (dd.set ((g.idToName id).getD "") (p.map fun u => (g.idToName u).getD "")))
    (fun i hi dd => by simp only [vget_vec hi, ok_bind]; rfl) hinj
  have hval : ∀ v id, g.nameToId v = some id → dist.val v = some (D id) := by
    intro v id e
    rw [← hnm e]
    exact hdist id (hg id ((h.toId _ _).1 e).1)
  have hpval : ∀ v id, g.nameToId v = some id → pred.val v = some ((P id).map (nm g)) := by
    intro v id e
    rw [← hnm e]
    exact hpred id (hg id ((h.toId _ _).1 e).1)
  have hkeys : ∀ {β : Type} {dd : PyDict String β}, (∀ w, (dd.val w).isSome → ∃ i, i < g.nodes.length ∧ nm g i = w) → ∀ v, (dd.val v).isSome → v ∈ d.verts := by
    intro β dd hk v hv
    obtain ⟨i, hi, rfl⟩ := hk v hv
    obtain ⟨w, _, hw, ew⟩ := h.named hg hi
    rwa [hnm ew]
  refine ⟨⟨vec g.nodes.length D, vec g.nodes.length P, []⟩, D, dist, pred, ?_, rfl, ?_, ⟨?_, ?_, ?_⟩, hval⟩
  · simp only [djRun, eadj, ok_bind, idOf_some esrc]
    simp only [vec_replicate, vset_vec hsrc, ok_bind, eloop]
  · simp only [djDicts, edist, epred, ok_bind]
  · intro v
    refine ⟨⟨hkeys hdk v, fun hv => ?_⟩, ⟨hkeys hpk v, fun hv => ?_⟩⟩
    · obtain ⟨i, ei⟩ := (h.mem v).1 hv; rw [hval v i ei]; rfl
    · obtain ⟨i, ei⟩ := (h.mem v).1 hv; rw [hpval v i ei]; rfl
  · intro v hv
    obtain ⟨i, ei⟩ := (h.mem v).1 hv
    exact ⟨D i, hval v i ei, distance_ids h esrc ei (hD.dist i)⟩
  · intro v hv
    obtain ⟨i, ei⟩ := (h.mem v).1 hv
    rw [hpval v i ei, hval v i ei]
    rcases hD.link i with ⟨h1, h2⟩ | ⟨u, du, x, h1, h2, h3, h4⟩
    · left
      refine ⟨by rw [h1]; rfl, ?_⟩
      rcases h2 with h2 | h2
      · right; rw [h2]
      · left
        subst h2
        rw [← hnm ei, ← hnm esrc]
    · right
      obtain ⟨a, b, ha, hb, hx⟩ := idWt_some.1 h3
      have ea := (h.toId a u).2 ⟨h.live _ _ ha, ha⟩
      have : b = v := by
        have := ((h.toId v i).1 ei).2
        rw [hb] at this; exact Option.some.inj this
      subst this
      refine ⟨a, du, x, by rw [h1]; simp [hnm ea], by rw [hval a u ea, h2], hx, by rw [h4]⟩

end

/-! ## The theorems -/

/-- No vertex is ever removed. -/
def KeepsVertices (ops : List CGraphOp) : Prop := ∀ c ∈ ops, ∀ v, c.1 ≠ .removeVertex v

theorem noGap_step {g : CGraph} {d : Digraph} (h : CgRep g d) (hg : g.nodes = List.range g.nextId) (c : CGraphOp) (hp : c.1.All NoBar)
    (hk : ∀ v, c.1 ≠ .removeVertex v) : (cgStep g c).1.nodes = List.range (cgStep g c).1.nextId := by
  obtain ⟨op, ord⟩ := c
  cases op with
  | addVertex v =>
    by_cases hv : (g.nodeMap v).isSome
    · simp only [cgStep, cgAddVertex, hv, if_true, cUpd]; exact hg
    · simp only [cgStep, cgAddVertex, hv, Bool.false_eq_true, if_false, cUpd, List.range_succ, hg]
  | removeVertex v => exact absurd rfl (hk v)
  | addEdge s t x =>
    simp only [cgStep, cgAddEdge]
    split
    · exact hg
    · split
      · exact hg
      · split <;> exact hg
  | removeEdge s t =>
    simp only [cgStep, cgRemoveEdge]
    split <;> exact hg
  | isAdjacent s t => simp only [cgStep]; cases cgIsAdjacent g s t <;> exact hg
  | neighbors v => simp only [cgStep]; cases cgNeighbors ord g v <;> exact hg
  | _ => exact hg

theorem noGap_history : ∀ (ops : List CGraphOp) (g : CGraph) (d : Digraph), CgRep g d → g.nodes = List.range g.nextId → (∀ c ∈ ops, c.1.All NoBar) →
    KeepsVertices ops → (final cgStep g ops).nodes = List.range (final cgStep g ops).nextId := by
  intro ops
  induction ops with
  | nil => intro g d _ hg _ _; exact hg
  | cons c ops ih =>
    intro g d h hg hp hk
    exact ih _ _ (cgStep_spec h c (hp c (by simp))).1 (noGap_step h hg c (hp c (by simp)) (hk c (by simp))) (fun o ho => hp o (by simp [ho]))
      (fun o ho => hk o (by simp [ho]))

/-- C101: after any history in which no name has an underscore and no vertex was removed, with any iteration order of the hash map and from any
vertex, the function ends with the exact distances, whatever the number of edges (compare C66), and does not change the graph. -/
theorem C101_exact_partial (ops : List CGraphOp) (hp : ∀ c ∈ ops, c.1.All NoBar) (hk : KeepsVertices ops) (order : List String → List String)
    (ho : ∀ l, (order l).Perm l) (source : String) (hs : source ∈ (final cppGraphSpec Digraph.empty ops).verts) :
    EndsIn (fun fuel => cgDijkstra order fuel (final cgStep cgNew ops) source) fun r =>
      ShortestAnswer (final cppGraphSpec Digraph.empty ops) source r.1.1 r.1.2 ∧ r.2 = final cgStep cgNew ops := by
  have h := (cgHistory CgRep.empty ops hp).2
  have hn := noGap_history ops _ _ CgRep.empty rfl hp hk
  obtain ⟨n₀, hn₀⟩ := cgDijkstra_spec h (by intro id hid; rw [hn] at hid ⊢; simpa using hid) ho hs
  refine ⟨n₀, fun n hle => ?_⟩
  obtain ⟨s, D, dist, pred, e1, _, e2, ha, _⟩ := hn₀ n hle
  exact ⟨((dist, pred), _), by simp only [cgDijkstra, e1, e2, ok_bind], ha, rfl⟩

/-- C101 with a target: the first component is the distance of the target. -/
theorem C101_target_partial (ops : List CGraphOp) (hp : ∀ c ∈ ops, c.1.All NoBar) (hk : KeepsVertices ops) (order : List String → List String)
    (ho : ∀ l, (order l).Perm l) (source target : String) (hs : source ∈ (final cppGraphSpec Digraph.empty ops).verts)
    (ht : target ∈ (final cppGraphSpec Digraph.empty ops).verts) :
    EndsIn (fun fuel => cgDijkstraTo order fuel (final cgStep cgNew ops) source target) fun r =>
      Distance (nonneg (Digraph.wt (final cppGraphSpec Digraph.empty ops))) source target r.1.1 ∧ r.2 = final cgStep cgNew ops := by
  have h := (cgHistory CgRep.empty ops hp).2
  have hn := noGap_history ops _ _ CgRep.empty rfl hp hk
  have hng : NoGap (final cgStep cgNew ops) := by intro id hid; rw [hn] at hid ⊢; simpa using hid
  obtain ⟨n₀, hn₀⟩ := cgDijkstra_spec h hng ho hs
  refine ⟨n₀, fun n hle => ?_⟩
  obtain ⟨s, D, dist, pred, e1, e3, e2, ha, hv⟩ := hn₀ n hle
  obtain ⟨i, ei⟩ := (h.mem target).1 ht
  refine ⟨((D i, pred), _), ?_, ?_, rfl⟩
  · simp only [cgDijkstraTo, e1, e2, ok_bind, idOf_some ei, e3]
    rw [vget_vec (hng i ((h.toId _ _).1 ei).1), ok_bind]
  · obtain ⟨x, hx, hd⟩ := ha.exact target ht
    rw [hv target i ei] at hx; cases hx
    exact hd

/-- C101 as one would state it: whatever the history. -/
def C101_full : Prop := ∀ (ops : List CGraphOp), (∀ c ∈ ops, c.1.All NoBar) → ∀ source, source ∈ (final cppGraphSpec Digraph.empty ops).verts →
    EndsIn (fun fuel => cgDijkstra (fun l => l) fuel (final cgStep cgNew ops) source) fun r =>
      ShortestAnswer (final cppGraphSpec Digraph.empty ops) source r.1.1 r.1.2

theorem djRun_names {order : List String → List String} {fuel : Nat} {g : CGraph} {source : String} {s : Dj} {g' : CGraph}
    (e : djRun order fuel g source = .ok (s, g')) : g'.idToName = g.idToName ∧ g'.nodes = g.nodes := by
  have hid : ∀ (g : CGraph) (n : String), (idOf g n).2.idToName = g.idToName ∧ (idOf g n).2.nodes = g.nodes := by
    intro g n; unfold idOf; split <;> exact ⟨rfl, rfl⟩
  have hstep : ∀ (k : String) (s r : Adj × CGraph), djEdge k s = .ok r → r.2.idToName = s.2.idToName ∧ r.2.nodes = s.2.nodes := by
    rintro k ⟨adj, g⟩ r hr
    simp only [djEdge] at hr
    obtain ⟨h1, h2⟩ := hid g (splitKey k).1
    obtain ⟨h3, h4⟩ := hid (idOf g (splitKey k).1).2 (splitKey k).2
    split at hr
    · cases hr
    · split at hr
      · cases hr; exact ⟨h3.trans h1, h4.trans h2⟩
      · split at hr
        · cases hr; exact ⟨h3.trans h1, h4.trans h2⟩
        · obtain ⟨row, _, hr⟩ := Py.bind_ok hr
          obtain ⟨adj', _, hr⟩ := Py.bind_ok hr
          cases hr; exact ⟨h3.trans h1, h4.trans h2⟩
  have hfor : ∀ (l : List String) (s r : Adj × CGraph), forList l s djEdge = .ok r → r.2.idToName = s.2.idToName ∧ r.2.nodes = s.2.nodes := by
    intro l
    induction l with
    | nil => intro s r hr; cases hr; exact ⟨rfl, rfl⟩
    | cons k l ih =>
      intro s r hr
      simp only [forList] at hr
      obtain ⟨s1, h1, hr⟩ := Py.bind_ok hr
      obtain ⟨a, b⟩ := hstep k s s1 h1
      obtain ⟨a', b'⟩ := ih s1 r hr
      exact ⟨a'.trans a, b'.trans b⟩
  simp only [djRun] at e
  obtain ⟨r1, h1, e⟩ := Py.bind_ok e
  obtain ⟨dist, _, e⟩ := Py.bind_ok e
  obtain ⟨s2, _, e⟩ := Py.bind_ok e
  cases e
  obtain ⟨a, b⟩ := hfor _ _ _ h1
  obtain ⟨a', b'⟩ := hid r1.2 source
  exact ⟨a'.trans a, b'.trans b⟩

theorem fillDict_val {β : Type} {name : Nat → String} {f : Nat → PyM β} {w : String} : ∀ (n lo : Nat) (dd r : PyDict String β),
    loop (fun i dd => do let x ← f i; .ok (dd.set (name i) x)) n lo dd = .ok r → (∀ i, i < lo + n → name i ≠ w) → dd.val w = none → r.val w = none := by
  intro n
  induction n with
  | zero => intro lo dd r e _ h; cases e; exact h
  | succ n ih =>
    intro lo dd r e hne h
    simp only [loop] at e
    obtain ⟨d1, h1, e⟩ := Py.bind_ok e
    obtain ⟨x, _, h1⟩ := Py.bind_ok h1
    cases h1
    refine ih (lo + 1) _ r e (fun i hi => hne i (by omega)) ?_
    simp only [PyDict.set]
    rw [if_neg (Ne.symm (hne lo (by omega)))]
    exact h

/-- C101, the other half: whenever a gap is left in the ids (a vertex was removed and it was not among the latest), the function never gives the right
answer: if it returns at all, some vertex is missing in the result. (Otherwise it reads or writes outside its vectors.) -/
theorem C101_gap_partial (ops : List CGraphOp) (hp : ∀ c ∈ ops, c.1.All NoBar) (hgap : ¬ NoGap (final cgStep cgNew ops))
    (hname : "" ∉ (final cppGraphSpec Digraph.empty ops).verts) (order : List String → List String) (fuel : Nat) (source : String) :
    ∀ r, cgDijkstra order fuel (final cgStep cgNew ops) source = .ok r →
      ∃ v ∈ (final cppGraphSpec Digraph.empty ops).verts, r.1.1.val v = none := by
  intro r hr
  have h := (cgHistory CgRep.empty ops hp).2
  obtain ⟨id, hid, hge⟩ : ∃ id ∈ (final cgStep cgNew ops).nodes, ¬ id < (final cgStep cgNew ops).nodes.length := by
    simpa [NoGap, Classical.not_forall] using hgap
  generalize final cgStep cgNew ops = g at *
  generalize final cppGraphSpec Digraph.empty ops = d at *
  have : g.idToName id ∈ g.nodes.map g.idToName := List.mem_map.2 ⟨id, hid, rfl⟩
  rw [h.names] at this
  obtain ⟨v, hv, ev⟩ := List.mem_map.1 this
  refine ⟨v, hv, ?_⟩
  simp only [cgDijkstra] at hr
  obtain ⟨⟨s, g'⟩, h1, hr⟩ := Py.bind_ok hr
  obtain ⟨r2, h2, hr⟩ := Py.bind_ok hr
  cases hr
  obtain ⟨en, enodes⟩ := djRun_names h1
  simp only [djDicts] at h2
  obtain ⟨dist, h3, h2⟩ := Py.bind_ok h2
  obtain ⟨pred, h4, h2⟩ := Py.bind_ok h2
  cases h2
  refine fillDict_val (name := fun i => (g'.idToName i).getD "") (f := fun i => vget s.dist i) _ 0 PyDict.empty dist h3 ?_ rfl
  intro i hi e
  rw [enodes] at hi
  rw [en] at e
  cases hx : g.idToName i with
  | none => rw [hx] at e; exact hname (by rw [show "" = v from e]; exact hv)
  | some w =>
    rw [hx] at e
    have : w = v := e
    subst this
    have := h.id_inj (h.live _ _ hx) hid hx ev.symm
    omega

/-- C101, both halves together: after a history without underscores and without the empty name, the function is right exactly if the ids of the
vertices have no gap. -/
theorem C101_exact_iff_no_gap (ops : List CGraphOp) (hp : ∀ c ∈ ops, c.1.All NoBar) (hname : "" ∉ (final cppGraphSpec Digraph.empty ops).verts)
    (order : List String → List String) (ho : ∀ l, (order l).Perm l) (source : String) (hs : source ∈ (final cppGraphSpec Digraph.empty ops).verts) :
    EndsIn (fun fuel => cgDijkstra order fuel (final cgStep cgNew ops) source)
      (fun r => ShortestAnswer (final cppGraphSpec Digraph.empty ops) source r.1.1 r.1.2) ↔ NoGap (final cgStep cgNew ops) := by
  constructor
  · intro hend
    apply Classical.byContradiction
    intro hgap
    obtain ⟨n₀, hn⟩ := hend
    obtain ⟨r, e, ha⟩ := hn n₀ (Nat.le_refl _)
    obtain ⟨v, hv, hnone⟩ := C101_gap_partial ops hp hgap hname order _ _ r e
    obtain ⟨x, hx, _⟩ := ha.exact v hv
    rw [hnone] at hx; cases hx
  · intro hg
    obtain ⟨n₀, hn₀⟩ := cgDijkstra_spec (cgHistory CgRep.empty ops hp).2 hg ho hs
    refine ⟨n₀, fun n hle => ?_⟩
    obtain ⟨s, D, dist, pred, e1, _, e2, ha, _⟩ := hn₀ n hle
    exact ⟨((dist, pred), final cgStep cgNew ops), by simp only [cgDijkstra, e1, e2, ok_bind], ha⟩

/-! ## Counterexamples and non-vacuity -/

def exRemoved : List CGraphOp := [.addVertex "a", .addVertex "b", .addVertex "c", .addEdge "b" "c" (some 1), .removeVertex "a"].map inOrder

theorem exRemoved_plain : ∀ c ∈ exRemoved, c.1.All NoBar := by
  simp [exRemoved, inOrder, GraphOp.All, NoBar]

theorem C101_full_false : ¬ C101_full := by
  intro h
  obtain ⟨n₀, hn⟩ := h exRemoved exRemoved_plain "b" (by decide +kernel)
  obtain ⟨r, e, ha⟩ := hn n₀ (Nat.le_refl _)
  obtain ⟨v, hv, hnone⟩ := C101_gap_partial exRemoved exRemoved_plain (by
    intro hg
    have := hg 2 (by decide +kernel)
    exact absurd this (by decide +kernel)) (by decide +kernel) _ _ _ r e
  obtain ⟨x, hx, _⟩ := ha.exact v hv
  rw [hnone] at hx; cases hx

/-- In fact this call is undefined: the vectors have two elements and vertex `c` has the id 2. -/
theorem C101_removed_undefined : ∀ fuel, cgDijkstra (fun l => l) (fuel + 3) (final cgStep cgNew exRemoved) "b" = .error .undefined := by
  intro fuel; rfl

def exPlain : List CGraphOp := [.addVertex "a", .addVertex "b", .addEdge "a" "b" (some 7)].map inOrder

/-- A source that is not a vertex is taken for the first vertex, no exception; and afterwards the graph has a second name for that vertex. -/
theorem C101_unknown_source : ∃ r g', cgDijkstra (fun l => l) 9 (final cgStep cgNew exPlain) "nowhere" = .ok (r, g') ∧
    r.1.val "b" = some (some 7) ∧ cgIsAdjacent (final cgStep cgNew exPlain) "nowhere" "b" = .error .keyError ∧ cgIsAdjacent g' "nowhere" "b" = .ok true :=
  ⟨_, _, rfl, by decide +kernel, by decide +kernel, by decide +kernel⟩

/-- The graph on which the Python function fails (C66). -/
def exDetourC : List CGraphOp := exDetourOps.map inOrder

example : (∀ c ∈ exDetourC, c.1.All NoBar) ∧ KeepsVertices exDetourC ∧ "s" ∈ (final cppGraphSpec Digraph.empty exDetourC).verts := by
  refine ⟨?_, ?_, by decide +kernel⟩
  · simp [exDetourC, exDetourOps, inOrder, GraphOp.All, NoBar]
  · simp [KeepsVertices, exDetourC, exDetourOps, inOrder]

example : (cgDijkstra (fun l => l) 30 (final cgStep cgNew exDetourC) "s").map (fun r => r.1.1.val "e") = .ok (some (some 104)) := by decide +kernel

/-- The hypotheses of `C101_gap_partial` are met; removing the latest vertex leaves no gap. -/
example : ¬ NoGap (final cgStep cgNew exRemoved) := by
  intro hg
  have := hg 2 (by decide +kernel)
  exact absurd this (by decide +kernel)

example : NoGap (final cgStep cgNew ([.addVertex "a", .addVertex "b", .addEdge "a" "b" (some 1), .removeVertex "b"].map inOrder)) := by
  unfold NoGap; decide +kernel

end Props
