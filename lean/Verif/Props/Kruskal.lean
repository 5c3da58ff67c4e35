import Verif.Model.Kruskal
import Verif.Props.Mst
import Verif.Props.GraphMatrix
import Verif.Props.Kahn
import Verif.Props.SortMore

/-! # C63: Kruskal's algorithm -/
namespace Props
open Py Model Spec
set_option linter.unusedSectionVars false

/-- The end points of an edge. -/
def GEdge.pair (e : GEdge) : String × String := (e.source, e.target)

theorem kruskalSets_rep {vs : List String} (hvs : vs.Nodup) : ∃ root, DsuRep (kruskalSets vs) ⟨vs, []⟩ root := by
  have gen : ∀ (l done : List String) (s : Dsu String) (root : String → String), DsuRep s ⟨done, []⟩ root → (done ++ l).Nodup →
      ∃ root, DsuRep (l.foldl dsuMake s) ⟨done ++ l, []⟩ root := by
    intro l
    induction l with
    | nil => intro done s root h _; exact ⟨root, by simpa using h⟩
    | cons v l ih =>
      intro done s root h hn
      obtain ⟨root', h'⟩ := step_rep h (.make v)
      have hv : v ∉ done := by
        intro hv
        exact (List.nodup_append.1 hn).2.2 v hv v (by simp) rfl
      simp only [dsuStep, dsuSpec, hv, if_false] at h'
      obtain ⟨r, h2⟩ := ih (done ++ [v]) _ root' h' (by simpa using hn)
      exact ⟨r, by simpa using h2⟩
  refine gen vs [] dsuNew id ⟨⟨List.nodup_nil, ?_, ?_, ?_⟩, rfl, ?_, ?_⟩ hvs
  all_goals intro a ha; simp [dsuNew] at ha

theorem stableInsert_perm (e : GEdge) : ∀ l, (stableInsert e l).Perm (e :: l) := by
  intro l
  induction l with
  | nil => exact .refl _
  | cons f l ih =>
    rw [stableInsert]
    split
    · exact .refl _
    · exact (ih.cons f).trans (List.Perm.swap e f l)

theorem sortEdges_perm : ∀ l, (sortEdges l).Perm l := by
  intro l
  induction l with
  | nil => exact .refl _
  | cons e l ih => exact (stableInsert_perm e _).trans (ih.cons e)

theorem stableInsert_sorted (e : GEdge) : ∀ l, l.Pairwise (fun a b => a.value ≤ b.value) →
    (stableInsert e l).Pairwise (fun a b => a.value ≤ b.value) := by
  intro l
  induction l with
  | nil => intro _; simp [stableInsert]
  | cons f l ih =>
    intro h
    have h' := List.pairwise_cons.1 h
    rw [stableInsert]
    split
    · rename_i he
      refine List.pairwise_cons.2 ⟨?_, h⟩
      intro g hg
      rcases List.mem_cons.1 hg with rfl | hg
      · exact he
      · have := h'.1 g hg; omega
    · rename_i he
      refine List.pairwise_cons.2 ⟨?_, ih h'.2⟩
      intro g hg
      rcases List.mem_cons.1 ((stableInsert_perm e l).mem_iff.1 hg) with rfl | hg
      · omega
      · exact h'.1 g hg

theorem sortEdges_sorted : ∀ l, (sortEdges l).Pairwise (fun a b => a.value ≤ b.value) := by
  intro l
  induction l with
  | nil => exact .nil
  | cons e l ih => exact stableInsert_sorted e _ ih

section
variable {μ : Type} {addEdge : μ → String → String → Option Int → PyM μ}

/-- The loop of Kruskal's algorithm on a list of edges sorted by weight, for any graph object with the invariant `I`. -/
theorem kruskal_loop {vs : List String} {E : List GEdge} (I : μ → List GEdge → Prop)
    (hE : ∀ e ∈ E, e.source ∈ vs ∧ e.target ∈ vs)
    (hadd : ∀ m K e, I m K → e.source ∈ vs → e.target ∈ vs → ¬ Connects GEdge.pair K e.source e.target →
      ∃ m1 m2, addEdge m e.source e.target (some e.value) = .ok m1 ∧ addEdge m1 e.target e.source (some e.value) = .ok m2 ∧ I m2 (e :: K)) :
    ∀ (rest done : List GEdge) (m : μ) (K : List GEdge) (s : Dsu String) (root : String → String),
      E.Perm (done ++ rest) → rest.Pairwise (fun a b => a.value ≤ b.value) →
      I m K → DsuRep s ⟨vs, (K.map GEdge.pair).reverse⟩ root → Forest GEdge.pair K → Promising GEdge.pair GEdge.value E K →
      (∀ e ∈ K, e ∈ E) → (∀ e ∈ done, Connects GEdge.pair K e.source e.target) →
      ∃ m' K' s', forList rest (m, s) (fun e st => kruskalEdge addEdge e st) = .ok (m', s') ∧ I m' K' ∧
        MinSpanningForest GEdge.pair GEdge.value E K' := by
  intro rest
  induction rest with
  | nil =>
    intro done m K s root hp _ hI _ hf hpr hsub hd
    refine ⟨m, K, s, rfl, hI, hpr.least ⟨hsub, hf, ?_⟩⟩
    intro x y c
    exact c.sub fun e he => hd e (by simpa using hp.mem_iff.1 he)
  | cons e rest ih =>
    intro done m K s root hp hsort hI hr hf hpr hsub hd
    have heE : e ∈ E := hp.mem_iff.2 (by simp)
    obtain ⟨h1, h2⟩ := hE e heE
    have k1 : e.source ∈ s.keys := by rw [hr.keys]; exact h1
    have k2 : e.target ∈ s.keys := by rw [hr.keys]; exact h2
    have hp' : E.Perm ((done ++ [e]) ++ rest) := by simpa using hp
    have hrel := hr.rel e.source h1 e.target h2
    have hrev : ∀ {K : List GEdge} {x y}, Joined (K.map GEdge.pair).reverse x y ↔ Connects GEdge.pair K x y := by
      intro K x y
      exact ⟨fun j => j.mono (by simp), fun j => Joined.mono (by simp) j⟩
    rw [hrev] at hrel
    rw [forList, kruskalEdge, find_eq hr.ok k1, ok_bind]
    dsimp only
    rw [find_eq hr.ok k2, ok_bind]
    dsimp only
    by_cases hroot : root e.source = root e.target
    · rw [if_neg (by simp [hroot]), ok_bind]
      exact ih (done ++ [e]) m K s root hp' (List.pairwise_cons.1 hsort).2 hI hr hf hpr hsub (by
        intro f hf'
        rcases List.mem_append.1 hf' with h | h
        · exact hd f h
        · have : f = e := by simpa using h
          rw [this]; exact hrel.1 hroot)
    · rw [if_pos hroot]
      have hnc : ¬ Connects GEdge.pair K e.source e.target := fun c => hroot (hrel.2 c)
      obtain ⟨m1, m2, a1, a2, hI'⟩ := hadd m K e hI h1 h2 hnc
      rw [a1, ok_bind, a2, ok_bind]
      obtain ⟨s', root', e', u1, u2, u3⟩ := union_ok hr.ok k1 k2
      rw [e', ok_bind, ok_bind]
      rw [hr.keys] at u3
      have hr' : DsuRep s' ⟨vs, ((e :: K).map GEdge.pair).reverse⟩ root' := by
        refine ⟨u1, by rw [u2, hr.keys], ?_, ?_⟩
        · intro q hq
          simp only [List.map_cons, List.reverse_cons, List.mem_append, List.mem_singleton] at hq
          rcases hq with hq | rfl
          · exact hr.pairs q hq
          · exact ⟨h1, h2⟩
        · have := rel_extend h1 h2 hr.pairs hr.rel u3
          simpa [GEdge.pair] using this
      refine ih (done ++ [e]) m2 (e :: K) s' root' hp' (List.pairwise_cons.1 hsort).2 hI' hr' (hf.cons hnc) ?_ ?_ ?_
      · refine hpr.cut (fun v => Connects GEdge.pair K e.source v) ?_ heE ?_ ?_
        · intro c hc hx
          exact hx ⟨fun j => j.trans (.edge hc), fun j => j.trans (Connects.symm (.edge hc))⟩
        · intro hx
          exact hnc (hx.1 (.refl _))
        · intro f hf' hx
          rcases List.mem_append.1 (hp.mem_iff.1 hf') with h | h
          · exact absurd ⟨fun j => Connects.trans j (hd f h), fun j => Connects.trans j (Connects.symm (hd f h))⟩ hx
          · rcases List.mem_cons.1 h with rfl | h
            · exact Int.le_refl _
            · exact (List.pairwise_cons.1 hsort).1 f h
      · intro f hf'
        rcases List.mem_cons.1 hf' with rfl | hf'
        · exact heE
        · exact hsub f hf'
      · intro f hf'
        rcases List.mem_append.1 hf' with h | h
        · exact (hd f h).mono (by simp +contextual)
        · have : f = e := by simpa using h
          rw [this]; exact .edge (by simp)

theorem kruskal_spec {vs : List String} (hvs : vs.Nodup) {E : List GEdge} (I : μ → List GEdge → Prop) {m : μ}
    (hE : ∀ e ∈ E, e.source ∈ vs ∧ e.target ∈ vs) (h0 : I m [])
    (hadd : ∀ m K e, I m K → e.source ∈ vs → e.target ∈ vs → ¬ Connects GEdge.pair K e.source e.target →
      ∃ m1 m2, addEdge m e.source e.target (some e.value) = .ok m1 ∧ addEdge m1 e.target e.source (some e.value) = .ok m2 ∧ I m2 (e :: K)) :
    ∃ m' K, kruskal addEdge m vs E = .ok m' ∧ I m' K ∧ MinSpanningForest GEdge.pair GEdge.value E K := by
  obtain ⟨root, hr⟩ := kruskalSets_rep hvs
  obtain ⟨m', K, s', e, hI, hm⟩ := kruskal_loop I hE hadd (sortEdges E) [] m [] _ root
    (by simpa using (sortEdges_perm E).symm) (sortEdges_sorted E) h0 (by simpa using hr) (by intro f F hp; simpa using hp.length_eq)
    (.nil E) (by simp) (by simp)
  exact ⟨m', K, by rw [kruskal, e]; rfl, hI, hm⟩

theorem forList_some : ∀ (l : List GEdge) (st : μ × Dsu String),
    forList (l.map some) st (fun e st => kruskalCell addEdge e st) = forList l st (fun e st => kruskalEdge addEdge e st) := by
  intro l
  induction l with
  | nil => intro st; rfl
  | cons x l ih =>
    intro st
    rw [List.map_cons, forList, forList, kruskalCell]
    cases kruskalEdge addEdge x st with
    | error => rfl
    | ok st' => exact ih st'

theorem allSome {α : Type} {b : List (Option α)} (h : ∀ x ∈ b, x.isSome) : b = (b.filterMap id).map some := by
  induction b with
  | nil => rfl
  | cons x b ih =>
    obtain ⟨y, rfl⟩ := Option.isSome_iff_exists.1 (h x (by simp))
    have := ih (fun z hz => h z (by simp [hz]))
    simp only [List.filterMap_cons, id, List.map_cons]; rw [← this]

theorem kruskalParallel_spec {vs : List String} (hvs : vs.Nodup) {E : List GEdge} (hne : E ≠ []) (I : μ → List GEdge → Prop) {m : μ}
    (hE : ∀ e ∈ E, e.source ∈ vs ∧ e.target ∈ vs) (h0 : I m [])
    (hadd : ∀ m K e, I m K → e.source ∈ vs → e.target ∈ vs → ¬ Connects GEdge.pair K e.source e.target →
      ∃ m1 m2, addEdge m e.source e.target (some e.value) = .ok m1 ∧ addEdge m1 e.target e.source (some e.value) = .ok m2 ∧ I m2 (e :: K)) :
    ∃ m' K, EndsWith (fun fuel => kruskalParallel addEdge m vs E fuel) (.ok m') ∧ I m' K ∧ MinSpanningForest GEdge.pair GEdge.value E K := by
  obtain ⟨root, hr⟩ := kruskalSets_rep hvs
  obtain ⟨b, ⟨n0, hb⟩, ⟨hperm, _⟩, hsorted⟩ := C04_merge_sort (fun u v : GEdge => decide (u.value ≤ v.value)) (fun u v => u.value ≤ v.value)
    ⟨by intro a b; omega, by intro a b c h1 h2; omega⟩ ⟨by simp, by intro a b h; simp at h; omega⟩ (E.map some) 0 E.length
    (List.length_pos_iff.2 hne) (by simp)
  obtain ⟨c, rfl⟩ : ∃ c : List GEdge, b = c.map some := by
    refine ⟨b.filterMap id, ?_⟩
    have : ∀ x ∈ b, x.isSome := by
      intro x hx
      have := hperm.mem_iff.1 hx
      obtain ⟨y, _, rfl⟩ := List.mem_map.1 this
      rfl
    exact allSome this
  have hcp : E.Perm c := by
    have := (hperm.filterMap id).symm
    simpa [List.filterMap_map] using this
  have hs : c.Pairwise fun a b => a.value ≤ b.value := by
    rw [List.pairwise_iff_getElem]
    intro i j hi hj hij
    have := hsorted i j (some c[i]) (some c[j]) (by omega) hij (by rw [hcp.length_eq]; exact hj) (by simp [hi]) (by simp [hj])
    exact this
  obtain ⟨m', K, s', e, hI, hm⟩ := kruskal_loop I hE hadd c [] m [] _ root
    (by simpa using hcp) hs h0 (by simpa using hr) (by intro f F hp; simpa using hp.length_eq) (.nil E) (by simp) (by simp)
  refine ⟨m', K, ⟨n0, fun n hn => ?_⟩, hI, hm⟩
  show kruskalParallel addEdge m vs E n = _
  rw [kruskalParallel, show mergeSort (fun u v : GEdge => decide (u.value ≤ v.value)) n (E.map some) 0 E.length = _ from hb n hn, ok_bind,
    forList_some, e]
  rfl

end

/-! ## The graph that is built -/

/-- `K` has an edge of weight `c` between `s` and `t`. -/
def TreeEdge (K : List GEdge) (s t : String) (c : Int) : Prop :=
  ∃ e ∈ K, e.value = c ∧ ((e.source = s ∧ e.target = t) ∨ (e.source = t ∧ e.target = s))

theorem TreeEdge.connects {K : List GEdge} {s t : String} {c : Int} (h : TreeEdge K s t c) : Connects GEdge.pair K s t := by
  obtain ⟨e, he, _, ⟨rfl, rfl⟩ | ⟨rfl, rfl⟩⟩ := h
  · exact .edge he
  · exact Connects.symm (.edge he)

/-- The digraph `d0` with the edges of `K` added in both directions; the costs are those of `K` only. -/
structure TreeGraph (d0 d : Digraph) (K : List GEdge) : Prop where
  verts : d.verts = d0.verts
  edges : ∀ s t, (s, t) ∈ d.edges ↔ (s, t) ∈ d0.edges ∨ ∃ c, TreeEdge K s t c
  cost : ∀ s t c, d.cost s t = some c ↔ TreeEdge K s t c

/-- The digraph after the two calls of `add_edge`. -/
def bothWays (d : Digraph) (e : GEdge) : Digraph :=
  (digraphSpec (digraphSpec d (.addEdge e.source e.target (some e.value))).1 (.addEdge e.target e.source (some e.value))).1

theorem TreeGraph.add {d0 d : Digraph} {K : List GEdge} (h : TreeGraph d0 d K) {e : GEdge} (h1 : e.source ∈ d0.verts) (h2 : e.target ∈ d0.verts)
    (hn : ¬ Connects GEdge.pair K e.source e.target) : TreeGraph d0 (bothWays d e) (e :: K) := by
  have hno : ∀ c, ¬ TreeEdge K e.source e.target c := fun c ht => hn ht.connects
  have hno' : ∀ c, ¬ TreeEdge K e.target e.source c := fun c ht => hn ht.connects.symm
  have ht : ∀ s t c, TreeEdge (e :: K) s t c ↔ TreeEdge K s t c ∨ (e.value = c ∧ ((e.source = s ∧ e.target = t) ∨ (e.source = t ∧ e.target = s))) := by
    intro s t c
    constructor
    · rintro ⟨f, hf, h⟩
      rcases List.mem_cons.1 hf with rfl | hf
      · exact Or.inr h
      · exact Or.inl ⟨f, hf, h⟩
    · rintro (⟨f, hf, h⟩ | h)
      · exact ⟨f, by simp [hf], h⟩
      · exact ⟨e, by simp, h⟩
  have e1 : e.source ∈ d.verts := by rw [h.verts]; exact h1
  have e2 : e.target ∈ d.verts := by rw [h.verts]; exact h2
  refine ⟨?_, ?_, ?_⟩
  · simp only [bothWays, digraphSpec, e1, e2, and_self, if_true]; exact h.verts
  · intro s t
    have hm : (s, t) ∈ (bothWays d e).edges ↔ (s, t) ∈ d.edges ∨ (s, t) = (e.source, e.target) ∨ (s, t) = (e.target, e.source) := by
      simp only [bothWays, digraphSpec, e1, e2, and_self, if_true]
      split <;> split <;> grind
    rw [hm, h.edges]
    simp only [ht]
    constructor
    · rintro ((h | ⟨c, h⟩) | h | h)
      · exact Or.inl h
      · exact Or.inr ⟨c, Or.inl h⟩
      · injection h with a b
        exact Or.inr ⟨_, Or.inr ⟨rfl, Or.inl ⟨a.symm, b.symm⟩⟩⟩
      · injection h with a b
        exact Or.inr ⟨_, Or.inr ⟨rfl, Or.inr ⟨b.symm, a.symm⟩⟩⟩
    · rintro (h | ⟨c, h | ⟨_, ⟨a, b⟩ | ⟨a, b⟩⟩⟩)
      · exact Or.inl (Or.inl h)
      · exact Or.inl (Or.inr ⟨c, h⟩)
      · exact Or.inr (Or.inl (by rw [a, b]))
      · exact Or.inr (Or.inr (by rw [a, b]))
  · intro s t c
    rw [ht, ← h.cost]
    have hc1 : d.cost e.source e.target = none := by
      cases hh : d.cost e.source e.target with
      | none => rfl
      | some c => exact absurd ((h.cost _ _ _).1 hh) (hno c)
    have hc2 : d.cost e.target e.source = none := by
      cases hh : d.cost e.target e.source with
      | none => rfl
      | some c => exact absurd ((h.cost _ _ _).1 hh) (hno' c)
    simp only [bothWays, digraphSpec, e1, e2, and_self, if_true]
    grind

theorem gUpd_done {σ : Type} {s : σ} {r : PyM σ} (h : (gUpd s r).2 = .done) : r = .ok (gUpd s r).1 := by
  cases r with
  | ok x => rfl
  | error e => simp [gUpd] at h

section
variable {gAttr nAttr : String → Bool}

/-- What the adjacency list shows of the edges chosen so far. -/
def ListShows (d0 : Digraph) (m : AList) (K : List GEdge) : Prop :=
  ∃ d, AlRep m d ∧ AlWeights (fun v => v ∈ d0.verts) m d ∧ TreeGraph d0 d K

theorem alAddEdge_ok {P : String → Prop} (hP : Separable P) {m : AList} {d : Digraph} (h : AlRep m d) (hw : AlWeights P m d) {s t : String}
    (hs : s ∈ d.verts) (ht : t ∈ d.verts) (ps : P s) (pt : P t) (pls : Plain gAttr nAttr s) (plt : Plain gAttr nAttr t) (c : Int) :
    ∃ m', alAddEdge gAttr nAttr m s t (some c) = .ok m' ∧ AlRep m' (digraphSpec d (.addEdge s t (some c))).1 ∧
      AlWeights P m' (digraphSpec d (.addEdge s t (some c))).1 := by
  obtain ⟨o, hr⟩ := alStep_structure (gAttr := gAttr) (nAttr := nAttr) h (.addEdge s t (some c)) ⟨pls, plt⟩ (by intro a b e; cases e)
  have hw' := alStep_weights (gAttr := gAttr) (nAttr := nAttr) hP h hw (.addEdge s t (some c)) ⟨pls, plt⟩ ⟨ps, pt⟩ (by intro v e; cases e)
  have ho : (digraphSpec d (.addEdge s t (some c))).2 = .done := by simp [digraphSpec, hs, ht]
  rw [ho] at o
  exact ⟨_, gUpd_done o, hr, hw'⟩

theorem list_add {d0 : Digraph} (hP : Separable fun v => v ∈ d0.verts) (hpl : ∀ v ∈ d0.verts, Plain gAttr nAttr v) :
    ∀ (m : AList) (K : List GEdge) (e : GEdge), ListShows d0 m K → e.source ∈ d0.verts → e.target ∈ d0.verts →
      ¬ Connects GEdge.pair K e.source e.target →
      ∃ m1 m2, alAddEdge gAttr nAttr m e.source e.target (some e.value) = .ok m1 ∧
        alAddEdge gAttr nAttr m1 e.target e.source (some e.value) = .ok m2 ∧ ListShows d0 m2 (e :: K) := by
  rintro m K e ⟨d, hr, hw, ht⟩ h1 h2 hn
  obtain ⟨m1, a1, r1, w1⟩ := alAddEdge_ok (gAttr := gAttr) (nAttr := nAttr) hP hr hw (ht.verts ▸ h1) (ht.verts ▸ h2) h1 h2 (hpl _ h1) (hpl _ h2) e.value
  have hv : (digraphSpec d (.addEdge e.source e.target (some e.value))).1.verts = d0.verts := by
    simp only [digraphSpec]; split <;> exact ht.verts
  obtain ⟨m2, a2, r2, w2⟩ := alAddEdge_ok (gAttr := gAttr) (nAttr := nAttr) hP r1 w1 (hv ▸ h2) (hv ▸ h1) h2 h1 (hpl _ h2) (hpl _ h1) e.value
  exact ⟨m1, m2, a1, a2, _, r2, w2, ht.add h1 h2 hn⟩

/-- `items` are the values of `edge_weights`: the edges with a cost. -/
def ListItems (g : AList) (items : List GEdge) : Prop :=
  ∀ e, e ∈ items ↔ e.source ∈ g.vertices ∧ e.target ∈ g.vertices ∧ alGetEdge g e.source e.target = some e

/-- What a minimum spanning forest of `items` looks like through `get_edge` of the adjacency list `m`. -/
structure KruskalList (g : AList) (items : List GEdge) (m : AList) (K : List GEdge) : Prop where
  least : MinSpanningForest GEdge.pair GEdge.value items K
  verts : m.vertices = g.vertices
  get : ∀ s ∈ g.vertices, ∀ t ∈ g.vertices, ∀ c, alGetEdge m s t = some ⟨s, t, c⟩ ↔ TreeEdge K s t c
  shape : ∀ s ∈ g.vertices, ∀ t ∈ g.vertices, ∀ x, alGetEdge m s t = some x → x.source = s ∧ x.target = t

theorem ListShows.result {g : AList} {d0 : Digraph} (h : AlRep g d0) {items : List GEdge} {m : AList} {K : List GEdge} (hs : ListShows d0 m K)
    (hm : MinSpanningForest GEdge.pair GEdge.value items K) : KruskalList g items m K ∧
      ∀ v ∈ g.vertices, ∃ l old, alNeighbors m v = .ok l ∧ alNeighbors g v = .ok old ∧ ∀ u, u ∈ l ↔ u ∈ old ∨ ∃ c, TreeEdge K v u c := by
  obtain ⟨d, hr, hw, ht⟩ := hs
  refine ⟨⟨hm, by rw [hr.verts, h.verts, ht.verts], ?_, ?_⟩, ?_⟩
  · intro s hs t ht' c
    rw [h.verts] at hs ht'
    rw [alGetEdge, hw.get s t hs ht', ← ht.cost]
    cases d.cost s t <;> simp
  · intro s hs t ht' x hx
    rw [h.verts] at hs ht'
    rw [alGetEdge, hw.get s t hs ht'] at hx
    cases hd : d.cost s t with
    | none => rw [hd] at hx; cases hx
    | some c => rw [hd] at hx; simp at hx; subst hx; exact ⟨rfl, rfl⟩
  · intro v hv
    rw [h.verts] at hv
    refine ⟨d.nbrs v, d0.nbrs v, ?_, ?_, ?_⟩
    · rw [alNeighbors_of hr, if_pos (ht.verts ▸ hv)]
    · rw [alNeighbors_of h, if_pos hv]
    · intro u
      rw [mem_nbrs, mem_nbrs, ht.edges]

theorem mstObjectList_shows {g : AList} {d : Digraph} (h : AlRep g d) : ListShows d (mstObjectList g) [] := by
  refine ⟨⟨d.verts, d.edges, fun _ _ => none⟩, ⟨h.verts, h.nodup, ?_, h.ends, h.enodup⟩, ⟨fun s t _ _ => rfl⟩, rfl, ?_, ?_⟩
  · intro v; exact h.adj v
  · intro s t; simp [TreeEdge]
  · intro s t c; simp [TreeEdge]

/-- C63 for adjacency lists (names that are not reserved and whose edge keys do not collide): Kruskal's algorithm succeeds, and the edges
that have a cost in the result are, in both directions, those of a minimum spanning forest. What is missing: `neighbors` of the result also
lists the neighbours of the input graph (`C63_full_false`). -/
theorem C63_kruskal_list_partial {g : AList} {d : Digraph} (h : AlRep g d) (hP : Separable fun v => v ∈ g.vertices)
    (hpl : ∀ v ∈ g.vertices, Plain gAttr nAttr v) {items : List GEdge} (hi : ListItems g items) :
    ∃ m K, kruskal (alAddEdge gAttr nAttr) (mstObjectList g) g.vertices items = .ok m ∧ KruskalList g items m K ∧
      ∀ v ∈ g.vertices, ∃ l old, alNeighbors m v = .ok l ∧ alNeighbors g v = .ok old ∧ ∀ u, u ∈ l ↔ u ∈ old ∨ ∃ c, TreeEdge K v u c := by
  rw [h.verts] at hP hpl
  obtain ⟨m, K, e, hI, hm⟩ := kruskal_spec (addEdge := alAddEdge gAttr nAttr) (vs := g.vertices) (h.verts ▸ h.nodup) (ListShows d)
    (fun e he => ⟨((hi e).1 he).1, ((hi e).1 he).2.1⟩) (mstObjectList_shows h)
    (by intro m K e a b c; rw [h.verts] at b c; exact list_add hP hpl m K e a b c)
  exact ⟨m, K, e, hI.result h hm⟩

/-- C63, parallel version: the same for the edges sorted by `merge_sort_parallel`, if there is an edge. -/
theorem C63_kruskal_parallel_list_partial {g : AList} {d : Digraph} (h : AlRep g d) (hP : Separable fun v => v ∈ g.vertices)
    (hpl : ∀ v ∈ g.vertices, Plain gAttr nAttr v) {items : List GEdge} (hi : ListItems g items) (hne : items ≠ []) :
    ∃ m K, EndsWith (fun fuel => kruskalParallel (alAddEdge gAttr nAttr) (mstObjectList g) g.vertices items fuel) (.ok m) ∧
      KruskalList g items m K ∧
      ∀ v ∈ g.vertices, ∃ l old, alNeighbors m v = .ok l ∧ alNeighbors g v = .ok old ∧ ∀ u, u ∈ l ↔ u ∈ old ∨ ∃ c, TreeEdge K v u c := by
  rw [h.verts] at hP hpl
  obtain ⟨m, K, e, hI, hm⟩ := kruskalParallel_spec (addEdge := alAddEdge gAttr nAttr) (vs := g.vertices) (h.verts ▸ h.nodup) hne (ListShows d)
    (fun e he => ⟨((hi e).1 he).1, ((hi e).1 he).2.1⟩) (mstObjectList_shows h)
    (by intro m K e a b c; rw [h.verts] at b c; exact list_add hP hpl m K e a b c)
  exact ⟨m, K, e, hI.result h hm⟩

/-- The parallel version raises `ValueError` when there are no edges (`math.log(0, 2)` in `merge_sort_parallel`). -/
theorem C63_kruskal_parallel_no_edges {μ : Type} (addEdge : μ → String → String → Option Int → PyM μ) (m : μ) (vs : List String) (fuel : Nat) :
    kruskalParallel addEdge m vs [] fuel = .error .valueError := rfl

end

/-! ## Adjacency matrices -/

/-- `items` are the values of `edge_weights`. -/
def MatrixItems (g : AMat) (items : List GEdge) : Prop :=
  ∀ e, e ∈ items ↔ e.source ∈ g.vertices ∧ e.target ∈ g.vertices ∧ amGetEdge g e.source e.target = some e

/-- The adjacency matrix `m` is a minimum spanning forest of `items`, in both directions, and nothing else. -/
structure KruskalMatrix (g : AMat) (items : List GEdge) (m : AMat) (K : List GEdge) : Prop where
  least : MinSpanningForest GEdge.pair GEdge.value items K
  verts : m.vertices = g.vertices
  get : ∀ s ∈ g.vertices, ∀ t ∈ g.vertices, ∀ c, amGetEdge m s t = some ⟨s, t, c⟩ ↔ TreeEdge K s t c
  shape : ∀ s ∈ g.vertices, ∀ t ∈ g.vertices, ∀ x, amGetEdge m s t = some x → x.source = s ∧ x.target = t
  neighbors : ∀ v u, u ∈ amNeighbors m v ↔ ∃ c, TreeEdge K v u c
  adjacent : ∀ v u, amIsAdjacent m v u = true ↔ ∃ c, TreeEdge K v u c
  count : amNumEdges m = 2 * K.length

def MatrixShows (vs : List String) (m : AMat) (K : List GEdge) : Prop :=
  ∃ d ever, AmRep (fun v => v ∈ vs) m d ever ∧ TreeGraph ⟨vs, [], fun _ _ => none⟩ d K ∧ (∀ e ∈ ever, e ∈ d.edges) ∧ ever.length = 2 * K.length

theorem amAddEdge_ok {P : String → Prop} (hP : Separable P) {m : AMat} {d : Digraph} {ever} (h : AmRep P m d ever) {s t : String}
    (hs : s ∈ d.verts) (ht : t ∈ d.verts) (ps : P s) (pt : P t) (c : Int) :
    ∃ m', amAddEdge m s t (some c) = .ok m' ∧ AmRep P m' (digraphSpec d (.addEdge s t (some c))).1
      (everStep d.verts ever (.addEdge s t (some c))) := by
  obtain ⟨o, hr⟩ := amStep_ok hP h (.addEdge s t (some c)) (fun _ => ⟨ps, pt⟩)
  have ho : (fixedSpec d (.addEdge s t (some c))).2 = .done := by simp [fixedSpec, digraphSpec, hs, ht]
  have o := o (by intro e; cases e) ⟨ps, pt⟩
  rw [ho] at o
  refine ⟨_, gUpd_done ?_, hr⟩
  cases hh : amAddEdge m s t (some c) with
  | ok m' => rfl
  | error e => simp [amStep, hh, gUpd, SameOut] at o

theorem matrix_add {vs : List String} (hP : Separable fun v => v ∈ vs) :
    ∀ (m : AMat) (K : List GEdge) (e : GEdge), MatrixShows vs m K → e.source ∈ vs → e.target ∈ vs →
      ¬ Connects GEdge.pair K e.source e.target →
      ∃ m1 m2, amAddEdge m e.source e.target (some e.value) = .ok m1 ∧
        amAddEdge m1 e.target e.source (some e.value) = .ok m2 ∧ MatrixShows vs m2 (e :: K) := by
  rintro m K e ⟨d, ever, hr, ht, he, hl⟩ h1 h2 hn
  have hdv : d.verts = vs := ht.verts
  obtain ⟨m1, a1, r1⟩ := amAddEdge_ok hP hr (hdv ▸ h1) (hdv ▸ h2) h1 h2 e.value
  have hv : (digraphSpec d (.addEdge e.source e.target (some e.value))).1.verts = vs := by
    simp only [digraphSpec]; split <;> exact ht.verts
  obtain ⟨m2, a2, r2⟩ := amAddEdge_ok hP r1 (hv ▸ h2) (hv ▸ h1) h2 h1 e.value
  have hT := ht.add h1 h2 hn
  have hne : e.source ≠ e.target := fun h => hn (h ▸ .refl _)
  have n1 : (e.source, e.target) ∉ ever := by
    intro h
    rcases (ht.edges _ _).1 (he _ h) with h | ⟨c, h⟩
    · simp at h
    · exact hn h.connects
  have n2 : (e.target, e.source) ∉ ever := by
    intro h
    rcases (ht.edges _ _).1 (he _ h) with h | ⟨c, h⟩
    · simp at h
    · exact hn h.connects.symm
  rw [hv] at r2
  have hev : everStep vs (everStep d.verts ever (.addEdge e.source e.target (some e.value))) (.addEdge e.target e.source (some e.value)) =
      ever ++ [(e.source, e.target), (e.target, e.source)] := by
    simp only [everStep, hdv, h1, h2, true_and, n1, not_false_iff, if_true]
    rw [if_pos]
    · simp
    · simp only [List.mem_append, List.mem_singleton, not_or]
      exact ⟨n2, fun h => hne (by injection h)⟩
  rw [hev] at r2
  refine ⟨m1, m2, a1, a2, _, _, r2, hT, ?_, ?_⟩
  · intro q hq
    rcases List.mem_append.1 hq with hq | hq
    · have := (ht.edges q.1 q.2).1 (he q hq)
      rcases this with h | ⟨c, f, hf, h⟩
      · simp at h
      · exact (hT.edges q.1 q.2).2 (Or.inr ⟨c, f, by simp [hf], h⟩)
    · simp only [List.mem_cons, List.not_mem_nil, or_false] at hq
      rcases hq with rfl | rfl
      · exact (hT.edges _ _).2 (Or.inr ⟨_, e, by simp, rfl, Or.inl ⟨rfl, rfl⟩⟩)
      · exact (hT.edges _ _).2 (Or.inr ⟨_, e, by simp, rfl, Or.inr ⟨rfl, rfl⟩⟩)
  · simp [hl]; omega

theorem MatrixShows.result {g : AMat} {items : List GEdge} {m : AMat} {K : List GEdge} (hs : MatrixShows g.vertices m K)
    (hm : MinSpanningForest GEdge.pair GEdge.value items K) : KruskalMatrix g items m K := by
  obtain ⟨d, ever, hr, ht, he, hl⟩ := hs
  have hed : ∀ v u, (v, u) ∈ d.edges ↔ ∃ c, TreeEdge K v u c := by
    intro v u
    rw [ht.edges]; simp
  refine ⟨hm, by rw [hr.verts, ht.verts], ?_, ?_, ?_, ?_, by rw [numEdges_ever hr, hl]⟩
  · intro s hs t ht' c
    rw [amGetEdge, hr.get s t hs ht', ← ht.cost]
    cases d.cost s t <;> simp
  · intro s hs t ht' x hx
    rw [amGetEdge, hr.get s t hs ht'] at hx
    cases hd : d.cost s t with
    | none => rw [hd] at hx; cases hx
    | some c => rw [hd] at hx; simp at hx; subst hx; exact ⟨rfl, rfl⟩
  · intro v u
    rw [(neighbors_perm hr v).mem_iff, mem_nbrs, hed]
  · intro v u
    rw [rowGet_of hr, decide_eq_true_eq, hed]

theorem mstObjectMatrix_shows (g : AMat) (hvs : g.vertices.Nodup) : MatrixShows g.vertices (mstObjectMatrix g) [] :=
  ⟨_, [], amNew_rep _ _ hvs, ⟨rfl, by simp [TreeEdge], by simp [TreeEdge]⟩, by simp, rfl⟩

/-- C63 for adjacency matrices (names whose edge keys do not collide): the result is a minimum spanning forest, in both directions, and
nothing else. -/
theorem C63_kruskal_matrix (g : AMat) (hvs : g.vertices.Nodup) (hP : Separable fun v => v ∈ g.vertices) {items : List GEdge}
    (hi : MatrixItems g items) :
    ∃ m K, kruskal amAddEdge (mstObjectMatrix g) g.vertices items = .ok m ∧ KruskalMatrix g items m K := by
  obtain ⟨m, K, e, hI, hm⟩ := kruskal_spec (addEdge := amAddEdge) hvs (MatrixShows g.vertices)
    (fun e he => ⟨((hi e).1 he).1, ((hi e).1 he).2.1⟩) (mstObjectMatrix_shows g hvs) (matrix_add hP)
  exact ⟨m, K, e, hI.result hm⟩

/-- C63, parallel version for adjacency matrices. -/
theorem C63_kruskal_parallel_matrix (g : AMat) (hvs : g.vertices.Nodup) (hP : Separable fun v => v ∈ g.vertices) {items : List GEdge}
    (hi : MatrixItems g items) (hne : items ≠ []) :
    ∃ m K, EndsWith (fun fuel => kruskalParallel amAddEdge (mstObjectMatrix g) g.vertices items fuel) (.ok m) ∧ KruskalMatrix g items m K := by
  obtain ⟨m, K, e, hI, hm⟩ := kruskalParallel_spec (addEdge := amAddEdge) hvs hne (MatrixShows g.vertices)
    (fun e he => ⟨((hi e).1 he).1, ((hi e).1 he).2.1⟩) (mstObjectMatrix_shows g hvs) (matrix_add hP)
  exact ⟨m, K, e, hI.result hm⟩

/-! ## Non-vacuity, and the defect for adjacency lists -/

/-- A triangle with weights 1, 2, 5, each edge in both directions. -/
def exTriangleOps : List GraphOp := [.addVertex "a", .addVertex "b", .addVertex "c", .addEdge "a" "b" (some 1), .addEdge "b" "a" (some 1),
  .addEdge "b" "c" (some 2), .addEdge "c" "b" (some 2), .addEdge "a" "c" (some 5), .addEdge "c" "a" (some 5)]
def exTriangle : AList := final (alStep exGAttr exNAttr) alNew exTriangleOps
def exTriangleItems : List GEdge := [⟨"a", "b", 1⟩, ⟨"b", "a", 1⟩, ⟨"b", "c", 2⟩, ⟨"c", "b", 2⟩, ⟨"a", "c", 5⟩, ⟨"c", "a", 5⟩]

/-- The property in full: the graph returned has exactly the edges of the forest, in both directions. -/
def C63_full : Prop := ∀ (g : AList) (d : Digraph) (items : List GEdge), AlRep g d → (Separable fun v => v ∈ g.vertices) →
  (∀ v ∈ g.vertices, Plain exGAttr exNAttr v) → ListItems g items →
  ∃ m K, kruskal (alAddEdge exGAttr exNAttr) (mstObjectList g) g.vertices items = .ok m ∧ KruskalList g items m K ∧
    ∀ v ∈ g.vertices, ∃ l, alNeighbors m v = .ok l ∧ ∀ u, u ∈ l ↔ ∃ c, TreeEdge K v u c


theorem exTriangle_rep : AlRep exTriangle (final digraphSpec Digraph.empty exTriangleOps) :=
  al_history_rep exTriangleOps (by
    intro op h
    simp only [exTriangleOps, List.mem_cons, List.not_mem_nil, or_false] at h
    rcases h with rfl | rfl | rfl | rfl | rfl | rfl | rfl | rfl | rfl <;> simp only [GraphOp.All, Plain] <;> decide) (by
    intro op h s t e; subst e; simp [exTriangleOps] at h)

theorem exTriangle_sep : Separable fun v => v ∈ exTriangle.vertices := by
  have : exTriangle.vertices = ["a", "b", "c"] := by decide +kernel
  rw [this]
  have key : ∀ v ∈ ["a", "b", "c"], '_' ∉ v.toList := by decide
  intro s t s' t' h1 h2 h3 h4 h
  exact separable_noUnderscore s t s' t' (key s h1) (key t h2) (key s' h3) (key t' h4) h

theorem exTriangle_plain : ∀ v ∈ exTriangle.vertices, Plain exGAttr exNAttr v := by
  have : exTriangle.vertices = ["a", "b", "c"] := by decide +kernel
  rw [this]
  intro v hv
  simp only [List.mem_cons, List.not_mem_nil, or_false] at hv
  rcases hv with rfl | rfl | rfl <;> exact ⟨by decide, by decide⟩

theorem exTriangle_items : ListItems exTriangle exTriangleItems := by
  have : exTriangle.vertices = ["a", "b", "c"] := by decide +kernel
  have key : ∀ s ∈ ["a", "b", "c"], ∀ t ∈ ["a", "b", "c"], alGetEdge exTriangle s t = exTriangleItems.find? fun e => e.source = s ∧ e.target = t := by
    decide +kernel
  intro e
  rw [this]
  constructor
  · intro h
    have : ∀ e ∈ exTriangleItems, e.source ∈ ["a", "b", "c"] ∧ e.target ∈ ["a", "b", "c"] ∧
        (exTriangleItems.find? fun f => f.source = e.source ∧ f.target = e.target) = some e := by decide
    obtain ⟨h1, h2, h3⟩ := this e h
    exact ⟨h1, h2, by rw [key _ h1 _ h2, h3]⟩
  · rintro ⟨h1, h2, h3⟩
    rw [key _ h1 _ h2] at h3
    exact List.mem_of_find?_eq_some h3

/-- The hypotheses of the theorems are met, and the tree has the edges of weight 1 and 2. -/
example : (kruskal (alAddEdge exGAttr exNAttr) (mstObjectList exTriangle) exTriangle.vertices exTriangleItems).map
    (fun m => [alGetEdge m "a" "b", alGetEdge m "b" "c", alGetEdge m "a" "c"]) =
    .ok [some ⟨"a", "b", 1⟩, some ⟨"b", "c", 2⟩, none] := by decide +kernel

/-- The result of Kruskal's algorithm on a triangle still has the three edges of the triangle in its adjacency lists. -/
theorem C63_full_false : ¬ C63_full := by
  intro hfull
  obtain ⟨m, K, e, hK, hnb⟩ := hfull exTriangle _ exTriangleItems exTriangle_rep exTriangle_sep exTriangle_plain exTriangle_items
  have hv : exTriangle.vertices = ["a", "b", "c"] := by decide +kernel
  have hcomp : (kruskal (alAddEdge exGAttr exNAttr) (mstObjectList exTriangle) exTriangle.vertices exTriangleItems).map
    (fun m => (alNeighbors m "a", alNeighbors m "b")) = .ok (.ok ["b", "c"], .ok ["a", "c"]) := by decide +kernel
  rw [e] at hcomp
  simp only [Except.map, Except.ok.injEq, Prod.mk.injEq] at hcomp
  rw [hv] at hnb
  obtain ⟨la, ea, ha⟩ := hnb "a" (by simp)
  obtain ⟨lb, eb, hb⟩ := hnb "b" (by simp)
  rw [hcomp.1] at ea
  rw [hcomp.2] at eb
  cases ea
  cases eb
  obtain ⟨c1, x1, m1, -, h1⟩ := (ha "b").1 (by simp)
  obtain ⟨c2, x2, m2, -, h2⟩ := (hb "c").1 (by simp)
  obtain ⟨c3, x3, m3, -, h3⟩ := (ha "c").1 (by simp)
  have hf := hK.least.spanning.forest x3 (K.erase x3) (List.perm_cons_erase m3)
  have n1 : x1 ≠ x3 := by
    rintro rfl
    rcases h1 with ⟨p, q⟩ | ⟨p, q⟩ <;> rcases h3 with ⟨r, s⟩ | ⟨r, s⟩ <;> rw [r] at p <;> rw [s] at q <;> revert p q <;> decide
  have n2 : x2 ≠ x3 := by
    rintro rfl
    rcases h2 with ⟨p, q⟩ | ⟨p, q⟩ <;> rcases h3 with ⟨r, s⟩ | ⟨r, s⟩ <;> rw [r] at p <;> rw [s] at q <;> revert p q <;> decide
  have t1 : TreeEdge (K.erase x3) "a" "b" x1.value := ⟨x1, (List.mem_erase_of_ne n1).2 m1, rfl, h1⟩
  have t2 : TreeEdge (K.erase x3) "b" "c" x2.value := ⟨x2, (List.mem_erase_of_ne n2).2 m2, rfl, h2⟩
  have hc := t1.connects.trans t2.connects
  apply hf
  rcases h3 with ⟨r, s⟩ | ⟨r, s⟩
  · simp only [GEdge.pair, r, s]; exact hc
  · simp only [GEdge.pair, r, s]; exact hc.symm

def exTriangleMat : AMat := final amStep (amNew ["a", "b", "c"]) (exTriangleOps.drop 3)

example : exTriangleMat.vertices.Nodup ∧ ∀ e ∈ exTriangleItems, amGetEdge exTriangleMat e.source e.target = some e := by decide +kernel
example : (kruskal amAddEdge (mstObjectMatrix exTriangleMat) exTriangleMat.vertices exTriangleItems).map
    (fun m => (amNeighbors m "a", amNeighbors m "b", amNumEdges m)) = .ok (["b"], ["a", "c"], 4) := by decide +kernel
example : (kruskalParallel amAddEdge (mstObjectMatrix exTriangleMat) exTriangleMat.vertices exTriangleItems 20).map
    (fun m => (amNeighbors m "a", amNeighbors m "b", amNumEdges m)) = .ok (["b"], ["a", "c"], 4) := by decide +kernel

end Props
