import Verif.Model.Johnson
import Verif.Props.Dijkstra
import Verif.Lemmas.Bind

/-!
# C83: Johnson's algorithm
-/
namespace Props
open Py Model Spec
set_option linter.unusedSectionVars false
variable {gAttr nAttr : String → Bool}

/-- A name that the program uses: a vertex or the extra vertex. -/
def Named (d : Digraph) (v : String) : Prop := v ∈ d.verts ∨ v = hubName

/-- The weighted graph `d` as the program sees it: an adjacency list that represents it, all of whose edges have costs, whose `edge_weights` has
no entries besides those of the edges. -/
structure JRep (P : String → Prop) (s : JGraph) (d : Digraph) : Prop where
  rep : AlRep s.g d
  weights : AlWeights P s.g d
  nodup : s.keys.Nodup
  keys : ∀ k, k ∈ s.keys ↔ (s.g.weights k).isSome
  form : ∀ k ∈ s.keys, ∃ a b, P a ∧ P b ∧ k = a ++ "_" ++ b

/-- What the keys of `edge_weights` stand for. -/
theorem JRep.edge {P : String → Prop} {s : JGraph} {d : Digraph} (h : JRep P s d) {k : String} (hk : k ∈ s.keys) :
    ∃ a b c, P a ∧ P b ∧ k = a ++ "_" ++ b ∧ d.cost a b = some c ∧ s.g.weights k = some ⟨a, b, c⟩ := by
  obtain ⟨a, b, ha, hb, rfl⟩ := h.form k hk
  have := (h.keys _).mp hk
  have hw := h.weights.get a b ha hb
  rw [hw] at this
  cases hc : d.cost a b with
  | none => rw [hc] at this; cases this
  | some c => exact ⟨a, b, c, ha, hb, rfl, hc, by rw [hw, hc]; rfl⟩

theorem JRep.key_of {P : String → Prop} {s : JGraph} {d : Digraph} (h : JRep P s d) {a b : String} {c : Int} (ha : P a) (hb : P b) (hc : d.cost a b = some c) :
    a ++ "_" ++ b ∈ s.keys := by
  rw [h.keys, h.weights.get a b ha hb, hc]; rfl

theorem add_of_step {g : AList} {d : Digraph} (h : AlRep g d) {a b : String} {c : Int} (hp : Plain gAttr nAttr a) (hq : Plain gAttr nAttr b)
    (ha : a ∈ d.verts) (hb : b ∈ d.verts) : alAddEdge gAttr nAttr g a b (some c) = .ok (alStep gAttr nAttr g (.addEdge a b (some c))).1 := by
  have := (alStep_structure (gAttr := gAttr) (nAttr := nAttr) h (.addEdge a b (some c)) ⟨hp, hq⟩ (by simp)).1
  simp only [alStep, digraphSpec, ha, hb, and_self, if_true] at this ⊢
  cases e : alAddEdge gAttr nAttr g a b (some c) with
  | ok g' => rfl
  | error x => rw [e] at this; cases this

theorem remove_of_step {g : AList} {d : Digraph} (h : AlRep g d) {a b : String} (hp : Plain gAttr nAttr a) (hq : Plain gAttr nAttr b)
    (ha : (a, b) ∈ d.edges) : alRemoveEdge nAttr g a b = .ok (alStep gAttr nAttr g (.removeEdge a b)).1 := by
  have := (alStep_structure (gAttr := gAttr) (nAttr := nAttr) h (.removeEdge a b) ⟨hp, hq⟩ (by simp)).1
  have he := h.ends _ ha
  simp only [alStep, digraphSpec, ha, he, and_self, if_true] at this ⊢
  cases e : alRemoveEdge nAttr g a b with
  | ok g' => rfl
  | error x => rw [e] at this; cases this

theorem addEdge_weights {g g' : AList} {a b : String} {c : Int} (h : alAddEdge gAttr nAttr g a b (some c) = .ok g') :
    g'.weights = sset g.weights (a ++ "_" ++ b) (some ⟨a, b, c⟩) := by
  unfold alAddEdge at h
  split at h
  · cases h
  split at h
  · cases h
  obtain ⟨adj, _, h⟩ := bind_ok h
  obtain ⟨_, _, h⟩ := bind_ok h
  obtain ⟨g1, h1, h⟩ := bind_ok h
  cases h
  have : g1.weights = g.weights := by
    unfold alAddAdjacent at h1
    repeat' split at h1
    all_goals cases h1
    all_goals rfl
  rw [this]

theorem removeEdge_weights {g g' : AList} {a b : String} (h : alRemoveEdge nAttr g a b = .ok g') : g'.weights = sset g.weights (a ++ "_" ++ b) none := by
  unfold alRemoveEdge at h
  obtain ⟨adj, _, h⟩ := bind_ok h
  obtain ⟨_, _, h⟩ := bind_ok h
  repeat' split at h
  all_goals cases h
  rfl

/-- Adding an edge with a cost. -/
theorem jnAddEdge_spec {P : String → Prop} (hP : Separable P) {s : JGraph} {d : Digraph} (h : JRep P s d) {a b : String} {c : Int}
    (pa : P a) (pb : P b) (hp : Plain gAttr nAttr a) (hq : Plain gAttr nAttr b) (ha : a ∈ d.verts) (hb : b ∈ d.verts) :
    ∃ s', jnAddEdge gAttr nAttr s a b c = .ok s' ∧ JRep P s' (digraphSpec d (.addEdge a b (some c))).1 := by
  have e := add_of_step (gAttr := gAttr) (nAttr := nAttr) h.rep (c := c) hp hq ha hb
  have h1 := (alStep_structure (gAttr := gAttr) (nAttr := nAttr) h.rep (.addEdge a b (some c)) ⟨hp, hq⟩ (by simp)).2
  have h2 := alStep_weights (gAttr := gAttr) (nAttr := nAttr) hP h.rep h.weights (.addEdge a b (some c)) ⟨hp, hq⟩ ⟨pa, pb⟩ (by simp)
  have h3 := addEdge_weights e
  refine ⟨_, by simp only [jnAddEdge, e, ok_bind]; rfl, h1, h2, ?_, ?_, ?_⟩
  · dsimp only
    split
    · exact h.nodup
    · rename_i hn
      rw [List.nodup_append]
      exact ⟨h.nodup, by simp, by rintro x hx y hy rfl; simp at hy; subst hy; exact hn hx⟩
  · intro k
    dsimp only
    rw [h3]
    unfold sset
    by_cases hk : k = a ++ "_" ++ b
    · subst hk; simp; split <;> simp_all
    · rw [if_neg hk, ← h.keys]
      split
      · rfl
      · simp [hk]
  · intro k hk
    dsimp only at hk
    split at hk
    · exact h.form k hk
    · rcases List.mem_append.mp hk with hk | hk
      · exact h.form k hk
      · simp at hk; exact ⟨a, b, pa, pb, hk⟩

/-- Removing an edge. -/
theorem jnRemoveEdge_spec {P : String → Prop} (hP : Separable P) {s : JGraph} {d : Digraph} (h : JRep P s d) {a b : String}
    (pa : P a) (pb : P b) (hp : Plain gAttr nAttr a) (hq : Plain gAttr nAttr b) (ha : (a, b) ∈ d.edges) :
    ∃ s', jnRemoveEdge nAttr s a b = .ok s' ∧ JRep P s' (digraphSpec d (.removeEdge a b)).1 := by
  have e := remove_of_step (gAttr := gAttr) (nAttr := nAttr) h.rep hp hq ha
  have h1 := (alStep_structure (gAttr := gAttr) (nAttr := nAttr) h.rep (.removeEdge a b) ⟨hp, hq⟩ (by simp)).2
  have h2 := alStep_weights (gAttr := gAttr) (nAttr := nAttr) hP h.rep h.weights (.removeEdge a b) ⟨hp, hq⟩ ⟨pa, pb⟩ (by simp)
  have h3 := removeEdge_weights e
  refine ⟨_, by simp only [jnRemoveEdge, e, ok_bind]; rfl, h1, h2, h.nodup.erase _, ?_, ?_⟩
  · intro k
    dsimp only
    rw [h3, h.nodup.mem_erase_iff, h.keys]
    unfold sset
    by_cases hk : k = a ++ "_" ++ b <;> simp [hk]
  · intro k hk
    exact h.form k (List.mem_of_mem_erase hk)

/-! ## The graph with the extra vertex -/

/-- `d` with the extra vertex and an edge of weight 0 to each vertex of `R`. -/
def withHub (d : Digraph) (R : List String) : Digraph :=
  ⟨d.verts ++ [hubName], d.edges ++ R.map fun v => (hubName, v), fun a b => if a = hubName ∧ b ∈ R then some 0 else d.cost a b⟩

/-- The weighted graphs that the theorems are about. -/
structure JInput (gAttr nAttr : String → Bool) (s : JGraph) (d : Digraph) : Prop where
  rep : JRep (Named d) s d
  separable : Separable (Named d)
  plain : ∀ v, Named d v → Plain gAttr nAttr v
  fresh : hubName ∉ d.verts
  costs : ∀ e ∈ d.edges, (d.cost e.1 e.2).isSome
  only : ∀ u v x, d.cost u v = some x → (u, v) ∈ d.edges

theorem digraph_eq {d e : Digraph} (h1 : d.verts = e.verts) (h2 : d.edges = e.edges) (h3 : ∀ a b, d.cost a b = e.cost a b) : d = e := by
  cases d; cases e
  simp only [Digraph.mk.injEq]
  exact ⟨h1, h2, funext fun a => funext fun b => h3 a b⟩

theorem JInput.ends {s : JGraph} {d : Digraph} (h : JInput gAttr nAttr s d) {a b : String} (he : (a, b) ∈ d.edges) : a ≠ hubName ∧ b ≠ hubName := by
  have := h.rep.rep.ends _ he
  exact ⟨fun e => h.fresh (e ▸ this.1), fun e => h.fresh (e ▸ this.2)⟩

theorem hub_add {s : JGraph} {d : Digraph} (h : JInput gAttr nAttr s d) {R : List String} {v : String} (hv : v ∈ d.verts) (hR : v ∉ R) :
    (digraphSpec (withHub d R) (.addEdge hubName v (some 0))).1 = withHub d (R ++ [v]) := by
  have hn : (hubName, v) ∉ (withHub d R).edges := by
    intro hm
    rcases List.mem_append.mp hm with hm | hm
    · exact (h.ends hm).1 rfl
    · simp at hm; exact hR hm
  have hm : hubName ∈ (withHub d R).verts ∧ v ∈ (withHub d R).verts := by simp [withHub, hv]
  simp only [digraphSpec, if_pos hm, if_neg hn]
  refine digraph_eq rfl (by simp [withHub]) fun a b => ?_
  simp only [withHub, List.mem_append, List.mem_singleton]
  by_cases h1 : a = hubName <;> by_cases h2 : b = v <;> simp [h1, h2]

theorem hub_remove {s : JGraph} {d : Digraph} (h : JInput gAttr nAttr s d) {R : List String} {v : String} (hv : v ∈ d.verts) (hR : v ∈ R) :
    (digraphSpec (withHub d R) (.removeEdge hubName v)).1 = withHub d (R.filter fun w => w ≠ v) := by
  have hn : (hubName, v) ∈ (withHub d R).edges := by simp [withHub, hR]
  have hm : hubName ∈ (withHub d R).verts ∧ v ∈ (withHub d R).verts := by simp [withHub, hv]
  simp only [digraphSpec, if_pos hm, if_pos hn]
  refine digraph_eq rfl ?_ fun a b => ?_
  · simp only [withHub, List.filter_append]
    congr 1
    · rw [List.filter_eq_self]
      rintro ⟨a, b⟩ he
      have := (h.ends he).1
      simp [this]
    · rw [List.filter_map]
      congr 1
      refine List.filter_congr fun w _ => ?_
      simp
  · simp only [withHub, List.mem_filter]
    by_cases h1 : a = hubName
    · have hc : d.cost a b = none := by
        cases hc : d.cost a b with
        | none => rfl
        | some x => exact absurd h1 (h.ends (h.only _ _ _ hc)).1
      by_cases h2 : b = v <;> simp [h1, h2, h1 ▸ hc]
      subst h1 h2; exact hc.symm
    · simp [h1]

theorem JInput.pq {s : JGraph} {d : Digraph} (h : JInput gAttr nAttr s d) : Plain gAttr nAttr hubName := h.plain _ (.inr rfl)
theorem JInput.pv {s : JGraph} {d : Digraph} (h : JInput gAttr nAttr s d) {v : String} (hv : v ∈ d.verts) : Plain gAttr nAttr v := h.plain _ (.inl hv)

/-- The extra vertex and its edges. -/
theorem jnHub_spec {s : JGraph} {d : Digraph} (h : JInput gAttr nAttr s d) :
    ∃ s', jnHub gAttr nAttr s = .ok s' ∧ JRep (Named d) s' (withHub d d.verts) := by
  have h0 : JRep (Named d) { s with g := alAddVertex gAttr s.g hubName } (withHub d []) := by
    have h1 := (alStep_structure (gAttr := gAttr) (nAttr := nAttr) h.rep.rep (.addVertex hubName) h.pq (by simp)).2
    have h2 := alStep_weights (gAttr := gAttr) (nAttr := nAttr) h.separable h.rep.rep h.rep.weights (.addVertex hubName) h.pq (.inr rfl) (by simp)
    have e : (digraphSpec d (.addVertex hubName)).1 = withHub d [] := by
      simp only [digraphSpec, if_neg h.fresh]
      exact digraph_eq rfl (by simp [withHub]) (fun a b => by simp [withHub])
    rw [e] at h1 h2
    have hw : (alAddVertex gAttr s.g hubName).weights = s.g.weights := by unfold alAddVertex; split <;> rfl
    exact ⟨h1, h2, h.rep.nodup, fun k => by dsimp only; rw [hw]; exact h.rep.keys k, h.rep.form⟩
  have hv := h0.rep.verts
  unfold jnHub
  dsimp only at hv ⊢
  rw [hv]
  obtain ⟨s1, e1, h1⟩ := forList_spec (body := fun v s => jnSpoke gAttr nAttr v s)
    (I := fun pre rest s => pre ++ rest = d.verts ++ [hubName] ∧ JRep (Named d) s (withHub d (pre.filter fun w => w ≠ hubName)))
    (withHub d []).verts [] { s with g := alAddVertex gAttr s.g hubName } ⟨rfl, h0⟩ (by
      rintro pre x rest s1 ⟨hl, hr⟩
      by_cases hx : x = hubName
      · subst hx
        refine ⟨s1, by simp [jnSpoke], by simpa using hl, ?_⟩
        simpa using hr
      · have hxv : x ∈ d.verts := by
          have : x ∈ d.verts ++ [hubName] := by rw [← hl]; simp
          simpa [hx] using this
        have hnd : (pre ++ x :: rest).Nodup := by
          rw [hl, List.nodup_append]
          exact ⟨h.rep.rep.nodup, by simp, by rintro a ha b hb rfl; simp at hb; exact h.fresh (hb ▸ ha)⟩
        have hnp : x ∉ pre.filter fun w => w ≠ hubName := by
          intro hm
          exact (List.nodup_append.mp hnd).2.2 x (List.mem_filter.mp hm).1 x (by simp) rfl
        obtain ⟨s2, e2, h2⟩ := jnAddEdge_spec (gAttr := gAttr) (nAttr := nAttr) (c := 0) h.separable hr (.inr rfl) (.inl hxv) h.pq (h.pv hxv)
          (by simp [withHub]) (by simp [withHub, hxv])
        rw [hub_add h hxv hnp] at h2
        refine ⟨s2, by simp only [jnSpoke]; rw [if_pos hx, e2], by simpa using hl, ?_⟩
        rw [List.filter_append]
        simpa [hx] using h2)
  refine ⟨s1, e1, ?_⟩
  have := h1.2
  rw [List.nil_append] at this
  have e : ((withHub d []).verts.filter fun w => w ≠ hubName) = d.verts := by
    simp only [withHub, List.filter_append]
    rw [List.filter_eq_self.mpr (fun a ha => by simp; rintro rfl; exact h.fresh ha)]
    simp
  rwa [e] at this

/-- The collected edges are those of the extra vertex. -/
theorem jnSpokes_spec {s0 s : JGraph} {d : Digraph} (h : JInput gAttr nAttr s0 d) (hs : JRep (Named d) s (withHub d d.verts)) :
    ∃ es, jnSpokes s = .ok es ∧ es.Nodup ∧ ∀ e, e ∈ es ↔ e.1 = hubName ∧ e.2 ∈ d.verts := by
  obtain ⟨es, e1, h1⟩ := forList_spec (body := fun k acc => do
      let e ← jnEdge s.g k
      if e.source = hubName then .ok (acc ++ [(e.source, e.target)]) else .ok acc)
    (I := fun pre rest (acc : List (String × String)) => pre ++ rest = s.keys ∧ acc.Nodup ∧
      ∀ e, e ∈ acc ↔ e.1 = hubName ∧ e.2 ∈ d.verts ∧ e.1 ++ "_" ++ e.2 ∈ pre)
    s.keys [] [] ⟨rfl, by simp, by simp⟩ (by
      rintro pre k rest acc ⟨hl, hn, hm⟩
      have hk : k ∈ s.keys := by rw [← hl]; simp
      obtain ⟨a, b, c, pa, pb, rfl, hc, hw⟩ := hs.edge hk
      have hnp : a ++ "_" ++ b ∉ pre := by
        intro hp
        have := hs.nodup
        rw [← hl, List.nodup_append] at this
        exact this.2.2 _ hp _ (by simp) rfl
      have hbv : a = hubName → b ∈ d.verts := by
        rintro rfl
        simp only [withHub] at hc
        split at hc
        · rename_i hh; exact hh.2
        · exact absurd rfl (h.ends (h.only _ _ _ hc)).1
      by_cases ha : a = hubName
      · refine ⟨acc ++ [(a, b)], by simp only [jnEdge, hw, ok_bind]; rw [if_pos ha], by simpa using hl, ?_, ?_⟩
        · rw [List.nodup_append]
          refine ⟨hn, by simp, ?_⟩
          rintro x hx y hy rfl
          simp at hy; subst hy
          exact hnp ((hm _).mp hx).2.2
        · rintro ⟨x, y⟩
          rw [List.mem_append, hm]
          simp only [List.mem_append, List.mem_singleton, Prod.mk.injEq]
          constructor
          · rintro (⟨h1, h2, h3⟩ | ⟨rfl, rfl⟩)
            · exact ⟨h1, h2, .inl h3⟩
            · exact ⟨ha, hbv ha, .inr rfl⟩
          · rintro ⟨h1, h2, h3 | h3⟩
            · exact .inl ⟨h1, h2, h3⟩
            · exact .inr (h.separable _ _ _ _ (.inr h1) (.inl h2) pa pb h3)
      · refine ⟨acc, by simp [jnEdge, hw, ha], by simpa using hl, hn, ?_⟩
        rintro ⟨x, y⟩
        rw [hm]
        simp only [List.mem_append, List.mem_singleton]
        constructor
        · rintro ⟨h1, h2, h3⟩; exact ⟨h1, h2, .inl h3⟩
        · rintro ⟨h1, h2, h3 | h3⟩
          · exact ⟨h1, h2, h3⟩
          · exact absurd ((h.separable _ _ _ _ (.inr h1) (.inl h2) pa pb h3).1.symm.trans h1) ha)
  refine ⟨es, e1, h1.2.1, fun e => ?_⟩
  rw [h1.2.2]
  simp only [List.nil_append]
  constructor
  · rintro ⟨h1, h2, _⟩; exact ⟨h1, h2⟩
  · rintro ⟨h1, h2⟩
    refine ⟨h1, h2, hs.key_of (c := 0) (.inr h1) (.inl h2) ?_⟩
    simp [withHub, h1, h2]

/-- Removing the extra vertex restores the graph. -/
theorem jnUnhub_spec {s0 s : JGraph} {d : Digraph} (h : JInput gAttr nAttr s0 d) (hs : JRep (Named d) s (withHub d d.verts)) {es : List (String × String)}
    (hn : es.Nodup) (hes : ∀ e, e ∈ es ↔ e.1 = hubName ∧ e.2 ∈ d.verts) :
    ∃ s', jnUnhub nAttr s es = .ok s' ∧ JRep (Named d) s' d := by
  obtain ⟨s1, e1, _, R, hR, h1⟩ := forList_spec (body := fun e s => jnRemoveEdge nAttr s e.1 e.2)
    (I := fun pre rest s => pre ++ rest = es ∧ ∃ R, (∀ v, v ∈ R ↔ v ∈ d.verts ∧ (hubName, v) ∉ pre) ∧ JRep (Named d) s (withHub d R))
    es [] s ⟨rfl, d.verts, by simp, hs⟩ (by
      rintro pre ⟨a, b⟩ rest s1 ⟨hl, R, hR, hr⟩
      obtain ⟨ha, hb⟩ := (hes (a, b)).mp (by rw [← hl]; simp)
      dsimp only at ha hb
      subst ha
      have hnp : (hubName, b) ∉ pre := by
        intro hp
        rw [← hl, List.nodup_append] at hn
        exact hn.2.2 _ hp _ (by simp) rfl
      have hbR := (hR b).mpr ⟨hb, hnp⟩
      obtain ⟨s2, e2, h2⟩ := jnRemoveEdge_spec (gAttr := gAttr) (nAttr := nAttr) h.separable hr (.inr rfl) (.inl hb) h.pq (h.pv hb) (by simp [withHub, hbR])
      rw [hub_remove h hb hbR] at h2
      refine ⟨s2, e2, by simpa using hl, _, fun v => ?_, h2⟩
      simp only [List.mem_filter, hR, List.mem_append, List.mem_singleton, Prod.mk.injEq, true_and, decide_eq_true_eq, not_or]
      exact ⟨fun x => ⟨x.1.1, x.1.2, x.2⟩, fun x => ⟨⟨x.1, x.2.1⟩, x.2.2⟩⟩)
  have hR0 : R = [] := by
    refine List.eq_nil_iff_forall_not_mem.mpr fun v hv => ?_
    obtain ⟨a, b⟩ := (hR v).mp hv
    exact b (by simpa using (hes (hubName, v)).mpr ⟨rfl, a⟩)
  subst hR0
  have hc0 : ∀ w, (withHub d []).cost hubName w = none ∧ (withHub d []).cost w hubName = none := by
    intro w
    simp only [withHub, List.not_mem_nil, and_false, if_false]
    constructor
    · cases hc : d.cost hubName w with
      | none => rfl
      | some x => exact absurd rfl (h.ends (h.only _ _ _ hc)).1
    · cases hc : d.cost w hubName with
      | none => rfl
      | some x => exact absurd rfl (h.ends (h.only _ _ _ hc)).2
  have g1 := alStep_structure (gAttr := gAttr) (nAttr := nAttr) h1.rep (.removeVertex hubName) h.pq (by simp)
  have g2 := alStep_weights (gAttr := gAttr) (nAttr := nAttr) h.separable h1.rep h1.weights (.removeVertex hubName) h.pq (.inr rfl) (by
    rintro v hv w; cases hv; exact hc0 w)
  have hm : hubName ∈ (withHub d []).verts := by simp [withHub]
  have e : (digraphSpec (withHub d []) (.removeVertex hubName)).1 = d := by
    simp only [digraphSpec, if_pos hm]
    refine digraph_eq ?_ ?_ fun a b => ?_
    · simp only [withHub, List.filter_append]
      rw [List.filter_eq_self.mpr (fun a ha => by simp; rintro rfl; exact h.fresh ha)]
      simp
    · simp only [withHub, List.map_nil, List.append_nil]
      refine List.filter_eq_self.mpr ?_
      rintro ⟨a, b⟩ he
      have := h.ends he
      simp [this.1, this.2]
    · dsimp only
      split
      · rename_i hh
        rcases hh with rfl | rfl
        · have := (hc0 b).1; simp only [withHub, List.not_mem_nil, and_false, if_false] at this; exact this.symm
        · have := (hc0 a).2; simp only [withHub, List.not_mem_nil, and_false, if_false] at this; exact this.symm
      · simp [withHub]
  have g3 := g1.1
  simp only [alStep, digraphSpec, if_pos hm] at g3
  rw [e] at g1 g2
  cases ev : alRemoveVertex nAttr s1.g hubName with
  | error x => rw [ev] at g3; cases g3
  | ok g' =>
    simp only [alStep, ev, gUpd] at g1 g2
    have hw : g'.weights = s1.g.weights := by
      have hk := alNode_of h1.rep hubName
      rw [if_pos hm] at hk
      obtain ⟨g'', hg'', _, hW, _⟩ := forList_unlink (nAttr := nAttr) (name := hubName) h.pq.2 (s1.g.vertices.erase hubName)
        { s1.g with adjacent := sset s1.g.adjacent hubName none, vertices := s1.g.vertices.erase hubName }
        (h1.rep.verts ▸ h1.rep.nodup.erase hubName) (by
          intro w hw
          rw [h1.rep.verts, h1.rep.nodup.mem_erase_iff] at hw
          simp [sset, hw.1, h1.rep.adj, hw.2])
      simp only [alRemoveVertex, hk, ok_bind] at ev
      rw [hg''] at ev
      cases ev
      exact hW
    refine ⟨⟨g', s1.keys⟩, by simp only [jnUnhub, e1, ok_bind, ev], g1.2, g2, h1.nodup, fun k => ?_, h1.form⟩
    dsimp only
    rw [hw]; exact h1.keys k

/-! ## Walks -/

/-- Weights changed by a potential. -/
def shifted (wt : String → String → Option Int) (p : String → Int) (u v : String) : Option Int := (wt u v).map fun x => x + (p u - p v)

theorem walk_shifted {wt : String → String → Option Int} {p : String → Int} {u v : String} {c : Int} (h : WalkW wt u v c) :
    WalkW (shifted wt p) u v (c + (p u - p v)) := by
  induction h with
  | nil => have : (0 : Int) + (p u - p u) = 0 := by omega
           rw [this]; exact .nil
  | @snoc v w c x _ hx ih =>
    have := ih.snoc (show shifted wt p v w = some (x + (p v - p w)) by simp [shifted, hx])
    have e : c + x + (p u - p w) = c + (p u - p v) + (x + (p v - p w)) := by omega
    rw [e]; exact this

theorem walk_unshifted {wt : String → String → Option Int} {p : String → Int} {u v : String} {c : Int} (h : WalkW (shifted wt p) u v c) :
    WalkW wt u v (c - p u + p v) := by
  induction h with
  | nil => have : (0 : Int) - p u + p u = 0 := by omega
           rw [this]; exact .nil
  | @snoc v w c x _ hx ih =>
    cases hw : wt v w with
    | none => simp [shifted, hw] at hx
    | some y =>
      simp only [shifted, hw, Option.map_some, Option.some.injEq] at hx
      have e : c + x - p u + p w = c - p u + p v + y := by omega
      rw [e]; exact ih.snoc hw

theorem distance_unshifted {wt : String → String → Option Int} {p : String → Int} {u v : String} {d : Option Int} (h : Distance (shifted wt p) u v d) :
    Distance wt u v (d.map fun d => d - p u + p v) := by
  cases d with
  | none => intro c hc; exact h _ (walk_shifted hc)
  | some d =>
    refine ⟨walk_unshifted h.1, fun c' hc' => ?_⟩
    have := h.2 _ (walk_shifted (p := p) hc')
    dsimp only
    omega

/-- A cycle of negative weight somewhere in the graph. -/
def SomeNegativeCycle (wt : String → String → Option Int) : Prop := ∃ x c, WalkW wt x x c ∧ c < 0

section
variable {s : JGraph} {d : Digraph} (h : JInput gAttr nAttr s d)
include h

theorem hub_wt (a b : String) : Digraph.wt (withHub d d.verts) a b = if a = hubName ∧ b ∈ d.verts then some 0 else Digraph.wt d a b := by
  unfold Digraph.wt
  have hm : (a, b) ∈ (withHub d d.verts).edges ↔ (a, b) ∈ d.edges ∨ a = hubName ∧ b ∈ d.verts := by
    simp only [withHub, List.mem_append, List.mem_map, Prod.mk.injEq]
    constructor
    · rintro (h | ⟨v, hv, rfl, rfl⟩)
      · exact .inl h
      · exact .inr ⟨rfl, hv⟩
    · rintro (h | ⟨rfl, hb⟩)
      · exact .inl h
      · exact .inr ⟨b, hb, rfl, rfl⟩
  by_cases h1 : a = hubName ∧ b ∈ d.verts
  · rw [if_pos (hm.mpr (.inr h1)), if_pos h1]; simp [withHub, h1]
  · rw [if_neg h1]
    by_cases h2 : (a, b) ∈ d.edges
    · rw [if_pos (hm.mpr (.inl h2)), if_pos h2]; simp only [withHub, if_neg h1]
    · rw [if_neg (fun x => (hm.mp x).elim h2 h1), if_neg h2]

theorem wt_ends {a b : String} {x : Int} (hx : Digraph.wt d a b = some x) : a ∈ d.verts ∧ b ∈ d.verts := h.rep.rep.ends _ (Digraph.wt_some hx).1

theorem hub_walk_to {u v : String} {c : Int} (hw : WalkW (Digraph.wt d) u v c) : WalkW (Digraph.wt (withHub d d.verts)) u v c := by
  induction hw with
  | nil => exact .nil
  | @snoc v w c x _ hx ih =>
    refine ih.snoc ?_
    rw [hub_wt h, if_neg (by rintro ⟨rfl, _⟩; exact h.fresh (wt_ends h hx).1)]
    exact hx

theorem hub_walk_from {u v : String} {c : Int} (hw : WalkW (Digraph.wt (withHub d d.verts)) u v c) (hu : u ≠ hubName) :
    v ≠ hubName ∧ WalkW (Digraph.wt d) u v c := by
  induction hw with
  | nil => exact ⟨hu, .nil⟩
  | @snoc v w c x _ hx ih =>
    rw [hub_wt h, if_neg (fun hh => ih.1 hh.1)] at hx
    exact ⟨fun e => h.fresh (e ▸ (wt_ends h hx).2), ih.2.snoc hx⟩

theorem hub_walk_hub {v : String} {c : Int} (hw : WalkW (Digraph.wt (withHub d d.verts)) hubName v c) :
    v = hubName ∧ c = 0 ∨ ∃ u ∈ d.verts, v ≠ hubName ∧ WalkW (Digraph.wt d) u v c := by
  induction hw with
  | nil => exact .inl ⟨rfl, rfl⟩
  | @snoc v w c x _ hx ih =>
    rw [hub_wt h] at hx
    rcases ih with ⟨rfl, rfl⟩ | ⟨u, hu, hv, ih⟩
    · split at hx
      · rename_i hh
        cases hx
        exact .inr ⟨w, hh.2, fun e => h.fresh (e ▸ hh.2), .nil⟩
      · exact absurd (wt_ends h hx).1 h.fresh
    · rw [if_neg (fun hh => hv hh.1)] at hx
      exact .inr ⟨u, hu, fun e => h.fresh (e ▸ (wt_ends h hx).2), ih.snoc hx⟩

theorem hub_negative : NegativeCycle (Digraph.wt (withHub d d.verts)) hubName ↔ SomeNegativeCycle (Digraph.wt d) := by
  constructor
  · rintro ⟨x, c, c', h1, h2, h3⟩
    by_cases hx : x = hubName
    · subst hx
      rcases hub_walk_hub h h2 with ⟨_, rfl⟩ | ⟨u, hu, hv, _⟩
      · omega
      · exact absurd rfl hv
    · exact ⟨x, c', (hub_walk_from h h2 hx).2, h3⟩
  · rintro ⟨x, c, h1, h2⟩
    have hx : x ∈ d.verts := by
      cases h1 with
      | nil => omega
      | snoc _ hx => exact (wt_ends h hx).2
    exact ⟨x, 0 + 0, c, WalkW.nil.snoc (by rw [hub_wt h, if_pos ⟨rfl, hx⟩]), hub_walk_to h h1, h2⟩

theorem hub_wgraph {s1 : JGraph} (h1 : JRep (Named d) s1 (withHub d d.verts)) :
    WGraph s1.g.vertices (alNeighbors s1.g) s1.g.weights (Digraph.wt (withHub d d.verts)) := by
  refine h1.rep.wgraph ⟨fun a b ha hb => h1.weights.get a b ?_ ?_⟩ ?_ ?_
  · simpa [withHub, Named] using ha
  · simpa [withHub, Named] using hb
  · rintro ⟨a, b⟩ he
    simp only [withHub, List.mem_append, List.mem_map, Prod.mk.injEq] at he ⊢
    rcases he with he | ⟨v, hv, rfl, rfl⟩
    · split
      · rfl
      · exact h.costs _ he
    · simp [hv]
  · intro u v x hx
    simp only [withHub, List.mem_append, List.mem_map, Prod.mk.injEq] at hx ⊢
    split at hx
    · rename_i hh; exact .inr ⟨v, hh.2, hh.1.symm, rfl⟩
    · exact .inl (h.only _ _ _ hx)

/-! ## Changing the weights -/

/-- The loop over `edge_weights` shifts every edge by the potential. -/
theorem jnReweight_spec {s2 : JGraph} (h2 : JRep (Named d) s2 d) {hd : PyDict String (Option Int)} {p : String → Int} (hp : ∀ v ∈ d.verts, hd.val v = some (some (p v))) :
    ∃ g, jnReweight hd s2 = .ok g ∧ g.vertices = d.verts ∧ g.adjacent = s2.g.adjacent ∧
      WGraph g.vertices (alNeighbors g) g.weights (shifted (Digraph.wt d) p) := by
  obtain ⟨g, e, _, hv, ha, hw⟩ := forList_spec (body := fun k g => jnShift hd k g)
    (I := fun pre rest (g : AList) => pre ++ rest = s2.keys ∧ g.vertices = s2.g.vertices ∧ g.adjacent = s2.g.adjacent ∧
      ∀ k, g.weights k = if k ∈ pre then (s2.g.weights k).map fun e => { e with value := e.value + (p e.source - p e.target) } else s2.g.weights k)
    s2.keys [] s2.g ⟨rfl, rfl, rfl, by simp⟩ (by
      rintro pre k rest g ⟨hl, hv, ha, hw⟩
      have hk : k ∈ s2.keys := by rw [← hl]; simp
      have hnp : k ∉ pre := by
        intro hp
        have := h2.nodup
        rw [← hl, List.nodup_append] at this
        exact this.2.2 _ hp _ (by simp) rfl
      obtain ⟨a, b, c, _, _, rfl, hc, hk'⟩ := h2.edge hk
      have he := h.rep.rep.ends _ (h.only _ _ _ hc)
      have e1 : g.weights (a ++ "_" ++ b) = some ⟨a, b, c⟩ := by rw [hw, if_neg hnp, hk']
      refine ⟨{ g with weights := sset g.weights (a ++ "_" ++ b) (some ⟨a, b, c + (p a - p b)⟩) },
        by simp only [jnShift, jnEdge, e1, ok_bind, PyDict.get, hp a he.1, hp b he.2, jnFinite], by simpa using hl, hv, ha, fun j => ?_⟩
      simp only [sset, List.mem_append, List.mem_singleton]
      by_cases hj : j = a ++ "_" ++ b
      · subst hj; simp [hk']
      · rw [if_neg hj, hw]; simp [hj])
  have hv' : g.vertices = d.verts := hv.trans h2.rep.verts
  refine ⟨g, e, hv', ha, ?_⟩
  have hN : ∀ v, alNeighbors g v = alNeighbors s2.g v := by
    intro v
    have : alNode g = alNode s2.g := by funext v; simp only [alNode, ha]
    simp only [alNeighbors, this]
  have hg := h2.rep.wgraph ⟨fun a b ha hb => h2.weights.get a b (.inl ha) (.inl hb)⟩ h.costs h.only
  refine ⟨hv ▸ hg.nodup, ?_, ?_, ?_⟩
  · intro u v x hx
    cases hx' : Digraph.wt d u v with
    | none => simp [shifted, hx'] at hx
    | some y => rw [hv]; exact hg.ends _ _ _ hx'
  · intro v hv'
    obtain ⟨l, h1, h2⟩ := hg.nbrs v (hv ▸ hv')
    exact ⟨l, by rw [hN, h1], fun w => by rw [h2]; simp [shifted]⟩
  · intro u hu v hv'
    rw [hw, List.nil_append]
    have hget := hg.get u (hv ▸ hu) v (hv ▸ hv')
    split
    · rw [hget]; cases hx : Digraph.wt d u v <;> simp [shifted, hx]
    · rename_i hk
      have : s2.g.weights (u ++ "_" ++ v) = none := by
        cases hx : s2.g.weights (u ++ "_" ++ v) with
        | none => rfl
        | some x => exact absurd ((h2.keys _).mpr (by rw [hx]; rfl)) hk
      rw [this] at hget ⊢
      cases hx : Digraph.wt d u v with
      | none => simp [shifted, hx]
      | some x => rw [hx] at hget; cases hget
end

/-! ## The rows -/

theorem jnRow_spec {hd : PyDict String (Option Int)} {vs : List String} {p : String → Int} (hp : ∀ v ∈ vs, hd.val v = some (some (p v))) {g : AList}
    (hv : g.vertices = vs) {u : String} (hu : u ∈ vs) {dist : PyDict String (Option Int)} {pred : PyDict String (Option String)}
    (hdj : dijkstra g.vertices g.weights u = .ok (dist, pred)) (D : String → Option Int) (hD : ∀ v ∈ vs, dist.val v = some (D v))
    (hP : ∀ v ∈ vs, (pred.val v).isSome) (r : JResult) :
    ∃ r', jnRow hd g u r = .ok r' ∧ (∀ w, w ≠ u → r'.dist.val w = r.dist.val w ∧ r'.next.val w = r.next.val w) ∧
      ∃ row nrow, r'.dist.val u = some row ∧ r'.next.val u = some nrow ∧
        ∀ v ∈ vs, row.val v = some ((D v).map fun x => x - p u + p v) ∧ nrow.val v = (pred.val v).map (jnNext u) := by
  obtain ⟨row, e, _, hrow⟩ := forList_spec (body := fun v row => jnCell hd dist pred u v row)
    (I := fun pre rest (row : PyDict String (Option Int) × PyDict String (Option String)) => pre ++ rest = vs ∧
      ∀ v ∈ pre, row.1.val v = some ((D v).map fun x => x - p u + p v) ∧ row.2.val v = (pred.val v).map (jnNext u))
    vs [] (PyDict.empty, PyDict.empty) ⟨rfl, by simp⟩ (by
      rintro pre v rest row ⟨hl, hrow⟩
      have hv : v ∈ vs := by rw [← hl]; simp
      obtain ⟨q, hq⟩ := Option.isSome_iff_exists.mp (hP v hv)
      refine ⟨(row.1.set v ((D v).map fun x => x - p u + p v), row.2.set v (jnNext u q)), ?_, by simpa using hl, ?_⟩
      · simp only [jnCell, jnDistance, PyDict.get, hq, ok_bind, hD v hv, hp u hu, hp v hv, jnFinite]
      · intro w hw
        simp only [PyDict.set]
        by_cases hwv : w = v
        · subst hwv; simp [hq]
        · rw [if_neg hwv, if_neg hwv]
          exact hrow w (by simpa [hwv] using hw))
  refine ⟨⟨r.dist.set u row.1, r.next.set u row.2⟩, ?_, fun w hw => by simp [PyDict.set, hw], row.1, row.2, by simp [PyDict.set],
    by simp [PyDict.set], by simpa using hrow⟩
  simp only [jnRow, hdj, ok_bind]
  rw [hv, e]
  rfl

/-- The answer for `u` and `v`. -/
def jAnswer (r : JResult) (u v : String) : Option (Option Int) := (r.dist.val u).bind fun row => row.val v

/-- The entry of the second result for `u` and `v`. -/
def jNext (r : JResult) (u v : String) : Option (Option String) := (r.next.val u).bind fun row => row.val v

/-- What the second result says: `u` itself when `v` is `u`, when `v` was not reached, and when the edge from `u` to `v` has the distance given; otherwise
`None`, and the distance given is that of some other vertex `w` and an edge from `w` to `v`. -/
def JHop (d : Digraph) (r : JResult) (u v : String) : Prop :=
  (jNext r u v = some (some u) ∧ (v = u ∨ jAnswer r u v = some none ∨ ∃ x, Digraph.wt d u v = some x ∧ jAnswer r u v = some (some x))) ∨
  (jNext r u v = some none ∧ ∃ w x y, w ≠ u ∧ jAnswer r u w = some (some x) ∧ Digraph.wt d w v = some y ∧ jAnswer r u v = some (some (x + y)))

/-- What can be said about every answer of Johnson's algorithm: each finite distance is the weight of a walk, and the graph has the same vertices and edges
as before, but other weights. -/
structure JohnsonSound (s : JGraph) (d : Digraph) (r : JResult) (g : AList) : Prop where
  walk : ∀ u ∈ d.verts, ∀ v ∈ d.verts, ∃ x, jAnswer r u v = some x ∧ ∀ c, x = some c → WalkW (Digraph.wt d) u v c
  self : ∀ u ∈ d.verts, jAnswer r u u = some (some 0)
  next : ∀ u ∈ d.verts, ∀ v ∈ d.verts, JHop d r u v
  vertices : g.vertices = s.g.vertices
  adjacent : ∀ v, alNeighbors g v = alNeighbors s.g v
  weights : ∃ p : String → Int, (∀ u ∈ d.verts, ∀ v ∈ d.verts, alGetEdge g u v = (Digraph.wt d u v).map fun x => ⟨u, v, x + (p u - p v)⟩) ∧
    (∀ u v x, Digraph.wt d u v = some x → 0 ≤ x + (p u - p v)) ∧ ∀ v ∈ d.verts, p v ≤ 0 ∧ ∃ u ∈ d.verts, WalkW (Digraph.wt d) u v (p v)

/-- The graphs for which Dijkstra's algorithm, as programmed, is exact: fewer edges than vertices, or non-negative weights such that
any two edges into the same vertex have the same weight. -/
def Easy (d : Digraph) : Prop :=
  edgesFrom d.verts (Digraph.wt d) d.verts < d.verts.length ∨ (∀ u v x, Digraph.wt d u v = some x → 0 ≤ x) ∧
    ∀ u u' v x x', Digraph.wt d u v = some x → Digraph.wt d u' v = some x' → x = x'

theorem walk_nonneg {wt : String → String → Option Int} (h : ∀ u v x, wt u v = some x → 0 ≤ x) {u v : String} {w : Int}
    (hw : WalkW wt u v w) : 0 ≤ w := by
  induction hw with
  | nil => omega
  | snoc _ hx ih => have := h _ _ _ hx; omega

theorem johnson_main {s : JGraph} {d : Digraph} (h : JInput gAttr nAttr s d) :
    ∃ res, EndsWith (fun n => johnson gAttr nAttr n s) res ∧
      ((SomeNegativeCycle (Digraph.wt d) ∧ res = .error .valueError) ∨
       (¬ SomeNegativeCycle (Digraph.wt d) ∧ ∃ r g, res = .ok (r, g) ∧ JohnsonSound s d r g ∧
        (Easy d → ∀ u ∈ d.verts, ∀ v ∈ d.verts, ∃ x, jAnswer r u v = some x ∧ Distance (Digraph.wt d) u v x))) := by
  obtain ⟨s1, e1, h1⟩ := jnHub_spec h
  have hg1 := hub_wgraph h h1
  have hv1 : s1.g.vertices = d.verts ++ [hubName] := h1.rep.verts
  obtain ⟨res, ⟨n0, hbf⟩, hres⟩ := C65_bellman_ford (src := hubName) hg1 (by rw [hv1]; simp)
  rcases hres with ⟨hneg, rfl⟩ | ⟨hneg, dist, pred, rfl, _, _, hdist⟩
  · refine ⟨_, ⟨n0, fun n hn => ?_⟩, .inl ⟨(hub_negative h).mp hneg, rfl⟩⟩
    simp only [johnson, e1, ok_bind, hbf n hn, error_bind]
  · obtain ⟨es, e2, hn2, hm2⟩ := jnSpokes_spec h h1
    obtain ⟨s2, e3, h2⟩ := jnUnhub_spec h h1 hn2 hm2
    have hpot : ∀ v ∈ d.verts, ∃ x, dist.val v = some (some x) ∧ IsShortest (Digraph.wt (withHub d d.verts)) hubName v x := by
      intro v hv
      obtain ⟨x, hx, hD, _⟩ := hdist v (by rw [hv1]; simp [hv])
      have hw : WalkW (Digraph.wt (withHub d d.verts)) hubName v (0 + 0) := WalkW.nil.snoc (by rw [hub_wt h, if_pos ⟨rfl, hv⟩])
      cases x with
      | none => exact absurd hw (hD _)
      | some x => exact ⟨x, hx, hD⟩
    let p : String → Int := fun v => ((dist.val v).bind id).getD 0
    have hp : ∀ v ∈ d.verts, dist.val v = some (some (p v)) ∧ IsShortest (Digraph.wt (withHub d d.verts)) hubName v (p v) := by
      intro v hv
      obtain ⟨x, hx, hs⟩ := hpot v hv
      have : p v = x := by simp [p, hx]
      rw [this]; exact ⟨hx, hs⟩
    have hp0 : ∀ v ∈ d.verts, p v ≤ 0 ∧ ∃ u ∈ d.verts, WalkW (Digraph.wt d) u v (p v) := by
      intro v hv
      have hw : WalkW (Digraph.wt (withHub d d.verts)) hubName v (0 + 0) := WalkW.nil.snoc (by rw [hub_wt h, if_pos ⟨rfl, hv⟩])
      refine ⟨(hp v hv).2.2 _ hw, ?_⟩
      rcases hub_walk_hub h (hp v hv).2.1 with ⟨rfl, _⟩ | ⟨u, hu, _, hw⟩
      · exact absurd hv h.fresh
      · exact ⟨u, hu, hw⟩
    have hpos' : ∀ u v x, Digraph.wt d u v = some x → 0 ≤ x + (p u - p v) := by
      intro u v x hx
      obtain ⟨hu, hv⟩ := wt_ends h hx
      have := (hp v hv).2.2 _ ((hp u hu).2.1.snoc (x := x) (by
        rw [hub_wt h, if_neg (by rintro ⟨rfl, _⟩; exact h.fresh hu)]; exact hx))
      omega
    have hpos : ∀ u v x, shifted (Digraph.wt d) p u v = some x → 0 ≤ x := by
      intro u v x hx
      cases hx' : Digraph.wt d u v with
      | none => simp [shifted, hx'] at hx
      | some y =>
        simp only [shifted, hx', Option.map_some, Option.some.injEq] at hx
        have := hpos' u v y hx'
        omega
    obtain ⟨g, e4, hv, hadj, hg⟩ := jnReweight_spec h h2 (fun v hv => (hp v hv).1)
    have hdj : ∀ u ∈ d.verts, ∃ dist' pred', dijkstra g.vertices g.weights u = .ok (dist', pred') ∧ DijkstraSound g.vertices (shifted (Digraph.wt d) p) u dist' pred' ∧
        (Easy d → ∀ v ∈ d.verts, ∃ x, dist'.val v = some x ∧ Distance (shifted (Digraph.wt d) p) u v x) := by
      intro u hu
      have hu' : u ∈ g.vertices := by rw [hv]; exact hu
      by_cases hE : Easy d
      · rcases hE with hE | ⟨hc, hE⟩
        · have hf : edgesFrom g.vertices (shifted (Digraph.wt d) p) g.vertices < g.vertices.length := by
            rw [hv]
            simpa [edgesFrom, shifted] using hE
          obtain ⟨a, b, x1, x2, x3⟩ := C66_few_edges_partial hg hu' hpos hf
          exact ⟨a, b, x1, x2, fun _ v hv' => x3 v (by rw [hv]; exact hv')⟩
        · have hz : ∀ v ∈ d.verts, p v = 0 := by
            intro v hv
            obtain ⟨a, u, _, hw⟩ := hp0 v hv
            have := walk_nonneg hc hw
            omega
          obtain ⟨a, b, x1, x2, x3⟩ := C66_by_target_partial hg hu' hpos (by
            have key : ∀ a b x, shifted (Digraph.wt d) p a b = some x → Digraph.wt d a b = some x := by
              intro a b x hx
              cases hx' : Digraph.wt d a b with
              | none => simp [shifted, hx'] at hx
              | some y =>
                obtain ⟨ha, hb⟩ := wt_ends h hx'
                simp only [shifted, hx', Option.map_some, Option.some.injEq, hz a ha, hz b hb] at hx
                rw [← hx]; simp
            exact fun a a' b x x' hx hx' => hE _ _ _ _ _ (key _ _ _ hx) (key _ _ _ hx'))
          exact ⟨a, b, x1, x2, fun _ v hv' => x3 v (by rw [hv]; exact hv')⟩
      · obtain ⟨a, b, x1, x2⟩ := C66_sound_partial hg hu'
        exact ⟨a, b, x1, x2, fun hE' => absurd hE' hE⟩
    obtain ⟨r, e5, _, hr⟩ := forList_spec (body := fun u r => jnRow dist g u r)
      (I := fun pre rest (r : JResult) => pre ++ rest = g.vertices ∧ ∀ u ∈ pre, ∀ v ∈ d.verts, ∃ x, jAnswer r u v = some x ∧
        (∀ c, x = some c → WalkW (Digraph.wt d) u v c) ∧ (Easy d → Distance (Digraph.wt d) u v x) ∧ JHop d r u v ∧ jAnswer r u u = some (some 0))
      g.vertices [] ⟨PyDict.empty, PyDict.empty⟩ ⟨rfl, by simp⟩ (by
        rintro pre u rest r ⟨hl, hr⟩
        have hu : u ∈ d.verts := by rw [← hv, ← hl]; simp
        obtain ⟨dist', pred', x1, x2, x3⟩ := hdj u hu
        have hD : ∀ v ∈ d.verts, dist'.val v = some ((dist'.val v).getD none) := by
          intro v hv'
          obtain ⟨x, hx, _⟩ := x2.walk v (by rw [hv]; exact hv')
          rw [hx]; rfl
        obtain ⟨r', y1, y2, row, nrow, y3, y5, y4⟩ := jnRow_spec (fun v hv => (hp v hv).1) hv hu x1 (fun v => (dist'.val v).getD none) hD (fun v hv' => by
          rcases x2.pred v (by rw [hv]; exact hv') with ⟨z, _⟩ | ⟨_, _, _, z, _⟩ <;> rw [z] <;> rfl) r
        refine ⟨r', y1, by simpa using hl, fun w hw v hv' => ?_⟩
        by_cases hwu : w = u
        · subst hwu
          refine ⟨_, by simp only [jAnswer, y3, Option.bind_some]; exact (y4 v hv').1, ?_, fun hE => ?_, ?_, ?_⟩
          · intro c hc
            obtain ⟨x, hx, hxw⟩ := x2.walk v (by rw [hv]; exact hv')
            rw [hx] at hc
            cases x with
            | none => cases hc
            | some x =>
              cases hc
              have := hxw x rfl
              rw [nonneg_eq hpos] at this
              exact walk_unshifted this
          · obtain ⟨x, hx, hxd⟩ := x3 hE v hv'
            rw [hx]
            exact distance_unshifted hxd
          · have hans : ∀ z ∈ d.verts, jAnswer r' w z = some (((dist'.val z).getD none).map fun x => x - p w + p z) := by
              intro z hz
              simp only [jAnswer, y3, Option.bind_some]
              exact (y4 z hz).1
            have hnx : jNext r' w v = (pred'.val v).map (jnNext w) := by
              simp only [jNext, y5, Option.bind_some]
              exact (y4 v hv').2
            rcases x2.pred v (by rw [hv]; exact hv') with ⟨z, z'⟩ | ⟨a, da, x, z1, z2, z3, z4⟩
            · left
              refine ⟨by rw [hnx, z]; rfl, ?_⟩
              rcases z' with z' | z'
              · exact .inl z'
              · exact .inr (.inl (by rw [hans v hv', z']; rfl))
            · have hsh := (nonneg_some.1 z3).1
              cases hx' : Digraph.wt d a v with
              | none => simp [shifted, hx'] at hsh
              | some y =>
                obtain ⟨ha, _⟩ := wt_ends h hx'
                simp only [shifted, hx', Option.map_some, Option.some.injEq] at hsh
                by_cases haw : a = w
                · subst haw
                  left
                  refine ⟨by rw [hnx, z1]; simp [jnNext], .inr (.inr ⟨y, hx', ?_⟩)⟩
                  have := x2.zero
                  rw [z2] at this
                  simp only [Option.some.injEq] at this
                  rw [hans v hv', z4]
                  simp only [Option.getD_some, Option.map_some, Option.some.injEq]
                  omega
                · right
                  refine ⟨by rw [hnx, z1]; simp [jnNext, haw], a, _, y, haw, by rw [hans a ha, z2]; rfl, hx', ?_⟩
                  rw [hans v hv', z4]
                  simp only [Option.getD_some, Option.map_some, Option.some.injEq]
                  omega
          · simp only [jAnswer, y3, Option.bind_some]
            rw [(y4 w hu).1, x2.zero]
            simp
        · obtain ⟨x, hx⟩ := hr w (by simpa [hwu] using hw) v hv'
          exact ⟨x, by simpa only [jAnswer, (y2 w hwu).1, (y2 w hwu).2, JHop, jNext] using hx⟩)
    refine ⟨.ok (r, g), ⟨n0, fun n hn => ?_⟩, .inr ⟨fun hc => hneg ((hub_negative h).mpr hc), r, g, rfl, ⟨?_, ?_, ?_, ?_, ?_, ?_⟩, ?_⟩⟩
    · simp only [johnson, e1, ok_bind, hbf n hn, e2, e3, e4, e5]
    · intro u hu v hv'
      obtain ⟨x, hx, hxw, _⟩ := hr u (by rw [List.nil_append, hv]; exact hu) v hv'
      exact ⟨x, hx, hxw⟩
    · intro u hu
      obtain ⟨_, _, _, _, _, hx⟩ := hr u (by rw [List.nil_append, hv]; exact hu) u hu
      exact hx
    · intro u hu v hv'
      obtain ⟨_, _, _, _, hx, _⟩ := hr u (by rw [List.nil_append, hv]; exact hu) v hv'
      exact hx
    · rw [hv]; exact h.rep.rep.verts.symm
    · intro v
      have : alNode g = alNode s.g := by
        funext v
        have a := h2.rep.adj v
        have b := h.rep.rep.adj v
        simp only [alNode, hadj, a, b]
      simp only [alNeighbors, this]
    · refine ⟨p, fun u hu v hv' => ?_, hpos', hp0⟩
      simp only [alGetEdge]
      rw [hg.get u (by rw [hv]; exact hu) v (by rw [hv]; exact hv')]
      cases hx : Digraph.wt d u v <;> simp [shifted, hx]
    · intro hE u hu v hv'
      obtain ⟨x, hx, _, hxd, _⟩ := hr u (by rw [List.nil_append, hv]; exact hu) v hv'
      exact ⟨x, hx, hxd hE⟩

/-- **C83, for all graphs.** With a negative cycle anywhere in the graph the call raises `ValueError`. Otherwise it returns, each finite distance is the
weight of a walk (but perhaps not the least, and an infinite distance may be wrong), and the weights of the graph are left changed by a potential. -/
theorem C83_sound_partial {s : JGraph} {d : Digraph} (h : JInput gAttr nAttr s d) :
    ∃ res, EndsWith (fun n => johnson gAttr nAttr n s) res ∧
      ((SomeNegativeCycle (Digraph.wt d) ∧ res = .error .valueError) ∨
       (¬ SomeNegativeCycle (Digraph.wt d) ∧ ∃ r g, res = .ok (r, g) ∧ JohnsonSound s d r g)) := by
  obtain ⟨res, e, hc | ⟨hn, r, g, hr, hs, _⟩⟩ := johnson_main h
  · exact ⟨res, e, .inl hc⟩
  · exact ⟨res, e, .inr ⟨hn, r, g, hr, hs⟩⟩

/-- **C83** for the graphs without negative cycle that have fewer edges than vertices, or whose edges all have non-negative weights, the same for any
two edges into the same vertex: the distances are exact. -/
theorem C83_exact_partial {s : JGraph} {d : Digraph} (h : JInput gAttr nAttr s d) (hn : ¬ SomeNegativeCycle (Digraph.wt d)) (hE : Easy d) :
    ∃ r g, EndsWith (fun n => johnson gAttr nAttr n s) (.ok (r, g)) ∧ JohnsonSound s d r g ∧
      ∀ u ∈ d.verts, ∀ v ∈ d.verts, ∃ x, jAnswer r u v = some x ∧ Distance (Digraph.wt d) u v x := by
  obtain ⟨res, e, ⟨hc, _⟩ | ⟨_, r, g, rfl, hs, hx⟩⟩ := johnson_main h
  · exact absurd hc hn
  · exact ⟨r, g, e, hs, hx hE⟩

/-- **C83**, in full. -/
def C83_full (gAttr nAttr : String → Bool) : Prop :=
  ∀ (s : JGraph) (d : Digraph), JInput gAttr nAttr s d → ¬ SomeNegativeCycle (Digraph.wt d) →
    ∃ r g, EndsWith (fun n => johnson gAttr nAttr n s) (.ok (r, g)) ∧
      ∀ u ∈ d.verts, ∀ v ∈ d.verts, ∃ x, jAnswer r u v = some x ∧ Distance (Digraph.wt d) u v x

/-! ## Inputs -/

/-- Names without underscore, and the extra vertex, are separable. -/
theorem separable_hub {d : Digraph} (h : ∀ v ∈ d.verts, '_' ∉ v.toList) : Separable (Named d) := by
  have key : ∀ (s t s' t' : List Char), (∀ v, v = s ∨ v = t ∨ v = s' ∨ v = t' → '_' ∉ v ∨ v = hubName.toList) → s ++ '_' :: t = s' ++ '_' :: t' →
      s = s' ∧ t = t' := by
    have hub : hubName.toList = ['_', '_', 'q', '_', '_'] := by decide
    have plain : ∀ (s t s' t' : List Char), '_' ∉ s → '_' ∉ s' → s ++ '_' :: t = s' ++ '_' :: t' → s = s' ∧ t = t' := by
      intro s
      induction s with
      | nil =>
        intro t s' t' _ h2 e
        cases s' with
        | nil => simpa using e
        | cons x s' => simp at e; simp [← e.1] at h2
      | cons x s ih =>
        intro t s' t' h1 h2 e
        cases s' with
        | nil => simp at e; simp [e.1] at h1
        | cons y s' =>
          simp only [List.cons_append, List.cons.injEq] at e
          obtain ⟨a, b⟩ := ih t s' t' (fun m => h1 (by simp [m])) (fun m => h2 (by simp [m])) e.2
          exact ⟨by rw [e.1, a], b⟩
    have count : ∀ v : List Char, '_' ∉ v → v.count '_' = 0 := fun v hv => List.count_eq_zero.mpr hv
    have mixed : ∀ (t s' t' : List Char), ('_' ∉ t ∨ t = hubName.toList) → '_' ∉ s' → ('_' ∉ t' ∨ t' = hubName.toList) →
        ¬ hubName.toList ++ '_' :: t = s' ++ '_' :: t' := by
      intro t s' t' ht hs' ht' e
      cases s' with
      | cons x s' => rw [hub] at e; simp at e; simp [← e.1] at hs'
      | nil =>
        have hc := congrArg (List.count '_') e
        rw [hub] at e hc
        simp at e
        subst e
        rcases ht' with h | h
        · simp at h
        · rw [hub] at h; simp at h
    intro s t s' t' hv e
    rcases hv s (by simp) with h1 | h1 <;> rcases hv s' (by simp) with h2 | h2
    · exact plain s t s' t' h1 h2 e
    · subst h2; exact absurd e.symm (mixed t' s t (hv t' (by simp)) h1 (hv t (by simp)))
    · subst h1; exact absurd e (mixed t s' t' (hv t (by simp)) h2 (hv t' (by simp)))
    · subst h1; subst h2; simpa using e
  intro s t s' t' hs ht hs' ht' e
  have conv : ∀ v, Named d v → '_' ∉ v.toList ∨ v.toList = hubName.toList := by
    rintro v (hv | rfl)
    · exact .inl (h v hv)
    · exact .inr rfl
  have e' := congrArg String.toList e
  simp only [String.toList_append] at e'
  have e2 : s.toList ++ '_' :: t.toList = s'.toList ++ '_' :: t'.toList := by simpa using e'
  obtain ⟨a, b⟩ := key _ _ _ _ (by
    rintro v (rfl | rfl | rfl | rfl)
    · exact conv s hs
    · exact conv t ht
    · exact conv s' hs'
    · exact conv t' ht') e2
  exact ⟨String.toList_inj.mp a, String.toList_inj.mp b⟩

theorem alStep_wts (g : AList) (op : GraphOp) : (alStep gAttr nAttr g op).1.weights = g.weights ∨
    (∃ a b c, op = .addEdge a b (some c) ∧ (alStep gAttr nAttr g op).1.weights = sset g.weights (a ++ "_" ++ b) (some ⟨a, b, c⟩)) ∨
    ∃ a b, op = .removeEdge a b ∧ (alStep gAttr nAttr g op).1.weights = sset g.weights (a ++ "_" ++ b) none := by
  have ans : ∀ {β : Type} (f : β → GraphOut) (x : PyM β), (gAns g f x).1 = g := by intro β f x; cases x <;> rfl
  cases op with
  | addVertex v => left; simp only [alStep, alAddVertex]; split <;> rfl
  | removeVertex v =>
    left
    simp only [alStep]
    cases e : alRemoveVertex nAttr g v with
    | error x => rfl
    | ok g' =>
      simp only [gUpd]
      unfold alRemoveVertex at e
      obtain ⟨_, _, e⟩ := bind_ok e
      dsimp only at e
      have key : ∀ (l : List String) (g1 g2 : AList), forList l g1 (fun v' g => do
          let adj ← alNode g v'
          if nodeHas nAttr adj v then
            if v ∈ adj then .ok { g with adjacent := sset g.adjacent v' (some (adj.erase v)) } else .error .attributeError
          else .ok g) = .ok g2 → g2.weights = g1.weights := by
        intro l
        induction l with
        | nil => intro g1 g2 h; cases h; rfl
        | cons x l ih =>
          intro g1 g2 h
          obtain ⟨g3, h3, h⟩ := bind_ok h
          rw [ih g3 g2 h]
          obtain ⟨adj, _, h3⟩ := bind_ok h3
          repeat' split at h3
          all_goals cases h3
          all_goals rfl
      rw [key _ _ _ e]
  | addEdge a b c =>
    simp only [alStep]
    cases e : alAddEdge gAttr nAttr g a b c with
    | error x => exact .inl rfl
    | ok g' =>
      cases c with
      | some c => exact .inr (.inl ⟨a, b, c, rfl, addEdge_weights e⟩)
      | none =>
        left
        simp only [gUpd]
        unfold alAddEdge at e
        split at e
        · cases e
        split at e
        · cases e
        obtain ⟨adj, _, e⟩ := bind_ok e
        obtain ⟨_, _, e⟩ := bind_ok e
        obtain ⟨g1, h1, e⟩ := bind_ok e
        cases e
        unfold alAddAdjacent at h1
        repeat' split at h1
        all_goals cases h1
        all_goals rfl
  | removeEdge a b =>
    simp only [alStep]
    cases e : alRemoveEdge nAttr g a b with
    | error x => exact .inl rfl
    | ok g' => exact .inr (.inr ⟨a, b, rfl, removeEdge_weights e⟩)
  | isAdjacent a b => left; simp only [alStep]; rw [ans]
  | neighbors v => left; simp only [alStep]; rw [ans]
  | numVertices => exact .inl rfl
  | numEdges => left; simp only [alStep]; rw [ans]
  | getEdge a b => exact .inl rfl

/-- A graph, its vertices named by `P`, whose `edge_weights` has only the costs of its edges. -/
def HasKeys (P : String → Prop) (g : AList) (d : Digraph) : Prop := ∃ keys, JRep P ⟨g, keys⟩ d

theorem hasKeys_step {P : String → Prop} (hP : Separable P) {g : AList} {d : Digraph} (h : HasKeys P g d) (op : GraphOp)
    (hp : op.All (Plain gAttr nAttr)) (hq : op.All P) (hg : ∀ s t, op ≠ .getEdge s t)
    (hu : ∀ v, op = .removeVertex v → ∀ w, d.cost v w = none ∧ d.cost w v = none) :
    HasKeys P (alStep gAttr nAttr g op).1 (digraphSpec d op).1 := by
  obtain ⟨keys, h⟩ := h
  have h1 := (alStep_structure (gAttr := gAttr) (nAttr := nAttr) h.rep op hp hg).2
  have h2 := alStep_weights (gAttr := gAttr) (nAttr := nAttr) hP h.rep h.weights op hp hq hu
  rcases alStep_wts (gAttr := gAttr) (nAttr := nAttr) g op with hw | ⟨a, b, c, rfl, hw⟩ | ⟨a, b, rfl, hw⟩
  · exact ⟨keys, h1, h2, h.nodup, fun k => by dsimp only; rw [hw]; exact h.keys k, h.form⟩
  · refine ⟨if a ++ "_" ++ b ∈ keys then keys else keys ++ [a ++ "_" ++ b], h1, h2, ?_, fun k => ?_, fun k hk => ?_⟩
    · dsimp only
      split
      · exact h.nodup
      · rename_i hn
        rw [List.nodup_append]
        exact ⟨h.nodup, by simp, by rintro x hx y hy rfl; simp at hy; subst hy; exact hn hx⟩
    · dsimp only
      rw [hw]
      have := h.keys k
      dsimp only at this
      unfold sset
      by_cases hk : k = a ++ "_" ++ b
      · subst hk; simp; split <;> simp_all
      · rw [if_neg hk, ← this]
        split
        · rfl
        · simp [hk]
    · dsimp only at hk
      split at hk
      · exact h.form k hk
      · rcases List.mem_append.mp hk with hk | hk
        · exact h.form k hk
        · simp at hk; exact ⟨a, b, hq.1, hq.2, hk⟩
  · refine ⟨keys.erase (a ++ "_" ++ b), h1, h2, h.nodup.erase _, fun k => ?_, fun k hk => h.form k (List.mem_of_mem_erase hk)⟩
    have := h.keys k
    dsimp only at this ⊢
    rw [hw, List.Nodup.mem_erase_iff h.nodup, this]
    unfold sset
    by_cases hk : k = a ++ "_" ++ b <;> simp [hk]

theorem hasKeys_history {P : String → Prop} (hP : Separable P) : ∀ (ops : List GraphOp) (g : AList) (d : Digraph), HasKeys P g d →
    (∀ op ∈ ops, op.All (Plain gAttr nAttr)) → (∀ op ∈ ops, op.All P) → (∀ op ∈ ops, ∀ s t, op ≠ .getEdge s t) → Unhooked d ops →
    HasKeys P (final (alStep gAttr nAttr) g ops) (final digraphSpec d ops) := by
  intro ops
  induction ops with
  | nil => intro g d h _ _ _ _; exact h
  | cons op ops ih =>
    intro g d h h1 h2 h3 h4
    exact ih _ _ (hasKeys_step hP h op (h1 op (by simp)) (h2 op (by simp)) (h3 op (by simp)) h4.1) (fun o ho => h1 o (by simp [ho])) (fun o ho => h2 o (by simp [ho]))
      (fun o ho => h3 o (by simp [ho])) h4.2

/-- Every history of calls that names vertices without underscores, removes a vertex only after its edges, and ends with a cost on every edge makes a graph
that the theorems above apply to. -/
theorem C83_input (ops : List GraphOp) (hp : ∀ op ∈ ops, op.All (Plain gAttr nAttr)) (hq : ∀ op ∈ ops, op.All fun v => '_' ∉ v.toList)
    (hg : ∀ op ∈ ops, ∀ s t, op ≠ .getEdge s t) (hu : Unhooked Digraph.empty ops) (hpl : Plain gAttr nAttr hubName)
    (hc : ∀ e ∈ (final digraphSpec Digraph.empty ops).edges, ((final digraphSpec Digraph.empty ops).cost e.1 e.2).isSome) :
    ∃ keys, JInput gAttr nAttr ⟨final (alStep gAttr nAttr) alNew ops, keys⟩ (final digraphSpec Digraph.empty ops) := by
  have h0 : HasKeys (fun v => '_' ∉ v.toList) alNew Digraph.empty :=
    ⟨[], ⟨rfl, by simp [Digraph.empty], by simp [alNew, Digraph.empty], by simp [Digraph.empty], by simp [Digraph.empty]⟩,
      ⟨by simp [alNew, Digraph.empty]⟩, by simp, by simp [alNew], by simp⟩
  obtain ⟨keys, h⟩ := hasKeys_history separable_noUnderscore ops alNew Digraph.empty h0 hp hq hg hu
  have honly := digraph_cost_edge ops Digraph.empty (by simp [Digraph.empty])
  have hnames : ∀ v ∈ (final digraphSpec Digraph.empty ops).verts, Plain gAttr nAttr v ∧ '_' ∉ v.toList := by
    have key : ∀ (ops : List GraphOp) (d : Digraph), (∀ op ∈ ops, op.All (Plain gAttr nAttr)) → (∀ op ∈ ops, op.All fun v => '_' ∉ v.toList) →
        (∀ v ∈ d.verts, Plain gAttr nAttr v ∧ '_' ∉ v.toList) → ∀ v ∈ (final digraphSpec d ops).verts, Plain gAttr nAttr v ∧ '_' ∉ v.toList := by
      intro ops
      induction ops with
      | nil => intro d _ _ h; exact h
      | cons op ops ih =>
        intro d h1 h2 h
        refine ih _ (fun o ho => h1 o (by simp [ho])) (fun o ho => h2 o (by simp [ho])) ?_
        have a := h1 op (by simp)
        have b := h2 op (by simp)
        intro v
        cases op with
        | addVertex w =>
          simp only [digraphSpec]
          split
          · exact h v
          · intro hv
            rcases List.mem_append.mp hv with hv | hv
            · exact h v hv
            · simp at hv; subst hv; exact ⟨a, b⟩
        | removeVertex w =>
          simp only [digraphSpec]
          split
          · intro hv; exact h v (List.mem_filter.mp hv).1
          · exact h v
        | addEdge s t c => simp only [digraphSpec]; split <;> exact h v
        | removeEdge s t =>
          simp only [digraphSpec]
          split
          · split <;> exact h v
          · exact h v
        | isAdjacent s t => simp only [digraphSpec]; split <;> exact h v
        | neighbors w => simp only [digraphSpec]; split <;> exact h v
        | numVertices => exact h v
        | numEdges => exact h v
        | getEdge s t => exact h v
    exact key ops Digraph.empty hp hq (by simp [Digraph.empty])
  have hub : '_' ∈ hubName.toList := by decide
  refine ⟨keys, ⟨h.rep, ⟨fun a b ha hb => ?_⟩, h.nodup, h.keys, fun k hk => ?_⟩, separable_hub fun v hv => (hnames v hv).2, ?_, fun hm => (hnames _ hm).2 hub, hc, honly⟩
  · by_cases hab : '_' ∉ a.toList ∧ '_' ∉ b.toList
    · exact h.weights.get a b hab.1 hab.2
    · have hnone : (final digraphSpec Digraph.empty ops).cost a b = none := by
        cases hx : (final digraphSpec Digraph.empty ops).cost a b with
        | none => rfl
        | some x =>
          have := h.rep.ends _ (honly _ _ _ hx)
          exact absurd ⟨(hnames _ this.1).2, (hnames _ this.2).2⟩ hab
      rw [hnone]
      cases hx : (final (alStep gAttr nAttr) alNew ops).weights (a ++ "_" ++ b) with
      | none => rfl
      | some x =>
        obtain ⟨a', b', pa, pb, e⟩ := h.form _ ((h.keys (a ++ "_" ++ b)).mpr (by dsimp only; rw [hx]; rfl))
        exfalso
        have hab' := separable_hub (d := ⟨(final digraphSpec Digraph.empty ops).verts ++ [a', b'], [], fun _ _ => none⟩) (by
          intro v hv
          simp only [List.mem_append, List.mem_cons, List.not_mem_nil, or_false] at hv
          rcases hv with hv | rfl | rfl
          · exact (hnames v hv).2
          · exact pa
          · exact pb) a b a' b' (ha.imp (by simp +contextual) id) (hb.imp (by simp +contextual) id) (.inl (by simp)) (.inl (by simp)) e
        exact hab ⟨hab'.1 ▸ pa, hab'.2 ▸ pb⟩
  · obtain ⟨a, b, c, pa, pb, rfl, hx, _⟩ := h.edge hk
    have := h.rep.ends _ (honly _ _ _ hx)
    exact ⟨a, b, .inl this.1, .inl this.2, rfl⟩
  · rintro v (hv | rfl)
    · exact (hnames v hv).1
    · exact hpl

/-- The keys may be listed in the order of the edges. -/
theorem JInput.byEdges {g : AList} {keys : List String} {d : Digraph} (h : JInput gAttr nAttr ⟨g, keys⟩ d) :
    JInput gAttr nAttr ⟨g, d.edges.map fun e => e.1 ++ "_" ++ e.2⟩ d := by
  have hmem : ∀ k, k ∈ d.edges.map (fun e => e.1 ++ "_" ++ e.2) ↔ k ∈ keys := by
    intro k
    constructor
    · intro hk
      obtain ⟨⟨a, b⟩, he, rfl⟩ := List.mem_map.mp hk
      obtain ⟨c, hc⟩ := Option.isSome_iff_exists.mp (h.costs _ he)
      have := h.rep.rep.ends _ he
      exact h.rep.key_of (.inl this.1) (.inl this.2) hc
    · intro hk
      obtain ⟨a, b, c, _, _, rfl, hc, _⟩ := h.rep.edge hk
      exact List.mem_map.mpr ⟨(a, b), h.only _ _ _ hc, rfl⟩
  refine ⟨⟨h.rep.rep, ⟨h.rep.weights.get⟩, ?_, fun k => (hmem k).trans (h.rep.keys k), fun k hk => h.rep.form k ((hmem k).mp hk)⟩,
    h.separable, h.plain, h.fresh, h.costs, h.only⟩
  dsimp only
  rw [List.Nodup, List.pairwise_map]
  refine List.Pairwise.imp_of_mem ?_ h.rep.rep.enodup
  rintro ⟨a, b⟩ ⟨a', b'⟩ h1 h2 hne e
  have x1 := h.rep.rep.ends _ h1
  have x2 := h.rep.rep.ends _ h2
  obtain ⟨rfl, rfl⟩ := h.separable _ _ _ _ (.inl x1.1) (.inl x1.2) (.inl x2.1) (.inl x2.2) e
  exact hne rfl

theorem bfLoop_mono {vs : List String} {nb : String → PyM (List String)} {ws : String → Option GEdge} : ∀ (n : Nat) (st st' : BF) (k : Nat),
    bfLoop vs nb ws n st = .ok st' → bfLoop vs nb ws (n + k) st = .ok st' := by
  intro n
  induction n with
  | zero => intro st st' k h; cases h
  | succ n ih =>
    intro st st' k h
    rw [Nat.add_right_comm]
    unfold bfLoop at h ⊢
    split at h
    · exact h
    · rename_i u rest hq
      obtain ⟨ns, h1, h⟩ := bind_ok h
      obtain ⟨st1, h2, h⟩ := bind_ok h
      simp only [h1, ok_bind, h2]
      exact ih _ _ k h

theorem johnson_mono {n k : Nat} {s : JGraph} {x : JResult × AList} (h : johnson gAttr nAttr n s = .ok x) : johnson gAttr nAttr (n + k) s = .ok x := by
  unfold johnson at h ⊢
  obtain ⟨s1, h1, h⟩ := bind_ok h
  obtain ⟨hp, h2, h⟩ := bind_ok h
  unfold bellmanFord at h2
  obtain ⟨st, h3, h2⟩ := bind_ok h2
  cases h2
  simp only [h1, ok_bind, bellmanFord, bfLoop_mono _ _ _ k h3]
  exact h

/-- The graph of C66 on which Dijkstra's algorithm, as programmed, fails. -/
theorem exDetour_input : JInput exGAttr exNAttr ⟨exDetour, exDetourD.edges.map fun e => e.1 ++ "_" ++ e.2⟩ exDetourD := by
  obtain ⟨keys, h⟩ := C83_input (gAttr := exGAttr) (nAttr := exNAttr) exDetourOps (by decide +kernel)
    (by
      intro op h
      simp only [exDetourOps, List.mem_cons, List.not_mem_nil, or_false] at h
      rcases h with rfl | rfl | rfl | rfl | rfl | rfl | rfl | rfl | rfl | rfl | rfl | rfl | rfl <;> simp only [GraphOp.All] <;> decide)
    (by intro op h s t e; subst e; simp [exDetourOps] at h)
    (by simp [exDetourOps, Unhooked]) (by unfold Plain; decide)
    (by
      show ∀ e ∈ exDetourD.edges, (exDetourD.cost e.1 e.2).isSome
      rw [exDetour_edges]; decide +kernel)
  exact h.byEdges

theorem exDetour_nonneg : ¬ SomeNegativeCycle (Digraph.wt exDetourD) := by
  rintro ⟨x, c, h, hc⟩
  have key : ∀ {u v : String} {c : Int}, WalkW (Digraph.wt exDetourD) u v c → 0 ≤ c := by
    intro u v c h
    induction h with
    | nil => omega
    | @snoc v w c x _ hx ih =>
      have := (Digraph.wt_some hx).2
      rw [exDetour_cost] at this
      repeat' split at this
      all_goals simp_all
      all_goals omega
  have := key h
  omega

/-- The distance from `s` to `e` is said to be infinite, although there is a walk. -/
theorem C83_full_false : ¬ C83_full exGAttr exNAttr := by
  intro hf
  obtain ⟨r, g, ⟨n0, hr⟩, hx⟩ := hf _ _ exDetour_input exDetour_nonneg
  have h1 : (johnson exGAttr exNAttr 40 ⟨exDetour, exDetourD.edges.map fun e => e.1 ++ "_" ++ e.2⟩).map (fun x => jAnswer x.1 "s" "e") = .ok (some none) := by
    decide +kernel
  cases h2 : johnson exGAttr exNAttr 40 ⟨exDetour, exDetourD.edges.map fun e => e.1 ++ "_" ++ e.2⟩ with
  | error e => rw [h2] at h1; cases h1
  | ok y =>
    have h3 := johnson_mono (k := n0) h2
    have h4 := hr (40 + n0) (by omega)
    dsimp only at h4
    rw [h4] at h3
    cases h3
    rw [h2] at h1
    simp only [Except.map, Except.ok.injEq] at h1
    obtain ⟨x, hx1, hx2⟩ := hx "s" (by decide +kernel) "e" (by decide +kernel)
    rw [h1] at hx1
    cases hx1
    have w : WalkW (Digraph.wt exDetourD) "s" "e" (0 + 10 + 100 + 1) := by
      refine WalkW.snoc (WalkW.snoc (WalkW.snoc .nil (v := "s") (w := "a") ?_) (w := "d") ?_) ?_ <;> decide +kernel
    exact hx2 _ w

/-- Two edges on three vertices, one of negative weight: the hypotheses of `C83_exact_partial` hold. -/
def exDebtOps : List GraphOp := [.addVertex "a", .addVertex "b", .addVertex "c", .addEdge "a" "b" (some 4), .addEdge "b" "c" (some (-7))]
def exDebt : AList := final (alStep exGAttr exNAttr) alNew exDebtOps
def exDebtD : Digraph := final digraphSpec Digraph.empty exDebtOps

example : ∃ keys, JInput exGAttr exNAttr ⟨exDebt, keys⟩ exDebtD :=
  C83_input exDebtOps (by decide +kernel) (by
      intro op h
      simp only [exDebtOps, List.mem_cons, List.not_mem_nil, or_false] at h
      rcases h with rfl | rfl | rfl | rfl | rfl <;> simp only [GraphOp.All] <;> decide)
    (by intro op h s t e; subst e; simp [exDebtOps] at h) (by simp [exDebtOps, Unhooked]) (by unfold Plain; decide) (by decide +kernel)

example : Easy exDebtD ∧ ¬ SomeNegativeCycle (Digraph.wt exDebtD) := by
  refine ⟨.inl (by decide +kernel), ?_⟩
  rintro ⟨x, c, h, hc⟩
  have he : exDebtD.edges = [("a", "b"), ("b", "c")] := by decide +kernel
  have key : ∀ {u v : String} {c : Int}, WalkW (Digraph.wt exDebtD) u v c → u = v ∧ c = 0 ∨ u < v := by
    intro u v c h
    induction h with
    | nil => exact .inl ⟨rfl, rfl⟩
    | @snoc v w c x _ hx ih =>
      have := (Digraph.wt_some hx).1
      rw [he] at this
      have hlt : v < w := by
        simp only [List.mem_cons, Prod.mk.injEq, List.not_mem_nil, or_false] at this
        rcases this with ⟨rfl, rfl⟩ | ⟨rfl, rfl⟩ <;> decide
      rcases ih with ⟨rfl, _⟩ | ih
      · exact .inr hlt
      · exact .inr (String.lt_trans ih hlt)
  rcases key h with ⟨_, rfl⟩ | h
  · omega
  · exact String.lt_irrefl _ h

/-- The answers, and the weights that the call leaves behind. -/
example : (johnson exGAttr exNAttr 40 ⟨exDebt, ["a_b", "b_c"]⟩).map (fun x => (jAnswer x.1 "a" "c", jAnswer x.1 "b" "c", jAnswer x.1 "c" "a",
    (alGetEdge x.2 "a" "b").map (·.value), (alGetEdge x.2 "b" "c").map (·.value))) =
    .ok (some (some (-3)), some (some (-7)), some none, some 4, some 0) := by decide +kernel
end Props
