import Verif.Spec
import Verif.Lemmas.Walk
import Verif.Model.Kahn
import Verif.Props.GraphSearch

/-!
# C61: Kahn's topological sort
-/
namespace Props
open Py Model Spec
variable {nAttr : String → Bool}

/-! ## Specification -/

/-- The digraph has no cycle. -/
def Digraph.Acyclic (d : Digraph) : Prop := ∀ v k, 0 < k → ¬ Walk d.nbrs v v k

/-- `L` lists every vertex exactly once, and every edge goes forward in `L`. -/
structure TopoOrder (d : Digraph) (L : List String) : Prop where
  perm : L.Perm d.verts
  forward : ∀ u v, (u, v) ∈ d.edges → ∃ a b c, L = a ++ u :: b ++ v :: c

/-! ## Counting -/

def indeg (es : List (String × String)) (v : String) : Nat := (es.filter fun e => decide (e.2 = v)).length

theorem indeg_pos {es : List (String × String)} {v : String} : indeg es v ≠ 0 ↔ ∃ u, (u, v) ∈ es := by
  unfold indeg
  rw [ne_eq, List.length_eq_zero_iff, List.filter_eq_nil_iff]
  simp only [decide_eq_true_eq, Classical.not_forall, Classical.not_not]
  constructor
  · rintro ⟨⟨a, b⟩, h, rfl⟩; exact ⟨a, h⟩
  · rintro ⟨u, h⟩; exact ⟨(u, v), h, rfl⟩

theorem indeg_remove {es : List (String × String)} (hn : es.Nodup) {n m : String} (h : (n, m) ∈ es) (v : String) :
    indeg (es.filter fun e => e ≠ (n, m)) v = indeg es v - (if v = m then 1 else 0) := by
  induction es with
  | nil => simp at h
  | cons e es ih =>
    obtain ⟨hne, hn⟩ := List.nodup_cons.1 hn
    by_cases he : e = (n, m)
    · subst he
      have : (es.filter fun e => decide (e ≠ (n, m))) = es := by
        rw [List.filter_eq_self]
        intro a ha
        have : a ≠ (n, m) := fun e => hne (e ▸ ha)
        simp [this]
      simp only [List.filter_cons, ne_eq, not_true_eq_false, decide_false, Bool.false_eq_true, if_false]
      simp only [ne_eq] at this
      rw [this]
      unfold indeg
      by_cases hv : v = m
      · subst hv; simp
      · simp [Ne.symm hv, hv]
    · have hm : (n, m) ∈ es := by simpa [Ne.symm he] using h
      have ih := ih hn hm
      simp only [List.filter_cons, ne_eq, he, not_false_eq_true, decide_true, if_true]
      unfold indeg at ih ⊢
      simp only [List.filter_cons]
      have hpos : indeg es m ≠ 0 := indeg_pos.2 ⟨n, hm⟩
      unfold indeg at hpos
      by_cases hv : v = m
      · subst hv
        split
        · simp only [List.length_cons, ne_eq] at ih ⊢
          simp only [if_true] at ih ⊢
          omega
        · exact ih
      · simp only [hv, if_false, Nat.sub_zero] at ih ⊢
        split
        · simp only [List.length_cons]; rw [ih]
        · exact ih

theorem sum_count (d : Digraph) (hnd : d.verts.Nodup) (he : ∀ e ∈ d.edges, e.1 ∈ d.verts) (v : String) :
    (d.verts.map fun u => (d.nbrs u).count v).sum = indeg d.edges v := by
  unfold indeg
  rw [← count_by_source d.verts hnd (d.edges.filter fun e => decide (e.2 = v)) (fun e h => he e (List.mem_filter.1 h).1)]
  congr 1
  apply List.map_congr_left
  intro u _
  rw [nbrs_filter (d := d), List.count_eq_countP, List.countP_eq_length_filter]
  congr 1

/-! ## The initial part -/

theorem kahnCountVertex_spec {g : AList} {d : Digraph} (h : AlRep g d) {u : String} (hu : u ∈ d.verts) {deg : PyDict String Int} {f : String → Nat}
    (hk : deg.keys = d.verts) (hv : ∀ v, deg.val v = if v ∈ d.verts then some (f v : Int) else none) :
    ∃ deg', kahnCountVertex g u deg = .ok deg' ∧ deg'.keys = d.verts ∧
      ∀ v, deg'.val v = if v ∈ d.verts then some ((f v + (d.nbrs u).count v : Nat) : Int) else none := by
  unfold kahnCountVertex
  rw [alNeighbors_of h, if_pos hu]
  simp only [bind, Except.bind]
  obtain ⟨deg', e, hI⟩ := forList_spec (body := fun v deg => kahnIncr v deg)
    (fun pre rest deg => (∀ v ∈ rest, v ∈ d.verts) ∧ deg.keys = d.verts ∧
      ∀ v, deg.val v = if v ∈ d.verts then some ((f v + pre.count v : Nat) : Int) else none) (d.nbrs u) [] deg
    ⟨fun v hv => (h.ends _ (mem_nbrs.1 hv)).2, hk, by simpa using hv⟩ (by
      rintro pre x rest s ⟨h1, h2, h3⟩
      have hx := h1 x (by simp)
      refine ⟨s.set x (((f x + pre.count x : Nat) : Int) + 1), by simp only [kahnIncr, PyDict.get, h3, if_pos hx]; rfl, fun v hv => h1 v (by simp [hv]), ?_, ?_⟩
      · simp [PyDict.set, h3, hx, h2]
      · intro v
        simp only [PyDict.set, h3]
        by_cases hvx : v = x
        · subst hvx; simp [hx]; omega
        · simp [hvx, Ne.symm hvx])
  exact ⟨deg', e, hI.2.1, by simpa using hI.2.2⟩

theorem kahnCount_spec {g : AList} {d : Digraph} (h : AlRep g d) : ∃ deg, kahnCount g = .ok deg ∧ deg.keys = d.verts ∧
    ∀ v, deg.val v = if v ∈ d.verts then some (indeg d.edges v : Int) else none := by
  unfold kahnCount
  rw [h.verts]
  obtain ⟨deg, e, hI⟩ := forList_spec (body := fun u deg => kahnCountVertex g u deg)
    (fun pre rest (deg : PyDict String Int) => (∀ v ∈ rest, v ∈ d.verts) ∧ deg.keys = d.verts ∧
      ∀ v, deg.val v = if v ∈ d.verts then some (((pre.map fun u => (d.nbrs u).count v).sum : Nat) : Int) else none)
    d.verts [] (PyDict.const d.verts 0) ⟨fun v hv => hv, rfl, by simp [PyDict.const]⟩ (by
      rintro pre x rest s ⟨h1, h2, h3⟩
      obtain ⟨s', e, k, hv⟩ := kahnCountVertex_spec h (h1 x (by simp)) (f := fun v => (pre.map fun u => (d.nbrs u).count v).sum) h2 h3
      exact ⟨s', e, fun v hv => h1 v (by simp [hv]), k, by simpa using hv⟩)
  refine ⟨deg, e, hI.2.1, ?_⟩
  intro v
  rw [hI.2.2 v, List.nil_append, sum_count d h.nodup (fun e he => (h.ends e he).1)]

theorem kahnInit_spec {d : Digraph} (hnd : d.verts.Nodup) (f : String → Nat) {deg : PyDict String Int}
    (hk : deg.keys = d.verts) (hv : ∀ v, deg.val v = if v ∈ d.verts then some (f v : Int) else none) :
    ∃ deg', forList d.verts ([], deg) (fun u st => kahnInitVertex u st) = .ok (d.verts.filter fun v => decide (f v = 0), deg') ∧
      deg'.keys = (d.verts.filter fun v => decide (f v ≠ 0)) ∧
      ∀ v, deg'.val v = if v ∈ d.verts ∧ f v ≠ 0 then some (f v : Int) else none := by
  obtain ⟨st, e, hI⟩ := forList_spec (body := fun u st => kahnInitVertex u st)
    (fun pre rest (st : List String × PyDict String Int) => d.verts = pre ++ rest ∧
      st.1 = (pre.filter fun v => decide (f v = 0)) ∧
      st.2.keys = (pre.filter fun v => decide (f v ≠ 0)) ++ rest ∧
      ∀ v, st.2.val v = if v ∈ d.verts ∧ (f v ≠ 0 ∨ v ∈ rest) then some (f v : Int) else none)
    d.verts [] ([], deg) ⟨rfl, rfl, by simp [hk], by
      intro v; rw [hv]
      by_cases h : v ∈ d.verts <;> simp [h]⟩ (by
      rintro pre x rest ⟨S, dg⟩ ⟨h0, h1, h2, h3⟩
      dsimp only at h1 h2 h3
      have hx : x ∈ d.verts := by rw [h0]; simp
      have hdup : x ∉ pre ∧ x ∉ rest := by
        rw [h0, List.nodup_append] at hnd
        exact ⟨fun hp => hnd.2.2 x hp x (by simp) rfl, (List.nodup_cons.1 hnd.2.1).1⟩
      have hget : dg.val x = some (f x : Int) := by rw [h3, if_pos ⟨hx, Or.inr (by simp)⟩]
      simp only [kahnInitVertex, PyDict.get, hget, bind, Except.bind]
      by_cases hz : f x = 0
      · have hz' : ((f x : Nat) : Int) = 0 := by omega
        simp only [hz', if_true, PyDict.pop, hget]
        refine ⟨_, rfl, by simp [h0], by simp [h1, hz], ?_, ?_⟩
        · dsimp only
          rw [h2, List.erase_append_right]
          · simp [hz]
          · intro hm; exact hdup.1 (List.mem_filter.1 hm).1
        · intro v
          dsimp only
          rw [h3]
          by_cases hvx : v = x
          · subst hvx; simp [hz, hdup.2]
          · simp [hvx]
      · have hz' : ¬ ((f x : Nat) : Int) = 0 := by omega
        simp only [hz', if_false]
        refine ⟨_, rfl, by simp [h0], by simp [h1, hz], by simp [h2, hz], ?_⟩
        intro v
        dsimp only
        rw [h3]
        by_cases hvx : v = x
        · subst hvx; simp [hz]
        · simp [hvx])
  obtain ⟨S, dg⟩ := st
  refine ⟨dg, ?_, ?_, ?_⟩
  · rw [e]; have := hI.2.1; dsimp only at this; rw [this]; simp
  · simpa using hI.2.2.1
  · simpa using hI.2.2.2

/-! ## The main loop -/

/-- Invariant; `d` is the original digraph, `d'` the current one, `L` the vertices output, `S` the queue. -/
structure KInv (d : Digraph) (L S : List String) (deg : PyDict String Int) (g : AList) (d' : Digraph) : Prop where
  rep : AlRep g d'
  verts : d'.verts = d.verts
  part : (L ++ S ++ deg.keys).Perm d.verts
  keys : ∀ m, deg.val m = if m ∈ deg.keys then some (indeg d'.edges m : Int) else none
  pos : ∀ m ∈ deg.keys, indeg d'.edges m ≠ 0
  zero : ∀ m ∈ L ++ S, indeg d'.edges m = 0

theorem removeEdge_ok {g : AList} {d : Digraph} (h : AlRep g d) {n m : String} (hm : nAttr m = false) (he : (n, m) ∈ d.edges) :
    ∃ g', alRemoveEdge nAttr g n m = .ok g' ∧
      AlRep g' { d with edges := d.edges.filter fun e => e ≠ (n, m), cost := fun a b => if a = n ∧ b = m then none else d.cost a b } := by
  have hE := h.ends _ he
  have hmem : m ∈ d.nbrs n := mem_nbrs.2 he
  unfold alRemoveEdge
  simp only [alNode_of h, hE.1, hE.2, if_true, bind, Except.bind, nodeHas, hm, Bool.false_or, hmem, decide_true, Bool.not_true,
    Bool.false_eq_true, if_false]
  refine ⟨_, rfl, h.verts, h.nodup, ?_, fun e he' => h.ends e (List.mem_filter.1 he').1, List.Pairwise.filter _ h.enodup⟩
  intro w
  simp only [sset, h.adj]
  by_cases hw : w = n
  · subst hw
    simp only [if_true, hE.1, Option.some.injEq]
    simp only [Digraph.nbrs]
    rw [nbrs_filter, ← Digraph.nbrs, (nbrs_nodup h.enodup w).erase_eq_filter]
    apply List.filter_congr
    intro a _
    by_cases ha : a = m <;> simp [ha]
  · simp only [hw, if_false]
    split
    · simp only [Digraph.nbrs]
      rw [nbrs_filter, ← Digraph.nbrs, List.filter_eq_self.2]
      intro a _
      simp [hw]
    · rfl

theorem kahnRelax_spec {d : Digraph} {L S : List String} {deg : PyDict String Int} {g : AList} {d' : Digraph} (h : KInv d L S deg g d')
    (hp : ∀ v ∈ d.verts, nAttr v = false) {n m : String} (he : (n, m) ∈ d'.edges) :
    ∃ S' deg' g', kahnRelax nAttr n m (g, S, deg) = .ok (g', S', deg') ∧
      KInv d L S' deg' g' { d' with edges := d'.edges.filter fun e => e ≠ (n, m), cost := fun a b => if a = n ∧ b = m then none else d'.cost a b } := by
  have hmv : m ∈ d.verts := h.verts ▸ (h.rep.ends _ he).2
  obtain ⟨g', eg, hrep⟩ := removeEdge_ok (nAttr := nAttr) h.rep (hp m hmv) he
  have hpos : indeg d'.edges m ≠ 0 := indeg_pos.2 ⟨n, he⟩
  have hmk : m ∈ deg.keys := by
    have := h.part.mem_iff.2 hmv
    rw [List.mem_append] at this
    rcases this with h1 | h1
    · exact absurd (h.zero m h1) hpos
    · exact h1
  have hrem := indeg_remove h.rep.enodup he
  have hnd : (L ++ S ++ deg.keys).Nodup := h.part.nodup_iff.2 (h.verts ▸ h.rep.nodup)
  have hkn : deg.keys.Nodup := (List.nodup_append.1 hnd).2.1
  have hget : deg.val m = some (indeg d'.edges m : Int) := by rw [h.keys, if_pos hmk]
  simp only [kahnRelax, eg, bind, Except.bind, PyDict.get, hget]
  by_cases hz : ((indeg d'.edges m : Nat) : Int) - 1 = 0
  · simp only [hz, if_true, PyDict.pop, PyDict.set, hget, Option.isSome_some]
    refine ⟨_, _, _, rfl, hrep, h.verts, ?_, ?_, ?_, ?_⟩
    · refine List.Perm.trans ?_ h.part
      simp only [List.append_assoc]
      refine List.Perm.append_left _ (List.Perm.append_left _ ?_)
      exact (List.perm_cons_erase hmk).symm
    · intro v
      dsimp only
      rw [hrem]
      simp only [hkn.mem_erase_iff]
      by_cases hvm : v = m
      · simp [hvm]
      · simp only [hvm, if_false, ne_eq, not_false_eq_true, true_and, Nat.sub_zero]; exact h.keys v
    · intro v hv
      dsimp only at hv ⊢
      rw [hkn.mem_erase_iff] at hv
      rw [hrem, if_neg hv.1]; exact h.pos v hv.2
    · intro v hv
      dsimp only
      rw [hrem]
      rw [← List.append_assoc, List.mem_append] at hv
      rcases hv with hv | hv
      · rw [h.zero v hv]; simp
      · simp at hv; subst hv; simp; omega
  · simp only [hz, if_false, PyDict.set, hget, Option.isSome_some, if_true]
    refine ⟨_, _, _, rfl, hrep, h.verts, h.part, ?_, ?_, ?_⟩
    · intro v
      dsimp only
      rw [hrem]
      by_cases hvm : v = m
      · subst hvm; simp [hmk]; omega
      · simp only [hvm, if_false, Nat.sub_zero]; exact h.keys v
    · intro v hv
      dsimp only at hv ⊢
      rw [hrem]
      split
      · rename_i e; subst e; omega
      · exact h.pos v hv
    · intro v hv
      dsimp only
      rw [hrem, h.zero v hv]; simp

/-- When the loop ends. -/
structure KDone (d : Digraph) (g : AList) (deg : PyDict String Int) (L : List String) : Prop where
  part : (L ++ deg.keys).Perm d.verts
  pred : ∀ m ∈ deg.keys, ∃ u ∈ deg.keys, (u, m) ∈ d.edges
  topo : ∀ a v b, L = a ++ v :: b → ∀ u, (u, v) ∈ d.edges → u ∈ a
  rep : ∃ c, AlRep g { d with edges := d.edges.filter fun e => decide (e.1 ∉ L), cost := c }

theorem kahnLoop_spec {d : Digraph} (hd : ∀ e ∈ d.edges, e.1 ∈ d.verts ∧ e.2 ∈ d.verts) (hdn : d.edges.Nodup)
    (hp : ∀ v ∈ d.verts, nAttr v = false) : ∀ (fuel : Nat) (L S : List String)
    (deg : PyDict String Int) (g : AList) (d' : Digraph), KInv d L S deg g d' → d'.edges = d.edges.filter (fun e => decide (e.1 ∉ L)) →
    (∀ a v b, L = a ++ v :: b → ∀ u, (u, v) ∈ d.edges → u ∈ a) → d.verts.length < L.length + fuel →
    ∃ g' deg' L', kahnLoop nAttr fuel g S deg L = .ok (g', deg', L') ∧ KDone d g' deg' L' := by
  intro fuel
  induction fuel with
  | zero =>
    intro L S deg g d' h _ _ hf
    have := h.part.length_eq
    simp at this; omega
  | succ fuel ih =>
    intro L S deg g d' h hE ht hf
    cases S with
    | nil =>
      refine ⟨g, deg, L, rfl, by simpa using h.part, ?_, ht, d'.cost, ?_⟩
      · intro m hm
        obtain ⟨u, hu⟩ := indeg_pos.1 (h.pos m hm)
        rw [hE, List.mem_filter, decide_eq_true_eq] at hu
        refine ⟨u, ?_, hu.1⟩
        have := h.part.mem_iff.2 (hd _ hu.1).1
        simpa [hu.2] using this
      · have e : d' = { d with edges := d.edges.filter fun e => decide (e.1 ∉ L), cost := d'.cost } := by
          cases d'; simp only at hE ⊢; have := h.verts; simp only at this; rw [hE, this]
        exact e ▸ h.rep
    | cons n S =>
      have hnv : n ∈ d.verts := h.part.mem_iff.1 (by simp)
      have hnd : (L ++ (n :: S) ++ deg.keys).Nodup := h.part.nodup_iff.2 (h.verts ▸ h.rep.nodup)
      have hnL : n ∉ L := by
        rw [List.nodup_append] at hnd
        exact fun hn => (List.nodup_append.1 hnd.1).2.2 n hn n (by simp) rfl
      have hnb : d'.nbrs n = d.nbrs n := by
        unfold Digraph.nbrs
        rw [hE, List.filter_filter]
        congr 1
        apply List.filter_congr
        rintro ⟨a, b⟩ _
        by_cases ha : a = n
        · subst ha; simp [hnL]
        · simp [ha]
      have hpred : ∀ u, (u, n) ∈ d.edges → u ∈ L := by
        intro u hu
        apply Classical.byContradiction
        intro hul
        have : indeg d'.edges n ≠ 0 := indeg_pos.2 ⟨u, by rw [hE]; simp [hu, hul]⟩
        exact this (h.zero n (by simp))
      have hstart : KInv d (L ++ [n]) S deg g d' :=
        ⟨h.rep, h.verts, by simpa using h.part, h.keys, h.pos, fun m hm => h.zero m (by simpa using hm)⟩
      obtain ⟨⟨g1, S1, deg1⟩, e1, hrest, d1, hK1, hE1⟩ := forList_spec (body := fun m st => kahnRelax nAttr n m st)
        (fun pre rest (st : AList × List String × PyDict String Int) => d.nbrs n = pre ++ rest ∧ ∃ d1, KInv d (L ++ [n]) st.2.1 st.2.2 st.1 d1 ∧
          d1.edges = d.edges.filter fun e => decide (e.1 ∉ L ∧ ¬ (e.1 = n ∧ e.2 ∈ pre)))
        (d.nbrs n) [] (g, S, deg) ⟨rfl, d', hstart, by rw [hE]; simp⟩ (by
          rintro pre m rest ⟨g, S, deg⟩ ⟨h0, d1, hK, hE1⟩
          dsimp only at hK
          have hm : m ∈ d.nbrs n := by rw [h0]; simp
          have hmp : m ∉ pre := by
            have := nbrs_nodup hdn n
            rw [h0, List.nodup_append] at this
            exact fun hp => this.2.2 m hp m (by simp) rfl
          have hed : (n, m) ∈ d1.edges := by rw [hE1]; simp [mem_nbrs.1 hm, hnL, hmp]
          obtain ⟨S', deg', g', e, hK'⟩ := kahnRelax_spec hK hp hed
          refine ⟨_, e, by simp [h0], _, hK', ?_⟩
          dsimp only
          rw [hE1, List.filter_filter]
          apply List.filter_congr
          rintro ⟨a, b⟩ _
          by_cases ha : a = n
          · subst ha
            by_cases hb : b = m <;> simp [hnL, hb]
          · simp [ha])
      simp only [kahnLoop, alNeighbors_of h.rep, if_pos (h.verts ▸ hnv), hnb, bind, Except.bind]
      rw [e1]
      simp only
      refine ih (L ++ [n]) S1 deg1 g1 d1 hK1 ?_ ?_ (by simp at hf ⊢; omega)
      · rw [hE1]
        apply List.filter_congr
        rintro ⟨a, b⟩ hab
        by_cases ha : a = n
        · subst ha
          have : b ∈ [] ++ d.nbrs a := by simpa using mem_nbrs.2 hab
          simp [hnL]
          simpa using this
        · simp [ha]
      · intro a v b hL u hu
        rcases List.eq_nil_or_concat b with rfl | ⟨b', x, rfl⟩
        · have := List.append_inj' hL rfl
          simp at this
          obtain ⟨rfl, rfl⟩ := this
          exact hpred u hu
        · rw [List.concat_eq_append, ← List.cons_append, ← List.append_assoc] at hL
          have := List.append_inj' hL rfl
          exact ht a v b' this.1 u hu

/-- C61: for every digraph stored in an adjacency list with non-reserved names, `topological_sort` returns a topological order when the digraph is
acyclic (and has then removed all edges), and raises `ValueError` when it is not. -/
theorem C61_kahn {g : AList} {d : Digraph} (h : AlRep g d) (hp : ∀ v ∈ d.verts, nAttr v = false) :
    (d.Acyclic → EndsIn (fun fuel => kahn nAttr g fuel) fun r => TopoOrder d r.1 ∧ ∀ v, v ∈ d.verts → alNeighbors r.2 v = .ok []) ∧
    (¬ d.Acyclic → EndsWith (fun fuel => kahn nAttr g fuel) (.error .valueError)) := by
  have main : ∀ fuel, d.verts.length < fuel → ∃ g' deg L, KDone d g' deg L ∧
      kahn nAttr g fuel = if deg.keys ≠ [] then .error .valueError else .ok (L, g') := by
    intro fuel hf
    obtain ⟨deg0, e0, k0, v0⟩ := kahnCount_spec h
    obtain ⟨deg1, e1, k1, v1⟩ := kahnInit_spec h.nodup (indeg d.edges) k0 v0
    have hK : KInv d [] (d.verts.filter fun v => decide (indeg d.edges v = 0)) deg1 g d := by
      refine ⟨h, rfl, ?_, ?_, ?_, ?_⟩
      · rw [k1, List.nil_append]
        have := List.filter_append_perm (fun v => decide (indeg d.edges v = 0)) d.verts
        simpa using this
      · intro m; rw [v1, k1]; simp
      · intro m hm; rw [k1] at hm; simpa using (List.mem_filter.1 hm).2
      · intro m hm; simpa using (List.mem_filter.1 hm).2
    obtain ⟨g', deg', L, e2, hdone⟩ := kahnLoop_spec h.ends h.enodup hp fuel [] _ deg1 g d hK (List.filter_eq_self.2 (by simp)).symm (by simp) (by simpa using hf)
    refine ⟨g', deg', L, hdone, ?_⟩
    simp only [kahn, e0, bind, Except.bind, h.verts, e1, e2]
  have hempty : ∀ {g' deg L}, KDone d g' deg L → deg.keys = [] → TopoOrder d L ∧ ∀ v, v ∈ d.verts → alNeighbors g' v = .ok [] := by
    intro g' deg L hd hk
    have hperm : L.Perm d.verts := by simpa [hk] using hd.part
    refine ⟨⟨hperm, ?_⟩, ?_⟩
    · intro u v huv
      have hv : v ∈ L := hperm.mem_iff.2 (h.ends _ huv).2
      obtain ⟨a, c, rfl⟩ := List.append_of_mem hv
      obtain ⟨a', b, rfl⟩ := List.append_of_mem (hd.topo a v c rfl u huv)
      exact ⟨a', b, c, by simp⟩
    · intro v hv
      obtain ⟨c, hr⟩ := hd.rep
      rw [alNeighbors_of hr, if_pos hv]
      have : (d.edges.filter fun e => decide (e.1 ∉ L)) = [] := by
        rw [List.filter_eq_nil_iff]
        intro e he
        simp [hperm.mem_iff.2 (h.ends e he).1]
      simp only [Digraph.nbrs, this]; rfl
  have hcyc : ∀ {g' deg L}, KDone d g' deg L → deg.keys ≠ [] → ¬ d.Acyclic := by
    intro g' deg L hd hk hac
    have hback : ∀ n, ∃ u ∈ deg.keys, ∃ v, Walk d.nbrs u v n := by
      intro n
      induction n with
      | zero => obtain ⟨u, hu⟩ := List.exists_mem_of_ne_nil _ hk; exact ⟨u, hu, u, .nil⟩
      | succ n ih =>
        obtain ⟨u, hu, v, hw⟩ := ih
        obtain ⟨u', hu', he⟩ := hd.pred u hu
        exact ⟨u', hu', v, Walk.cons (mem_nbrs.2 he) hw⟩
    obtain ⟨u, hu, v, hw⟩ := hback d.verts.length
    obtain ⟨w, k, _, hk', hc⟩ := Walk.pigeonhole h.finGraph.1.closed (hd.part.mem_iff.1 (by simp [hu])) hw (Nat.le_refl _)
    exact hac w k hk' hc
  have hacyc : ∀ {L}, TopoOrder d L → d.Acyclic := by
    intro L hL
    have hnd : L.Nodup := hL.perm.nodup_iff.2 h.nodup
    have hidx : ∀ u v, (u, v) ∈ d.edges → L.idxOf u < L.idxOf v := by
      intro u v huv
      obtain ⟨a, b, c, rfl⟩ := hL.forward u v huv
      have hn := hnd
      simp only [List.append_assoc, List.cons_append] at hn ⊢
      have hua : u ∉ a := fun hh => (List.nodup_append.1 hn).2.2 u hh u (by simp) rfl
      have hva : v ∉ a := fun hh => (List.nodup_append.1 hn).2.2 v hh v (by simp) rfl
      have huv' : u ≠ v := by
        have := (List.nodup_cons.1 (List.nodup_append.1 hn).2.1).1
        intro e; exact this (by simp [e])
      rw [List.idxOf_append, if_neg hua, List.idxOf_append, if_neg hva, List.idxOf_cons_self, List.idxOf_cons]
      have hb : (u == v) = false := by simpa using huv'
      simp [hb]
    have hwalk : ∀ u v n, Walk d.nbrs u v n → 0 < n → L.idxOf u < L.idxOf v := by
      intro u v n hw
      induction hw with
      | nil => intro h; omega
      | @snoc v w n hw hm ih =>
        intro _
        have h1 := hidx v w (mem_nbrs.1 hm)
        cases n with
        | zero => cases hw; exact h1
        | succ n => have := ih (by omega); omega
    intro v k hk hw
    have := hwalk v v k hw hk
    omega
  constructor
  · intro hac
    refine ⟨d.verts.length + 1, fun n hn => ?_⟩
    obtain ⟨g', deg, L, hd, e⟩ := main n (by omega)
    by_cases hk : deg.keys = []
    · exact ⟨(L, g'), by simp [e, hk], hempty hd hk⟩
    · exact absurd hac (hcyc hd hk)
  · intro hac
    refine ⟨d.verts.length + 1, fun n hn => ?_⟩
    obtain ⟨g', deg, L, hd, e⟩ := main n (by omega)
    by_cases hk : deg.keys = []
    · exact absurd (hacyc (hempty hd hk).1) hac
    · simp [e, hk]

/-- Every graph built by a history of calls (with non-reserved names) satisfies the hypothesis `AlRep` of the theorems on graph algorithms. -/
theorem al_history_rep {gAttr nAttr : String → Bool} (ops : List GraphOp) (hp : ∀ op ∈ ops, op.All (Plain gAttr nAttr))
    (hg : ∀ op ∈ ops, ∀ s t, op ≠ .getEdge s t) : AlRep (final (alStep gAttr nAttr) alNew ops) (final digraphSpec Digraph.empty ops) := by
  have key : ∀ (ops : List GraphOp) (g : AList) (d : Digraph), AlRep g d → (∀ op ∈ ops, op.All (Plain gAttr nAttr)) →
      (∀ op ∈ ops, ∀ s t, op ≠ .getEdge s t) → AlRep (final (alStep gAttr nAttr) g ops) (final digraphSpec d ops) := by
    intro ops
    induction ops with
    | nil => intro g d h _ _; exact h
    | cons op ops ih =>
      intro g d h hp hg
      exact ih _ _ (alStep_structure h op (hp op (by simp)) (hg op (by simp))).2 (fun o ho => hp o (by simp [ho]))
        (fun o ho => hg o (by simp [ho]))
  exact key _ _ _ ⟨rfl, by simp [Digraph.empty], by simp [alNew, Digraph.empty], by simp [Digraph.empty], by simp [Digraph.empty]⟩ hp hg

def exDagOps : List GraphOp := [.addVertex "a", .addVertex "b", .addVertex "c", .addVertex "d", .addEdge "d" "b" none, .addEdge "b" "c" none,
  .addEdge "d" "c" none]

/-- Non-vacuity: an acyclic graph, and the same graph with one more edge that closes a cycle. -/
example : (kahn exNAttr (final (alStep exGAttr exNAttr) alNew exDagOps) 9).map (fun r => r.1) = .ok ["a", "d", "b", "c"] ∧
    (kahn exNAttr (final (alStep exGAttr exNAttr) alNew (exDagOps ++ [.addEdge "c" "d" none])) 9).map (fun r => r.1) = .error .valueError ∧
    AlRep (final (alStep exGAttr exNAttr) alNew exDagOps) (final digraphSpec Digraph.empty exDagOps) := by
  refine ⟨by decide, by decide, al_history_rep _ ?_ ?_⟩
  · simp [exDagOps, GraphOp.All, Plain]; decide
  · simp [exDagOps]

end Props
