import Verif.Model.KahnParallel
import Verif.Props.Kahn

/-!
# C62: parallel topological sort, every schedule
-/
namespace Props
open Py Model Spec
variable {nAttr : String → Bool}

theorem nbrs_remove {d : Digraph} (n m : String) (c) (w : String) :
    Digraph.nbrs { d with edges := d.edges.filter fun e => e ≠ (n, m), cost := c } w =
      if w = n then (d.nbrs w).filter fun x => decide (x ≠ m) else d.nbrs w := by
  unfold Digraph.nbrs
  dsimp only
  rw [nbrs_filter (d := d)]
  split
  · rename_i h; subst h
    unfold Digraph.nbrs
    apply List.filter_congr
    intro a _
    by_cases ha : a = m <;> simp [ha]
  · rename_i h
    rw [List.filter_eq_self.2]
    · rfl
    · intro a _; simp [h]

theorem collectSources_spec {g : AList} {d : Digraph} (h : AlRep g d) :
    collectSources g = .ok (d.verts.filter fun v => decide (indeg d.edges v = 0)) := by
  unfold collectSources
  obtain ⟨deg, e, hk, hv⟩ := kahnCount_spec h
  rw [e]
  simp only [bind, Except.bind]
  rw [hk]
  have key : ∀ (l acc : List String), (∀ v ∈ l, v ∈ d.verts) → forList l acc (fun u S => collectStep deg u S) = .ok (acc ++ l.filter fun v => decide (indeg d.edges v = 0)) := by
    intro l
    induction l with
    | nil => intro acc _; simp [forList]
    | cons a l ih =>
      intro acc hl
      have ha := hl a (by simp)
      have ih := fun acc => ih acc (fun v hv => hl v (by simp [hv]))
      have hga : deg.get a = .ok (indeg d.edges a : Int) := by simp [PyDict.get, hv, ha]
      by_cases hz : indeg d.edges a = 0
      · have hz' : ((indeg d.edges a : Nat) : Int) = 0 := by omega
        simp only [forList, collectStep, hga, hz', if_true, bind, Except.bind]
        simp only [hz, decide_true, List.filter_cons_of_pos]
        exact (ih (acc ++ [a])).trans (by simp)
      · have hz' : ¬ ((indeg d.edges a : Nat) : Int) = 0 := by omega
        simp only [forList, collectStep, hga, hz', if_false, bind, Except.bind]
        exact (ih acc).trans (by simp [hz])
  have := key d.verts [] (fun v hv => hv)
  simpa using this

/-! ## One round of jobs -/

structure PoolInv (d : Digraph) (S : List String) (g : AList) (pool : List Job) (d' : Digraph) : Prop where
  rep : AlRep g d'
  verts : d'.verts = d.verts
  nodup : (pool.map fun j => j.1).Nodup
  sub : ∀ j ∈ pool, j.1 ∈ S
  pend : ∀ j ∈ pool, match j.2 with
    | none => d'.nbrs j.1 = d.nbrs j.1
    | some vs => d'.nbrs j.1 = vs
  fin : ∀ u ∈ S, u ∉ pool.map (fun j => j.1) → d'.nbrs u = []
  rest : ∀ u, u ∉ S → d'.nbrs u = d.nbrs u

def jobWeight (d : Digraph) : Job → Nat
  | (u, none) => (d.nbrs u).length + 2
  | (_, some vs) => vs.length + 1

theorem split_at {α : Type} {l : List α} {i : Nat} {x : α} (h : l[i]? = some x) : ∃ a b, l = a ++ x :: b ∧ a.length = i := by
  obtain ⟨hi, e⟩ := List.getElem?_eq_some_iff.1 h
  refine ⟨l.take i, l.drop (i + 1), ?_, by simp; omega⟩
  rw [← e, List.getElem_cons_drop hi, List.take_append_drop]

theorem jobStep_spec {d : Digraph} {S : List String} (hS : ∀ u ∈ S, u ∈ d.verts) (hp : ∀ v ∈ d.verts, nAttr v = false) {g : AList} {pool : List Job}
    {d' : Digraph} (h : PoolInv d S g pool d') {i : Nat} (hi : i < pool.length) :
    ∃ g' pool' d1, jobStep nAttr g pool i = (g', pool') ∧ PoolInv d S g' pool' d1 ∧
      (pool'.map (jobWeight d)).sum < (pool.map (jobWeight d)).sum := by
  obtain ⟨⟨u, o⟩, hx⟩ : ∃ x, pool[i]? = some x := ⟨_, List.getElem?_eq_getElem hi⟩
  obtain ⟨a, b, rfl, rfl⟩ := split_at hx
  have huS : u ∈ S := h.sub (u, o) (by simp)
  have hud : u ∈ d'.verts := h.verts ▸ hS u huS
  have hset : ∀ y : Job, (a ++ (u, o) :: b).set a.length y = a ++ y :: b := by intro y; simp
  have hera : (a ++ (u, o) :: b).eraseIdx a.length = a ++ b := by simp [List.eraseIdx_append_of_length_le]
  have hnd := h.nodup
  simp only [List.map_append, List.map_cons] at hnd
  have hnd2 := List.nodup_append.1 hnd
  have hua : ∀ j ∈ a, j.1 ≠ u := fun j hj => hnd2.2.2 j.1 (List.mem_map.2 ⟨j, hj, rfl⟩) u (by simp)
  have hub : ∀ j ∈ b, j.1 ≠ u := fun j hj e => (List.nodup_cons.1 hnd2.2.1).1 (List.mem_map.2 ⟨j, hj, e⟩)
  have hends := h.rep.ends
  have hpu := h.pend (u, o) (by simp)
  simp only [jobStep, hx]
  cases o with
  | none =>
    simp only [alNeighbors_of h.rep, if_pos hud, hset]
    dsimp only at hpu
    refine ⟨_, _, d', rfl, ⟨h.rep, h.verts, ?_, ?_, ?_, ?_, h.rest⟩, ?_⟩
    · simpa using hnd
    · intro j hj
      simp only [List.mem_append, List.mem_cons] at hj
      rcases hj with hj | rfl | hj
      · exact h.sub j (by simp [hj])
      · exact huS
      · exact h.sub j (by simp [hj])
    · intro j hj
      simp only [List.mem_append, List.mem_cons] at hj
      rcases hj with hj | rfl | hj
      · exact h.pend j (by simp [hj])
      · rfl
      · exact h.pend j (by simp [hj])
    · intro w hw hn
      exact h.fin w hw (by simpa using hn)
    · simp [jobWeight, hpu]
  | some vs =>
    dsimp only at hpu
    cases vs with
    | nil =>
      simp only [hera]
      refine ⟨_, _, d', rfl, ⟨h.rep, h.verts, ?_, ?_, ?_, ?_, h.rest⟩, ?_⟩
      · refine List.Pairwise.sublist ?_ hnd
        simp
      · intro j hj; exact h.sub j (by simp at hj ⊢; rcases hj with h | h <;> simp [h])
      · intro j hj; exact h.pend j (by simp at hj ⊢; rcases hj with h | h <;> simp [h])
      · intro w hw hn
        by_cases hwu : w = u
        · subst hwu; exact hpu
        · refine h.fin w hw ?_
          intro hm; apply hn
          simp only [List.map_append, List.map_cons, List.mem_append, List.mem_cons] at hm ⊢
          rcases hm with hm | hm | hm
          · exact Or.inl hm
          · exact absurd hm hwu
          · exact Or.inr hm
      · simp [jobWeight]
    | cons v vs =>
      have hed : (u, v) ∈ d'.edges := mem_nbrs.1 (by rw [hpu]; simp)
      obtain ⟨g', eg, hrep⟩ := removeEdge_ok (nAttr := nAttr) h.rep (hp v (h.verts ▸ (hends _ hed).2)) hed
      simp only [eg, hset]
      have hvn : v ∉ vs := by
        have := nbrs_nodup h.rep.enodup u
        rw [hpu] at this
        exact (List.nodup_cons.1 this).1
      have hfil : ((v :: vs).filter fun x => decide (x ≠ v)) = vs := by
        simp only [List.filter_cons, ne_eq, not_true_eq_false, decide_false, Bool.false_eq_true, if_false]
        rw [List.filter_eq_self]
        intro x hx
        have : x ≠ v := fun e => hvn (e ▸ hx)
        simp [this]
      refine ⟨_, _, _, rfl, ⟨hrep, h.verts, ?_, ?_, ?_, ?_, ?_⟩, ?_⟩
      · simpa using hnd
      · intro j hj
        simp only [List.mem_append, List.mem_cons] at hj
        rcases hj with hj | rfl | hj
        · exact h.sub j (by simp [hj])
        · exact huS
        · exact h.sub j (by simp [hj])
      · intro j hj
        simp only [List.mem_append, List.mem_cons] at hj
        rcases hj with hj | rfl | hj
        · rw [nbrs_remove, if_neg (hua j hj)]; exact h.pend j (by simp [hj])
        · dsimp only; rw [nbrs_remove, if_pos rfl, hpu]; exact hfil
        · rw [nbrs_remove, if_neg (hub j hj)]; exact h.pend j (by simp [hj])
      · intro w hw hn
        have hwu : w ≠ u := by rintro rfl; exact hn (by simp)
        rw [nbrs_remove, if_neg hwu]
        exact h.fin w hw (by simpa using hn)
      · intro w hw
        have hwu : w ≠ u := by rintro rfl; exact hw huS
        rw [nbrs_remove, if_neg hwu]
        exact h.rest w hw
      · simp [jobWeight]

theorem poolRun_spec {d : Digraph} {S : List String} (hS : ∀ u ∈ S, u ∈ d.verts) (hp : ∀ v ∈ d.verts, nAttr v = false) {threads : Nat}
    (ht : 0 < threads) (sched : Nat → Nat) : ∀ (fuel k : Nat) (g : AList) (pool : List Job) (d' : Digraph), PoolInv d S g pool d' →
    (pool.map (jobWeight d)).sum < fuel → ∃ g1 d1, poolRun nAttr threads sched fuel k g pool = .ok g1 ∧ PoolInv d S g1 [] d1 := by
  intro fuel
  induction fuel with
  | zero => intro k g pool d' _ hf; omega
  | succ fuel ih =>
    intro k g pool d' h hf
    cases pool with
    | nil => exact ⟨g, d', rfl, h⟩
    | cons j pool =>
      have hi : sched k % min threads (j :: pool).length < (j :: pool).length := by
        have h1 : 0 < min threads (j :: pool).length := by simp; omega
        have h2 := Nat.mod_lt (sched k) h1
        omega
      obtain ⟨g', pool', d1, e, h', hlt⟩ := jobStep_spec hS hp h hi
      simp only [poolRun, e]
      exact ih (k + 1) g' pool' d1 h' (by omega)

/-! ## The rounds -/

theorem removeVertices_spec : ∀ (S : List String) (g : AList) (d : Digraph), (∀ v ∈ S, nAttr v = false) → AlRep g d → S.Nodup → (∀ u ∈ S, u ∈ d.verts) →
    ∃ g' d', forList S g (fun u g => alRemoveVertex nAttr g u) = .ok g' ∧ AlRep g' d' ∧ d'.verts = (d.verts.filter fun v => decide (v ∉ S)) ∧
      ∀ e, e ∈ d'.edges ↔ e ∈ d.edges ∧ e.1 ∉ S ∧ e.2 ∉ S := by
  intro S
  induction S with
  | nil => intro g d _ h _ _; exact ⟨g, d, rfl, h, (List.filter_eq_self.2 (by simp)).symm, by simp⟩
  | cons u S ih =>
    intro g d hpl h hnd hsub
    obtain ⟨hu, hnd⟩ := List.nodup_cons.1 hnd
    have hstep := alStep_structure (gAttr := fun _ => false) (nAttr := nAttr) h (.removeVertex u) ⟨rfl, hpl u (by simp)⟩ (by simp)
    have hud := hsub u (by simp)
    simp only [alStep, digraphSpec, if_pos hud] at hstep
    cases hr : alRemoveVertex nAttr g u with
    | error e => rw [hr] at hstep; simp [gUpd] at hstep
    | ok g1 =>
      rw [hr] at hstep
      simp only [gUpd] at hstep
      obtain ⟨g', d', e', hrep, hv, he⟩ := ih g1 _ (fun v hv => hpl v (by simp [hv])) hstep.2 hnd (by
        intro w hw
        simp only [List.mem_filter, decide_eq_true_eq]
        exact ⟨hsub w (by simp [hw]), fun e => hu (e ▸ hw)⟩)
      refine ⟨g', d', ?_, hrep, ?_, ?_⟩
      · simp only [forList, hr, bind, Except.bind]; exact e'
      · rw [hv]
        dsimp only
        rw [List.filter_filter]
        apply List.filter_congr
        intro a _
        by_cases ha : a = u <;> simp [ha]
      · intro e
        rw [he]
        simp only [List.mem_filter, decide_eq_true_eq, List.mem_cons, not_or]
        constructor
        · rintro ⟨⟨h1, h2, h3⟩, h4, h5⟩; exact ⟨h1, ⟨h2, h4⟩, h3, h5⟩
        · rintro ⟨h1, ⟨h2, h4⟩, h3, h5⟩; exact ⟨⟨h1, h2, h3⟩, h4, h5⟩

theorem sum_le (b : Nat) : ∀ l : List Nat, (∀ x ∈ l, x ≤ b) → l.sum ≤ l.length * b := by
  intro l
  induction l with
  | nil => simp
  | cons x l ih =>
    intro h
    have h1 := h x (by simp)
    have h2 := ih (fun y hy => h y (by simp [hy]))
    simp only [List.sum_cons, List.length_cons, Nat.add_mul]
    omega

/-- The invariant of the rounds: `d'` is what is left of `d` when the vertices of `L` are removed. -/
structure RoundInv (d : Digraph) (L : List String) (g : AList) (d' : Digraph) : Prop where
  rep : AlRep g d'
  verts : d'.verts = (d.verts.filter fun v => decide (v ∉ L))
  edges : ∀ e, e ∈ d'.edges ↔ e ∈ d.edges ∧ e.1 ∉ L ∧ e.2 ∉ L
  nodup : L.Nodup
  sub : ∀ v ∈ L, v ∈ d.verts
  topo : ∀ a v b, L = a ++ v :: b → ∀ u, (u, v) ∈ d.edges → u ∈ a

theorem topo_append {d : Digraph} {L S : List String} (h : ∀ a v b, L = a ++ v :: b → ∀ u, (u, v) ∈ d.edges → u ∈ a)
    (hS : ∀ v ∈ S, ∀ u, (u, v) ∈ d.edges → u ∈ L) : ∀ a v b, L ++ S = a ++ v :: b → ∀ u, (u, v) ∈ d.edges → u ∈ a := by
  intro a v b e u hu
  rcases List.append_eq_append_iff.1 e with ⟨as, ha, hb⟩ | ⟨bs, ha, hb⟩
  · rw [ha]
    have : v ∈ S := by rw [hb]; simp
    simp [hS v this u hu]
  · cases bs with
    | nil =>
      simp only [List.append_nil] at ha
      simp only [List.nil_append] at hb
      rw [← ha]
      exact hS v (by rw [← hb]; simp) u hu
    | cons x bs =>
      simp only [List.cons_append, List.cons.injEq] at hb
      obtain ⟨rfl, hb⟩ := hb
      exact h a v bs ha u hu

theorem kahnPar_spec {d : Digraph}
    (hp : ∀ v ∈ d.verts, nAttr v = false) {threads : Nat} (ht : 0 < threads) (sched : Nat → Nat → Nat) :
    ∃ F, ∀ fuel, F ≤ fuel → ∀ (rounds r : Nat) (L : List String) (g : AList) (d' : Digraph), RoundInv d L g d' →
    d.verts.length < L.length + rounds →
    ∃ g1 L1 d1, kahnParLoop nAttr threads sched fuel rounds r g (d'.verts.filter fun v => decide (indeg d'.edges v = 0)) L = .ok (g1, L1) ∧
      RoundInv d L1 g1 d1 ∧ ∀ v ∈ d1.verts, indeg d1.edges v ≠ 0 := by
  refine ⟨d.verts.length * (d.verts.length + 2) + 1, ?_⟩
  intro fuel hfuel rounds
  induction rounds with
  | zero =>
    intro r L g d' h hf
    have := nodup_length_le h.nodup h.sub
    omega
  | succ rounds ih =>
    intro r L g d' h hf
    have hSdef : ∃ S, S = d'.verts.filter fun v => decide (indeg d'.edges v = 0) := ⟨_, rfl⟩
    obtain ⟨S, hS⟩ := hSdef
    rw [← hS]
    have hSm : ∀ v, v ∈ S ↔ v ∈ d'.verts ∧ indeg d'.edges v = 0 := by intro v; rw [hS]; simp
    cases S with
    | nil =>
      refine ⟨g, L, d', rfl, h, ?_⟩
      intro v hv hz
      exact absurd ((hSm v).2 ⟨hv, hz⟩) (by simp)
    | cons s S0 =>
      have hsn : (s :: S0).Nodup := hS ▸ List.Pairwise.filter _ h.rep.nodup
      have hnm : ((s :: S0).map fun u => ((u, none) : Job)).map (fun j => j.1) = s :: S0 := by
        rw [List.map_map]; simp [Function.comp_def]
      have hpool : PoolInv d' (s :: S0) g ((s :: S0).map fun u => (u, none)) d' := by
        refine ⟨h.rep, rfl, by rw [hnm]; exact hsn, ?_, ?_, ?_, fun _ _ => rfl⟩
        · intro j hj
          obtain ⟨u, hu, rfl⟩ := List.mem_map.1 hj; exact hu
        · intro j hj
          obtain ⟨u, hu, rfl⟩ := List.mem_map.1 hj; rfl
        · intro u hu hn; rw [hnm] at hn; exact absurd hu hn
      have hdv : ∀ v ∈ d'.verts, v ∈ d.verts ∧ v ∉ L := by
        intro v hv; rw [h.verts] at hv; simpa using hv
      have hp' : ∀ v ∈ d'.verts, nAttr v = false := fun v hv => hp v (hdv v hv).1
      have hweight : (((s :: S0).map fun u => ((u, none) : Job)).map (jobWeight d')).sum < fuel := by
        have h1 : ∀ u ∈ s :: S0, jobWeight d' (u, none) ≤ d.verts.length + 2 := by
          intro u _
          have := nodup_length_le (nbrs_nodup h.rep.enodup u) (b := d.verts) (fun w hw => (hdv w (h.rep.ends _ (mem_nbrs.1 hw)).2).1)
          simp [jobWeight, this]
        have h2 := sum_le (d.verts.length + 2) (((s :: S0).map fun u => ((u, none) : Job)).map (jobWeight d')) (by
          simp only [List.map_map, List.mem_map]
          rintro _ ⟨u, hu, rfl⟩
          exact h1 u hu)
        have h3 := nodup_length_le hsn (b := d.verts) (fun w hw => (hdv w ((hSm w).1 hw).1).1)
        have h4 : (((s :: S0).map fun u => ((u, none) : Job)).map (jobWeight d')).length = (s :: S0).length := by simp
        rw [h4] at h2
        have h5 := Nat.mul_le_mul_right (d.verts.length + 2) h3
        omega
      obtain ⟨g1, d1, e1, hK⟩ := poolRun_spec (nAttr := nAttr) (fun u hu => ((hSm u).1 hu).1) hp' ht (sched r) fuel 0 g _ d' hpool hweight
      have hd1e : ∀ e, e ∈ d1.edges ↔ e ∈ d'.edges ∧ e.1 ∉ s :: S0 := by
        rintro ⟨a, b⟩
        rw [← mem_nbrs, ← mem_nbrs]
        by_cases ha : a ∈ s :: S0
        · rw [hK.fin a ha (by simp)]; simp only [ha, not_true_eq_false, and_false]; simp
        · rw [hK.rest a ha]; simp only [ha, not_false_eq_true, and_true]
      obtain ⟨g2, d2, e2, hr2, hv2, he2⟩ := removeVertices_spec (nAttr := nAttr) (s :: S0) g1 d1
        (fun v hv => hp' v ((hSm v).1 hv).1) hK.rep hsn (fun u hu => hK.verts ▸ ((hSm u).1 hu).1)
      have hinv : RoundInv d (L ++ s :: S0) g2 d2 := by
        refine ⟨hr2, ?_, ?_, ?_, ?_, ?_⟩
        · rw [hv2, hK.verts, h.verts, List.filter_filter]
          apply List.filter_congr
          intro a _
          simp only [List.mem_append, not_or, Bool.decide_and, Bool.and_comm]
        · intro e
          rw [he2, hd1e, h.edges]
          simp only [List.mem_append, not_or]
          constructor
          · rintro ⟨⟨⟨h1, h2, h3⟩, h4⟩, h5, h6⟩; exact ⟨h1, ⟨h2, h4⟩, h3, h6⟩
          · rintro ⟨h1, ⟨h2, h4⟩, h3, h6⟩; exact ⟨⟨⟨h1, h2, h3⟩, h4⟩, h4, h6⟩
        · rw [List.nodup_append]
          refine ⟨h.nodup, hsn, ?_⟩
          rintro a ha b hb rfl
          exact (hdv a ((hSm a).1 hb).1).2 ha
        · intro v hv
          rw [List.mem_append] at hv
          rcases hv with hv | hv
          · exact h.sub v hv
          · exact (hdv v ((hSm v).1 hv).1).1
        · apply topo_append h.topo
          intro v hv u hu
          apply Classical.byContradiction
          intro hul
          have hvz := (hSm v).1 hv
          exact indeg_pos.2 ⟨u, (h.edges (u, v)).2 ⟨hu, hul, (hdv v hvz.1).2⟩⟩ hvz.2
      simp only [kahnParLoop, e1, e2, collectSources_spec hr2, bind, Except.bind]
      exact ih (r + 1) (L ++ s :: S0) g2 d2 hinv (by simp at hf ⊢; omega)

theorem topo_acyclic {d : Digraph} (hdn : d.verts.Nodup) {L : List String} (hL : TopoOrder d L) : d.Acyclic := by
  have hnd : L.Nodup := hL.perm.nodup_iff.2 hdn
  have hidx : ∀ u v, (u, v) ∈ d.edges → L.idxOf u < L.idxOf v := by
    intro u v huv
    obtain ⟨a, b, c, rfl⟩ := hL.forward u v huv
    have hn := hnd
    simp only [List.append_assoc, List.cons_append] at hn ⊢
    have hua : u ∉ a := fun hh => (List.nodup_append.1 hn).2.2 u hh u (by simp) rfl
    have hva : v ∉ a := fun hh => (List.nodup_append.1 hn).2.2 v hh v (by simp) rfl
    have huv' : u ≠ v := by
      have := (List.nodup_cons.1 (List.nodup_append.1 hn).2.1).1
      intro e; exact this (by simp [e])
    rw [List.idxOf_append, if_neg hua, List.idxOf_append, if_neg hva, List.idxOf_cons_self, List.idxOf_cons]
    have hb : (u == v) = false := by simpa using huv'
    simp [hb]
  have hwalk : ∀ u v n, Walk d.nbrs u v n → 0 < n → L.idxOf u < L.idxOf v := by
    intro u v n hw
    induction hw with
    | nil => intro h; omega
    | @snoc v w n hw hm ih =>
      intro _
      have h1 := hidx v w (mem_nbrs.1 hm)
      cases n with
      | zero => cases hw; exact h1
      | succ n => have := ih (by omega); omega
  intro v k hk hw
  have := hwalk v v k hw hk
  omega

/-- C62: for every digraph in an adjacency list with non-reserved names, every positive number of threads and every interleaving of the steps of the
jobs, `topological_sort_parallel` returns a topological order when the digraph is acyclic and raises `ValueError` when it is not. -/
theorem C62_kahn_parallel {g : AList} {d : Digraph} (h : AlRep g d) (hp : ∀ v ∈ d.verts, nAttr v = false) {threads : Nat} (ht : 0 < threads)
    (sched : Nat → Nat → Nat) :
    (d.Acyclic → EndsIn (fun fuel => kahnParallel nAttr threads sched g fuel) fun L => TopoOrder d L) ∧
    (¬ d.Acyclic → EndsWith (fun fuel => kahnParallel nAttr threads sched g fuel) (.error .valueError)) := by
  obtain ⟨F, hF⟩ := kahnPar_spec (nAttr := nAttr) hp ht sched
  have main : ∀ fuel, F + d.verts.length + 1 ≤ fuel → ∃ g1 L d1, RoundInv d L g1 d1 ∧ (∀ v ∈ d1.verts, indeg d1.edges v ≠ 0) ∧
      kahnParallel nAttr threads sched g fuel = if L.length ≠ d.verts.length then .error .valueError else .ok L := by
    intro fuel hf
    obtain ⟨g1, L, d1, e, hR, hend⟩ := hF fuel (by omega) fuel 0 [] g d
      ⟨h, (List.filter_eq_self.2 (by simp)).symm, by simp, by simp, by simp, by simp⟩ (by simp; omega)
    refine ⟨g1, L, d1, hR, hend, ?_⟩
    simp only [kahnParallel, collectSources_spec h, e, bind, Except.bind, h.verts]
  have hall : ∀ {L g1 d1}, RoundInv d L g1 d1 → L.length = d.verts.length → TopoOrder d L := by
    intro L g1 d1 hR hlen
    have hmem : ∀ v, v ∈ d.verts → v ∈ L := by
      intro v hv
      apply Classical.byContradiction
      intro hvL
      have := nodup_length_le (a := v :: L) (b := d.verts) (List.nodup_cons.2 ⟨hvL, hR.nodup⟩) (by
        intro x hx
        rcases List.mem_cons.1 hx with rfl | hx
        · exact hv
        · exact hR.sub x hx)
      simp at this; omega
    refine ⟨(List.perm_ext_iff_of_nodup hR.nodup h.nodup).2 fun v => ⟨hR.sub v, hmem v⟩, ?_⟩
    intro u v huv
    obtain ⟨a, c, rfl⟩ := List.append_of_mem (hmem v (h.ends _ huv).2)
    obtain ⟨a', b, rfl⟩ := List.append_of_mem (hR.topo a v c rfl u huv)
    exact ⟨a', b, c, by simp⟩
  have hcyc : ∀ {L g1 d1}, RoundInv d L g1 d1 → (∀ v ∈ d1.verts, indeg d1.edges v ≠ 0) → L.length ≠ d.verts.length → ¬ d.Acyclic := by
    intro L g1 d1 hR hend hlen hac
    have hne : d1.verts ≠ [] := by
      intro h0
      apply hlen
      have hsub : ∀ v ∈ d.verts, v ∈ L := by
        intro v hv
        apply Classical.byContradiction
        intro hvL
        have : v ∈ d1.verts := by rw [hR.verts]; simp [hv, hvL]
        rw [h0] at this; simp at this
      have h1 := nodup_length_le h.nodup hsub
      have h2 := nodup_length_le hR.nodup hR.sub
      omega
    have hback : ∀ n, ∃ u ∈ d1.verts, ∃ v, Walk d.nbrs u v n := by
      intro n
      induction n with
      | zero => obtain ⟨u, hu⟩ := List.exists_mem_of_ne_nil _ hne; exact ⟨u, hu, u, .nil⟩
      | succ n ih =>
        obtain ⟨u, hu, v, hw⟩ := ih
        obtain ⟨u', he⟩ := indeg_pos.1 (hend u hu)
        exact ⟨u', (hR.rep.ends _ he).1, v, Walk.cons (mem_nbrs.2 ((hR.edges _).1 he).1) hw⟩
    obtain ⟨u, hu, v, hw⟩ := hback d.verts.length
    rw [hR.verts] at hu
    obtain ⟨w, k, _, hk', hc⟩ := Walk.pigeonhole h.finGraph.1.closed (List.mem_filter.1 hu).1 hw (Nat.le_refl _)
    exact hac w k hk' hc
  constructor
  · intro hac
    refine ⟨F + d.verts.length + 1, fun n hn => ?_⟩
    obtain ⟨g1, L, d1, hR, hend, e⟩ := main n hn
    by_cases hl : L.length = d.verts.length
    · exact ⟨L, by simp [e, hl], hall hR hl⟩
    · exact absurd hac (hcyc hR hend hl)
  · intro hac
    refine ⟨F + d.verts.length + 1, fun n hn => ?_⟩
    obtain ⟨g1, L, d1, hR, hend, e⟩ := main n hn
    by_cases hl : L.length = d.verts.length
    · exact absurd (topo_acyclic h.nodup (hall hR hl)) hac
    · simp [e, hl]

/-- Non-vacuity: two threads, a schedule that alternates, and the answers. -/
example : kahnParallel exNAttr 2 (fun _ k => k) (final (alStep exGAttr exNAttr) alNew exDagOps) 30 = .ok ["a", "d", "b", "c"] ∧
    kahnParallel exNAttr 2 (fun _ k => k) (final (alStep exGAttr exNAttr) alNew (exDagOps ++ [.addEdge "c" "d" none])) 30 =
      .error .valueError := by
  refine ⟨by decide, by decide⟩

end Props
