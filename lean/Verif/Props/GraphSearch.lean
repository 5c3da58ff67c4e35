import Verif.Spec
import Verif.Lemmas.Lists
import Verif.Lemmas.GraphSearch
import Verif.Props.GraphMatrix

/-!
# C58, C59: breadth and depth first search
-/
set_option linter.unusedSectionVars false
namespace Props
open Py Model Spec
variable {V : Type} [DecidableEq V]

/-! ## Specification -/

/-- The calls of the operation made by an uninterrupted search from `source`: each reachable vertex other than the source is announced exactly once,
from a vertex it is a neighbour of; each reachable vertex without neighbours is announced exactly once with an empty second argument; each
reachable vertex is expanded exactly once. -/
structure SearchSpec (nbr : V → List V) (source : V) (r : Search V) : Prop where
  found_once : (r.calls.filterMap fun c => c.2).Nodup
  found : ∀ v, v ∈ r.calls.filterMap (fun c => c.2) ↔ Reach nbr source v ∧ v ≠ source
  edge : ∀ c v, (c, some v) ∈ r.calls → Reach nbr source c ∧ v ∈ nbr c
  leaf_once : ((r.calls.filter fun c => c.2.isNone).map fun c => c.1).Nodup
  leaf : ∀ v, (v, none) ∈ r.calls ↔ Reach nbr source v ∧ nbr v = []
  expanded_once : r.expanded.Nodup
  expanded : ∀ v, v ∈ r.expanded ↔ Reach nbr source v

/-- Moreover in breadth first order: vertices are announced in the order of their distance, from a vertex one step closer. -/
structure BfsSpec (nbr : V → List V) (source : V) (r : Search V) : Prop extends SearchSpec nbr source r where
  level : ∀ c v, (c, some v) ∈ r.calls → ∃ n, IsDist nbr source c n ∧ IsDist nbr source v (n + 1)
  order : (r.calls.filterMap fun c => c.2).Pairwise fun v w => ∀ m n, IsDist nbr source v m → IsDist nbr source w n → m ≤ n

/-! ## The common invariant -/

structure SInv (verts : List V) (nbr : V → List V) (source : V) (s : Search V) : Prop where
  part : s.visited.Perm (s.expanded ++ s.frontier)
  nodup : s.visited.Nodup
  reach : ∀ v ∈ s.visited, Reach nbr source v ∧ v ∈ verts
  src : s.visited = source :: s.calls.filterMap fun c => c.2
  closed : ∀ u ∈ s.expanded, ∀ w ∈ nbr u, w ∈ s.visited
  edge : ∀ c v, (c, some v) ∈ s.calls → c ∈ s.expanded ∧ v ∈ nbr c
  leaf : (s.calls.filter fun c => c.2.isNone).map (fun c => c.1) = s.expanded.filter fun v => decide (nbr v = [])
  run : s.stop = false

section
variable {verts : List V} {nbr : V → List V} {source : V}

theorem SInv.init (hs : source ∈ verts) : SInv verts nbr source ⟨[source], [source], [], [], false⟩ :=
  ⟨by simp, by simp, by simp [Reach.refl, hs], by simp, by simp, by simp, by simp, rfl⟩

/-- One visit preserves the invariant; `rest` is the frontier without `curr`. -/
theorem SInv.step (hg : FinGraph verts nbr) {s : Search V} (h : SInv verts nbr source s) {curr : V} {rest : List V}
    (hf : s.frontier.Perm (curr :: rest)) :
    SInv verts nbr source
      { frontier := rest ++ (nbr curr).filter fun n => decide (n ∉ s.visited)
        visited := s.visited ++ (nbr curr).filter fun n => decide (n ∉ s.visited)
        calls := s.calls ++ (if nbr curr = [] then [(curr, none)] else
          ((nbr curr).filter fun n => decide (n ∉ s.visited)).map fun n => (curr, some n))
        expanded := s.expanded ++ [curr]
        stop := false } := by
  have hcv : curr ∈ s.visited := h.part.mem_iff.2 (by simp [hf.mem_iff])
  have hce : curr ∉ s.expanded := by
    have := h.part.nodup_iff.1 h.nodup
    rw [List.nodup_append] at this
    intro hc
    exact this.2.2 curr hc curr (hf.mem_iff.2 (by simp)) rfl
  have hcalls : (s.calls ++ (if nbr curr = [] then [(curr, none)] else
      ((nbr curr).filter fun n => decide (n ∉ s.visited)).map fun n => (curr, some n))).filterMap (fun c => c.2) =
      (s.calls.filterMap fun c => c.2) ++ (nbr curr).filter fun n => decide (n ∉ s.visited) := by
    by_cases h0 : nbr curr = []
    · simp [h0]
    · simp [h0, List.filterMap_append, List.filterMap_map, Function.comp_def]
  refine ⟨?_, ?_, ?_, ?_, ?_, ?_, ?_, rfl⟩
  · dsimp only
    have h1 : s.visited.Perm ((s.expanded ++ [curr]) ++ rest) := by
      refine h.part.trans ?_
      rw [List.append_assoc]
      exact List.Perm.append_left _ hf
    rw [← List.append_assoc]
    exact h1.append_right _
  · dsimp only
    rw [List.nodup_append]
    refine ⟨h.nodup, List.Pairwise.filter _ (hg.simple _ (h.reach _ hcv).2), ?_⟩
    rintro a ha b hb rfl
    simp only [List.mem_filter, decide_eq_true_eq] at hb
    exact hb.2 ha
  · intro v hv
    simp only [List.mem_append, List.mem_filter] at hv
    rcases hv with hv | hv
    · exact h.reach v hv
    · exact ⟨(h.reach _ hcv).1.snoc hv.1, hg.closed _ (h.reach _ hcv).2 v hv.1⟩
  · dsimp only
    rw [hcalls, ← List.cons_append, ← h.src]
  · intro u hu w hw
    simp only [List.mem_append, List.mem_singleton, List.mem_filter, decide_eq_true_eq] at hu ⊢
    rcases hu with hu | rfl
    · exact Or.inl (h.closed u hu w hw)
    · by_cases hv : w ∈ s.visited
      · exact Or.inl hv
      · exact Or.inr ⟨hw, hv⟩
  · intro c v hcv'
    simp only [List.mem_append] at hcv' ⊢
    rcases hcv' with hcv' | hcv'
    · exact ⟨Or.inl (h.edge c v hcv').1, (h.edge c v hcv').2⟩
    · split at hcv'
      · simp at hcv'
      · simp only [List.mem_map, List.mem_filter, Prod.mk.injEq, Option.some.injEq] at hcv'
        obtain ⟨a, ha, rfl, rfl⟩ := hcv'
        exact ⟨Or.inr (by simp), ha.1⟩
  · dsimp only
    rw [List.filter_append, List.map_append, List.filter_append, h.leaf]
    congr 1
    by_cases h0 : nbr curr = []
    · simp [h0]
    · simp [h0, List.filter_map, Function.comp_def]

theorem SInv.fuel (h : SInv verts nbr source s) : s.expanded.length + s.frontier.length ≤ verts.length := by
  have e := h.part.length_eq
  rw [List.length_append] at e
  rw [← e]
  exact nodup_length_le h.nodup fun v hv => (h.reach v hv).2

theorem SInv.done (h : SInv verts nbr source s) (hf : s.frontier = []) : SearchSpec nbr source s := by
  have hp : s.visited.Perm s.expanded := by simpa [hf] using h.part
  have hall : ∀ v, Reach nbr source v ↔ v ∈ s.expanded := by
    intro v
    constructor
    · intro hr
      refine Reach.of_closed (P := fun v => v ∈ s.expanded) ?_ ?_ hr
      · intro u hu w hw; exact hp.mem_iff.1 (h.closed u hu w hw)
      · exact hp.mem_iff.1 (by rw [h.src]; simp)
    · intro hv; exact (h.reach v (hp.mem_iff.2 hv)).1
  have hn := h.nodup
  rw [h.src, List.nodup_cons] at hn
  refine ⟨hn.2, ?_, ?_, ?_, ?_, hp.nodup_iff.1 h.nodup, fun v => (hall v).symm⟩
  · intro v
    rw [hall, ← hp.mem_iff, h.src, List.mem_cons]
    constructor
    · intro hv; exact ⟨Or.inr hv, fun e => hn.1 (e ▸ hv)⟩
    · rintro ⟨rfl | hv, hne⟩
      · exact absurd rfl hne
      · exact hv
  · intro c v hc
    exact ⟨(hall c).2 (h.edge c v hc).1, (h.edge c v hc).2⟩
  · rw [h.leaf]; exact List.Pairwise.filter _ (hp.nodup_iff.1 h.nodup)
  · intro v
    rw [hall]
    have : (v, none) ∈ s.calls ↔ v ∈ (s.calls.filter fun c => c.2.isNone).map fun c => c.1 := by
      simp only [List.mem_map, List.mem_filter, Option.isNone_iff_eq_none]
      constructor
      · intro h; exact ⟨(v, none), ⟨h, rfl⟩, rfl⟩
      · rintro ⟨⟨a, b⟩, ⟨h, hb⟩, rfl⟩; dsimp only at hb; exact hb ▸ h
    rw [this, h.leaf, List.mem_filter, decide_eq_true_eq]

variable {neighbors : V → PyM (List V)}

theorem dfsLoop_true (hg : FinGraph verts nbr) (hn : ∀ v ∈ verts, neighbors v = .ok (nbr v)) :
    ∀ (fuel : Nat) (s : Search V), SInv verts nbr source s → verts.length < s.expanded.length + fuel →
    ∃ r, dfsLoop (fun _ => true) neighbors fuel s = .ok r ∧ SearchSpec nbr source r := by
  intro fuel
  induction fuel with
  | zero => intro s h hf; have := h.fuel; omega
  | succ fuel ih =>
    rintro ⟨fr, vis, calls, ex, stop⟩ h hf
    have := h.run
    dsimp only at this
    subst this
    simp only [dfsLoop, Bool.false_eq_true, if_false]
    cases hfr : fr.getLast? with
    | none => exact ⟨_, rfl, h.done (by simpa using hfr)⟩
    | some curr =>
      have hfp : fr.Perm (curr :: fr.dropLast) := by
        have : fr = fr.dropLast ++ [curr] := by
          obtain ⟨l, rfl⟩ := List.getLast?_eq_some_iff.1 hfr
          simp
        conv => lhs; rw [this]
        exact List.perm_append_comm
      have hc := (h.reach curr (h.part.mem_iff.2 (by simp [hfp.mem_iff]))).2
      have hst := h.step hg hfp
      simp only
      rw [visit_true (hn curr hc) (hg.simple curr hc) _ rfl]
      exact ih _ hst (by simp at hf ⊢; omega)

/-- The additional invariant of the breadth first search; `d` gives the level of each visited vertex. -/
structure BInv (nbr : V → List V) (source : V) (s : Search V) (d : V → Nat) : Prop where
  fifo : s.visited = s.expanded ++ s.frontier
  zero : d source = 0
  walk : ∀ v ∈ s.visited, Walk nbr source v (d v)
  sorted : s.visited.Pairwise fun v w => d v ≤ d w
  band : ∀ u ∈ s.frontier, ∀ w ∈ s.visited, d w ≤ d u + 1
  step : ∀ u ∈ s.expanded, ∀ w ∈ nbr u, d w ≤ d u + 1
  call : ∀ c v, (c, some v) ∈ s.calls → d v = d c + 1

theorem BInv.done (h : SInv verts nbr source s) {d : V → Nat} (hb : BInv nbr source s d) (hf : s.frontier = []) : BfsSpec nbr source s := by
  have hs := h.done hf
  have hex : s.visited = s.expanded := by simpa [hf] using hb.fifo
  have hle : ∀ v n, Walk nbr source v n → d v ≤ n := by
    intro v n hw
    induction hw with
    | nil => rw [hb.zero]; omega
    | snoc hw hm ih =>
      have := hb.step _ ((hs.expanded _).2 ⟨_, hw⟩) _ hm
      omega
  have hd : ∀ v, v ∈ s.visited → IsDist nbr source v (d v) := fun v hv => ⟨hb.walk v hv, fun m hm => hle v m hm⟩
  have huniq : ∀ v m n, IsDist nbr source v m → IsDist nbr source v n → m = n := by
    intro v m n hm hn
    have := hm.2 n hn.1
    have := hn.2 m hm.1
    omega
  refine ⟨hs, ?_, ?_⟩
  · intro c v hcv
    have e := hb.call c v hcv
    have hcx := hex ▸ (h.edge c v hcv).1
    refine ⟨d c, hd c hcx, e ▸ hd v ?_⟩
    rw [h.src, List.mem_cons]
    exact Or.inr (List.mem_filterMap.2 ⟨_, hcv, rfl⟩)
  · have hsrt := hb.sorted
    rw [h.src] at hsrt
    refine List.Pairwise.imp_of_mem ?_ (List.pairwise_cons.1 hsrt).2
    intro v w hv hw hvw m n hm hn
    have h1 := huniq v m (d v) hm (hd v (by rw [h.src]; simp [hv]))
    have h2 := huniq w n (d w) hn (hd w (by rw [h.src]; simp [hw]))
    omega

theorem bfsLoop_true (hg : FinGraph verts nbr) (hn : ∀ v ∈ verts, neighbors v = .ok (nbr v)) :
    ∀ (fuel : Nat) (s : Search V) (d : V → Nat), SInv verts nbr source s → BInv nbr source s d → verts.length < s.expanded.length + fuel →
    ∃ r, bfsLoop (fun _ => true) neighbors fuel s = .ok r ∧ BfsSpec nbr source r := by
  intro fuel
  induction fuel with
  | zero => intro s _ h _ hf; have := h.fuel; omega
  | succ fuel ih =>
    rintro ⟨fr, vis, calls, ex, stop⟩ d h hb hf
    have := h.run
    dsimp only at this
    subst this
    simp only [bfsLoop, Bool.false_eq_true, if_false]
    cases hfr : fr with
    | nil => subst hfr; exact ⟨_, rfl, hb.done h rfl⟩
    | cons curr rest =>
      subst hfr
      have hcv : curr ∈ vis := h.part.mem_iff.2 (by simp)
      have hc := (h.reach curr hcv).2
      have hst := h.step hg (List.Perm.refl _)
      simp only
      rw [visit_true (hn curr hc) (hg.simple curr hc) _ rfl]
      refine ih _ (fun v => if v ∈ vis then d v else d curr + 1) hst ?_ (by simp at hf ⊢; omega)
      obtain ⟨b1, b2, b3, b4, b5, b6, b7⟩ := hb
      dsimp only at b1 b2 b3 b4 b5 b6 b7 ⊢
      have hsv : source ∈ vis := by have := h.src; dsimp only at this; rw [this]; simp
      have hnew : ∀ v, v ∈ (nbr curr).filter (fun n => decide (n ∉ vis)) ↔ v ∈ nbr curr ∧ v ∉ vis := by simp
      have hhead : ∀ u ∈ rest, d curr ≤ d u := by
        rw [b1] at b4
        have := (List.pairwise_append.1 b4).2.1
        exact (List.pairwise_cons.1 this).1
      refine ⟨?_, ?_, ?_, ?_, ?_, ?_, ?_⟩
      · dsimp only; rw [b1]; simp
      · simp [hsv, b2]
      · intro v hv
        rw [List.mem_append, hnew] at hv
        rcases hv with hv | hv
        · rw [if_pos hv]; exact b3 v hv
        · rw [if_neg hv.2]; exact (b3 curr hcv).snoc hv.1
      · dsimp only
        rw [List.pairwise_append]
        refine ⟨?_, ?_, ?_⟩
        · refine List.Pairwise.imp_of_mem ?_ b4
          intro a b ha hb h; rw [if_pos ha, if_pos hb]; exact h
        · rw [List.pairwise_iff_forall_sublist]
          intro a b hab
          have ha := (hnew a).1 (hab.subset (by simp))
          have hb := (hnew b).1 (hab.subset (by simp))
          rw [if_neg ha.2, if_neg hb.2]; omega
        · intro a ha b hb
          rw [if_pos ha, if_neg ((hnew b).1 hb).2]
          exact b5 curr (by simp) a ha
      · intro u hu w hw
        rw [List.mem_append, hnew] at hu hw
        have hmin : d curr ≤ (if u ∈ vis then d u else d curr + 1) := by
          rcases hu with hu | hu
          · split
            · exact hhead u hu
            · omega
          · rw [if_neg hu.2]; omega
        split
        · rename_i hwv
          rcases hu with hu | hu
          · have huv : u ∈ vis := by rw [b1]; simp [hu]
            rw [if_pos huv]; exact b5 u (by simp [hu]) w hwv
          · rw [if_neg hu.2]; have := b5 curr (by simp) w hwv; omega
        · omega
      · intro u hu w hw
        simp only [List.mem_append, List.mem_singleton] at hu
        rcases hu with hu | rfl
        · have huv : u ∈ vis := by rw [b1]; simp [hu]
          have hwv : w ∈ vis := h.closed u hu w hw
          rw [if_pos huv, if_pos hwv]; exact b6 u hu w hw
        · rw [if_pos hcv]
          split
          · rename_i hwv; exact b5 u (by simp) w hwv
          · omega
      · intro c v hcall
        rw [List.mem_append] at hcall
        rcases hcall with hcall | hcall
        · have hcx : c ∈ vis := by rw [b1]; have := (h.edge c v hcall).1; dsimp only at this; simp [this]
          have hvv : v ∈ vis := by
            have := h.src; dsimp only at this
            rw [this, List.mem_cons]
            exact Or.inr (List.mem_filterMap.2 ⟨_, hcall, rfl⟩)
          rw [if_pos hcx, if_pos hvv]; exact b7 c v hcall
        · split at hcall
          · simp at hcall
          · rw [List.mem_map] at hcall
            obtain ⟨a, ha, he⟩ := hcall
            simp only [Prod.mk.injEq, Option.some.injEq] at he
            obtain ⟨rfl, rfl⟩ := he
            rw [if_pos hcv, if_neg ((hnew a).1 ha).2]

/-! ## The theorems -/

/-- C58: on every finite graph, from every vertex and for every operation, breadth first search terminates; without early stop it announces and
expands exactly the reachable vertices, once each, in the order of their distance; with an operation that answers false at some point it
makes the same calls up to that point. -/
theorem C58_bfs (hg : FinGraph verts nbr) (hn : ∀ v ∈ verts, neighbors v = .ok (nbr v)) (hs : source ∈ verts) :
    ∃ full, EndsWith (fun fuel => bfs (fun _ => true) neighbors source fuel) (.ok full) ∧ BfsSpec nbr source full ∧
      ∀ op : List (OpCall V) → Bool,
      EndsIn (fun fuel => bfs op neighbors source fuel) fun r => r.calls = cut op [] full.calls := by
  have hfull : ∀ fuel, verts.length < fuel → ∃ r, bfs (fun _ => true) neighbors source fuel = .ok r ∧ BfsSpec nbr source r := by
    intro fuel hf
    exact bfsLoop_true hg hn fuel _ (fun _ => 0) (SInv.init hs)
      ⟨by simp, rfl, by simp; exact .nil, by simp, by simp, by simp, by simp⟩ (by simpa using hf)
  have hmono : ∀ (op : List (OpCall V) → Bool) (n : Nat) (s r : Search V), bfsLoop op neighbors n s = .ok r →
      ∀ m, n ≤ m → bfsLoop op neighbors m s = .ok r := by
    intro op n
    induction n with
    | zero => intro s r h; simp [bfsLoop] at h
    | succ n ih =>
      intro s r h m hm
      obtain ⟨m, rfl⟩ := Nat.exists_eq_add_of_le' hm
      rw [show m + (n + 1) = (m + n) + 1 from rfl]
      simp only [bfsLoop] at h ⊢
      split at h
      · rename_i hs; rw [if_pos hs]; exact h
      · rename_i hs; rw [if_neg hs]
        split at h
        · exact h
        · cases hv : searchVisit op neighbors _ _ with
          | error e => rw [hv] at h; simp [bind, Except.bind] at h
          | ok s' => rw [hv] at h; exact ih s' r h _ (by omega)
  obtain ⟨full, hf, hspec⟩ := hfull (verts.length + 1) (by omega)
  refine ⟨full, ⟨verts.length + 1, fun n hle => hmono _ _ _ _ hf n hle⟩, hspec, fun op => ⟨verts.length + 1, fun n hle => ?_⟩⟩
  obtain ⟨rest, r', e1, e2, e3⟩ := bfsLoop_cut hg hn op (verts.length + 1) _ full rfl (by simpa using hs) hf
  simp only [List.nil_append] at e1 e3
  exact ⟨r', hmono op _ _ _ e2 n hle, e3.trans (by rw [e1])⟩

/-- C59: the same for depth first search, without the statement about distances. -/
theorem C59_dfs (hg : FinGraph verts nbr) (hn : ∀ v ∈ verts, neighbors v = .ok (nbr v)) (hs : source ∈ verts) :
    ∃ full, EndsWith (fun fuel => dfs (fun _ => true) neighbors source fuel) (.ok full) ∧ SearchSpec nbr source full ∧
      ∀ op : List (OpCall V) → Bool,
      EndsIn (fun fuel => dfs op neighbors source fuel) fun r => r.calls = cut op [] full.calls := by
  have hmono : ∀ (op : List (OpCall V) → Bool) (n : Nat) (s r : Search V), dfsLoop op neighbors n s = .ok r →
      ∀ m, n ≤ m → dfsLoop op neighbors m s = .ok r := by
    intro op n
    induction n with
    | zero => intro s r h; simp [dfsLoop] at h
    | succ n ih =>
      intro s r h m hm
      obtain ⟨m, rfl⟩ := Nat.exists_eq_add_of_le' hm
      rw [show m + (n + 1) = (m + n) + 1 from rfl]
      simp only [dfsLoop] at h ⊢
      split at h
      · rename_i hs; rw [if_pos hs]; exact h
      · rename_i hs; rw [if_neg hs]
        split at h
        · exact h
        · cases hv : searchVisit op neighbors _ _ with
          | error e => rw [hv] at h; simp [bind, Except.bind] at h
          | ok s' => rw [hv] at h; exact ih s' r h _ (by omega)
  obtain ⟨full, hf, hspec⟩ := dfsLoop_true (source := source) hg hn (verts.length + 1) _ (SInv.init hs) (by simp)
  refine ⟨full, ⟨verts.length + 1, fun n hle => hmono _ _ _ _ hf n hle⟩, hspec, fun op => ⟨verts.length + 1, fun n hle => ?_⟩⟩
  obtain ⟨rest, r', e1, e2, e3⟩ := dfsLoop_cut hg hn op (verts.length + 1) _ full rfl (by simpa using hs) hf
  simp only [List.nil_append] at e1 e3
  exact ⟨r', hmono op _ _ _ e2 n hle, e3.trans (by rw [e1])⟩

end

/-! ## The hypotheses are met by both graph classes -/

/-- Adjacency lists: the abstraction of C56. -/
theorem AlRep.finGraph {g : AList} {d : Digraph} (h : AlRep g d) :
    FinGraph d.verts d.nbrs ∧ ∀ v ∈ d.verts, alNeighbors g v = .ok (d.nbrs v) :=
  ⟨⟨h.nodup, fun _ _ _ hw => (h.ends _ (mem_nbrs.1 hw)).2, fun v _ => nbrs_nodup h.enodup v⟩,
   fun v hv => by rw [alNeighbors_of h, if_pos hv]⟩

/-- Adjacency matrices: the abstraction of C57. -/
theorem AmRep.finGraph {P : String → Prop} {g : AMat} {d : Digraph} {ever} (h : AmRep P g d ever) (ht : ∀ e ∈ d.edges, e.2 ∈ d.verts) :
    FinGraph d.verts (amNeighbors g) ∧ ∀ v w, w ∈ amNeighbors g v ↔ (v, w) ∈ d.edges :=
  ⟨⟨h.nodup, fun v _ _ hw => ht (v, _) (mem_nbrs.1 ((neighbors_perm h v).mem_iff.1 hw)),
    fun v _ => (neighbors_perm h v).nodup_iff.2 (nbrs_nodup h.dnodup v)⟩,
   fun v w => (neighbors_perm h v).mem_iff.trans mem_nbrs⟩

def exNbr : Nat → List Nat
  | 0 => [1, 2]
  | 1 => [3, 0]
  | 2 => [3]
  | 4 => [0]
  | _ => []

/-- Non-vacuity: a graph with a cycle, an unreachable vertex and a vertex without neighbours. -/
example : FinGraph [0, 1, 2, 3, 4] exNbr ∧
    (bfs (fun _ => true) (fun v => .ok (exNbr v)) 0 9).map (fun r => (r.calls, r.expanded)) =
      .ok ([(0, some 1), (0, some 2), (1, some 3), (3, none)], [0, 1, 2, 3]) ∧
    (dfs (fun _ => true) (fun v => .ok (exNbr v)) 0 9).map (fun r => (r.calls, r.expanded)) =
      .ok ([(0, some 1), (0, some 2), (2, some 3), (3, none)], [0, 2, 3, 1]) ∧
    (bfs (fun l => l.length < 2) (fun v => .ok (exNbr v)) 0 9).map (fun r => r.calls) = .ok [(0, some 1), (0, some 2)] := by
  refine ⟨⟨by decide, by decide, by decide⟩, rfl, rfl, rfl⟩

end Props
