import Verif.Model.Prim
import Verif.Props.BinomialHeap
import Verif.Props.Kruskal

/-! # C64: Prim's algorithm, sequential and parallel -/
namespace Props
open Py Model Spec
set_option linter.unusedSectionVars false

theorem primLe_order : KeyOrder primLe :=
  ⟨fun a b => by simp only [primLe, decide_eq_true_eq]; omega, fun a b c => by simp only [primLe, decide_eq_true_eq]; omega⟩

/-- The graph is undirected and all its edges have a cost: every edge is there in both directions with the same cost; `items` are the edges. -/
structure UndirectedItems (g : AList) (d : Digraph) (items : List GEdge) : Prop where
  mem : ∀ e, e ∈ items ↔ (e.source, e.target) ∈ d.edges ∧ alGetEdge g e.source e.target = some e
  both : ∀ s t, (s, t) ∈ d.edges → ∃ c, (⟨s, t, c⟩ : GEdge) ∈ items ∧ (⟨t, s, c⟩ : GEdge) ∈ items

/-- All entries of all queues. -/
def primEntries (q : List PrimHeap) : List (Int × String) := q.flatMap bhEntries

section
variable {gAttr nAttr : String → Bool} {g : AList} {d : Digraph} {items E : List GEdge} {start : String}
variable {sl : String → Nat} {n : Nat}

/-- The queues are binomial heaps, and every entry is in the queue of its vertex. -/
structure QOk (d : Digraph) (sl : String → Nat) (n : Nat) (q : List PrimHeap) : Prop where
  len : q.length = n
  ok : ∀ (i : Nat) (h : PrimHeap), q[i]? = some h → BHeapOk primLe h
  slot : ∀ (i : Nat) (h : PrimHeap), q[i]? = some h → ∀ e ∈ bhEntries h, e.2 ∈ d.verts ∧ sl e.2 = i

/-- The tree built so far: its vertices are `S`, its edges `K`. -/
structure PTree (g : AList) (d : Digraph) (E : List GEdge) (start : String) (m : AList) (S : List String) (K : List GEdge) : Prop where
  verts : m.vertices = S
  adj : ∀ v, m.adjacent v = if v ∈ S then g.adjacent v else none
  weights : ∀ s ∈ d.verts, ∀ t ∈ d.verts, ∀ x, m.weights (s ++ "_" ++ t) = some x ↔ ∃ c, x = ⟨s, t, c⟩ ∧ TreeEdge K s t c
  nodup : S.Nodup
  sub : ∀ v ∈ S, v ∈ d.verts
  promising : Promising GEdge.pair GEdge.value E K
  forest : Forest GEdge.pair K
  ksub : ∀ e ∈ K, e ∈ E
  kends : ∀ e ∈ K, e.source ∈ S ∧ e.target ∈ S
  conn : ∀ v ∈ S, Connects GEdge.pair K start v

/-- The queues and the dictionaries `e`, when the edges `(x, w)` with `R x w` of the tree vertices have been looked at. -/
structure PQueue (d : Digraph) (items : List GEdge) (start : String) (sl : String → Nat) (n : Nat) (q : List PrimHeap) (e : Nat → String → Option GEdge)
    (S : List String) (R : String → String → Prop) : Prop where
  qok : QOk d sl n q
  empty : S = [] → primEntries q = [(0, start)]
  entry : ∀ x ∈ primEntries q, x.2 ∉ S → S = [] ∨ ∃ u ∈ S, (⟨u, x.2, x.1⟩ : GEdge) ∈ items
  best : ∀ w f, e (sl w) w = some f → f ∈ items ∧ f.target = w ∧ f.source ∈ S
  edges : ∀ x ∈ S, ∀ w c, (⟨x, w, c⟩ : GEdge) ∈ items → R x w → (∃ f, e (sl w) w = some f ∧ f.value ≤ c) ∧ (w ∉ S → (c, w) ∈ primEntries q)

/-- The edges of the vertices that are not in the tree yet. -/
def pending (d : Digraph) (S : List String) : Nat := (d.edges.filter fun e => decide (e.1 ∉ S)).length

theorem pending_add (d : Digraph) (S : List String) (v : String) (hv : v ∉ S) : pending d S = pending d (S ++ [v]) + (d.nbrs v).length := by
  unfold pending Digraph.nbrs
  rw [List.length_map]
  induction d.edges with
  | nil => rfl
  | cons e es ih =>
    simp only [List.filter_cons]
    by_cases h1 : e.1 = v
    · have h2 : e.1 ∉ S := by rw [h1]; exact hv
      rw [if_pos (by simpa using h2), if_neg (by simp [h1]), if_pos (by simpa using h1)]
      simp only [List.length_cons]
      omega
    · by_cases h2 : e.1 ∈ S
      · rw [if_neg (by simpa using h2), if_neg (by simp [h2]), if_neg (by simpa using h1)]
        exact ih
      · rw [if_pos (by simpa using h2), if_pos (by simp [h1, h2]), if_neg (by simpa using h1)]
        simp only [List.length_cons]
        omega

theorem flatMap_set_perm {q : List PrimHeap} {j : Nat} {h h' : PrimHeap} {x : Int × String} (hj : q[j]? = some h)
    (hp : (bhEntries h').Perm (x :: bhEntries h)) : (primEntries (q.set j h')).Perm (x :: primEntries q) := by
  have hi : j < q.length := by
    rcases Nat.lt_or_ge j q.length with h' | h'
    · exact h'
    · rw [List.getElem?_eq_none h'] at hj; cases hj
  have h1 : q = q.take j ++ h :: q.drop (j + 1) := by
    obtain ⟨_, e⟩ := List.getElem?_eq_some_iff.1 hj
    rw [← e]; simp
  have h2 : primEntries q = primEntries (q.take j) ++ (bhEntries h ++ primEntries (q.drop (j + 1))) := by
    conv => lhs; rw [h1]
    simp [primEntries]
  have h3 : primEntries (q.set j h') = primEntries (q.take j) ++ (bhEntries h' ++ primEntries (q.drop (j + 1))) := by
    rw [List.set_eq_take_append_cons_drop, if_pos hi]
    simp [primEntries]
  rw [h2, h3]
  refine ((hp.append_right _).append_left _).trans ?_
  exact List.perm_middle

theorem QOk.set {q : List PrimHeap} (hq : QOk d sl n q) {j : Nat} {h' : PrimHeap} (hok : BHeapOk primLe h')
    (hslot : ∀ e ∈ bhEntries h', e.2 ∈ d.verts ∧ sl e.2 = j) : QOk d sl n (q.set j h') := by
  refine ⟨by simp [hq.len], ?_, ?_⟩
  · intro i h hi
    rw [List.getElem?_set] at hi
    split at hi
    · split at hi
      · cases hi; exact hok
      · cases hi
    · exact hq.ok i h hi
  · intro i h hi
    rw [List.getElem?_set] at hi
    split at hi
    · rename_i hji
      subst hji
      split at hi
      · cases hi; exact hslot
      · cases hi
    · exact hq.slot i h hi

/-- One neighbour. -/
theorem primNeighbor_spec {slot : String → PyM Nat} (hu : UndirectedItems g d items) (hends : ∀ e ∈ d.edges, e.1 ∈ d.verts ∧ e.2 ∈ d.verts)
    (hslot : ∀ v ∈ d.verts, slot v = .ok (sl v) ∧ sl v < n) {st : Prim} (hg : st.g = g) {S done : List String} {v w : String} (hv : v ∈ S)
    (hw : (v, w) ∈ d.edges) (hQ : PQueue d items start sl n st.q st.e S (fun x u => x ≠ v ∨ u ∈ done)) :
    ∃ q e, primNeighbor slot v w st = .ok { st with q := q, e := e } ∧ PQueue d items start sl n q e S (fun x u => x ≠ v ∨ u ∈ done ++ [w]) ∧
      (primEntries q).length = (primEntries st.q).length + 1 := by
  obtain ⟨c, hc, _⟩ := hu.both v w hw
  have hwt : g.weights (v ++ "_" ++ w) = some ⟨v, w, c⟩ := ((hu.mem _).1 hc).2
  have hwv := (hends _ hw).2
  obtain ⟨e1, e2⟩ := hslot w hwv
  have hj : sl w < st.q.length := by rw [hQ.qok.len]; exact e2
  have hh : st.q[sl w]? = some st.q[sl w] := by simp [hj]
  obtain ⟨h', ei, hok, hp⟩ := C38_insert primLe_order (hQ.qok.ok _ _ hh) c w
  have hperm := flatMap_set_perm hh hp
  have hSne : S ≠ [] := by rintro rfl; cases hv
  let e' := match st.e (sl w) w with
      | none => fun i u => if i = sl w ∧ u = w then some (⟨v, w, c⟩ : GEdge) else st.e i u
      | some old => if old.value > c then fun i u => if i = sl w ∧ u = w then some (⟨v, w, c⟩ : GEdge) else st.e i u else st.e
  have hne : ∀ u, u ≠ w → e' (sl u) u = st.e (sl u) u := by
    intro u hu'
    simp only [e']
    split
    · simp [hu']
    · split
      · simp [hu']
      · rfl
  have hw1 : ∃ f, e' (sl w) w = some f ∧ f.value ≤ c ∧ (f = ⟨v, w, c⟩ ∨ st.e (sl w) w = some f) ∧ ∀ f', st.e (sl w) w = some f' → f.value ≤ f'.value := by
    cases ho : st.e (sl w) w with
    | none => exact ⟨⟨v, w, c⟩, by simp [e', ho], by simp, Or.inl rfl, by simp⟩
    | some old =>
      by_cases hgt : old.value > c
      · refine ⟨⟨v, w, c⟩, by simp [e', ho, hgt], by simp, Or.inl rfl, ?_⟩
        intro f' hf'
        cases hf'
        exact Int.le_of_lt hgt
      · refine ⟨old, by simp [e', ho, hgt], by omega, Or.inr rfl, ?_⟩
        intro f' hf'
        cases hf'
        exact Int.le_refl _
  obtain ⟨fw, hw2, hw3, hw4, hw5⟩ := hw1
  refine ⟨st.q.set (sl w) h', e', ?_, ⟨?_, fun h => absurd h hSne, ?_, ?_, ?_⟩, ?_⟩
  · simp only [primNeighbor, hg, hwt, e1, ok_bind, rd, hh, ei, wr, hj, if_true]
    rfl
  · refine hQ.qok.set hok ?_
    intro x hx
    rcases List.mem_cons.1 (hp.mem_iff.1 hx) with rfl | hx
    · exact ⟨hwv, rfl⟩
    · exact hQ.qok.slot _ _ hh x hx
  · intro x hx hxS
    rcases List.mem_cons.1 (hperm.mem_iff.1 hx) with rfl | hx
    · exact Or.inr ⟨v, hv, hc⟩
    · exact hQ.entry x hx hxS
  · intro u f hf
    by_cases huw : u = w
    · subst huw
      rw [hw2] at hf
      cases hf
      rcases hw4 with h | h
      · subst h; exact ⟨hc, rfl, hv⟩
      · exact hQ.best u _ h
    · rw [hne u huw] at hf
      exact hQ.best u f hf
  · intro x hx u c' hc' hR
    have hmono : ∀ {p}, p ∈ primEntries st.q → p ∈ primEntries (st.q.set (sl w) h') := fun hp' => hperm.mem_iff.2 (List.mem_cons_of_mem _ hp')
    by_cases hold : x ≠ v ∨ u ∈ done
    · obtain ⟨⟨f, hf1, hf2⟩, hf3⟩ := hQ.edges x hx u c' hc' hold
      refine ⟨?_, fun hu => hmono (hf3 hu)⟩
      by_cases huw : u = w
      · subst huw
        exact ⟨fw, hw2, Int.le_trans (hw5 f hf1) hf2⟩
      · exact ⟨f, by rw [hne u huw]; exact hf1, hf2⟩
    · have hxv : x = v := by
        by_cases h : x = v
        · exact h
        · exact absurd (Or.inl h) hold
      have huw : u = w := by
        rcases hR with h | h
        · exact absurd hxv h
        · rcases List.mem_append.1 h with h | h
          · exact absurd (Or.inr h) hold
          · simpa using h
      subst hxv; subst huw
      have : c' = c := by
        have h2 := ((hu.mem _).1 hc').2
        rw [alGetEdge, hwt] at h2
        cases h2; rfl
      subst this
      exact ⟨⟨fw, hw2, hw3⟩, fun _ => hperm.mem_iff.2 (by simp)⟩
  · rw [hperm.length_eq]; simp

theorem primNeighbors_spec {slot : String → PyM Nat} (hu : UndirectedItems g d items) (hends : ∀ e ∈ d.edges, e.1 ∈ d.verts ∧ e.2 ∈ d.verts)
    (hslot : ∀ v ∈ d.verts, slot v = .ok (sl v) ∧ sl v < n) {S : List String} {v : String} (hv : v ∈ S) :
    ∀ (ns done : List String) (st : Prim), st.g = g → (∀ w ∈ ns, (v, w) ∈ d.edges) → PQueue d items start sl n st.q st.e S (fun x u => x ≠ v ∨ u ∈ done) →
    ∃ q e, forList ns st (fun w st => primNeighbor slot v w st) = .ok { st with q := q, e := e } ∧
      PQueue d items start sl n q e S (fun x u => x ≠ v ∨ u ∈ done ++ ns) ∧ (primEntries q).length = (primEntries st.q).length + ns.length := by
  intro ns
  induction ns with
  | nil => intro done st _ _ hQ; exact ⟨st.q, st.e, rfl, by simpa using hQ, rfl⟩
  | cons w ns ih =>
    intro done st hg hns hQ
    obtain ⟨q, e, e1, hQ', hl⟩ := primNeighbor_spec hu hends hslot hg hv (hns w (by simp)) hQ
    obtain ⟨q2, e2, e3, hQ2, hl2⟩ := ih (done ++ [w]) { st with q := q, e := e } hg (fun u hu => hns u (by simp [hu])) hQ'
    refine ⟨q2, e2, ?_, by simpa using hQ2, by simp only [List.length_cons]; simp only at hl2; omega⟩
    rw [forList, e1, ok_bind, e3]

/-- The two graphs share their nodes, and the edge is in the input graph: `add_edge` only sets the weight. -/
theorem primAddEdge_spec (hr : AlRep g d) {st : Prim} (hg : st.g = g) {S : List String}
    (hadj : ∀ v, st.mst.adjacent v = if v ∈ S then g.adjacent v else none) {s t : String} (hs : s ∈ S) (ht : t ∈ S) (he : (s, t) ∈ d.edges)
    (c : Int) : primAddEdge gAttr nAttr st s t c =
      .ok { st with mst := ⟨st.mst.vertices, st.mst.adjacent, sset st.mst.weights (s ++ "_" ++ t) (some ⟨s, t, c⟩)⟩ } := by
  obtain ⟨e1, e2⟩ := hr.ends _ he
  have a1 : st.mst.adjacent s = some (d.nbrs s) := by rw [hadj, if_pos hs, hr.adj, if_pos e1]
  have a2 : st.mst.adjacent t = some (d.nbrs t) := by rw [hadj, if_pos ht, hr.adj, if_pos e2]
  have hm : t ∈ d.nbrs s := mem_nbrs.2 he
  have e3 : alAddEdge gAttr nAttr st.mst s t (some c) =
      .ok ⟨st.mst.vertices, st.mst.adjacent, sset st.mst.weights (s ++ "_" ++ t) (some ⟨s, t, c⟩)⟩ := by
    simp [alAddEdge, alHas, alNode, a1, a2, alAddAdjacent, nodeHas, hm, ok_bind]
  rw [primAddEdge, e3, ok_bind]
  have : shareNodes st.g ⟨st.mst.vertices, st.mst.adjacent, sset st.mst.weights (s ++ "_" ++ t) (some ⟨s, t, c⟩)⟩ = st.g := by
    unfold shareNodes
    rw [hg]
    congr 1
    funext v
    simp only [hadj]
    split
    · rename_i a ha
      split at ha
      · exact ha.symm
      · cases ha
    · rfl
  rw [this]

/-- The vertices and edges with which the algorithm starts and the state between two steps. -/
structure PInv (g : AList) (d : Digraph) (items E : List GEdge) (start : String) (sl : String → Nat) (n : Nat) (st : Prim) (S : List String)
    (K : List GEdge) : Prop where
  graph : st.g = g
  tree : PTree g d E start st.mst S K
  queue : PQueue d items start sl n st.q st.e S (fun _ _ => True)

theorem visit_spec (hr : AlRep g d) (hsep : Separable fun v => v ∈ d.verts) (hpl : ∀ v ∈ d.verts, Plain gAttr nAttr v)
    (hu : UndirectedItems g d items) (hE : ∀ e, e ∈ E ↔ e ∈ items ∧ Connects GEdge.pair items start e.source)
    {slot : String → PyM Nat} (hslot : ∀ v ∈ d.verts, slot v = .ok (sl v) ∧ sl v < n) {st : Prim} {S : List String} {K : List GEdge}
    (h : PInv g d items E start sl n st S K) {q' : List PrimHeap} (hq' : QOk d sl n q') {k : Int} {v : String}
    (hp : (primEntries st.q).Perm ((k, v) :: primEntries q')) (hmin : ∀ x ∈ primEntries st.q, k ≤ x.1) (hv : v ∈ d.verts) :
    ∃ st' S' K', primVisit gAttr nAttr slot (sl v) v { st with q := q' } = .ok st' ∧ PInv g d items E start sl n st' S' K' ∧ S' ≠ [] ∧
      (primEntries st'.q).length + pending d S' + 1 = (primEntries st.q).length + pending d S := by
  obtain ⟨hg, hT, hQ⟩ := h
  have hlen : (primEntries st.q).length = (primEntries q').length + 1 := by rw [hp.length_eq]; simp
  have hsub : ∀ x, x ∈ primEntries q' → x ∈ primEntries st.q := fun x hx => hp.mem_iff.2 (List.mem_cons_of_mem _ hx)
  have hhas : alHas gAttr st.mst v = decide (v ∈ S) := by
    rw [alHas, (hpl v hv).1, hT.adj, Bool.false_or]
    by_cases hS : v ∈ S
    · simp [hS, hr.adj, hv]
    · simp [hS]
  by_cases hS : v ∈ S
  · refine ⟨{ st with q := q' }, S, K, ?_, ⟨hg, hT, hq', ?_, ?_, hQ.best, ?_⟩, (by intro h; rw [h] at hS; cases hS), by simp only; omega⟩
    · rw [primVisit]; simp [hhas, hS]
    · intro h; rw [h] at hS; cases hS
    · intro x hx; exact hQ.entry x (hsub x hx)
    · intro x hx w c hc hR
      obtain ⟨h1, h2⟩ := hQ.edges x hx w c hc hR
      refine ⟨h1, fun hw => ?_⟩
      rcases List.mem_cons.1 (hp.mem_iff.1 (h2 hw)) with e | e
      · exact absurd (by injection e with _ e; rw [e]; exact hS) hw
      · exact e
  -- a new vertex
  have hadd : alAddNode gAttr st.mst v (d.nbrs v) = ⟨S ++ [v], sset st.mst.adjacent v (some (d.nbrs v)), st.mst.weights⟩ := by
    rw [alAddNode, hhas]; simp [hS, hT.verts]
  have hadj' : ∀ u, sset st.mst.adjacent v (some (d.nbrs v)) u = if u ∈ S ++ [v] then g.adjacent u else none := by
    intro u
    simp only [sset, List.mem_append, List.mem_singleton]
    by_cases hu' : u = v
    · subst hu'; simp [hr.adj, hv]
    · simp [hu', hT.adj]
  -- the connecting edge
  have hconn : ∃ m' K', primConnect gAttr nAttr (sl v) v { st with q := q', mst := ⟨S ++ [v], sset st.mst.adjacent v (some (d.nbrs v)), st.mst.weights⟩ } =
      .ok { st with q := q', mst := m' } ∧ PTree g d E start m' (S ++ [v]) K' := by
    have hnd : (S ++ [v]).Nodup := List.nodup_append.2 ⟨hT.nodup, by simp, by rintro a ha b hb rfl; simp at hb; subst hb; exact hS ha⟩
    have hsb : ∀ u ∈ S ++ [v], u ∈ d.verts := by
      intro u hu'
      rcases List.mem_append.1 hu' with h | h
      · exact hT.sub u h
      · simp at h; subst h; exact hv
    by_cases hS0 : S = []
    · have hst : v = start ∧ k = 0 := by
        have := hQ.empty hS0
        rw [this] at hp
        have := hp.mem_iff.2 (List.mem_cons_self ..)
        simp at this
        exact ⟨this.2, this.1⟩
      have hnone : st.e (sl v) v = none := by
        cases he : st.e (sl v) v with
        | none => rfl
        | some f => have := (hQ.best v f he).2.2; rw [hS0] at this; cases this
      have hK0 : K = [] := by
        cases K with
        | nil => rfl
        | cons f K => have := (hT.kends f (by simp)).1; rw [hS0] at this; cases this
      refine ⟨⟨S ++ [v], sset st.mst.adjacent v (some (d.nbrs v)), st.mst.weights⟩, K, by simp only [primConnect, hnone], ⟨rfl, hadj', hT.weights, hnd, hsb, hT.promising, hT.forest, hT.ksub, ?_, ?_⟩⟩
      · intro e he; rw [hK0] at he; cases he
      · intro u hu'
        rw [hS0] at hu'
        simp at hu'
        rw [hu', hst.1]
        exact .refl _
    · obtain ⟨u, huS, huv⟩ : ∃ u ∈ S, (⟨u, v, k⟩ : GEdge) ∈ items := by
        rcases hQ.entry (k, v) (hp.mem_iff.2 (by simp)) hS with h | h
        · exact absurd h hS0
        · exact h
      obtain ⟨⟨f, hf1, hf2⟩, _⟩ := hQ.edges u huS v k huv trivial
      obtain ⟨f1, f2, f3⟩ := hQ.best v f hf1
      obtain ⟨fs, ft, fc⟩ := f
      simp only at f2 f3 hf2
      subst f2
      have fe : (fs, ft) ∈ d.edges := ((hu.mem _).1 f1).1
      have fe' : (ft, fs) ∈ d.edges := by
        obtain ⟨c, _, h2⟩ := hu.both fs ft fe
        exact ((hu.mem _).1 h2).1
      have hno : ∀ a c, ¬ TreeEdge K a ft c := by
        rintro a c ⟨e, he, _, ⟨_, h⟩ | ⟨h, _⟩⟩
        · exact hS (h ▸ (hT.kends e he).2)
        · exact hS (h ▸ (hT.kends e he).1)
      have hno' : ∀ a c, ¬ TreeEdge K ft a c := by
        rintro a c ⟨e, he, _, ⟨h, _⟩ | ⟨_, h⟩⟩
        · exact hS (h ▸ (hT.kends e he).1)
        · exact hS (h ▸ (hT.kends e he).2)
      have hfs : fs ∈ d.verts := hT.sub fs f3
      have hnc : ¬ Connects GEdge.pair K fs ft := by
        intro c
        have := (noncrossing_connects (S := fun x => x ∈ S) (fun e he hx => hx ⟨fun _ => (hT.kends e he).2, fun _ => (hT.kends e he).1⟩) c).1 f3
        exact hS this
      have fE : (⟨fs, ft, fc⟩ : GEdge) ∈ E := (hE _).2 ⟨f1, (hT.conn fs f3).mono fun e he => ((hE e).1 (hT.ksub e he)).1⟩
      refine ⟨⟨S ++ [ft], sset st.mst.adjacent ft (some (d.nbrs ft)),
        sset (sset st.mst.weights (fs ++ "_" ++ ft) (some ⟨fs, ft, fc⟩)) (ft ++ "_" ++ fs) (some ⟨ft, fs, fc⟩)⟩, ⟨fs, ft, fc⟩ :: K, ?_,
        rfl, hadj', ?_, hnd, hsb, ?_, hT.forest.cons hnc, ?_, ?_, ?_⟩
      · simp only [primConnect, hf1, hg, alNode_of hr, if_pos hv, ok_bind]
        have : alAddNode gAttr ⟨S ++ [ft], sset st.mst.adjacent ft (some (d.nbrs ft)), st.mst.weights⟩ ft (d.nbrs ft) =
            ⟨S ++ [ft], sset st.mst.adjacent ft (some (d.nbrs ft)), st.mst.weights⟩ := by
          rw [alAddNode]; simp [alHas, sset]
        rw [this, primAddEdge_spec hr rfl hadj' (by simp [f3]) (by simp) fe, ok_bind,
          primAddEdge_spec hr rfl hadj' (by simp) (by simp [f3]) fe']
      · intro s hs t ht x
        have hte : ∀ c, TreeEdge (⟨fs, ft, fc⟩ :: K) s t c ↔ TreeEdge K s t c ∨ (fc = c ∧ ((fs = s ∧ ft = t) ∨ (fs = t ∧ ft = s))) := by
          intro c
          simp [TreeEdge]
          grind
        simp only [sset, hte]
        have hne : fs ≠ ft := by rintro rfl; exact hS f3
        by_cases c1 : s = ft ∧ t = fs
        · obtain ⟨rfl, rfl⟩ := c1
          simp only [if_true, Option.some.injEq]
          constructor
          · rintro rfl; exact ⟨fc, rfl, Or.inr (by simp)⟩
          · rintro ⟨c, rfl, h | ⟨rfl, _⟩⟩
            · exact absurd h (hno' _ _)
            · rfl
        · rw [if_neg (fun e => c1 (hsep _ _ _ _ hs ht hv hfs e))]
          by_cases c2 : s = fs ∧ t = ft
          · obtain ⟨rfl, rfl⟩ := c2
            simp only [if_true, Option.some.injEq]
            constructor
            · rintro rfl; exact ⟨fc, rfl, Or.inr (by simp)⟩
            · rintro ⟨c, rfl, h | ⟨rfl, _⟩⟩
              · exact absurd h (hno _ _)
              · rfl
          · rw [if_neg (fun e => c2 (hsep _ _ _ _ hs ht hfs hv e)), hT.weights s hs t ht x]
            constructor
            · rintro ⟨c, rfl, h⟩; exact ⟨c, rfl, Or.inl h⟩
            · rintro ⟨c, rfl, h | ⟨_, ⟨a, b⟩ | ⟨a, b⟩⟩⟩
              · exact ⟨c, rfl, h⟩
              · exact absurd ⟨a.symm, b.symm⟩ c2
              · exact absurd ⟨b.symm, a.symm⟩ c1
      · refine hT.promising.cut (fun x => x ∈ S) (fun e he hx => hx ⟨fun _ => (hT.kends e he).2, fun _ => (hT.kends e he).1⟩) fE ?_ ?_
        · intro hx; exact hS (hx.1 f3)
        · intro e he hx
          have heI := ((hE e).1 he).1
          obtain ⟨es, et, ec⟩ := e
          have hk : k ≤ ec := by
            by_cases hs : es ∈ S
            · by_cases ht : et ∈ S
              · exact absurd ⟨fun _ => ht, fun _ => hs⟩ hx
              · exact hmin _ ((hQ.edges es hs et ec heI trivial).2 ht)
            · by_cases ht : et ∈ S
              · obtain ⟨c, h1, h2⟩ := hu.both es et ((hu.mem _).1 heI).1
                have h3 := ((hu.mem _).1 heI).2
                have h4 := ((hu.mem _).1 h1).2
                rw [h3] at h4
                cases h4
                exact hmin _ ((hQ.edges et ht es ec h2 trivial).2 hs)
              · exact absurd ⟨fun h => absurd h hs, fun h => absurd h ht⟩ hx
          exact Int.le_trans hf2 hk
      · intro e he
        rcases List.mem_cons.1 he with rfl | he
        · exact fE
        · exact hT.ksub e he
      · intro e he
        rcases List.mem_cons.1 he with rfl | he
        · simp [f3]
        · simp [hT.kends e he]
      · intro u hu'
        have hm : ∀ x, Connects GEdge.pair K start x → Connects GEdge.pair (⟨fs, ft, fc⟩ :: K) start x := fun x c => c.mono (by simp +contextual)
        rcases List.mem_append.1 hu' with h | h
        · exact hm u (hT.conn u h)
        · simp at h; subst h
          exact (hm fs (hT.conn fs f3)).trans (Connects.edge (ends := GEdge.pair) (e := (⟨fs, u, fc⟩ : GEdge)) (List.mem_cons_self ..))
  obtain ⟨m', K', e1, hT'⟩ := hconn
  have hQ0 : PQueue d items start sl n q' st.e (S ++ [v]) (fun x u => x ≠ v ∨ u ∈ ([] : List String)) := by
    refine ⟨hq', by simp, ?_, ?_, ?_⟩
    · intro x hx hxS
      right
      have hx1 : x.2 ∉ S := fun h => hxS (by simp [h])
      rcases hQ.entry x (hsub x hx) hx1 with h0 | ⟨u, h1, h2⟩
      · have := hQ.empty h0
        rw [this] at hlen
        have : primEntries q' = [] := by simpa using hlen.symm
        rw [this] at hx; cases hx
      · exact ⟨u, by simp [h1], h2⟩
    · intro w f hf
      obtain ⟨a, b, c⟩ := hQ.best w f hf
      exact ⟨a, b, by simp [c]⟩
    · intro x hx w c hc hR
      have hxv : x ≠ v := by
        rcases hR with h | h
        · exact h
        · cases h
      have hxS : x ∈ S := by
        rcases List.mem_append.1 hx with h | h
        · exact h
        · exact absurd (by simpa using h) hxv
      obtain ⟨h1, h2⟩ := hQ.edges x hxS w c hc trivial
      refine ⟨h1, fun hw => ?_⟩
      have hw1 : w ∉ S := fun h => hw (by simp [h])
      have hw2 : w ≠ v := fun h => hw (by simp [h])
      rcases List.mem_cons.1 (hp.mem_iff.1 (h2 hw1)) with e | e
      · exact absurd (by injection e) hw2
      · exact e
  obtain ⟨q2, e2, e3, hQ2, hl2⟩ := primNeighbors_spec hu hr.ends hslot (S := S ++ [v]) (v := v) (by simp) (d.nbrs v) []
    { st with q := q', mst := m' } hg (fun w hw => mem_nbrs.1 hw) hQ0
  refine ⟨{ st with q := q2, e := e2, mst := m' }, S ++ [v], K', ?_, ⟨hg, hT', ?_⟩, by simp, ?_⟩
  · rw [primVisit]
    simp only [hhas, hS, decide_false, Bool.false_eq_true, if_false, hg, alNode_of hr, if_pos hv, ok_bind, hadd]
    rw [hg] at e1 e3
    rw [e1, ok_bind]
    simp only [alNeighbors_of hr, if_pos hv, ok_bind]
    exact e3
  · refine ⟨hQ2.qok, hQ2.empty, hQ2.entry, hQ2.best, ?_⟩
    intro x hx w c hc _
    refine hQ2.edges x hx w c hc ?_
    by_cases hxv : x = v
    · right
      subst hxv
      simpa using mem_nbrs.2 ((hu.mem _).1 hc).1
    · exact Or.inl hxv
  · have := pending_add d S v hS
    simp only at hl2 ⊢
    omega

/-- Taking an entry from one of the queues. -/
theorem pop_spec {q : List PrimHeap} (hq : QOk d sl n q) {j : Nat} {h : PrimHeap} (hj : q[j]? = some h) (hne : bhIsEmpty h = false) :
    ∃ nd i h', bhFindMin primLe h = .ok (nd, i) ∧ bpqPop primLe h = .ok (nd.data, h') ∧ QOk d sl n (q.set j h') ∧
      (primEntries q).Perm ((nd.key, nd.data) :: primEntries (q.set j h')) ∧ (∀ x ∈ bhEntries h, nd.key ≤ x.1) ∧ nd.data ∈ d.verts ∧ sl nd.data = j := by
  have hok := hq.ok j h hj
  rcases C38_minimum primLe_order hok with ⟨h0, _⟩ | ⟨nd, i, h', e1, h2, e3, hok', hp⟩
  · rw [C38_is_empty hok, h0] at hne; cases hne
  · have hin := hq.slot j h hj (nd.key, nd.data) (hp.mem_iff.2 (by simp))
    refine ⟨nd, i, h', e1, by rw [bpqPop, e1, ok_bind]; dsimp only; rw [e3, ok_bind], hq.set hok' ?_, ?_, ?_, hin⟩
    · intro e he; exact hq.slot j h hj e (hp.mem_iff.2 (List.mem_cons_of_mem _ he))
    · have hlt : j < q.length := by
        rcases Nat.lt_or_ge j q.length with h' | h'
        · exact h'
        · rw [List.getElem?_eq_none h'] at hj; cases hj
      have := flatMap_set_perm (q := q.set j h') (j := j) (h := h') (h' := h) (x := (nd.key, nd.data)) (by simp [hlt]) hp
      have e : (q.set j h').set j h = q := by
        rw [List.set_set]
        obtain ⟨_, e⟩ := List.getElem?_eq_some_iff.1 hj
        rw [← e]; simp
      rwa [e] at this
    · intro x hx; simpa [primLe] using h2 x hx

/-- The minimum spanning forest that Prim's algorithm finds, seen through `get_edge` of the result: the edges `E` are those that can be reached
from the first vertex. -/
structure PrimList (g : AList) (items E : List GEdge) (start : String) (m : AList) (K : List GEdge) : Prop where
  least : MinSpanningForest GEdge.pair GEdge.value E K
  nodup : m.vertices.Nodup
  verts : ∀ v, v ∈ m.vertices ↔ v ∈ g.vertices ∧ Connects GEdge.pair items start v
  get : ∀ s ∈ g.vertices, ∀ t ∈ g.vertices, ∀ c, alGetEdge m s t = some ⟨s, t, c⟩ ↔ TreeEdge K s t c
  shape : ∀ s ∈ g.vertices, ∀ t ∈ g.vertices, ∀ x, alGetEdge m s t = some x → x.source = s ∧ x.target = t
  neighbors : ∀ v ∈ m.vertices, alNeighbors m v = alNeighbors g v

theorem neighbors_sub {m : AList} : ∀ (l acc : List String), (∀ v ∈ l, (m.adjacent v).isSome) →
    forList l acc (fun v acc => do
      let _ ← alNode m v
      .ok (acc ++ [v])) = .ok (acc ++ l) := by
  intro l
  induction l with
  | nil => intro acc _; simp [forList]
  | cons v l ih =>
    intro acc h
    obtain ⟨a, ha⟩ := Option.isSome_iff_exists.1 (h v (by simp))
    have := ih (acc ++ [v]) (fun u hu => h u (by simp [hu]))
    rw [forList]
    simp only [alNode, ha, ok_bind] at this ⊢
    rw [this]
    simp

theorem PInv.result (hr : AlRep g d) (hu : UndirectedItems g d items) (hE : ∀ e, e ∈ E ↔ e ∈ items ∧ Connects GEdge.pair items start e.source)
    {st : Prim} {S : List String} {K : List GEdge} (h : PInv g d items E start sl n st S K) (hne : S ≠ [])
    (hq : primEntries st.q = []) : PrimList g items E start st.mst K := by
  obtain ⟨hg, hT, hQ⟩ := h
  have hKi : ∀ e ∈ K, e ∈ items := fun e he => ((hE e).1 (hT.ksub e he)).1
  have closed : ∀ e ∈ items, e.source ∈ S → e.target ∈ S := by
    intro e he hs
    by_cases ht : e.target ∈ S
    · exact ht
    · have := (hQ.edges e.source hs e.target e.value he trivial).2 ht
      rw [hq] at this; cases this
  have closed' : ∀ e ∈ items, e.target ∈ S → e.source ∈ S := by
    intro e he ht
    obtain ⟨c, h1, h2⟩ := hu.both e.source e.target ((hu.mem e).1 he).1
    exact closed _ h2 ht
  have hinS : ∀ {x y}, Connects GEdge.pair items x y → (x ∈ S ↔ y ∈ S) := fun c =>
    noncrossing_connects (S := fun x => x ∈ S) (fun e he hx => hx ⟨closed e he, closed' e he⟩) c
  have hst : start ∈ S := by
    obtain ⟨x, hx⟩ := List.exists_mem_of_ne_nil S hne
    exact (hinS ((hT.conn x hx).mono hKi)).2 hx
  have hmem : ∀ v, v ∈ S ↔ v ∈ d.verts ∧ Connects GEdge.pair items start v := by
    intro v
    exact ⟨fun hv => ⟨hT.sub v hv, (hT.conn v hv).mono hKi⟩, fun hv => (hinS hv.2).1 hst⟩
  refine ⟨hT.promising.least ⟨hT.ksub, hT.forest, ?_⟩, by rw [hT.verts]; exact hT.nodup, ?_, ?_, ?_, ?_⟩
  · intro x y c
    refine c.sub fun e he => ?_
    obtain ⟨e1, e2⟩ := (hE e).1 he
    have hs := (hinS e2).1 hst
    exact ((hT.conn _ hs).symm).trans (hT.conn _ (closed e e1 hs))
  · intro v; rw [hT.verts, hr.verts]; exact hmem v
  · intro s hs t ht c
    rw [hr.verts] at hs ht
    rw [alGetEdge, hT.weights s hs t ht]
    constructor
    · rintro ⟨c', e, h⟩; cases e; exact h
    · intro h; exact ⟨c, rfl, h⟩
  · intro s hs t ht x hx
    rw [hr.verts] at hs ht
    rw [alGetEdge, hT.weights s hs t ht] at hx
    obtain ⟨c, rfl, _⟩ := hx
    exact ⟨rfl, rfl⟩
  · intro v hv
    rw [hT.verts] at hv
    have hvd := hT.sub v hv
    rw [alNeighbors_of hr, if_pos hvd, alNeighbors]
    have e1 : alNode st.mst v = .ok (d.nbrs v) := by rw [alNode, hT.adj, if_pos hv, hr.adj, if_pos hvd]
    rw [e1, ok_bind]
    have := neighbors_sub (m := st.mst) (d.nbrs v) [] (by
      intro w hw
      have he := mem_nbrs.1 hw
      obtain ⟨c, h1, _⟩ := hu.both v w he
      have hwS := closed _ h1 hv
      rw [hT.adj, if_pos hwS, hr.adj, if_pos (hr.ends _ he).2]
      rfl)
    simpa using this

/-- The loop, with any way to choose the entry. -/
theorem prim_loop {loop : Nat → Prim → PyM Prim}
    (hstep : ∀ st S K, PInv g d items E start sl n st S K → (primEntries st.q = [] ∧ ∀ fuel, loop (fuel + 1) st = .ok st) ∨
      ∃ st' S' K', (∀ fuel, loop (fuel + 1) st = loop fuel st') ∧ PInv g d items E start sl n st' S' K' ∧ S' ≠ [] ∧
        (primEntries st'.q).length + pending d S' + 1 = (primEntries st.q).length + pending d S) :
    ∀ (N : Nat) (st : Prim) (S : List String) (K : List GEdge), PInv g d items E start sl n st S K →
      (primEntries st.q).length + pending d S = N → ∃ st' S' K', (∀ fuel, N < fuel → loop fuel st = .ok st') ∧ PInv g d items E start sl n st' S' K' ∧
        primEntries st'.q = [] ∧ S' ≠ [] := by
  have key : ∀ (N : Nat) (st : Prim) (S : List String) (K : List GEdge), PInv g d items E start sl n st S K →
      (primEntries st.q).length + pending d S = N → ∃ st' S' K', (∀ fuel, N < fuel → loop fuel st = .ok st') ∧ PInv g d items E start sl n st' S' K' ∧
        primEntries st'.q = [] ∧ (S ≠ [] → S' ≠ []) ∧ (S = [] → S' ≠ []) := by
    intro N
    induction N with
    | zero =>
      intro st S K hI hN
      rcases hstep st S K hI with ⟨h0, e⟩ | ⟨st1, S1, K1, e, hI1, hne, hl⟩
      · refine ⟨st, S, K, fun fuel hf => ?_, hI, h0, id, fun hS => ?_⟩
        · obtain ⟨f, rfl⟩ : ∃ f, fuel = f + 1 := ⟨fuel - 1, by omega⟩
          exact e f
        · rw [hI.queue.empty hS] at h0; cases h0
      · omega
    | succ N ih =>
      intro st S K hI hN
      rcases hstep st S K hI with ⟨h0, e⟩ | ⟨st1, S1, K1, e, hI1, hne, hl⟩
      · refine ⟨st, S, K, fun fuel hf => ?_, hI, h0, id, fun hS => ?_⟩
        · obtain ⟨f, rfl⟩ : ∃ f, fuel = f + 1 := ⟨fuel - 1, by omega⟩
          exact e f
        · rw [hI.queue.empty hS] at h0; cases h0
      · obtain ⟨st2, S2, K2, e2, hI2, h0, h1, _⟩ := ih st1 S1 K1 hI1 (by omega)
        refine ⟨st2, S2, K2, fun fuel hf => ?_, hI2, h0, fun _ => h1 hne, fun _ => h1 hne⟩
        obtain ⟨f, rfl⟩ : ∃ f, fuel = f + 1 := ⟨fuel - 1, by omega⟩
        rw [e, e2 f (by omega)]
  intro N st S K hI hN
  obtain ⟨st', S', K', e, hI', h0, h1, h2⟩ := key N st S K hI hN
  exact ⟨st', S', K', e, hI', h0, (Classical.em (S = [])).elim h2 h1⟩

theorem PInv.init {q : List PrimHeap} (hq : QOk d sl n q) (he : primEntries q = [(0, start)]) :
    PInv g d items E start sl n ⟨g, alNew, q, fun _ _ => none⟩ [] [] := by
  refine ⟨rfl, ⟨rfl, by simp [alNew], ?_, List.nodup_nil, by simp, .nil E, by intro f F hp; simpa using hp.length_eq, by simp, by simp, by simp⟩,
    hq, fun _ => he, fun _ _ _ => Or.inl rfl, by simp, by simp⟩
  intro s _ t _ x
  simp [alNew, TreeEdge]

/-- C64 for the sequential version: on an undirected graph whose edges all have costs (names that are not reserved and whose edge keys do not
collide), Prim's algorithm terminates and the edges with a cost in the result are, in both directions, those of a minimum spanning tree of the
part of the graph that is connected to the first vertex; the input graph is unchanged. What is missing: `neighbors` of the result are those of the
input graph (`C64_full_false`), and an edge without a cost makes the algorithm fail (`C64_no_cost`). -/
theorem C64_prim_partial (hr : AlRep g d) (hsep : Separable fun v => v ∈ g.vertices) (hpl : ∀ v ∈ g.vertices, Plain gAttr nAttr v)
    (hu : UndirectedItems g d items) (hstart : g.vertices.head? = some start)
    (hE : ∀ e, e ∈ E ↔ e ∈ items ∧ Connects GEdge.pair items start e.source) :
    ∃ m K, EndsWith (fun fuel => prim gAttr nAttr g fuel) (.ok (m, g)) ∧ PrimList g items E start m K := by
  obtain ⟨rest, hvs⟩ : ∃ rest, g.vertices = start :: rest := by
    cases hv : g.vertices with
    | nil => rw [hv] at hstart; cases hstart
    | cons a l => rw [hv] at hstart; simp at hstart; exact ⟨l, by rw [hstart]⟩
  have hsv : start ∈ d.verts := by rw [← hr.verts, hvs]; simp
  rw [hr.verts] at hsep hpl
  obtain ⟨h, e1, hok, hp⟩ := C38_insert primLe_order (h := ([] : PrimHeap)) .nil 0 start
  have hent : bhEntries h = [(0, start)] := by
    have : bhEntries ([] : PrimHeap) = [] := by simp [bhEntries]
    rw [this] at hp
    exact List.perm_singleton.1 hp
  have hq : QOk d (fun _ => 0) 1 [h] := by
    refine ⟨rfl, ?_, ?_⟩
    · intro i h' hi
      cases i with
      | zero => simp at hi; rw [← hi]; exact hok
      | succ i => simp at hi
    · intro i h' hi
      cases i with
      | zero =>
        simp at hi
        rw [← hi, hent]
        intro e he
        simp at he
        rw [he]
        exact ⟨hsv, rfl⟩
      | succ i => simp at hi
  have hI := PInv.init (g := g) (items := items) (E := E) (start := start) hq (by simp [primEntries, hent])
  have hslot : ∀ v ∈ d.verts, (fun _ => .ok 0 : String → PyM Nat) v = .ok ((fun _ => 0 : String → Nat) v) ∧ (fun _ => 0 : String → Nat) v < 1 :=
    fun v _ => ⟨rfl, Nat.zero_lt_one⟩
  have hloop := prim_loop (loop := primLoop gAttr nAttr) (g := g) (d := d) (items := items) (E := E) (start := start)
    (sl := fun _ => 0) (n := 1) (by
      intro st S K hI
      obtain ⟨h, hh⟩ : ∃ h, st.q = [h] := List.length_eq_one_iff.1 hI.queue.qok.len
      have h0 : st.q[0]? = some h := by rw [hh]; rfl
      by_cases hem : bhIsEmpty h = true
      · left
        have h2 := C38_is_empty (hI.queue.qok.ok 0 h h0)
        rw [hem] at h2
        refine ⟨by rw [hh]; simpa [primEntries] using h2.symm, fun fuel => ?_⟩
        rw [primLoop]
        simp [rd, h0, hem, ok_bind]
      · right
        have hem' : bhIsEmpty h = false := by simpa using hem
        obtain ⟨nd, i, h', _, p2, p3, p4, p5, p6, _⟩ := pop_spec hI.queue.qok h0 hem'
        obtain ⟨st', S', K', v1, v2, v3, v4⟩ := visit_spec (gAttr := gAttr) (nAttr := nAttr) hr hsep hpl hu hE hslot hI p3 p4 (by
          intro x hx; rw [hh] at hx; exact p5 x (by simpa [primEntries] using hx)) p6
        refine ⟨st', S', K', fun fuel => ?_, v2, v3, v4⟩
        rw [primLoop]
        have hl : 0 < st.q.length := by rw [hh]; simp
        simp only [rd, h0, ok_bind, hem', Bool.false_eq_true, if_false, p2, wr, hl, if_true]
        rw [v1, ok_bind])
  obtain ⟨st, S, K, e2, hI', h0, h1⟩ := hloop _ _ [] [] hI rfl
  refine ⟨st.mst, K, ⟨(primEntries [h]).length + pending d [] + 1, fun fuel hf => ?_⟩, hI'.result hr hu hE h1 h0⟩
  show prim gAttr nAttr g fuel = _
  rw [prim, hvs]
  simp only [e1, ok_bind, e2 fuel hf, hI'.graph]

/-! ## The parallel version -/

theorem primBest_spec : ∀ (l : List (Option (BinNode Int String))) (b : Option (BinNode Int String)),
    (∀ m, primBest l b = some m → (some m ∈ l ∨ b = some m) ∧ ∀ x, some x ∈ l ∨ b = some x → m.key ≤ x.key) ∧
    (primBest l b = none → b = none ∧ ∀ x, some x ∉ l) := by
  intro l
  induction l with
  | nil =>
    intro b
    refine ⟨?_, ?_⟩
    · intro m h
      simp only [primBest] at h
      subst h
      refine ⟨Or.inr rfl, ?_⟩
      rintro x (h | h)
      · cases h
      · cases h; exact Int.le_refl _
    · intro h; exact ⟨h, by simp⟩
  | cons o l ih =>
    intro b
    cases o with
    | none =>
      rw [primBest]
      obtain ⟨h1, h2⟩ := ih b
      refine ⟨?_, ?_⟩
      · intro m h
        obtain ⟨a, c⟩ := h1 m h
        exact ⟨a.imp (List.mem_cons_of_mem _) id, fun x hx => c x (hx.imp (fun h => by simpa using h) id)⟩
      · intro h
        obtain ⟨a, c⟩ := h2 h
        exact ⟨a, fun x hx => c x (by simpa using hx)⟩
    | some nd =>
      cases b with
      | none =>
        rw [primBest]
        obtain ⟨h1, h2⟩ := ih (some nd)
        refine ⟨?_, ?_⟩
        · intro m h
          obtain ⟨a, c⟩ := h1 m h
          refine ⟨Or.inl ?_, ?_⟩
          · rcases a with a | a
            · exact List.mem_cons_of_mem _ a
            · rw [← a]; exact List.mem_cons_self ..
          · rintro x (hx | hx)
            · rcases List.mem_cons.1 hx with hx | hx
              · exact c x (Or.inr hx.symm)
              · exact c x (Or.inl hx)
            · cases hx
        · intro h; exact absurd (h2 h).1 (by simp)
      | some bd =>
        rw [primBest]
        split
        · rename_i hlt
          obtain ⟨h1, h2⟩ := ih (some nd)
          refine ⟨?_, ?_⟩
          · intro m h
            obtain ⟨a, c⟩ := h1 m h
            refine ⟨Or.inl ?_, ?_⟩
            · rcases a with a | a
              · exact List.mem_cons_of_mem _ a
              · rw [← a]; exact List.mem_cons_self ..
            · have hnd := c nd (Or.inr rfl)
              rintro x (hx | hx)
              · rcases List.mem_cons.1 hx with hx | hx
                · exact c x (Or.inr hx.symm)
                · exact c x (Or.inl hx)
              · cases hx; omega
          · intro h; exact absurd (h2 h).1 (by simp)
        · rename_i hlt
          obtain ⟨h1, h2⟩ := ih (some bd)
          refine ⟨?_, ?_⟩
          · intro m h
            obtain ⟨a, c⟩ := h1 m h
            refine ⟨a.imp (List.mem_cons_of_mem _) id, ?_⟩
            have hbd := c bd (Or.inr rfl)
            rintro x (hx | hx)
            · rcases List.mem_cons.1 hx with hx | hx
              · cases hx; omega
              · exact c x (Or.inl hx)
            · exact c x (Or.inr hx)
          · intro h; exact absurd (h2 h).1 (by simp)

theorem primPeek_spec : ∀ (q : List PrimHeap) (acc : List (Option (BinNode Int String))), (∀ h ∈ q, BHeapOk primLe h) →
    ∃ vs, forList q acc (fun h acc => do
      let p ← primPeek h
      .ok (acc ++ [p])) = .ok (acc ++ vs) ∧
      (∀ nd, some nd ∈ vs → ∃ h ∈ q, bhIsEmpty h = false ∧ ∃ i, bhFindMin primLe h = .ok (nd, i)) ∧
      (∀ h ∈ q, bhIsEmpty h = false → ∃ nd i, bhFindMin primLe h = .ok (nd, i) ∧ some nd ∈ vs) := by
  intro q
  induction q with
  | nil => intro acc _; exact ⟨[], by simp [forList], by simp, by simp⟩
  | cons h q ih =>
    intro acc hok
    have hh := hok h (by simp)
    have hpk : ∃ p, primPeek h = .ok p ∧ (∀ nd, p = some nd → bhIsEmpty h = false ∧ ∃ i, bhFindMin primLe h = .ok (nd, i)) ∧
        (bhIsEmpty h = false → ∃ nd i, bhFindMin primLe h = .ok (nd, i) ∧ p = some nd) := by
      unfold primPeek
      cases hem : bhIsEmpty h with
      | true => exact ⟨none, rfl, by simp, by simp⟩
      | false =>
        rcases C38_minimum primLe_order hh with ⟨h0, _⟩ | ⟨nd, i, h', e1, _⟩
        · rw [C38_is_empty hh, h0] at hem; cases hem
        · refine ⟨some nd, by rw [e1]; rfl, ?_, ?_⟩
          · intro nd' h; cases h; exact ⟨rfl, i, e1⟩
          · intro _; exact ⟨nd, i, e1, rfl⟩
    obtain ⟨p, e1, h1, h2⟩ := hpk
    obtain ⟨vs, e2, h3, h4⟩ := ih (acc ++ [p]) (fun h' hh' => hok h' (by simp [hh']))
    refine ⟨p :: vs, ?_, ?_, ?_⟩
    · rw [forList]; simp only [e1, ok_bind] at e2 ⊢; rw [e2]; simp
    · intro nd hnd
      rcases List.mem_cons.1 hnd with hnd | hnd
      · exact ⟨h, by simp, h1 nd hnd.symm⟩
      · obtain ⟨h', hm, hx⟩ := h3 nd hnd
        exact ⟨h', by simp [hm], hx⟩
    · intro h' hm hem
      rcases List.mem_cons.1 hm with rfl | hm
      · obtain ⟨nd, i, a, b⟩ := h2 hem
        exact ⟨nd, i, a, by simp [b]⟩
      · obtain ⟨nd, i, a, b⟩ := h4 h' hm hem
        exact ⟨nd, i, a, by simp [b]⟩

/-- C64 for the parallel version, for any positive number of threads: as for the sequential version. -/
theorem C64_prim_parallel_partial (hr : AlRep g d) (hsep : Separable fun v => v ∈ g.vertices) (hpl : ∀ v ∈ g.vertices, Plain gAttr nAttr v)
    (hu : UndirectedItems g d items) (hstart : g.vertices.head? = some start)
    (hE : ∀ e, e ∈ E ↔ e ∈ items ∧ Connects GEdge.pair items start e.source) (threads : Nat) (ht : 0 < threads) :
    ∃ m K, EndsWith (fun fuel => primParallel gAttr nAttr g threads fuel) (.ok (m, g)) ∧ PrimList g items E start m K := by
  obtain ⟨rest, hvs⟩ : ∃ rest, g.vertices = start :: rest := by
    cases hv : g.vertices with
    | nil => rw [hv] at hstart; cases hstart
    | cons a l => rw [hv] at hstart; simp at hstart; exact ⟨l, by rw [hstart]⟩
  have hsv : start ∈ d.verts := by rw [← hr.verts, hvs]; simp
  have hsl0 : g.vertices.idxOf start % threads = 0 := by rw [hvs]; simp
  rw [hr.verts] at hsep hpl
  obtain ⟨h, e1, hok, hp⟩ := C38_insert primLe_order (h := ([] : PrimHeap)) .nil 0 start
  have hnil : bhEntries ([] : PrimHeap) = [] := by simp [bhEntries]
  rw [hnil] at hp
  have hq0 : QOk d (fun v => g.vertices.idxOf v % threads) threads (List.replicate threads []) := by
    refine ⟨by simp, ?_, ?_⟩
    · intro i h' hi
      simp only [List.getElem?_replicate] at hi
      split at hi
      · cases hi; exact .nil
      · cases hi
    · intro i h' hi
      simp only [List.getElem?_replicate] at hi
      split at hi
      · cases hi; rw [hnil]; intro e he; cases he
      · cases hi
  have hq : QOk d (fun v => g.vertices.idxOf v % threads) threads ((List.replicate threads []).set 0 h) := by
    refine hq0.set hok ?_
    intro e he
    have := hp.mem_iff.1 he
    simp at this
    rw [this]
    exact ⟨hsv, hsl0⟩
  have h00 : (List.replicate threads ([] : PrimHeap))[0]? = some [] := by simp [ht]
  have hent : primEntries ((List.replicate threads []).set 0 h) = [(0, start)] := by
    have := flatMap_set_perm (x := (0, start)) (h' := h) h00 (by rw [hnil]; exact hp)
    have h2 : primEntries (List.replicate threads ([] : PrimHeap)) = [] := by
      rw [primEntries, List.flatMap_eq_nil_iff]
      intro x hx
      rw [(List.mem_replicate.1 hx).2, hnil]
    rw [h2] at this
    exact List.perm_singleton.1 this
  have hI := PInv.init (g := g) (items := items) (E := E) (start := start) hq hent
  have hslot : ∀ v ∈ d.verts, primSlot g.vertices threads v = .ok ((fun v => g.vertices.idxOf v % threads) v) ∧
      (fun v => g.vertices.idxOf v % threads) v < threads := by
    intro v hv
    refine ⟨by rw [primSlot, hr.verts, if_pos hv], Nat.mod_lt _ ht⟩
  have hloop := prim_loop (loop := primParLoop gAttr nAttr (primSlot g.vertices threads)) (g := g) (d := d) (items := items) (E := E) (start := start)
    (sl := fun v => g.vertices.idxOf v % threads) (n := threads) (by
      intro st S K hI
      have hoks : ∀ h ∈ st.q, BHeapOk primLe h := by
        intro h hh
        obtain ⟨i, hi⟩ := List.mem_iff_getElem?.1 hh
        exact hI.queue.qok.ok i h hi
      obtain ⟨vs, ev, h1, h2⟩ := primPeek_spec st.q [] hoks
      rw [List.nil_append] at ev
      cases hb : primBest vs none with
      | none =>
        left
        have hnone := ((primBest_spec vs none).2 hb).2
        refine ⟨?_, fun fuel => ?_⟩
        · rw [primEntries, List.flatMap_eq_nil_iff]
          intro h hh
          cases hem : bhIsEmpty h with
          | true =>
            have := C38_is_empty (hoks h hh)
            rw [hem] at this
            simpa using this.symm
          | false =>
            obtain ⟨nd, i, _, hm⟩ := h2 h hh hem
            exact absurd hm (hnone nd)
        · rw [primParLoop, ev, ok_bind]
          simp only [hb]
      | some nd =>
        right
        obtain ⟨hmem, hleast⟩ := (primBest_spec vs none).1 nd hb
        have hmem : some nd ∈ vs := by
          rcases hmem with h | h
          · exact h
          · cases h
        obtain ⟨h, hh, hem, i, ef⟩ := h1 nd hmem
        obtain ⟨j, hj⟩ := List.mem_iff_getElem?.1 hh
        obtain ⟨nd', i', h', ef', p2, p3, p4, p5, p6, p7⟩ := pop_spec hI.queue.qok hj hem
        rw [ef] at ef'
        cases ef'
        obtain ⟨st', S', K', v1, v2, v3, v4⟩ := visit_spec (gAttr := gAttr) (nAttr := nAttr) hr hsep hpl hu hE hslot hI p3 p4 (by
          intro x hx
          rw [primEntries, List.mem_flatMap] at hx
          obtain ⟨hx1, hx2, hx3⟩ := hx
          have hem1 : bhIsEmpty hx1 = false := by
            rw [C38_is_empty (hoks hx1 hx2)]
            cases hc : bhEntries hx1 with
            | nil => rw [hc] at hx3; cases hx3
            | cons => rfl
          obtain ⟨nd1, i1, ef1, hm1⟩ := h2 hx1 hx2 hem1
          obtain ⟨j1, hj1⟩ := List.mem_iff_getElem?.1 hx2
          obtain ⟨nd2, i2, h2', ef2, _, _, _, r5, _⟩ := pop_spec hI.queue.qok hj1 hem1
          rw [ef1] at ef2
          cases ef2
          exact Int.le_trans (hleast nd1 (Or.inl hm1)) (r5 x hx3)) p6
        refine ⟨st', S', K', fun fuel => ?_, v2, v3, v4⟩
        rw [primParLoop, ev, ok_bind]
        simp only [hb]
        have hjl : j < st.q.length := by
          rcases Nat.lt_or_ge j st.q.length with h' | h'
          · exact h'
          · rw [List.getElem?_eq_none h'] at hj; cases hj
        rw [(hslot nd.data p6).1, ok_bind]
        rw [p7] at v1
        rw [show (fun v => List.idxOf v g.vertices % threads) nd.data = j from p7]
        simp only [rd, hj, ok_bind, p2, wr, hjl, if_true]
        rw [v1, ok_bind])
  obtain ⟨st, S, K, e2, hI', h0, h1⟩ := hloop _ _ [] [] hI rfl
  refine ⟨st.mst, K, ⟨(primEntries ((List.replicate threads []).set 0 h)).length + pending d [] + 1, fun fuel hf => ?_⟩, hI'.result hr hu hE h1 h0⟩
  show primParallel gAttr nAttr g threads fuel = _
  rw [primParallel, hvs]
  simp only [Nat.pos_iff_ne_zero.1 ht, if_false, rd, h00, ok_bind, e1, wr, List.length_replicate, ht, if_true]
  rw [← hvs, e2 fuel hf, ok_bind, hI'.graph]

/-- C64 on a connected graph: the result has all the vertices and is a minimum spanning tree of all the edges. -/
theorem C64_prim_connected_partial (hr : AlRep g d) (hsep : Separable fun v => v ∈ g.vertices) (hpl : ∀ v ∈ g.vertices, Plain gAttr nAttr v)
    (hu : UndirectedItems g d items) (hstart : g.vertices.head? = some start) (hc : ∀ v ∈ g.vertices, Connects GEdge.pair items start v) :
    ∃ m K, EndsWith (fun fuel => prim gAttr nAttr g fuel) (.ok (m, g)) ∧ PrimList g items items start m K ∧ m.vertices.Perm g.vertices := by
  obtain ⟨m, K, h1, h2⟩ := C64_prim_partial (E := items) hr hsep hpl hu hstart (by
    intro e
    refine ⟨fun he => ⟨he, hc _ ?_⟩, fun he => he.1⟩
    rw [hr.verts]
    exact (hr.ends _ ((hu.mem e).1 he).1).1)
  refine ⟨m, K, h1, h2, ?_⟩
  rw [List.perm_ext_iff_of_nodup h2.nodup (hr.verts ▸ hr.nodup)]
  intro v
  rw [h2.verts]
  exact ⟨fun h => h.1, fun h => ⟨h, hc v h⟩⟩

end

/-! ## Non-vacuity, and the defects -/

theorem exTriangle_undirected : UndirectedItems exTriangle (final digraphSpec Digraph.empty exTriangleOps) exTriangleItems := by
  have he : (final digraphSpec Digraph.empty exTriangleOps).edges = exTriangleItems.map GEdge.pair := by decide +kernel
  have hv : exTriangle.vertices = ["a", "b", "c"] := by decide +kernel
  constructor
  · intro e
    rw [exTriangle_items e, he]
    have key : ∀ e ∈ exTriangleItems, e.source ∈ ["a", "b", "c"] ∧ e.target ∈ ["a", "b", "c"] := by decide
    constructor
    · rintro ⟨h1, h2, h3⟩
      exact ⟨List.mem_map.2 ⟨e, (exTriangle_items e).2 ⟨h1, h2, h3⟩, rfl⟩, h3⟩
    · rintro ⟨h1, h2⟩
      obtain ⟨f, hf, hfe⟩ := List.mem_map.1 h1
      simp only [GEdge.pair, Prod.mk.injEq] at hfe
      rw [hv, ← hfe.1, ← hfe.2]
      exact ⟨(key f hf).1, (key f hf).2, by rw [hfe.1, hfe.2]; exact h2⟩
  · intro s t h
    rw [he] at h
    have key : ∀ p ∈ exTriangleItems.map GEdge.pair, ∃ e ∈ exTriangleItems, GEdge.pair e = p ∧ (⟨p.1, p.2, e.value⟩ : GEdge) ∈ exTriangleItems ∧
        (⟨p.2, p.1, e.value⟩ : GEdge) ∈ exTriangleItems := by decide
    obtain ⟨e, _, _, h1, h2⟩ := key (s, t) h
    exact ⟨e.value, h1, h2⟩

/-- The hypotheses are met by the triangle; its tree has the edges of weight 1 and 2. -/
example : exTriangle.vertices.head? = some "a" ∧ (prim exGAttr exNAttr exTriangle 30).map (fun r => (r.1.vertices,
    [alGetEdge r.1 "a" "b", alGetEdge r.1 "b" "c", alGetEdge r.1 "a" "c"])) =
    .ok (["a", "b", "c"], [some ⟨"a", "b", 1⟩, some ⟨"b", "c", 2⟩, none]) := by decide +kernel
example : (primParallel exGAttr exNAttr exTriangle 2 30).map (fun r => (r.1.vertices,
    [alGetEdge r.1 "a" "b", alGetEdge r.1 "b" "c", alGetEdge r.1 "a" "c"])) =
    .ok (["a", "b", "c"], [some ⟨"a", "b", 1⟩, some ⟨"b", "c", 2⟩, none]) := by decide +kernel

/-- The property in full: the graph returned has exactly the edges of the tree, in both directions. -/
def C64_full : Prop := ∀ (g : AList) (d : Digraph) (items E : List GEdge) (start : String), AlRep g d → (Separable fun v => v ∈ g.vertices) →
  (∀ v ∈ g.vertices, Plain exGAttr exNAttr v) → UndirectedItems g d items → g.vertices.head? = some start →
  (∀ e, e ∈ E ↔ e ∈ items ∧ Connects GEdge.pair items start e.source) →
  ∃ m K g', EndsWith (fun fuel => prim exGAttr exNAttr g fuel) (.ok (m, g')) ∧ MinSpanningForest GEdge.pair GEdge.value E K ∧
    ∀ v ∈ m.vertices, ∃ l, alNeighbors m v = .ok l ∧ ∀ u, u ∈ l ↔ ∃ c, TreeEdge K v u c

/-- On a triangle, `neighbors` of the result still shows the three edges of the triangle. -/
theorem C64_full_false : ¬ C64_full := by
  intro hfull
  have hconn : ∀ e : GEdge, e ∈ exTriangleItems ↔ e ∈ exTriangleItems ∧ Connects GEdge.pair exTriangleItems "a" e.source := by
    intro e
    refine ⟨fun he => ⟨he, ?_⟩, fun he => he.1⟩
    have key : ∀ e ∈ exTriangleItems, e.source = "a" ∨ (⟨"a", e.source, 1⟩ : GEdge) ∈ exTriangleItems ∨ (⟨"a", e.source, 5⟩ : GEdge) ∈ exTriangleItems := by
      decide
    rcases key e he with h | h | h
    · rw [h]; exact .refl _
    · exact Connects.edge (ends := GEdge.pair) h
    · exact Connects.edge (ends := GEdge.pair) h
  obtain ⟨m, K, g', ⟨n0, e⟩, hK, hnb⟩ := hfull exTriangle _ exTriangleItems exTriangleItems "a" exTriangle_rep exTriangle_sep exTriangle_plain
    exTriangle_undirected (by decide +kernel) hconn
  obtain ⟨m', K', ⟨n1, e'⟩, hres⟩ := C64_prim_partial exTriangle_rep exTriangle_sep exTriangle_plain exTriangle_undirected (by decide +kernel) hconn
  have h1 := e (max n0 n1) (Nat.le_max_left ..)
  have h2 := e' (max n0 n1) (Nat.le_max_right ..)
  simp only at h1 h2
  rw [h1] at h2
  have hmm : m = m' := by injection h2 with h2; injection h2
  subst hmm
  have hvm : ∀ v ∈ ["a", "b", "c"], v ∈ m.vertices := by
    intro v hv
    rw [hres.verts]
    have hv' : exTriangle.vertices = ["a", "b", "c"] := by decide +kernel
    refine ⟨by rw [hv']; exact hv, ?_⟩
    have key : ∀ v ∈ ["a", "b", "c"], ∃ e ∈ exTriangleItems, e.source = v := by decide
    obtain ⟨e, he, rfl⟩ := key v hv
    exact ((hconn e).1 he).2
  obtain ⟨la, ea, ha⟩ := hnb "a" (hvm "a" (by simp))
  obtain ⟨lb, eb, hb⟩ := hnb "b" (hvm "b" (by simp))
  rw [hres.neighbors "a" (hvm "a" (by simp)), show alNeighbors exTriangle "a" = .ok ["b", "c"] by decide +kernel] at ea
  rw [hres.neighbors "b" (hvm "b" (by simp)), show alNeighbors exTriangle "b" = .ok ["a", "c"] by decide +kernel] at eb
  cases ea
  cases eb
  obtain ⟨c1, x1, m1, -, h1⟩ := (ha "b").1 (by simp)
  obtain ⟨c2, x2, m2, -, h2⟩ := (hb "c").1 (by simp)
  obtain ⟨c3, x3, m3, -, h3⟩ := (ha "c").1 (by simp)
  have hf := hK.spanning.forest x3 (K.erase x3) (List.perm_cons_erase m3)
  have n1 : x1 ≠ x3 := by
    rintro rfl
    rcases h1 with ⟨p, q⟩ | ⟨p, q⟩ <;> rcases h3 with ⟨r, s⟩ | ⟨r, s⟩ <;> rw [r] at p <;> rw [s] at q <;> revert p q <;> decide
  have n2 : x2 ≠ x3 := by
    rintro rfl
    rcases h2 with ⟨p, q⟩ | ⟨p, q⟩ <;> rcases h3 with ⟨r, s⟩ | ⟨r, s⟩ <;> rw [r] at p <;> rw [s] at q <;> revert p q <;> decide
  have t1 : TreeEdge (K.erase x3) "a" "b" x1.value := ⟨x1, (List.mem_erase_of_ne n1).2 m1, rfl, h1⟩
  have t2 : TreeEdge (K.erase x3) "b" "c" x2.value := ⟨x2, (List.mem_erase_of_ne n2).2 m2, rfl, h2⟩
  have hc := t1.connects.trans t2.connects
  apply hf
  rcases h3 with ⟨r, s⟩ | ⟨r, s⟩
  · simp only [GEdge.pair, r, s]; exact hc
  · simp only [GEdge.pair, r, s]; exact hc.symm

/-- An edge without a cost makes the algorithm fail, whatever the fuel. -/
def exNoCost : AList := final (alStep exGAttr exNAttr) alNew [.addVertex "a", .addVertex "b", .addEdge "a" "b" none, .addEdge "b" "a" none]
theorem C64_no_cost (fuel : Nat) : prim exGAttr exNAttr exNoCost (fuel + 1) = .error .keyError := by
  have hv : exNoCost.vertices = ["a", "b"] := by decide +kernel
  have h0 : exNoCost.adjacent "a" = some ["b"] := by decide +kernel
  have h1 : (exNoCost.adjacent "b").isSome = true := by decide +kernel
  have hw : exNoCost.weights ("a" ++ "_" ++ "b") = none := by decide +kernel
  obtain ⟨y, hy⟩ := Option.isSome_iff_exists.1 h1
  have hi : bhInsert primLe [] 0 "a" = .ok [⟨.mk 0 "a" [], 0⟩] := by rfl
  have hpop : bpqPop primLe [⟨.mk 0 "a" [], 0⟩] = .ok ("a", []) := by rfl
  rw [prim, hv]
  simp only [hi, ok_bind, primLoop, rd, List.getElem?_cons_zero, show bhIsEmpty [(⟨.mk 0 "a" [], 0⟩ : BinTree Int String)] = false from rfl,
    Bool.false_eq_true, if_false, hpop, wr, List.length_cons, List.length_nil, Nat.zero_add, Nat.zero_lt_one, if_true]
  have : primVisit exGAttr exNAttr (fun _ => .ok 0) 0 "a" ⟨exNoCost, alNew, [[⟨.mk 0 "a" [], 0⟩]].set 0 [], fun _ _ => none⟩ = .error .keyError := by
    simp [primVisit, alHas, alNew, alNode, h0, primConnect, ok_bind, alNeighbors, forList, hy, primNeighbor]
    rw [if_neg (by decide), show exNoCost.weights "a_b" = none by decide +kernel]
    rfl
  rw [this]; rfl

end Props
