import Verif.Model.CppPrim
import Verif.Props.CppDijkstra
import Verif.Props.Prim

/-! # C104: Prim's algorithm of the C++ back end -/
namespace Props
open Py Model Spec Model.Cpp

/-! ## Specification -/

/-- The end points of an edge. -/
def cPair (e : CEdge) : String × String := (e.source, e.target)

/-- The edges of the graph with their values. -/
def cItems (d : Digraph) : List CEdge := d.edges.map fun e => ⟨e.1, e.2, d.cost e.1 e.2⟩

/-- Every edge is there in both directions, with the same value. -/
def UndirectedC (d : Digraph) : Prop := ∀ s t, (s, t) ∈ d.edges → (t, s) ∈ d.edges ∧ d.cost t s = d.cost s t

/-- `None` counts as less than every int. -/
def costLe : Option Int → Option Int → Prop
  | none, _ => True
  | some _, none => False
  | some x, some y => x ≤ y

/-- Numbers for the values, in the same order (if all values are ints, the values themselves). -/
def RanksCosts (d : Digraph) (w : Option Int → Int) : Prop :=
  ∀ e ∈ cItems d, ∀ f ∈ cItems d, costLe e.value f.value → w e.value ≤ w f.value

/-- The edge, in one of its directions, is in the tree. -/
def TreeEdgeC (K : List CEdge) (s t : String) (c : Option Int) : Prop :=
  ∃ e ∈ K, e.value = c ∧ ((e.source = s ∧ e.target = t) ∨ (e.source = t ∧ e.target = s))

/-- `std::priority_queue` delivers an entry that no other is less than. -/
def DeliversLeast (top : List PEntry → PEntry) : Prop := ∀ l, l ≠ [] → top l ∈ l ∧ ∀ x ∈ l, pgt (top l) x = false

/-! ## The proof -/

/-- The id of a name. -/
def ido (g : CGraph) (v : String) : Nat := (g.nameToId v).getD 0

/-- The tree built so far: its vertices are `S`, its edges `K`. -/
structure CTree (g : CGraph) (d : Digraph) (E : List CEdge) (start : String) (m : CGraph) (S : List String) (K : List CEdge) : Prop where
  nodes : m.nodes = S.map (ido g)
  nodeMap : ∀ v, m.nodeMap v = if v ∈ S then some (ido g v) else none
  nameToId : ∀ v, m.nameToId v = if v ∈ S then some (ido g v) else none
  idMap : ∀ i, m.idMap i = if i ∈ S.map (ido g) then g.idMap i else none
  idToName : ∀ i, m.idToName i = if i ∈ S.map (ido g) then g.idToName i else none
  next : m.nextId = 0
  keys : ∀ k, k ∈ m.edges.keys ↔ (m.edges.val k).isSome
  count : m.edges.keys.length = 2 * K.length
  val : ∀ s t, NoBar s → ∀ x, m.edges.val (edgeKey s t) = some x ↔ x.source = s ∧ x.target = t ∧ TreeEdgeC K s t x.value
  nodup : S.Nodup
  sub : ∀ v ∈ S, v ∈ d.verts
  promising : ∀ w, RanksCosts d w → Promising cPair (fun e => w e.value) E K
  forest : Forest cPair K
  ksub : ∀ e ∈ K, e ∈ E
  kends : ∀ e ∈ K, e.source ∈ S ∧ e.target ∈ S
  conn : ∀ v ∈ S, Connects cPair K start v

/-- The queue entry of an edge. -/
def entOf (g : CGraph) (e : CEdge) : PEntry := ⟨ido g e.source, ido g e.target, e.value⟩

/-- The queue, when the edges `(x, w)` with `R x w` of the tree vertices have been looked at. -/
structure CQueue (g : CGraph) (d : Digraph) (pq : List PEntry) (S : List String) (R : String → String → Prop) : Prop where
  entry : ∀ x ∈ pq, ∃ e ∈ cItems d, e.source ∈ S ∧ x = entOf g e
  edges : ∀ e ∈ cItems d, e.source ∈ S → e.target ∉ S → R e.source e.target → entOf g e ∈ pq

section
variable {g : CGraph} {d : Digraph} {E : List CEdge} {start : String}
variable {order : String → List String → List String} {top : List PEntry → PEntry}

theorem pgt_false {a b : PEntry} : pgt a b = false ↔ costLe a.value b.value := by
  unfold pgt costLe
  split <;> simp_all

theorem mem_cItems {e : CEdge} : e ∈ cItems d ↔ (e.source, e.target) ∈ d.edges ∧ e.value = d.cost e.source e.target := by
  simp only [cItems, List.mem_map]
  constructor
  · rintro ⟨p, hp, rfl⟩; exact ⟨hp, rfl⟩
  · rintro ⟨h1, h2⟩
    refine ⟨_, h1, ?_⟩
    cases e
    simp_all

theorem ido_of (h : CgRep g d) {v : String} (hv : v ∈ d.verts) : g.nameToId v = some (ido g v) ∧ ido g v ∈ g.nodes ∧ g.idToName (ido g v) = some v := by
  obtain ⟨id, e⟩ := (h.mem v).1 hv
  have : ido g v = id := by simp [ido, e]
  rw [this]
  exact ⟨e, (h.toId v id).1 e⟩

theorem ido_inj (h : CgRep g d) {v w : String} (hv : v ∈ d.verts) (hw : w ∈ d.verts) (e : ido g v = ido g w) : v = w := by
  have h1 := (ido_of h hv).2.2
  rw [e, (ido_of h hw).2.2] at h1
  exact (Option.some.inj h1).symm

theorem ido_mem (h : CgRep g d) {S : List String} (hS : ∀ v ∈ S, v ∈ d.verts) {v : String} (hv : v ∈ d.verts) : ido g v ∈ S.map (ido g) ↔ v ∈ S := by
  rw [List.mem_map]
  constructor
  · rintro ⟨w, hw, e⟩; exact ido_inj h (hS w hw) hv e ▸ hw
  · intro hm; exact ⟨v, hm, rfl⟩

/-- The outgoing edges of a vertex are queued. -/
theorem primPush_loop (h : CgRep g d) {check : Bool} {S : List String} (hS : ∀ v ∈ S, v ∈ d.verts) {v : String} (hv : v ∈ S) :
    ∀ (ns done : List String) (st : PrimC), st.g = g → st.visited = S.map (ido g) → (∀ w ∈ ns, (v, w) ∈ d.edges) →
    CQueue g d st.pq S (fun x u => x ≠ v ∨ u ∈ done) →
    ∃ pq, forList ns st (fun a st => primPushOne check (ido g v) v a st) = .ok { st with pq := pq } ∧
      CQueue g d pq S (fun x u => x ≠ v ∨ u ∈ done ++ ns) ∧ pq.length ≤ st.pq.length + ns.length := by
  intro ns
  induction ns with
  | nil => intro done st _ _ _ hQ; exact ⟨st.pq, rfl, by simpa using hQ, by simp⟩
  | cons a ns ih =>
    intro done st hg hvis hns hQ
    have he := hns a (by simp)
    have ha := (h.ends _ he).2
    have hid := ido_of h ha
    have hcase : ∃ pq1, primPushOne check (ido g v) v a st = .ok { st with pq := pq1 } ∧
        CQueue g d pq1 S (fun x u => x ≠ v ∨ u ∈ done ++ [a]) ∧ pq1.length ≤ st.pq.length + 1 := by
      have eid : idOf st.g a = (ido g a, st.g) := by rw [hg]; exact idOf_some hid.1
      simp only [primPushOne, eid]
      by_cases hc : (check && decide (ido g a ∈ st.visited)) = true
      · rw [if_pos hc]
        refine ⟨st.pq, rfl, ⟨hQ.entry, ?_⟩, by omega⟩
        intro e hei hes het hR
        refine hQ.edges e hei hes het ?_
        rcases hR with hR | hR
        · exact Or.inl hR
        · rcases List.mem_append.1 hR with hR | hR
          · exact Or.inr hR
          · simp only [List.mem_singleton] at hR
            simp only [Bool.and_eq_true, decide_eq_true_eq] at hc
            rw [hvis, ido_mem h hS ha, ← hR] at hc
            exact absurd hc.2 het
      · rw [if_neg hc]
        have hval : st.g.edges.val (edgeKey v a) = some ⟨v, a, d.cost v a⟩ := by rw [hg]; exact h.val (v, a) he
        rw [hval]
        refine ⟨_, rfl, ⟨?_, ?_⟩, by simp⟩
        · intro x hx
          rcases List.mem_append.1 hx with hx | hx
          · exact hQ.entry x hx
          · simp only [List.mem_singleton] at hx
            exact ⟨⟨v, a, d.cost v a⟩, mem_cItems.2 ⟨he, rfl⟩, hv, by rw [hx, entOf]⟩
        · intro e hei hes het hR
          rcases Classical.em (e.source ≠ v ∨ e.target ∈ done) with hR' | hR'
          · exact List.mem_append_left _ (hQ.edges e hei hes het hR')
          · have h1 : e.source = v := Classical.not_not.1 fun hn => hR' (Or.inl hn)
            have h2 : e.target = a := by
              rcases hR with hR | hR
              · exact absurd h1 hR
              · rcases List.mem_append.1 hR with hR | hR
                · exact absurd (Or.inr hR) hR'
                · simpa using hR
            have h3 := (mem_cItems.1 hei).2
            refine List.mem_append_right _ ?_
            simp [entOf, h1, h2, h3]
    obtain ⟨pq1, e1, hQ1, hl1⟩ := hcase
    obtain ⟨pq2, e2, hQ2, hl2⟩ := ih (done ++ [a]) { st with pq := pq1 } hg hvis (fun u hu => hns u (by simp [hu])) hQ1
    refine ⟨pq2, ?_, by simpa using hQ2, by simp only [List.length_cons] at *; omega⟩
    rw [forList, e1, ok_bind]
    exact e2

theorem primPush_spec (h : CgRep g d) (ho : ∀ v l, (order v l).Perm l) {check : Bool} {S : List String} (hS : ∀ v ∈ S, v ∈ d.verts) {v : String} (hv : v ∈ S)
    {st : PrimC} (hg : st.g = g) (hvis : st.visited = S.map (ido g)) (hQ : CQueue g d st.pq S (fun x _ => x ≠ v)) :
    ∃ pq, primPush order check (ido g v) v st = .ok { st with pq := pq } ∧ CQueue g d pq S (fun _ _ => True) ∧
      pq.length ≤ st.pq.length + (d.nbrs v).length := by
  have hid := ido_of h (hS v hv)
  have hadj : st.g.idMap (ido g v) = some (d.nbrs v) := by rw [hg]; exact h.adj v _ hid.1
  obtain ⟨pq, e, hQ', hl⟩ := primPush_loop (check := check) h hS hv (order v (d.nbrs v)) [] st hg hvis
    (fun w hw => mem_nbrs.1 ((ho _ _).mem_iff.1 hw)) ⟨hQ.entry, fun e a b c hR => hQ.edges e a b c (by simpa using hR)⟩
  refine ⟨pq, ?_, ⟨hQ'.entry, ?_⟩, by rw [(ho _ _).length_eq] at hl; exact hl⟩
  · simp only [primPush, hadj]
    exact e
  · intro e he hes het _
    refine hQ'.edges e he hes het ?_
    by_cases hx : e.source = v
    · right
      simp only [List.nil_append]
      exact (ho _ _).mem_iff.2 (mem_nbrs.2 (hx ▸ (mem_cItems.1 he).1))
    · exact Or.inl hx

theorem primLink_noop {id : Nat} {name : String} {adj : List String} (ha : g.idMap id = some adj) (hm : name ∈ adj) : primLink id name g = g := by
  unfold primLink
  have : upd g.idMap id ((g.idMap id).map fun adj => if name ∈ adj then adj else adj ++ [name]) = g.idMap := by
    funext i
    unfold upd
    split
    · rename_i e; subst e; simp [ha, hm]
    · rfl
  rw [this]

/-- The vertex joins the tree. -/
theorem treeStep (h : CgRep g d) (hu : UndirectedC d) (hE : ∀ e, e ∈ E ↔ e ∈ cItems d ∧ Connects cPair (cItems d) start e.source)
    {st : PrimC} (hg : st.g = g) {S : List String} {K : List CEdge} (hT : CTree g d E start st.mst S K) {f : CEdge} (hf : f ∈ cItems d)
    (hfs : f.source ∈ S) (hft : f.target ∉ S)
    (hmin : ∀ e ∈ cItems d, e.source ∈ S → e.target ∉ S → costLe f.value e.value) :
    ∃ m', primTreeEdge (entOf g f) st = .ok { st with mst := m' } ∧ CTree g d E start m' (S ++ [f.target]) (f :: K) := by
  obtain ⟨u, v, c⟩ := f
  dsimp only at hfs hft hmin
  obtain ⟨he, hc⟩ := mem_cItems.1 hf
  dsimp only at he hc
  have hud := hT.sub u hfs
  have hvd := (h.ends _ he).2
  dsimp only at hvd
  have iu := ido_of h hud
  have iv := ido_of h hvd
  have hvS : ido g v ∉ S.map (ido g) := fun hm => hft ((ido_mem h hT.sub hvd).1 hm)
  have huS : ido g u ∈ S.map (ido g) := (ido_mem h hT.sub hud).2 hfs
  have au := h.adj u _ iu.1
  have av := h.adj v _ iv.1
  have pu := h.plain u hud
  have pv := h.plain v hvd
  have hne : u ≠ v := by rintro rfl; exact hft hfs
  have hkne : edgeKey u v ≠ edgeKey v u := fun e => hne (edgeKey_inj pu pv e).1
  have hno : ∀ a c, ¬ TreeEdgeC K a v c := by
    rintro a c ⟨e, he, _, ⟨_, h⟩ | ⟨h, _⟩⟩
    · exact hft (h ▸ (hT.kends e he).2)
    · exact hft (h ▸ (hT.kends e he).1)
  have hno' : ∀ a c, ¬ TreeEdgeC K v a c := by
    rintro a c ⟨e, he, _, ⟨h, _⟩ | ⟨_, h⟩⟩
    · exact hft (h ▸ (hT.kends e he).1)
    · exact hft (h ▸ (hT.kends e he).2)
  have hk1 : st.mst.edges.val (edgeKey u v) = none := by
    cases e : st.mst.edges.val (edgeKey u v) with
    | none => rfl
    | some x => exact absurd ((hT.val u v pu x).1 e).2.2 (hno _ _)
  have hk2 : st.mst.edges.val (edgeKey v u) = none := by
    cases e : st.mst.edges.val (edgeKey v u) with
    | none => rfl
    | some x => exact absurd ((hT.val v u pv x).1 e).2.2 (hno' _ _)
  have hl1 : primLink (ido g u) v g = g := primLink_noop au (mem_nbrs.2 he)
  have hl2 : primLink (ido g v) u g = g := primLink_noop av (mem_nbrs.2 (hu u v he).1)
  have hnc : ¬ Connects cPair K u v := by
    intro c
    have := (noncrossing_connects (S := fun x => x ∈ S) (fun e he hx => hx ⟨fun _ => (hT.kends e he).2, fun _ => (hT.kends e he).1⟩) c).1 hfs
    exact hft this
  have hfE : (⟨u, v, c⟩ : CEdge) ∈ E := (hE _).2 ⟨hf, (hT.conn u hfs).mono fun e he => ((hE e).1 (hT.ksub e he)).1⟩
  refine ⟨⟨st.mst.nodes ++ [ido g v], (st.mst.edges.set (edgeKey u v) ⟨u, v, c⟩).set (edgeKey v u) ⟨v, u, c⟩, upd st.mst.nodeMap v (some (ido g v)),
    upd st.mst.idMap (ido g v) (some (d.nbrs v)), upd st.mst.idToName (ido g v) (some v), upd st.mst.nameToId v (some (ido g v)), st.mst.nextId⟩, ?_, ?_⟩
  · simp only [primTreeEdge, entOf, hg, iu.2.2, iv.2.2, Option.getD_some, hT.idMap, huS, hvS, if_true, if_false, au, Option.isSome_some, ok_bind,
      Option.isSome_none, Bool.false_eq_true, primAddC, av, hl1, hl2]
  have hmem : ∀ i, i ∈ (S ++ [v]).map (ido g) ↔ i ∈ S.map (ido g) ∨ i = ido g v := by intro i; simp
  constructor
  · simp [hT.nodes]
  · intro w
    simp only [upd, hT.nodeMap, List.mem_append, List.mem_singleton]
    by_cases hw : w = v <;> simp [hw]
  · intro w
    simp only [upd, hT.nameToId, List.mem_append, List.mem_singleton]
    by_cases hw : w = v <;> simp [hw]
  · intro i
    simp only [upd, hT.idMap, hmem]
    by_cases hi : i = ido g v
    · subst hi; simp [av]
    · simp [hi]
  · intro i
    simp only [upd, hT.idToName, hmem]
    by_cases hi : i = ido g v
    · subst hi; simp [iv.2.2]
    · simp [hi]
  · exact hT.next
  · intro k
    simp only [PyDict.set, hk1, hk2, Option.isSome_none, Bool.false_eq_true, if_false, hkne.symm]
    by_cases k1 : k = edgeKey v u
    · simp [k1]
    · by_cases k2 : k = edgeKey u v
      · simp [k2, hkne]
      · simp [k1, k2, hT.keys]
  · simp only [PyDict.set, hk1, hk2, Option.isSome_none, Bool.false_eq_true, if_false, hkne.symm, List.length_append, hT.count, List.length_cons, List.length_nil]
    omega
  · intro s t ps x
    have hte : ∀ c', TreeEdgeC (⟨u, v, c⟩ :: K) s t c' ↔ TreeEdgeC K s t c' ∨ (c = c' ∧ ((u = s ∧ v = t) ∨ (u = t ∧ v = s))) := by
      intro c'
      simp [TreeEdgeC]
      grind
    simp only [PyDict.set, hte]
    by_cases c1 : edgeKey s t = edgeKey v u
    · obtain ⟨rfl, rfl⟩ := edgeKey_inj ps pv c1
      rw [if_pos rfl]
      obtain ⟨xs, xt, xv⟩ := x
      simp only [Option.some.injEq, CEdge.mk.injEq, hno', false_or]
      constructor
      · rintro ⟨rfl, rfl, rfl⟩; simp
      · rintro ⟨rfl, rfl, rfl, _⟩; simp
    · rw [if_neg c1]
      by_cases c2 : edgeKey s t = edgeKey u v
      · obtain ⟨rfl, rfl⟩ := edgeKey_inj ps pu c2
        rw [if_pos rfl]
        obtain ⟨xs, xt, xv⟩ := x
        simp only [Option.some.injEq, CEdge.mk.injEq, hno, false_or]
        constructor
        · rintro ⟨rfl, rfl, rfl⟩; simp
        · rintro ⟨rfl, rfl, rfl, _⟩; simp
      · rw [if_neg c2, hT.val s t ps x]
        constructor
        · rintro ⟨a, b, c⟩; exact ⟨a, b, Or.inl c⟩
        · rintro ⟨a, b, c | ⟨_, ⟨rfl, rfl⟩ | ⟨rfl, rfl⟩⟩⟩
          · exact ⟨a, b, c⟩
          · exact absurd rfl c2
          · exact absurd rfl c1
  · exact List.nodup_append.2 ⟨hT.nodup, by simp, by rintro a ha b hb rfl; simp at hb; subst hb; exact hft ha⟩
  · intro w hw
    rcases List.mem_append.1 hw with hw | hw
    · exact hT.sub w hw
    · simp at hw; exact hw ▸ hvd
  · intro w hw
    refine (hT.promising w hw).cut (fun x => x ∈ S) (fun e he hx => hx ⟨fun _ => (hT.kends e he).2, fun _ => (hT.kends e he).1⟩) hfE ?_ ?_
    · intro hx; exact hft (hx.1 hfs)
    · intro e heE hx
      have heI := ((hE e).1 heE).1
      refine hw _ hf _ heI ?_
      obtain ⟨h1, h2⟩ := mem_cItems.1 heI
      by_cases hs : e.source ∈ S
      · by_cases ht : e.target ∈ S
        · exact absurd ⟨fun _ => ht, fun _ => hs⟩ hx
        · exact hmin e heI hs ht
      · by_cases ht : e.target ∈ S
        · obtain ⟨h3, h4⟩ := hu _ _ h1
          have := hmin ⟨e.target, e.source, e.value⟩ (mem_cItems.2 ⟨h3, by rw [h2]; exact h4.symm⟩) ht hs
          exact this
        · exact absurd ⟨fun h => absurd h hs, fun h => absurd h ht⟩ hx
  · exact hT.forest.cons hnc
  · intro e he
    rcases List.mem_cons.1 he with rfl | he
    · exact hfE
    · exact hT.ksub e he
  · intro e he
    rcases List.mem_cons.1 he with rfl | he
    · simp [hfs]
    · simp [hT.kends e he]
  · intro w hw
    have hm : ∀ x, Connects cPair K start x → Connects cPair (⟨u, v, c⟩ :: K) start x := fun x c => c.mono (by simp +contextual)
    rcases List.mem_append.1 hw with hw | hw
    · exact hm w (hT.conn w hw)
    · simp at hw; subst hw
      exact (hm u (hT.conn u hfs)).trans (Connects.edge (ends := cPair) (e := (⟨u, w, c⟩ : CEdge)) (List.mem_cons_self ..))

/-- The state between two steps. -/
structure CInv (g : CGraph) (d : Digraph) (E : List CEdge) (start : String) (st : PrimC) (S : List String) (K : List CEdge) : Prop where
  graph : st.g = g
  visited : st.visited = S.map (ido g)
  tree : CTree g d E start st.mst S K
  queue : CQueue g d st.pq S (fun _ _ => True)

theorem primBodyC_spec (h : CgRep g d) (hu : UndirectedC d) (hE : ∀ e, e ∈ E ↔ e ∈ cItems d ∧ Connects cPair (cItems d) start e.source)
    (ho : ∀ v l, (order v l).Perm l) (ht : DeliversLeast top) {st : PrimC} {S : List String} {K : List CEdge} (hI : CInv g d E start st S K)
    (hne : st.pq ≠ []) : ∃ st' S' K', primBodyC order top st = .ok st' ∧ CInv g d E start st' S' K' ∧
      st'.pq.length + pending d S' < st.pq.length + pending d S ∧ ∀ v ∈ S, v ∈ S' := by
  obtain ⟨hg, hvis, hT, hQ⟩ := hI
  obtain ⟨t1, t2⟩ := ht st.pq hne
  obtain ⟨f, hf, hfs, ef⟩ := hQ.entry _ t1
  have hfd := (h.ends _ (mem_cItems.1 hf).1).2
  dsimp only at hfd
  have hlen : (st.pq.erase (top st.pq)).length + 1 = st.pq.length := by
    rw [List.length_erase_of_mem t1]
    have := List.length_pos_of_mem t1
    omega
  have hdst : (top st.pq).dst = ido g f.target := by rw [ef]; rfl
  by_cases hS : f.target ∈ S
  · have hmem : (top st.pq).dst ∈ st.visited := by rw [hdst, hvis]; exact (ido_mem h hT.sub hfd).2 hS
    refine ⟨{ st with pq := st.pq.erase (top st.pq) }, S, K, by simp only [primBodyC, hmem, if_true], ⟨hg, hvis, hT, ⟨?_, ?_⟩⟩, by dsimp only; omega, fun v hv => hv⟩
    · intro x hx; exact hQ.entry x (List.mem_of_mem_erase hx)
    · intro e he hes het _
      refine (List.mem_erase_of_ne ?_).2 (hQ.edges e he hes het trivial)
      intro e'
      have hed : e.target ∈ d.verts := (h.ends _ (mem_cItems.1 he).1).2
      have : ido g e.target = ido g f.target := by rw [← hdst, ← e']; rfl
      exact het (ido_inj h hed hfd this ▸ hS)
  · have hmem : (top st.pq).dst ∉ st.visited := by rw [hdst, hvis]; exact fun hm => hS ((ido_mem h hT.sub hfd).1 hm)
    obtain ⟨m', e1, hT'⟩ := treeStep (st := { st with pq := st.pq.erase (top st.pq), visited := st.visited ++ [(top st.pq).dst] }) h hu hE hg hT hf hfs hS (by
      intro e he hes het
      have := t2 _ (hQ.edges e he hes het trivial)
      rw [ef, pgt_false] at this
      exact this)
    have hS' : ∀ w ∈ S ++ [f.target], w ∈ d.verts := hT'.sub
    obtain ⟨pq', e2, hQ', hl⟩ := primPush_spec (check := true) (S := S ++ [f.target]) (v := f.target)
      (st := { st with pq := st.pq.erase (top st.pq), visited := st.visited ++ [(top st.pq).dst], mst := m' }) h ho hS' (by simp) hg (by simp [hvis, hdst]) (by
        refine ⟨?_, ?_⟩
        · intro x hx
          obtain ⟨e, a, b, c⟩ := hQ.entry x (List.mem_of_mem_erase hx)
          exact ⟨e, a, by simp [b], c⟩
        · intro e he hes het hne'
          have hes' : e.source ∈ S := by
            rcases List.mem_append.1 hes with hes | hes
            · exact hes
            · simp at hes; exact absurd hes hne'
          have hed : e.target ∈ d.verts := (h.ends _ (mem_cItems.1 he).1).2
          refine (List.mem_erase_of_ne ?_).2 (hQ.edges e he hes' (fun hm => het (by simp [hm])) trivial)
          intro e'
          have : ido g e.target = ido g f.target := by rw [← hdst, ← e']; rfl
          exact het (by simp [ido_inj h hed hfd this]))
    refine ⟨{ st with pq := pq', visited := st.visited ++ [(top st.pq).dst], mst := m' }, S ++ [f.target], f :: K, ?_, ⟨?_, ?_, hT', hQ'⟩, ?_, fun v hv => by simp [hv]⟩
    · simp only [primBodyC, hmem, if_false]
      generalize top st.pq = e at *
      subst ef
      rw [e1, ok_bind]
      dsimp only
      have hn : st.g.idToName (entOf g f).dst = some f.target := by rw [hg]; exact (ido_of h hfd).2.2
      rw [hn]
      exact e2
    · exact hg
    · simp [hvis, hdst, entOf]
    · have := pending_add d S f.target hS
      dsimp only at hl ⊢
      omega

theorem prim_while (h : CgRep g d) (hu : UndirectedC d) (hE : ∀ e, e ∈ E ↔ e ∈ cItems d ∧ Connects cPair (cItems d) start e.source)
    (ho : ∀ v l, (order v l).Perm l) (ht : DeliversLeast top) : ∀ (N : Nat) (st : PrimC) (S : List String) (K : List CEdge), CInv g d E start st S K →
      st.pq.length + pending d S ≤ N → ∃ st' S' K', (∀ fuel, N < fuel →
        whileLoop fuel (fun st : PrimC => .ok (!st.pq.isEmpty)) (primBodyC order top) st = .ok st') ∧ CInv g d E start st' S' K' ∧ st'.pq = [] ∧
        ∀ v ∈ S, v ∈ S' := by
  intro N
  induction N with
  | zero =>
    intro st S K hI hN
    have h0 : st.pq = [] := List.eq_nil_of_length_eq_zero (by omega)
    refine ⟨st, S, K, fun fuel hf => ?_, hI, h0, fun v hv => hv⟩
    obtain ⟨f, rfl⟩ : ∃ f, fuel = f + 1 := ⟨fuel - 1, by omega⟩
    rw [whileLoop]; simp [h0, ok_bind]
  | succ N ih =>
    intro st S K hI hN
    by_cases h0 : st.pq = []
    · refine ⟨st, S, K, fun fuel hf => ?_, hI, h0, fun v hv => hv⟩
      obtain ⟨f, rfl⟩ : ∃ f, fuel = f + 1 := ⟨fuel - 1, by omega⟩
      rw [whileLoop]; simp [h0, ok_bind]
    · obtain ⟨st1, S1, K1, e1, hI1, hl, hs1⟩ := primBodyC_spec h hu hE ho ht hI h0
      obtain ⟨st2, S2, K2, e2, hI2, h2, hs⟩ := ih st1 S1 K1 hI1 (by omega)
      refine ⟨st2, S2, K2, fun fuel hf => ?_, hI2, h2, ?_⟩
      · obtain ⟨f, rfl⟩ : ∃ f, fuel = f + 1 := ⟨fuel - 1, by omega⟩
        rw [whileLoop]
        simp only [ok_bind]
        rw [if_pos (by cases hp : st.pq with
          | nil => exact absurd hp h0
          | cons a l => rfl), e1, ok_bind]
        exact e2 f (by omega)
      · exact fun v hv => hs v (hs1 v hv)

/-- What the caller sees of the result: `K` is the tree, `E` are the edges that can be reached from the first vertex. -/
structure PrimResultC (g : CGraph) (d : Digraph) (E : List CEdge) (start : String) (m : CGraph) (S : List String) (K : List CEdge) : Prop where
  least : ∀ w, RanksCosts d w → MinSpanningForest cPair (fun e => w e.value) E K
  nodup : S.Nodup
  verts : ∀ v, v ∈ S ↔ v ∈ d.verts ∧ Connects cPair (cItems d) start v
  names : m.nodes.map m.idToName = S.map some
  size : cgNumVertices m = S.length
  count : cgNumEdges m = 2 * K.length
  get : ∀ s t, NoBar s → ∀ x, cgGetEdge m s t = some x ↔ x.source = s ∧ x.target = t ∧ TreeEdgeC K s t x.value
  neighbors : ∀ v ∈ S, ∀ order, cgNeighbors order m v = cgNeighbors order g v
  adjacent : ∀ v ∈ S, ∀ u, cgIsAdjacent m v u = cgIsAdjacent g v u
  missing : ∀ v, v ∉ S → ∀ u, cgIsAdjacent m v u = .error .keyError
  /-- The counter for new ids starts again at 0, although ids are in use. -/
  next : m.nextId = 0

theorem CInv.result (h : CgRep g d) (hu : UndirectedC d) (hE : ∀ e, e ∈ E ↔ e ∈ cItems d ∧ Connects cPair (cItems d) start e.source)
    {st : PrimC} {S : List String} {K : List CEdge} (hI : CInv g d E start st S K) (hst : start ∈ S) (hq : st.pq = []) :
    PrimResultC g d E start (primShare st) S K := by
  obtain ⟨hg, hvis, hT, hQ⟩ := hI
  have hKi : ∀ e ∈ K, e ∈ cItems d := fun e he => ((hE e).1 (hT.ksub e he)).1
  have closed : ∀ e ∈ cItems d, e.source ∈ S → e.target ∈ S := by
    intro e he hs
    by_cases ht : e.target ∈ S
    · exact ht
    · have := hQ.edges e he hs ht trivial
      rw [hq] at this; cases this
  have closed' : ∀ e ∈ cItems d, e.target ∈ S → e.source ∈ S := by
    intro e he ht
    obtain ⟨h1, h2⟩ := mem_cItems.1 he
    obtain ⟨h3, h4⟩ := hu _ _ h1
    exact closed ⟨e.target, e.source, e.value⟩ (mem_cItems.2 ⟨h3, by rw [h2]; exact h4.symm⟩) ht
  have hinS : ∀ {x y}, Connects cPair (cItems d) x y → (x ∈ S ↔ y ∈ S) := fun c =>
    noncrossing_connects (S := fun x => x ∈ S) (fun e he hx => hx ⟨closed e he, closed' e he⟩) c
  have hmem : ∀ v, v ∈ S ↔ v ∈ d.verts ∧ Connects cPair (cItems d) start v := by
    intro v
    exact ⟨fun hv => ⟨hT.sub v hv, (hT.conn v hv).mono hKi⟩, fun hv => (hinS hv.2).1 hst⟩
  have hspan : SpanningForest cPair E K := by
    refine ⟨hT.ksub, hT.forest, ?_⟩
    intro x y c
    refine c.sub fun e he => ?_
    obtain ⟨e1, e2⟩ := (hE e).1 he
    have hs := (hinS e2).1 hst
    exact ((hT.conn _ hs).symm).trans (hT.conn _ (closed e e1 hs))
  have hnode : ∀ v ∈ S, cgNode (primShare st) v = cgNode g v := by
    intro v hv
    have iv := ido_of h (hT.sub v hv)
    have av := h.adj v _ iv.1
    have hm := (ido_mem h hT.sub (hT.sub v hv)).2 hv
    simp only [cgNode, primShare, hT.nameToId, hv, if_true, hT.idMap, hm, hg, av, Option.isSome_some, iv.1]
  refine ⟨fun w hw => (hT.promising w hw).least hspan, hT.nodup, hmem, ?_, ?_, hT.count, ?_, ?_, ?_, ?_, hT.next⟩
  · simp only [primShare, hT.nodes, List.map_map]
    apply List.map_congr_left
    intro v hv
    have hm := (ido_mem h hT.sub (hT.sub v hv)).2 hv
    simp only [Function.comp, hT.idToName, hm, if_true]
    exact (ido_of h (hT.sub v hv)).2.2
  · simp [cgNumVertices, primShare, hT.nodes]
  · exact hT.val
  · intro v hv ord; simp only [cgNeighbors, hnode v hv]
  · intro v hv u; simp only [cgIsAdjacent, hnode v hv]
  · intro v hv u; simp only [cgIsAdjacent, cgNode, primShare, hT.nameToId, hv, if_false, error_bind]

/-- The algorithm on any graph that the calls can build. -/
theorem cgPrim_spec (h : CgRep g d) (hu : UndirectedC d) (hstart : d.verts.head? = some start)
    (hE : ∀ e, e ∈ E ↔ e ∈ cItems d ∧ Connects cPair (cItems d) start e.source) (ho : ∀ v l, (order v l).Perm l) (ht : DeliversLeast top) :
    ∃ m S K, EndsWith (fun fuel => cgPrim order top g fuel) (.ok (m, g)) ∧ PrimResultC g d E start m S K := by
  obtain ⟨rest, hvs⟩ : ∃ rest, d.verts = start :: rest := by
    cases hv : d.verts with
    | nil => rw [hv] at hstart; cases hstart
    | cons a l => rw [hv] at hstart; simp at hstart; exact ⟨l, by rw [hstart]⟩
  have hsv : start ∈ d.verts := by rw [hvs]; simp
  have is := ido_of h hsv
  have as := h.adj start _ is.1
  obtain ⟨ids, hn⟩ : ∃ ids, g.nodes = ido g start :: ids := by
    have := h.names
    rw [hvs] at this
    cases hn : g.nodes with
    | nil => rw [hn] at this; simp at this
    | cons i ids =>
      rw [hn] at this
      simp only [List.map_cons, List.cons.injEq] at this
      have := h.id_inj (by rw [hn]; simp) is.2.1 this.1 is.2.2
      exact ⟨ids, by rw [this]⟩
  obtain ⟨m0, hm0, hT⟩ : ∃ m0, primAddC (ido g start) start ⟨g, cgNew, [], [ido g start]⟩ = .ok ⟨g, m0, [], [ido g start]⟩ ∧
      CTree g d E start m0 [start] [] := by
    refine ⟨⟨[ido g start], PyDict.empty, upd cgNew.nodeMap start (some (ido g start)), upd cgNew.idMap (ido g start) (some (d.nbrs start)),
      upd cgNew.idToName (ido g start) (some start), upd cgNew.nameToId start (some (ido g start)), 0⟩, ?_, ?_⟩
    · simp only [primAddC, as]; rfl
    constructor
    · rfl
    · intro v
      simp only [upd, cgNew, List.mem_singleton]
      split
      · rename_i e; rw [e]
      · rfl
    · intro v
      simp only [upd, cgNew, List.mem_singleton]
      split
      · rename_i e; rw [e]
      · rfl
    · intro i
      simp only [upd, cgNew, List.map_cons, List.map_nil, List.mem_singleton]
      split
      · rename_i e; rw [e, as]
      · rfl
    · intro i
      simp only [upd, cgNew, List.map_cons, List.map_nil, List.mem_singleton]
      split
      · rename_i e; rw [e, is.2.2]
      · rfl
    · rfl
    · intro k; simp [PyDict.empty]
    · rfl
    · intro s t _ x; simp [PyDict.empty, TreeEdgeC]
    · simp
    · intro v hv; simp at hv; rw [hv]; exact hsv
    · intro w _; exact .nil E
    · intro f F hp; simpa using hp.length_eq
    · simp
    · simp
    · intro v hv; simp at hv; rw [hv]; exact .refl _
  obtain ⟨pq, e1, hQ, hl⟩ := primPush_spec (check := false) (S := [start]) (v := start) (st := ⟨g, m0, [], [ido g start]⟩) h ho hT.sub (by simp) rfl rfl
    ⟨by simp, by intro e _ hes _ hne; simp at hes; exact absurd hes hne⟩
  obtain ⟨st', S', K', e2, hI, h0, hs⟩ := prim_while h hu hE ho ht _ ⟨g, m0, pq, [ido g start]⟩ [start] [] ⟨rfl, rfl, hT, hQ⟩ (Nat.le_refl _)
  refine ⟨primShare st', S', K', ⟨pq.length + pending d [start] + 1, fun fuel hf => ?_⟩, hI.result h hu hE (hs start (by simp)) h0⟩
  simp only [cgPrim, hn, is.2.2, Option.getD_some, hm0, ok_bind, e1]
  rw [e2 fuel hf, ok_bind, hI.graph]
end

/-! ## The theorems -/

/-- C104: on every undirected graph that a history of calls builds (names without underscore), whatever the iteration order of the hash maps and
whichever of several least entries the queue delivers, the algorithm ends; `get_edge` and `num_edges` of the result are those of a spanning forest of least total
value of the part that is connected to the first vertex, and the input graph is unchanged. What is missing: `neighbors` and `is_adjacent` of the
result are those of the input graph (`C104_full_false`), and the result is not ready for new vertices (`C104_next_id`). -/
theorem C104_tree_partial (ops : List CGraphOp) (hp : ∀ c ∈ ops, c.1.All NoBar) (hu : UndirectedC (final cppGraphSpec Digraph.empty ops))
    {start : String} (hstart : (final cppGraphSpec Digraph.empty ops).verts.head? = some start) {E : List CEdge}
    (hE : ∀ e, e ∈ E ↔ e ∈ cItems (final cppGraphSpec Digraph.empty ops) ∧ Connects cPair (cItems (final cppGraphSpec Digraph.empty ops)) start e.source)
    {order : String → List String → List String} (ho : ∀ v l, (order v l).Perm l) {top : List PEntry → PEntry} (ht : DeliversLeast top) :
    ∃ m S K, EndsWith (fun fuel => cgPrim order top (final cgStep cgNew ops) fuel) (.ok (m, final cgStep cgNew ops)) ∧
      PrimResultC (final cgStep cgNew ops) (final cppGraphSpec Digraph.empty ops) E start m S K :=
  cgPrim_spec (cgHistory CgRep.empty ops hp).2 hu hstart hE ho ht

/-- If all edges have ints, the total of the ints is least. -/
theorem ranks_ints {d : Digraph} (h : ∀ e ∈ d.edges, ∃ c, d.cost e.1 e.2 = some c) : RanksCosts d (fun c => c.getD 0) := by
  intro e he f hf hle
  obtain ⟨h1, h2⟩ := mem_cItems.1 he
  obtain ⟨h3, h4⟩ := mem_cItems.1 hf
  obtain ⟨x, hx⟩ := h _ h1
  obtain ⟨y, hy⟩ := h _ h3
  rw [h2, h4, hx, hy] at hle ⊢
  exact hle

/-- C104 for graphs all of whose edges have an int: the total is least. -/
theorem C104_ints_partial (ops : List CGraphOp) (hp : ∀ c ∈ ops, c.1.All NoBar) (hu : UndirectedC (final cppGraphSpec Digraph.empty ops))
    (hi : ∀ e ∈ (final cppGraphSpec Digraph.empty ops).edges, ∃ c, (final cppGraphSpec Digraph.empty ops).cost e.1 e.2 = some c)
    {start : String} (hstart : (final cppGraphSpec Digraph.empty ops).verts.head? = some start) {E : List CEdge}
    (hE : ∀ e, e ∈ E ↔ e ∈ cItems (final cppGraphSpec Digraph.empty ops) ∧ Connects cPair (cItems (final cppGraphSpec Digraph.empty ops)) start e.source)
    {order : String → List String → List String} (ho : ∀ v l, (order v l).Perm l) {top : List PEntry → PEntry} (ht : DeliversLeast top) :
    ∃ m K, EndsWith (fun fuel => cgPrim order top (final cgStep cgNew ops) fuel) (.ok (m, final cgStep cgNew ops)) ∧
      MinSpanningForest cPair (fun e => e.value.getD 0) E K ∧
      ∀ s t, NoBar s → ∀ c, cgGetEdge m s t = some ⟨s, t, c⟩ ↔ TreeEdgeC K s t c := by
  obtain ⟨m, S, K, h1, h2⟩ := C104_tree_partial ops hp hu hstart hE ho ht
  refine ⟨m, K, h1, h2.least _ (ranks_ints hi), fun s t hs c => ?_⟩
  rw [h2.get s t hs]
  simp

/-- On a graph without vertices the first vertex is read all the same. -/
theorem C104_empty (order : String → List String → List String) (top : List PEntry → PEntry) (fuel : Nat) :
    cgPrim order top cgNew fuel = .error .undefined := rfl

/-- Of several least entries the first. -/
def leastEntry (l : List PEntry) : PEntry := l.foldl (fun a b => if pgt a b then b else a) (l.headD ⟨0, 0, none⟩)

theorem leastEntry_delivers : DeliversLeast leastEntry := by
  have tr : ∀ {a b c : Option Int}, costLe a b → costLe b c → costLe a c := by
    intro a b c
    cases a <;> cases b <;> cases c <;> simp [costLe]
    omega
  have tot : ∀ {a b : PEntry}, pgt a b = true → costLe b.value a.value := by
    intro a b
    unfold pgt costLe
    split <;> simp_all
    omega
  have key : ∀ (l : List PEntry) (a : PEntry), let r := l.foldl (fun a b => if pgt a b then b else a) a
      (r = a ∨ r ∈ l) ∧ costLe r.value a.value ∧ ∀ x ∈ l, costLe r.value x.value := by
    intro l
    induction l with
    | nil =>
      intro a
      have : costLe a.value a.value := by cases a.value <;> simp [costLe]
      simpa using this
    | cons b l ih =>
      intro a
      simp only [List.foldl_cons]
      obtain ⟨h1, h2, h3⟩ := ih (if pgt a b then b else a)
      by_cases hab : pgt a b = true
      · rw [if_pos hab] at h1 h2 h3 ⊢
        refine ⟨?_, tr h2 (tot hab), ?_⟩
        · rcases h1 with h1 | h1
          · exact Or.inr (by rw [h1]; simp)
          · exact Or.inr (by simp [h1])
        · intro x hx
          rcases List.mem_cons.1 hx with rfl | hx
          · exact h2
          · exact h3 x hx
      · rw [if_neg hab] at h1 h2 h3 ⊢
        have hab' := pgt_false.1 (by simpa using hab)
        refine ⟨?_, h2, ?_⟩
        · rcases h1 with h1 | h1
          · exact Or.inl h1
          · exact Or.inr (by simp [h1])
        · intro x hx
          rcases List.mem_cons.1 hx with rfl | hx
          · exact tr h2 hab'
          · exact h3 x hx
  intro l hl
  cases l with
  | nil => exact absurd rfl hl
  | cons a l =>
    obtain ⟨h1, h2, h3⟩ := key (a :: l) a
    refine ⟨?_, fun x hx => pgt_false.2 (h3 x hx)⟩
    rcases h1 with h1 | h1
    · show leastEntry (a :: l) ∈ a :: l
      unfold leastEntry
      simp only [List.headD_cons]
      rw [h1]; simp
    · exact h1

/-- A triangle. -/
def exTriangleC : List CGraphOp := [.addVertex "a", .addVertex "b", .addVertex "c", .addEdge "a" "b" (some 1), .addEdge "b" "a" (some 1),
  .addEdge "b" "c" (some 2), .addEdge "c" "b" (some 2), .addEdge "a" "c" (some 5), .addEdge "c" "a" (some 5)].map inOrder

theorem exTriangleC_plain : ∀ c ∈ exTriangleC, c.1.All NoBar := by simp [exTriangleC, inOrder, GraphOp.All, NoBar]

theorem exTriangleC_undirected : UndirectedC (final cppGraphSpec Digraph.empty exTriangleC) := by
  have key : ∀ e ∈ (final cppGraphSpec Digraph.empty exTriangleC).edges, (e.2, e.1) ∈ (final cppGraphSpec Digraph.empty exTriangleC).edges ∧
      (final cppGraphSpec Digraph.empty exTriangleC).cost e.2 e.1 = (final cppGraphSpec Digraph.empty exTriangleC).cost e.1 e.2 := by decide +kernel
  intro s t h
  exact key (s, t) h

theorem exTriangleC_connected : ∀ e : CEdge, e ∈ cItems (final cppGraphSpec Digraph.empty exTriangleC) ↔
    e ∈ cItems (final cppGraphSpec Digraph.empty exTriangleC) ∧ Connects cPair (cItems (final cppGraphSpec Digraph.empty exTriangleC)) "a" e.source := by
  intro e
  refine ⟨fun he => ⟨he, ?_⟩, fun he => he.1⟩
  have key : ∀ e ∈ cItems (final cppGraphSpec Digraph.empty exTriangleC), e.source = "a" ∨
      (⟨"a", e.source, some 1⟩ : CEdge) ∈ cItems (final cppGraphSpec Digraph.empty exTriangleC) ∨
      (⟨"a", e.source, some 5⟩ : CEdge) ∈ cItems (final cppGraphSpec Digraph.empty exTriangleC) := by
    decide +kernel
  rcases key e he with h | h | h
  · rw [h]; exact .refl _
  · exact Connects.edge (ends := cPair) h
  · exact Connects.edge (ends := cPair) h

/-- The hypotheses of `C104_tree_partial` are met by the triangle. -/
example : ∃ m S K, EndsWith (fun fuel => cgPrim (fun _ l => l) leastEntry (final cgStep cgNew exTriangleC) fuel) (.ok (m, final cgStep cgNew exTriangleC)) ∧
    PrimResultC (final cgStep cgNew exTriangleC) (final cppGraphSpec Digraph.empty exTriangleC) (cItems (final cppGraphSpec Digraph.empty exTriangleC)) "a" m S K :=
  C104_tree_partial exTriangleC exTriangleC_plain exTriangleC_undirected (by decide +kernel) exTriangleC_connected (fun _ _ => .refl _) leastEntry_delivers

/-- The answers of the result of the algorithm. -/
def primAnswers {β : Type} (r : PyM (CGraph × CGraph)) (f : CGraph → PyM β) : PyM β := do
  let (m, _) ← r
  f m

/-- `a – c` is not in the tree of the triangle, but `is_adjacent` says it is. -/
theorem exTriangleC_run : primAnswers (cgPrim (fun _ l => l) leastEntry (final cgStep cgNew exTriangleC) 9) (fun m => do
      let b ← cgIsAdjacent m "a" "c"
      .ok (cgNumEdges m, cgGetEdge m "a" "b", cgGetEdge m "c" "b", cgGetEdge m "a" "c", b)) =
    .ok (4, some ⟨"a", "b", some 1⟩, some ⟨"c", "b", some 2⟩, none, true) := by decide +kernel

theorem primAnswers_of {β : Type} {run : Nat → PyM (CGraph × CGraph)} {m g' : CGraph} {f : CGraph → PyM β} (hm : FuelMono run)
    (h : EndsWith run (.ok (m, g'))) {fuel : Nat} {b : β} (hr : primAnswers (run fuel) f = .ok b) : f m = .ok b := by
  obtain ⟨n, hn⟩ := h
  cases e : run fuel with
  | error x => rw [e] at hr; cases hr
  | ok r =>
    obtain ⟨n1, h1⟩ := hm.endsWith e
    have h2 := h1 (n + n1) (by omega)
    rw [hn (n + n1) (by omega)] at h2
    rw [e] at hr
    cases h2
    exact hr

theorem cgPrim_mono (order : String → List String → List String) (top : List PEntry → PEntry) (g : CGraph) : FuelMono (fun fuel => cgPrim order top g fuel) := by
  unfold cgPrim
  split
  · exact .const _
  · exact .bind (.const _) fun _ => .bind (.const _) fun _ => .bind (.whileC _) fun _ => .const _

/-- C104 as one would state it: what is returned is a graph whose edges are those of a least spanning tree, whichever way one asks, and to which vertices
can be added. -/
def C104_full : Prop := ∀ (ops : List CGraphOp), (∀ c ∈ ops, c.1.All NoBar) → UndirectedC (final cppGraphSpec Digraph.empty ops) →
  ∀ start, (final cppGraphSpec Digraph.empty ops).verts.head? = some start →
  ∃ m g', EndsWith (fun fuel => cgPrim (fun _ l => l) leastEntry (final cgStep cgNew ops) fuel) (.ok (m, g')) ∧
    (∀ s t b, cgIsAdjacent m s t = .ok b → (b = true ↔ (cgGetEdge m s t).isSome)) ∧
    ∀ v, v ∉ (final cppGraphSpec Digraph.empty ops).verts → ∃ m', cgAddVertex m v = .ok m' ∧
      ∀ s b, s ≠ v → ∀ t, cgIsAdjacent m s t = .ok b → cgIsAdjacent m' s t = .ok b

/-- `is_adjacent` does not follow `get_edge`. -/
theorem C104_full_false : ¬ C104_full := by
  intro h
  obtain ⟨m, g', e, h1, _⟩ := h exTriangleC exTriangleC_plain exTriangleC_undirected "a" (by decide +kernel)
  have hr := primAnswers_of (cgPrim_mono _ _ _) e exTriangleC_run
  cases hb : cgIsAdjacent m "a" "c" with
  | error x => rw [hb] at hr; cases hr
  | ok b =>
    rw [hb, ok_bind] at hr
    injection hr with hr
    simp only [Prod.mk.injEq] at hr
    have := (h1 _ _ _ hb).1 hr.2.2.2.2
    rw [hr.2.2.2.1] at this
    cases this

/-- `add_vertex` on the result replaces a vertex that is there already. -/
theorem exTriangleC_add : primAnswers (cgPrim (fun _ l => l) leastEntry (final cgStep cgNew exTriangleC) 9) (fun m => do
      let b ← cgIsAdjacent m "a" "b"
      let m' ← cgAddVertex m "d"
      let b' ← cgIsAdjacent m' "a" "b"
      .ok (b, b')) = .ok (true, false) := by decide +kernel

theorem C104_full_false_add : ¬ C104_full := by
  intro h
  obtain ⟨m, g', e, _, h2⟩ := h exTriangleC exTriangleC_plain exTriangleC_undirected "a" (by decide +kernel)
  have hr := primAnswers_of (cgPrim_mono _ _ _) e exTriangleC_add
  obtain ⟨m', e', h3⟩ := h2 "d" (by decide +kernel)
  cases hb : cgIsAdjacent m "a" "b" with
  | error x => rw [hb] at hr; cases hr
  | ok b =>
    have h4 := h3 "a" b (by decide) "b" hb
    rw [hb, ok_bind, e', ok_bind, h4, ok_bind] at hr
    injection hr with hr
    simp only [Prod.mk.injEq] at hr
    rw [hr.1] at hr
    cases hr.2

/-- One edge, in one direction. -/
def exArrowC : List CGraphOp := [.addVertex "a", .addVertex "b", .addEdge "a" "b" (some 1)].map inOrder

/-- The nodes of the result are those of the input graph: on a directed graph the algorithm adds the opposite direction to both. -/
theorem C104_changes_directed : (do
      let (m, g') ← cgPrim (fun _ l => l) leastEntry (final cgStep cgNew exArrowC) 9
      let x ← cgIsAdjacent (final cgStep cgNew exArrowC) "b" "a"
      let y ← cgIsAdjacent g' "b" "a"
      let z ← cgIsAdjacent m "b" "a"
      (.ok (x, y, z) : PyM (Bool × Bool × Bool))) = .ok (false, true, true) := by decide +kernel

end Props
