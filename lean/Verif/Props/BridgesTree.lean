import Verif.Props.Bridges
import Verif.Props.MstAgree

/-! # C150: the bridges of a network are the edges that all its spanning trees have in common -/
namespace Props
open Py Model Model.Cpp Spec

section
variable {κ ε : Type} [DecidableEq κ] [DecidableEq ε] {ends : ε → κ × κ}

/-- Every network has a spanning forest. -/
theorem exists_spanning : ∀ E : List ε, ∃ F, SpanningForest ends E F
  | [] => ⟨[], by simp, fun f F' h => (by have := h.length_eq; simp at this), fun _ _ c => c⟩
  | e :: E => by
    obtain ⟨F, hF⟩ := exists_spanning E
    by_cases hc : Connects ends F (ends e).1 (ends e).2
    · refine ⟨F, fun f hf => List.mem_cons_of_mem _ (hF.sub f hf), hF.forest, fun x y c => c.sub fun f hf => ?_⟩
      rcases List.mem_cons.1 hf with rfl | hf
      · exact hc
      · exact hF.spans _ _ (.edge hf)
    · refine ⟨e :: F, fun f hf => ?_, hF.forest.cons hc, fun x y c => c.sub fun f hf => ?_⟩
      · rcases List.mem_cons.1 hf with rfl | hf
        · simp
        · exact List.mem_cons_of_mem _ (hF.sub f hf)
      · rcases List.mem_cons.1 hf with rfl | hf
        · exact .edge (by simp)
        · exact (hF.spans _ _ (.edge hf)).mono fun _ h => List.mem_cons_of_mem _ h
end

section
variable {g : AList} {d : Digraph} {items : List GEdge}

/-- A step between two vertices in `nbr` follows an edge of the network. -/
theorem item_of_edge (h : UndirectedItems g d items) {a b : String} : b ∈ d.nbrs a ↔ ∃ c, (⟨a, b, c⟩ : GEdge) ∈ items :=
  ⟨fun e => by obtain ⟨c, h1, _⟩ := h.both a b (mem_nbrs.1 e); exact ⟨c, h1⟩, fun ⟨c, hc⟩ => mem_nbrs.2 ((h.mem _).1 hc).1⟩

theorem bridge_in_forest (h : UndirectedItems g d items) {a b : String} (hb : IsBridge d.nbrs a b) {K : List GEdge}
    (hK : SpanningForest GEdge.pair items K) : ∃ c, TreeEdge K a b c := by
  obtain ⟨hab, hcut⟩ := isBridge_iff.1 hb
  have hsym : ∀ x y, y ∈ d.nbrs x → x ∈ d.nbrs y := fun x y e => by
    obtain ⟨c, _, h2⟩ := h.both x y (mem_nbrs.1 e)
    exact (item_of_edge h).2 ⟨c, h2⟩
  refine Classical.byContradiction fun hno => hcut ?_
  obtain ⟨c, hc⟩ := (item_of_edge h).1 hab
  have hcon : Connects GEdge.pair K a b := hK.spans a b (Connects.edge (ends := GEdge.pair) hc)
  refine Connects.rec' (ends := GEdge.pair) (P := fun x y => Star (Cut d.nbrs a b) x y) (fun _ => .refl) (fun _ _ s => Cut.star_symm hsym s)
    (fun _ _ _ s s' => Relation.ReflTransGen.trans s s') (fun e he => ?_) hcon
  refine Relation.ReflTransGen.single ⟨(item_of_edge h).2 ⟨e.value, hK.sub e he⟩, fun hq => hno ⟨e.value, e, he, rfl, ?_⟩⟩
  exact hq

theorem forest_without (h : UndirectedItems g d items) {a b : String} (hab : b ∈ d.nbrs a) (hb : ¬ IsBridge d.nbrs a b) :
    ∃ K, SpanningForest GEdge.pair items K ∧ ∀ c, ¬ TreeEdge K a b c := by
  have hcut : Star (Cut d.nbrs a b) a b := Classical.byContradiction fun hn => hb (isBridge_iff.2 ⟨hab, hn⟩)
  let rest := items.filter fun e => decide (¬ ((e.source = a ∧ e.target = b) ∨ (e.source = b ∧ e.target = a)))
  have hto : ∀ z, Star (Cut d.nbrs a b) a z → Connects GEdge.pair rest a z := by
    intro z hz
    induction hz with
    | refl => exact .refl _
    | tail _ hs ih =>
      obtain ⟨c, hc⟩ := (item_of_edge h).1 hs.1
      exact ih.trans (Connects.edge (ends := GEdge.pair) (e := ⟨_, _, c⟩) (List.mem_filter.2 ⟨hc, decide_eq_true hs.2⟩))
  have hcon := hto b hcut
  obtain ⟨K, hK⟩ := exists_spanning (ends := GEdge.pair) rest
  refine ⟨K, ⟨fun e he => (List.mem_filter.1 (hK.sub e he)).1, hK.forest, fun x y c => hK.spans x y (c.sub fun e he => ?_)⟩, ?_⟩
  · by_cases hq : (e.source = a ∧ e.target = b) ∨ (e.source = b ∧ e.target = a)
    · rcases hq with ⟨h1, h2⟩ | ⟨h1, h2⟩
      · show Connects GEdge.pair rest e.source e.target
        rw [h1, h2]; exact hcon
      · show Connects GEdge.pair rest e.source e.target
        rw [h1, h2]; exact hcon.symm
    · exact Connects.edge (ends := GEdge.pair) (List.mem_filter.2 ⟨he, decide_eq_true hq⟩)
  · rintro c ⟨e, he, _, hq⟩
    have := (List.mem_filter.1 (hK.sub e he)).2
    exact of_decide_eq_true this hq

/-- What `find_bridges` answers on a stored undirected graph. -/
theorem bridges_of (hr : AlRep g d) (h : UndirectedItems g d items) :
    ∃ bs, EndsWith (findBridges g.vertices (alNeighbors g)) (.ok bs) ∧ ∀ a b, (a, b) ∈ bs ↔ a ∈ g.vertices ∧ a ≤ b ∧ IsBridge d.nbrs a b := by
  have hg : FinGraph d.verts d.nbrs := ⟨hr.nodup, fun v _ w hw => (hr.ends _ (mem_nbrs.1 hw)).2, fun v _ => nbrs_nodup hr.enodup v⟩
  obtain ⟨bs, e, hb, _⟩ := C71_bridges hg (nb := alNeighbors g) (fun v hv => by rw [alNeighbors_of hr, if_pos hv]) (fun x y he => by
    obtain ⟨c, _, h2⟩ := h.both x y (mem_nbrs.1 he)
    exact (item_of_edge h).2 ⟨c, h2⟩)
  rw [hr.verts]
  exact ⟨bs, e, hb⟩

/-- **C150**: on an undirected network, `find_bridges` reports an edge exactly if every spanning forest of the network contains it. -/
theorem C150_in_every_forest (hr : AlRep g d) (h : UndirectedItems g d items) :
    ∃ bs, EndsWith (findBridges g.vertices (alNeighbors g)) (.ok bs) ∧ ∀ a b, (a, b) ∈ bs ↔
      a ≤ b ∧ (∃ c, (⟨a, b, c⟩ : GEdge) ∈ items) ∧ ∀ K, SpanningForest GEdge.pair items K → ∃ c, TreeEdge K a b c := by
  obtain ⟨bs, e, hb⟩ := bridges_of hr h
  refine ⟨bs, e, fun a b => (hb a b).trans ⟨?_, ?_⟩⟩
  · rintro ⟨_, hle, hbr⟩
    exact ⟨hle, (item_of_edge h).1 hbr.1, fun K hK => bridge_in_forest h hbr hK⟩
  · rintro ⟨hle, hc, hall⟩
    have hab := (item_of_edge h).2 hc
    refine ⟨hr.verts ▸ (hr.ends _ (mem_nbrs.1 hab)).1, hle, Classical.byContradiction fun hn => ?_⟩
    obtain ⟨K, hK, hno⟩ := forest_without h hab hn
    obtain ⟨c, hc⟩ := hall K hK
    exact hno c hc
end

section
variable {gAttr nAttr : String → Bool} {g : AList} {d : Digraph} {items : List GEdge} {start : String} {gm : AMat} {ops : List CGraphOp}

/-- **C150**: whatever the number of threads, the iteration order of the hash maps and the choices of the queue, each of the seven minimum spanning
tree algorithms returns a graph that shows every bridge, with the cost it has in the network, in both directions. -/
theorem C150_in_every_result (h : ThreeForms gAttr nAttr g d items start gm ops) (hne : items ≠ []) {threads : Nat} (ht : 0 < threads)
    {order : String → List String → List String} (ho : ∀ v l, (order v l).Perm l) {top : List PEntry → PEntry} (htop : DeliversLeast top) :
    ∃ bs, EndsWith (findBridges g.vertices (alNeighbors g)) (.ok bs) ∧
      MstResults gAttr nAttr g items gm ops threads order top fun costs => ∀ a b, (a, b) ∈ bs →
        ∃ c, costsList g a b = some c ∧ costs a b = some c ∧ costs b a = some c := by
  obtain ⟨bs, e, hb⟩ := bridges_of h.rep h.undirected
  have key : ∀ get, ShowsMst g.vertices items get → ∀ a b, (a, b) ∈ bs → ∃ c, costsList g a b = some c ∧ get a b = some c ∧ get b a = some c := by
    rintro get ⟨K, hK, hget⟩ a b hab
    obtain ⟨ha, _, hbr⟩ := (hb a b).1 hab
    have hb' : b ∈ g.vertices := h.rep.verts ▸ (h.rep.ends _ (mem_nbrs.1 hbr.1)).2
    obtain ⟨c, f, hf, hv, hq⟩ := bridge_in_forest h.undirected hbr hK.spanning
    refine ⟨c, ?_, (hget a ha b hb' c).2 ⟨f, hf, hv, hq⟩, (hget b hb' a ha c).2 ⟨f, hf, hv, hq.symm⟩⟩
    have hi := hK.spanning.sub f hf
    obtain ⟨h1, h2⟩ := (h.undirected.mem f).1 hi
    rcases hq with ⟨rfl, rfl⟩ | ⟨rfl, rfl⟩
    · rw [costsList, h2]; exact congrArg some hv
    · obtain ⟨c', h3, h4⟩ := h.undirected.both _ _ h1
      have h5 := ((h.undirected.mem _).1 h3).2
      have h6 := ((h.undirected.mem _).1 h4).2
      rw [costsList, h6]
      rw [h2] at h5
      have := congrArg (fun x => x.map GEdge.value) h5
      simp only [Option.map_some, Option.some.injEq] at this
      simp only [Option.map_some, ← hv, this]
  obtain ⟨⟨m1, e1, h1⟩, ⟨m2, e2, h2⟩, ⟨m3, e3, h3⟩, ⟨m4, e4, h4⟩, ⟨m5, e5, h5⟩, ⟨m6, e6, h6⟩, ⟨m7, e7, h7⟩⟩ := mst_results h hne ht ho htop
  exact ⟨bs, e, ⟨m1, e1, key _ h1⟩, ⟨m2, e2, key _ h2⟩, ⟨m3, e3, key _ h3⟩, ⟨m4, e4, key _ h4⟩, ⟨m5, e5, key _ h5⟩, ⟨m6, e6, key _ h6⟩,
    ⟨m7, e7, key _ h7⟩⟩
end

/-! ## Non-vacuity -/

/-- A road from `a` over `b` to `c`: both its edges are bridges. -/
def exLineOps : List GraphOp := [.addVertex "a", .addVertex "b", .addVertex "c", .addEdge "a" "b" (some 1), .addEdge "b" "a" (some 1),
  .addEdge "b" "c" (some 2), .addEdge "c" "b" (some 2)]
def exLine : AList := final (alStep exGAttr exNAttr) alNew exLineOps
def exLineItems : List GEdge := [⟨"a", "b", 1⟩, ⟨"b", "a", 1⟩, ⟨"b", "c", 2⟩, ⟨"c", "b", 2⟩]
def exLineMat : AMat := final amStep (amNew ["a", "b", "c"]) (exLineOps.drop 3)
def exLineC : List CGraphOp := [.addVertex "a", .addVertex "b", .addVertex "c", .addEdge "a" "b" (some 1), .addEdge "b" "a" (some 1),
  .addEdge "b" "c" (some 2), .addEdge "c" "b" (some 2)].map inOrder

theorem exLine_rep : AlRep exLine (final digraphSpec Digraph.empty exLineOps) :=
  al_history_rep exLineOps (by
    intro op h
    simp only [exLineOps, List.mem_cons, List.not_mem_nil, or_false] at h
    rcases h with rfl | rfl | rfl | rfl | rfl | rfl | rfl <;> simp only [GraphOp.All, Plain] <;> decide) (by
    intro op h s t e; subst e; simp [exLineOps] at h)

theorem exLine_sep : Separable fun v => v ∈ exLine.vertices := by
  have : exLine.vertices = ["a", "b", "c"] := by decide +kernel
  rw [this]
  have key : ∀ v ∈ ["a", "b", "c"], '_' ∉ v.toList := by decide
  intro s t s' t' h1 h2 h3 h4 h
  exact separable_noUnderscore s t s' t' (key s h1) (key t h2) (key s' h3) (key t' h4) h

theorem exLine_plain : ∀ v ∈ exLine.vertices, Plain exGAttr exNAttr v := by
  have : exLine.vertices = ["a", "b", "c"] := by decide +kernel
  rw [this]
  intro v hv
  simp only [List.mem_cons, List.not_mem_nil, or_false] at hv
  rcases hv with rfl | rfl | rfl <;> exact ⟨by decide, by decide⟩

theorem exLine_items : ListItems exLine exLineItems := by
  have : exLine.vertices = ["a", "b", "c"] := by decide +kernel
  have key : ∀ s ∈ ["a", "b", "c"], ∀ t ∈ ["a", "b", "c"], alGetEdge exLine s t = exLineItems.find? fun e => e.source = s ∧ e.target = t := by
    decide +kernel
  intro e
  rw [this]
  constructor
  · intro h
    have : ∀ e ∈ exLineItems, e.source ∈ ["a", "b", "c"] ∧ e.target ∈ ["a", "b", "c"] ∧
        (exLineItems.find? fun f => f.source = e.source ∧ f.target = e.target) = some e := by decide
    obtain ⟨h1, h2, h3⟩ := this e h
    exact ⟨h1, h2, by rw [key _ h1 _ h2, h3]⟩
  · rintro ⟨h1, h2, h3⟩
    rw [key _ h1 _ h2] at h3
    exact List.mem_of_find?_eq_some h3

theorem exLine_undirected : UndirectedItems exLine (final digraphSpec Digraph.empty exLineOps) exLineItems := by
  have he : (final digraphSpec Digraph.empty exLineOps).edges = exLineItems.map GEdge.pair := by decide +kernel
  have hv : exLine.vertices = ["a", "b", "c"] := by decide +kernel
  constructor
  · intro e
    rw [exLine_items e, he]
    have key : ∀ e ∈ exLineItems, e.source ∈ ["a", "b", "c"] ∧ e.target ∈ ["a", "b", "c"] := by decide
    constructor
    · rintro ⟨h1, h2, h3⟩
      exact ⟨List.mem_map.2 ⟨e, (exLine_items e).2 ⟨h1, h2, h3⟩, rfl⟩, h3⟩
    · rintro ⟨h1, h2⟩
      obtain ⟨f, hf, hfe⟩ := List.mem_map.1 h1
      simp only [GEdge.pair, Prod.mk.injEq] at hfe
      rw [hv, ← hfe.1, ← hfe.2]
      exact ⟨(key f hf).1, (key f hf).2, by rw [hfe.1, hfe.2]; exact h2⟩
  · intro s t h
    rw [he] at h
    have key : ∀ p ∈ exLineItems.map GEdge.pair, ∃ e ∈ exLineItems, GEdge.pair e = p ∧ (⟨p.1, p.2, e.value⟩ : GEdge) ∈ exLineItems ∧
        (⟨p.2, p.1, e.value⟩ : GEdge) ∈ exLineItems := by decide
    obtain ⟨e, _, _, h1, h2⟩ := key (s, t) h
    exact ⟨e.value, h1, h2⟩

theorem exLineC_plain : ∀ c ∈ exLineC, c.1.All NoBar := by simp [exLineC, inOrder, GraphOp.All, NoBar]

theorem exLine_same : ThreeForms exGAttr exNAttr exLine (final digraphSpec Digraph.empty exLineOps) exLineItems "a" exLineMat
    exLineC := by
  have hv : exLine.vertices = ["a", "b", "c"] := by decide +kernel
  have hm : exLineMat.vertices = ["a", "b", "c"] := by decide +kernel
  refine ⟨exLine_rep, exLine_sep, ?_, exLine_items, exLine_undirected, by decide +kernel, ?_, by rw [hv, hm], ?_, exLineC_plain,
    by decide +kernel, ?_⟩
  · intro v hv'
    refine ⟨exLine_plain v hv', ?_⟩
    rw [hv] at hv'
    simp only [List.mem_cons, List.not_mem_nil, or_false] at hv'
    rcases hv' with rfl | rfl | rfl <;> simp [NoBar]
  · intro v hv'
    rw [hv] at hv'
    simp only [List.mem_cons, List.not_mem_nil, or_false] at hv'
    rcases hv' with rfl | rfl | rfl
    · exact .refl _
    · exact Connects.edge (ends := GEdge.pair) (e := ⟨"a", "b", 1⟩) (by decide)
    · exact (Connects.edge (ends := GEdge.pair) (e := ⟨"a", "b", 1⟩) (by decide)).trans
        (Connects.edge (ends := GEdge.pair) (e := ⟨"b", "c", 2⟩) (by decide))
  · intro e
    rw [hm]
    have key : ∀ s ∈ ["a", "b", "c"], ∀ t ∈ ["a", "b", "c"], ∀ x, amGetEdge exLineMat s t = some x → x ∈ exLineItems := by
      have : ∀ s ∈ ["a", "b", "c"], ∀ t ∈ ["a", "b", "c"], (match amGetEdge exLineMat s t with | some x => decide (x ∈ exLineItems) | none => true) = true := by
        decide +kernel
      intro s hs t ht x hx
      have := this s hs t ht
      rw [hx] at this
      simpa using this
    have back : ∀ e ∈ exLineItems, e.source ∈ ["a", "b", "c"] ∧ e.target ∈ ["a", "b", "c"] ∧ amGetEdge exLineMat e.source e.target = some e := by
      decide +kernel
    exact ⟨back e, fun ⟨a, b, c⟩ => key _ a _ b _ c⟩
  · have he : cItems (final cppGraphSpec Digraph.empty exLineC) = exLineItems.map fun f => ⟨f.source, f.target, some f.value⟩ := by
      decide +kernel
    intro e
    rw [he, List.mem_map]
    exact ⟨fun ⟨f, h1, h2⟩ => ⟨f, h1, h2.symm⟩, fun ⟨f, h1, h2⟩ => ⟨f, h1, h2.symm⟩⟩

example := C150_in_every_forest exLine_rep exLine_undirected
example : findBridges exLine.vertices (alNeighbors exLine) 9 = .ok [("a", "b"), ("b", "c")] := by decide +kernel
example := C150_in_every_result exLine_same (by decide) (threads := 2) (by decide) (order := fun _ l => l) (fun _ _ => .refl _) leastEntry_delivers

end Props
