import Verif.Props.Prim
import Verif.Props.CppPrim

/-!
# C135: the minimum spanning tree algorithms agree
-/
namespace Props
open Py Model Spec Model.Cpp

/-! ## Specification -/

/-- The total of the costs that `get_edge` shows between the vertices `vs` (each edge of an undirected graph counts twice: once in each direction). -/
def shownWeight (vs : List String) (get : String → String → Option Int) : Int :=
  (vs.map fun s => (vs.map fun t => (get s t).getD 0).sum).sum

/-- No two different edges of the undirected graph have the same cost. -/
def DistinctCosts (items : List GEdge) : Prop :=
  ∀ e ∈ items, ∀ f ∈ items, e.value = f.value → (e.source = f.source ∧ e.target = f.target) ∨ (e.source = f.target ∧ e.target = f.source)

/-! ## Two minimum spanning forests -/

section
variable {κ ε : Type} [DecidableEq κ] [DecidableEq ε] {ends : ε → κ × κ} {w : ε → Int}

theorem Forest.tail {F : List ε} {g : ε} (h : Forest ends (g :: F)) : Forest ends F := by
  intro f F' hp hc
  exact h f (g :: F') ((hp.cons g).trans (.swap f g F')) (hc.mono (by simp +contextual))

/-- For every edge of one minimum spanning forest there is an edge of the same weight in the other: on the way that the other one takes. -/
theorem msf_exchange {E K K' : List ε} (h : MinSpanningForest ends w E K) (h' : MinSpanningForest ends w E K') {e : ε} (he : e ∈ K) :
    ∃ g ∈ K', w g = w e := by
  obtain ⟨a, b, rfl⟩ := List.append_of_mem he
  have hp : (a ++ e :: b).Perm (e :: (a ++ b)) := List.perm_middle
  let R := a ++ b
  have hn : ¬ Connects ends R (ends e).1 (ends e).2 := h.spanning.forest e R hp
  have heE : e ∈ E := h.spanning.sub e he
  let S : κ → Prop := fun z => Connects ends R (ends e).1 z
  classical
  let N := K'.filter fun d => decide (¬ Crosses ends S d)
  let X := K'.filter fun d => ! decide (¬ Crosses ends S d)
  have hKP : (N ++ X).Perm K' := List.filter_append_perm _ K'
  have h1 : ¬ Connects ends N (ends e).1 (ends e).2 := by
    intro c
    have := noncrossing_connects (S := S) (fun d hd => by simpa using (List.mem_filter.1 hd).2) c
    exact hn (this.1 (.refl _))
  obtain ⟨p, g, q, hX, h3, h4⟩ := first_connecting X h1 ((h'.spanning.spans _ _ (.edge heE)).perm hKP.symm)
  have hgX : g ∈ X := by rw [hX]; simp
  have hgc : Crosses ends S g := by simpa using (List.mem_filter.1 hgX).2
  have hgK : g ∈ K' := (List.mem_filter.1 hgX).1
  have hgE : g ∈ E := h'.spanning.sub g hgK
  let R' := N ++ (p ++ q)
  have hRP : K'.Perm (g :: R') := by
    refine hKP.symm.trans ?_
    rw [hX]
    exact (List.perm_middle.append_left N).trans List.perm_middle
  have hn' : ¬ Connects ends R' (ends g).1 (ends g).2 := h'.spanning.forest g R' hRP
  have h5 := h4.exchange h3
  have hne' : ¬ Connects ends R' (ends e).1 (ends e).2 := by
    intro c
    apply hn'
    refine h5.sub ?_
    intro d hd
    rcases List.mem_cons.1 hd with rfl | hd
    · exact c
    · exact .edge (by simp only [R']; grind)
  -- `g` instead of `e` in the first forest
  have hng : ¬ Connects ends R (ends g).1 (ends g).2 := by
    intro c
    exact hgc ⟨fun hs => hs.trans c, fun hs => hs.trans c.symm⟩
  have s1 : SpanningForest ends E (g :: R) := by
    refine ⟨?_, ((h.spanning.forest.perm hp).tail).cons hng, ?_⟩
    · intro d hd
      rcases List.mem_cons.1 hd with rfl | hd
      · exact hgE
      · exact h.spanning.sub d (hp.mem_iff.2 (by simp only [R] at hd; simp [hd]))
    · intro x y c
      have cg : Connects ends (e :: R) (ends g).1 (ends g).2 := (h.spanning.spans _ _ (.edge hgE)).perm hp
      refine ((h.spanning.spans x y c).perm hp).sub ?_
      intro d hd
      rcases List.mem_cons.1 hd with rfl | hd
      · exact cg.exchange hng
      · exact .edge (by simp only [R]; simp [hd])
  -- `e` instead of `g` in the second one
  have s2 : SpanningForest ends E (e :: R') := by
    refine ⟨?_, ((h'.spanning.forest.perm hRP).tail).cons hne', ?_⟩
    · intro d hd
      rcases List.mem_cons.1 hd with rfl | hd
      · exact heE
      · exact h'.spanning.sub d (hRP.mem_iff.2 (by simp [hd]))
    · intro x y c
      have ce : Connects ends (g :: R') (ends e).1 (ends e).2 := (h'.spanning.spans _ _ (.edge heE)).perm hRP
      refine ((h'.spanning.spans x y c).perm hRP).sub ?_
      intro d hd
      rcases List.mem_cons.1 hd with rfl | hd
      · exact ce.exchange hne'
      · exact .edge (by simp [hd])
  have l1 := h.least _ s1
  have l2 := h'.least _ s2
  rw [weightOf_perm hp] at l1
  rw [weightOf_perm hRP] at l2
  simp only [weightOf, List.map_cons, List.sum_cons] at l1 l2
  refine ⟨g, hgK, ?_⟩
  have e1 : (List.map w (a ++ b)).sum = (List.map w R).sum := rfl
  omega

theorem msf_weight {E K K' : List ε} (h : MinSpanningForest ends w E K) (h' : MinSpanningForest ends w E K') : weightOf w K = weightOf w K' := by
  have := h.least _ h'.spanning
  have := h'.least _ h.spanning
  omega
end

/-! ## What the result shows -/

/-- `get` (the costs that `get_edge` shows) shows a minimum spanning forest of `items`. -/
def ShowsMst (vs : List String) (items : List GEdge) (get : String → String → Option Int) : Prop :=
  ∃ K, MinSpanningForest GEdge.pair GEdge.value items K ∧ ∀ s ∈ vs, ∀ t ∈ vs, ∀ c, get s t = some c ↔ TreeEdge K s t c

/-- What the edges `K` add to the entry `s`, `t`. -/
def entryOf (K : List GEdge) (s t : String) : Int :=
  (K.map fun e => (if e.source = s ∧ e.target = t then e.value else 0) + (if e.source = t ∧ e.target = s then e.value else 0)).sum

theorem entryOf_forest : ∀ (K : List GEdge), Forest GEdge.pair K → ∀ s t, (∃ c, TreeEdge K s t c ∧ entryOf K s t = c) ∨
    ((∀ c, ¬ TreeEdge K s t c) ∧ entryOf K s t = 0)
  | [], _, s, t => Or.inr ⟨fun c h => (nomatch h), rfl⟩
  | e :: K, hf, s, t => by
    have hn : ¬ Connects GEdge.pair K e.source e.target := hf e K (.refl _)
    have hne : e.source ≠ e.target := fun h => hn (h ▸ .refl _)
    have hent : entryOf (e :: K) s t = (if e.source = s ∧ e.target = t then e.value else 0) + (if e.source = t ∧ e.target = s then e.value else 0) +
        entryOf K s t := by simp [entryOf]
    have ih := entryOf_forest K hf.tail s t
    by_cases h1 : e.source = s ∧ e.target = t
    · obtain ⟨rfl, rfl⟩ := h1
      have h0 : entryOf K e.source e.target = 0 := by
        rcases ih with ⟨c, hc, _⟩ | h
        · exact absurd hc.connects hn
        · exact h.2
      refine Or.inl ⟨e.value, ⟨e, by simp, rfl, Or.inl ⟨rfl, rfl⟩⟩, ?_⟩
      rw [hent, h0, if_pos ⟨rfl, rfl⟩, if_neg (fun h => hne h.1)]
      omega
    · by_cases h2 : e.source = t ∧ e.target = s
      · obtain ⟨rfl, rfl⟩ := h2
        have h0 : entryOf K e.target e.source = 0 := by
          rcases ih with ⟨c, hc, _⟩ | h
          · exact absurd hc.connects.symm hn
          · exact h.2
        refine Or.inl ⟨e.value, ⟨e, by simp, rfl, Or.inr ⟨rfl, rfl⟩⟩, ?_⟩
        rw [hent, h0, if_neg h1, if_pos ⟨rfl, rfl⟩]
        omega
      · rw [hent, if_neg h1, if_neg h2]
        rcases ih with ⟨c, ⟨f, hf', hc⟩, hv⟩ | ⟨h3, h4⟩
        · exact Or.inl ⟨c, ⟨f, by simp [hf'], hc⟩, by omega⟩
        · refine Or.inr ⟨?_, by omega⟩
          rintro c ⟨f, hf', hc, ho⟩
          rcases List.mem_cons.1 hf' with rfl | hf'
          · rcases ho with ho | ho
            · exact h1 ho
            · exact h2 ho
          · exact h3 c ⟨f, hf', hc, ho⟩

theorem sum_add {α : Type} (l : List α) (f g : α → Int) : (l.map fun x => f x + g x).sum = (l.map f).sum + (l.map g).sum := by
  induction l with
  | nil => rfl
  | cons x l ih => simp only [List.map_cons, List.sum_cons, ih]; omega

theorem sum_zero {α : Type} (l : List α) (f : α → Int) (h : ∀ x ∈ l, f x = 0) : (l.map f).sum = 0 := by
  induction l with
  | nil => rfl
  | cons x l ih => simp only [List.map_cons, List.sum_cons, h x (by simp), ih fun y hy => h y (by simp [hy])]; rfl

theorem sum_single {l : List String} (hn : l.Nodup) {a : String} (ha : a ∈ l) (f : String → Int) (h : ∀ x ∈ l, x ≠ a → f x = 0) :
    (l.map f).sum = f a := by
  induction l with
  | nil => cases ha
  | cons x l ih =>
    obtain ⟨h1, h2⟩ := List.nodup_cons.1 hn
    simp only [List.map_cons, List.sum_cons]
    rcases List.mem_cons.1 ha with rfl | ha
    · rw [sum_zero l f fun y hy => h y (by simp [hy]) (fun e => h1 (e ▸ hy))]
      omega
    · rw [ih h2 ha fun y hy => h y (by simp [hy]), h x (by simp) (fun e => h1 (e ▸ ha))]
      omega

theorem sum_pair {vs : List String} (hn : vs.Nodup) {a b : String} (ha : a ∈ vs) (hb : b ∈ vs) (c : Int) :
    (vs.map fun s => (vs.map fun t => if a = s ∧ b = t then c else 0).sum).sum = c := by
  rw [sum_single hn ha]
  · rw [sum_single hn hb]
    · rw [if_pos ⟨rfl, rfl⟩]
    · intro x _ hx
      rw [if_neg fun h => hx h.2.symm]
  · intro x _ hx
    refine sum_zero _ _ fun t _ => ?_
    rw [if_neg fun h => hx h.1.symm]

theorem sum_entryOf {vs : List String} (hn : vs.Nodup) : ∀ (K : List GEdge), (∀ e ∈ K, e.source ∈ vs ∧ e.target ∈ vs) →
    (vs.map fun s => (vs.map fun t => entryOf K s t).sum).sum = 2 * weightOf GEdge.value K
  | [], _ => by
    rw [sum_zero vs (fun s => (vs.map fun t => entryOf [] s t).sum) fun s _ => sum_zero vs (fun t => entryOf [] s t) fun t _ => rfl]; rfl
  | e :: K, h => by
    have ih := sum_entryOf hn K fun f hf => h f (by simp [hf])
    obtain ⟨ha, hb⟩ := h e (by simp)
    have hent : ∀ s t, entryOf (e :: K) s t = ((if e.source = s ∧ e.target = t then e.value else 0) +
        (if e.target = s ∧ e.source = t then e.value else 0)) + entryOf K s t := by
      intro s t
      have : (e.source = t ∧ e.target = s) = (e.target = s ∧ e.source = t) := propext And.comm
      simp [entryOf, this]
    simp only [hent, sum_add, sum_pair hn ha hb, sum_pair hn hb ha, ih]
    simp [weightOf]
    omega

theorem ShowsMst.weight {vs : List String} {items : List GEdge} {get : String → String → Option Int} (hn : vs.Nodup)
    (hv : ∀ e ∈ items, e.source ∈ vs ∧ e.target ∈ vs) (h : ShowsMst vs items get) :
    ∃ K, MinSpanningForest GEdge.pair GEdge.value items K ∧ shownWeight vs get = 2 * weightOf GEdge.value K := by
  obtain ⟨K, hm, hg⟩ := h
  refine ⟨K, hm, ?_⟩
  rw [← sum_entryOf hn K fun e he => hv e (hm.spanning.sub e he), shownWeight]
  have : ∀ s ∈ vs, (vs.map fun t => (get s t).getD 0).sum = (vs.map fun t => entryOf K s t).sum := by
    intro s hs
    congr 1
    refine List.map_congr_left fun t ht => ?_
    rcases entryOf_forest K hm.spanning.forest s t with ⟨c, hc, he⟩ | ⟨hc, he⟩
    · rw [(hg s hs t ht c).2 hc, he]; rfl
    · rw [he]
      cases hgt : get s t with
      | none => rfl
      | some c => exact absurd ((hg s hs t ht c).1 hgt) (hc c)
  rw [List.map_congr_left this]

/-- Two results show the same total. -/
theorem ShowsMst.agree {vs : List String} {items : List GEdge} {get get' : String → String → Option Int} (hn : vs.Nodup)
    (hv : ∀ e ∈ items, e.source ∈ vs ∧ e.target ∈ vs) (h : ShowsMst vs items get) (h' : ShowsMst vs items get') :
    shownWeight vs get = shownWeight vs get' := by
  obtain ⟨K, hm, e⟩ := h.weight hn hv
  obtain ⟨K', hm', e'⟩ := h'.weight hn hv
  rw [e, e', msf_weight hm hm']

/-- With distinct costs, two results show the same edges. -/
theorem ShowsMst.same {vs : List String} {items : List GEdge} {get get' : String → String → Option Int} (hd : DistinctCosts items)
    (h : ShowsMst vs items get) (h' : ShowsMst vs items get') : ∀ s ∈ vs, ∀ t ∈ vs, get s t = get' s t := by
  obtain ⟨K, hm, hg⟩ := h
  obtain ⟨K', hm', hg'⟩ := h'
  have key : ∀ {K K' : List GEdge}, MinSpanningForest GEdge.pair GEdge.value items K → MinSpanningForest GEdge.pair GEdge.value items K' →
      ∀ s t c, TreeEdge K s t c → TreeEdge K' s t c := by
    rintro K K' hm hm' s t c ⟨e, he, hc, ho⟩
    obtain ⟨g, hgk, hw⟩ := msf_exchange hm hm' he
    refine ⟨g, hgk, hw.trans hc, ?_⟩
    rcases hd e (hm.spanning.sub e he) g (hm'.spanning.sub g hgk) hw.symm with ⟨a, b⟩ | ⟨a, b⟩
    · rw [← a, ← b]; exact ho
    · rw [← a, ← b]
      rcases ho with ⟨x, y⟩ | ⟨x, y⟩
      · exact Or.inr ⟨y, x⟩
      · exact Or.inl ⟨y, x⟩
  intro s hs t ht
  have : ∀ c, get s t = some c ↔ get' s t = some c := by
    intro c
    rw [hg s hs t ht, hg' s hs t ht]
    exact ⟨key hm hm' s t c, key hm' hm s t c⟩
  cases h1 : get s t with
  | some c => exact ((this c).1 h1).symm
  | none =>
    cases h2 : get' s t with
    | none => rfl
    | some c => rw [(this c).2 h2] at h1; cases h1

/-- The costs that `get_edge` of an adjacency list, of an adjacency matrix and of the C++ adjacency list shows. -/
def costsList (m : AList) (s t : String) : Option Int := (alGetEdge m s t).map GEdge.value
def costsMatrix (m : AMat) (s t : String) : Option Int := (amGetEdge m s t).map GEdge.value
def costsCpp (m : CGraph) (s t : String) : Option Int := (cgGetEdge m s t).bind CEdge.value

theorem shows_of {vs : List String} {items K : List GEdge} {get : String → String → Option GEdge}
    (hm : MinSpanningForest GEdge.pair GEdge.value items K) (hg : ∀ s ∈ vs, ∀ t ∈ vs, ∀ c, get s t = some ⟨s, t, c⟩ ↔ TreeEdge K s t c)
    (hs : ∀ s ∈ vs, ∀ t ∈ vs, ∀ x, get s t = some x → x.source = s ∧ x.target = t) :
    ShowsMst vs items fun s t => (get s t).map GEdge.value := by
  refine ⟨K, hm, fun s hs' t ht c => ?_⟩
  rw [← hg s hs' t ht]
  cases h : get s t with
  | none => simp [h]
  | some x =>
    obtain ⟨a, b, v⟩ := x
    obtain ⟨h1, h2⟩ := hs s hs' t ht _ h
    dsimp only at h1 h2
    subst h1 h2
    simp [h]

/-! ## From the C++ edges to the Python ones -/

theorem SpanningForest.map {κ ε ε' : Type} {ends : ε → κ × κ} {ends' : ε' → κ × κ} {E F : List ε} {E' : List ε'} (φ : ε → ε') (ψ : ε' → ε)
    (h1 : ∀ e ∈ E, φ e ∈ E' ∧ ends' (φ e) = ends e) (h2 : ∀ e ∈ E', ψ e ∈ E ∧ ends (ψ e) = ends' e) (h : SpanningForest ends E F) :
    SpanningForest ends' E' (F.map φ) := by
  have hends : ∀ G : List ε, (∀ g ∈ G, g ∈ E) → (G.map φ).map ends' = G.map ends := by
    intro G hG
    rw [List.map_map]
    exact List.map_congr_left fun e he => (h1 e (hG e he)).2
  refine ⟨?_, ?_, ?_⟩
  · intro e he
    obtain ⟨f, hf, rfl⟩ := List.mem_map.1 he
    exact (h1 f (h.sub f hf)).1
  · intro f G hp hc
    obtain ⟨a, b, hab⟩ := List.append_of_mem (hp.mem_iff.2 (List.mem_cons_self ..))
    obtain ⟨a', b', rfl, ha, hb⟩ := List.map_eq_append_iff.1 hab
    obtain ⟨f', b'', rfl, rfl, rfl⟩ := List.map_eq_cons_iff.1 hb
    have hp' : (a' ++ f' :: b'').Perm (f' :: (a' ++ b'')) := List.perm_middle
    refine h.forest f' (a' ++ b'') hp' ?_
    have hG : G.Perm ((a' ++ b'').map φ) := by
      refine List.Perm.cons_inv (a := φ f') (hp.symm.trans ?_)
      exact (hp'.map φ)
    have hc' : Joined (((a' ++ b'').map φ).map ends') (ends' (φ f')).1 (ends' (φ f')).2 := by
      refine Joined.rec (motive := fun x y _ => Joined (((a' ++ b'').map φ).map ends') x y) (fun a => .refl a) ?_ (fun a b _ h => .symm _ _ h)
        (fun a b c _ _ h h' => .trans _ _ _ h h') hc
      intro a b hm
      refine .pair _ _ ?_
      exact (hG.map ends').mem_iff.1 hm
    rw [hends _ (fun g hg => h.sub g (hp'.mem_iff.2 (by simp only [List.mem_cons]; exact Or.inr hg)))] at hc'
    rw [(h1 f' (h.sub f' (by simp))).2] at hc'
    exact hc'
  · intro x y c
    show Joined ((F.map φ).map ends') x y
    rw [hends F h.sub]
    refine h.spans x y ?_
    refine Joined.rec (motive := fun x y _ => Joined (E.map ends) x y) (fun a => .refl a) ?_ (fun a b _ h => .symm _ _ h)
      (fun a b c _ _ h h' => .trans _ _ _ h h') c
    intro a b hm
    obtain ⟨e, he, hab⟩ := List.mem_map.1 hm
    exact .pair _ _ (List.mem_map.2 ⟨ψ e, (h2 e he).1, (h2 e he).2.trans hab⟩)

theorem MinSpanningForest.map {κ ε ε' : Type} {ends : ε → κ × κ} {ends' : ε' → κ × κ} {w : ε → Int} {w' : ε' → Int} {E F : List ε} {E' : List ε'}
    (φ : ε → ε') (ψ : ε' → ε) (h1 : ∀ e ∈ E, φ e ∈ E' ∧ ends' (φ e) = ends e ∧ w' (φ e) = w e)
    (h2 : ∀ e ∈ E', ψ e ∈ E ∧ ends (ψ e) = ends' e ∧ w (ψ e) = w' e) (h : MinSpanningForest ends w E F) :
    MinSpanningForest ends' w' E' (F.map φ) := by
  refine ⟨h.spanning.map φ ψ (fun e he => ⟨(h1 e he).1, (h1 e he).2.1⟩) fun e he => ⟨(h2 e he).1, (h2 e he).2.1⟩, fun F' hF' => ?_⟩
  have hw : weightOf w' (F.map φ) = weightOf w F := by
    simp only [weightOf, List.map_map]
    congr 1
    exact List.map_congr_left fun e he => (h1 e (h.spanning.sub e he)).2.2
  have hw' : weightOf w (F'.map ψ) = weightOf w' F' := by
    simp only [weightOf, List.map_map]
    congr 1
    exact List.map_congr_left fun e he => (h2 e (hF'.sub e he)).2.2
  rw [hw, ← hw']
  exact h.least _ (hF'.map ψ φ (fun e he => ⟨(h2 e he).1, (h2 e he).2.1⟩) fun e he => ⟨(h1 e he).1, (h1 e he).2.1⟩)

/-! ## C135 -/

section
variable {gAttr nAttr : String → Bool} {g : AList} {d : Digraph} {items : List GEdge} {start : String} {gm : AMat} {ops : List CGraphOp}

/-- One undirected connected graph, all of whose edges have a cost, in the three representations: the adjacency list `g`, the adjacency matrix `gm`
and the C++ adjacency list that `ops` builds. (The names are not reserved, and the keys of the edges do not collide.) -/
structure ThreeForms (gAttr nAttr : String → Bool) (g : AList) (d : Digraph) (items : List GEdge) (start : String) (gm : AMat) (ops : List CGraphOp) :
    Prop where
  rep : AlRep g d
  sep : Separable fun v => v ∈ g.vertices
  plain : ∀ v ∈ g.vertices, Plain gAttr nAttr v ∧ NoBar v
  listed : ListItems g items
  undirected : UndirectedItems g d items
  first : g.vertices.head? = some start
  connected : ∀ v ∈ g.vertices, Connects GEdge.pair items start v
  matVerts : gm.vertices = g.vertices
  matItems : MatrixItems gm items
  opsPlain : ∀ c ∈ ops, c.1.All NoBar
  cppVerts : (final cppGraphSpec Digraph.empty ops).verts = g.vertices
  cppItems : ∀ e : CEdge, e ∈ cItems (final cppGraphSpec Digraph.empty ops) ↔ ∃ f ∈ items, e = ⟨f.source, f.target, some f.value⟩

/-- The seven algorithms, each with what `get_edge` of its result shows: Kruskal and its parallel version on both representations, Prim and its
parallel version, and Prim in C++ (for every iteration order of the hash maps and every choice among several least entries). -/
def MstResults (gAttr nAttr : String → Bool) (g : AList) (items : List GEdge) (gm : AMat) (ops : List CGraphOp) (threads : Nat)
    (order : String → List String → List String) (top : List PEntry → PEntry) (P : (String → String → Option Int) → Prop) : Prop :=
  (∃ m, kruskal (alAddEdge gAttr nAttr) (mstObjectList g) g.vertices items = .ok m ∧ P (costsList m)) ∧
  (∃ m, EndsWith (fun fuel => kruskalParallel (alAddEdge gAttr nAttr) (mstObjectList g) g.vertices items fuel) (.ok m) ∧ P (costsList m)) ∧
  (∃ m, kruskal amAddEdge (mstObjectMatrix gm) gm.vertices items = .ok m ∧ P (costsMatrix m)) ∧
  (∃ m, EndsWith (fun fuel => kruskalParallel amAddEdge (mstObjectMatrix gm) gm.vertices items fuel) (.ok m) ∧ P (costsMatrix m)) ∧
  (∃ m, EndsWith (fun fuel => prim gAttr nAttr g fuel) (.ok (m, g)) ∧ P (costsList m)) ∧
  (∃ m, EndsWith (fun fuel => primParallel gAttr nAttr g threads fuel) (.ok (m, g)) ∧ P (costsList m)) ∧
  (∃ m, EndsWith (fun fuel => cgPrim order top (final cgStep cgNew ops) fuel) (.ok (m, final cgStep cgNew ops)) ∧ P (costsCpp m))

theorem mst_results (h : ThreeForms gAttr nAttr g d items start gm ops) (hne : items ≠ []) {threads : Nat} (ht : 0 < threads)
    {order : String → List String → List String} (ho : ∀ v l, (order v l).Perm l) {top : List PEntry → PEntry} (htop : DeliversLeast top) :
    MstResults gAttr nAttr g items gm ops threads order top (ShowsMst g.vertices items) := by
  have hpl : ∀ v ∈ g.vertices, Plain gAttr nAttr v := fun v hv => (h.plain v hv).1
  have hE : ∀ e, e ∈ items ↔ e ∈ items ∧ Connects GEdge.pair items start e.source := fun e =>
    ⟨fun he => ⟨he, h.connected _ ((h.listed e).1 he).1⟩, fun he => he.1⟩
  have hvn : g.vertices.Nodup := h.rep.verts ▸ h.rep.nodup
  refine ⟨?_, ?_, ?_, ?_, ?_, ?_, ?_⟩
  · obtain ⟨m, K, e, hk, _⟩ := C63_kruskal_list_partial h.rep h.sep hpl h.listed
    exact ⟨m, e, shows_of hk.least hk.get hk.shape⟩
  · obtain ⟨m, K, e, hk, _⟩ := C63_kruskal_parallel_list_partial h.rep h.sep hpl h.listed hne
    exact ⟨m, e, shows_of hk.least hk.get hk.shape⟩
  · obtain ⟨m, K, e, hk⟩ := C63_kruskal_matrix gm (h.matVerts ▸ hvn) (h.matVerts ▸ h.sep) h.matItems
    exact ⟨m, e, shows_of hk.least (h.matVerts ▸ hk.get) (h.matVerts ▸ hk.shape)⟩
  · obtain ⟨m, K, e, hk⟩ := C63_kruskal_parallel_matrix gm (h.matVerts ▸ hvn) (h.matVerts ▸ h.sep) h.matItems hne
    exact ⟨m, e, shows_of hk.least (h.matVerts ▸ hk.get) (h.matVerts ▸ hk.shape)⟩
  · obtain ⟨m, K, e, hk⟩ := C64_prim_partial h.rep h.sep hpl h.undirected h.first hE
    exact ⟨m, e, shows_of hk.least hk.get hk.shape⟩
  · obtain ⟨m, K, e, hk⟩ := C64_prim_parallel_partial h.rep h.sep hpl h.undirected h.first hE threads ht
    exact ⟨m, e, shows_of hk.least hk.get hk.shape⟩
  · let dc := final cppGraphSpec Digraph.empty ops
    have hmem : ∀ s t, (s, t) ∈ dc.edges ↔ ∃ c, (⟨s, t, c⟩ : GEdge) ∈ items := by
      intro s t
      constructor
      · intro he
        obtain ⟨f, hf, e⟩ := (h.cppItems ⟨s, t, dc.cost s t⟩).1 (mem_cItems.2 ⟨he, rfl⟩)
        obtain ⟨a, b, v⟩ := f
        injection e with e1 e2 e3
        exact ⟨v, by rw [e1, e2]; exact hf⟩
      · rintro ⟨c, hc⟩
        exact (mem_cItems.1 ((h.cppItems ⟨s, t, some c⟩).2 ⟨_, hc, rfl⟩)).1
    have hcost : ∀ s t c, (⟨s, t, c⟩ : GEdge) ∈ items → dc.cost s t = some c := by
      intro s t c hc
      exact ((mem_cItems.1 ((h.cppItems ⟨s, t, some c⟩).2 ⟨_, hc, rfl⟩)).2).symm
    have hu : UndirectedC dc := by
      intro s t he
      obtain ⟨c, hc⟩ := (hmem s t).1 he
      have hde : (s, t) ∈ d.edges := ((h.undirected.mem _).1 hc).1
      obtain ⟨c', h1, h2⟩ := h.undirected.both s t hde
      refine ⟨(hmem t s).2 ⟨c', h2⟩, ?_⟩
      rw [hcost t s c' h2, hcost s t c' h1]
    have hends : (cItems dc).map cPair = dc.edges := by simp [cItems, cPair, List.map_map, Function.comp_def]
    have hconn : ∀ {x y}, Connects GEdge.pair items x y → Connects cPair (cItems dc) x y := by
      intro x y c
      refine c.rec' (P := Connects cPair (cItems dc)) (fun x => .refl x) (fun _ _ h => h.symm) (fun _ _ _ h h' => h.trans h') ?_
      intro e he
      exact Connects.edge (ends := cPair) ((h.cppItems ⟨e.source, e.target, some e.value⟩).2 ⟨e, he, rfl⟩)
    have hints : ∀ e ∈ dc.edges, ∃ c, dc.cost e.1 e.2 = some c := fun e he => by
      obtain ⟨c, hc⟩ := (hmem e.1 e.2).1 he
      exact ⟨c, hcost _ _ c hc⟩
    obtain ⟨m, S', K, e, hr⟩ := C104_tree_partial ops h.opsPlain hu (start := start) (by rw [h.cppVerts]; exact h.first) (E := cItems dc)
      (fun e => ⟨fun he => ⟨he, by
        obtain ⟨f, hf, rfl⟩ := (h.cppItems e).1 he
        exact hconn (h.connected _ ((h.listed f).1 hf).1)⟩, fun he => he.1⟩) ho htop
    have hk := hr.least _ (ranks_ints hints)
    have hK : ∀ e ∈ K, e ∈ cItems dc := hk.spanning.sub
    refine ⟨m, e, K.map fun e => ⟨e.source, e.target, e.value.getD 0⟩, ?_, ?_⟩
    · refine hk.map (fun e : CEdge => (⟨e.source, e.target, e.value.getD 0⟩ : GEdge)) (fun e => ⟨e.source, e.target, some e.value⟩) ?_ ?_
      · intro e he
        obtain ⟨f, hf, rfl⟩ := (h.cppItems e).1 he
        exact ⟨hf, rfl, rfl⟩
      · intro e he
        exact ⟨(h.cppItems _).2 ⟨e, he, rfl⟩, rfl, rfl⟩
    · intro s hs t ht' c
      have hsb : NoBar s := (h.plain s hs).2
      have key : TreeEdgeC K s t (some c) ↔ costsCpp m s t = some c := by
        have hx := hr.get s t hsb
        unfold costsCpp
        cases hc : cgGetEdge m s t with
        | none =>
          have := hx ⟨s, t, some c⟩
          rw [hc] at this
          simp at this
          simp [this]
        | some x =>
          obtain ⟨h1, h2, h3⟩ := (hx x).1 hc
          have := hx ⟨s, t, some c⟩
          rw [hc] at this
          obtain ⟨a, b, v⟩ := x
          dsimp only at h1 h2
          subst h1 h2
          simpa using this.symm
      rw [← key]
      constructor
      · rintro ⟨e, he, hc, ho'⟩
        exact ⟨_, List.mem_map.2 ⟨e, he, rfl⟩, by dsimp only; rw [hc]; rfl, ho'⟩
      · rintro ⟨f, hf, hc, ho'⟩
        obtain ⟨e, he, rfl⟩ := List.mem_map.1 hf
        refine ⟨e, he, ?_, ho'⟩
        obtain ⟨f', hf', rfl⟩ := (h.cppItems e).1 (hK e he)
        simp at hc
        rw [hc]

/-- C135: on every undirected connected graph with costs, whatever the number of threads, the iteration order of the hash maps and the choices of the
queue, the seven minimum spanning tree algorithms end, and the totals of the costs that their results show are all the same. -/
theorem C135_same_total (h : ThreeForms gAttr nAttr g d items start gm ops) (hne : items ≠ []) {threads : Nat} (ht : 0 < threads)
    {order : String → List String → List String} (ho : ∀ v l, (order v l).Perm l) {top : List PEntry → PEntry} (htop : DeliversLeast top) :
    ∃ total, MstResults gAttr nAttr g items gm ops threads order top fun costs => shownWeight g.vertices costs = total := by
  obtain ⟨h1, h2, h3, h4, h5, h6, h7⟩ := mst_results h hne ht ho htop
  have hvn : g.vertices.Nodup := h.rep.verts ▸ h.rep.nodup
  have hv : ∀ e ∈ items, e.source ∈ g.vertices ∧ e.target ∈ g.vertices := fun e he => ⟨((h.listed e).1 he).1, ((h.listed e).1 he).2.1⟩
  obtain ⟨m, _, hm⟩ := h1
  refine ⟨shownWeight g.vertices (costsList m), ⟨m, by assumption, rfl⟩, ?_, ?_, ?_, ?_, ?_, ?_⟩
  · obtain ⟨m', e, hm'⟩ := h2; exact ⟨m', e, hm'.agree hvn hv hm⟩
  · obtain ⟨m', e, hm'⟩ := h3; exact ⟨m', e, hm'.agree hvn hv hm⟩
  · obtain ⟨m', e, hm'⟩ := h4; exact ⟨m', e, hm'.agree hvn hv hm⟩
  · obtain ⟨m', e, hm'⟩ := h5; exact ⟨m', e, hm'.agree hvn hv hm⟩
  · obtain ⟨m', e, hm'⟩ := h6; exact ⟨m', e, hm'.agree hvn hv hm⟩
  · obtain ⟨m', e, hm'⟩ := h7; exact ⟨m', e, hm'.agree hvn hv hm⟩

/-- C135: the total is least: no way to connect the graph by some of its edges is cheaper. -/
theorem C135_least_total (h : ThreeForms gAttr nAttr g d items start gm ops) (hne : items ≠ []) {threads : Nat} (ht : 0 < threads)
    {order : String → List String → List String} (ho : ∀ v l, (order v l).Perm l) {top : List PEntry → PEntry} (htop : DeliversLeast top) :
    MstResults gAttr nAttr g items gm ops threads order top fun costs =>
      ∀ F : List GEdge, (∀ e ∈ F, e ∈ items) → Forest GEdge.pair F → (∀ u ∈ g.vertices, ∀ v ∈ g.vertices, Connects GEdge.pair F u v) →
        shownWeight g.vertices costs ≤ 2 * weightOf GEdge.value F := by
  have hvn : g.vertices.Nodup := h.rep.verts ▸ h.rep.nodup
  have hv : ∀ e ∈ items, e.source ∈ g.vertices ∧ e.target ∈ g.vertices := fun e he => ⟨((h.listed e).1 he).1, ((h.listed e).1 he).2.1⟩
  have key : ∀ get, ShowsMst g.vertices items get → ∀ F : List GEdge, (∀ e ∈ F, e ∈ items) → Forest GEdge.pair F →
      (∀ u ∈ g.vertices, ∀ v ∈ g.vertices, Connects GEdge.pair F u v) → shownWeight g.vertices get ≤ 2 * weightOf GEdge.value F := by
    intro get hg F h1 h2 h3
    obtain ⟨K, hm, e⟩ := hg.weight hvn hv
    rw [e]
    have := hm.least F ⟨h1, h2, fun x y c => c.sub fun e he => h3 _ (hv e he).1 _ (hv e he).2⟩
    omega
  obtain ⟨⟨m1, e1, h1⟩, ⟨m2, e2, h2⟩, ⟨m3, e3, h3⟩, ⟨m4, e4, h4⟩, ⟨m5, e5, h5⟩, ⟨m6, e6, h6⟩, ⟨m7, e7, h7⟩⟩ := mst_results h hne ht ho htop
  exact ⟨⟨m1, e1, key _ h1⟩, ⟨m2, e2, key _ h2⟩, ⟨m3, e3, key _ h3⟩, ⟨m4, e4, key _ h4⟩, ⟨m5, e5, key _ h5⟩, ⟨m6, e6, key _ h6⟩, ⟨m7, e7, key _ h7⟩⟩

/-- C135: if no two edges have the same cost, the seven results show the same edges. -/
theorem C135_same_tree (h : ThreeForms gAttr nAttr g d items start gm ops) (hne : items ≠ []) {threads : Nat} (ht : 0 < threads)
    {order : String → List String → List String} (ho : ∀ v l, (order v l).Perm l) {top : List PEntry → PEntry} (htop : DeliversLeast top)
    (hd : DistinctCosts items) :
    ∃ tree : String → String → Option Int, MstResults gAttr nAttr g items gm ops threads order top fun costs =>
      ∀ s ∈ g.vertices, ∀ t ∈ g.vertices, costs s t = tree s t := by
  obtain ⟨⟨m1, e1, h1⟩, ⟨m2, e2, h2⟩, ⟨m3, e3, h3⟩, ⟨m4, e4, h4⟩, ⟨m5, e5, h5⟩, ⟨m6, e6, h6⟩, ⟨m7, e7, h7⟩⟩ := mst_results h hne ht ho htop
  exact ⟨costsList m1, ⟨m1, e1, fun _ _ _ _ => rfl⟩, ⟨m2, e2, h2.same hd h1⟩, ⟨m3, e3, h3.same hd h1⟩, ⟨m4, e4, h4.same hd h1⟩,
    ⟨m5, e5, h5.same hd h1⟩, ⟨m6, e6, h6.same hd h1⟩, ⟨m7, e7, h7.same hd h1⟩⟩
end

/-! ## Non-vacuity -/

theorem exTriangle_same : ThreeForms exGAttr exNAttr exTriangle (final digraphSpec Digraph.empty exTriangleOps) exTriangleItems "a" exTriangleMat
    exTriangleC := by
  have hv : exTriangle.vertices = ["a", "b", "c"] := by decide +kernel
  have hm : exTriangleMat.vertices = ["a", "b", "c"] := by decide +kernel
  refine ⟨exTriangle_rep, exTriangle_sep, ?_, exTriangle_items, exTriangle_undirected, by decide +kernel, ?_, by rw [hv, hm], ?_, exTriangleC_plain,
    by decide +kernel, ?_⟩
  · intro v hv'
    refine ⟨exTriangle_plain v hv', ?_⟩
    rw [hv] at hv'
    simp only [List.mem_cons, List.not_mem_nil, or_false] at hv'
    rcases hv' with rfl | rfl | rfl <;> simp [NoBar]
  · intro v hv'
    rw [hv] at hv'
    simp only [List.mem_cons, List.not_mem_nil, or_false] at hv'
    rcases hv' with rfl | rfl | rfl
    · exact .refl _
    · exact Connects.edge (ends := GEdge.pair) (e := ⟨"a", "b", 1⟩) (by decide)
    · exact Connects.edge (ends := GEdge.pair) (e := ⟨"a", "c", 5⟩) (by decide)
  · intro e
    rw [hm]
    have key : ∀ s ∈ ["a", "b", "c"], ∀ t ∈ ["a", "b", "c"], ∀ x, amGetEdge exTriangleMat s t = some x → x ∈ exTriangleItems := by
      have : ∀ s ∈ ["a", "b", "c"], ∀ t ∈ ["a", "b", "c"], (match amGetEdge exTriangleMat s t with | some x => decide (x ∈ exTriangleItems) | none => true) = true := by
        decide +kernel
      intro s hs t ht x hx
      have := this s hs t ht
      rw [hx] at this
      simpa using this
    have back : ∀ e ∈ exTriangleItems, e.source ∈ ["a", "b", "c"] ∧ e.target ∈ ["a", "b", "c"] ∧ amGetEdge exTriangleMat e.source e.target = some e := by
      decide +kernel
    exact ⟨back e, fun ⟨a, b, c⟩ => key _ a _ b _ c⟩
  · have he : cItems (final cppGraphSpec Digraph.empty exTriangleC) = exTriangleItems.map fun f => ⟨f.source, f.target, some f.value⟩ := by
      decide +kernel
    intro e
    rw [he, List.mem_map]
    exact ⟨fun ⟨f, h1, h2⟩ => ⟨f, h1, h2.symm⟩, fun ⟨f, h1, h2⟩ => ⟨f, h1, h2.symm⟩⟩

/-- The hypotheses are met by the triangle with the costs 1, 2 and 5: each result shows the total 1 + 2, in both directions. -/
example : ∃ total, MstResults exGAttr exNAttr exTriangle exTriangleItems exTriangleMat exTriangleC 2 (fun _ l => l) leastEntry fun costs =>
    shownWeight exTriangle.vertices costs = total :=
  C135_same_total exTriangle_same (by decide) (by decide) (fun _ _ => .refl _) leastEntry_delivers
example : DistinctCosts exTriangleItems := by unfold DistinctCosts; decide
example : (prim exGAttr exNAttr exTriangle 30).map (fun r => shownWeight exTriangle.vertices (costsList r.1)) = .ok 6 := by decide +kernel
example : (kruskal amAddEdge (mstObjectMatrix exTriangleMat) exTriangleMat.vertices exTriangleItems).map
    (fun m => shownWeight exTriangle.vertices (costsMatrix m)) = .ok 6 := by decide +kernel
end Props
