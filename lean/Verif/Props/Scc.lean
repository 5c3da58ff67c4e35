import Verif.Model.Tarjan
import Verif.GraphSpec
import Verif.Props.BellmanFord

/-! # C69: Tarjan's algorithm returns the strongly connected components -/
namespace Props
open Py Model Spec

/-- The list `cs` of sets is the partition of the vertices into classes of mutual reachability. -/
structure SccPartition (vs : List String) (nbr : String → List String) (cs : List (List String)) : Prop where
  /-- every vertex is in one set, once -/
  partition : cs.flatten.Perm vs
  nonempty : ∀ C ∈ cs, C ≠ []
  strong : ∀ C ∈ cs, ∀ x ∈ C, ∀ y, y ∈ C ↔ Reach nbr x y ∧ Reach nbr y x

section
variable {vs : List String} {nbr : String → List String} {nb : String → PyM (List String)}

/-- The invariant of the search. `Gray` are the vertices whose call has not returned. -/
structure TJInv (vs : List String) (nbr : String → List String) (n : Int) (S : List String) (idx low : String → Int) (comps : List (List String))
    (Gray : List String) : Prop where
  npos : 0 ≤ n
  white : ∀ v, idx v = -1 ∨ (0 ≤ idx v ∧ idx v < n ∧ v ∈ vs)
  sorted : S.Pairwise fun a b => idx b < idx a
  svis : ∀ v ∈ S, idx v ≠ -1
  place : ∀ v, idx v ≠ -1 → v ∈ S ∨ v ∈ comps.flatten
  cvis : ∀ v ∈ comps.flatten, idx v ≠ -1 ∧ v ∉ S
  cnodup : comps.flatten.Nodup
  cne : ∀ C ∈ comps, C ≠ []
  scc : ∀ C ∈ comps, ∀ x ∈ C, ∀ y, y ∈ C ↔ Reach nbr x y ∧ Reach nbr y x
  gray : ∀ v ∈ Gray, v ∈ S
  reach : ∀ x ∈ S, ∀ y ∈ S, idx x ≤ idx y → Reach nbr x y
  toGray : ∀ y ∈ S, ∃ x ∈ Gray, idx x ≤ idx y ∧ Reach nbr y x
  closed : ∀ x, idx x ≠ -1 → x ∉ Gray → ∀ z ∈ nbr x, idx z ≠ -1
  low : ∀ v ∈ S, low v ≤ idx v ∧ ∃ y ∈ S, idx y = low v ∧ Reach nbr v y
  out : ∀ x ∈ comps.flatten, ∀ z ∈ nbr x, z ∈ comps.flatten
  order : comps.Pairwise fun C D => ∀ x ∈ C, ∀ y ∈ D, ¬ Reach nbr x y

/-- The state of the program. -/
structure TJRep (vs : List String) (st : Tarjan) (n : Int) (S : List String) (idx low : String → Int) (comps : List (List String)) : Prop where
  index : st.index = n
  stack : st.stack = S
  indices : st.indices = dictOf vs idx
  lowLinks : st.lowLinks = dictOf vs low
  onStacks : st.onStacks = dictOf vs (fun v => decide (v ∈ S))
  comps : st.components = comps

/-- A new vertex is entered. -/
theorem TJInv.enter {n S idx low comps Gray} (h : TJInv vs nbr n S idx low comps Gray) {u : String} (hu : u ∈ vs) (hw : idx u = -1)
    (hr : ∀ x ∈ S, Reach nbr x u) :
    TJInv vs nbr (n + 1) (u :: S) (fun v => if v = u then n else idx v) (fun v => if v = u then n else low v) comps (u :: Gray) := by
  have hn := h.npos
  have huS : u ∉ S := fun e => h.svis u e hw
  have hne : ∀ v ∈ S, v ≠ u := fun v hv e => huS (e ▸ hv)
  have hS : ∀ v ∈ S, idx v < n ∧ 0 ≤ idx v := fun v hv => by
    rcases h.white v with h1 | h1
    · exact absurd h1 (h.svis v hv)
    · exact ⟨h1.2.1, h1.1⟩
  constructor
  · omega
  · intro v
    by_cases hv : v = u
    · right; simp only [hv, if_true]; exact ⟨hn, by omega, hu⟩
    · simp only [hv, if_false]
      rcases h.white v with h1 | ⟨h1, h2, h3⟩
      · exact Or.inl h1
      · exact Or.inr ⟨h1, by omega, h3⟩
  · refine List.pairwise_cons.2 ⟨?_, ?_⟩
    · intro v hv; simp only [hne v hv, if_false, if_true]; exact (hS v hv).1
    · exact h.sorted.imp_of_mem fun {a b} ha hb hab => by simp only [hne a ha, hne b hb, if_false]; exact hab
  · intro v hv
    by_cases hvu : v = u
    · simp [hvu]; omega
    · simp only [hvu, if_false]
      exact h.svis v (by simpa [hvu] using hv)
  · intro v hv
    by_cases hvu : v = u
    · simp [hvu]
    · simp only [hvu, if_false] at hv
      rcases h.place v hv with h1 | h1
      · left; simp [h1]
      · exact Or.inr h1
  · intro v hv
    obtain ⟨h1, h2⟩ := h.cvis v hv
    have hvu : v ≠ u := fun e => h1 (e ▸ hw)
    simp [hvu, h1, h2]
  · exact h.cnodup
  · exact h.cne
  · exact h.scc
  · intro v hv
    rcases List.mem_cons.1 hv with rfl | hv
    · simp
    · exact List.mem_cons_of_mem _ (h.gray v hv)
  · intro x hx y hy hxy
    rcases List.mem_cons.1 hx with rfl | hx1
    · rcases List.mem_cons.1 hy with rfl | hy
      · exact Reach.refl _ _
      · simp only [if_true, hne y hy, if_false] at hxy
        have := hS y hy
        omega
    · rcases List.mem_cons.1 hy with rfl | hy
      · exact hr x hx1
      · simp only [hne x hx1, hne y hy, if_false] at hxy
        exact h.reach x hx1 y hy hxy
  · intro y hy
    rcases List.mem_cons.1 hy with rfl | hy
    · exact ⟨y, by simp, Int.le_refl _, Reach.refl _ _⟩
    · obtain ⟨x, h1, h2, h3⟩ := h.toGray y hy
      refine ⟨x, by simp [h1], ?_, h3⟩
      simp only [hne y hy, hne x (h.gray x h1), if_false]
      exact h2
  · intro x hx hxg z hz
    have hxu : x ≠ u := fun e => hxg (by simp [e])
    simp only [hxu, if_false] at hx
    have := h.closed x hx (fun e => hxg (by simp [e])) z hz
    by_cases hzu : z = u
    · simp [hzu]; omega
    · simpa [hzu] using this
  · intro v hv
    rcases List.mem_cons.1 hv with rfl | hv
    · simp only [if_true]; exact ⟨Int.le_refl _, v, by simp, by simp, Reach.refl _ _⟩
    · obtain ⟨h1, y, h2, h3, h4⟩ := h.low v hv
      simp only [hne v hv, if_false]
      exact ⟨h1, y, by simp [h2], by simp only [hne y h2, if_false]; exact h3, h4⟩
  · exact h.out
  · exact h.order

/-- A low link is lowered. -/
theorem TJInv.lower {n S idx low comps Gray} (h : TJInv vs nbr n S idx low comps Gray) {u : String} {l : Int} (hl : l ≤ idx u)
    (hy : ∃ y ∈ S, idx y = l ∧ Reach nbr u y) : TJInv vs nbr n S idx (fun v => if v = u then l else low v) comps Gray := by
  refine ⟨h.npos, h.white, h.sorted, h.svis, h.place, h.cvis, h.cnodup, h.cne, h.scc, h.gray, h.reach, h.toGray, h.closed, ?_, h.out, h.order⟩
  intro v hv
  by_cases hvu : v = u
  · subst hvu; simp only [if_true]; exact ⟨hl, hy⟩
  · simp only [hvu, if_false]; exact h.low v hv

/-- A vertex that is not the root of its component is left. -/
theorem TJInv.stay {n S idx low comps Gray} {u : String} (h : TJInv vs nbr n S idx low comps (u :: Gray)) (huS : u ∈ S) (hlt : low u ≠ idx u)
    (hnb : ∀ z ∈ nbr u, idx z ≠ -1) : TJInv vs nbr n S idx low comps Gray := by
  refine ⟨h.npos, h.white, h.sorted, h.svis, h.place, h.cvis, h.cnodup, h.cne, h.scc, fun v hv => h.gray v (by simp [hv]), h.reach, ?_, ?_, h.low,
    h.out, h.order⟩
  · have hu : ∃ x ∈ Gray, idx x ≤ idx u ∧ Reach nbr u x := by
      obtain ⟨h1, y, h2, h3, h4⟩ := h.low u huS
      obtain ⟨x, h5, h6, h7⟩ := h.toGray y h2
      rcases List.mem_cons.1 h5 with rfl | h5
      · omega
      · exact ⟨x, h5, by omega, h4.trans h7⟩
    intro y hy
    obtain ⟨x, h1, h2, h3⟩ := h.toGray y hy
    rcases List.mem_cons.1 h1 with rfl | h1
    · obtain ⟨z, h4, h5, h6⟩ := hu
      exact ⟨z, h4, by omega, h3.trans h6⟩
    · exact ⟨x, h1, h2, h3⟩
  · intro x hx hxg z hz
    by_cases hxu : x = u
    · exact hnb z (hxu ▸ hz)
    · exact h.closed x hx (by simp [hxu, hxg]) z hz

/-- The root of a component is left: the vertices above it are a component. -/
theorem TJInv.leave {n P S idx low comps Gray} {u : String} (h : TJInv vs nbr n (P ++ u :: S) idx low comps (u :: Gray)) (heq : low u = idx u)
    (hnb : ∀ z ∈ nbr u, idx z ≠ -1) (hgray : ∀ v ∈ Gray, v ∈ S) (he : ∀ x ∈ P ++ [u], ∀ q ∈ S, q ∈ nbr x → low u ≤ idx q) :
    TJInv vs nbr n S idx low (comps ++ [P ++ [u]]) Gray := by
  obtain ⟨sP, suS, sPS⟩ := List.pairwise_append.1 h.sorted
  obtain ⟨suS1, sS⟩ := List.pairwise_cons.1 suS
  have hC : ∀ x ∈ P ++ [u], x ∈ P ++ u :: S := by simp only [List.mem_append, List.mem_cons]; grind
  have hSS : ∀ x ∈ S, x ∈ P ++ u :: S := by simp only [List.mem_append, List.mem_cons]; grind
  have hCu : ∀ x ∈ P ++ [u], idx u ≤ idx x := by
    intro x hx
    rcases List.mem_append.1 hx with hx | hx
    · exact Int.le_of_lt (sPS x hx u (by simp))
    · simp at hx; rw [hx]; exact Int.le_refl _
  have hdisj : ∀ x ∈ P ++ [u], x ∉ S := by
    intro x hx hS
    have h1 := suS1 x hS
    have h2 := hCu x hx
    omega
  have hgu : ∀ x ∈ u :: Gray, Reach nbr x u := by
    intro x hx
    rcases List.mem_cons.1 hx with rfl | hx
    · exact Reach.refl _ _
    · exact h.reach x (hSS x (hgray x hx)) u (by simp) (Int.le_of_lt (suS1 x (hgray x hx)))
  have hto : ∀ x ∈ P ++ [u], Reach nbr u x ∧ Reach nbr x u := by
    intro x hx
    refine ⟨h.reach u (by simp) x (hC x hx) (hCu x hx), ?_⟩
    obtain ⟨g, h1, _, h3⟩ := h.toGray x (hC x hx)
    exact h3.trans (hgu g h1)
  -- whatever can be reached from the component and reaches it belongs to it
  have hmax : ∀ z, Reach nbr u z → Reach nbr z u → z ∈ P ++ [u] := by
    intro z huz
    have : ∀ z, Reach nbr u z → Reach nbr z u → z ∈ P ++ [u] := by
      intro z hz
      obtain ⟨m, hz⟩ := hz
      induction hz with
      | nil => intro _; simp
      | @snoc x q m hx hq ih =>
        intro hqu
        have hxC := ih (Reach.trans ⟨1, .snoc .nil hq⟩ hqu)
        have hxv := h.svis x (hC x hxC)
        have hqv : idx q ≠ -1 := by
          by_cases hxu : x = u
          · exact hnb q (hxu ▸ hq)
          · refine h.closed x hxv ?_ q hq
            intro hxg
            rcases List.mem_cons.1 hxg with e | hxg
            · exact hxu e
            · exact hdisj x hxC (hgray x hxg)
        rcases h.place q hqv with hqS | hqc
        · rcases List.mem_append.1 hqS with h1 | h1
          · exact List.mem_append_left _ h1
          · rcases List.mem_cons.1 h1 with h1 | h1
            · simp [h1]
            · have h2 := he x hxC q h1 hq
              have h3 := suS1 q h1
              omega
        · exfalso
          obtain ⟨C, hC1, hC2⟩ := List.mem_flatten.1 hqc
          have : u ∈ C := (h.scc C hC1 q hC2 u).2 ⟨hqu, (hto x hxC).1.trans ⟨1, .snoc .nil hq⟩⟩
          exact (h.cvis u (List.mem_flatten.2 ⟨C, hC1, this⟩)).2 (by simp)
    exact this z huz
  -- what has been completed is not left again
  have hold : ∀ x ∈ comps.flatten, ∀ y, Reach nbr x y → y ∈ comps.flatten := by
    intro x hx y hxy
    obtain ⟨m, hxy⟩ := hxy
    induction hxy with
    | nil => exact hx
    | @snoc x q m hx hq ih => exact h.out x ih q hq
  constructor
  · exact h.npos
  · exact h.white
  · exact sS
  · exact fun v hv => h.svis v (hSS v hv)
  · intro v hv
    rcases h.place v hv with h1 | h1
    · rcases List.mem_append.1 h1 with h1 | h1
      · right; simp [h1]
      · rcases List.mem_cons.1 h1 with h1 | h1
        · right; simp [h1]
        · exact Or.inl h1
    · right; simp only [List.flatten_append]; exact List.mem_append_left _ h1
  · intro v hv
    rw [List.flatten_append] at hv
    rcases List.mem_append.1 hv with h1 | h1
    · obtain ⟨h2, h3⟩ := h.cvis v h1
      exact ⟨h2, fun e => h3 (hSS v e)⟩
    · have h1 : v ∈ P ++ [u] := by simpa using h1
      exact ⟨h.svis v (hC v h1), hdisj v h1⟩
  · rw [List.flatten_append]
    refine List.nodup_append.2 ⟨h.cnodup, ?_, ?_⟩
    · have : (P ++ [u]).Nodup := by
        refine List.nodup_append.2 ⟨?_, by simp, ?_⟩
        · exact sP.imp fun hab e => by subst e; omega
        · intro a ha b hb e
          simp at hb
          have := sPS a ha u (by simp)
          rw [e, hb] at this
          omega
      simpa using this
    · intro a ha b hb e
      have hb : b ∈ P ++ [u] := by simpa using hb
      exact (h.cvis a ha).2 (e ▸ hC b hb)
  · intro C hC'
    rcases List.mem_append.1 hC' with h1 | h1
    · exact h.cne C h1
    · simp at h1; rw [h1]; simp
  · intro C hC'
    rcases List.mem_append.1 hC' with h1 | h1
    · exact h.scc C h1
    · have h1 : C = P ++ [u] := by simpa using h1
      subst h1
      intro x hx y
      obtain ⟨h2, h3⟩ := hto x hx
      constructor
      · intro hy
        obtain ⟨h4, h5⟩ := hto y hy
        exact ⟨h3.trans h4, h5.trans h2⟩
      · rintro ⟨h4, h5⟩
        exact hmax y (h2.trans h4) (h5.trans h3)
  · exact hgray
  · exact fun x hx y hy => h.reach x (hSS x hx) y (hSS y hy)
  · intro y hy
    obtain ⟨x, h1, h2, h3⟩ := h.toGray y (hSS y hy)
    rcases List.mem_cons.1 h1 with rfl | h1
    · have := suS1 y hy
      omega
    · exact ⟨x, h1, h2, h3⟩
  · intro x hx hxg z hz
    by_cases hxu : x = u
    · exact hnb z (hxu ▸ hz)
    · exact h.closed x hx (by simp [hxu, hxg]) z hz
  · intro v hv
    obtain ⟨h1, y, h2, h3, h4⟩ := h.low v (hSS v hv)
    refine ⟨h1, y, ?_, h3, h4⟩
    have hv1 := suS1 v hv
    rcases List.mem_append.1 h2 with h2 | h2
    · have := hCu y (by simp [h2]); omega
    · rcases List.mem_cons.1 h2 with h2 | h2
      · subst h2; omega
      · exact h2
  · intro x hx z hz
    rw [List.flatten_append] at hx ⊢
    rcases List.mem_append.1 hx with hx | hx
    · exact List.mem_append_left _ (h.out x hx z hz)
    · have hx : x ∈ P ++ [u] := by simpa using hx
      have hxv := h.svis x (hC x hx)
      have hzv : idx z ≠ -1 := by
        by_cases hxu : x = u
        · exact hnb z (hxu ▸ hz)
        · refine h.closed x hxv ?_ z hz
          intro hxg
          rcases List.mem_cons.1 hxg with e | hxg
          · exact hxu e
          · exact hdisj x hx (hgray x hxg)
      rcases h.place z hzv with hzS | hzc
      · refine List.mem_append_right _ ?_
        have : z ∈ P ++ [u] := by
          rcases List.mem_append.1 hzS with h1 | h1
          · exact List.mem_append_left _ h1
          · rcases List.mem_cons.1 h1 with h1 | h1
            · simp [h1]
            · have h2 := he x hx z h1 hz
              have h3 := suS1 z h1
              omega
        simpa using this
      · exact List.mem_append_left _ hzc
  · refine List.pairwise_append.2 ⟨h.order, by simp, ?_⟩
    intro C hC' D hD x hx y hy hxy
    have hD : D = P ++ [u] := by simpa using hD
    subst hD
    exact (h.cvis y (hold x (List.mem_flatten.2 ⟨C, hC', hx⟩) y hxy)).2 (hC y hy)

theorem tjPop_eq {u : String} (hu : u ∈ vs) : ∀ (P S : List String) (on : String → Bool) (c : List String), u ∉ P → (∀ x ∈ P, x ∈ vs) →
    tjPop u (P ++ u :: S) (dictOf vs on) c = (S, dictOf vs (fun v => if v ∈ P ++ [u] then false else on v), c ++ (P ++ [u])) := by
  intro P
  induction P with
  | nil =>
    intro S on c _ _
    simp only [List.nil_append, tjPop, if_true, dictOf_set hu]
    simp
  | cons w P ih =>
    intro S on c h1 h2
    have hw : w ≠ u := fun e => h1 (by simp [e])
    rw [List.cons_append, tjPop, if_neg hw, dictOf_set (h2 w (by simp)), ih S _ _ (fun e => h1 (by simp [e])) (fun x hx => h2 x (by simp [hx]))]
    refine Prod.ext rfl (Prod.ext ?_ (by simp))
    simp only
    congr 1
    funext v
    by_cases hv : v ∈ P ++ [u]
    · have : v ∈ w :: (P ++ [u]) := by simp only [List.mem_cons]; exact Or.inr hv
      simp only [hv, this, List.cons_append, if_true]
    · by_cases hvw : v = w
      · subst hvw; simp
      · have : v ∉ w :: (P ++ [u]) := by simp only [List.mem_cons, not_or]; exact ⟨hvw, hv⟩
        simp only [hv, hvw, this, List.cons_append, if_false]

/-- The number of vertices not yet visited. -/
def unvisited (vs : List String) (idx : String → Int) : Nat := (vs.filter fun v => idx v = -1).length

theorem unvisited_mono {idx idx' : String → Int} (h : ∀ v, idx v ≠ -1 → idx' v ≠ -1) : ∀ vs, unvisited vs idx' ≤ unvisited vs idx := by
  intro vs
  induction vs with
  | nil => simp [unvisited]
  | cons a l ih =>
    simp only [unvisited, List.filter_cons] at ih ⊢
    by_cases h1 : idx a = -1
    · simp only [h1, decide_true, if_true, List.length_cons]
      split
      · simp only [List.length_cons]; omega
      · omega
    · have := h a h1
      simp only [h1, this, decide_false, Bool.false_eq_true, if_false]
      exact ih

theorem unvisited_lt {idx idx' : String → Int} (h : ∀ v, idx v ≠ -1 → idx' v ≠ -1) {u : String} (h1 : idx u = -1) (h2 : idx' u ≠ -1) :
    ∀ vs, u ∈ vs → unvisited vs idx' + 1 ≤ unvisited vs idx := by
  intro vs
  induction vs with
  | nil => intro h; cases h
  | cons a l ih =>
    intro hu
    by_cases ha : a = u
    · subst ha
      have := unvisited_mono h l
      simp only [unvisited, List.filter_cons] at this ⊢
      simp [h1, h2]
      exact this
    · have := ih (by rcases List.mem_cons.1 hu with e | e; exact absurd e.symm ha; exact e)
      simp only [unvisited, List.filter_cons] at this ⊢
      by_cases h3 : idx a = -1
      · simp only [h3, decide_true, if_true, List.length_cons]
        split
        · simp only [List.length_cons]; omega
        · omega
      · have h4 := h a h3
        simp only [h3, h4, decide_false, Bool.false_eq_true, if_false]
        exact this

/-- What a call for the vertex `u` does. -/
structure TJPost (nbr : String → List String) (u : String) (n : Int) (S : List String) (idx low : String → Int) (S' : List String)
    (idx' low' : String → Int) : Prop where
  stack : ∃ P, S' = P ++ S ∧ (∀ x ∈ P, idx x = -1) ∧ ∀ x ∈ P, ∀ q ∈ S, q ∈ nbr x → low' u ≤ idx q
  kept : ∀ v, idx v ≠ -1 → idx' v = idx v ∧ low' v = low v
  vis : n ≤ idx' u
  done : u ∉ S' → low' u = idx' u

theorem tjEnter_rep {st : Tarjan} {n S idx low comps} (h : TJRep vs st n S idx low comps) {u : String} (hu : u ∈ vs) :
    TJRep vs (tjEnter u st) (n + 1) (u :: S) (fun v => if v = u then n else idx v) (fun v => if v = u then n else low v) comps := by
  refine ⟨by simp [tjEnter, h.index], by simp [tjEnter, h.stack], ?_, ?_, ?_, h.comps⟩
  · simp only [tjEnter, h.indices, h.index]; exact dictOf_set hu _
  · simp only [tjEnter, h.lowLinks, h.index]; exact dictOf_set hu _
  · simp only [tjEnter, h.onStacks]
    rw [dictOf_set hu]
    congr 1
    funext v
    by_cases hv : v = u
    · simp [hv]
    · simp [hv]

theorem tjLower_rep {st : Tarjan} {n S idx low comps} (h : TJRep vs st n S idx low comps) {u v : String} (hu : u ∈ vs) (hv : v ∈ vs) :
    ∃ st', tjLower u v st = .ok st' ∧
      TJRep vs st' n S idx (fun w => if w = u then (if low v < low u then low v else low u) else low w) comps := by
  refine ⟨{ st with lowLinks := st.lowLinks.set u (if low v < low u then low v else low u) }, ?_, h.index, h.stack, h.indices, ?_, h.onStacks, h.comps⟩
  · simp only [tjLower, h.lowLinks, dictOf_get hu, dictOf_get hv, ok_bind]
  · simp only [h.lowLinks]; exact dictOf_set hu _

/-- The loop over the neighbours of `u`: the state after the neighbours in `done`. The call of `u` began with `n0`, `S0`, `idx0`, `low0`. -/
structure TJLoop (vs : List String) (nbr : String → List String) (u : String) (Gray : List String) (n0 : Int) (S0 : List String) (idx0 low0 : String → Int)
    (done : List String) (n : Int) (S : List String) (idx low : String → Int) (comps : List (List String)) : Prop where
  inv : TJInv vs nbr n S idx low comps (u :: Gray)
  stack : ∃ P, S = P ++ u :: S0 ∧ (∀ x ∈ P, idx0 x = -1) ∧ ∀ x ∈ P, ∀ q ∈ S0, q ∈ nbr x → low u ≤ idx0 q
  kept : ∀ v, idx0 v ≠ -1 → idx v = idx0 v ∧ low v = low0 v
  idxu : idx u = n0
  seen : ∀ q ∈ done, idx q ≠ -1 ∧ (q ∈ S0 → low u ≤ idx0 q)

/-- The specification of the recursive call, for states with at most `N` unvisited vertices. -/
def TJSpec (vs : List String) (nbr : String → List String) (nb : String → PyM (List String)) (N : Nat) : Prop :=
  ∀ (u : String) (st : Tarjan) n S idx low comps Gray, u ∈ vs → idx u = -1 → unvisited vs idx ≤ N → TJRep vs st n S idx low comps →
    TJInv vs nbr n S idx low comps Gray → (∀ x ∈ S, Reach nbr x u) →
    ∃ st' n' S' idx' low' comps', (∀ fuel, N ≤ fuel → tarjanDfs nb fuel u st = .ok st') ∧ TJRep vs st' n' S' idx' low' comps' ∧
      TJInv vs nbr n' S' idx' low' comps' Gray ∧ TJPost nbr u n S idx low S' idx' low'

/-- One neighbour. -/
theorem tjNeighbor_spec (hg : FinGraph vs nbr) {N : Nat} (ih : TJSpec vs nbr nb N) {u : String} (hu : u ∈ vs) {Gray : List String} {n0 : Int}
    {S0 : List String} {idx0 low0 : String → Int} (hS0 : ∀ x ∈ S0, idx0 x ≠ -1 ∧ idx0 x < n0) (hgray : ∀ x ∈ Gray, x ∈ S0) (hu0 : idx0 u = -1)
    (hN : unvisited vs idx0 ≤ N + 1)
    {done : List String} {st : Tarjan} {n S idx low comps} (hr : TJRep vs st n S idx low comps) (h : TJLoop vs nbr u Gray n0 S0 idx0 low0 done n S idx low comps)
    {v : String} (hv : v ∈ nbr u) :
    ∃ st' n' S' idx' low' comps', (∀ fuel, N ≤ fuel → tjNeighbor (tarjanDfs nb fuel) u v st = .ok st') ∧ TJRep vs st' n' S' idx' low' comps' ∧
      TJLoop vs nbr u Gray n0 S0 idx0 low0 (done ++ [v]) n' S' idx' low' comps' := by
  have hvv := hg.closed u hu v hv
  obtain ⟨P, hS, hP, hPe⟩ := h.stack
  have huS : u ∈ S := by rw [hS]; simp
  have hsort : (P ++ u :: S0).Pairwise fun a b => idx b < idx a := hS ▸ h.inv.sorted
  obtain ⟨sP, suS, sPS⟩ := List.pairwise_append.1 hsort
  have hlowu := h.inv.low u huS
  have hS0S : ∀ x ∈ S0, x ∈ S := by rw [hS]; intro x hx; simp [hx]
  have hidx0 : ∀ x ∈ S0, idx x = idx0 x := fun x hx => (h.kept x (hS0 x hx).1).1
  by_cases hi : idx v = -1
  · -- the recursive call
    have hreach : ∀ x ∈ S, Reach nbr x v := by
      intro x hx
      obtain ⟨g, h1, _, h3⟩ := h.inv.toGray x hx
      have : Reach nbr g u := by
        rcases List.mem_cons.1 h1 with rfl | h1
        · exact Reach.refl _ _
        · have h4 := hgray g h1
          have h5 := (hS0 g h4).2
          have h6 := hidx0 g h4
          refine h.inv.reach g (hS0S g h4) u huS ?_
          rw [h6, h.idxu]; omega
      exact (h3.trans this).snoc hv
    have hmono : ∀ w, idx0 w ≠ -1 → idx w ≠ -1 := fun w hw => by rw [(h.kept w hw).1]; exact hw
    have hle := unvisited_lt hmono hu0 (h.inv.svis u huS) vs hu
    obtain ⟨st1, n1, S1, idx1, low1, comps1, e1, hr1, hI1, hp1⟩ := ih v st n S idx low comps (u :: Gray) hvv hi (by omega) hr h.inv hreach
    obtain ⟨st2, e2, hr2⟩ := tjLower_rep hr1 hu hvv
    obtain ⟨P1, hS1, hP1, hPe1⟩ := hp1.stack
    have hiu : idx1 u = idx u := (hp1.kept u (h.inv.svis u huS)).1
    have hlu : low1 u = low u := (hp1.kept u (h.inv.svis u huS)).2
    have hun : idx u < n := by
      rcases h.inv.white u with h1 | h1
      · exact absurd h1 (h.inv.svis u huS)
      · exact h1.2.1
    have hpop : v ∉ S1 → ¬ low1 v < low1 u := by
      intro hv1
      have h1 := hp1.done hv1
      have h2 := hp1.vis
      have h3 := hlowu.1
      omega
    have huS1 : u ∈ S1 := by rw [hS1]; simp [huS]
    let l := if low1 v < low1 u then low1 v else low1 u
    have hl : l ≤ idx1 u ∧ ∃ y ∈ S1, idx1 y = l ∧ Reach nbr u y := by
      by_cases hlt : low1 v < low1 u
      · have hv1 : v ∈ S1 := Classical.byContradiction fun e => hpop e hlt
        obtain ⟨h1, y, h2, h3, h4⟩ := hI1.low v hv1
        have h5 := (hI1.low u huS1).1
        refine ⟨?_, y, h2, ?_, ?_⟩
        · simp only [l, hlt, if_true]; omega
        · simp only [l, hlt, if_true]; exact h3
        · exact Reach.trans ⟨1, .snoc .nil hv⟩ h4
      · have := hI1.low u huS1
        simp only [l, hlt, if_false]
        exact this
    have hll : l ≤ low u := by simp only [l]; split <;> omega
    have hll' : l ≤ low1 v := by simp only [l]; split <;> omega
    refine ⟨st2, n1, S1, idx1, _, comps1, ?_, hr2, hI1.lower hl.1 hl.2, ⟨P1 ++ P, ?_, ?_, ?_⟩, ?_, by rw [hiu]; exact h.idxu, ?_⟩
    · intro fuel hf
      rw [tjNeighbor, hr.indices, dictOf_get hvv, ok_bind, if_pos hi, e1 fuel hf, ok_bind, e2]
    · rw [hS1, hS]; simp
    · intro x hx
      rcases List.mem_append.1 hx with hx | hx
      · by_cases h0 : idx0 x = -1
        · exact h0
        · exact absurd (hP1 x hx) (hmono x h0)
      · exact hP x hx
    · intro x hx q hq hqx
      simp only [if_true]
      rcases List.mem_append.1 hx with hx | hx
      · have := hPe1 x hx q (hS0S q hq) hqx
        rw [hidx0 q hq] at this
        exact Int.le_trans hll' this
      · exact Int.le_trans hll (hPe x hx q hq hqx)
    · intro w hw
      have hwu : w ≠ u := fun e => hw (e ▸ hu0)
      obtain ⟨h1, h2⟩ := h.kept w hw
      obtain ⟨h3, h4⟩ := hp1.kept w (hmono w hw)
      simp only [hwu, if_false]
      exact ⟨h3.trans h1, h4.trans h2⟩
    · intro q hq
      simp only [if_true]
      rcases List.mem_append.1 hq with hq | hq
      · obtain ⟨h1, h2⟩ := h.seen q hq
        exact ⟨by rw [(hp1.kept q h1).1]; exact h1, fun hq0 => Int.le_trans hll (h2 hq0)⟩
      · have hq : q = v := by simpa using hq
        subst hq
        refine ⟨?_, fun hq0 => absurd hi (hmono q (hS0 q hq0).1)⟩
        have := hp1.vis
        have := h.inv.npos
        omega
  · by_cases hon : v ∈ S
    · obtain ⟨st2, e2, hr2⟩ := tjLower_rep hr hu hvv
      have hlv := h.inv.low v hon
      let l := if low v < low u then low v else low u
      have hl : l ≤ idx u ∧ ∃ y ∈ S, idx y = l ∧ Reach nbr u y := by
        by_cases hlt : low v < low u
        · obtain ⟨h1, y, h2, h3, h4⟩ := hlv
          have := hlowu.1
          simp only [l, hlt, if_true]
          exact ⟨by omega, y, h2, h3, Reach.trans ⟨1, .snoc .nil hv⟩ h4⟩
        · simp only [l, hlt, if_false]; exact hlowu
      have hll : l ≤ low u := by simp only [l]; split <;> omega
      have hll' : l ≤ low v := by simp only [l]; split <;> omega
      refine ⟨st2, n, S, idx, _, comps, ?_, hr2, h.inv.lower hl.1 hl.2, ⟨P, hS, hP, ?_⟩, ?_, h.idxu, ?_⟩
      · intro fuel _
        rw [tjNeighbor, hr.indices, dictOf_get hvv, ok_bind, if_neg hi, hr.onStacks, dictOf_get hvv, ok_bind, if_pos (by simpa using hon), e2]
      · intro x hx q hq hqx
        simp only [if_true]
        exact Int.le_trans hll (hPe x hx q hq hqx)
      · intro w hw
        have hwu : w ≠ u := fun e => hw (e ▸ hu0)
        simp only [hwu, if_false]
        exact h.kept w hw
      · intro q hq
        simp only [if_true]
        rcases List.mem_append.1 hq with hq | hq
        · obtain ⟨h1, h2⟩ := h.seen q hq
          exact ⟨h1, fun hq0 => Int.le_trans hll (h2 hq0)⟩
        · have hq : q = v := by simpa using hq
          subst hq
          refine ⟨hi, fun hq0 => ?_⟩
          have := hlv.1
          rw [← hidx0 q hq0]
          exact Int.le_trans hll' this
    · refine ⟨st, n, S, idx, low, comps, ?_, hr, h.inv, h.stack, h.kept, h.idxu, ?_⟩
      · intro fuel _
        rw [tjNeighbor, hr.indices, dictOf_get hvv, ok_bind, if_neg hi, hr.onStacks, dictOf_get hvv, ok_bind, if_neg (by simpa using hon)]
      · intro q hq
        rcases List.mem_append.1 hq with hq | hq
        · exact h.seen q hq
        · have hq : q = v := by simpa using hq
          subst hq
          exact ⟨hi, fun hq0 => absurd (hS0S q hq0) hon⟩

theorem tarjanDfs_spec (hg : FinGraph vs nbr) (hnb : ∀ v ∈ vs, nb v = .ok (nbr v)) : ∀ N, TJSpec vs nbr nb N := by
  intro N
  induction N with
  | zero =>
    intro u st n S idx low comps Gray hu hw hN
    exfalso
    have : u ∈ vs.filter fun v => idx v = -1 := List.mem_filter.2 ⟨hu, by simp [hw]⟩
    have := List.length_pos_of_mem this
    simp only [unvisited] at hN
    omega
  | succ N ih =>
    intro u st n S idx low comps Gray hu hw hN hr hI hre
    have hn := hI.npos
    have hSn : ∀ x ∈ S, idx x ≠ -1 ∧ idx x < n := fun x hx => by
      refine ⟨hI.svis x hx, ?_⟩
      rcases hI.white x with h | h
      · exact absurd h (hI.svis x hx)
      · exact h.2.1
    have hL0 : TJLoop vs nbr u Gray n S idx low [] (n + 1) (u :: S) (fun v => if v = u then n else idx v) (fun v => if v = u then n else low v) comps := by
      refine ⟨hI.enter hu hw hre, ⟨[], rfl, by simp, by simp⟩, ?_, by simp, by simp⟩
      intro v hv
      have : v ≠ u := fun e => hv (e ▸ hw)
      simp [this]
    have loop : ∀ (ns done : List String) (st : Tarjan) n' S' idx' low' comps', (∀ v ∈ ns, v ∈ nbr u) → TJRep vs st n' S' idx' low' comps' →
        TJLoop vs nbr u Gray n S idx low done n' S' idx' low' comps' →
        ∃ st2 n2 S2 idx2 low2 comps2, (∀ fuel, N ≤ fuel → forList ns st (fun v st => tjNeighbor (tarjanDfs nb fuel) u v st) = .ok st2) ∧
          TJRep vs st2 n2 S2 idx2 low2 comps2 ∧ TJLoop vs nbr u Gray n S idx low (done ++ ns) n2 S2 idx2 low2 comps2 := by
      intro ns
      induction ns with
      | nil => intro done st n' S' idx' low' comps' _ hr h; exact ⟨st, n', S', idx', low', comps', fun _ _ => rfl, hr, by simpa using h⟩
      | cons v ns ihn =>
        intro done st n' S' idx' low' comps' hns hr h
        obtain ⟨st1, n1, S1, idx1, low1, comps1, e1, r1, l1⟩ := tjNeighbor_spec hg ih hu hSn hI.gray hw hN hr h (hns v (by simp))
        obtain ⟨st2, n2, S2, idx2, low2, comps2, e2, r2, l2⟩ := ihn (done ++ [v]) st1 n1 S1 idx1 low1 comps1 (fun x hx => hns x (by simp [hx])) r1 l1
        refine ⟨st2, n2, S2, idx2, low2, comps2, fun fuel hf => ?_, r2, by simpa using l2⟩
        rw [forList, e1 fuel hf, ok_bind, e2 fuel hf]
    obtain ⟨st2, n2, S2, idx2, low2, comps2, e2, r2, l2⟩ := loop (nbr u) [] _ _ _ _ _ _ (fun _ h => h) (tjEnter_rep hr hu) hL0
    rw [List.nil_append] at l2
    obtain ⟨P, hS2, hP, hPe⟩ := l2.stack
    have hnbv : ∀ z ∈ nbr u, idx2 z ≠ -1 := fun z hz => (l2.seen z hz).1
    have hlast : ∀ st', tjLeave u st2 = .ok st' → ∀ fuel, N + 1 ≤ fuel → tarjanDfs nb fuel u st = .ok st' := by
      intro st' he fuel hf
      obtain ⟨f, rfl⟩ : ∃ f, fuel = f + 1 := ⟨fuel - 1, by omega⟩
      rw [tarjanDfs, hnb u hu, ok_bind, e2 f (by omega), ok_bind, he]
    have huS2 : u ∈ S2 := by rw [hS2]; simp
    have hvs : ∀ x ∈ S2, x ∈ vs := fun x hx => by
      rcases l2.inv.white x with h | h
      · exact absurd h (l2.inv.svis x hx)
      · exact h.2.2
    have hedges : ∀ x ∈ P ++ [u], ∀ q ∈ S, q ∈ nbr x → low2 u ≤ idx q := by
      intro x hx q hq hqx
      rcases List.mem_append.1 hx with hx | hx
      · exact hPe x hx q hq hqx
      · have hx : x = u := by simpa using hx
        subst hx
        exact (l2.seen q hqx).2 hq
    by_cases heq : low2 u = idx2 u
    · have hsort : (P ++ u :: S).Pairwise fun a b => idx2 b < idx2 a := hS2 ▸ l2.inv.sorted
      obtain ⟨_, suS, sPS⟩ := List.pairwise_append.1 hsort
      have huP : u ∉ P := fun h => by have := sPS u h u (by simp); omega
      have hpop := tjPop_eq hu P S (fun v => decide (v ∈ S2)) [] huP (fun x hx => hvs x (by rw [hS2]; simp [hx]))
      refine ⟨{ st2 with stack := S, onStacks := dictOf vs (fun v => if v ∈ P ++ [u] then false else decide (v ∈ S2)),
                         components := st2.components ++ [P ++ [u]] }, n2, S, idx2, low2, comps2 ++ [P ++ [u]], ?_, ?_, ?_, ?_⟩
      · refine hlast _ ?_
        rw [tjLeave, r2.lowLinks, dictOf_get hu, ok_bind, r2.indices, dictOf_get hu, ok_bind, if_pos heq, r2.stack, r2.onStacks]
        conv => lhs; rw [hS2]
        rw [← hS2, hS2, ← hS2]
        rw [show tjPop u S2 (dictOf vs fun v => decide (v ∈ S2)) [] = tjPop u (P ++ u :: S) (dictOf vs fun v => decide (v ∈ S2)) [] by rw [← hS2], hpop]
        rfl
      · refine ⟨r2.index, rfl, r2.indices, r2.lowLinks, ?_, by simp [r2.comps]⟩
        simp only
        congr 1
        funext v
        by_cases hv : v ∈ P ++ [u]
        · rw [if_pos hv]
          symm
          rw [decide_eq_false_iff_not]
          intro hvS
          rcases List.mem_append.1 hv with h1 | h1
          · have := sPS v h1 v (by simp [hvS]); omega
          · have h1 : v = u := by simpa using h1
            subst h1
            have := (List.pairwise_cons.1 suS).1 v hvS
            omega
        · rw [if_neg hv, hS2]
          have : (v ∈ P ++ u :: S) ↔ v ∈ S := by
            simp only [List.mem_append, List.mem_singleton, not_or] at hv
            simp [hv.1, hv.2]
          simp only [this]
      · have h1 := l2.inv
        rw [hS2] at h1
        refine h1.leave heq hnbv hI.gray ?_
        intro x hx q hq hqx
        rw [(l2.kept q (hSn q hq).1).1]
        exact hedges x hx q hq hqx
      · refine ⟨⟨[], rfl, by simp, by simp⟩, l2.kept, ?_, fun _ => heq⟩
        rw [l2.idxu]; exact Int.le_refl _
    · refine ⟨st2, n2, S2, idx2, low2, comps2, ?_, r2, l2.inv.stay huS2 heq hnbv, ?_⟩
      · refine hlast _ ?_
        rw [tjLeave, r2.lowLinks, dictOf_get hu, ok_bind, r2.indices, dictOf_get hu, ok_bind, if_neg heq]
      · refine ⟨⟨P ++ [u], by rw [hS2]; simp, ?_, hedges⟩, l2.kept, by rw [l2.idxu]; exact Int.le_refl _, fun h => absurd huS2 h⟩
        intro x hx
        rcases List.mem_append.1 hx with hx | hx
        · exact hP x hx
        · have hx : x = u := by simpa using hx
          rw [hx]; exact hw

/-- C69 and C149 in one: the call returns the partition of the vertices into the classes of mutual reachability, and no vertex of a class can
reach one of a later class. -/
theorem tarjan_spec (hg : FinGraph vs nbr) (hnb : ∀ v ∈ vs, nb v = .ok (nbr v)) :
    ∃ cs, EndsWith (fun fuel => tarjan vs nb fuel) (.ok cs) ∧ SccPartition vs nbr cs ∧
      cs.Pairwise fun C D => ∀ x ∈ C, ∀ y ∈ D, ¬ Reach nbr x y := by
  have h0 : TJInv vs nbr 0 [] (fun _ => -1) (fun _ => -1) [] [] := by
    constructor <;> simp
  have r0 : TJRep vs (tjInit vs) 0 [] (fun _ => -1) (fun _ => -1) [] := by
    refine ⟨rfl, rfl, rfl, rfl, ?_, rfl⟩
    simp only [tjInit]; rw [dictOf_const]; simp
  have loop : ∀ (us : List String) (st : Tarjan) n S idx low comps, (∀ u ∈ us, u ∈ vs) → TJRep vs st n S idx low comps →
      TJInv vs nbr n S idx low comps [] →
      ∃ st' n' S' idx' low' comps', (∀ fuel, vs.length ≤ fuel → forList us st (fun u st => tjRoot nb fuel u st) = .ok st') ∧
        TJRep vs st' n' S' idx' low' comps' ∧ TJInv vs nbr n' S' idx' low' comps' [] ∧ (∀ v, idx v ≠ -1 → idx' v ≠ -1) ∧ ∀ u ∈ us, idx' u ≠ -1 := by
    intro us
    induction us with
    | nil => intro st n S idx low comps _ r h; exact ⟨st, n, S, idx, low, comps, fun _ _ => rfl, r, h, fun _ h => h, by simp⟩
    | cons u us ih =>
      intro st n S idx low comps hus r h
      have hu := hus u (by simp)
      have hemp : S = [] := by
        cases hS : S with
        | nil => rfl
        | cons a l =>
          obtain ⟨x, h1, _⟩ := h.toGray a (by rw [hS]; simp)
          cases h1
      have hone : ∃ st1 n1 S1 idx1 low1 comps1, (∀ fuel, vs.length ≤ fuel → tjRoot nb fuel u st = .ok st1) ∧ TJRep vs st1 n1 S1 idx1 low1 comps1 ∧
          TJInv vs nbr n1 S1 idx1 low1 comps1 [] ∧ (∀ v, idx v ≠ -1 → idx1 v ≠ -1) ∧ idx1 u ≠ -1 := by
        by_cases hw : idx u = -1
        · obtain ⟨st1, n1, S1, idx1, low1, comps1, e1, r1, i1, p1⟩ := tarjanDfs_spec hg hnb vs.length u st n S idx low comps [] hu hw
            (List.length_filter_le _ _) r h (by rw [hemp]; simp)
          refine ⟨st1, n1, S1, idx1, low1, comps1, ?_, r1, i1, ?_, ?_⟩
          · intro fuel hf
            rw [tjRoot, r.indices, dictOf_get hu, ok_bind, if_pos hw, e1 fuel hf]
          · intro v hv; rw [(p1.kept v hv).1]; exact hv
          · have := p1.vis
            have := h.npos
            omega
        · refine ⟨st, n, S, idx, low, comps, ?_, r, h, fun _ h => h, hw⟩
          intro fuel _
          rw [tjRoot, r.indices, dictOf_get hu, ok_bind, if_neg hw]
      obtain ⟨st1, n1, S1, idx1, low1, comps1, e1, r1, i1, m1, v1⟩ := hone
      obtain ⟨st2, n2, S2, idx2, low2, comps2, e2, r2, i2, m2, v2⟩ := ih st1 n1 S1 idx1 low1 comps1 (fun x hx => hus x (by simp [hx])) r1 i1
      refine ⟨st2, n2, S2, idx2, low2, comps2, ?_, r2, i2, fun v hv => m2 v (m1 v hv), ?_⟩
      · intro fuel hf; rw [forList, e1 fuel hf, ok_bind, e2 fuel hf]
      · intro x hx
        rcases List.mem_cons.1 hx with rfl | hx
        · exact m2 x v1
        · exact v2 x hx
  obtain ⟨st, n, S, idx, low, comps, e, r, h, _, hv⟩ := loop vs (tjInit vs) _ _ _ _ _ (fun _ h => h) r0 h0
  have hemp : S = [] := by
    cases hS : S with
    | nil => rfl
    | cons a l =>
      obtain ⟨x, h1, _⟩ := h.toGray a (by rw [hS]; simp)
      cases h1
  refine ⟨comps, ⟨vs.length, fun fuel hf => ?_⟩, ⟨?_, h.cne, h.scc⟩, h.order⟩
  · show tarjan vs nb fuel = _
    rw [tarjan, e fuel hf, ok_bind, r.comps]
  · refine (List.perm_ext_iff_of_nodup h.cnodup hg.nodup).2 fun v => ⟨fun hc => ?_, fun hvs => ?_⟩
    · rcases h.white v with h1 | h1
      · exact absurd h1 (h.cvis v hc).1
      · exact h1.2.2
    · rcases h.place v (hv v hvs) with h1 | h1
      · rw [hemp] at h1; cases h1
      · exact h1

/-- **C69.** The call returns the partition of the vertices into the classes of mutual reachability. -/
theorem C69_tarjan (hg : FinGraph vs nbr) (hnb : ∀ v ∈ vs, nb v = .ok (nbr v)) :
    ∃ cs, EndsWith (fun fuel => tarjan vs nb fuel) (.ok cs) ∧ SccPartition vs nbr cs := by
  obtain ⟨cs, e, h, _⟩ := tarjan_spec hg hnb
  exact ⟨cs, e, h⟩

end

/-! ## Non-vacuity: a cycle of three vertices, a cycle of two, and a single vertex -/

def exScc : String → List String := fun x =>
  if x = "a" then ["b"] else if x = "b" then ["c", "d"] else if x = "c" then ["a", "f"] else if x = "d" then ["e"] else if x = "e" then ["d", "f"] else []

example : FinGraph ["a", "b", "c", "d", "e", "f"] exScc := ⟨by decide +kernel, by decide +kernel, by decide +kernel⟩
example : tarjan ["a", "b", "c", "d", "e", "f"] (fun x => .ok (exScc x)) 10 = .ok [["f"], ["e", "d"], ["c", "b", "a"]] := by decide +kernel

end Props
