import Verif.Model.ShortestPaths
import Verif.WeightSpec
import Verif.Props.GraphMatrix
import Verif.Props.Kahn
import Verif.Lemmas.Lists

/-! # C65: Bellman-Ford -/
namespace Props
open Py Model Spec

/-- The observations that the shortest path algorithms make of a graph are those of the weighted digraph `wt`. -/
structure WGraph (vertices : List String) (neighbors : String → PyM (List String)) (weights : String → Option GEdge)
    (wt : String → String → Option Int) : Prop where
  nodup : vertices.Nodup
  ends : ∀ u v x, wt u v = some x → u ∈ vertices ∧ v ∈ vertices
  nbrs : ∀ v ∈ vertices, ∃ l, neighbors v = .ok l ∧ ∀ w, w ∈ l ↔ (wt v w).isSome
  get : ∀ u ∈ vertices, ∀ v ∈ vertices, weights (u ++ "_" ++ v) = (wt u v).map fun x => ⟨u, v, x⟩

/-- The dictionary with the given keys and values. -/
def dictOf {β : Type} (ks : List String) (f : String → β) : PyDict String β := ⟨ks, fun v => if v ∈ ks then some (f v) else none⟩

theorem dictOf_get {β : Type} {ks : List String} {f : String → β} {v : String} (h : v ∈ ks) : (dictOf ks f).get v = .ok (f v) := by
  simp [dictOf, PyDict.get, h]

theorem dictOf_set {β : Type} {ks : List String} {f : String → β} {v : String} (h : v ∈ ks) (b : β) :
    (dictOf ks f).set v b = dictOf ks (fun u => if u = v then b else f u) := by
  simp only [dictOf, PyDict.set, h, if_true, Option.isSome_some]
  congr 1
  funext j
  by_cases hj : j = v
  · subst hj; simp [h]
  · simp [hj]

theorem dictOf_const {β : Type} (ks : List String) (b : β) : PyDict.const ks b = dictOf ks (fun _ => b) := rfl

section
variable {vs : List String} {nb : String → PyM (List String)} {ws : String → Option GEdge} {wt : String → String → Option Int} {src : String}

/-- A history of labels, the latest first: a walk from the source such that a vertex that occurs again has a smaller label, and no label is below
the present one. -/
inductive LabelTrail (vs : List String) (wt : String → String → Option Int) (src : String) (D : String → Option Int) : List (String × Int) → Prop
  | start {d} : src ∈ vs → D src = some d → d ≤ 0 → LabelTrail vs wt src D [(src, 0)]
  | step {u v : String} {a x d : Int} {l} : LabelTrail vs wt src D ((u, a) :: l) → wt u v = some x → v ∈ vs → D v = some d → d ≤ a + x →
      (∀ b, (v, b) ∈ (u, a) :: l → a + x < b) → LabelTrail vs wt src D ((v, a + x) :: (u, a) :: l)

theorem LabelTrail.mono {D D' : String → Option Int} (h : ∀ v d, D v = some d → ∃ d', D' v = some d' ∧ d' ≤ d) {l} (t : LabelTrail vs wt src D l) :
    LabelTrail vs wt src D' l := by
  induction t with
  | start hv hd hle =>
    obtain ⟨d', h1, h2⟩ := h _ _ hd
    exact .start hv h1 (by omega)
  | step _ hx hv hd hle hn ih =>
    obtain ⟨d', h1, h2⟩ := h _ _ hd
    exact .step ih hx hv h1 (by omega) hn

theorem LabelTrail.walk {D : String → Option Int} {l} (t : LabelTrail vs wt src D l) : ∀ v c l', l = (v, c) :: l' → WalkW wt src v c := by
  induction t with
  | start hv hd hle => intro v c l' e; cases e; exact .nil
  | step _ hx _ _ _ _ ih => intro v c l' e; cases e; exact (ih _ _ _ rfl).snoc hx

theorem LabelTrail.labels {D : String → Option Int} {l} (t : LabelTrail vs wt src D l) : ∀ v c, (v, c) ∈ l → ∃ d, D v = some d ∧ d ≤ c ∧ v ∈ vs := by
  induction t with
  | start hv hd hle => intro v c e; simp at e; rw [e.1, e.2]; exact ⟨_, hd, hle, hv⟩
  | step _ hx hv hd hle hn ih =>
    intro v c e
    rcases List.mem_cons.1 e with e | e
    · injection e with e1 e2; rw [e1, e2]; exact ⟨_, hd, hle, hv⟩
    · exact ih v c e

/-- From an earlier label to the latest there is a walk. -/
theorem LabelTrail.suffix {D : String → Option Int} {l} (t : LabelTrail vs wt src D l) : ∀ v c l', l = (v, c) :: l' → ∀ u b, (u, b) ∈ l → WalkW wt u v (c - b) := by
  induction t with
  | start hv hd hle =>
    intro v c l' e u b hu
    cases e
    simp at hu
    rw [hu.1, hu.2]
    exact .nil
  | @step u' v' a x d l0 _ hx hv hd hle hn ih =>
    intro v c l' e u b hu
    cases e
    rcases List.mem_cons.1 hu with e | e
    · injection e with e1 e2; rw [e1, e2, Int.sub_self]; exact .nil
    · have := (ih _ _ _ rfl u b e).snoc hx
      rwa [show a - b + x = a + x - b by omega] at this

/-- A trail that visits a vertex twice contains a negative cycle. -/
theorem LabelTrail.negative {D : String → Option Int} {l} (t : LabelTrail vs wt src D l) : (l.map Prod.fst).Nodup ∨ NegativeCycle wt src := by
  induction t with
  | start hv hd hle => left; simp
  | @step u v a x d l0 t hx hv hd hle hn ih =>
    rcases ih with ih | ih
    · by_cases hm : v ∈ ((u, a) :: l0).map Prod.fst
      · right
        obtain ⟨⟨v', b⟩, h1, h2⟩ := List.mem_map.1 hm
        simp only at h2
        subst h2
        have hlt := hn b h1
        have hw := (t.suffix _ _ _ rfl v' b h1).snoc hx
        exact ⟨v', _, _, (t.walk _ _ _ rfl).snoc hx, hw, by omega⟩
      · left
        exact List.nodup_cons.2 ⟨hm, ih⟩
    · exact Or.inr ih

theorem LabelTrail.bound {D : String → Option Int} {W : Int} (hW : ∀ u v x, wt u v = some x → -W ≤ x ∧ x ≤ W) {l} (t : LabelTrail vs wt src D l) :
    ∀ v c l', l = (v, c) :: l' → -(W * l'.length) ≤ c ∧ c ≤ W * l'.length := by
  induction t with
  | start hv hd hle => intro v c l' e; cases e; simp
  | @step u v a x d l0 t hx hv hd hle hn ih =>
    intro v' c l' e
    cases e
    have h1 := ih _ _ _ rfl
    have h2 := hW _ _ _ hx
    have h3 : W * ((l0.length + 1 : Nat) : Int) = W * (l0.length : Int) + W := by
      rw [Int.natCast_add, Int.mul_add]; simp
    simp only [List.length_cons]
    omega

/-- The invariant; the vertex `cur` is being processed and its edges to `done` have been looked at. -/
structure BFInv (vs : List String) (wt : String → String → Option Int) (src : String) (st : BF) (D : String → Option Int)
    (P : String → Option String) (C : String → Nat) (R : String → String → Prop) : Prop where
  dist : st.dist = dictOf vs D
  pred : st.pred = dictOf vs P
  visited : st.visited = dictOf vs (fun v => decide (v ∈ st.que))
  cnts : st.cnts = dictOf vs C
  dom : ∀ v d, D v = some d → v ∈ vs
  que : ∀ v ∈ st.que, ∃ d, D v = some d
  qnodup : st.que.Nodup
  zero : ∃ d, D src = some d ∧ d ≤ 0
  trail : ∀ v d, D v = some d → ∃ l, LabelTrail vs wt src D ((v, d) :: l) ∧ l.length = C v ∧ C v < vs.length
  tight : ∀ u du, D u = some du → u ∉ st.que → ∀ w x, wt u w = some x → R u w → ∃ dw, D w = some dw ∧ dw ≤ du + x
  link : ∀ v, (P v = none ∧ (D v = none ∨ v = src ∧ D v = some 0)) ∨
    ∃ u du x dv, P v = some u ∧ D u = some du ∧ wt u v = some x ∧ D v = some dv ∧ du + x ≤ dv

/-- Twice the sum of the labels, shifted to be non-negative, plus the length of the queue. -/
def bfLabel (B : Nat) : Option Int → Nat
  | none => 2 * B + 1
  | some c => (c + B).toNat

def bfMeasure (B : Nat) (vs : List String) (D : String → Option Int) (que : List String) : Nat :=
  2 * (vs.map fun v => bfLabel B (D v)).sum + que.length

theorem sum_update (f g : String → Nat) (v : String) : ∀ vs : List String, vs.Nodup → v ∈ vs → (∀ u, u ≠ v → g u = f u) →
    (vs.map g).sum + f v = (vs.map f).sum + g v := by
  intro vs
  induction vs with
  | nil => intro _ h; cases h
  | cons a l ih =>
    intro hn hv hfg
    obtain ⟨h1, h2⟩ := List.nodup_cons.1 hn
    simp only [List.map_cons, List.sum_cons]
    by_cases ha : a = v
    · subst ha
      have : l.map g = l.map f := List.map_congr_left fun u hu => hfg u fun h => h1 (h ▸ hu)
      rw [this]; omega
    · have := ih h2 (by rcases List.mem_cons.1 hv with h | h; exact absurd h.symm ha; exact h) hfg
      rw [hfg a ha]; omega

theorem bfRelax_spec (hg : WGraph vs nb ws wt) (B : Nat) (hB : ∀ D l v c, LabelTrail vs wt src D ((v, c) :: l) → l.length < vs.length → -(B : Int) ≤ c ∧ c ≤ B)
    {st : BF} {D P C} {cur w : String} {done : List String} {x : Int}
    (h : BFInv vs wt src st D P C (fun y z => y ≠ cur ∨ z ∈ done)) (hcur : ∃ d, D cur = some d) (hx : wt cur w = some x) :
    (bfRelax vs ws cur w st = .error .valueError ∧ NegativeCycle wt src) ∨
    ∃ st' D' P' C', bfRelax vs ws cur w st = .ok st' ∧ BFInv vs wt src st' D' P' C' (fun y z => y ≠ cur ∨ z ∈ done ++ [w]) ∧
      (∃ d, D' cur = some d) ∧ bfMeasure B vs D' st'.que ≤ bfMeasure B vs D st.que := by
  obtain ⟨hc1, hw1⟩ := hg.ends _ _ _ hx
  obtain ⟨du, hdu⟩ := hcur
  have hget : ws (cur ++ "_" ++ w) = some ⟨cur, w, x⟩ := by rw [hg.get cur hc1 w hw1, hx]; rfl
  by_cases hlt : infLt (some (du + x)) (D w) = true
  · obtain ⟨l, ht, hl, hlen⟩ := h.trail cur du hdu
    -- the new labels
    let D' : String → Option Int := fun u => if u = w then some (du + x) else D u
    have hdec : ∀ v d, D v = some d → ∃ d', D' v = some d' ∧ d' ≤ d := by
      intro v d hd
      by_cases hv : v = w
      · subst hv
        refine ⟨du + x, by simp [D'], ?_⟩
        rw [hd] at hlt
        simp [infLt] at hlt
        omega
      · exact ⟨d, by simp [D', hv, hd], Int.le_refl _⟩
    have hnew : ∀ b, (w, b) ∈ (cur, du) :: l → du + x < b := by
      intro b hb
      obtain ⟨d, h1, h2, _⟩ := ht.labels w b hb
      rw [h1] at hlt
      simp [infLt] at hlt
      omega
    have ht' : LabelTrail vs wt src D' ((w, du + x) :: (cur, du) :: l) := .step (ht.mono hdec) hx hw1 (by simp [D']) (Int.le_refl _) hnew
    by_cases hcnt : C cur + 1 ≥ vs.length
    · left
      refine ⟨?_, ?_⟩
      · rw [bfRelax, h.dist, dictOf_get hc1, ok_bind]
        simp only [hdu, hget, dictOf_get hw1, ok_bind, hlt, if_true, h.cnts, dictOf_get hc1, hcnt, if_true]
      · rcases ht'.negative with hn | hn
        · exfalso
          have := nodup_length_le hn (b := vs) (by
            intro y hy
            obtain ⟨⟨y', b⟩, h1, h2⟩ := List.mem_map.1 hy
            simp only at h2
            subst h2
            exact (ht'.labels _ _ h1).choose_spec.2.2)
          simp at this
          omega
        · exact hn
    · right
      have hcd : ∃ d, D' cur = some d := by
        obtain ⟨d', h1, _⟩ := hdec cur du hdu
        exact ⟨d', h1⟩
      let P' : String → Option String := fun u => if u = w then some cur else P u
      let C' : String → Nat := fun u => if u = w then C cur + 1 else C u
      -- what holds whether or not `w` is in the queue already
      have hmain : ∀ (q : List String), (∀ v ∈ q, v ∈ st.que ∨ v = w) → (∀ v ∈ st.que, v ∈ q) → w ∈ q → q.Nodup →
          BFInv vs wt src ⟨dictOf vs D', dictOf vs P', dictOf vs (fun v => decide (v ∈ q)), dictOf vs C', q⟩ D' P' C'
            (fun y z => y ≠ cur ∨ z ∈ done ++ [w]) := by
        intro q hq1 hq2 hwq hqn
        refine ⟨rfl, rfl, rfl, rfl, ?_, ?_, hqn, ?_, ?_, ?_, ?_⟩
        · intro v d hd
          by_cases hv : v = w
          · rw [hv]; exact hw1
          · simp [D', hv] at hd; exact h.dom v d hd
        · intro v hv
          rcases hq1 v hv with hv | hv
          · obtain ⟨d, hd⟩ := h.que v hv
            obtain ⟨d', h1, _⟩ := hdec v d hd
            exact ⟨d', h1⟩
          · exact ⟨du + x, by simp [D', hv]⟩
        · obtain ⟨d, h1, h2⟩ := h.zero
          obtain ⟨d', h3, h4⟩ := hdec _ _ h1
          exact ⟨d', h3, by omega⟩
        · intro v d hd
          by_cases hv : v = w
          · subst hv
            simp only [D', if_true, Option.some.injEq] at hd
            subst hd
            exact ⟨_, ht', by simp [C', hl], by simp [C']; omega⟩
          · simp only [D', hv, if_false] at hd
            obtain ⟨l2, h1, h2, h3⟩ := h.trail v d hd
            exact ⟨l2, h1.mono hdec, by simp [C', hv, h2], by simp [C', hv]; omega⟩
        · intro u eu hu huq z y hz hR
          have huw : u ≠ w := fun e => huq (e ▸ hwq)
          simp only [D', huw, if_false] at hu
          have huq' : u ∉ st.que := fun e => huq (hq2 u e)
          by_cases hzw : z = w ∧ u = cur
          · obtain ⟨rfl, rfl⟩ := hzw
            rw [hdu] at hu
            rw [hx] at hz
            cases hu
            cases hz
            exact ⟨du + x, by simp [D'], Int.le_refl _⟩
          · obtain ⟨dw, h1, h2⟩ := h.tight u eu hu huq' z y hz (by
              rcases hR with hR | hR
              · exact Or.inl hR
              · rcases List.mem_append.1 hR with hR | hR
                · exact Or.inr hR
                · have : z = w := by simpa using hR
                  exact Or.inl fun e => hzw ⟨this, e⟩)
            obtain ⟨d', h3, h4⟩ := hdec z dw h1
            exact ⟨d', h3, by omega⟩
        · intro v
          by_cases hv : v = w
          · subst hv
            right
            obtain ⟨d', h1, h2⟩ := hdec cur du hdu
            exact ⟨cur, d', x, du + x, by simp [P'], h1, hx, by simp [D'], by omega⟩
          · rcases h.link v with ⟨h1, h2⟩ | ⟨u, eu, y, ev, h1, h2, h3, h4, h5⟩
            · left; exact ⟨by simp [P', hv, h1], by simp only [D', hv, if_false]; exact h2⟩
            · right
              obtain ⟨d', h6, h7⟩ := hdec u eu h2
              exact ⟨u, d', y, ev, by simp [P', hv, h1], h6, h3, by simp [D', hv, h4], by omega⟩
      have hmeas : (vs.map fun v => bfLabel B (D' v)).sum + 1 ≤ (vs.map fun v => bfLabel B (D v)).sum := by
        have hs := sum_update (fun v => bfLabel B (D v)) (fun v => bfLabel B (D' v)) w vs hg.nodup hw1 (by
          intro u hu; simp [D', hu])
        have hb := hB D' _ _ _ ht' (by simp; omega)
        have : bfLabel B (D' w) + 1 ≤ bfLabel B (D w) := by
          cases hdw : D w with
          | none => simp only [D', if_true, bfLabel]; omega
          | some d =>
            rw [hdw] at hlt
            simp only [infLt, decide_eq_true_eq] at hlt
            simp only [D', if_true, bfLabel]
            omega
        omega
      by_cases hwq : w ∈ st.que
      · refine ⟨_, D', P', C', ?_, hmain st.que (fun v hv => Or.inl hv) (fun v hv => hv) hwq h.qnodup, hcd, by unfold bfMeasure; simp only; omega⟩
        rw [bfRelax, h.dist, dictOf_get hc1, ok_bind]
        simp only [hdu, hget, dictOf_get hw1, ok_bind, hlt, if_true, h.cnts, dictOf_get hc1, hcnt, if_false, h.visited, hwq,
          decide_true, Bool.not_true, Bool.false_eq_true, dictOf_set hw1, h.pred]
        rfl
      · refine ⟨_, D', P', C', ?_, hmain (st.que ++ [w]) (fun v hv => by simpa using hv) (fun v hv => by simp [hv]) (by simp)
          (List.nodup_append.2 ⟨h.qnodup, by simp, by rintro a ha b hb rfl; simp at hb; subst hb; exact hwq ha⟩), hcd,
          by unfold bfMeasure; simp only [List.length_append, List.length_singleton]; omega⟩
        rw [bfRelax, h.dist, dictOf_get hc1, ok_bind]
        simp only [hdu, hget, dictOf_get hw1, ok_bind, hlt, if_true, h.cnts, dictOf_get hc1, hcnt, if_false, h.visited, hwq,
          decide_false, Bool.not_false, dictOf_set hw1, h.pred]
        congr 2
        congr 1
        funext v
        by_cases hv : v = w
        · subst hv; simp
        · simp [hv]
  · right
    refine ⟨st, D, P, C, ?_, ⟨h.dist, h.pred, h.visited, h.cnts, h.dom, h.que, h.qnodup, h.zero, h.trail, ?_, h.link⟩, ⟨du, hdu⟩, Nat.le_refl _⟩
    · rw [bfRelax, h.dist, dictOf_get hc1, ok_bind]
      simp only [hdu, hget, dictOf_get hw1, ok_bind, hlt, if_false, Bool.false_eq_true]
    · intro u eu hu huq z y hz hR
      by_cases hzw : z = w ∧ u = cur
      · obtain ⟨rfl, rfl⟩ := hzw
        rw [hdu] at hu
        rw [hx] at hz
        cases hu
        cases hz
        cases hdz : D z with
        | none => rw [hdz] at hlt; simp [infLt] at hlt
        | some dz => rw [hdz] at hlt; simp [infLt] at hlt; exact ⟨dz, rfl, by omega⟩
      · exact h.tight u eu hu huq z y hz (by
          rcases hR with hR | hR
          · exact Or.inl hR
          · rcases List.mem_append.1 hR with hR | hR
            · exact Or.inr hR
            · have : z = w := by simpa using hR
              exact Or.inl fun e => hzw ⟨this, e⟩)

theorem bfRelaxAll_spec (hg : WGraph vs nb ws wt) (B : Nat) (hB : ∀ D l v c, LabelTrail vs wt src D ((v, c) :: l) → l.length < vs.length → -(B : Int) ≤ c ∧ c ≤ B)
    {cur : String} : ∀ (ns done : List String) (st : BF) (D P C), BFInv vs wt src st D P C (fun y z => y ≠ cur ∨ z ∈ done) → (∃ d, D cur = some d) →
      (∀ w ∈ ns, (wt cur w).isSome) →
    (forList ns st (fun v st => bfRelax vs ws cur v st) = .error .valueError ∧ NegativeCycle wt src) ∨
    ∃ st' D' P' C', forList ns st (fun v st => bfRelax vs ws cur v st) = .ok st' ∧ BFInv vs wt src st' D' P' C' (fun y z => y ≠ cur ∨ z ∈ done ++ ns) ∧
      bfMeasure B vs D' st'.que ≤ bfMeasure B vs D st.que := by
  intro ns
  induction ns with
  | nil => intro done st D P C h _ _; exact Or.inr ⟨st, D, P, C, rfl, by simpa using h, Nat.le_refl _⟩
  | cons w ns ih =>
    intro done st D P C h hc hns
    obtain ⟨x, hx⟩ := Option.isSome_iff_exists.1 (hns w (by simp))
    rcases bfRelax_spec hg B hB h hc hx with ⟨e, hn⟩ | ⟨st1, D1, P1, C1, e1, h1, hc1, m1⟩
    · left; exact ⟨by rw [forList, e]; rfl, hn⟩
    · rcases ih (done ++ [w]) st1 D1 P1 C1 h1 hc1 (fun u hu => hns u (by simp [hu])) with ⟨e2, hn⟩ | ⟨st2, D2, P2, C2, e2, h2, m2⟩
      · left; exact ⟨by rw [forList, e1, ok_bind, e2], hn⟩
      · right; exact ⟨st2, D2, P2, C2, by rw [forList, e1, ok_bind, e2], by simpa using h2, by omega⟩

theorem bfLoop_spec (hg : WGraph vs nb ws wt) (B : Nat) (hB : ∀ D l v c, LabelTrail vs wt src D ((v, c) :: l) → l.length < vs.length → -(B : Int) ≤ c ∧ c ≤ B) :
    ∀ (N : Nat) (st : BF) (D P C), BFInv vs wt src st D P C (fun _ _ => True) → bfMeasure B vs D st.que ≤ N →
    ((∀ fuel, N < fuel → bfLoop vs nb ws fuel st = .error .valueError) ∧ NegativeCycle wt src) ∨
    ∃ st' D' P' C', (∀ fuel, N < fuel → bfLoop vs nb ws fuel st = .ok st') ∧ BFInv vs wt src st' D' P' C' (fun _ _ => True) ∧ st'.que = [] := by
  intro N
  induction N with
  | zero =>
    intro st D P C h hN
    right
    have hq : st.que = [] := by
      cases hq : st.que with
      | nil => rfl
      | cons a l => unfold bfMeasure at hN; rw [hq] at hN; simp at hN
    refine ⟨st, D, P, C, fun fuel hf => ?_, h, hq⟩
    obtain ⟨f, rfl⟩ : ∃ f, fuel = f + 1 := ⟨fuel - 1, by omega⟩
    rw [bfLoop, hq]
  | succ N ih =>
    intro st D P C h hN
    cases hq : st.que with
    | nil =>
      right
      refine ⟨st, D, P, C, fun fuel hf => ?_, h, hq⟩
      obtain ⟨f, rfl⟩ : ∃ f, fuel = f + 1 := ⟨fuel - 1, by omega⟩
      rw [bfLoop, hq]
    | cons u rest =>
      obtain ⟨du, hdu⟩ := h.que u (by rw [hq]; simp)
      have huv := h.dom u du hdu
      obtain ⟨ns, en, hns⟩ := hg.nbrs u huv
      have hqn := h.qnodup
      rw [hq] at hqn
      obtain ⟨hu1, hu2⟩ := List.nodup_cons.1 hqn
      have hvis : st.visited.set u false = dictOf vs (fun v => decide (v ∈ rest)) := by
        rw [h.visited, dictOf_set huv]
        congr 1
        funext v
        by_cases hv : v = u
        · subst hv; simp [hu1]
        · simp [hv, hq]
      have h0 : BFInv vs wt src { st with que := rest, visited := st.visited.set u false } D P C (fun y z => y ≠ u ∨ z ∈ ([] : List String)) := by
        refine ⟨h.dist, h.pred, hvis, h.cnts, h.dom, fun v hv => h.que v (by rw [hq]; simp [hv]), hu2, h.zero, h.trail, ?_, h.link⟩
        intro y dy hy hyq w x hx hR
        rcases hR with hR | hR
        · exact h.tight y dy hy (by rw [hq]; simp [hR]; exact hyq) w x hx trivial
        · cases hR
      have hm : bfMeasure B vs D rest ≤ N := by
        unfold bfMeasure at hN ⊢
        rw [hq] at hN
        simp at hN
        omega
      rcases bfRelaxAll_spec hg B hB ns [] _ D P C h0 ⟨du, hdu⟩ (fun w hw => (hns w).1 hw) with ⟨e, hn⟩ | ⟨st1, D1, P1, C1, e1, h1, m1⟩
      · left
        refine ⟨fun fuel hf => ?_, hn⟩
        obtain ⟨f, rfl⟩ : ∃ f, fuel = f + 1 := ⟨fuel - 1, by omega⟩
        rw [bfLoop, hq]
        simp only [en, ok_bind]
        rw [e]
        rfl
      · have h1' : BFInv vs wt src st1 D1 P1 C1 (fun _ _ => True) := by
          refine ⟨h1.dist, h1.pred, h1.visited, h1.cnts, h1.dom, h1.que, h1.qnodup, h1.zero, h1.trail, ?_, h1.link⟩
          intro y dy hy hyq w x hx _
          refine h1.tight y dy hy hyq w x hx ?_
          by_cases hyu : y = u
          · right
            subst hyu
            simpa using (hns w).2 (by rw [hx]; rfl)
          · exact Or.inl hyu
        have hstep : ∀ f, bfLoop vs nb ws (f + 1) st = bfLoop vs nb ws f st1 := by
          intro f
          rw [bfLoop, hq]
          simp only [en, ok_bind]
          rw [e1, ok_bind]
        rcases ih st1 D1 P1 C1 h1' (Nat.le_trans m1 hm) with ⟨e2, hn⟩ | ⟨st2, D2, P2, C2, e2, h2, hq2⟩
        · left
          refine ⟨fun fuel hf => ?_, hn⟩
          obtain ⟨f, rfl⟩ : ∃ f, fuel = f + 1 := ⟨fuel - 1, by omega⟩
          rw [hstep, e2 f (by omega)]
        · right
          refine ⟨st2, D2, P2, C2, fun fuel hf => ?_, h2, hq2⟩
          obtain ⟨f, rfl⟩ : ∃ f, fuel = f + 1 := ⟨fuel - 1, by omega⟩
          rw [hstep, e2 f (by omega)]

/-- The weights of a finite graph are bounded. -/
theorem weights_bounded (he : ∀ u v x, wt u v = some x → u ∈ vs ∧ v ∈ vs) : ∃ W : Nat, ∀ u v x, wt u v = some x → -(W : Int) ≤ x ∧ x ≤ W := by
  have key : ∀ ps : List (String × String), ∃ W : Nat, ∀ p ∈ ps, ∀ x, wt p.1 p.2 = some x → -(W : Int) ≤ x ∧ x ≤ W := by
    intro ps
    induction ps with
    | nil => exact ⟨0, by simp⟩
    | cons p ps ih =>
      obtain ⟨W, hW⟩ := ih
      cases hp : wt p.1 p.2 with
      | none =>
        refine ⟨W, fun q hq x hx => ?_⟩
        rcases List.mem_cons.1 hq with rfl | hq
        · rw [hp] at hx; cases hx
        · exact hW q hq x hx
      | some y =>
        refine ⟨W + y.natAbs, fun q hq x hx => ?_⟩
        rcases List.mem_cons.1 hq with rfl | hq
        · rw [hp] at hx; cases hx; omega
        · have := hW q hq x hx; omega
  obtain ⟨W, hW⟩ := key (vs.flatMap fun u => vs.map fun v => (u, v))
  refine ⟨W, fun u v x hx => hW (u, v) ?_ x hx⟩
  obtain ⟨h1, h2⟩ := he u v x hx
  simp only [List.mem_flatMap, List.mem_map]
  exact ⟨u, h1, v, h2, rfl⟩

theorem no_negative_of_tight {D : String → Option Int} (ht : ∀ u du, D u = some du → ∀ w x, wt u w = some x → ∃ dw, D w = some dw ∧ dw ≤ du + x)
    (hs : ∃ d, D src = some d) : ¬ NegativeCycle wt src := by
  rintro ⟨x, c, c', h1, h2, h3⟩
  obtain ⟨d, hd⟩ := hs
  obtain ⟨dx, e1, _⟩ := h1.potential ht hd
  obtain ⟨dx', e2, h4⟩ := h2.potential ht e1
  rw [e1] at e2
  cases e2
  omega

/-- C65: for a source in the graph, Bellman-Ford terminates. It raises `ValueError` exactly when a negative cycle can be reached from the source;
otherwise it returns the distance of every vertex (infinity for the vertices that cannot be reached), and predecessors that are the last
vertex before the end of a shortest path. -/
theorem C65_bellman_ford (hg : WGraph vs nb ws wt) (hsrc : src ∈ vs) :
    ∃ r, EndsWith (fun fuel => bellmanFord vs nb ws src fuel) r ∧
      ((NegativeCycle wt src ∧ r = .error .valueError) ∨
       (¬ NegativeCycle wt src ∧ ∃ dist pred, r = .ok (dist, pred) ∧ dist.keys = vs ∧ pred.keys = vs ∧
        ∀ v ∈ vs, ∃ d, dist.val v = some d ∧ Distance wt src v d ∧
          ((pred.val v = some none ∧ (v = src ∨ d = none)) ∨
           ∃ u du x, pred.val v = some (some u) ∧ dist.val u = some (some du) ∧ wt u v = some x ∧ d = some (du + x)))) := by
  obtain ⟨W, hW⟩ := weights_bounded hg.ends
  have hB : ∀ D l v c, LabelTrail vs wt src D ((v, c) :: l) → l.length < vs.length → -((W * vs.length : Nat) : Int) ≤ c ∧ c ≤ (W * vs.length : Nat) := by
    intro D l v c t hl
    have h1 := t.bound hW _ _ _ rfl
    have h2 : W * l.length ≤ W * vs.length := Nat.mul_le_mul_left _ (by omega)
    have h3 : (W : Int) * (l.length : Int) = ((W * l.length : Nat) : Int) := by simp
    rw [h3] at h1
    omega
  have hlen : 0 < vs.length := List.length_pos_of_mem hsrc
  let D0 : String → Option Int := fun v => if v = src then some 0 else none
  -- the first step sets `visited[source]` to `False` anyway
  let init : BF := { bfInit vs src with visited := dictOf vs fun v => decide (v ∈ [src]) }
  have hfirst : ∀ f, bfLoop vs nb ws f (bfInit vs src) = bfLoop vs nb ws f init := by
    intro f
    cases f with
    | zero => rfl
    | succ f =>
      have : init.visited.set src false = (bfInit vs src).visited.set src false := by
        simp only [init, bfInit]
        rw [dictOf_const, dictOf_set hsrc, dictOf_set hsrc]
        congr 1
        funext u
        by_cases hu : u = src
        · simp [hu]
        · simp [hu]
      rw [bfLoop, bfLoop]
      simp only [init, bfInit] at this ⊢
      rw [this]
  have hI : BFInv vs wt src init D0 (fun _ => none) (fun _ => 0) (fun _ _ => True) := by
    refine ⟨?_, rfl, rfl, rfl, ?_, ?_, by simp [init, bfInit], ⟨0, by simp [D0], by omega⟩, ?_, ?_, ?_⟩
    · simp only [init, bfInit]; rw [dictOf_const, dictOf_set hsrc]
    · intro v d hd
      by_cases hv : v = src
      · rw [hv]; exact hsrc
      · simp [D0, hv] at hd
    · intro v hv
      simp [init, bfInit] at hv
      exact ⟨0, by simp [D0, hv]⟩
    · intro v d hd
      by_cases hv : v = src
      · subst hv
        simp [D0] at hd
        subst hd
        exact ⟨[], .start hsrc (d := 0) (by simp [D0]) (by omega), rfl, hlen⟩
      · simp [D0, hv] at hd
    · intro u du hu hq
      exfalso
      by_cases hv : u = src
      · exact hq (by simp [init, bfInit, hv])
      · simp [D0, hv] at hu
    · intro v
      left
      refine ⟨rfl, ?_⟩
      by_cases hv : v = src
      · right; exact ⟨hv, by simp [D0, hv]⟩
      · left; simp [D0, hv]
  rcases bfLoop_spec hg (W * vs.length) hB _ _ _ _ _ hI (Nat.le_refl _) with ⟨e, hn⟩ | ⟨st, D, P, C, e, h, hq⟩
  · refine ⟨.error .valueError, ⟨bfMeasure (W * vs.length) vs D0 init.que + 1, fun fuel hf => ?_⟩, Or.inl ⟨hn, rfl⟩⟩
    show bellmanFord vs nb ws src fuel = _
    rw [bellmanFord, hfirst, e fuel hf]
    rfl
  · have ht : ∀ u du, D u = some du → ∀ w x, wt u w = some x → ∃ dw, D w = some dw ∧ dw ≤ du + x := by
      intro u du hu w x hx
      exact h.tight u du hu (by rw [hq]; simp) w x hx trivial
    have hneg : ¬ NegativeCycle wt src := no_negative_of_tight ht ⟨h.zero.choose, h.zero.choose_spec.1⟩
    have h0 : D src = some 0 := by
      obtain ⟨d, h1, h2⟩ := h.zero
      obtain ⟨l, tl, _⟩ := h.trail src d h1
      have := tl.walk _ _ _ rfl
      by_cases hd : d < 0
      · exact absurd ⟨src, 0, d, .nil, this, hd⟩ hneg
      · rw [h1]; congr 1; omega
    refine ⟨.ok (dictOf vs D, dictOf vs P), ⟨bfMeasure (W * vs.length) vs D0 init.que + 1, fun fuel hf => ?_⟩, Or.inr ⟨hneg, _, _, rfl, rfl, rfl, ?_⟩⟩
    · show bellmanFord vs nb ws src fuel = _
      rw [bellmanFord, hfirst, e fuel hf, ok_bind, h.dist, h.pred]
    · intro v hv
      have hdist : ∀ v c, D v = some c → IsShortest wt src v c := by
        intro v c hc
        obtain ⟨l, tl, _⟩ := h.trail v c hc
        refine ⟨tl.walk _ _ _ rfl, fun c' hc' => ?_⟩
        obtain ⟨d, h1, h2⟩ := hc'.potential ht h0
        rw [hc] at h1
        cases h1
        omega
      refine ⟨D v, by simp [dictOf, hv], ?_, ?_⟩
      · cases hD : D v with
        | some c => exact hdist v c hD
        | none =>
          intro c hc
          obtain ⟨d, h1, _⟩ := hc.potential ht h0
          rw [hD] at h1; cases h1
      · rcases h.link v with ⟨h1, h2⟩ | ⟨u, du, x, dv, h1, h2, h3, h4, h5⟩
        · left
          refine ⟨by simp [dictOf, hv, h1], ?_⟩
          rcases h2 with h2 | ⟨h2, _⟩
          · exact Or.inr h2
          · exact Or.inl h2
        · right
          have hu := h.dom u du h2
          refine ⟨u, du, x, by simp [dictOf, hv, h1], by simp [dictOf, hu, h2], h3, ?_⟩
          obtain ⟨dw, h6, h7⟩ := ht u du h2 v x h3
          rw [h4] at h6
          cases h6
          rw [h4]
          congr 1
          omega

/-- C65 with a target: the distance of the target. -/
theorem C65_target {dist : PyDict String (Option Int)} {pred : PyDict String (Option String)} {v : String} {d : Option Int} (h : dist.val v = some d) :
    toTarget v (dist, pred) = .ok (d, pred) := by
  simp [toTarget, PyDict.get, h, ok_bind]

end

/-! ## The two graph classes -/

/-- The weighted digraph of an abstract digraph: the costs of its edges. -/
def Digraph.wt (d : Digraph) (u v : String) : Option Int := if (u, v) ∈ d.edges then d.cost u v else none

theorem Digraph.wt_some {d : Digraph} {u v : String} {x : Int} (h : Digraph.wt d u v = some x) : (u, v) ∈ d.edges ∧ d.cost u v = some x := by
  unfold Digraph.wt at h
  split at h
  · exact ⟨by assumption, h⟩
  · cases h

/-- Adjacency lists (the abstraction of C56) all of whose edges have a cost. -/
theorem AlRep.wgraph {g : AList} {d : Digraph} (h : AlRep g d) (hw : AlWeights (fun v => v ∈ d.verts) g d)
    (hc : ∀ e ∈ d.edges, (d.cost e.1 e.2).isSome) (hc' : ∀ u v x, d.cost u v = some x → (u, v) ∈ d.edges) :
    WGraph g.vertices (alNeighbors g) g.weights (Digraph.wt d) := by
  refine ⟨h.verts ▸ h.nodup, ?_, ?_, ?_⟩
  · intro u v x hx
    rw [h.verts]
    exact h.ends _ (Digraph.wt_some hx).1
  · intro v hv
    rw [h.verts] at hv
    refine ⟨d.nbrs v, by rw [alNeighbors_of h, if_pos hv], fun w => ?_⟩
    rw [mem_nbrs]
    constructor
    · intro he; rw [Digraph.wt, if_pos he]; exact hc _ he
    · intro he
      obtain ⟨x, hx⟩ := Option.isSome_iff_exists.1 he
      exact (Digraph.wt_some hx).1
  · intro u hu v hv
    rw [h.verts] at hu hv
    rw [hw.get u v hu hv]
    congr 1
    unfold Digraph.wt
    split
    · rfl
    · rename_i he
      cases hd : d.cost u v with
      | none => rfl
      | some x => exact absurd (hc' u v x hd) he

/-- Adjacency matrices (the abstraction of C57) all of whose edges have a cost. -/
theorem AmRep.wgraph {g : AMat} {d : Digraph} {ever} (h : AmRep (fun v => v ∈ d.verts) g d ever) (ht : ∀ e ∈ d.edges, e.2 ∈ d.verts)
    (hc : ∀ e ∈ d.edges, (d.cost e.1 e.2).isSome) (hc' : ∀ u v x, d.cost u v = some x → (u, v) ∈ d.edges) :
    WGraph g.vertices (fun v => .ok (amNeighbors g v)) g.weights (Digraph.wt d) := by
  refine ⟨h.verts ▸ h.nodup, ?_, ?_, ?_⟩
  · intro u v x hx
    have he := (Digraph.wt_some hx).1
    rw [h.verts]
    exact ⟨h.src _ (h.sub _ he), ht _ he⟩
  · intro v hv
    refine ⟨amNeighbors g v, rfl, fun w => ?_⟩
    rw [(neighbors_perm h v).mem_iff, mem_nbrs]
    constructor
    · intro he; rw [Digraph.wt, if_pos he]; exact hc _ he
    · intro he
      obtain ⟨x, hx⟩ := Option.isSome_iff_exists.1 he
      exact (Digraph.wt_some hx).1
  · intro u hu v hv
    rw [h.verts] at hu hv
    rw [h.get u v hu hv]
    congr 1
    unfold Digraph.wt
    split
    · rfl
    · rename_i he
      cases hd : d.cost u v with
      | none => rfl
      | some x => exact absurd (hc' u v x hd) he

/-- Only edges have costs. -/
theorem digraph_cost_edge (ops : List GraphOp) : ∀ d : Digraph, (∀ u v x, d.cost u v = some x → (u, v) ∈ d.edges) →
    ∀ u v x, (final digraphSpec d ops).cost u v = some x → (u, v) ∈ (final digraphSpec d ops).edges := by
  induction ops with
  | nil => intro d h; exact h
  | cons op ops ih =>
    intro d h
    refine ih _ ?_
    intro u v x
    cases op with
    | addVertex w => simp only [digraphSpec]; split <;> exact h u v x
    | removeVertex w =>
      simp only [digraphSpec]
      split
      · simp only
        split
        · intro hx; cases hx
        · rename_i hn
          intro hx
          simp only [not_or] at hn
          exact List.mem_filter.2 ⟨h u v x hx, by simpa using hn⟩
      · exact h u v x
    | addEdge s t c =>
      simp only [digraphSpec]
      split
      · have hmem : ∀ e, e ∈ d.edges → e ∈ (if (s, t) ∈ d.edges then d.edges else d.edges ++ [(s, t)]) := by
          intro e he; split
          · exact he
          · simp [he]
        cases c with
        | none => intro hx; exact hmem _ (h u v x hx)
        | some c =>
          simp only
          split
          · rename_i he
            intro _
            obtain ⟨rfl, rfl⟩ := he
            split
            · assumption
            · simp
          · intro hx; exact hmem _ (h u v x hx)
      · exact h u v x
    | removeEdge s t =>
      simp only [digraphSpec]
      split
      · split
        · simp only
          split
          · intro hx; cases hx
          · rename_i hn
            intro hx
            refine List.mem_filter.2 ⟨h u v x hx, ?_⟩
            have : ¬ ((u, v) = (s, t)) := fun e => hn (by simpa using e)
            simpa only [decide_eq_true_eq] using this
        · exact h u v x
      · exact h u v x
    | isAdjacent s t => simp only [digraphSpec]; split <;> exact h u v x
    | neighbors w => simp only [digraphSpec]; split <;> exact h u v x
    | numVertices => exact h u v x
    | numEdges => exact h u v x
    | getEdge s t => exact h u v x

/-- A weighted digraph from a history of calls, for examples: the side conditions can be decided. -/
theorem wgraph_of_history {gAttr nAttr : String → Bool} (ops : List GraphOp) (hp : ∀ op ∈ ops, op.All (Plain gAttr nAttr))
    (hg : ∀ op ∈ ops, ∀ s t, op ≠ .getEdge s t)
    (hw : ∀ s ∈ (final digraphSpec Digraph.empty ops).verts, ∀ t ∈ (final digraphSpec Digraph.empty ops).verts,
      (final (alStep gAttr nAttr) alNew ops).weights (s ++ "_" ++ t) = ((final digraphSpec Digraph.empty ops).cost s t).map fun c => ⟨s, t, c⟩)
    (hc : ∀ e ∈ (final digraphSpec Digraph.empty ops).edges, ((final digraphSpec Digraph.empty ops).cost e.1 e.2).isSome) :
    WGraph (final (alStep gAttr nAttr) alNew ops).vertices (alNeighbors (final (alStep gAttr nAttr) alNew ops))
      (final (alStep gAttr nAttr) alNew ops).weights (Digraph.wt (final digraphSpec Digraph.empty ops)) :=
  (al_history_rep ops hp hg).wgraph ⟨fun s t hs ht => hw s hs t ht⟩ hc (digraph_cost_edge ops Digraph.empty (by simp [Digraph.empty]))

instance {P : String → Prop} [DecidablePred P] (op : GraphOp) : Decidable (op.All P) := by
  cases op <;> simp only [GraphOp.All] <;> infer_instance
instance {gAttr nAttr : String → Bool} : DecidablePred (Plain gAttr nAttr) := fun v => by unfold Plain; infer_instance

/-! ## Non-vacuity -/

/-- A graph with a negative edge and a vertex that cannot be reached from `a`. -/
def exRoadsOps : List GraphOp := [.addVertex "a", .addVertex "b", .addVertex "c", .addVertex "d", .addEdge "a" "b" (some 4), .addEdge "a" "c" (some 6),
  .addEdge "c" "b" (some (-3)), .addEdge "d" "a" (some 1)]
def exRoads : AList := final (alStep exGAttr exNAttr) alNew exRoadsOps
def exRoadsD : Digraph := final digraphSpec Digraph.empty exRoadsOps

theorem exRoads_rep : AlRep exRoads exRoadsD :=
  al_history_rep exRoadsOps (by
    intro op h
    simp only [exRoadsOps, List.mem_cons, List.not_mem_nil, or_false] at h
    rcases h with rfl | rfl | rfl | rfl | rfl | rfl | rfl | rfl <;> simp only [GraphOp.All, Plain] <;> decide) (by
    intro op h s t e; subst e; simp [exRoadsOps] at h)

theorem exRoads_wgraph : WGraph exRoads.vertices (alNeighbors exRoads) exRoads.weights (Digraph.wt exRoadsD) := by
  have hv : exRoadsD.verts = ["a", "b", "c", "d"] := by decide +kernel
  have he : exRoadsD.edges = [("a", "b"), ("a", "c"), ("c", "b"), ("d", "a")] := by decide +kernel
  have hcost : ∀ u v, exRoadsD.cost u v = if u = "d" ∧ v = "a" then some 1 else if u = "c" ∧ v = "b" then some (-3) else
      if u = "a" ∧ v = "c" then some 6 else if u = "a" ∧ v = "b" then some 4 else none := by
    intro u v
    simp [exRoadsD, exRoadsOps, final, digraphSpec, Digraph.empty]
  refine exRoads_rep.wgraph ⟨?_⟩ ?_ ?_
  · intro s t hs ht
    rw [hv] at hs ht
    revert t
    revert s
    decide +kernel
  · rw [he]; decide +kernel
  · intro u v x hx
    rw [hcost] at hx
    rw [he]
    repeat' split at hx
    all_goals simp_all

example : "a" ∈ exRoads.vertices ∧ (bellmanFord exRoads.vertices (alNeighbors exRoads) exRoads.weights "a" 20).map
    (fun r => ["a", "b", "c", "d"].map fun v => (r.1.val v, r.2.val v)) =
    .ok [(some (some 0), some none), (some (some 3), some (some "c")), (some (some 6), some (some "a")), (some none, some none)] := by decide +kernel

/-- A reachable negative cycle. -/
def exLoss : AList := final (alStep exGAttr exNAttr) exRoads [.addEdge "b" "a" (some (-4))]
example : bellmanFord exLoss.vertices (alNeighbors exLoss) exLoss.weights "a" 20 matches .error .valueError := by decide +kernel

end Props
