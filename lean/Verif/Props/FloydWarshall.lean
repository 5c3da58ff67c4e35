import Verif.Model.FloydWarshall
import Verif.Props.Dijkstra

/-! # C67: Floyd-Warshall -/
namespace Props
open Py Model Spec

/-- The list of the values of `edge_weights`: one per edge. -/
structure EdgeItems (wt : String → String → Option Int) (items : List GEdge) : Prop where
  mem : ∀ u v x, wt u v = some x ↔ (⟨u, v, x⟩ : GEdge) ∈ items

/-- A walk all of whose inner vertices are in `S`. -/
inductive Via (wt : String → String → Option Int) (S : List String) (u : String) : String → Int → Prop
  | nil : Via wt S u u 0
  | edge {w x} : wt u w = some x → Via wt S u w x
  | snoc {v w c x} : Via wt S u v c → v ∈ S → wt v w = some x → Via wt S u w (c + x)

section
variable {vs : List String} {wt : String → String → Option Int}

theorem Via.walk {S : List String} {u v : String} {c : Int} (h : Via wt S u v c) : WalkW wt u v c := by
  induction h with
  | nil => exact .nil
  | edge hx => have := WalkW.snoc .nil hx; rwa [Int.zero_add] at this
  | snoc _ _ hx ih => exact ih.snoc hx

theorem walkW_via (hends : ∀ u v x, wt u v = some x → u ∈ vs ∧ v ∈ vs) {u v : String} {c : Int} (h : WalkW wt u v c) : Via wt vs u v c := by
  induction h with
  | nil => exact .nil
  | snoc _ hx ih => exact ih.snoc (hends _ _ _ hx).1 hx

/-- A walk through `k :: S` goes through `S` only, or consists of two walks through `S` that meet in `k`, after cutting out cycles. -/
theorem Via.split (hneg : ∀ u, ¬ NegativeCycle wt u) {S : List String} {k u v : String} {c : Int} (h : Via wt (S ++ [k]) u v c) :
    (∃ c', c' ≤ c ∧ Via wt S u v c') ∨ ∃ a b, a + b ≤ c ∧ Via wt S u k a ∧ Via wt S k v b := by
  induction h with
  | nil => exact Or.inl ⟨0, Int.le_refl _, .nil⟩
  | edge hx => exact Or.inl ⟨_, Int.le_refl _, .edge hx⟩
  | @snoc v w c x _ hv hx ih =>
    rcases ih with ⟨c', h1, h2⟩ | ⟨a, b, h1, h2, h3⟩
    · by_cases hS : v ∈ S
      · exact Or.inl ⟨c' + x, by omega, h2.snoc hS hx⟩
      · have : v = k := by simpa [hS] using hv
        subst this
        exact Or.inr ⟨c', x, by omega, h2, .edge hx⟩
    · by_cases hS : v ∈ S
      · exact Or.inr ⟨a, b + x, by omega, h2, h3.snoc hS hx⟩
      · have : v = k := by simpa [hS] using hv
        subst this
        have : 0 ≤ b := by
          by_cases hb : b < 0
          · exact absurd ⟨v, 0, b, .nil, h3.walk, hb⟩ (hneg v)
          · omega
        exact Or.inr ⟨a, x, by omega, h2, .edge hx⟩

/-- The state stands for the table `D`. -/
structure FWRep (vs : List String) (st : FW) (D : String → String → Option Int) : Prop where
  keys : st.dist.keys = vs
  nkeys : st.next.keys = vs
  cell : ∀ i ∈ vs, ∃ r, st.dist.val i = some r ∧ ∀ j, r.val j = D i j
  ncell : ∀ i ∈ vs, ∃ r, st.next.val i = some r
  out : ∀ i, i ∉ vs → st.dist.val i = none

theorem getCell_of {st : FW} {D} (h : FWRep vs st D) {i j : String} (hi : i ∈ vs) : getCell st.dist i j = D i j := by
  obtain ⟨r, h1, h2⟩ := h.cell i hi
  simp [getCell, h1, h2]

/-- A cell is written. -/
theorem setCells {st : FW} {D} (h : FWRep vs st D) {i j : String} (hi : i ∈ vs) (x : Int) (y : NextVertex) :
    ∃ dist next, setCell st.dist i j x = .ok dist ∧ setCell st.next i j y = .ok next ∧
      FWRep vs ⟨dist, next⟩ (fun a b => if a = i ∧ b = j then some x else D a b) := by
  obtain ⟨r, h1, h2⟩ := h.cell i hi
  obtain ⟨r', h3⟩ := h.ncell i hi
  refine ⟨st.dist.set i (r.set j x), st.next.set i (r'.set j y), by simp [setCell, PyDict.get, h1, ok_bind], by simp [setCell, PyDict.get, h3, ok_bind], ?_⟩
  refine ⟨by simp [PyDict.set, h1, h.keys], by simp [PyDict.set, h3, h.nkeys], ?_, ?_, ?_⟩
  · intro a ha
    by_cases hai : a = i
    · subst hai
      refine ⟨r.set j x, by simp [PyDict.set], fun b => ?_⟩
      by_cases hb : b = j
      · simp [PyDict.set, hb]
      · simp [PyDict.set, hb, h2]
    · obtain ⟨r2, h4, h5⟩ := h.cell a ha
      exact ⟨r2, by simp [PyDict.set, hai, h4], fun b => by simp [hai, h5]⟩
  · intro a ha
    by_cases hai : a = i
    · exact ⟨r'.set j y, by simp [PyDict.set, hai]⟩
    · obtain ⟨r2, h4⟩ := h.ncell a ha
      exact ⟨r2, by simp [PyDict.set, hai, h4]⟩
  · intro a ha
    have : a ≠ i := fun e => ha (e ▸ hi)
    simp [PyDict.set, this, h.out a ha]

/-- The new value of a cell. -/
def fwMin (D : String → String → Option Int) (k i j : String) : Option Int :=
  if infLt (infSum (D i k) (D k j)) (D i j) then infSum (D i k) (D k j) else D i j

theorem fwMin_col {D k} (h : D k k = some 0) (i : String) : fwMin D k i k = D i k := by
  unfold fwMin
  cases hik : D i k with
  | none => simp [h, infSum, infLt]
  | some a => simp [h, infSum, infLt]

theorem fwMin_row {D k} (h : D k k = some 0) (j : String) : fwMin D k k j = D k j := by
  unfold fwMin
  cases hkj : D k j with
  | none => simp [h, infSum, infLt]
  | some a => simp [h, infSum, infLt]

/-- One cell. -/
theorem fwCell_spec {D k i j} {st : FW} {D'} (hk : k ∈ vs) (hi : i ∈ vs) (h0 : D k k = some 0) (h : FWRep vs st D')
    (hD : ∀ a b, D' a b = D a b ∨ D' a b = fwMin D k a b) :
    ∃ st' D2, fwCell k i j st = .ok st' ∧ FWRep vs st' D2 ∧ D2 i j = fwMin D k i j ∧ ∀ a b, (a, b) ≠ (i, j) → D2 a b = D' a b := by
  have hik : D' i k = D i k := (hD i k).elim id fun h => by rw [h, fwMin_col h0]
  have hkj : D' k j = D k j := (hD k j).elim id fun h => by rw [h, fwMin_row h0]
  unfold fwCell
  rw [getCell_of h hi, getCell_of h hk, getCell_of h hi, hik, hkj]
  cases hs : infSum (D i k) (D k j) with
  | none =>
    refine ⟨st, D', rfl, h, ?_, fun _ _ _ => rfl⟩
    have hm : fwMin D k i j = D i j := by rw [fwMin, hs]; simp [infLt]
    rcases hD i j with h | h
    · rw [h, hm]
    · exact h
  | some s =>
    dsimp only
    by_cases hlt : infLt (some s) (D' i j) = true
    · rw [if_pos hlt]
      obtain ⟨dist, next, e1, e2, hr⟩ := setCells h (i := i) (j := j) hi s (fwNext st.next i k)
      rw [e1, ok_bind, e2, ok_bind]
      refine ⟨_, _, rfl, hr, ?_, fun a b hne => ?_⟩
      · simp only [and_self, if_true]
        rcases hD i j with h | h
        · rw [h] at hlt; rw [fwMin, hs, if_pos hlt]
        · rw [h] at hlt
          unfold fwMin at hlt ⊢
          rw [hs] at hlt ⊢
          split at hlt
          · simp [infLt] at hlt
          · rename_i h2; exact absurd hlt h2
      · have : ¬ (a = i ∧ b = j) := fun e => hne (by rw [e.1, e.2])
        simp [this]
    · rw [if_neg hlt]
      refine ⟨st, D', rfl, h, ?_, fun _ _ _ => rfl⟩
      rcases hD i j with h | h
      · rw [h] at hlt; rw [h, fwMin, hs, if_neg hlt]
      · exact h

/-- All cells of one `k`. -/
theorem fwPhase_spec {D k} {st : FW} (hk : k ∈ vs) (h0 : D k k = some 0) (h : FWRep vs st D) (hout : ∀ i j, j ∉ vs → D i j = none)
    (hout' : ∀ i j, i ∉ vs → D i j = none) :
    ∃ st', fwPhase vs k st = .ok st' ∧ FWRep vs st' (fwMin D k) := by
  have row : ∀ (i : String), i ∈ vs → ∀ (js : List String) (st : FW) D', FWRep vs st D' → (∀ a b, D' a b = D a b ∨ D' a b = fwMin D k a b) →
      ∃ st' D2, forList js st (fun j st => fwCell k i j st) = .ok st' ∧ FWRep vs st' D2 ∧ (∀ j ∈ js, D2 i j = fwMin D k i j) ∧
        (∀ a b, D2 a b = D' a b ∨ D2 a b = fwMin D k a b) := by
    intro i hi js
    induction js with
    | nil => intro st D' h _; exact ⟨st, D', rfl, h, by simp, fun _ _ => Or.inl rfl⟩
    | cons j js ih =>
      intro st D' h hD
      obtain ⟨st1, D1, e1, r1, c1, o1⟩ := fwCell_spec (j := j) hk hi h0 h hD
      have hD1 : ∀ a b, D1 a b = D' a b ∨ D1 a b = fwMin D k a b := by
        intro a b
        by_cases hne : (a, b) = (i, j)
        · injection hne with e1 e2; subst e1; subst e2; exact Or.inr c1
        · exact Or.inl (o1 a b hne)
      obtain ⟨st2, D2, e2, r2, c2, o2⟩ := ih st1 D1 r1 (by
        intro a b
        rcases hD1 a b with h | h
        · rw [h]; exact hD a b
        · exact Or.inr h)
      refine ⟨st2, D2, by rw [forList, e1, ok_bind, e2], r2, ?_, ?_⟩
      · intro b hb
        rcases List.mem_cons.1 hb with rfl | hb
        · rcases o2 i b with h | h
          · rw [h, c1]
          · exact h
        · exact c2 b hb
      · intro a b
        rcases o2 a b with h | h
        · rw [h]; exact hD1 a b
        · exact Or.inr h
  have rows : ∀ (is : List String), (∀ i ∈ is, i ∈ vs) → ∀ (st : FW) D', FWRep vs st D' → (∀ a b, D' a b = D a b ∨ D' a b = fwMin D k a b) →
      ∃ st' D2, forList is st (fun i st => fwRow vs k i st) = .ok st' ∧ FWRep vs st' D2 ∧ (∀ i ∈ is, ∀ j ∈ vs, D2 i j = fwMin D k i j) ∧
        (∀ a b, D2 a b = D' a b ∨ D2 a b = fwMin D k a b) := by
    intro is
    induction is with
    | nil => intro _ st D' h _; exact ⟨st, D', rfl, h, by simp, fun _ _ => Or.inl rfl⟩
    | cons i is ih =>
      intro his st D' h hD
      obtain ⟨st1, D1, e1, r1, c1, o1⟩ := row i (his i (by simp)) vs st D' h hD
      obtain ⟨st2, D2, e2, r2, c2, o2⟩ := ih (fun x hx => his x (by simp [hx])) st1 D1 r1 (by
        intro a b
        rcases o1 a b with h | h
        · rw [h]; exact hD a b
        · exact Or.inr h)
      refine ⟨st2, D2, by rw [forList, fwRow, e1, ok_bind, e2], r2, ?_, ?_⟩
      · intro a ha b hb
        rcases List.mem_cons.1 ha with rfl | ha
        · rcases o2 a b with h | h
          · rw [h, c1 b hb]
          · exact h
        · exact c2 a ha b hb
      · intro a b
        rcases o2 a b with h | h
        · rw [h]; exact o1 a b
        · exact Or.inr h
  obtain ⟨st', D2, e, r, c, o⟩ := rows vs (fun _ h => h) st D h (fun _ _ => Or.inl rfl)
  refine ⟨st', e, ?_⟩
  have : D2 = fwMin D k := by
    funext i j
    rcases o i j with h | h
    · by_cases hi : i ∈ vs
      · by_cases hj : j ∈ vs
        · exact c i hi j hj
        · rw [h, fwMin, hout i j hj, hout k j hj]; cases D i k <;> simp [infSum, infLt]
      · rw [h, fwMin, hout' i j hi, hout' i k hi]; simp [infSum, infLt]
    · exact h
  rw [← this]
  exact r

/-- What is known after the vertices of `S`. -/
structure FWInv (vs : List String) (wt : String → String → Option Int) (S : List String) (D : String → String → Option Int) : Prop where
  sound : ∀ i j c, D i j = some c → i ∈ vs ∧ j ∈ vs ∧ WalkW wt i j c
  complete : ∀ i ∈ vs, ∀ j ∈ vs, ∀ c, Via wt S i j c → ∃ d, D i j = some d ∧ d ≤ c

theorem FWInv.diag {S D} (h : FWInv vs wt S D) (hneg : ∀ u, ¬ NegativeCycle wt u) {k : String} (hk : k ∈ vs) : D k k = some 0 := by
  obtain ⟨d, h1, h2⟩ := h.complete k hk k hk 0 .nil
  have := (h.sound k k d h1).2.2
  by_cases hd : d < 0
  · exact absurd ⟨k, 0, d, .nil, this, hd⟩ (hneg k)
  · rw [h1]; congr 1; omega

theorem FWInv.step {S D} (h : FWInv vs wt S D) (hneg : ∀ u, ¬ NegativeCycle wt u) {k : String} (hk : k ∈ vs) : FWInv vs wt (S ++ [k]) (fwMin D k) := by
  constructor
  · intro i j c hc
    unfold fwMin at hc
    split at hc
    · cases h1 : D i k with
      | none => rw [h1] at hc; simp [infSum] at hc
      | some a =>
        cases h2 : D k j with
        | none => rw [h1, h2] at hc; simp [infSum] at hc
        | some b =>
          rw [h1, h2] at hc
          simp only [infSum, Option.some.injEq] at hc
          subst hc
          obtain ⟨s1, s2, s3⟩ := h.sound _ _ _ h1
          obtain ⟨t1, t2, t3⟩ := h.sound _ _ _ h2
          exact ⟨s1, t2, s3.append t3⟩
    · exact h.sound i j c hc
  · intro i hi j hj c hv
    have key : ∀ d, D i j = some d → ∃ d', fwMin D k i j = some d' ∧ d' ≤ d := by
      intro d hd
      unfold fwMin
      rw [hd]
      cases hs : infSum (D i k) (D k j) with
      | none => simp [infLt]
      | some s =>
        by_cases hlt : s < d
        · simp [infLt, hlt]; omega
        · simp [infLt, hlt]
    rcases hv.split hneg with ⟨c', h1, h2⟩ | ⟨a, b, h1, h2, h3⟩
    · obtain ⟨d, h4, h5⟩ := h.complete i hi j hj c' h2
      obtain ⟨d', h6, h7⟩ := key d h4
      exact ⟨d', h6, by omega⟩
    · obtain ⟨d1, h4, h5⟩ := h.complete i hi k hk a h2
      obtain ⟨d2, h6, h7⟩ := h.complete k hk j hj b h3
      unfold fwMin
      rw [h4, h6]
      simp only [infSum]
      cases hd : D i j with
      | none => exact ⟨d1 + d2, by simp [infLt], by omega⟩
      | some d =>
        by_cases hlt : d1 + d2 < d
        · exact ⟨d1 + d2, by simp [infLt, hlt], by omega⟩
        · exact ⟨d, by simp [infLt, hlt], by omega⟩

/-- The table before the triple loop. -/
theorem fwStart_spec {items : List GEdge} (hends : ∀ u v x, wt u v = some x → u ∈ vs ∧ v ∈ vs) (hit : EdgeItems wt items)
    (hneg : ∀ u, ¬ NegativeCycle wt u) :
    ∃ st1 st2 D, forList items (fwInit vs) (fun e st => fwEdge e st) = .ok st1 ∧ forList vs st1 (fun v st => fwDiag v st) = .ok st2 ∧
      FWRep vs st2 D ∧ FWInv vs wt [] D := by
  have hin : FWRep vs (fwInit vs) (fun _ _ => none) := by
    refine ⟨rfl, rfl, ?_, ?_, ?_⟩
    · intro i hi; exact ⟨PyDict.empty, by simp [fwInit, PyDict.const, hi], fun j => rfl⟩
    · intro i hi; exact ⟨PyDict.empty, by simp [fwInit, PyDict.const, hi]⟩
    · intro i hi; simp [fwInit, PyDict.const, hi]
  have edges : ∀ (es : List GEdge), (∀ e ∈ es, wt e.source e.target = some e.value) → ∀ (st : FW) D, FWRep vs st D →
      (∀ i j c, D i j = some c → wt i j = some c) →
      ∃ st' D', forList es st (fun e st => fwEdge e st) = .ok st' ∧ FWRep vs st' D' ∧ (∀ i j c, D' i j = some c → wt i j = some c) ∧
        (∀ e ∈ es, D' e.source e.target = some e.value) ∧ (∀ i j c, D i j = some c → D' i j = some c) := by
    intro es
    induction es with
    | nil => intro _ st D h hD; exact ⟨st, D, rfl, h, hD, by simp, fun _ _ _ h => h⟩
    | cons e es ih =>
      intro hes st D h hD
      have he := hes e (by simp)
      obtain ⟨dist, next, e1, e2, r1⟩ := setCells h (hends _ _ _ he).1 (j := e.target) e.value (.name e.source)
      obtain ⟨st', D', e3, r2, s2, c2, m2⟩ := ih (fun x hx => hes x (by simp [hx])) ⟨dist, next⟩ _ r1 (by
        intro i j c
        split
        · rename_i hij
          intro hc
          injection hc with hc
          rw [hij.1, hij.2, ← hc]
          exact he
        · exact hD i j c)
      refine ⟨st', D', ?_, r2, s2, ?_, ?_⟩
      · rw [forList, fwEdge, e1, ok_bind, e2, ok_bind, ok_bind, e3]
      · intro x hx
        rcases List.mem_cons.1 hx with rfl | hx
        · exact m2 _ _ _ (by simp)
        · exact c2 x hx
      · intro i j c hc
        refine m2 i j c ?_
        split
        · rename_i hij
          rw [← he, ← hij.1, ← hij.2]
          exact hD i j c hc
        · exact hc
  obtain ⟨st1, D1, e1, r1, s1, c1, _⟩ := edges items (fun e he => (hit.mem _ _ _).2 he) (fwInit vs) _ hin (by simp)
  have diag : ∀ (ks : List String), (∀ k ∈ ks, k ∈ vs) → ∀ (st : FW) D, FWRep vs st D →
      ∃ st' D', forList ks st (fun v st => fwDiag v st) = .ok st' ∧ FWRep vs st' D' ∧ (∀ i j, i ≠ j → D' i j = D i j) ∧
        (∀ i, i ∈ ks → D' i i = some 0) ∧ (∀ i, D' i i = D i i ∨ D' i i = some 0) ∧ (∀ i, i ∉ ks → D' i i = D i i) := by
    intro ks
    induction ks with
    | nil => intro _ st D h; exact ⟨st, D, rfl, h, fun _ _ _ => rfl, by simp, fun _ => Or.inl rfl, fun _ _ => rfl⟩
    | cons k ks ih =>
      intro hks st D h
      obtain ⟨dist, next, e1, e2, r1⟩ := setCells h (hks k (by simp)) (j := k) 0 (.name k)
      obtain ⟨st', D', e3, r2, s2, c2, m2, o2⟩ := ih (fun x hx => hks x (by simp [hx])) ⟨dist, next⟩ _ r1
      refine ⟨st', D', ?_, r2, ?_, ?_, ?_, ?_⟩
      · rw [forList, fwDiag, e1, ok_bind, e2, ok_bind, ok_bind, e3]
      · intro i j hij
        rw [s2 i j hij, if_neg]
        rintro ⟨rfl, rfl⟩
        exact hij rfl
      · intro i hi
        rcases List.mem_cons.1 hi with rfl | hi
        · rcases m2 i with h | h
          · rw [h]; simp
          · exact h
        · exact c2 i hi
      · intro i
        rcases m2 i with h | h
        · by_cases hik : i = k
          · right; rw [h]; simp [hik]
          · left; rw [h]; simp [hik]
        · exact Or.inr h
      · intro i hi
        have hik : i ≠ k := fun e => hi (by simp [e])
        rw [o2 i (fun h => hi (by simp [h]))]
        simp [hik]
  obtain ⟨st2, D2, e2, r2, s2, c2, m2, o2⟩ := diag vs (fun _ h => h) st1 D1 r1
  refine ⟨st1, st2, D2, e1, e2, r2, ?_, ?_⟩
  · intro i j c hc
    by_cases hij : i = j
    · subst hij
      by_cases hi : i ∈ vs
      · rw [c2 i hi] at hc
        cases hc
        exact ⟨hi, hi, .nil⟩
      · rw [o2 i hi] at hc
        exact absurd (hends _ _ _ (s1 _ _ _ hc)).1 hi
    · rw [s2 i j hij] at hc
      have := s1 i j c hc
      obtain ⟨h1, h2⟩ := hends _ _ _ this
      exact ⟨h1, h2, (Via.edge (S := []) this).walk⟩
  · intro i hi j hj c hv
    cases hv with
    | nil => exact ⟨0, c2 i hi, Int.le_refl _⟩
    | edge hx =>
      by_cases hij : i = j
      · subst hij
        refine ⟨0, c2 i hi, ?_⟩
        by_cases hc : c < 0
        · exact absurd ⟨i, 0, c, .nil, (Via.edge (S := []) hx).walk, hc⟩ (hneg i)
        · omega
      · exact ⟨c, by rw [s2 i j hij]; exact c1 _ ((hit.mem _ _ _).1 hx), Int.le_refl _⟩
    | snoc _ h _ => cases h

/-- **C67.** Without negative cycles the call returns, and the entry for `i`, `j` is the least weight of a walk from `i` to `j`, or is missing
(infinite) when there is no walk. -/
theorem C67_floyd_warshall {nb : String → PyM (List String)} {ws : String → Option GEdge} (hg : WGraph vs nb ws wt) {items : List GEdge}
    (hit : EdgeItems wt items) (hneg : ∀ u, ¬ NegativeCycle wt u) :
    ∃ st, floydWarshall vs items = .ok st ∧ st.dist.keys = vs ∧
      ∀ i ∈ vs, ∃ row, st.dist.val i = some row ∧ ∀ j ∈ vs, Distance wt i j (row.val j) := by
  obtain ⟨st1, st2, D, e1, e2, hr, hI⟩ := fwStart_spec hg.ends hit hneg
  have loop : ∀ (ks S : List String), (∀ k ∈ ks, k ∈ vs) → ∀ (st : FW) D, FWRep vs st D → FWInv vs wt S D →
      ∃ st' D', forList ks st (fun k st => fwPhase vs k st) = .ok st' ∧ FWRep vs st' D' ∧ FWInv vs wt (S ++ ks) D' := by
    intro ks
    induction ks with
    | nil => intro S _ st D h hI; exact ⟨st, D, rfl, h, by simpa using hI⟩
    | cons k ks ih =>
      intro S hks st D h hI
      have hk := hks k (by simp)
      obtain ⟨st1, e1, r1⟩ := fwPhase_spec hk (hI.diag hneg hk) h (by
        intro i j hj
        cases hd : D i j with
        | none => rfl
        | some c => exact absurd (hI.sound i j c hd).2.1 hj) (by
        intro i j hi
        cases hd : D i j with
        | none => rfl
        | some c => exact absurd (hI.sound i j c hd).1 hi)
      obtain ⟨st2, D2, e2, r2, i2⟩ := ih (S ++ [k]) (fun x hx => hks x (by simp [hx])) st1 _ r1 (hI.step hneg hk)
      exact ⟨st2, D2, by rw [forList, e1, ok_bind, e2], r2, by simpa using i2⟩
  obtain ⟨st, D', e3, r3, i3⟩ := loop vs [] (fun _ h => h) st2 D hr hI
  refine ⟨st, by rw [floydWarshall, e1, ok_bind, e2, ok_bind, e3], r3.keys, fun i hi => ?_⟩
  obtain ⟨row, h1, h2⟩ := r3.cell i hi
  refine ⟨row, h1, fun j hj => ?_⟩
  rw [h2 j]
  cases hd : D' i j with
  | some c =>
    refine ⟨(i3.sound i j c hd).2.2, fun c' hc' => ?_⟩
    obtain ⟨d, h3, h4⟩ := i3.complete i hi j hj c' (by simpa using walkW_via hg.ends hc')
    rw [hd] at h3
    cases h3
    exact h4
  | none =>
    intro c hc
    obtain ⟨d, h3, _⟩ := i3.complete i hi j hj c (by simpa using walkW_via hg.ends hc)
    rw [hd] at h3
    cases h3

end

/-! ## Non-vacuity: a graph with a negative edge and no negative cycle -/

theorem exRoads_cost (u v : String) : exRoadsD.cost u v = if u = "d" ∧ v = "a" then some 1 else if u = "c" ∧ v = "b" then some (-3) else
      if u = "a" ∧ v = "c" then some 6 else if u = "a" ∧ v = "b" then some 4 else none := by
  simp [exRoadsD, exRoadsOps, final, digraphSpec, Digraph.empty]

def exRoadsItems : List GEdge := [⟨"a", "b", 4⟩, ⟨"a", "c", 6⟩, ⟨"c", "b", -3⟩, ⟨"d", "a", 1⟩]

theorem exRoads_items : EdgeItems (Digraph.wt exRoadsD) exRoadsItems := by
  constructor
  intro u v x
  have he : exRoadsD.edges = [("a", "b"), ("a", "c"), ("c", "b"), ("d", "a")] := by decide +kernel
  constructor
  · intro h
    have := (Digraph.wt_some h).2
    rw [exRoads_cost] at this
    repeat' split at this
    all_goals simp_all [exRoadsItems]
  · intro h
    simp only [exRoadsItems, List.mem_cons, List.not_mem_nil, or_false, GEdge.mk.injEq] at h
    rcases h with ⟨rfl, rfl, rfl⟩ | ⟨rfl, rfl, rfl⟩ | ⟨rfl, rfl, rfl⟩ | ⟨rfl, rfl, rfl⟩ <;> decide +kernel

/-- No negative cycle: the potential 1, 2, 5, 0 of a, b, c, d makes all reduced weights non-negative. -/
theorem exRoads_noNegative (u : String) : ¬ NegativeCycle (Digraph.wt exRoadsD) u := by
  let π : String → Int := fun v => if v = "a" then 1 else if v = "b" then 2 else if v = "c" then 5 else 0
  have hx : ∀ u v x, Digraph.wt exRoadsD u v = some x → π v ≤ π u + x := by
    intro u v x h
    have := (Digraph.wt_some h).2
    rw [exRoads_cost] at this
    simp only [π]
    repeat' split at this
    all_goals simp_all
    all_goals omega
  have hw : ∀ u v c, WalkW (Digraph.wt exRoadsD) u v c → π v ≤ π u + c := by
    intro u v c h
    induction h with
    | nil => omega
    | snoc _ h ih => have := hx _ _ _ h; omega
  rintro ⟨x, _, c, _, h2, h3⟩
  have := hw _ _ _ h2
  omega

example : (floydWarshall exRoads.vertices exRoadsItems).map (fun st => ["a", "b", "c", "d"].map fun i => ["a", "b", "c", "d"].map fun j => getCell st.dist i j) =
    .ok [[some 0, some 3, some 6, none], [none, some 0, none, none], [none, some (-3), some 0, none], [some 1, some 4, some 7, some 0]] := by
  decide +kernel

end Props
