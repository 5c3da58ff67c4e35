import Verif.Spec
import Verif.Lemmas.Walk
import Verif.Model.BfsParallel
import Verif.Props.GraphSearch

/-!
# C60: parallel breadth first search
-/
set_option linter.unusedSectionVars false
namespace Props
open Py Model Spec
variable {V : Type} [DecidableEq V] {verts : List V} {nbr : V → List V} {source : V} {neighbors : V → PyM (List V)}

/-- No cycle can be reached from `source`. -/
def AcyclicFrom (nbr : V → List V) (source : V) : Prop := ∀ v k, Reach nbr source v → 0 < k → ¬ Walk nbr v v k

/-- Every iteration order of a set lists exactly its elements. -/
def IterOrder (ord : Nat → List V → List V) : Prop := ∀ k l, (ord k l).Perm l

/-- The call is one that a search may make: an edge from a reachable vertex, or a reachable vertex without neighbours. -/
def LegalCall (nbr : V → List V) (source : V) (c : OpCall V) : Prop :=
  Reach nbr source c.1 ∧ match c.2 with
    | some v => v ∈ nbr c.1
    | none => nbr c.1 = []

theorem genExpand_spec (op : List (OpCall V) → Bool) (curr : V) : ∀ (ns next : List V) (calls : List (OpCall V)) (status : Bool),
    let r := genExpand op curr ns (next, calls, status)
    (∀ v, v ∈ r.1 ↔ v ∈ next ∨ v ∈ ns) ∧ (∀ c ∈ r.2.1, c ∈ calls ∨ ∃ v ∈ ns, c = (curr, some v)) ∧ (∀ c ∈ calls, c ∈ r.2.1) ∧
    ((∀ l, op l = true) → status = true → r.2.2 = true ∧ ∀ v ∈ ns, (curr, some v) ∈ r.2.1) := by
  intro ns
  induction ns with
  | nil => intro next calls status; simp [genExpand]
  | cons n ns ih =>
    intro next calls status
    simp only [genExpand]
    obtain ⟨h1, h2, h3, h4⟩ := ih (if n ∈ next then next else next ++ [n]) (if status then calls ++ [(curr, some n)] else calls)
      (status && op (if status then calls ++ [(curr, some n)] else calls))
    refine ⟨?_, ?_, ?_, ?_⟩
    · intro v
      rw [h1]
      split
      · simp only [List.mem_cons]
        constructor
        · rintro (h | h) <;> simp [h]
        · rintro (h | rfl | h) <;> simp_all
      · simp [or_assoc]
    · intro c hc
      rcases h2 c hc with hc | ⟨v, hv, rfl⟩
      · split at hc
        · simp only [List.mem_append, List.mem_singleton] at hc
          rcases hc with hc | rfl
          · exact Or.inl hc
          · exact Or.inr ⟨n, by simp, rfl⟩
        · exact Or.inl hc
      · exact Or.inr ⟨v, by simp [hv], rfl⟩
    · intro c hc
      apply h3
      split <;> simp [hc]
    · intro hop hst
      subst hst
      obtain ⟨e, h5⟩ := h4 hop (by simp [hop])
      refine ⟨e, ?_⟩
      intro v hv
      rcases List.mem_cons.1 hv with rfl | hv
      · apply h3; simp
      · exact h5 v hv

theorem genAll_spec (hn : ∀ v ∈ verts, neighbors v = .ok (nbr v)) (op : List (OpCall V) → Bool) : ∀ (vs next : List V) (calls : List (OpCall V))
    (status : Bool), (∀ v ∈ vs, v ∈ verts) → ∃ next' calls' status', genAll op neighbors vs (next, calls, status) = .ok (next', calls', status') ∧
    (∀ w, w ∈ next' ↔ w ∈ next ∨ ∃ v ∈ vs, w ∈ nbr v) ∧
    (∀ c ∈ calls', c ∈ calls ∨ c.1 ∈ vs ∧ match c.2 with | some v => v ∈ nbr c.1 | none => nbr c.1 = []) ∧
    (∀ c ∈ calls, c ∈ calls') ∧
    ((∀ l, op l = true) → status = true → status' = true ∧
      ∀ v ∈ vs, (∀ w ∈ nbr v, (v, some w) ∈ calls') ∧ (nbr v = [] → (v, none) ∈ calls')) := by
  intro vs
  induction vs with
  | nil => intro next calls status _; exact ⟨next, calls, status, rfl, by simp, by simp, by simp, by simp⟩
  | cons u vs ih =>
    intro next calls status hvs
    have hu := hn u (hvs u (by simp))
    have step : ∃ n1 c1 s1, genLayer op neighbors u next calls = .ok (n1, c1, s1) ∧ (∀ v, v ∈ n1 ↔ v ∈ next ∨ v ∈ nbr u) ∧
        (∀ c ∈ c1, c ∈ calls ∨ c.1 = u ∧ match c.2 with | some v => v ∈ nbr c.1 | none => nbr c.1 = []) ∧ (∀ c ∈ calls, c ∈ c1) ∧
        ((∀ l, op l = true) → s1 = true ∧ (∀ w ∈ nbr u, (u, some w) ∈ c1) ∧ (nbr u = [] → (u, none) ∈ c1)) := by
      unfold genLayer
      rw [hu]
      simp only [bind, Except.bind]
      by_cases h0 : nbr u = []
      · refine ⟨next, calls ++ [(u, none)], _, by simp [h0]; rfl, by simp [h0], ?_, fun c hc => by simp [hc], ?_⟩
        · intro c hc
          simp only [List.mem_append, List.mem_singleton] at hc
          rcases hc with hc | rfl
          · exact Or.inl hc
          · exact Or.inr ⟨rfl, h0⟩
        · intro hop; exact ⟨hop _, by simp [h0], by simp⟩
      · have : (nbr u).length ≠ 0 := by simpa using h0
        simp only [this, ne_eq, not_false_eq_true, if_true]
        obtain ⟨h1, h2, h3, h4⟩ := genExpand_spec op u (nbr u) next calls true
        refine ⟨_, _, _, rfl, h1, ?_, h3, ?_⟩
        · intro c hc
          rcases h2 c hc with hc | ⟨v, hv, rfl⟩
          · exact Or.inl hc
          · exact Or.inr ⟨rfl, hv⟩
        · intro hop
          exact ⟨(h4 hop rfl).1, (h4 hop rfl).2, fun h => absurd h h0⟩
    obtain ⟨n1, c1, s1, e1, a1, a2, a3, a4⟩ := step
    obtain ⟨n2, c2, s2, e2, b1, b2, b3, b4⟩ := ih n1 c1 s1 (fun v hv => hvs v (by simp [hv]))
    refine ⟨n2, c2, s2, ?_, ?_, ?_, fun c hc => b3 c (a3 c hc), ?_⟩
    · simp only [genAll, e1, bind, Except.bind]; exact e2
    · intro w
      rw [b1, a1]
      simp only [List.mem_cons, exists_eq_or_imp, or_assoc]
    · intro c hc
      rcases b2 c hc with hc | hc
      · rcases a2 c hc with hc | hc
        · exact Or.inl hc
        · exact Or.inr ⟨by simp [hc.1], hc.2⟩
      · exact Or.inr ⟨by simp [hc.1], hc.2⟩
    · intro hop _
      obtain ⟨hs1, hs2, hs3⟩ := a4 hop
      obtain ⟨ht1, ht2⟩ := b4 hop hs1
      refine ⟨ht1, ?_⟩
      intro v hv
      rcases List.mem_cons.1 hv with rfl | hv
      · exact ⟨fun w hw => b3 _ (hs2 w hw), fun h => b3 _ (hs3 h)⟩
      · exact ht2 v hv

/-- The loop from layer `k`: it ends when some layer `N` is empty, all calls are legal, and without early stop all legal calls are made. -/
theorem parLoop_ends (hg : FinGraph verts nbr) (hn : ∀ v ∈ verts, neighbors v = .ok (nbr v)) (hs : source ∈ verts) {ord : Nat → List V → List V}
    (ho : IterOrder ord) (op : List (OpCall V) → Bool) (N : Nat) (hN : ∀ v, ¬ Walk nbr source v N) :
    ∀ (fuel k : Nat) (layer : List V) (calls : List (OpCall V)), N < k + fuel → k ≤ N → (∀ v, v ∈ layer ↔ Walk nbr source v k) →
    (∀ c ∈ calls, LegalCall nbr source c) →
    ((∀ l, op l = true) → ∀ j v, j < k → Walk nbr source v j → (∀ w ∈ nbr v, (v, some w) ∈ calls) ∧ (nbr v = [] → (v, none) ∈ calls)) →
    ∃ r, bfsParLoop op neighbors ord fuel k layer calls = .ok r ∧ (∀ c ∈ r, LegalCall nbr source c) ∧
      ((∀ l, op l = true) → ∀ c, LegalCall nbr source c → c ∈ r) := by
  intro fuel
  induction fuel with
  | zero => intro k layer calls h1 h2; omega
  | succ fuel ih =>
    intro k layer calls h1 h2 hl hc hall
    cases layer with
    | nil =>
      refine ⟨calls, rfl, hc, ?_⟩
      intro hop c hcl
      obtain ⟨⟨j, hj⟩, hc2⟩ := hcl
      have hjk : j < k := by
        rcases Nat.lt_or_ge j k with h | h
        · exact h
        · exfalso
          have : ∀ i, ∀ v, ¬ Walk nbr source v (k + i) := by
            intro i
            induction i with
            | zero => intro v h; exact absurd ((hl v).2 h) (by simp)
            | succ i ihi => intro v h; cases h with | snoc h _ => exact ihi _ h
          exact this (j - k) c.1 (by rwa [Nat.add_sub_cancel' h])
      obtain ⟨x1, x2⟩ := hall hop j c.1 hjk hj
      obtain ⟨c1, c2⟩ := c
      cases c2 with
      | none => exact x2 hc2
      | some w => exact x1 w hc2
    | cons a l =>
      have hvs : ∀ v ∈ ord k (a :: l), v ∈ verts := fun v hv =>
        Walk.verts hg.closed hs ((hl v).1 ((ho k (a :: l)).mem_iff.1 hv))
      obtain ⟨n1, c1, s1, e1, g1, g2, g3, g4⟩ := genAll_spec hn op (ord k (a :: l)) [] calls true hvs
      simp only [bfsParLoop, e1, bind, Except.bind]
      have hleg : ∀ c ∈ c1, LegalCall nbr source c := by
        intro c hc1
        rcases g2 c hc1 with h | h
        · exact hc c h
        · exact ⟨⟨k, (hl _).1 ((ho k (a :: l)).mem_iff.1 h.1)⟩, h.2⟩
      by_cases hst : s1 = true
      · subst hst
        simp only [Bool.not_true, Bool.false_eq_true, if_false]
        have hkN : k + 1 ≤ N := by
          rcases Nat.lt_or_ge k N with h | h
          · exact h
          · exfalso
            have : k = N := by omega
            exact hN a (this ▸ (hl a).1 (by simp))
        refine ih (k + 1) n1 c1 (by omega) hkN ?_ hleg ?_
        · intro v
          rw [g1]
          simp only [List.not_mem_nil, false_or]
          constructor
          · rintro ⟨u, hu, hv⟩; exact ((hl u).1 ((ho k (a :: l)).mem_iff.1 hu)).snoc hv
          · intro h
            cases h with
            | snoc h hw => exact ⟨_, (ho k (a :: l)).mem_iff.2 ((hl _).2 h), hw⟩
        · intro hop j v hj hw
          rcases Nat.lt_or_ge j k with h | h
          · obtain ⟨x1, x2⟩ := hall hop j v h hw
            exact ⟨fun w hw => g3 _ (x1 w hw), fun h => g3 _ (x2 h)⟩
          · have : j = k := by omega
            subst this
            exact (g4 hop rfl).2 v ((ho j (a :: l)).mem_iff.2 ((hl v).2 hw))
      · have : s1 = false := by simpa using hst
        subst this
        refine ⟨c1, rfl, hleg, ?_⟩
        intro hop
        exact absurd (g4 hop rfl).1 (by simp)

theorem acyclic_bound (hg : FinGraph verts nbr) (hs : source ∈ verts) (ha : AcyclicFrom nbr source) : ∀ v, ¬ Walk nbr source v verts.length := by
  intro v hw
  obtain ⟨w, k, hr, hk, hc⟩ := Walk.pigeonhole hg.closed hs hw (Nat.le_refl _)
  exact ha w k hr hk hc

/-- C60, graphs without a reachable cycle: for every iteration order and every operation the search terminates and only makes legal calls; if the
operation never answers false, it makes every legal call, so that exactly the reachable vertices are announced (an edge may be announced
several times). -/
theorem C60_acyclic_partial (hg : FinGraph verts nbr) (hn : ∀ v ∈ verts, neighbors v = .ok (nbr v)) (hs : source ∈ verts)
    (ha : AcyclicFrom nbr source) {ord : Nat → List V → List V} (ho : IterOrder ord) (op : List (OpCall V) → Bool) :
    EndsIn (fun fuel => bfsParallel op neighbors ord source fuel) fun calls =>
      (∀ c ∈ calls, LegalCall nbr source c) ∧ ((∀ l, op l = true) → ∀ c, LegalCall nbr source c → c ∈ calls) := by
  refine ⟨verts.length + 1, fun n hle => ?_⟩
  refine parLoop_ends hg hn hs ho op verts.length (acyclic_bound hg hs ha) n 0 [source] [] (by omega) (by omega) ?_ (by simp) (by simp)
  intro v
  simp only [List.mem_singleton]
  constructor
  · rintro rfl; exact .nil
  · intro h; cases h; rfl

/-- What happens on the other graphs: if a cycle can be reached and the operation never answers false, the search never ends. -/
theorem C60_never_ends (hg : FinGraph verts nbr) (hn : ∀ v ∈ verts, neighbors v = .ok (nbr v)) (hs : source ∈ verts)
    (hc : ¬ AcyclicFrom nbr source) {ord : Nat → List V → List V} (ho : IterOrder ord) (fuel : Nat) :
    bfsParallel (fun _ => true) neighbors ord source fuel = .error .outOfFuel := by
  have hwalk : ∀ N, ∃ v, Walk nbr source v N := by
    intro N
    simp only [AcyclicFrom, Classical.not_forall, Classical.not_not] at hc
    obtain ⟨v, k, ⟨m, hm⟩, hk, hv⟩ := hc
    have hbig : ∀ i, Walk nbr source v (m + i * k) := by
      intro i
      induction i with
      | zero => simpa using hm
      | succ i ih =>
        have := Walk.append ih hv
        rwa [show m + i * k + k = m + (i + 1) * k by rw [Nat.add_mul]; omega] at this
    have hpre : ∀ n v, Walk nbr source v n → ∀ j, j ≤ n → ∃ w, Walk nbr source w j := by
      intro n v hw
      induction hw with
      | nil => intro j hj; exact ⟨source, (show j = 0 by omega) ▸ .nil⟩
      | @snoc v w n hw hm ih =>
        intro j hj
        rcases Nat.lt_or_ge j (n + 1) with h | h
        · exact ih j (by omega)
        · exact ⟨w, (show j = n + 1 by omega) ▸ hw.snoc hm⟩
    exact hpre _ _ (hbig N) N (by have := Nat.le_mul_of_pos_right N hk; omega)
  have key : ∀ (fuel k : Nat) (layer : List V) (calls : List (OpCall V)), (∀ v, v ∈ layer ↔ Walk nbr source v k) →
      bfsParLoop (fun _ => true) neighbors ord fuel k layer calls = .error .outOfFuel := by
    intro fuel
    induction fuel with
    | zero => intros; rfl
    | succ fuel ih =>
      intro k layer calls hl
      cases layer with
      | nil =>
        obtain ⟨v, hv⟩ := hwalk k
        exact absurd ((hl v).2 hv) (by simp)
      | cons a l =>
        have hvs : ∀ v ∈ ord k (a :: l), v ∈ verts := fun v hv =>
          Walk.verts hg.closed hs ((hl v).1 ((ho k (a :: l)).mem_iff.1 hv))
        obtain ⟨n1, c1, s1, e1, g1, g2, g3, g4⟩ := genAll_spec hn (fun _ => true) (ord k (a :: l)) [] calls true hvs
        obtain ⟨hst, _⟩ := g4 (fun _ => rfl) rfl
        subst hst
        simp only [bfsParLoop, e1, bind, Except.bind, Bool.not_true, Bool.false_eq_true, if_false]
        apply ih
        intro v
        rw [g1]
        simp only [List.not_mem_nil, false_or]
        constructor
        · rintro ⟨u, hu, hv⟩; exact ((hl u).1 ((ho k (a :: l)).mem_iff.1 hu)).snoc hv
        · intro h
          cases h with
          | snoc h hw => exact ⟨_, (ho k (a :: l)).mem_iff.2 ((hl _).2 h), hw⟩
  refine key fuel 0 [source] [] ?_
  intro v
  simp only [List.mem_singleton]
  constructor
  · rintro rfl; exact .nil
  · intro h; cases h; rfl

/-- C60, soundness on every graph, for every operation: a search that ends has only made legal calls. -/
theorem C60_sound (hg : FinGraph verts nbr) (hn : ∀ v ∈ verts, neighbors v = .ok (nbr v)) (hs : source ∈ verts)
    {ord : Nat → List V → List V} (ho : IterOrder ord) (op : List (OpCall V) → Bool) (fuel : Nat) (r : List (OpCall V))
    (h : bfsParallel op neighbors ord source fuel = .ok r) : ∀ c ∈ r, LegalCall nbr source c := by
  have key : ∀ (fuel k : Nat) (layer : List V) (calls : List (OpCall V)), (∀ v ∈ layer, Reach nbr source v) →
      (∀ c ∈ calls, LegalCall nbr source c) → bfsParLoop op neighbors ord fuel k layer calls = .ok r → ∀ c ∈ r, LegalCall nbr source c := by
    intro fuel
    induction fuel with
    | zero => intro k layer calls _ _ h; cases h
    | succ fuel ih =>
      intro k layer calls hl hc h
      cases layer with
      | nil => cases h; exact hc
      | cons a l =>
        have hr : ∀ v ∈ ord k (a :: l), Reach nbr source v := fun v hv => hl v ((ho k (a :: l)).mem_iff.1 hv)
        have hvs : ∀ v ∈ ord k (a :: l), v ∈ verts := fun v hv => by
          obtain ⟨n, hw⟩ := hr v hv
          exact Walk.verts hg.closed hs hw
        obtain ⟨n1, c1, s1, e1, g1, g2, _, _⟩ := genAll_spec hn op (ord k (a :: l)) [] calls true hvs
        simp only [bfsParLoop, e1, bind, Except.bind] at h
        have hleg : ∀ c ∈ c1, LegalCall nbr source c := by
          intro c hc1
          rcases g2 c hc1 with h | h
          · exact hc c h
          · exact ⟨hr _ h.1, h.2⟩
        split at h
        · cases h; exact hleg
        · refine ih (k + 1) n1 c1 ?_ hleg h
          intro v hv
          rcases (g1 v).1 hv with hv | ⟨u, hu, hv⟩
          · cases hv
          · obtain ⟨n, hw⟩ := hr u hu
            exact ⟨n + 1, hw.snoc hv⟩
  exact key fuel 0 [source] [] (fun v hv => by rw [List.mem_singleton.1 hv]; exact Reach.refl _ _) (by simp) h

/-- C60, exactly: with an operation that never answers false the search ends if and only if no cycle can be reached, and then the calls are
exactly the legal ones. -/
theorem C60_exact (hg : FinGraph verts nbr) (hn : ∀ v ∈ verts, neighbors v = .ok (nbr v)) (hs : source ∈ verts)
    {ord : Nat → List V → List V} (ho : IterOrder ord) :
    ((∃ fuel r, bfsParallel (fun _ => true) neighbors ord source fuel = .ok r) ↔ AcyclicFrom nbr source) ∧
    ∀ fuel r, bfsParallel (fun _ => true) neighbors ord source fuel = .ok r → ∀ c, c ∈ r ↔ LegalCall nbr source c := by
  have h1 : (∃ fuel r, bfsParallel (fun _ => true) neighbors ord source fuel = .ok r) → AcyclicFrom nbr source := by
    rintro ⟨fuel, r, e⟩
    refine Classical.byContradiction fun hc => ?_
    rw [C60_never_ends hg hn hs hc ho fuel] at e
    cases e
  have mono : ∀ (n m k : Nat) (layer : List V) (calls r : List (OpCall V)), bfsParLoop (fun _ => true) neighbors ord n k layer calls = .ok r →
      bfsParLoop (fun _ => true) neighbors ord (n + m) k layer calls = .ok r := by
    intro n
    induction n with
    | zero => intro m k layer calls r h; cases h
    | succ n ih =>
      intro m k layer calls r h
      rw [show n + 1 + m = (n + m) + 1 by omega]
      cases layer with
      | nil => exact h
      | cons a l =>
        cases e1 : genAll (fun _ => true) neighbors (ord k (a :: l)) ([], calls, true) with
        | error e => simp only [bfsParLoop, e1, bind, Except.bind] at h; cases h
        | ok st =>
          simp only [bfsParLoop, e1, bind, Except.bind] at h ⊢
          split at h
          · rename_i hc; rw [if_pos hc]; exact h
          · rename_i hc; rw [if_neg hc]; exact ih _ _ _ _ _ h
  refine ⟨⟨h1, fun ha => ?_⟩, fun fuel r e c => ⟨C60_sound hg hn hs ho _ fuel r e c, fun hc => ?_⟩⟩
  · obtain ⟨n, hN⟩ := C60_acyclic_partial hg hn hs ha ho (fun _ => true)
    obtain ⟨r, e, _⟩ := hN n (Nat.le_refl n)
    exact ⟨n, r, e⟩
  · obtain ⟨n, hN⟩ := C60_acyclic_partial hg hn hs (h1 ⟨fuel, r, e⟩) ho (fun _ => true)
    obtain ⟨r', e', _, hall⟩ := hN (n + fuel) (by omega)
    have := mono fuel n 0 [source] [] r e
    rw [show fuel + n = n + fuel by omega] at this
    have he : r = r' := Except.ok.inj (this.symm.trans e')
    rw [he]
    exact hall (fun _ => rfl) c hc

/-- Non-vacuity: the diamond 0 → 1, 2 → 3. -/
example : FinGraph [0, 1, 2, 3] (fun v => if v = 0 then [1, 2] else if v < 3 then [3] else []) ∧
    AcyclicFrom (fun v => if v = 0 then [1, 2] else if v < 3 then [3] else []) 0 ∧
    bfsParallel (fun _ => true) (fun v => .ok (if v = 0 then [1, 2] else if v < 3 then [3] else [])) (fun _ l => l.reverse) 0 9 =
      .ok [(0, some 1), (0, some 2), (2, some 3), (1, some 3), (3, none)] := by
  refine ⟨⟨by decide, by decide, by decide⟩, ?_, by decide⟩
  have key : ∀ u v k, Walk (fun v => if v = 0 then [1, 2] else if v < 3 then [3] else []) u v k → 0 < k → u < v := by
    intro u v k h
    induction h with
    | nil => intro h; omega
    | @snoc v w n hw hm ih =>
      intro _
      have h1 : v < w := by
        by_cases h0 : v = 0
        · simp [h0] at hm; omega
        · by_cases h3 : v < 3
          · simp [h0, h3] at hm; omega
          · simp [h0, h3] at hm
      cases n with
      | zero => cases hw; exact h1
      | succ n => have := ih (by omega); omega
  intro v k _ hk hw
  exact absurd (key v v k hw hk) (by omega)

/-- The full C60: the search terminates on every finite graph. -/
def C60_full : Prop := ∀ (verts : List Nat) (nbr : Nat → List Nat) (source : Nat), FinGraph verts nbr → source ∈ verts →
  ∀ ord, IterOrder ord → EndsIn (fun fuel => bfsParallel (fun _ => true) (fun v => .ok (nbr v)) ord source fuel) fun calls =>
    ∀ c, c ∈ calls ↔ LegalCall nbr source c

/-- C60 is false of the code: a single vertex with a loop is enough. -/
theorem C60_full_false : ¬ C60_full := by
  intro h
  have hg : FinGraph [0] (fun _ : Nat => [0]) := ⟨by decide, by simp, by simp⟩
  obtain ⟨n, hn⟩ := h [0] (fun _ => [0]) 0 hg (by simp) (fun _ l => l) (fun _ _ => List.Perm.refl _)
  obtain ⟨r, hr, _⟩ := hn n (Nat.le_refl n)
  have := C60_never_ends (neighbors := fun v => .ok [0]) hg (fun _ _ => rfl) (by simp)
    (fun hc => hc 0 1 (Reach.refl _ _) (by omega) (.snoc .nil (by simp))) (ord := fun _ l => l) (fun _ _ => List.Perm.refl _) n
  cases this.symm.trans hr

end Props
