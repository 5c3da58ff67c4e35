import Verif.Props.BellmanFord
import Verif.Props.BinomialHeap

/-! # C66: Dijkstra's algorithm -/
namespace Props
open Py Model Spec

theorem infLe_order : KeyOrder infLe := by
  constructor
  · intro a b
    cases a <;> cases b <;> simp [infLe, infLt]
    omega
  · intro a b c
    cases a <;> cases b <;> cases c <;> simp [infLe, infLt]
    omega

/-- The edges that the algorithm uses. -/
def nonneg (wt : String → String → Option Int) (u v : String) : Option Int := (wt u v).filter fun x => decide (0 ≤ x)

theorem nonneg_some {wt : String → String → Option Int} {u v : String} {x : Int} : nonneg wt u v = some x ↔ wt u v = some x ∧ 0 ≤ x := by
  simp [nonneg, Option.filter_eq_some_iff]

section
variable {vs : List String} {ws : String → Option GEdge} {wt : String → String → Option Int} {start : String}

abbrev Entries := List (Option Int × String)

/-- The invariant: `D` are the distances found so far, `P` the predecessors, `Vis` the visited vertices, `es` the entries of the queue. The edges `(u, w)` of
the visited vertices with `R u w` have been looked at. -/
structure DJInv (vs : List String) (wt : String → String → Option Int) (start : String) (es : Entries) (D : String → Option Int)
    (P : String → Option String) (Vis : List String) (R : String → String → Prop) : Prop where
  vnodup : Vis.Nodup
  vsub : ∀ u ∈ Vis, u ∈ vs
  ent : ∀ e ∈ es, e.2 ∈ vs
  zero : D start = some 0
  dom : ∀ v c, D v = some c → v ∈ vs ∧ 0 ≤ c ∧ WalkW (nonneg wt) start v c
  todo : ∀ v ∈ vs, v ∉ Vis → (D v, v) ∈ es
  above : ∀ e ∈ es, infLe (D e.2) e.1 = true
  past : ∀ u ∈ Vis, ∀ e ∈ es, infLe (D u) e.1 = true
  tight : ∀ u ∈ Vis, ∀ du, D u = some du → ∀ w x, nonneg wt u w = some x → R u w → ∃ dw, D w = some dw ∧ dw ≤ du + x
  link : ∀ v, (P v = none ∧ (D v = none ∨ v = start)) ∨
    ∃ u du x, P v = some u ∧ u ∈ Vis ∧ D u = some du ∧ nonneg wt u v = some x ∧ D v = some (du + x)

/-- All edges into `w` have the weight `c w`, and the distances found so far are at most `c w` more than that of a visited vertex. -/
def DJEqual (wt : String → String → Option Int) (start : String) (c : String → Int) (D : String → Option Int) (Vis : List String) : Prop :=
  (∀ u w x, wt u w = some x → 0 ≤ x ∧ x = c w) ∧ ∀ w dw, D w = some dw → w = start ∨ ∃ p ∈ Vis, ∃ dp, D p = some dp ∧ dw ≤ dp + c w

/-- The number of finite entries, and of finite distances. -/
def finiteEntries (es : Entries) : Nat := (es.filter fun e => e.1.isSome).length
def finiteDists (vs : List String) (D : String → Option Int) : Nat := (vs.map fun v => if (D v).isSome then 1 else 0).sum

/-- The state of the program. -/
structure DJState (vs : List String) (start : String) (st : Dijkstra) (D : String → Option Int) (P : String → Option String) (Vis : List String) : Prop where
  visited : st.visited = dictOf vs (fun v => decide (v ∈ Vis))
  dist : st.dist = dictOf (vs.filter (fun v => v ≠ start) ++ [start]) D
  pred : st.pred = dictOf vs P
  heap : BHeapOk infLe st.pq

theorem mem_djKeys (hs : start ∈ vs) (v : String) : v ∈ vs.filter (fun v => v ≠ start) ++ [start] ↔ v ∈ vs := by
  by_cases h : v = start
  · subst h; simp [hs]
  · simp [h]

/-- One neighbour of the vertex `cur`, just visited, whose distance is `dc`. -/
theorem djRelax_spec (hn : vs.Nodup)
    (hget : ∀ u ∈ vs, ∀ v ∈ vs, ws (u ++ "_" ++ v) = (wt u v).map fun x => ⟨u, v, x⟩) (hs : start ∈ vs) {c : Option (String → Int)}
    {st : Dijkstra} {D P Vis} (hS : DJState vs start st D P Vis) {cur w : String} {done : List String} (hw : w ∈ vs) (hcur : cur ∈ Vis)
    (h : DJInv vs wt start (bhEntries st.pq) D P Vis (fun y z => y ≠ cur ∨ z ∈ done))
    (hfirst : ∀ u ∈ Vis, infLe (D u) (D cur) = true) (hc : ∀ c', c = some c' → DJEqual wt start c' D Vis) :
    ∃ st' D' P' k, djRelax ws cur w st = .ok st' ∧ DJState vs start st' D' P' Vis ∧
      DJInv vs wt start (bhEntries st'.pq) D' P' Vis (fun y z => y ≠ cur ∨ z ∈ done ++ [w]) ∧ (∀ u ∈ Vis, D' u = D u) ∧
      finiteEntries (bhEntries st'.pq) = finiteEntries (bhEntries st.pq) + k ∧ (k ≤ if (wt cur w).isSome then 1 else 0) ∧
      (∀ c', c = some c' → DJEqual wt start c' D' Vis ∧ finiteDists vs D' = finiteDists vs D + k) ∧ (D cur = none → k = 0) ∧
      (bhEntries st'.pq).length = (bhEntries st.pq).length + k := by
  have hcv := h.vsub cur hcur
  have hk1 := (mem_djKeys hs cur).2 hcv
  have hk2 := (mem_djKeys hs w).2 hw
  -- nothing changes
  have same : (∀ dc x, D cur = some dc → nonneg wt cur w = some x → ∃ dw, D w = some dw ∧ dw ≤ dc + x) → djRelax ws cur w st = .ok st →
      ∃ st' D' P' k, djRelax ws cur w st = .ok st' ∧ DJState vs start st' D' P' Vis ∧
      DJInv vs wt start (bhEntries st'.pq) D' P' Vis (fun y z => y ≠ cur ∨ z ∈ done ++ [w]) ∧ (∀ u ∈ Vis, D' u = D u) ∧
      finiteEntries (bhEntries st'.pq) = finiteEntries (bhEntries st.pq) + k ∧ (k ≤ if (wt cur w).isSome then 1 else 0) ∧
      (∀ c', c = some c' → DJEqual wt start c' D' Vis ∧ finiteDists vs D' = finiteDists vs D + k) ∧ (D cur = none → k = 0) ∧
      (bhEntries st'.pq).length = (bhEntries st.pq).length + k := by
    intro ht e
    refine ⟨st, D, P, 0, e, hS, ⟨h.vnodup, h.vsub, h.ent, h.zero, h.dom, h.todo, h.above, h.past, ?_, h.link⟩, fun _ _ => rfl, rfl, Nat.zero_le _,
      fun c' hc' => ⟨hc c' hc', rfl⟩, fun _ => rfl, rfl⟩
    intro u hu du hdu z x hx hR
    by_cases hz : u = cur ∧ z = w
    · obtain ⟨rfl, rfl⟩ := hz
      exact ht du x hdu hx
    · refine h.tight u hu du hdu z x hx ?_
      rcases hR with hR | hR
      · exact Or.inl hR
      · rcases List.mem_append.1 hR with hR | hR
        · exact Or.inr hR
        · exact Or.inl fun e => hz ⟨e, by simpa using hR⟩
  obtain ⟨o, hx⟩ : ∃ o, wt cur w = o := ⟨_, rfl⟩
  cases o with
  | none =>
    refine same ?_ ?_
    · intro dc x _ hx'; rw [(nonneg_some.1 hx').1] at hx; cases hx
    · rw [djRelax, hget cur hcv w hw, hx]; rfl
  | some x =>
    have hg : ws (cur ++ "_" ++ w) = some ⟨cur, w, x⟩ := by rw [hget cur hcv w hw, hx]; rfl
    by_cases hx0 : 0 ≤ x
    · have hxn : nonneg wt cur w = some x := nonneg_some.2 ⟨hx, hx0⟩
      by_cases hwv : w ∈ Vis
      · refine same ?_ ?_
        · intro dc x' hdc hx'
          have := hfirst w hwv
          rw [hdc] at this
          cases hdw : D w with
          | none => rw [hdw] at this; simp [infLe, infLt] at this
          | some dw =>
            rw [hdw] at this
            simp [infLe, infLt] at this
            have := (nonneg_some.1 hx').2
            exact ⟨dw, rfl, by omega⟩
        · simp only [djRelax, hg, ge_iff_le, hx0, if_true, hS.visited, dictOf_get hw, ok_bind, hwv, decide_true]
      · by_cases hlt : infLt (infAdd (D cur) x) (D w) = true
        · -- an improvement
          obtain ⟨o2, hdc⟩ : ∃ o, D cur = o := ⟨_, rfl⟩
          cases o2 with
          | none => rw [hdc] at hlt; simp [infAdd, infLt] at hlt
          | some dc =>
            rw [hdc] at hlt
            simp only [infAdd] at hlt
            obtain ⟨_, hdc0, hwalk⟩ := h.dom cur dc hdc
            obtain ⟨pq', e1, hok, hp⟩ := C38_insert infLe_order hS.heap (some (dc + x)) w
            have hws : w ≠ start := by
              rintro rfl
              rw [h.zero] at hlt
              simp [infLt] at hlt
              omega
            have hwc : w ≠ cur := fun e => hwv (e ▸ hcur)
            let D' : String → Option Int := fun u => if u = w then some (dc + x) else D u
            let P' : String → Option String := fun u => if u = w then some cur else P u
            have hD' : ∀ u, u ≠ w → D' u = D u := fun u hu => by simp [D', hu]
            have hDV : ∀ u ∈ Vis, D' u = D u := fun u hu => hD' u fun e => hwv (e ▸ hu)
            have hle : ∀ u, infLe (D' u) (D u) = true := by
              intro u
              by_cases hu : u = w
              · subst hu
                simp only [D', if_true]
                cases hdw : D u with
                | none => simp [infLe, infLt]
                | some dw => rw [hdw] at hlt; simp [infLt] at hlt; simp [infLe, infLt]; omega
              · rw [hD' u hu]; exact infLe_order.refl _
            refine ⟨{ st with dist := st.dist.set w (some (dc + x)), pred := st.pred.set w (some cur), pq := pq' }, D', P', 1, ?_,
              ⟨hS.visited, ?_, ?_, hok⟩, ⟨h.vnodup, h.vsub, ?_, ?_, ?_, ?_, ?_, ?_, ?_, ?_⟩, hDV, ?_, ?_, ?_, ?_, by simp [hp.length_eq]⟩
            · simp only [djRelax, hg, ge_iff_le, hx0, if_true, hS.visited, dictOf_get hw, ok_bind, hwv, decide_false, Bool.false_eq_true, if_false,
                hS.dist, dictOf_get hk1, dictOf_get hk2, hdc, infAdd, hlt, e1]
            · simp only [hS.dist]; exact dictOf_set hk2 _
            · simp only [hS.pred]; exact dictOf_set hw _
            · intro e he
              rcases List.mem_cons.1 (hp.mem_iff.1 he) with rfl | he
              · exact hw
              · exact h.ent e he
            · rw [hD' start (fun e => hws e.symm)]; exact h.zero
            · intro v c0 hv
              by_cases hvw : v = w
              · subst hvw
                simp only [D', if_true, Option.some.injEq] at hv
                subst hv
                exact ⟨hw, by omega, hwalk.snoc hxn⟩
              · rw [hD' v hvw] at hv; exact h.dom v c0 hv
            · intro v hv hvV
              by_cases hvw : v = w
              · subst hvw
                exact hp.mem_iff.2 (by simp [D'])
              · rw [hD' v hvw]; exact hp.mem_iff.2 (List.mem_cons_of_mem _ (h.todo v hv hvV))
            · intro e he
              rcases List.mem_cons.1 (hp.mem_iff.1 he) with rfl | he
              · simp only [D', if_true]; exact infLe_order.refl _
              · exact infLe_order.trans _ _ _ (hle e.2) (h.above e he)
            · intro u hu e he
              rw [hDV u hu]
              rcases List.mem_cons.1 (hp.mem_iff.1 he) with rfl | he
              · refine infLe_order.trans _ _ _ (hfirst u hu) ?_
                rw [hdc]
                simp [infLe, infLt]
                omega
              · exact h.past u hu e he
            · intro u hu du hdu z y hy hR
              rw [hDV u hu] at hdu
              by_cases hz : u = cur ∧ z = w
              · obtain ⟨rfl, rfl⟩ := hz
                rw [hxn] at hy
                rw [hdc] at hdu
                cases hy
                cases hdu
                exact ⟨dc + x, by simp [D'], Int.le_refl _⟩
              · obtain ⟨dw, h1, h2⟩ := h.tight u hu du hdu z y hy (by
                  rcases hR with hR | hR
                  · exact Or.inl hR
                  · rcases List.mem_append.1 hR with hR | hR
                    · exact Or.inr hR
                    · exact Or.inl fun e => hz ⟨e, by simpa using hR⟩)
                have := hle z
                rw [h1] at this
                cases hz' : D' z with
                | none => rw [hz'] at this; simp [infLe, infLt] at this
                | some dz =>
                  rw [hz'] at this
                  simp [infLe, infLt] at this
                  exact ⟨dz, rfl, by omega⟩
            · intro v
              by_cases hvw : v = w
              · subst hvw
                right
                exact ⟨cur, dc, x, by simp [P'], hcur, by rw [hDV cur hcur]; exact hdc, hxn, by simp [D']⟩
              · rcases h.link v with ⟨h1, h2⟩ | ⟨u, du, y, h1, h2, h3, h4, h5⟩
                · left; exact ⟨by simp [P', hvw, h1], by rw [hD' v hvw]; exact h2⟩
                · right; exact ⟨u, du, y, by simp [P', hvw, h1], h2, by rw [hDV u h2]; exact h3, h4, by rw [hD' v hvw]; exact h5⟩
            · have := (hp.filter fun e => e.1.isSome).length_eq
              simp only [finiteEntries]
              rw [this]
              simp
            · simp [hx]
            · intro c' hc'
              obtain ⟨g2, g3⟩ := hc c' hc'
              have hxc := (g2 _ _ _ hx).2
              have hnone : D w = none := by
                cases hdw : D w with
                | none => rfl
                | some dw =>
                  exfalso
                  rw [hdw] at hlt
                  simp [infLt] at hlt
                  rcases g3 w dw hdw with h1 | ⟨p, p1, dp, p2, p3⟩
                  · exact hws h1
                  · have := hfirst p p1
                    rw [p2, hdc] at this
                    simp [infLe, infLt] at this
                    omega
              refine ⟨⟨g2, ?_⟩, ?_⟩
              · intro v dv hv
                by_cases hvw : v = w
                · subst hvw
                  right
                  simp only [D', if_true, Option.some.injEq] at hv
                  exact ⟨cur, hcur, dc, by rw [hDV cur hcur]; exact hdc, by omega⟩
                · rw [hD' v hvw] at hv
                  rcases g3 v dv hv with h1 | ⟨p, p1, dp, p2, p3⟩
                  · exact Or.inl h1
                  · exact Or.inr ⟨p, p1, dp, by rw [hDV p p1]; exact p2, p3⟩
              · have := sum_update (fun v => if (D v).isSome then 1 else 0) (fun v => if (D' v).isSome then 1 else 0) w vs hn hw (by
                  intro u hu; simp only [hD' u hu])
                simp only [finiteDists]
                simp [hnone, D'] at this
                simp only [D']
                omega
            · intro h'; rw [hdc] at h'; cases h'
        · refine same ?_ ?_
          · intro dc x' hdc hx'
            rw [hxn] at hx'
            cases hx'
            rw [hdc] at hlt
            cases hdw : D w with
            | none => rw [hdw] at hlt; simp [infLt, infAdd] at hlt
            | some dw => rw [hdw] at hlt; simp [infLt, infAdd] at hlt; exact ⟨dw, rfl, by omega⟩
          · simp only [djRelax, hg, ge_iff_le, hx0, if_true, hS.visited, dictOf_get hw, ok_bind, hwv, decide_false, Bool.false_eq_true, if_false,
              hS.dist, dictOf_get hk1, dictOf_get hk2, hlt]
    · refine same ?_ ?_
      · intro dc x' _ hx'
        obtain ⟨h1, h2⟩ := nonneg_some.1 hx'
        rw [hx] at h1
        cases h1
        exact absurd h2 hx0
      · simp only [djRelax, hg, ge_iff_le, hx0, if_false]

theorem djRelaxAll_spec (hn : vs.Nodup)
    (hget : ∀ u ∈ vs, ∀ v ∈ vs, ws (u ++ "_" ++ v) = (wt u v).map fun x => ⟨u, v, x⟩) (hs : start ∈ vs) {c : Option (String → Int)} {Vis : List String} {cur : String}
    (hcur : cur ∈ Vis) : ∀ (ns done : List String) (st : Dijkstra) (D P), DJState vs start st D P Vis → (∀ w ∈ ns, w ∈ vs) →
    DJInv vs wt start (bhEntries st.pq) D P Vis (fun y z => y ≠ cur ∨ z ∈ done) → (∀ u ∈ Vis, infLe (D u) (D cur) = true) →
    (∀ c', c = some c' → DJEqual wt start c' D Vis) →
    ∃ st' D' P' k, forList ns st (fun v st => djRelax ws cur v st) = .ok st' ∧ DJState vs start st' D' P' Vis ∧
      DJInv vs wt start (bhEntries st'.pq) D' P' Vis (fun y z => y ≠ cur ∨ z ∈ done ++ ns) ∧
      finiteEntries (bhEntries st'.pq) = finiteEntries (bhEntries st.pq) + k ∧ k ≤ (ns.filter fun w => (wt cur w).isSome).length ∧
      (∀ c', c = some c' → DJEqual wt start c' D' Vis ∧ finiteDists vs D' = finiteDists vs D + k) ∧ (D cur = none → k = 0) ∧
      (bhEntries st'.pq).length = (bhEntries st.pq).length + k := by
  intro ns
  induction ns with
  | nil =>
    intro done st D P hS _ h _ hc
    exact ⟨st, D, P, 0, rfl, hS, by simpa using h, rfl, Nat.zero_le _, fun c' hc' => ⟨hc c' hc', rfl⟩, fun _ => rfl, rfl⟩
  | cons w ns ih =>
    intro done st D P hS hns h hf hc
    obtain ⟨st1, D1, P1, k1, e1, hS1, h1, hV1, f1, b1, q1, z1, l1⟩ := djRelax_spec hn hget hs hS (hns w (by simp)) hcur h hf hc
    obtain ⟨st2, D2, P2, k2, e2, hS2, h2, f2, b2, q2, z2, l2⟩ := ih (done ++ [w]) st1 D1 P1 hS1 (fun u hu => hns u (by simp [hu])) h1
      (by intro u hu; rw [hV1 u hu, hV1 cur hcur]; exact hf u hu) (fun c' hc' => (q1 c' hc').1)
    refine ⟨st2, D2, P2, k1 + k2, by rw [forList, e1, ok_bind, e2], hS2, by simpa using h2, by omega, ?_, ?_, ?_, by omega⟩
    · rw [List.filter_cons]
      split at b1
      · rename_i hw; rw [if_pos hw]; simp only [List.length_cons]; omega
      · rename_i hw; rw [if_neg hw]; omega
    · intro c' hc'
      have a1 := (q1 c' hc').2
      obtain ⟨a2, a3⟩ := q2 c' hc'
      exact ⟨a2, by omega⟩
    · intro h0
      have := z1 h0
      have := z2 (by rw [hV1 cur hcur]; exact h0)
      omega

/-- A vertex that comes from the queue a second time changes nothing. -/
theorem djStale_spec (hget : ∀ u ∈ vs, ∀ v ∈ vs, ws (u ++ "_" ++ v) = (wt u v).map fun x => ⟨u, v, x⟩) (hs : start ∈ vs)
    {st : Dijkstra} {es D P Vis} (hS : DJState vs start st D P Vis) {cur : String} (hcur : cur ∈ Vis)
    (h : DJInv vs wt start es D P Vis (fun _ _ => True)) :
    ∀ (ns : List String), (∀ w ∈ ns, w ∈ vs) → forList ns st (fun v st => djRelax ws cur v st) = .ok st := by
  intro ns
  induction ns with
  | nil => intro _; rfl
  | cons w ns ih =>
    intro hns
    have hw := hns w (by simp)
    have hcv := h.vsub cur hcur
    have hk1 := (mem_djKeys hs cur).2 hcv
    have hk2 := (mem_djKeys hs w).2 hw
    have : djRelax ws cur w st = .ok st := by
      obtain ⟨o, hx⟩ : ∃ o, wt cur w = o := ⟨_, rfl⟩
      cases o with
      | none => rw [djRelax, hget cur hcv w hw, hx]; rfl
      | some x =>
        have hg : ws (cur ++ "_" ++ w) = some ⟨cur, w, x⟩ := by rw [hget cur hcv w hw, hx]; rfl
        by_cases hx0 : 0 ≤ x
        · by_cases hwv : w ∈ Vis
          · simp only [djRelax, hg, ge_iff_le, hx0, if_true, hS.visited, dictOf_get hw, ok_bind, hwv, decide_true]
          · have hlt : infLt (infAdd (D cur) x) (D w) = false := by
              cases hdc : D cur with
              | none => simp [infAdd, infLt]
              | some dc =>
                obtain ⟨dw, h1, h2⟩ := h.tight cur hcur dc hdc w x (nonneg_some.2 ⟨hx, hx0⟩) trivial
                rw [h1]
                simp [infAdd, infLt]
                omega
            simp only [djRelax, hg, ge_iff_le, hx0, if_true, hS.visited, dictOf_get hw, ok_bind, hwv, decide_false, Bool.false_eq_true, if_false,
              hS.dist, dictOf_get hk1, dictOf_get hk2, hlt]
        · simp only [djRelax, hg, ge_iff_le, hx0, if_false]
    rw [forList, this, ok_bind]
    exact ih fun u hu => hns u (by simp [hu])

/-- The number of edges that leave the vertices of `l`. -/
def edgesFrom (vs : List String) (wt : String → String → Option Int) (l : List String) : Nat :=
  (l.map fun u => (vs.filter fun w => (wt u w).isSome).length).sum

theorem finiteEntries_perm {a b : Entries} (h : a.Perm b) : finiteEntries a = finiteEntries b := (h.filter _).length_eq

/-- One round. -/
theorem djRound_spec (hn : vs.Nodup) (hends : ∀ u v x, wt u v = some x → u ∈ vs ∧ v ∈ vs)
    (hget : ∀ u ∈ vs, ∀ v ∈ vs, ws (u ++ "_" ++ v) = (wt u v).map fun x => ⟨u, v, x⟩) (hs : start ∈ vs) {c : Option (String → Int)}
    {st : Dijkstra} {D P Vis} (hS : DJState vs start st D P Vis) (h : DJInv vs wt start (bhEntries st.pq) D P Vis (fun _ _ => True))
    (hne : bhEntries st.pq ≠ []) (hc : ∀ c', c = some c' → DJEqual wt start c' D Vis) :
    ∃ st' D' P' Vis' k, djRound vs ws st = .ok st' ∧ DJState vs start st' D' P' Vis' ∧
      DJInv vs wt start (bhEntries st'.pq) D' P' Vis' (fun _ _ => True) ∧
      ((0 < finiteEntries (bhEntries st.pq) ∧ finiteEntries (bhEntries st'.pq) + 1 = finiteEntries (bhEntries st.pq) + k) ∨ finiteEntries (bhEntries st'.pq) = 0) ∧
      edgesFrom vs wt Vis + k ≤ edgesFrom vs wt Vis' ∧
      (∀ c', c = some c' → DJEqual wt start c' D' Vis' ∧ finiteDists vs D' = finiteDists vs D + k) ∧
      (bhEntries st'.pq).length + 1 = (bhEntries st.pq).length + k := by
  rcases C38_minimum infLe_order hS.heap with ⟨h0, _⟩ | ⟨nd, i, pq', e1, hmin, e2, hok, hp⟩
  · exact absurd h0 hne
  have hpop : bpqPop infLe st.pq = .ok (nd.data, pq') := by rw [bpqPop, e1, ok_bind]; dsimp only; rw [e2, ok_bind]
  have hin : (nd.key, nd.data) ∈ bhEntries st.pq := hp.mem_iff.2 (by simp)
  have huv : nd.data ∈ vs := h.ent _ hin
  have hsub : ∀ e, e ∈ bhEntries pq' → e ∈ bhEntries st.pq := fun e he => hp.mem_iff.2 (List.mem_cons_of_mem _ he)
  have hlen : (bhEntries st.pq).length = (bhEntries pq').length + 1 := by rw [hp.length_eq]; simp
  have hfin : finiteEntries (bhEntries st.pq) = finiteEntries (bhEntries pq') + (if nd.key.isSome then 1 else 0) := by
    rw [finiteEntries_perm hp, finiteEntries, List.filter_cons, finiteEntries]
    split <;> simp
  have hinf : nd.key = none → finiteEntries (bhEntries pq') = 0 := by
    intro hk
    rw [finiteEntries, List.length_eq_zero_iff, List.filter_eq_nil_iff]
    intro e he
    have := hmin e (hsub e he)
    rw [hk] at this
    cases hek : e.1 with
    | none => simp
    | some x => rw [hek] at this; simp [infLe, infLt] at this
  by_cases hV : nd.data ∈ Vis
  · -- a stale entry
    have hS' : DJState vs start { st with pq := pq', visited := st.visited.set nd.data true } D P Vis := by
      refine ⟨?_, hS.dist, hS.pred, hok⟩
      simp only [hS.visited]
      rw [dictOf_set huv]
      congr 1
      funext v
      by_cases hv : v = nd.data
      · simp [hv, hV]
      · simp [hv]
    refine ⟨_, D, P, Vis, 0, ?_, hS', ⟨h.vnodup, h.vsub, fun e he => h.ent e (hsub e he), h.zero, h.dom, ?_, fun e he => h.above e (hsub e he),
      fun u hu e he => h.past u hu e (hsub e he), h.tight, h.link⟩, ?_, by omega, fun c' hc' => ⟨hc c' hc', rfl⟩, ?_⟩
    · rw [djRound, hpop, ok_bind]
      exact djStale_spec hget hs hS' hV h vs (fun _ h => h)
    · intro v hv hvV
      rcases List.mem_cons.1 (hp.mem_iff.1 (h.todo v hv hvV)) with e | e
      · exact absurd (by injection e with _ e; rw [e]; exact hV) hvV
      · exact e
    · cases hk : nd.key with
      | none => right; exact hinf hk
      | some x => left; rw [hk] at hfin; simp at hfin; simp only; omega
    · simp only; omega
  · -- a new vertex
    have hk : infLe nd.key (D nd.data) = true := hmin _ (h.todo _ huv hV)
    have hle : ∀ v ∈ Vis ++ [nd.data], infLe (D v) (D nd.data) = true := by
      intro v hv
      rcases List.mem_append.1 hv with hv | hv
      · exact infLe_order.trans _ _ _ (h.past v hv _ hin) hk
      · simp at hv; rw [hv]; exact infLe_order.refl _
    have hS' : DJState vs start { st with pq := pq', visited := st.visited.set nd.data true } D P (Vis ++ [nd.data]) := by
      refine ⟨?_, hS.dist, hS.pred, hok⟩
      simp only [hS.visited]
      rw [dictOf_set huv]
      congr 1
      funext v
      by_cases hv : v = nd.data
      · simp [hv]
      · simp [hv]
    have h' : DJInv vs wt start (bhEntries pq') D P (Vis ++ [nd.data]) (fun y z => y ≠ nd.data ∨ z ∈ ([] : List String)) := by
      refine ⟨?_, ?_, fun e he => h.ent e (hsub e he), h.zero, h.dom, ?_, fun e he => h.above e (hsub e he), ?_, ?_, ?_⟩
      · exact List.nodup_append.2 ⟨h.vnodup, by simp, by rintro a ha b hb rfl; simp at hb; subst hb; exact hV ha⟩
      · intro u hu
        rcases List.mem_append.1 hu with hu | hu
        · exact h.vsub u hu
        · simp at hu; rw [hu]; exact huv
      · intro v hv hvV
        rcases List.mem_cons.1 (hp.mem_iff.1 (h.todo v hv fun hm => hvV (by simp [hm]))) with e | e
        · exact absurd (by injection e with _ e; rw [e]; simp) hvV
        · exact e
      · intro u hu e he
        rcases List.mem_append.1 hu with hu | hu
        · exact h.past u hu e (hsub e he)
        · simp at hu
          rw [hu]
          exact infLe_order.trans _ _ _ (h.above _ hin) (hmin e (hsub e he))
      · intro u hu du hdu w x hx hR
        rcases hR with hR | hR
        · rcases List.mem_append.1 hu with hu | hu
          · exact h.tight u hu du hdu w x hx trivial
          · exact absurd (by simpa using hu) hR
        · cases hR
      · intro v
        rcases h.link v with h1 | ⟨u, du, y, h1, h2, h3⟩
        · exact Or.inl h1
        · exact Or.inr ⟨u, du, y, h1, by simp [h2], h3⟩
    obtain ⟨st2, D2, P2, k, e3, hS2, h2, f2, b2, q2, z2, l2⟩ := djRelaxAll_spec hn hget hs (c := c) (Vis := Vis ++ [nd.data]) (cur := nd.data) (by simp)
      vs [] _ D P hS' (fun _ h => h) h' hle (by
        intro c' hc'
        obtain ⟨g2, g3⟩ := hc c' hc'
        refine ⟨g2, fun w dw hw => ?_⟩
        rcases g3 w dw hw with h1 | ⟨p, p1, p2⟩
        · exact Or.inl h1
        · exact Or.inr ⟨p, by simp [p1], p2⟩)
    simp only at f2 l2
    refine ⟨st2, D2, P2, Vis ++ [nd.data], k, ?_, hS2, ⟨h2.vnodup, h2.vsub, h2.ent, h2.zero, h2.dom, h2.todo, h2.above, h2.past, ?_, h2.link⟩,
      ?_, ?_, q2, by omega⟩
    · rw [djRound, hpop, ok_bind]
      exact e3
    · intro u hu du hdu w x hx _
      refine h2.tight u hu du hdu w x hx (Or.inr ?_)
      simpa using (hends _ _ _ (nonneg_some.1 hx).1).2
    · cases hk' : nd.key with
      | none =>
        right
        have hd : D nd.data = none := by
          rw [hk'] at hk
          cases hd : D nd.data with
          | none => rfl
          | some d => rw [hd] at hk; simp [infLe, infLt] at hk
        rw [f2, z2 hd, hinf hk']
      | some x => left; rw [hk'] at hfin; simp at hfin; omega
    · simp only [edgesFrom, List.map_append, List.map_cons, List.map_nil, List.sum_append, List.sum_cons, List.sum_nil]
      omega

theorem sum_le_of_subset (f : String → Nat) : ∀ (a b : List String), a.Nodup → (∀ x ∈ a, x ∈ b) → (a.map f).sum ≤ (b.map f).sum := by
  intro a
  induction a with
  | nil => intro b _ _; simp
  | cons x a ih =>
    intro b hn hsub
    obtain ⟨h1, h2⟩ := List.nodup_cons.1 hn
    have hp := List.perm_cons_erase (hsub x (by simp))
    have h3 := ih (b.erase x) h2 (by
      intro y hy
      have hne : y ≠ x := fun e => h1 (e ▸ hy)
      exact (List.mem_erase_of_ne hne).2 (hsub y (by simp [hy])))
    have h4 := (hp.map f).sum_nat
    simp only [List.map_cons, List.sum_cons] at h4 ⊢
    omega

/-- The queue after all vertices have been pushed. -/
theorem djFill_spec (vs : List String) (start : String) : ∃ st, djFill (djInit vs start) = .ok st ∧
    DJState vs start st (fun v => if v = start then some 0 else none) (fun _ => none) [] ∧
    (bhEntries st.pq).Perm ((vs.filter (fun v => v ≠ start) ++ [start]).map fun v => (if v = start then some 0 else none, v)) := by
  let ks := vs.filter (fun v => v ≠ start) ++ [start]
  let D0 : String → Option Int := fun v => if v = start then some 0 else none
  have hd : (djInit vs start).dist = dictOf ks D0 := by
    simp only [djInit, PyDict.const, PyDict.set, dictOf, ks, D0]
    congr 1
    · simp
    · funext j
      by_cases hj : j = start
      · subst hj; simp
      · simp [hj]
  have key : ∀ (ns : List String) (st : Dijkstra), st.dist = dictOf ks D0 → BHeapOk infLe st.pq → (∀ v ∈ ns, v ∈ ks) →
      ∃ pq, forList ns st (fun v st => do
        let d ← st.dist.get v
        let pq ← bhInsert infLe st.pq d v
        .ok { st with pq := pq }) = .ok { st with pq := pq } ∧ BHeapOk infLe pq ∧ (bhEntries pq).Perm (ns.map (fun v => (D0 v, v)) ++ bhEntries st.pq) := by
    intro ns
    induction ns with
    | nil => intro st _ hok _; exact ⟨st.pq, rfl, hok, .refl _⟩
    | cons v ns ih =>
      intro st hd hok hns
      obtain ⟨pq1, e1, ok1, p1⟩ := C38_insert infLe_order hok (D0 v) v
      obtain ⟨pq2, e2, ok2, p2⟩ := ih { st with pq := pq1 } hd ok1 (fun u hu => hns u (by simp [hu]))
      refine ⟨pq2, ?_, ok2, ?_⟩
      · rw [forList]
        simp only [hd, dictOf_get (hns v (by simp)), ok_bind, e1]
        simp only [hd] at e2
        rw [e2]
      · refine p2.trans ?_
        refine (p1.append_left _).trans ?_
        simp only [List.map_cons, List.cons_append]
        exact List.perm_middle
  obtain ⟨pq, e, hok, hp⟩ := key ks (djInit vs start) hd (by exact .nil) (fun _ h => h)
  refine ⟨{ djInit vs start with pq := pq }, ?_, ⟨?_, hd, ?_, hok⟩, ?_⟩
  · rw [djFill, hd]
    exact e
  · simp only [djInit]; rw [dictOf_const]; simp
  · simp only [djInit]; rw [dictOf_const]
  · have h0 : bhEntries (djInit vs start).pq = [] := by simp [djInit, bhEntries]
    rw [h0, List.append_nil] at hp
    exact hp

/-- The whole run: what is known of the result for any weights, and when the queue has no finite entry left at the end. -/
theorem dijkstra_spec (hn : vs.Nodup) (hends : ∀ u v x, wt u v = some x → u ∈ vs ∧ v ∈ vs)
    (hget : ∀ u ∈ vs, ∀ v ∈ vs, ws (u ++ "_" ++ v) = (wt u v).map fun x => ⟨u, v, x⟩) (hs : start ∈ vs) (c : Option (String → Int))
    (hc : ∀ c', c = some c' → ∀ u w x, wt u w = some x → 0 ≤ x ∧ x = c' w) :
    ∃ D P es Vis m, dijkstra vs ws start = .ok (dictOf (vs.filter (fun v => v ≠ start) ++ [start]) D, dictOf vs P) ∧
      DJInv vs wt start es D P Vis (fun _ _ => True) ∧ (finiteEntries es = 0 ∨ finiteEntries es + vs.length = 1 + m) ∧ m ≤ edgesFrom vs wt vs ∧
      (c.isSome → finiteDists vs D = 1 + m) := by
  obtain ⟨st0, e0, hS0, hp0⟩ := djFill_spec vs start
  have hks : (vs.filter (fun v => v ≠ start) ++ [start]).length = vs.length := by
    have : (vs.filter (fun v => v ≠ start) ++ [start]).Perm vs := by
      refine (List.perm_ext_iff_of_nodup ?_ hn).2 (mem_djKeys hs)
      exact List.nodup_append.2 ⟨List.Pairwise.filter _ hn, by simp, by
        rintro a ha b hb rfl
        simp at ha hb
        exact ha.2 hb⟩
    exact this.length_eq
  let I : Nat → Dijkstra → Prop := fun i st => ∃ D P Vis m, DJState vs start st D P Vis ∧
    DJInv vs wt start (bhEntries st.pq) D P Vis (fun _ _ => True) ∧ (finiteEntries (bhEntries st.pq) = 0 ∨ finiteEntries (bhEntries st.pq) + i = 1 + m) ∧
    (bhEntries st.pq).length + i = vs.length + m ∧ m ≤ edgesFrom vs wt Vis ∧
    (∀ c', c = some c' → DJEqual wt start c' D Vis ∧ finiteDists vs D = 1 + m)
  have h0 : I 0 st0 := by
    refine ⟨_, _, [], 0, hS0, ⟨List.nodup_nil, by simp, ?_, by simp, ?_, ?_, ?_, by simp, by simp, ?_⟩, ?_, ?_, Nat.zero_le _, ?_⟩
    · intro e he
      have := hp0.mem_iff.1 he
      obtain ⟨v, hv, rfl⟩ := List.mem_map.1 this
      exact (mem_djKeys hs v).1 hv
    · intro v c hv
      by_cases h : v = start
      · simp [h] at hv; subst hv; rw [h]; exact ⟨hs, Int.le_refl _, .nil⟩
      · simp [h] at hv
    · intro v hv _
      exact hp0.mem_iff.2 (List.mem_map.2 ⟨v, (mem_djKeys hs v).2 hv, rfl⟩)
    · intro e he
      obtain ⟨v, hv, rfl⟩ := List.mem_map.1 (hp0.mem_iff.1 he)
      exact infLe_order.refl _
    · intro v
      left
      refine ⟨rfl, ?_⟩
      by_cases h : v = start
      · exact Or.inr h
      · left; simp [h]
    · right
      rw [finiteEntries_perm hp0, finiteEntries, List.map_append, List.filter_append]
      have : ((vs.filter (fun v => v ≠ start)).map fun v => ((if v = start then some 0 else none : Option Int), v)).filter (fun e => e.1.isSome) = [] := by
        rw [List.filter_eq_nil_iff]
        intro e he
        obtain ⟨v, hv, rfl⟩ := List.mem_map.1 he
        have : v ≠ start := by simpa using (List.mem_filter.1 hv).2
        simp [this]
      rw [this]
      simp
    · rw [hp0.length_eq, List.length_map, hks]
    · intro c' hc'
      refine ⟨⟨hc c' hc', ?_⟩, ?_⟩
      · intro w dw hw
        by_cases h : w = start
        · exact Or.inl h
        · simp [h] at hw
      · have h1 := sum_update (fun _ => 0) (fun v => if (if v = start then some (0 : Int) else none).isSome then 1 else 0) start vs hn hs (by
          intro u hu; simp [hu])
        have h2 : (vs.map fun _ => 0).sum = 0 := by
          generalize vs = l
          induction l with
          | nil => rfl
          | cons a l ih => simp [ih]
        simp only [finiteDists]
        simp only [if_true, Option.isSome_some] at h1
        omega
  obtain ⟨st, e, D, P, Vis, m, hS, hI, hF, hL, hm, hq⟩ := forRange_spec I (Nat.zero_le vs.length) h0 (body := fun _ st => djRound vs ws st) (by
    intro i st _ hi ⟨D, P, Vis, m, hS, hI, hF, hL, hm, hq⟩
    obtain ⟨st', D', P', Vis', k, e1, hS', hI', hF', hm', hq', hL'⟩ := djRound_spec hn hends hget hs (c := c) hS hI (by
      intro h; rw [h] at hL; simp at hL; omega) (fun c' hc' => (hq c' hc').1)
    refine ⟨st', e1, D', P', Vis', m + k, hS', hI', ?_, by omega, by omega, ?_⟩
    · rcases hF' with h | h
      · rcases hF with h1 | h1
        · omega
        · right; omega
      · exact Or.inl h
    · intro c' hc'
      obtain ⟨h1, h2⟩ := hq c' hc'
      obtain ⟨h3, h4⟩ := hq' c' hc'
      exact ⟨h3, by omega⟩)
  refine ⟨D, P, bhEntries st.pq, Vis, m, ?_, hI, hF, Nat.le_trans hm (sum_le_of_subset _ Vis vs hI.vnodup hI.vsub), ?_⟩
  · rw [dijkstra, e0, ok_bind, e, ok_bind, hS.dist, hS.pred]
  · intro h
    obtain ⟨c', hc'⟩ := Option.isSome_iff_exists.1 h
    exact (hq c' hc').2

/-- When no finite entry is left, the distances are those of the edges of non-negative weight. -/
theorem DJInv.exact {es : Entries} {D P Vis} (h : DJInv vs wt start es D P Vis (fun _ _ => True)) (h0 : finiteEntries es = 0) (v : String) :
    Distance (nonneg wt) start v (D v) := by
  have hvis : ∀ v c, D v = some c → v ∈ Vis := by
    intro v c hv
    refine Classical.byContradiction fun hn => ?_
    have := h.todo v (h.dom v c hv).1 hn
    rw [finiteEntries, List.length_eq_zero_iff, List.filter_eq_nil_iff] at h0
    exact h0 _ this (by simp [hv])
  have ht : ∀ u du, D u = some du → ∀ w x, nonneg wt u w = some x → ∃ dw, D w = some dw ∧ dw ≤ du + x :=
    fun u du hu w x hx => h.tight u (hvis u du hu) du hu w x hx trivial
  cases hv : D v with
  | some c =>
    refine ⟨(h.dom v c hv).2.2, fun c' hc' => ?_⟩
    obtain ⟨dv, h1, h2⟩ := hc'.potential ht h.zero
    rw [hv] at h1
    cases h1
    omega
  | none =>
    intro c hc
    obtain ⟨dv, h1, _⟩ := hc.potential ht h.zero
    rw [hv] at h1
    cases h1

theorem nonneg_eq (h : ∀ u v x, wt u v = some x → 0 ≤ x) : nonneg wt = wt := by
  funext u v
  cases hx : wt u v with
  | none => simp [nonneg, hx]
  | some x => simp [nonneg, hx, h u v x hx]

theorem finiteDists_le (vs : List String) (D : String → Option Int) : finiteDists vs D ≤ vs.length := by
  induction vs with
  | nil => simp [finiteDists]
  | cons a l ih =>
    simp only [finiteDists, List.map_cons, List.sum_cons, List.length_cons] at ih ⊢
    split <;> omega

/-! ## The theorems -/

/-- What every result of Dijkstra's algorithm satisfies: each finite distance is the weight of a walk of edges of non-negative weight, and the
predecessors describe such a walk. -/
structure DijkstraSound (vs : List String) (wt : String → String → Option Int) (start : String) (dist : PyDict String (Option Int))
    (pred : PyDict String (Option String)) : Prop where
  zero : dist.val start = some (some 0)
  walk : ∀ v ∈ vs, ∃ d, dist.val v = some d ∧ ∀ c, d = some c → WalkW (nonneg wt) start v c
  pred : ∀ v ∈ vs, (pred.val v = some none ∧ (v = start ∨ dist.val v = some none)) ∨
    ∃ u du x, pred.val v = some (some u) ∧ dist.val u = some (some du) ∧ nonneg wt u v = some x ∧ dist.val v = some (some (du + x))

theorem dijkstra_sound {es : Entries} {D P Vis} (hs : start ∈ vs) (h : DJInv vs wt start es D P Vis (fun _ _ => True)) :
    DijkstraSound vs wt start (dictOf (vs.filter (fun v => v ≠ start) ++ [start]) D) (dictOf vs P) := by
  have hv : ∀ v ∈ vs, (dictOf (vs.filter (fun v => v ≠ start) ++ [start]) D).val v = some (D v) := by
    intro v hv; simp only [dictOf]; rw [if_pos ((mem_djKeys hs v).2 hv)]
  refine ⟨by rw [hv start hs, h.zero], fun v hvs => ⟨D v, hv v hvs, fun c hc => (h.dom v c hc).2.2⟩, fun v hvs => ?_⟩
  rw [hv v hvs]
  have hp : (dictOf vs P).val v = some (P v) := by simp [dictOf, hvs]
  rw [hp]
  rcases h.link v with ⟨h1, h2⟩ | ⟨u, du, x, h1, h2, h3, h4, h5⟩
  · left
    refine ⟨by rw [h1], ?_⟩
    rcases h2 with h2 | h2
    · right; rw [h2]
    · exact Or.inl h2
  · right
    exact ⟨u, du, x, by rw [h1], by rw [hv u (h.vsub u h2), h3], h4, by rw [h5]⟩

/-- C66, what holds for all weights: the call returns, and each finite distance is the weight of a walk (but perhaps not the least). -/
theorem C66_sound_partial {nb : String → PyM (List String)} (hg : WGraph vs nb ws wt) (hs : start ∈ vs) :
    ∃ dist pred, dijkstra vs ws start = .ok (dist, pred) ∧ DijkstraSound vs wt start dist pred := by
  obtain ⟨D, P, es, Vis, m, e, hI, _, _, _⟩ := dijkstra_spec hg.nodup hg.ends hg.get hs none (by simp)
  exact ⟨_, _, e, dijkstra_sound hs hI⟩

/-- C66 for graphs with fewer edges than vertices: the distances are exact. -/
theorem C66_few_edges_partial {nb : String → PyM (List String)} (hg : WGraph vs nb ws wt) (hs : start ∈ vs)
    (hpos : ∀ u v x, wt u v = some x → 0 ≤ x) (hfew : edgesFrom vs wt vs < vs.length) :
    ∃ dist pred, dijkstra vs ws start = .ok (dist, pred) ∧ DijkstraSound vs wt start dist pred ∧
      ∀ v ∈ vs, ∃ d, dist.val v = some d ∧ Distance wt start v d := by
  obtain ⟨D, P, es, Vis, m, e, hI, hF, hm, _⟩ := dijkstra_spec hg.nodup hg.ends hg.get hs none (by simp)
  refine ⟨_, _, e, dijkstra_sound hs hI, fun v hv => ⟨D v, ?_, ?_⟩⟩
  · simp only [dictOf]; rw [if_pos ((mem_djKeys hs v).2 hv)]
  · have := hI.exact (by omega) v
    rwa [nonneg_eq hpos] at this

/-- C66 for graphs in which any two edges into the same vertex have the same non-negative weight, whatever the number of edges (so in particular when
all weights are equal, when no vertex has two incoming edges, or when the weights are costs of the vertices). -/
theorem C66_by_target_partial {nb : String → PyM (List String)} (hg : WGraph vs nb ws wt) (hs : start ∈ vs)
    (hpos : ∀ u v x, wt u v = some x → 0 ≤ x) (heq : ∀ u u' v x x', wt u v = some x → wt u' v = some x' → x = x') :
    ∃ dist pred, dijkstra vs ws start = .ok (dist, pred) ∧ DijkstraSound vs wt start dist pred ∧
      ∀ v ∈ vs, ∃ d, dist.val v = some d ∧ Distance wt start v d := by
  have hc : ∃ c : String → Int, ∀ u w x, wt u w = some x → x = c w := by
    refine ⟨fun w => (((vs.filterMap fun u => wt u w).head?).getD 0), fun u w x hx => ?_⟩
    show x = (((vs.filterMap fun u => wt u w).head?).getD 0)
    have hm : x ∈ vs.filterMap fun u => wt u w := List.mem_filterMap.2 ⟨u, (hg.ends u w x hx).1, hx⟩
    cases hl : vs.filterMap fun u => wt u w with
    | nil => rw [hl] at hm; cases hm
    | cons y l =>
      have hy : y ∈ vs.filterMap fun u => wt u w := by rw [hl]; exact List.mem_cons_self
      obtain ⟨u', _, hu'⟩ := List.mem_filterMap.1 hy
      exact heq u u' w x y hx hu'
  obtain ⟨c, hc⟩ := hc
  obtain ⟨D, P, es, Vis, m, e, hI, hF, _, hq⟩ := dijkstra_spec hg.nodup hg.ends hg.get hs (some c) (by
    rintro c' ⟨⟩ u w x hx; exact ⟨hpos u w x hx, hc u w x hx⟩)
  refine ⟨_, _, e, dijkstra_sound hs hI, fun v hv => ⟨D v, ?_, ?_⟩⟩
  · simp only [dictOf]; rw [if_pos ((mem_djKeys hs v).2 hv)]
  · have h1 := hq rfl
    have h2 := finiteDists_le vs D
    have := hI.exact (by omega) v
    rwa [nonneg_eq hpos] at this

/-- C66 for graphs all of whose edges have the same weight, whatever their number. -/
theorem C66_equal_weights_partial {nb : String → PyM (List String)} (hg : WGraph vs nb ws wt) (hs : start ∈ vs) {c : Int} (hc : 0 ≤ c)
    (heq : ∀ u v x, wt u v = some x → x = c) :
    ∃ dist pred, dijkstra vs ws start = .ok (dist, pred) ∧ DijkstraSound vs wt start dist pred ∧
      ∀ v ∈ vs, ∃ d, dist.val v = some d ∧ Distance wt start v d :=
  C66_by_target_partial hg hs (fun u v x hx => by rw [heq u v x hx]; exact hc)
    (fun u u' v x x' hx hx' => by rw [heq u v x hx, heq u' v x' hx'])

/-- C66 as one would state it. -/
def C66_full : Prop := ∀ (vs : List String) (nb : String → PyM (List String)) (ws : String → Option GEdge) (wt : String → String → Option Int)
    (start : String), WGraph vs nb ws wt → start ∈ vs → (∀ u v x, wt u v = some x → 0 ≤ x) →
    ∃ dist pred, dijkstra vs ws start = .ok (dist, pred) ∧ ∀ v ∈ vs, ∃ d, dist.val v = some d ∧ Distance wt start v d

end
/-! ## The counterexample and non-vacuity -/

/-- Seven vertices; `b` and `a` are improved several times, so the seven pops do not reach `d`. -/
def exDetourOps : List GraphOp := [.addVertex "s", .addVertex "a", .addVertex "b", .addVertex "c", .addVertex "d", .addVertex "e",
  .addEdge "s" "a" (some 10), .addEdge "s" "b" (some 5), .addEdge "s" "c" (some 1), .addEdge "c" "b" (some 1), .addEdge "b" "a" (some 1),
  .addEdge "a" "d" (some 100), .addEdge "d" "e" (some 1)]
def exDetour : AList := final (alStep exGAttr exNAttr) alNew exDetourOps
def exDetourD : Digraph := final digraphSpec Digraph.empty exDetourOps

theorem exDetour_rep : AlRep exDetour exDetourD :=
  al_history_rep exDetourOps (by
    intro op h
    simp only [exDetourOps, List.mem_cons, List.not_mem_nil, or_false] at h
    rcases h with rfl | rfl | rfl | rfl | rfl | rfl | rfl | rfl | rfl | rfl | rfl | rfl | rfl <;> simp only [GraphOp.All, Plain] <;> decide) (by
    intro op h s t e; subst e; simp [exDetourOps] at h)

theorem exDetour_verts : exDetour.vertices = ["s", "a", "b", "c", "d", "e"] := by decide +kernel
theorem exDetour_edges : exDetourD.edges = [("s", "a"), ("s", "b"), ("s", "c"), ("c", "b"), ("b", "a"), ("a", "d"), ("d", "e")] := by decide +kernel
theorem exDetour_cost (u v : String) : exDetourD.cost u v = if u = "d" ∧ v = "e" then some 1 else if u = "a" ∧ v = "d" then some 100 else
      if u = "b" ∧ v = "a" then some 1 else if u = "c" ∧ v = "b" then some 1 else if u = "s" ∧ v = "c" then some 1 else
      if u = "s" ∧ v = "b" then some 5 else if u = "s" ∧ v = "a" then some 10 else none := by
  simp [exDetourD, exDetourOps, final, digraphSpec, Digraph.empty]

theorem exDetour_wgraph : WGraph exDetour.vertices (alNeighbors exDetour) exDetour.weights (Digraph.wt exDetourD) := by
  have hv : exDetourD.verts = ["s", "a", "b", "c", "d", "e"] := by decide +kernel
  refine exDetour_rep.wgraph ⟨?_⟩ ?_ ?_
  · intro s t hs ht
    rw [hv] at hs ht
    revert t
    revert s
    decide +kernel
  · rw [exDetour_edges]; decide +kernel
  · intro u v x hx
    rw [exDetour_cost] at hx
    rw [exDetour_edges]
    repeat' split at hx
    all_goals simp_all

/-- The distance of `e` is said to be infinite, although there is a walk of weight 104. -/
theorem C66_full_false : ¬ C66_full := by
  intro h
  obtain ⟨dist, pred, e, hd⟩ := h _ _ _ _ "s" exDetour_wgraph (by decide +kernel) (by
    intro u v x hx
    have := (Digraph.wt_some hx).2
    rw [exDetour_cost] at this
    repeat' split at this
    all_goals simp_all
    all_goals omega)
  obtain ⟨d, h1, h2⟩ := hd "e" (by decide +kernel)
  have h3 : (dijkstra exDetour.vertices exDetour.weights "s").map (fun r => r.1.val "e") = .ok (some none) := by decide +kernel
  rw [e] at h3
  simp only [Except.map, Except.ok.injEq] at h3
  rw [h1] at h3
  cases h3
  have w : WalkW (Digraph.wt exDetourD) "s" "e" (0 + 10 + 100 + 1) := by
    refine WalkW.snoc (WalkW.snoc (WalkW.snoc .nil (v := "s") (w := "a") ?_) (w := "d") ?_) ?_ <;> decide +kernel
  exact h2 _ w

/-- The hypotheses of the three positive theorems are met. -/
example : "s" ∈ exDetour.vertices := by decide +kernel

def exTwoRoadsOps : List GraphOp := [.addVertex "a", .addVertex "b", .addVertex "c", .addEdge "a" "b" (some 4), .addEdge "b" "c" (some 1)]
def exTwoRoads : AList := final (alStep exGAttr exNAttr) alNew exTwoRoadsOps
def exTwoRoadsD : Digraph := final digraphSpec Digraph.empty exTwoRoadsOps

example : WGraph exTwoRoads.vertices (alNeighbors exTwoRoads) exTwoRoads.weights (Digraph.wt exTwoRoadsD) :=
  wgraph_of_history exTwoRoadsOps (by decide +kernel) (by intro op h s t e; subst e; simp [exTwoRoadsOps] at h) (by decide +kernel) (by decide +kernel)
example : "a" ∈ exTwoRoads.vertices ∧ edgesFrom exTwoRoads.vertices (Digraph.wt exTwoRoadsD) exTwoRoads.vertices < exTwoRoads.vertices.length := by
  decide +kernel
example : (dijkstra exTwoRoads.vertices exTwoRoads.weights "a").map (fun r => ["a", "b", "c"].map fun v => (r.1.val v, r.2.val v)) =
    .ok [(some (some 0), some none), (some (some 4), some (some "a")), (some (some 5), some (some "b"))] := by decide +kernel

/-- More edges than vertices, all of weight 2. -/
def exTwosOps : List GraphOp := [.addVertex "a", .addVertex "b", .addVertex "c", .addEdge "a" "b" (some 2), .addEdge "b" "c" (some 2),
  .addEdge "a" "c" (some 2), .addEdge "c" "a" (some 2)]
def exTwos : AList := final (alStep exGAttr exNAttr) alNew exTwosOps
def exTwosD : Digraph := final digraphSpec Digraph.empty exTwosOps

example : WGraph exTwos.vertices (alNeighbors exTwos) exTwos.weights (Digraph.wt exTwosD) :=
  wgraph_of_history exTwosOps (by decide +kernel) (by intro op h s t e; subst e; simp [exTwosOps] at h) (by decide +kernel) (by decide +kernel)
example (u v : String) (x : Int) (h : Digraph.wt exTwosD u v = some x) : x = 2 := by
  have := (Digraph.wt_some h).2
  have e : exTwosD.cost u v = if u = "c" ∧ v = "a" then some 2 else if u = "a" ∧ v = "c" then some 2 else if u = "b" ∧ v = "c" then some 2 else
      if u = "a" ∧ v = "b" then some 2 else none := by simp [exTwosD, exTwosOps, final, digraphSpec, Digraph.empty]
  rw [e] at this
  repeat' split at this
  all_goals simp_all
example : (dijkstra exTwos.vertices exTwos.weights "a").map (fun r => ["a", "b", "c"].map fun v => (r.1.val v, r.2.val v)) =
    .ok [(some (some 0), some none), (some (some 2), some (some "a")), (some (some 2), some (some "a"))] := by decide +kernel

/-- More edges than vertices, of different weights: 2 into `b`, 7 into `c`, 1 into `a`. -/
def exTollsOps : List GraphOp := [.addVertex "a", .addVertex "b", .addVertex "c", .addEdge "a" "b" (some 2), .addEdge "b" "c" (some 7),
  .addEdge "a" "c" (some 7), .addEdge "c" "a" (some 1), .addEdge "b" "a" (some 1)]
def exTolls : AList := final (alStep exGAttr exNAttr) alNew exTollsOps
def exTollsD : Digraph := final digraphSpec Digraph.empty exTollsOps

example : WGraph exTolls.vertices (alNeighbors exTolls) exTolls.weights (Digraph.wt exTollsD) :=
  wgraph_of_history exTollsOps (by decide +kernel) (by intro op h s t e; subst e; simp [exTollsOps] at h) (by decide +kernel) (by decide +kernel)
example (u v : String) (x : Int) (h : Digraph.wt exTollsD u v = some x) : x = if v = "a" then 1 else if v = "b" then 2 else 7 := by
  have := (Digraph.wt_some h).2
  have e : exTollsD.cost u v = if u = "b" ∧ v = "a" then some 1 else if u = "c" ∧ v = "a" then some 1 else if u = "a" ∧ v = "c" then some 7 else
      if u = "b" ∧ v = "c" then some 7 else if u = "a" ∧ v = "b" then some 2 else none := by
    simp [exTollsD, exTollsOps, final, digraphSpec, Digraph.empty]
  rw [e] at this
  repeat' split at this
  all_goals simp_all
example : (dijkstra exTolls.vertices exTolls.weights "b").map (fun r => ["a", "b", "c"].map fun v => (r.1.val v, r.2.val v)) =
    .ok [(some (some 1), some (some "b")), (some (some 0), some none), (some (some 7), some (some "b"))] := by decide +kernel

end Props
