import Verif.FlowSpec
import Verif.Model.MaxFlow
import Verif.Props.BellmanFord

/-! # C68: maximum flow -/
set_option linter.unusedSectionVars false
set_option linter.unusedSimpArgs false
namespace Props
open Py Model Spec

section cut
variable {V : Type} [DecidableEq V]

/-- The net flow out of `s` is the net flow over any cut between `s` and `t`. -/
theorem cut_value {S A : Finset V} {s t : V} {g : V → V → Int} (hsk : ∀ u v, g u v = - g v u)
    (hc : ∀ v ∈ S, v ≠ s → v ≠ t → ∑ w ∈ S, g v w = 0) (hA : A ⊆ S) (hs : s ∈ A) (ht : t ∉ A) :
    ∑ w ∈ S, g s w = ∑ v ∈ A, ∑ w ∈ S \ A, g v w := by
  have h1 : ∑ v ∈ A, ∑ w ∈ S, g v w = ∑ w ∈ S, g s w := by
    refine Finset.sum_eq_single_of_mem s hs ?_
    intro v hv hvs
    exact hc v (hA hv) hvs (fun e => ht (e ▸ hv))
  have h2 : ∑ v ∈ A, ∑ w ∈ A, g v w = 0 := by
    have e : ∑ v ∈ A, ∑ w ∈ A, g v w = - ∑ v ∈ A, ∑ w ∈ A, g v w := by
      conv_lhs => rw [Finset.sum_comm]
      rw [← Finset.sum_neg_distrib]
      refine Finset.sum_congr rfl fun v _ => ?_
      rw [← Finset.sum_neg_distrib]
      exact Finset.sum_congr rfl fun w _ => hsk w v
    omega
  rw [← h1]
  have h3 : ∀ v ∈ A, ∑ w ∈ S, g v w = ∑ w ∈ S \ A, g v w + ∑ w ∈ A, g v w := fun v _ => (Finset.sum_sdiff hA).symm
  rw [Finset.sum_congr rfl h3, Finset.sum_add_distrib, h2]
  omega

/-- A flow in the form that the program keeps: what passes from `u` to `v` less what passes from `v` to `u`. -/
structure NetFlow (S : Finset V) (cap : V → V → Int) (s t : V) (g : V → V → Int) : Prop where
  skew : ∀ u v, g u v = - g v u
  le_cap : ∀ u v, g u v ≤ cap u v
  conserved : ∀ v ∈ S, v ≠ s → v ≠ t → ∑ w ∈ S, g v w = 0

theorem NetFlow.isFlow {S : Finset V} {cap : V → V → Int} {s t : V} {g : V → V → Int} (h : NetFlow S cap s t g) (hcap : ∀ u v, 0 ≤ cap u v) :
    IsFlow S cap s t (fun u v => max (g u v) 0) ∧ flowValue S s (fun u v => max (g u v) 0) = ∑ w ∈ S, g s w := by
  have key : ∀ u v, max (g u v) 0 = g u v + max (g v u) 0 := by
    intro u v
    have := h.skew u v
    omega
  refine ⟨⟨fun u v => by omega, fun u v => by have := h.le_cap u v; have := hcap u v; omega, ?_⟩, ?_⟩
  · intro v hv h1 h2
    rw [Finset.sum_congr rfl (fun w _ => key v w), Finset.sum_add_distrib, h.conserved v hv h1 h2]
    omega
  · simp only [flowValue]
    rw [Finset.sum_congr rfl (fun w _ => key s w), Finset.sum_add_distrib]
    omega

/-- Any flow is at most the capacity of any cut. -/
theorem flowValue_le_cut {S A : Finset V} {cap : V → V → Int} {s t : V} {f : V → V → Int} (h : IsFlow S cap s t f) (hA : A ⊆ S) (hs : s ∈ A) (ht : t ∉ A) :
    flowValue S s f ≤ ∑ v ∈ A, ∑ w ∈ S \ A, cap v w := by
  have := cut_value (S := S) (A := A) (s := s) (t := t) (g := fun u v => f u v - f v u) (fun u v => by omega) (by
    intro v hv h1 h2
    rw [Finset.sum_sub_distrib, h.conserved v hv h1 h2]
    omega) hA hs ht
  rw [Finset.sum_sub_distrib] at this
  rw [flowValue, this]
  refine Finset.sum_le_sum fun v _ => Finset.sum_le_sum fun w _ => ?_
  have := h.nonneg w v
  have := h.le_cap v w
  omega

theorem netFlow_zero {S : Finset V} {cap : V → V → Int} {s t : V} (hcap : ∀ u v, 0 ≤ cap u v) : NetFlow S cap s t (fun _ _ => 0) :=
  ⟨fun _ _ => rfl, hcap, fun _ _ _ _ => by simp⟩

/-- `x` more units pass from `u` to `v`. -/
def netAdd (g : V → V → Int) (u v : V) (x : Int) (a b : V) : Int :=
  if (a, b) = (v, u) then g a b - x else if (a, b) = (u, v) then g a b + x else g a b

theorem netAdd_sum {S : Finset V} {g : V → V → Int} {u v : V} {x : Int} (hu : u ∈ S) (hv : v ∈ S) (huv : u ≠ v) (a : V) :
    ∑ w ∈ S, netAdd g u v x a w = ∑ w ∈ S, g a w + (if a = u then x else 0) - (if a = v then x else 0) := by
  have e : ∀ w, netAdd g u v x a w = g a w + ((if w = v then (if a = u then x else 0) else 0) - (if w = u then (if a = v then x else 0) else 0)) := by
    intro w
    simp only [netAdd, Prod.mk.injEq]
    split
    · next h => obtain ⟨rfl, rfl⟩ := h; simp [huv, Ne.symm huv]; omega
    · next h =>
      split
      · next h => obtain ⟨rfl, rfl⟩ := h; simp [huv, Ne.symm huv]
      · next h' =>
        by_cases h1 : w = v <;> by_cases h2 : w = u <;> by_cases h3 : a = u <;> by_cases h4 : a = v <;> simp_all
  rw [Finset.sum_congr rfl (fun w _ => e w), Finset.sum_add_distrib, Finset.sum_sub_distrib, Finset.sum_ite_eq' S v, Finset.sum_ite_eq' S u]
  simp [hu, hv]
  omega

end cut

theorem flowAt_pass {F : FlowPassed} {u v : String} {x : Int} (huv : u ≠ v) (a b : String) : flowAt (flowPass F u v x) a b = netAdd (flowAt F) u v x a b := by
  simp only [flowAt, flowPass, PyDict.set, netAdd]
  by_cases h1 : (a, b) = (v, u)
  · simp only [h1, if_true]
    have : (v, u) ≠ (u, v) := by intro e; cases e; exact huv rfl
    simp [this]
  · simp only [h1, if_false]
    by_cases h2 : (a, b) = (u, v)
    · simp [h2]
    · simp [h2]


/-- The capacities: 0 where there is no edge. -/
def capOf (wt : String → String → Option Int) (u v : String) : Int := (wt u v).getD 0

/-- The parents lead from `y` back to the source over the vertices `l` (without the source), and the room on each edge is at least `x`. -/
inductive WayBack (vs : List String) (source : String) (parent : String → Option String) (R : String → String → Int) (x : Int) : String → List String → Prop
  | base : WayBack vs source parent R x source []
  | step {y p l} : y ≠ source → y ∈ vs → parent y = some p → y ∉ l → x ≤ R p y → WayBack vs source parent R x p l → WayBack vs source parent R x y (y :: l)

section bfs
variable {vs : List String} {source : String} {parent parent' : String → Option String} {R R' : String → String → Int} {x x' : Int}

theorem WayBack.mono {y l} (h : WayBack vs source parent R x y l) (hp : ∀ z ∈ l, parent' z = parent z) (hR : ∀ a, ∀ b ∈ l, R a b ≤ R' a b) (hx : x' ≤ x) :
    WayBack vs source parent' R' x' y l := by
  induction h with
  | base => exact .base
  | step h1 h2 h3 h4 h5 _ ih =>
    refine .step h1 h2 ?_ h4 ?_ (ih (fun z hz => hp z (by simp [hz])) (fun a b hb => hR a b (by simp [hb])))
    · rw [hp _ (by simp)]; exact h3
    · exact Int.le_trans (Int.le_trans hx h5) (hR _ _ List.mem_cons_self)

theorem WayBack.found {y l} (h : WayBack vs source parent R x y l) : ∀ z ∈ l, (parent z).isSome ∧ z ≠ source ∧ z ∈ vs := by
  induction h with
  | base => intro z hz; cases hz
  | step h1 h2 h3 h4 h5 _ ih =>
    intro z hz
    rcases List.mem_cons.1 hz with e | e
    · subst e; exact ⟨by rw [h3]; rfl, h1, h2⟩
    · exact ih z e

theorem WayBack.nodup {y l} (h : WayBack vs source parent R x y l) : l.Nodup := by
  induction h with
  | base => exact List.nodup_nil
  | step h1 h2 h3 h4 h5 _ ih => exact List.nodup_cons.2 ⟨h4, ih⟩

theorem WayBack.mem_vs {y l} (hs : source ∈ vs) (h : WayBack vs source parent R x y l) : y ∈ vs := by
  cases h with
  | base => exact hs
  | step _ h2 => exact h2

/-- The list of the way back is determined. -/
theorem WayBack.unique {R' : String → String → Int} {y l l'} (h : WayBack vs source parent R x y l) (h' : WayBack vs source parent R' x' y l') : l = l' := by
  induction h generalizing l' with
  | base => cases h' with
    | base => rfl
    | step h1 => exact absurd rfl h1
  | step h1 h2 h3 h4 h5 _ ih =>
    cases h' with
    | base => exact absurd rfl h1
    | step _ _ h3' _ _ h =>
      rw [h3] at h3'
      cases h3'
      rw [ih h]

/-- The state of the search. The vertices `C` are those whose neighbours are known to be found where there is room. -/
structure FBInv (vs : List String) (wt : String → String → Option Int) (source sink : String) (dinic : Bool) (N : String → String → Int) (Done : String → String → Prop)
    (st : FlowBfs) : Prop where
  queue : ∀ v ∈ st.queue, v ∈ vs ∧ (v = source ∨ (st.parent.val v).isSome)
  start : (st.pathC.val source).isSome
  room : ∀ v, (v = source ∨ (st.parent.val v).isSome) → ∃ c, st.pathC.val v = some c ∧ (v ≠ source → c.isSome) ∧ ∀ x, c = some x → 0 < x ∧
    (v ≠ source → ∃ l, WayBack vs source st.parent.val (fun a b => capOf wt a b - N a b) x v l)
  closed : ∀ v, (v = source ∨ (st.parent.val v).isSome) → v ∈ st.queue ∨ ∀ w, 0 < capOf wt v w → 0 < capOf wt v w - N v w → Done v w → (st.parent.val w).isSome
  link : ∀ v p, st.parent.val v = some p → v ∈ vs ∧ p ∈ vs ∧ 0 < capOf wt p v ∧ (p = source ∨ (st.parent.val p).isSome) 
  notFound : dinic = false → st.ret = none → st.parent.val sink = none
  dinicRet : dinic = true → st.ret = none

/-- The number of vertices not yet found. -/
def unfound (vs : List String) (parent : String → Option String) : Nat := (vs.filter fun v => (parent v).isNone).length

theorem unfound_set {parent : String → Option String} {y p : String} : ∀ {vs : List String}, vs.Nodup → y ∈ vs → parent y = none →
    unfound vs (fun z => if z = y then some p else parent z) + 1 = unfound vs parent := by
  intro vs
  induction vs with
  | nil => intro _ h; cases h
  | cons a l ih =>
    intro hn hy hp
    obtain ⟨h1, h2⟩ := List.nodup_cons.1 hn
    simp only [unfound, List.filter_cons] at ih ⊢
    by_cases ha : a = y
    · subst ha
      have : l.filter (fun v => (if v = a then some p else parent v).isNone) = l.filter fun v => (parent v).isNone := by
        refine List.filter_congr fun v hv => ?_
        have : v ≠ a := fun e => h1 (e ▸ hv)
        simp [this]
      simp [hp, this]
    · have := ih h2 (by rcases List.mem_cons.1 hy with e | e; exact absurd e.symm ha; exact e) hp
      simp only [ha, if_false]
      split
      · simp only [List.length_cons]; omega
      · exact this

theorem infMin_pos {c : Option Int} {r : Int} (hr : 0 < r) (hc : ∀ x, c = some x → 0 < x) : 0 < infMin c r := by
  cases c with
  | none => exact hr
  | some a => have := hc a rfl; simp only [infMin]; split <;> assumption

theorem infMin_le_right {c : Option Int} {r : Int} : infMin c r ≤ r := by
  cases c with
  | none => exact Int.le_refl _
  | some a => simp only [infMin]; split <;> omega

theorem infMin_le_left {a : Int} {r : Int} : infMin (some a) r ≤ a := by
  simp only [infMin]; split <;> omega

variable {wt : String → String → Option Int} {sink : String} {dinic : Bool} {F : FlowPassed} {nb : String → PyM (List String)} {ws : String → Option GEdge}

/-- One edge with room to a vertex not yet found. -/
theorem FBInv.add {Done : String → String → Prop} {st : FlowBfs} {curr next : String} {c : Option Int} {q : List String} {r : Option Int}
    (h : FBInv vs wt source sink dinic (flowAt F) Done st) (hret : st.ret = none) (hss : source ≠ sink)
    (hcurr : curr ∈ vs) (hf : curr = source ∨ (st.parent.val curr).isSome) (hnext : next ∈ vs) (hnf : st.parent.val next = none)
    (hcap : 0 < capOf wt curr next) (hroom : 0 < capOf wt curr next - flowAt F curr next) (hc : st.pathC.val curr = some c)
    (hq : q = st.queue ++ [next] ∧ r = none ∧ (next = sink → dinic = true) ∨ q = st.queue ∧ r.isSome ∧ dinic = false) :
    FBInv vs wt source sink dinic (flowAt F) (fun v w => r = none ∧ Done v w)
      ⟨q, st.parent.set next curr, st.pathC.set next (some (infMin c (capOf wt curr next - flowAt F curr next))), r⟩ := by
  obtain ⟨c', hc', hc1, hc2⟩ := h.room curr hf
  rw [hc] at hc'
  cases hc'
  have hpos := infMin_pos hroom (fun x hx => (hc2 x hx).1)
  have old : ∀ z, (st.parent.val z).isSome → z ≠ next := by
    intro z hz e; rw [e, hnf] at hz; cases hz
  have keep : ∀ z, (st.parent.val z).isSome → (st.parent.set next curr).val z = st.parent.val z := by
    intro z hz; simp [PyDict.set, old z hz]
  have keep' : ∀ z, (st.parent.val z).isSome → ((st.parent.set next curr).val z).isSome := fun z hz => by rw [keep z hz]; exact hz
  have hqsub : ∀ v ∈ q, v ∈ st.queue ∨ v = next := by
    rcases hq with ⟨rfl, _⟩ | ⟨rfl, _⟩ <;> intro v hv
    · simpa using hv
    · exact Or.inl hv
  have back : ∀ x v l, WayBack vs source st.parent.val (fun a b => capOf wt a b - flowAt F a b) x v l →
      WayBack vs source (st.parent.set next curr).val (fun a b => capOf wt a b - flowAt F a b) x v l := fun x v l hb =>
    hb.mono (fun z hz => keep z (hb.found z hz).1) (fun _ _ _ => Int.le_refl _) (Int.le_refl _)
  refine ⟨?_, ?_, ?_, ?_, ?_, ?_, ?_⟩
  · intro v hv
    rcases hqsub v hv with hv | rfl
    · have := h.queue v hv
      exact ⟨this.1, this.2.imp_right (keep' v)⟩
    · exact ⟨hnext, Or.inr (by simp [PyDict.set])⟩
  · simp only [PyDict.set]
    split
    · rfl
    · exact h.start
  · intro v hv
    by_cases hvn : v = next
    · subst hvn
      refine ⟨some (infMin c (capOf wt curr v - flowAt F curr v)), by simp [PyDict.set], fun _ => rfl, ?_⟩
      intro x hx
      cases hx
      refine ⟨hpos, fun hvs => ?_⟩
      have hp : (st.parent.set v curr).val v = some curr := by simp [PyDict.set]
      by_cases hcs : curr = source
      · exact ⟨[v], .step hvs hnext hp (by simp) infMin_le_right (hcs ▸ .base)⟩
      · obtain ⟨x0, rfl⟩ := Option.isSome_iff_exists.1 (hc1 hcs)
        obtain ⟨l, hl⟩ := (hc2 x0 rfl).2 hcs
        refine ⟨v :: l, .step hvs hnext hp ?_ infMin_le_right ((back x0 curr l hl).mono (fun _ _ => rfl) (fun _ _ _ => Int.le_refl _) infMin_le_left)⟩
        intro hvl
        have := (hl.found v hvl).1
        rw [hnf] at this
        cases this
    · have hv' : v = source ∨ (st.parent.val v).isSome := by
        refine hv.imp_right fun hv => ?_
        simpa [PyDict.set, hvn] using hv
      obtain ⟨c2, e, h1, h2⟩ := h.room v hv'
      refine ⟨c2, by simpa [PyDict.set, hvn] using e, h1, fun x hx => ⟨(h2 x hx).1, fun hvs => ?_⟩⟩
      obtain ⟨l, hl⟩ := (h2 x hx).2 hvs
      exact ⟨l, back x v l hl⟩
  · intro v hv
    rcases hq with ⟨rfl, rfl, _⟩ | ⟨rfl, hr, _⟩
    · by_cases hvn : v = next
      · left; simp [hvn]
      · have hv' : v = source ∨ (st.parent.val v).isSome := by
          refine hv.imp_right fun hv => ?_
          simpa [PyDict.set, hvn] using hv
        rcases h.closed v hv' with h1 | h1
        · left; simp [h1]
        · exact Or.inr fun w hw hw' hD => keep' w (h1 w hw hw' hD.2)
    · refine Or.inr fun w hw hw' hD => ?_
      rw [hD.1] at hr
      cases hr
  · intro v p hvp
    by_cases hvn : v = next
    · subst hvn
      have : curr = p := by simpa [PyDict.set] using hvp
      subst this
      exact ⟨hnext, hcurr, hcap, hf.imp_right (keep' curr)⟩
    · have := h.link v p (by simpa [PyDict.set, hvn] using hvp)
      exact ⟨this.1, this.2.1, this.2.2.1, this.2.2.2.imp_right (keep' p)⟩
  · intro hd hr
    rcases hq with ⟨_, _, h3⟩ | ⟨_, h3, _⟩
    · have hns : sink ≠ next := fun e => by rw [h3 e.symm] at hd; cases hd
      simpa [PyDict.set, hns] using h.notFound hd hret
    · have hr : r = none := hr
      rw [hr] at h3; cases h3
  · intro hd
    rcases hq with ⟨_, h3, _⟩ | ⟨_, _, h3⟩
    · exact h3
    · rw [h3] at hd; cases hd

theorem capOf_some {u v : String} {x : Int} (h : wt u v = some x) : capOf wt u v = x := by simp [capOf, h]

/-- What the loop over the neighbours gives: either the neighbours are all looked at, or the sink was found. -/
theorem flowEdges_spec (hn : vs.Nodup) (hget : ∀ u ∈ vs, ∀ v ∈ vs, ws (u ++ "_" ++ v) = (wt u v).map fun x => ⟨u, v, x⟩)
    (hends : ∀ u v x, wt u v = some x → u ∈ vs ∧ v ∈ vs) (hpos : ∀ u v x, wt u v = some x → 0 ≤ x) (hss : source ≠ sink) {curr : String} (hcurr : curr ∈ vs) :
    ∀ (ns done : List String) (st : FlowBfs), (∀ w ∈ ns, (wt curr w).isSome) → st.ret = none → (curr = source ∨ (st.parent.val curr).isSome) →
    FBInv vs wt source sink dinic (flowAt F) (fun v w => v ≠ curr ∨ w ∈ done) st →
    ∃ st', flowEdges ws sink dinic F curr ns st = .ok st' ∧
      FBInv vs wt source sink dinic (flowAt F) (fun v w => st'.ret = none ∧ (v ≠ curr ∨ w ∈ done ++ ns)) st' ∧
      unfound vs st'.parent.val + st'.queue.length ≤ unfound vs st.parent.val + st.queue.length ∧
      (∀ x, st'.ret = some x → (st'.parent.val sink).isSome ∧ st'.pathC.val sink = some (some x)) := by
  intro ns
  induction ns with
  | nil =>
    intro done st _ hret _ h
    refine ⟨st, rfl, ?_, Nat.le_refl _, ?_⟩
    · have : (fun v w => st.ret = none ∧ (v ≠ curr ∨ w ∈ done ++ [])) = fun v w => v ≠ curr ∨ w ∈ done := by
        funext v w; simp [hret]
      rw [this]; exact h
    · intro x hx; rw [hret] at hx; cases hx
  | cons next rest ih =>
    intro done st hns hret hf h
    obtain ⟨x, hx⟩ := Option.isSome_iff_exists.1 (hns next (by simp))
    have hnext := (hends _ _ _ hx).2
    have hg : capacity ws curr next = .ok x := by
      rw [capacity, hget curr hcurr next hnext, hx]; rfl
    have hx0 := hpos _ _ _ hx
    have hcx := capOf_some hx
    rw [flowEdges, hg, ok_bind]
    split
    · next hcond =>
      obtain ⟨hc1, hc2, hc3⟩ := hcond
      obtain ⟨c, hc, _⟩ := h.room curr hf
      have hgc : st.pathC.get curr = .ok c := by simp [PyDict.get, hc]
      rw [hgc, ok_bind]
      have hnf : st.parent.val next = none := by simpa using hc2
      rw [← hcx] at hc3
      have hcap : 0 < capOf wt curr next := by omega
      rw [← hcx]
      by_cases hsk : next = sink ∧ dinic = false
      · have := h.add hret hss hcurr hf hnext hnf hcap hc3 hc (r := some (infMin c (capOf wt curr next - flowAt F curr next))) (Or.inr ⟨rfl, rfl, hsk.2⟩)
        refine ⟨⟨st.queue, st.parent.set next curr, st.pathC.set next (some (infMin c (capOf wt curr next - flowAt F curr next))),
          some (infMin c (capOf wt curr next - flowAt F curr next))⟩, ?_, ?_, ?_, ?_⟩
        · simp only [hsk, and_self, if_true]
        · refine ⟨this.queue, this.start, this.room, ?_, this.link, this.notFound, this.dinicRet⟩
          intro v hv
          exact Or.inr fun w _ _ hD => by cases hD.1
        · have := unfound_set (p := curr) hn hnext hnf
          simp only [PyDict.set]; omega
        · intro x hx
          simp only [PyDict.set] at hx ⊢
          simp only [hsk.1] at hx ⊢
          simp [hx]
      · rw [if_neg hsk]
        have h1 := h.add hret hss hcurr hf hnext hnf hcap hc3 hc (q := st.queue ++ [next]) (r := none) (Or.inl ⟨rfl, rfl, by
          intro e
          cases hd : dinic with
          | true => rfl
          | false => exact absurd ⟨e, hd⟩ hsk⟩)
        have h2 : FBInv vs wt source sink dinic (flowAt F) (fun v w => v ≠ curr ∨ w ∈ done ++ [next])
            ⟨st.queue ++ [next], st.parent.set next curr, st.pathC.set next (some (infMin c (capOf wt curr next - flowAt F curr next))), none⟩ := by
          refine ⟨h1.queue, h1.start, h1.room, ?_, h1.link, h1.notFound, h1.dinicRet⟩
          intro v hv
          refine (h1.closed v hv).imp_right fun h3 w hw hw' hD => ?_
          by_cases hwn : w = next
          · subst hwn; simp [PyDict.set]
          · refine h3 w hw hw' ⟨rfl, hD.imp_right fun hD => ?_⟩
            rcases List.mem_append.1 hD with hD | hD
            · exact hD
            · exact absurd (by simpa using hD) hwn
        have hf' : curr = source ∨ ((st.parent.set next curr).val curr).isSome := by
          refine hf.imp_right fun hf => ?_
          simp only [PyDict.set]; split <;> simp [hf]
        obtain ⟨st', e, hI, hm, hr⟩ := ih (done ++ [next]) _ (fun w hw => hns w (by simp [hw])) rfl hf' h2
        refine ⟨st', ?_, by simpa using hI, ?_, hr⟩
        · rw [← hret] at e; exact e
        · have := unfound_set (p := curr) hn hnext hnf
          simp only [PyDict.set, List.length_append, List.length_singleton] at hm
          omega
    · next hcond =>
      have h2 : FBInv vs wt source sink dinic (flowAt F) (fun v w => v ≠ curr ∨ w ∈ done ++ [next]) st := by
        refine ⟨h.queue, h.start, h.room, ?_, h.link, h.notFound, h.dinicRet⟩
        intro v hv
        refine (h.closed v hv).imp_right fun h3 w hw hw' hD => ?_
        by_cases hwn : v = curr ∧ w = next
        · obtain ⟨rfl, rfl⟩ := hwn
          rw [hcx] at hw hw'
          cases hp : st.parent.val w with
          | some _ => rfl
          | none => exact absurd ⟨by omega, by simp [hp], hw'⟩ hcond
        · refine h3 w hw hw' ?_
          rcases hD with hD | hD
          · exact Or.inl hD
          · rcases List.mem_append.1 hD with hD | hD
            · exact Or.inr hD
            · left; intro e; exact hwn ⟨e, by simpa using hD⟩
      obtain ⟨st', e, hI, hm, hr⟩ := ih (done ++ [next]) st (fun w hw => hns w (by simp [hw])) hret hf h2
      exact ⟨st', e, by simpa using hI, hm, hr⟩

/-- The result of the search. -/
structure FlowSearch (vs : List String) (wt : String → String → Option Int) (source sink : String) (dinic : Bool) (N : String → String → Int) (x : Int)
    (parent : String → Option String) : Prop where
  link : ∀ v p, parent v = some p → v ∈ vs ∧ p ∈ vs ∧ 0 < capOf wt p v ∧ (p = source ∨ (parent p).isSome) 
  back : ∀ v, v ≠ source → (parent v).isSome → ∃ y l, 0 < y ∧ WayBack vs source parent (fun a b => capOf wt a b - N a b) y v l
  found : dinic = false → x ≠ 0 → 0 < x ∧ ∃ l, WayBack vs source parent (fun a b => capOf wt a b - N a b) x sink l
  closed : (dinic = true ∨ x = 0) → ∀ v, (v = source ∨ (parent v).isSome) → ∀ w, 0 < capOf wt v w → 0 < capOf wt v w - N v w → (parent w).isSome
  notFound : dinic = false → x = 0 → parent sink = none

theorem flowLoop_spec (hW : WGraph vs nb ws wt) (hpos : ∀ u v x, wt u v = some x → 0 ≤ x) (hss : source ≠ sink) :
    ∀ (N : Nat) (st : FlowBfs), unfound vs st.parent.val + st.queue.length ≤ N → st.ret = none →
    FBInv vs wt source sink dinic (flowAt F) (fun _ _ => True) st →
    ∃ st', (∀ fuel, N < fuel → flowLoop nb ws sink dinic F fuel st = .ok st') ∧
      FBInv vs wt source sink dinic (flowAt F) (fun _ _ => st'.ret = none) st' ∧ (st'.ret = none → st'.queue = []) ∧
      (∀ x, st'.ret = some x → (st'.parent.val sink).isSome ∧ st'.pathC.val sink = some (some x)) := by
  intro N
  induction N with
  | zero =>
    intro st hm hret h
    have hq : st.queue = [] := List.eq_nil_of_length_eq_zero (by omega)
    refine ⟨st, ?_, ?_, fun _ => hq, by intro x hx; rw [hret] at hx; cases hx⟩
    · intro fuel hf
      obtain ⟨k, rfl⟩ : ∃ k, fuel = k + 1 := ⟨fuel - 1, by omega⟩
      rw [flowLoop, hq]
    · have : (fun _ _ => st.ret = none : String → String → Prop) = fun _ _ => True := by simp [hret]
      rw [this]; exact h
  | succ N ih =>
    intro st hm hret h
    cases hq : st.queue with
    | nil =>
      refine ⟨st, ?_, ?_, fun _ => hq, by intro x hx; rw [hret] at hx; cases hx⟩
      · intro fuel hf
        obtain ⟨k, rfl⟩ : ∃ k, fuel = k + 1 := ⟨fuel - 1, by omega⟩
        rw [flowLoop, hq]
      · have : (fun _ _ => st.ret = none : String → String → Prop) = fun _ _ => True := by simp [hret]
        rw [this]; exact h
    | cons curr rest =>
      obtain ⟨hcv, hcf⟩ := h.queue curr (by simp [hq])
      obtain ⟨ns, hns, hmem⟩ := hW.nbrs curr hcv
      have h0 : FBInv vs wt source sink dinic (flowAt F) (fun v w => v ≠ curr ∨ w ∈ []) { st with queue := rest } := by
        refine ⟨fun v hv => h.queue v (by simp [hq, hv]), h.start, h.room, ?_, h.link, h.notFound, h.dinicRet⟩
        intro v hv
        rcases h.closed v hv with h1 | h1
        · rw [hq] at h1
          rcases List.mem_cons.1 h1 with e | e
          · right; intro w _ _ hD; rcases hD with hD | hD
            · exact absurd e hD
            · cases hD
          · exact Or.inl e
        · exact Or.inr fun w hw hw' _ => h1 w hw hw' trivial
      obtain ⟨st1, e1, hI, hm1, hr1⟩ := flowEdges_spec (dinic := dinic) (F := F) hW.nodup hW.get hW.ends hpos hss hcv ns [] { st with queue := rest }
        (fun w hw => (hmem w).1 hw) hret hcf h0
      have hI' : FBInv vs wt source sink dinic (flowAt F) (fun _ _ => st1.ret = none) st1 := by
        refine ⟨hI.queue, hI.start, hI.room, ?_, hI.link, hI.notFound, hI.dinicRet⟩
        intro v hv
        refine (hI.closed v hv).imp_right fun h1 w hw hw' hD => h1 w hw hw' ⟨hD, ?_⟩
        by_cases hvc : v = curr
        · right
          subst hvc
          simp only [List.nil_append]
          refine (hmem w).2 ?_
          cases hx : wt v w with
          | some _ => rfl
          | none => simp [capOf, hx] at hw
        · exact Or.inl hvc
      have hstep : ∀ fuel, flowLoop nb ws sink dinic F (fuel + 1) st = if st1.ret.isSome then .ok st1 else flowLoop nb ws sink dinic F fuel st1 := by
        intro fuel
        rw [flowLoop, hq]
        simp only [hns, ok_bind, e1]
      cases hr : st1.ret with
      | some x =>
        refine ⟨st1, ?_, hI', by simp [hr], hr1⟩
        intro fuel hf
        obtain ⟨k, rfl⟩ : ∃ k, fuel = k + 1 := ⟨fuel - 1, by omega⟩
        rw [hstep, hr]; rfl
      | none =>
        have ht : (fun _ _ => st1.ret = none : String → String → Prop) = fun _ _ => True := by simp [hr]
        rw [ht] at hI'
        obtain ⟨st', e, h1, h2, h3⟩ := ih st1 (by simp only [hq, List.length_cons] at hm hm1; omega) hr hI'
        refine ⟨st', ?_, h1, h2, h3⟩
        intro fuel hf
        obtain ⟨k, rfl⟩ : ∃ k, fuel = k + 1 := ⟨fuel - 1, by omega⟩
        rw [hstep, hr]
        exact e k (by omega)

theorem flowBfs_spec (hW : WGraph vs nb ws wt) (hpos : ∀ u v x, wt u v = some x → 0 ≤ x) (hs : source ∈ vs) (hss : source ≠ sink) (F : FlowPassed) (dinic : Bool) :
    ∃ x parent, (∀ fuel, vs.length + 1 < fuel → flowBfs nb ws source sink dinic F fuel = .ok (x, parent)) ∧
      FlowSearch vs wt source sink dinic (flowAt F) x parent.val := by
  have h0 : FBInv vs wt source sink dinic (flowAt F) (fun _ _ => True) ⟨[source], PyDict.empty, PyDict.empty.set source none, none⟩ := by
    refine ⟨?_, ?_, ?_, ?_, ?_, fun _ _ => rfl, fun _ => rfl⟩
    · intro v hv; have := List.mem_singleton.1 hv; subst this; exact ⟨hs, Or.inl rfl⟩
    · simp [PyDict.set]
    · intro v hv
      rcases hv with rfl | hv
      · exact ⟨none, by simp [PyDict.set], fun h => absurd rfl h, by intro x hx; cases hx⟩
      · cases hv
    · intro v hv
      rcases hv with rfl | hv
      · left; simp
      · cases hv
    · intro v p hp; cases hp
  obtain ⟨st, e, hI, hq, hr⟩ := flowLoop_spec (nb := nb) (ws := ws) hW hpos hss (vs.length + 1) _ (by
    have : unfound vs (PyDict.empty : PyDict String String).val ≤ vs.length := List.length_filter_le _ _
    simp only [List.length_singleton]; omega) rfl h0
  refine ⟨st.ret.getD 0, st.parent, ?_, ?_⟩
  · intro fuel hf
    rw [flowBfs, e fuel hf, ok_bind]
  · refine ⟨hI.link, ?_, ?_, ?_, ?_⟩
    · intro v hv hf
      obtain ⟨c, hc, h1, h2⟩ := hI.room v (Or.inr hf)
      obtain ⟨y, rfl⟩ := Option.isSome_iff_exists.1 (h1 hv)
      obtain ⟨h3, h4⟩ := h2 y rfl
      obtain ⟨l, hl⟩ := h4 hv
      exact ⟨y, l, h3, hl⟩
    · intro hd hx
      cases hret : st.ret with
      | none => simp [hret] at hx
      | some x =>
        obtain ⟨h1, h2⟩ := hr x hret
        obtain ⟨c, hc, h3, h4⟩ := hI.room sink (Or.inr h1)
        rw [h2] at hc
        cases hc
        exact ⟨(h4 x rfl).1, (h4 x rfl).2 (Ne.symm hss)⟩
    · intro hd v hv w hw hw'
      have hret : st.ret = none := by
        rcases hd with hd | hd
        · exact hI.dinicRet hd
        · cases hret : st.ret with
          | none => rfl
          | some x =>
            obtain ⟨h1, h2⟩ := hr x hret
            obtain ⟨c, hc, h3, h4⟩ := hI.room sink (Or.inr h1)
            rw [h2] at hc
            cases hc
            have := (h4 x rfl).1
            simp only [hret, Option.getD_some] at hd
            omega
      rcases hI.closed v hv with h1 | h1
      · rw [hq hret] at h1; cases h1
      · exact h1 w hw hw' hret
    · intro hd hx
      refine hI.notFound hd ?_
      cases hret : st.ret with
      | none => rfl
      | some x =>
        obtain ⟨h1, h2⟩ := hr x hret
        obtain ⟨c, hc, h3, h4⟩ := hI.room sink (Or.inr h1)
        rw [h2] at hc
        cases hc
        have := (h4 x rfl).1
        simp only [hret, Option.getD_some] at hx
        omega
end bfs

section ek
variable {vs : List String} {source sink : String} {wt : String → String → Option Int} {nb : String → PyM (List String)} {ws : String → Option GEdge}

/-- What the dictionary means: the flow kept is skew and within the capacities. -/
structure FlowKept (wt : String → String → Option Int) (F : FlowPassed) : Prop where
  skew : ∀ u v, flowAt F u v = - flowAt F v u
  le_cap : ∀ u v, flowAt F u v ≤ capOf wt u v

/-- What leaves `v`, net. -/
def netOut (vs : List String) (F : FlowPassed) (v : String) : Int := ∑ w ∈ vs.toFinset, flowAt F v w

theorem capOf_nonneg (hpos : ∀ u v x, wt u v = some x → 0 ≤ x) (u v : String) : 0 ≤ capOf wt u v := by
  cases h : wt u v with
  | none => simp [capOf, h]
  | some x => rw [capOf_some h]; exact hpos u v x h

/-- One edge receives `x` more units. -/
theorem FlowKept.pass {F : FlowPassed} {u v : String} {x : Int} (h : FlowKept wt F) (hu : u ∈ vs) (hv : v ∈ vs) (huv : u ≠ v) (hx : 0 ≤ x)
    (hr : x ≤ capOf wt u v - flowAt F u v) :
    FlowKept wt (flowPass F u v x) ∧
      ∀ a, netOut vs (flowPass F u v x) a = netOut vs F a + (if a = u then x else 0) - (if a = v then x else 0) := by
  refine ⟨⟨?_, ?_⟩, ?_⟩
  · intro a b
    have := h.skew a b
    rw [flowAt_pass huv, flowAt_pass huv]
    simp only [netAdd, Prod.mk.injEq]
    clear hr hx
    grind
  · intro a b
    have := h.le_cap a b
    rw [flowAt_pass huv]
    simp only [netAdd, Prod.mk.injEq]
    split
    · omega
    · split
      · next h1 => obtain ⟨rfl, rfl⟩ := h1; omega
      · exact this
  · intro a
    simp only [netOut]
    rw [Finset.sum_congr rfl (fun w _ => flowAt_pass huv a w)]
    exact netAdd_sum (by simpa using hu) (by simpa using hv) huv a

/-- The walk back along the parents. -/
theorem ekAugment_spec (hs : source ∈ vs) {parent : PyDict String String} {x : Int} (hx : 0 ≤ x) :
    ∀ {y l} {F : FlowPassed}, WayBack vs source parent.val (fun a b => capOf wt a b - flowAt F a b) x y l → FlowKept wt F →
    ∃ F', (∀ fuel, l.length < fuel → ekAugment parent source x fuel y F = .ok F') ∧ FlowKept wt F' ∧
      ∀ a, netOut vs F' a = netOut vs F a + (if a = source then x else 0) - (if a = y then x else 0) := by
  intro y l
  induction l generalizing y with
  | nil =>
    intro F hb hF
    cases hb with
    | base =>
      refine ⟨F, ?_, hF, fun a => by omega⟩
      intro fuel hf
      obtain ⟨k, rfl⟩ : ∃ k, fuel = k + 1 := ⟨fuel - 1, by omega⟩
      simp [ekAugment]
  | cons z l ih =>
    intro F hb hF
    cases hb with
    | step h1 h2 h3 h4 h5 hb =>
      next p =>
      have hp := hb.mem_vs hs
      have hne : p ≠ z := by
        intro e
        subst e
        cases hb with
        | base => exact h1 rfl
        | step => exact h4 (by simp)
      obtain ⟨hF1, hn1⟩ := hF.pass hp h2 hne hx h5
      have hb1 : WayBack vs source parent.val (fun a b => capOf wt a b - flowAt (flowPass F p z x) a b) x p l := by
        refine hb.mono (fun _ _ => rfl) ?_ (Int.le_refl _)
        intro a b hbl
        rw [flowAt_pass hne]
        have : b ≠ z := fun e => h4 (e ▸ hbl)
        simp only [netAdd, Prod.mk.injEq, this, and_false, if_false]
        split <;> omega
      obtain ⟨F', e, hF', hn'⟩ := ih hb1 hF1
      refine ⟨F', ?_, hF', ?_⟩
      · intro fuel hf
        obtain ⟨k, rfl⟩ : ∃ k, fuel = k + 1 := ⟨fuel - 1, by omega⟩
        have hg : parent.get z = .ok p := by simp [PyDict.get, h3]
        rw [ekAugment, if_neg h1, hg, ok_bind]
        exact e k (by simp only [List.length_cons] at hf; omega)
      · intro a
        rw [hn' a, hn1 a]
        omega

/-- The flow found so far and its value. -/
structure FlowState (vs : List String) (wt : String → String → Option Int) (source sink : String) (m : Int) (F : FlowPassed) : Prop extends FlowKept wt F where
  inner : ∀ v ∈ vs, v ≠ source → v ≠ sink → netOut vs F v = 0
  value : netOut vs F source = m

theorem FlowState.netFlow {m : Int} {F : FlowPassed} (h : FlowState vs wt source sink m F) : NetFlow vs.toFinset (capOf wt) source sink (flowAt F) :=
  ⟨h.skew, h.le_cap, fun v hv h1 h2 => h.inner v (by simpa using hv) h1 h2⟩

theorem FlowState.le_total {m : Int} {F : FlowPassed} (h : FlowState vs wt source sink m F) : m ≤ ∑ w ∈ vs.toFinset, capOf wt source w := by
  rw [← h.value]
  exact Finset.sum_le_sum fun w _ => h.le_cap source w

theorem flowState_empty (hpos : ∀ u v x, wt u v = some x → 0 ≤ x) : FlowState vs wt source sink 0 PyDict.empty := by
  have h : ∀ u v, flowAt PyDict.empty u v = 0 := fun _ _ => rfl
  have h' : ∀ v, netOut vs PyDict.empty v = 0 := fun v => by simp [netOut, h]
  exact { skew := fun u v => by simp [h], le_cap := fun u v => by rw [h]; exact capOf_nonneg hpos u v, inner := fun v _ _ _ => h' v, value := h' _ }

/-- A state from which the sink cannot be reached over edges with room, as the search at the end shows. -/
def Saturated (vs : List String) (wt : String → String → Option Int) (source sink : String) (N : String → String → Int) : Prop :=
  ∃ A : String → Prop, A source ∧ ¬ A sink ∧ (∀ v, A v → v ∈ vs) ∧ ∀ v, A v → ∀ w, 0 < capOf wt v w → 0 < capOf wt v w - N v w → A w

theorem ekLoop_spec (hW : WGraph vs nb ws wt) (hpos : ∀ u v x, wt u v = some x → 0 ≤ x) (hs : source ∈ vs) (hss : source ≠ sink) :
    ∀ (K : Nat) (m : Int) (F : FlowPassed), FlowState vs wt source sink m F → (∑ w ∈ vs.toFinset, capOf wt source w) - m ≤ K →
    ∃ m' F', (∀ inner fuel, vs.length + 1 < inner → K < fuel → ekLoop nb ws source sink inner fuel m F = .ok m') ∧ FlowState vs wt source sink m' F' ∧ m ≤ m' ∧
      Saturated vs wt source sink (flowAt F') := by
  intro K
  induction K with
  | zero =>
    intro m F hF hK
    obtain ⟨x, parent, e, hS⟩ := flowBfs_spec hW hpos hs hss F false
    by_cases hx : x = 0
    · refine ⟨m, F, ?_, hF, Int.le_refl _, fun v => v = source ∨ (parent.val v).isSome, Or.inl rfl, ?_, ?_, ?_⟩
      · intro inner fuel hi hf
        obtain ⟨k, rfl⟩ : ∃ k, fuel = k + 1 := ⟨fuel - 1, by omega⟩
        rw [ekLoop, e inner hi, ok_bind]
        simp only [hx, if_true]
      · intro h
        rcases h with h | h
        · exact hss h.symm
        · rw [hS.notFound rfl hx] at h; cases h
      · intro v hv
        rcases hv with rfl | hv
        · exact hs
        · obtain ⟨p, hp⟩ := Option.isSome_iff_exists.1 hv
          exact (hS.link v p hp).1
      · intro v hv w hw hw'
        exact Or.inr (hS.closed (Or.inr hx) v hv w hw hw')
    · obtain ⟨h0, l, hl⟩ := hS.found rfl hx
      obtain ⟨F1, e1, hF1, hn1⟩ := ekAugment_spec hs (Int.le_of_lt h0) hl hF.toFlowKept
      have hF1' : FlowState vs wt source sink (m + x) F1 :=
        { hF1 with
          inner := fun v hv h1 h2 => by rw [hn1 v, hF.inner v hv h1 h2]; simp [h1, h2]
          value := by rw [hn1, hF.value]; simp [hss] }
      have := hF1'.le_total
      omega
  | succ K ih =>
    intro m F hF hK
    obtain ⟨x, parent, e, hS⟩ := flowBfs_spec hW hpos hs hss F false
    by_cases hx : x = 0
    · refine ⟨m, F, ?_, hF, Int.le_refl _, fun v => v = source ∨ (parent.val v).isSome, Or.inl rfl, ?_, ?_, ?_⟩
      · intro inner fuel hi hf
        obtain ⟨k, rfl⟩ : ∃ k, fuel = k + 1 := ⟨fuel - 1, by omega⟩
        rw [ekLoop, e inner hi, ok_bind]
        simp only [hx, if_true]
      · intro h
        rcases h with h | h
        · exact hss h.symm
        · rw [hS.notFound rfl hx] at h; cases h
      · intro v hv
        rcases hv with rfl | hv
        · exact hs
        · obtain ⟨p, hp⟩ := Option.isSome_iff_exists.1 hv
          exact (hS.link v p hp).1
      · intro v hv w hw hw'
        exact Or.inr (hS.closed (Or.inr hx) v hv w hw hw')
    · obtain ⟨h0, l, hl⟩ := hS.found rfl hx
      obtain ⟨F1, e1, hF1, hn1⟩ := ekAugment_spec hs (Int.le_of_lt h0) hl hF.toFlowKept
      have hF1' : FlowState vs wt source sink (m + x) F1 :=
        { hF1 with
          inner := fun v hv h1 h2 => by rw [hn1 v, hF.inner v hv h1 h2]; simp [h1, h2]
          value := by rw [hn1, hF.value]; simp [hss] }
      obtain ⟨m', F', e', h1, h2, h3⟩ := ih (m + x) F1 hF1' (by omega)
      refine ⟨m', F', ?_, h1, by omega, h3⟩
      intro inner fuel hi hf
      obtain ⟨k, rfl⟩ : ∃ k, fuel = k + 1 := ⟨fuel - 1, by omega⟩
      have hlen : l.length ≤ vs.length := nodup_length_le hl.nodup fun z hz => (hl.found z hz).2.2
      rw [ekLoop, e inner hi, ok_bind]
      simp only [hx, if_false]
      rw [e1 inner (by omega), ok_bind]
      exact e' inner k hi (by omega)

theorem saturated_blocking {F : FlowPassed} (hpos : ∀ u v x, wt u v = some x → 0 ≤ x)
    (h : Saturated vs wt source sink (flowAt F)) : Blocking (capOf wt) source sink (fun u v => max (flowAt F u v) 0) := by
  obtain ⟨A, h1, h2, _, h4⟩ := h
  intro hr
  refine h2 ?_
  clear h2
  induction hr with
  | refl => exact h1
  | @tail b c _ hbc ih =>
    have hbc : max (flowAt F b c) 0 < capOf wt b c := hbc
    exact h4 b ih c (by omega) (by omega)

theorem saturated_max {m : Int} {F : FlowPassed} (hF : FlowState vs wt source sink m F) (hpos : ∀ u v x, wt u v = some x → 0 ≤ x)
    (h : Saturated vs wt source sink (flowAt F)) (hanti : ∀ u v, u ≠ source → v ≠ sink → 0 < capOf wt u v → 0 < capOf wt v u) :
    IsMaxFlow vs.toFinset (capOf wt) source sink m := by
  classical
  obtain ⟨A, h1, h2, h3, h4⟩ := h
  obtain ⟨hf, hv⟩ := hF.netFlow.isFlow (capOf_nonneg hpos)
  refine ⟨⟨_, hf, hv.trans hF.value⟩, ?_⟩
  intro f hf'
  have hA : vs.toFinset.filter A ⊆ vs.toFinset := Finset.filter_subset _ _
  have hsA : source ∈ vs.toFinset.filter A := by simp [h1, h3 _ h1]
  have htA : sink ∉ vs.toFinset.filter A := by simp [h2]
  refine Int.le_trans (flowValue_le_cut hf' hA hsA htA) ?_
  rw [← hF.value]
  refine Int.le_of_eq ?_
  refine Eq.trans ?_ (cut_value (g := flowAt F) (S := vs.toFinset) hF.netFlow.skew hF.netFlow.conserved hA hsA htA).symm
  refine Finset.sum_congr rfl fun v hv => Finset.sum_congr rfl fun w hw => ?_
  have hvA : A v := (Finset.mem_filter.1 hv).2
  have hwA : ¬ A w := fun hwA => (Finset.mem_sdiff.1 hw).2 (Finset.mem_filter.2 ⟨(Finset.mem_sdiff.1 hw).1, hwA⟩)
  have hle := hF.le_cap v w
  by_cases hc : 0 < capOf wt v w
  · have := mt (h4 v hvA w hc) hwA
    omega
  · have hvs : v ≠ sink := fun e => h2 (e ▸ hvA)
    have hws : w ≠ source := fun e => hwA (e ▸ h1)
    have h5 := mt (hanti w v hws hvs) hc
    have h6 := hF.le_cap w v
    have h7 := hF.skew v w
    have h8 := capOf_nonneg hpos v w
    have h9 := capOf_nonneg hpos w v
    omega

end ek

/-- The result of Edmonds-Karp, once it is given enough steps. -/
theorem edmondsKarp_result {vs nb ws wt source sink} (hW : WGraph vs nb ws wt) (hpos : ∀ u v x, wt u v = some x → 0 ≤ x) (hs : source ∈ vs)
    (hss : source ≠ sink) :
    ∃ m F, (∀ n, vs.length + 2 + (∑ w ∈ vs.toFinset, capOf wt source w).toNat ≤ n → maxFlowEdmondsKarp nb ws source sink n = .ok m) ∧
      FlowState vs wt source sink m F ∧ Saturated vs wt source sink (flowAt F) := by
  obtain ⟨m, F, e, hF, _, hS⟩ := ekLoop_spec hW hpos hs hss (∑ w ∈ vs.toFinset, capOf wt source w).toNat 0 PyDict.empty
    (flowState_empty (vs := vs) (source := source) (sink := sink) hpos) (by omega)
  exact ⟨m, F, fun n hn => e n n (by omega) (by omega), hF, hS⟩

/-- C68 in full, for `f` = Edmonds-Karp or Dinic: the value of a maximum flow is returned. -/
def C68_full (f : (String → PyM (List String)) → (String → Option GEdge) → String → String → Nat → PyM Int) : Prop :=
  ∀ vs nb ws wt source sink, WGraph vs nb ws wt → (∀ u v x, wt u v = some x → 0 ≤ x) → source ∈ vs → sink ∈ vs → source ≠ sink →
    ∃ m, EndsWith (f nb ws source sink) (.ok m) ∧ IsMaxFlow vs.toFinset (capOf wt) source sink m

/-- Edmonds-Karp always ends, with the value of a feasible flow that no path with spare capacity can increase. -/
theorem C68_edmonds_karp_partial {vs nb ws wt source sink} (hW : WGraph vs nb ws wt) (hpos : ∀ u v x, wt u v = some x → 0 ≤ x) (hs : source ∈ vs)
    (hss : source ≠ sink) :
    ∃ m, EndsWith (maxFlowEdmondsKarp nb ws source sink) (.ok m) ∧
      ∃ f, IsFlow vs.toFinset (capOf wt) source sink f ∧ flowValue vs.toFinset source f = m ∧ Blocking (capOf wt) source sink f := by
  obtain ⟨m, F, e, hF, hS⟩ := edmondsKarp_result hW hpos hs hss
  obtain ⟨h1, h2⟩ := hF.netFlow.isFlow (capOf_nonneg hpos)
  exact ⟨m, ⟨_, e⟩, _, h1, h2.trans hF.value, saturated_blocking hpos hS⟩

/-- Edmonds-Karp is right when every edge, but those out of the source and those into the sink, has an edge in the opposite direction. -/
theorem C68_edmonds_karp_antiparallel_partial {vs nb ws wt source sink} (hW : WGraph vs nb ws wt) (hpos : ∀ u v x, wt u v = some x → 0 ≤ x)
    (hs : source ∈ vs) (hss : source ≠ sink) (hanti : ∀ u v, u ≠ source → v ≠ sink → 0 < capOf wt u v → 0 < capOf wt v u) :
    ∃ m, EndsWith (maxFlowEdmondsKarp nb ws source sink) (.ok m) ∧ IsMaxFlow vs.toFinset (capOf wt) source sink m := by
  obtain ⟨m, F, e, hF, hS⟩ := edmondsKarp_result hW hpos hs hss
  exact ⟨m, ⟨_, e⟩, saturated_max hF hpos hS hanti⟩

section dinic
variable {vs : List String} {source sink : String} {wt : String → String → Option Int} {nb : String → PyM (List String)} {ws : String → Option GEdge}

/-- The way back to the source in the tree of the parents. -/
abbrev TreePath (vs : List String) (source : String) (parent : String → Option String) (u : String) (l : List String) : Prop :=
  WayBack vs source parent (fun _ _ => 0) 0 u l

theorem WayBack.tree {parent : String → Option String} {R : String → String → Int} {x : Int} {y l} (h : WayBack vs source parent R x y l) :
    TreePath vs source parent y l := by
  induction h with
  | base => exact .base
  | step h1 h2 h3 h4 h5 _ ih => exact .step h1 h2 h3 h4 (Int.le_refl _) ih

/-- A way down the tree of the parents over edges with room. -/
def Down (wt : String → String → Option Int) (parent : String → Option String) (F : FlowPassed) : String → String → Prop :=
  Relation.ReflTransGen fun u v => parent v = some u ∧ 0 < capOf wt u v - flowAt F u v

theorem WayBack.down {parent : String → Option String} {F : FlowPassed} {x : Int} (hx : 0 < x) {y l}
    (h : WayBack vs source parent (fun a b => capOf wt a b - flowAt F a b) x y l) : Down wt parent F source y := by
  induction h with
  | base => exact .refl
  | step h1 h2 h3 h4 h5 _ ih => exact ih.tail ⟨h3, by omega⟩

/-- The tree of the parents: everything found has a way back to the source, which has no parent itself. -/
structure ParentTree (vs : List String) (wt : String → String → Option Int) (source : String) (parent : String → Option String) : Prop where
  root : parent source = none
  link : ∀ v p, parent v = some p → v ∈ vs ∧ p ∈ vs ∧ 0 < capOf wt p v ∧ (p = source ∨ (parent p).isSome)
  back : ∀ v, v ≠ source → (parent v).isSome → ∃ l, TreePath vs source parent v l

theorem ParentTree.child {parent : String → Option String} (h : ParentTree vs wt source parent) {u v : String} {l : List String}
    (hl : TreePath vs source parent u l) (hv : parent v = some u) : TreePath vs source parent v (v :: l) := by
  have hvs : v ≠ source := by intro e; rw [e, h.root] at hv; cases hv
  obtain ⟨l', hl'⟩ := h.back v hvs (by rw [hv]; rfl)
  cases hl' with
  | base => exact absurd rfl hvs
  | step h1 h2 h3 h4 h5 hb =>
    rw [hv] at h3
    cases h3
    have := hl.unique hb
    subst this
    exact .step h1 h2 hv h4 h5 hb

theorem TreePath.length_le {parent : String → Option String} {u : String} {l : List String} (h : TreePath vs source parent u l) : l.length ≤ vs.length :=
  nodup_length_le (WayBack.nodup h) fun z hz => (WayBack.found h z hz).2.2

/-- The result of the search from `u`, whose way back is `l`. -/
structure DfsPost (vs : List String) (wt : String → String → Option Int) (source sink : String) (parent : String → Option String) (u : String) (l : List String)
    (flow : Option Int) (F : FlowPassed) (x : Int) (F' : FlowPassed) : Prop where
  kept : FlowKept wt F'
  nonneg : 0 ≤ x
  bound : ∀ y, flow = some y → x ≤ y
  net : ∀ a, netOut vs F' a = netOut vs F a + (if a = u then x else 0) - (if a = sink then x else 0)
  same : ∀ a b, flowAt F' a b ≠ flowAt F a b → ∃ c p lc, TreePath vs source parent c lc ∧ parent c = some p ∧ l.length < lc.length ∧
    ((a, b) = (p, c) ∨ (a, b) = (c, p))
  zero : x = 0 → F' = F ∧ ¬ Down wt parent F u sink

/-- The specification of the recursive call with at least `N` steps to go. -/
def DfsSpec (vs : List String) (wt : String → String → Option Int) (nb : String → PyM (List String)) (ws : String → Option GEdge) (source sink : String)
    (parent : PyDict String String) (N : Nat) : Prop :=
  ∀ u l flow F, TreePath vs source parent.val u l → vs.length + 1 ≤ l.length + N → (∀ y, flow = some y → 0 < y) → (flow = none → u ≠ sink) → FlowKept wt F →
    ∃ x F', (∀ fuel, N ≤ fuel → dinicDfs nb ws parent sink fuel u flow F = .ok (x, F')) ∧ DfsPost vs wt source sink parent.val u l flow F x F'

theorem dinicEdges_spec (hW : WGraph vs nb ws wt) (hne : "" ∉ vs) (hs : source ∈ vs) {parent : PyDict String String}
    (hT : ParentTree vs wt source parent.val) {N : Nat} (ih : DfsSpec vs wt nb ws source sink parent N)
    {u : String} {l : List String} {flow : Option Int} {F : FlowPassed} (hl : TreePath vs source parent.val u l) (hN : vs.length + 1 ≤ l.length + (N + 1))
    (hflow : ∀ y, flow = some y → 0 < y) (hF : FlowKept wt F) :
    ∀ ns : List String, (∀ w ∈ ns, (wt u w).isSome) →
    ∃ x F', (∀ fuel, N ≤ fuel → dinicEdges ws parent (dinicDfs nb ws parent sink fuel) u flow ns F = .ok (x, F')) ∧
      FlowKept wt F' ∧ 0 ≤ x ∧ (∀ y, flow = some y → x ≤ y) ∧
      (∀ a, netOut vs F' a = netOut vs F a + (if a = u then x else 0) - (if a = sink then x else 0)) ∧
      (∀ a b, flowAt F' a b ≠ flowAt F a b → ∃ c p lc, TreePath vs source parent.val c lc ∧ parent.val c = some p ∧ l.length < lc.length ∧
        ((a, b) = (p, c) ∨ (a, b) = (c, p))) ∧
      (x = 0 → F' = F ∧ ∀ w ∈ ns, parent.val w = some u → 0 < capOf wt u w - flowAt F u w → ¬ Down wt parent.val F w sink) := by
  have huv : u ∈ vs := WayBack.mem_vs hs hl
  intro ns
  induction ns with
  | nil =>
    intro _
    exact ⟨0, F, fun _ _ => rfl, hF, Int.le_refl _, fun y hy => Int.le_of_lt (hflow y hy), fun a => by simp, fun a b h => absurd rfl h,
      fun _ => ⟨rfl, by simp⟩⟩
  | cons next rest ihr =>
    intro hns
    obtain ⟨c, hc⟩ := Option.isSome_iff_exists.1 (hns next (by simp))
    have hnv := (hW.ends _ _ _ hc).2
    have hg : capacity ws u next = .ok c := by
      rw [capacity, hW.get u huv next hnv, hc]; rfl
    have hcx := capOf_some hc
    obtain ⟨x, F', e, hk, h0, hb, hn, hsame, hz⟩ := ihr (fun w hw => hns w (by simp [hw]))
    by_cases hcond : parent.val next = some u ∧ u ≠ "" ∧ c - flowAt F u next > 0
    · obtain ⟨hp, hu0, hr⟩ := hcond
      have hchild := hT.child hl hp
      have hpos : 0 < infMin flow (c - flowAt F u next) := infMin_pos hr hflow
      obtain ⟨x1, F1, e1, hP⟩ := ih next (next :: l) (some (infMin flow (c - flowAt F u next))) F hchild (by simp only [List.length_cons]; omega)
        (fun y hy => by cases hy; exact hpos) (by intro h; cases h) hF
      have hstep : ∀ fuel, N ≤ fuel → dinicEdges ws parent (dinicDfs nb ws parent sink fuel) u flow (next :: rest) F =
          if x1 > 0 then .ok (x1, flowPass F1 u next x1) else dinicEdges ws parent (dinicDfs nb ws parent sink fuel) u flow rest F1 := by
        intro fuel hf
        rw [dinicEdges, hg, ok_bind, if_pos ⟨hp, hu0, hr⟩, e1 fuel hf, ok_bind]
      by_cases hx1 : x1 > 0
      · have hun : u ≠ next := by
          intro e
          subst e
          have := hl.unique hchild
          have := congrArg List.length this
          simp at this
        have hsm : flowAt F1 u next = flowAt F u next := by
          refine Classical.byContradiction fun h => ?_
          obtain ⟨c', p', lc, h1, h2, h3, h4⟩ := hP.same u next h
          rcases h4 with h4 | h4
          · cases h4
            have := h1.unique hchild
            rw [this] at h3
            simp at h3
          · cases h4
            have := h1.unique hl
            rw [this] at h3
            simp only [List.length_cons] at h3
            omega
        have hb1 := hP.bound _ rfl
        have hroom : x1 ≤ capOf wt u next - flowAt F1 u next := by
          rw [hsm, hcx]
          exact Int.le_trans hb1 infMin_le_right
        obtain ⟨hk', hn'⟩ := hP.kept.pass huv hnv hun hP.nonneg hroom
        refine ⟨x1, flowPass F1 u next x1, ?_, hk', hP.nonneg, ?_, ?_, ?_, ?_⟩
        · intro fuel hf
          rw [hstep fuel hf, if_pos hx1]
        · intro y hy
          rw [hy] at hb1
          exact Int.le_trans hb1 infMin_le_left
        · intro a
          rw [hn' a, hP.net a]
          omega
        · intro a b hab
          by_cases hE : (a, b) = (u, next) ∨ (a, b) = (next, u)
          · exact ⟨next, u, next :: l, hchild, hp, by simp, hE⟩
          · have : flowAt (flowPass F1 u next x1) a b = flowAt F1 a b := by
              rw [flowAt_pass hun]
              have h1 : ¬ (a, b) = (u, next) := fun h => hE (Or.inl h)
              have h2 : ¬ (a, b) = (next, u) := fun h => hE (Or.inr h)
              simp only [netAdd, h1, h2, if_false]
            rw [this] at hab
            obtain ⟨c', p', lc, h1, h2, h3, h4⟩ := hP.same a b hab
            exact ⟨c', p', lc, h1, h2, by simp only [List.length_cons] at h3; omega, h4⟩
        · intro h; omega
      · have hx0 : x1 = 0 := by have := hP.nonneg; omega
        obtain ⟨rfl, hnd⟩ := hP.zero hx0
        refine ⟨x, F', ?_, hk, h0, hb, hn, hsame, ?_⟩
        · intro fuel hf
          rw [hstep fuel hf, if_neg hx1]
          exact e fuel hf
        · intro hx
          refine ⟨(hz hx).1, ?_⟩
          intro w hw
          rcases List.mem_cons.1 hw with rfl | hw
          · exact fun _ _ => hnd
          · exact (hz hx).2 w hw
    · refine ⟨x, F', ?_, hk, h0, hb, hn, hsame, ?_⟩
      · intro fuel hf
        rw [dinicEdges, hg, ok_bind, if_neg hcond]
        exact e fuel hf
      · intro hx
        refine ⟨(hz hx).1, ?_⟩
        intro w hw
        rcases List.mem_cons.1 hw with rfl | hw
        · intro hp hr
          exact absurd ⟨hp, fun e => hne (e ▸ huv), by rw [hcx] at hr; exact hr⟩ hcond
        · exact (hz hx).2 w hw

theorem dinicDfs_spec (hW : WGraph vs nb ws wt) (hne : "" ∉ vs) (hs : source ∈ vs) {parent : PyDict String String}
    (hT : ParentTree vs wt source parent.val) : ∀ N, DfsSpec vs wt nb ws source sink parent N := by
  intro N
  induction N with
  | zero =>
    intro u l flow F hl hN
    have := TreePath.length_le hl
    omega
  | succ N ih =>
    intro u l flow F hl hN hflow hnone hF
    by_cases hu : u = sink
    · obtain ⟨y, rfl⟩ : ∃ y, flow = some y := by
        cases flow with
        | none => exact absurd hu (hnone rfl)
        | some y => exact ⟨y, rfl⟩
      have hy := hflow y rfl
      refine ⟨y, F, ?_, hF, Int.le_of_lt hy, fun z hz => by cases hz; exact Int.le_refl _, ?_, fun a b h => absurd rfl h, fun h => by omega⟩
      · intro fuel hf
        obtain ⟨k, rfl⟩ : ∃ k, fuel = k + 1 := ⟨fuel - 1, by omega⟩
        simp only [dinicDfs, hu, if_true]
      · intro a
        rw [hu]; omega
    · obtain ⟨ns, hns, hmem⟩ := hW.nbrs u (WayBack.mem_vs hs hl)
      obtain ⟨x, F', e, hk, h0, hb, hn, hsame, hz⟩ := dinicEdges_spec hW hne hs hT ih hl hN hflow hF ns (fun w hw => (hmem w).1 hw)
      refine ⟨x, F', ?_, hk, h0, hb, hn, hsame, ?_⟩
      · intro fuel hf
        obtain ⟨k, rfl⟩ : ∃ k, fuel = k + 1 := ⟨fuel - 1, by omega⟩
        simp only [dinicDfs, hu, if_false, hns, ok_bind]
        exact e k (by omega)
      · intro hx
        refine ⟨(hz hx).1, fun hd => ?_⟩
        rcases Relation.ReflTransGen.cases_head hd with h | ⟨w, ⟨h1, h2⟩, h3⟩
        · exact hu h
        · refine (hz hx).2 w ((hmem w).2 ?_) h1 h2 h3
          have := (hT.link w u h1).2.2.1
          cases hx : wt u w with
          | some _ => rfl
          | none => simp [capOf, hx] at this

theorem dinicPaths_spec (hW : WGraph vs nb ws wt) (hne : "" ∉ vs) (hs : source ∈ vs) (hss : source ≠ sink) {parent : PyDict String String}
    (hT : ParentTree vs wt source parent.val) :
    ∀ (K : Nat) (m : Int) (F : FlowPassed), FlowState vs wt source sink m F → (∑ w ∈ vs.toFinset, capOf wt source w) - m ≤ K →
    ∃ m' F', (∀ inner fuel, vs.length + 1 ≤ inner → K < fuel → dinicPaths nb ws parent source sink inner fuel m F = .ok (m', F')) ∧ FlowState vs wt source sink m' F' ∧ m ≤ m' ∧
      (Down wt parent.val F source sink → m < m') := by
  intro K
  have main : ∀ (m : Int) (F : FlowPassed), FlowState vs wt source sink m F →
      ∃ x F', (∀ inner fuel, vs.length + 1 ≤ inner → dinicPaths nb ws parent source sink inner (fuel + 1) m F =
        if x ≤ 0 then .ok (m, F') else dinicPaths nb ws parent source sink inner fuel (m + x) F') ∧ 0 ≤ x ∧ FlowState vs wt source sink (m + x) F' ∧
        (x = 0 → F' = F ∧ ¬ Down wt parent.val F source sink) := by
    intro m F hF
    obtain ⟨x, F', e, hP⟩ := dinicDfs_spec (sink := sink) hW hne hs hT (vs.length + 1) source [] none F .base (by simp) (by intro y hy; cases hy) (fun _ => hss) hF.toFlowKept
    refine ⟨x, F', ?_, hP.nonneg, ?_, hP.zero⟩
    · intro inner fuel hi
      rw [dinicPaths, e inner hi, ok_bind]
    · exact { hP.kept with
          inner := fun v hv h1 h2 => by rw [hP.net v, hF.inner v hv h1 h2]; simp [h1, h2]
          value := by rw [hP.net, hF.value]; simp [hss] }
  induction K with
  | zero =>
    intro m F hF hK
    obtain ⟨x, F', e, h0, hF', hz⟩ := main m F hF
    have := hF'.le_total
    have hx : x = 0 := by omega
    refine ⟨m, F', ?_, by rw [hx] at hF'; simpa using hF', Int.le_refl _, fun hd => absurd hd (hz hx).2⟩
    intro inner fuel hi hf
    obtain ⟨k, rfl⟩ : ∃ k, fuel = k + 1 := ⟨fuel - 1, by omega⟩
    rw [e inner k hi, if_pos (by omega)]
  | succ K ih =>
    intro m F hF hK
    obtain ⟨x, F', e, h0, hF', hz⟩ := main m F hF
    by_cases hx : x ≤ 0
    · have hx' : x = 0 := by omega
      refine ⟨m, F', ?_, by rw [hx'] at hF'; simpa using hF', Int.le_refl _, fun hd => absurd hd (hz hx').2⟩
      intro inner fuel hi hf
      obtain ⟨k, rfl⟩ : ∃ k, fuel = k + 1 := ⟨fuel - 1, by omega⟩
      rw [e inner k hi, if_pos hx]
    · obtain ⟨m', F'', e', h1, h2, _⟩ := ih (m + x) F' hF' (by omega)
      refine ⟨m', F'', ?_, h1, by omega, fun _ => by omega⟩
      intro inner fuel hi hf
      obtain ⟨k, rfl⟩ : ∃ k, fuel = k + 1 := ⟨fuel - 1, by omega⟩
      rw [e inner k hi, if_neg hx]
      exact e' inner k hi (by omega)

theorem dinicLoop_spec (hW : WGraph vs nb ws wt) (hpos : ∀ u v x, wt u v = some x → 0 ≤ x) (hne : "" ∉ vs) (hs : source ∈ vs) (hss : source ≠ sink)
    (hin : ∀ u, capOf wt u source = 0) :
    ∀ (K : Nat) (m : Int) (F : FlowPassed), FlowState vs wt source sink m F → 0 ≤ m → (∑ w ∈ vs.toFinset, capOf wt source w) - m ≤ K →
    ∃ m' F', (∀ inner fuel, vs.length + 1 < inner → (∑ w ∈ vs.toFinset, capOf wt source w) < inner → K < fuel → dinicLoop nb ws source sink inner fuel m F = .ok m') ∧ FlowState vs wt source sink m' F' ∧ m ≤ m' ∧
      Saturated vs wt source sink (flowAt F') := by
  intro K
  induction K with
  | zero =>
    intro m F hF hm hK
    obtain ⟨x, parent, e, hS⟩ := flowBfs_spec hW hpos hs hss F true
    by_cases hp : parent.val sink = none
    · refine ⟨m, F, ?_, hF, Int.le_refl _, fun v => v = source ∨ (parent.val v).isSome, Or.inl rfl, ?_, ?_, ?_⟩
      · intro inner fuel hi hi' hf
        obtain ⟨k, rfl⟩ : ∃ k, fuel = k + 1 := ⟨fuel - 1, by omega⟩
        rw [dinicLoop, e inner hi, ok_bind]
        simp only [hp, Option.isNone_none, if_true]
      · intro h
        rcases h with h | h
        · exact hss h.symm
        · rw [hp] at h; cases h
      · intro v hv
        rcases hv with rfl | hv
        · exact hs
        · obtain ⟨p, hp⟩ := Option.isSome_iff_exists.1 hv
          exact (hS.link v p hp).1
      · intro v hv w hw hw'
        exact Or.inr (hS.closed (Or.inl rfl) v hv w hw hw')
    · obtain ⟨y, l, hy, hl⟩ := hS.back sink (Ne.symm hss) (by cases h : parent.val sink with | none => exact absurd h hp | some _ => rfl)
      have hT : ParentTree vs wt source parent.val := by
        refine ⟨?_, hS.link, fun v hv hf => ?_⟩
        · cases h : parent.val source with
          | none => rfl
          | some p => have := (hS.link source p h).2.2.1; rw [hin] at this; omega
        · obtain ⟨_, l, _, hl⟩ := hS.back v hv hf
          exact ⟨l, hl.tree⟩
      obtain ⟨m', F', _, h1, _, h3⟩ := dinicPaths_spec (sink := sink) hW hne hs hss hT 0 m F hF hK
      have := h3 (hl.down hy)
      have := h1.le_total
      omega
  | succ K ih =>
    intro m F hF hm hK
    obtain ⟨x, parent, e, hS⟩ := flowBfs_spec hW hpos hs hss F true
    by_cases hp : parent.val sink = none
    · refine ⟨m, F, ?_, hF, Int.le_refl _, fun v => v = source ∨ (parent.val v).isSome, Or.inl rfl, ?_, ?_, ?_⟩
      · intro inner fuel hi hi' hf
        obtain ⟨k, rfl⟩ : ∃ k, fuel = k + 1 := ⟨fuel - 1, by omega⟩
        rw [dinicLoop, e inner hi, ok_bind]
        simp only [hp, Option.isNone_none, if_true]
      · intro h
        rcases h with h | h
        · exact hss h.symm
        · rw [hp] at h; cases h
      · intro v hv
        rcases hv with rfl | hv
        · exact hs
        · obtain ⟨p, hp⟩ := Option.isSome_iff_exists.1 hv
          exact (hS.link v p hp).1
      · intro v hv w hw hw'
        exact Or.inr (hS.closed (Or.inl rfl) v hv w hw hw')
    · have hps : (parent.val sink).isSome := by cases h : parent.val sink with | none => exact absurd h hp | some _ => rfl
      obtain ⟨y, l, hy, hl⟩ := hS.back sink (Ne.symm hss) hps
      have hT : ParentTree vs wt source parent.val := by
        refine ⟨?_, hS.link, fun v hv hf => ?_⟩
        · cases h : parent.val source with
          | none => rfl
          | some p => have := (hS.link source p h).2.2.1; rw [hin] at this; omega
        · obtain ⟨_, l, _, hl⟩ := hS.back v hv hf
          exact ⟨l, hl.tree⟩
      obtain ⟨m1, F1, e1, h1, _, h3⟩ := dinicPaths_spec (sink := sink) hW hne hs hss hT (∑ w ∈ vs.toFinset, capOf wt source w).toNat m F hF (by omega)
      have hlt := h3 (hl.down hy)
      obtain ⟨m', F', e', h4, h5, h6⟩ := ih m1 F1 h1 (by omega) (by omega)
      refine ⟨m', F', ?_, h4, by omega, h6⟩
      intro inner fuel hi hi' hf
      obtain ⟨k, rfl⟩ : ∃ k, fuel = k + 1 := ⟨fuel - 1, by omega⟩
      have htot := h1.le_total
      rw [dinicLoop, e inner hi, ok_bind]
      simp only [Option.isNone_eq_false_iff.2 hps, Bool.false_eq_true, if_false]
      rw [e1 inner inner (by omega) (by omega), ok_bind]
      exact e' inner k hi hi' (by omega)

end dinic

/-- The result of Dinic, once it is given enough steps. -/
theorem dinic_result {vs nb ws wt source sink} (hW : WGraph vs nb ws wt) (hpos : ∀ u v x, wt u v = some x → 0 ≤ x) (hs : source ∈ vs)
    (hss : source ≠ sink) (hne : "" ∉ vs) (hin : ∀ u, capOf wt u source = 0) :
    ∃ m F, (∀ n, vs.length + 2 + (∑ w ∈ vs.toFinset, capOf wt source w).toNat ≤ n → maxFlowDinic nb ws source sink n = .ok m) ∧
      FlowState vs wt source sink m F ∧ Saturated vs wt source sink (flowAt F) := by
  obtain ⟨m, F, e, hF, _, hS⟩ := dinicLoop_spec hW hpos hne hs hss hin (∑ w ∈ vs.toFinset, capOf wt source w).toNat 0 PyDict.empty
    (flowState_empty (vs := vs) (source := source) (sink := sink) hpos) (by omega) (by omega)
  exact ⟨m, F, fun n hn => e n n (by omega) (by omega) (by omega), hF, hS⟩

/-- Dinic ends with the value of a feasible flow that no path with spare capacity can increase, if no edge enters the source (and no vertex has
the empty name). -/
theorem C68_dinic_partial {vs nb ws wt source sink} (hW : WGraph vs nb ws wt) (hpos : ∀ u v x, wt u v = some x → 0 ≤ x) (hs : source ∈ vs)
    (hss : source ≠ sink) (hne : "" ∉ vs) (hin : ∀ u, capOf wt u source = 0) :
    ∃ m, EndsWith (maxFlowDinic nb ws source sink) (.ok m) ∧
      ∃ f, IsFlow vs.toFinset (capOf wt) source sink f ∧ flowValue vs.toFinset source f = m ∧ Blocking (capOf wt) source sink f := by
  obtain ⟨m, F, e, hF, hS⟩ := dinic_result hW hpos hs hss hne hin
  obtain ⟨h1, h2⟩ := hF.netFlow.isFlow (capOf_nonneg hpos)
  exact ⟨m, ⟨_, e⟩, _, h1, h2.trans hF.value, saturated_blocking hpos hS⟩

/-- Dinic is right when moreover every edge, but those out of the source and those into the sink, has an edge in the opposite direction. -/
theorem C68_dinic_antiparallel_partial {vs nb ws wt source sink} (hW : WGraph vs nb ws wt) (hpos : ∀ u v x, wt u v = some x → 0 ≤ x) (hs : source ∈ vs)
    (hss : source ≠ sink) (hne : "" ∉ vs) (hin : ∀ u, capOf wt u source = 0)
    (hanti : ∀ u v, u ≠ source → v ≠ sink → 0 < capOf wt u v → 0 < capOf wt v u) :
    ∃ m, EndsWith (maxFlowDinic nb ws source sink) (.ok m) ∧ IsMaxFlow vs.toFinset (capOf wt) source sink m := by
  obtain ⟨m, F, e, hF, hS⟩ := dinic_result hW hpos hs hss hne hin
  exact ⟨m, ⟨_, e⟩, saturated_max hF hpos hS hanti⟩

/-! ## The witnesses -/

/-- Eight vertices and unit capacities: two paths from `S` to `T` without common edge, but the first shortest path crosses both. -/
def exNetOps : List GraphOp := [.addVertex "S", .addVertex "A", .addVertex "B", .addVertex "C", .addVertex "D", .addVertex "E", .addVertex "F", .addVertex "T",
  .addEdge "S" "A" (some 1), .addEdge "A" "B" (some 1), .addEdge "B" "T" (some 1), .addEdge "A" "C" (some 1), .addEdge "C" "D" (some 1),
  .addEdge "D" "T" (some 1), .addEdge "S" "E" (some 1), .addEdge "E" "F" (some 1), .addEdge "F" "B" (some 1)]
def exNet : AList := final (alStep exGAttr exNAttr) alNew exNetOps
def exNetD : Digraph := final digraphSpec Digraph.empty exNetOps

theorem exNet_wgraph : WGraph exNet.vertices (alNeighbors exNet) exNet.weights (Digraph.wt exNetD) :=
  wgraph_of_history exNetOps (by decide +kernel) (by intro op h s t e; subst e; simp [exNetOps] at h) (by decide +kernel) (by decide +kernel)

theorem exNet_wt (u v : String) : Digraph.wt exNetD u v = if (u, v) ∈ [("S", "A"), ("A", "B"), ("B", "T"), ("A", "C"), ("C", "D"), ("D", "T"), ("S", "E"),
    ("E", "F"), ("F", "B")] then some 1 else none := by
  have he : exNetD.edges = [("S", "A"), ("A", "B"), ("B", "T"), ("A", "C"), ("C", "D"), ("D", "T"), ("S", "E"), ("E", "F"), ("F", "B")] := by decide +kernel
  have hc : ∀ e ∈ exNetD.edges, Digraph.wt exNetD e.1 e.2 = some 1 := by rw [he]; decide +kernel
  split
  · next h => rw [← he] at h; exact hc _ h
  · next h =>
    cases hw : Digraph.wt exNetD u v with
    | none => rfl
    | some x => rw [← he] at h; exact absurd (Digraph.wt_some hw).1 h

/-- The flow of value 2. -/
def exNetFlow (u v : String) : Int :=
  if (u, v) ∈ [("S", "A"), ("A", "C"), ("C", "D"), ("D", "T"), ("S", "E"), ("E", "F"), ("F", "B"), ("B", "T")] then 1 else 0

theorem exNetFlow_isFlow : IsFlow exNet.vertices.toFinset (capOf (Digraph.wt exNetD)) "S" "T" exNetFlow := by
  refine ⟨?_, ?_, ?_⟩
  · intro u v; simp only [exNetFlow]; split <;> omega
  · intro u v
    rw [capOf, exNet_wt, exNetFlow]
    split
    · next h =>
      rw [if_pos]
      · rfl
      · revert h
        simp only [List.mem_cons, List.not_mem_nil, or_false]
        rintro (h | h | h | h | h | h | h | h) <;> simp [h]
    · split <;> simp
  · decide +kernel

theorem exNet_false (f : (String → PyM (List String)) → (String → Option GEdge) → String → String → Nat → PyM Int)
    (h1 : ∃ m, EndsWith (f (alNeighbors exNet) exNet.weights "S" "T") (.ok m) ∧ m < 2) : ¬ C68_full f := by
  intro h
  obtain ⟨m, e, _, hm⟩ := h exNet.vertices _ _ _ "S" "T" exNet_wgraph (by
    intro u v x hx
    rw [exNet_wt] at hx
    split at hx
    · cases hx; omega
    · cases hx) (by decide +kernel) (by decide +kernel) (by decide)
  obtain ⟨m', e', hlt⟩ := h1
  obtain ⟨n, hn⟩ := e
  obtain ⟨n', hn'⟩ := e'
  have := (hn (n + n') (by omega)).symm.trans (hn' (n + n') (by omega))
  cases this
  have := hm exNetFlow exNetFlow_isFlow
  have hv : flowValue exNet.vertices.toFinset "S" exNetFlow = 2 := by decide +kernel
  omega

theorem exNet_total : exNet.vertices.length + 2 + (∑ w ∈ exNet.vertices.toFinset, capOf (Digraph.wt exNetD) "S" w).toNat ≤ 12 := by decide +kernel

theorem exNet_pos : ∀ u v x, Digraph.wt exNetD u v = some x → 0 ≤ x := by
  intro u v x hx
  rw [exNet_wt] at hx
  split at hx
  · cases hx; omega
  · cases hx

/-- Edmonds-Karp answers 1 where a flow of value 2 exists: flow can only be taken back over edges that exist in the opposite direction. -/
theorem C68_full_false_edmonds_karp : ¬ C68_full maxFlowEdmondsKarp := by
  refine exNet_false _ ?_
  obtain ⟨m, F, e, _⟩ := edmondsKarp_result (sink := "T") exNet_wgraph exNet_pos (source := "S") (by decide +kernel) (by decide)
  have h := e 12 exNet_total
  have h' : maxFlowEdmondsKarp (alNeighbors exNet) exNet.weights "S" "T" 12 = .ok 1 := by decide +kernel
  rw [h'] at h
  cases h
  exact ⟨1, ⟨_, e⟩, by omega⟩

/-- So does Dinic. -/
theorem C68_full_false_dinic : ¬ C68_full maxFlowDinic := by
  refine exNet_false _ ?_
  obtain ⟨m, F, e, _⟩ := dinic_result (sink := "T") exNet_wgraph exNet_pos (source := "S") (by decide +kernel) (by decide) (by decide +kernel) (by
    intro u
    rw [capOf, exNet_wt, if_neg]
    · rfl
    · simp)
  have h := e 12 exNet_total
  have h' : maxFlowDinic (alNeighbors exNet) exNet.weights "S" "T" 12 = .ok 1 := by decide +kernel
  rw [h'] at h
  cases h
  exact ⟨1, ⟨_, e⟩, by omega⟩

/-- An edge leads back to the source. -/
def exLoopOps : List GraphOp := [.addVertex "s", .addVertex "a", .addVertex "t", .addEdge "s" "a" (some 1), .addEdge "a" "s" (some 1),
  .addEdge "a" "t" (some 1)]
def exLoop : AList := final (alStep exGAttr exNAttr) alNew exLoopOps
def exLoopD : Digraph := final digraphSpec Digraph.empty exLoopOps

theorem exLoop_wgraph : WGraph exLoop.vertices (alNeighbors exLoop) exLoop.weights (Digraph.wt exLoopD) :=
  wgraph_of_history exLoopOps (by decide +kernel) (by intro op h s t e; subst e; simp [exLoopOps] at h) (by decide +kernel) (by decide +kernel)

theorem exLoop_dfs {parent : PyDict String String} (hs : parent.val "s" = some "a") (ha : parent.val "a" = some "s") :
    ∀ n, (∀ flow, dinicDfs (alNeighbors exLoop) exLoop.weights parent "t" n "s" flow PyDict.empty = .error .outOfFuel) ∧
      (∀ flow, dinicDfs (alNeighbors exLoop) exLoop.weights parent "t" n "a" flow PyDict.empty = .error .outOfFuel) := by
  intro n
  induction n with
  | zero => exact ⟨fun _ => rfl, fun _ => rfl⟩
  | succ n ih =>
    have n1 : alNeighbors exLoop "s" = .ok ["a"] := by decide +kernel
    have n2 : alNeighbors exLoop "a" = .ok ["s", "t"] := by decide +kernel
    have c1 : capacity exLoop.weights "s" "a" = .ok 1 := by decide +kernel
    have c2 : capacity exLoop.weights "a" "s" = .ok 1 := by decide +kernel
    have f0 : ∀ u v, flowAt PyDict.empty u v = 0 := fun _ _ => rfl
    refine ⟨fun flow => ?_, fun flow => ?_⟩
    · simp only [dinicDfs, n1, ok_bind, dinicEdges, c1, ha, f0]
      simp [ih.2]
    · simp only [dinicDfs, n2, ok_bind, dinicEdges, c2, hs, f0]
      simp [ih.1]

/-- Dinic never ends on the network `s → a → t`, `a → s`, where Edmonds-Karp is right: the search runs round `s → a → s`. -/
theorem C68_dinic_never_ends : ∀ n, maxFlowDinic (alNeighbors exLoop) exLoop.weights "s" "t" n = .error .outOfFuel := by
  intro n
  obtain ⟨x, parent, e, hS⟩ := flowBfs_spec (sink := "t") exLoop_wgraph (by
      intro u v x hx
      have he : exLoopD.edges = [("s", "a"), ("a", "s"), ("a", "t")] := by decide +kernel
      have h1 := (Digraph.wt_some hx).1
      have h2 : ∀ e ∈ exLoopD.edges, (Digraph.wt exLoopD e.1 e.2).all (fun y => decide (0 ≤ y)) = true := by
        rw [he]
        decide +kernel
      simpa [hx] using h2 _ h1) (source := "s") (by decide +kernel) (by decide) PyDict.empty true
  have hl : exLoop.vertices.length = 3 := by decide +kernel
  rw [hl] at e
  have hp : (flowBfs (alNeighbors exLoop) exLoop.weights "s" "t" true PyDict.empty 5).map (fun r => (r.2.val "s", r.2.val "a", (r.2.val "t").isNone)) =
      .ok (some "a", some "s", false) := by decide +kernel
  rw [e 5 (by omega)] at hp
  simp only [Except.map, Except.ok.injEq, Prod.mk.injEq] at hp
  by_cases hn : 4 < n
  · obtain ⟨k, rfl⟩ : ∃ k, n = k + 1 := ⟨n - 1, by omega⟩
    rw [maxFlowDinic, dinicLoop, e _ hn, ok_bind]
    simp only [hp.2.2, Bool.false_eq_true, if_false, dinicPaths, (exLoop_dfs hp.1 hp.2.1 _).1]
    rfl
  · have : n = 0 ∨ n = 1 ∨ n = 2 ∨ n = 3 ∨ n = 4 := by omega
    rcases this with rfl | rfl | rfl | rfl | rfl <;> decide +kernel

/-! The hypotheses of the positive theorems are met. -/

example : WGraph exNet.vertices (alNeighbors exNet) exNet.weights (Digraph.wt exNetD) ∧ (∀ u v x, Digraph.wt exNetD u v = some x → 0 ≤ x) ∧
    "S" ∈ exNet.vertices ∧ "S" ≠ "T" ∧ "" ∉ exNet.vertices :=
  ⟨exNet_wgraph, exNet_pos, by decide +kernel, by decide, by decide +kernel⟩

/-- Inner edges in both directions. -/
def exTwoWayOps : List GraphOp := [.addVertex "s", .addVertex "a", .addVertex "b", .addVertex "t", .addEdge "s" "a" (some 2), .addEdge "s" "b" (some 2),
  .addEdge "a" "b" (some 1), .addEdge "b" "a" (some 1), .addEdge "a" "t" (some 1), .addEdge "b" "t" (some 3)]
def exTwoWay : AList := final (alStep exGAttr exNAttr) alNew exTwoWayOps
def exTwoWayD : Digraph := final digraphSpec Digraph.empty exTwoWayOps

theorem exTwoWay_cap (u v : String) : 0 < capOf (Digraph.wt exTwoWayD) u v →
    (u, v) ∈ [("s", "a"), ("s", "b"), ("a", "b"), ("b", "a"), ("a", "t"), ("b", "t")] := by
  intro h
  have he : exTwoWayD.edges = [("s", "a"), ("s", "b"), ("a", "b"), ("b", "a"), ("a", "t"), ("b", "t")] := by decide +kernel
  cases hw : Digraph.wt exTwoWayD u v with
  | none => simp [capOf, hw] at h
  | some x => rw [← he]; exact (Digraph.wt_some hw).1

example : WGraph exTwoWay.vertices (alNeighbors exTwoWay) exTwoWay.weights (Digraph.wt exTwoWayD) :=
  wgraph_of_history exTwoWayOps (by decide +kernel) (by intro op h s t e; subst e; simp [exTwoWayOps] at h) (by decide +kernel) (by decide +kernel)
example : ∀ u v, u ≠ "s" → v ≠ "t" → 0 < capOf (Digraph.wt exTwoWayD) u v → 0 < capOf (Digraph.wt exTwoWayD) v u := by
  intro u v hu hv h
  have := exTwoWay_cap u v h
  simp only [List.mem_cons, Prod.mk.injEq, List.not_mem_nil, or_false] at this
  rcases this with h | h | h | h | h | h <;> obtain ⟨rfl, rfl⟩ := h
  · exact absurd rfl hu
  · exact absurd rfl hu
  · decide +kernel
  · decide +kernel
  · exact absurd rfl hv
  · exact absurd rfl hv
example : maxFlowEdmondsKarp (alNeighbors exTwoWay) exTwoWay.weights "s" "t" 12 = .ok 4 ∧
    maxFlowDinic (alNeighbors exTwoWay) exTwoWay.weights "s" "t" 12 = .ok 4 := by decide +kernel

end Props
