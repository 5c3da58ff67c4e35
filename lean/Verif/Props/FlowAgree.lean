import Verif.Props.MaxFlow

/-!
# C136: Dinic's algorithm returns what Edmonds-Karp returns

The search of Dinic's algorithm keeps one parent for each vertex, so that each phase has one path only: the same as that of Edmonds-Karp.
-/
namespace Props
open Py Model Spec

/-- The room on the way from the source along the parents, computed as in the program. -/
inductive Bott (source : String) (parent : String → Option String) (R : String → String → Int) : String → Option Int → Prop
  | base : Bott source parent R source none
  | step {y p c} : y ≠ source → parent y = some p → Bott source parent R p c → Bott source parent R y (some (infMin c (R p y)))

theorem Bott.mono {source : String} {parent parent' : String → Option String} {R : String → String → Int} (he : ∀ z p, parent z = some p → parent' z = some p)
    {y c} (h : Bott source parent R y c) : Bott source parent' R y c := by
  induction h with
  | base => exact .base
  | step h1 h2 _ ih => exact .step h1 (he _ _ h2) ih

theorem Bott.det {source : String} {parent : String → Option String} {R : String → String → Int} {y c c'} (h : Bott source parent R y c)
    (h' : Bott source parent R y c') : c = c' := by
  induction h generalizing c' with
  | base =>
    cases h' with
    | base => rfl
    | step h1 => exact absurd rfl h1
  | step h1 h2 _ ih =>
    cases h' with
    | base => exact absurd rfl h1
    | step _ h2' h3' =>
      rw [h2] at h2'
      cases h2'
      rw [ih h3']

/-- The flow `x` is passed along the parents from `y` back to `u`. -/
inductive Aug (parent : String → Option String) (x : Int) : String → String → FlowPassed → FlowPassed → Prop
  | base {u F} : Aug parent x u u F F
  | step {y p u F F'} : parent y = some p → Aug parent x p u (flowPass F p y x) F' → Aug parent x y u F F'

theorem Aug.mono {parent parent' : String → Option String} {x : Int} (he : ∀ z p, parent z = some p → parent' z = some p) {y u F F'}
    (h : Aug parent x y u F F') : Aug parent' x y u F F' := by
  induction h with
  | base => exact .base
  | step h1 _ ih => exact .step (he _ _ h1) ih

theorem Aug.det {parent : String → Option String} {x : Int} {y u F F' F''} (hu : parent u = none) (h : Aug parent x y u F F')
    (h' : Aug parent x y u F F'') : F' = F'' := by
  induction h generalizing F'' with
  | base =>
    cases h' with
    | base => rfl
    | step h1 => rw [hu] at h1; cases h1
  | step h1 _ ih =>
    cases h' with
    | base => rw [hu] at h1; cases h1
    | step h1' h2' =>
      rw [h1] at h1'
      cases h1'
      exact ih hu h2'

theorem Aug.snoc {parent : String → Option String} {x : Int} {y v u : String} {F F' : FlowPassed} (h : Aug parent x y v F F') (hv : parent v = some u) :
    Aug parent x y u F (flowPass F' u v x) := by
  induction h with
  | base => exact .step hv .base
  | step h1 _ ih => exact .step h1 (ih hv)

section
variable {vs : List String} {source sink : String} {wt : String → String → Option Int} {nb : String → PyM (List String)} {ws : String → Option GEdge}

/-! ## The two searches -/

/-- Nothing that was found is forgotten. -/
def Ext (st st' : FlowBfs) : Prop := ∀ z p, st.parent.val z = some p → st'.parent.val z = some p

theorem Ext.refl (st : FlowBfs) : Ext st st := fun _ _ h => h
theorem Ext.trans {a b c : FlowBfs} (h : Ext a b) (h' : Ext b c) : Ext a c := fun z p hz => h' z p (h z p hz)

theorem ext_set {st : FlowBfs} {next curr : String} (h : (st.parent.val next).isNone) {z p : String} (hz : st.parent.val z = some p) :
    (st.parent.set next curr).val z = some p := by
  by_cases e : z = next
  · subst e; rw [hz] at h; cases h
  · simp [PyDict.set, e, hz]

theorem flowEdges_ext {dinic : Bool} {F : FlowPassed} {curr : String} : ∀ (ns : List String) (st st' : FlowBfs),
    flowEdges ws sink dinic F curr ns st = .ok st' → Ext st st'
  | [], st, st', e => by cases e; exact .refl _
  | next :: rest, st, st', e => by
    rw [flowEdges] at e
    cases hc : capacity ws curr next with
    | error x => rw [hc] at e; cases e
    | ok cap =>
      rw [hc, ok_bind] at e
      split at e
      · next hcond =>
        cases hp : st.pathC.get curr with
        | error x => rw [hp] at e; cases e
        | ok c =>
          rw [hp, ok_bind] at e
          dsimp only at e
          split at e
          · cases e; exact fun z p hz => ext_set hcond.2.1 hz
          · exact fun z p hz => flowEdges_ext rest _ _ e z p (ext_set hcond.2.1 hz)
      · exact flowEdges_ext rest _ _ e

theorem flowLoop_ext {dinic : Bool} {F : FlowPassed} : ∀ (fuel : Nat) (st st' : FlowBfs), flowLoop nb ws sink dinic F fuel st = .ok st' → Ext st st'
  | 0, _, _, e => by cases e
  | fuel + 1, st, st', e => by
    rw [flowLoop] at e
    split at e
    · cases e; exact .refl _
    · next curr rest hq =>
      cases hn : nb curr with
      | error x => rw [hn] at e; cases e
      | ok ns =>
        rw [hn, ok_bind] at e
        cases h1 : flowEdges ws sink dinic F curr ns { st with queue := rest } with
        | error x => rw [h1] at e; cases e
        | ok st1 =>
          rw [h1, ok_bind] at e
          have x1 : Ext st st1 := fun z p hz => flowEdges_ext _ { st with queue := rest } _ h1 z p hz
          split at e
          · cases e; exact x1
          · exact x1.trans (flowLoop_ext fuel _ _ e)

theorem flowEdges_both {F : FlowPassed} {curr : String} : ∀ (ns : List String) (st st1 st2 : FlowBfs), st.ret = none →
    flowEdges ws sink false F curr ns st = .ok st1 → flowEdges ws sink true F curr ns st = .ok st2 →
    (st1.ret = none ∧ st2 = st1) ∨ (st1.ret.isSome ∧ st2.ret = none ∧ Ext st1 st2)
  | [], st, st1, st2, hr, e1, e2 => by cases e1; cases e2; exact Or.inl ⟨hr, rfl⟩
  | next :: rest, st, st1, st2, hr, e1, e2 => by
    rw [flowEdges] at e1 e2
    cases hc : capacity ws curr next with
    | error x => rw [hc] at e1; cases e1
    | ok cap =>
      rw [hc, ok_bind] at e1 e2
      by_cases hcond : cap ≠ 0 ∧ (st.parent.val next).isNone ∧ cap - flowAt F curr next > 0
      · rw [if_pos hcond] at e1 e2
        cases hp : st.pathC.get curr with
        | error x => rw [hp] at e1; cases e1
        | ok c =>
          rw [hp, ok_bind] at e1 e2
          dsimp only at e1 e2
          rw [if_neg (by simp)] at e2
          by_cases hs : next = sink
          · rw [if_pos ⟨hs, rfl⟩] at e1
            cases e1
            have hx := flowEdges_ext rest _ _ e2
            have hrt := ret_of_true rest _ _ e2
            exact Or.inr ⟨rfl, hrt.trans hr, fun z p hz => hx z p hz⟩
          · rw [if_neg (fun h => hs h.1)] at e1
            exact flowEdges_both rest _ _ _ (by exact hr) e1 e2
      · rw [if_neg hcond] at e1 e2
        exact flowEdges_both rest _ _ _ hr e1 e2
where
  ret_of_true {F : FlowPassed} {curr : String} : ∀ (ns : List String) (st st' : FlowBfs), flowEdges ws sink true F curr ns st = .ok st' → st'.ret = st.ret
  | [], st, st', e => by cases e; rfl
  | next :: rest, st, st', e => by
    rw [flowEdges] at e
    cases hc : capacity ws curr next with
    | error x => rw [hc] at e; cases e
    | ok cap =>
      rw [hc, ok_bind] at e
      split at e
      · cases hp : st.pathC.get curr with
        | error x => rw [hp] at e; cases e
        | ok c =>
          rw [hp, ok_bind] at e
          dsimp only at e
          rw [if_neg (by simp)] at e
          have := ret_of_true rest _ _ e
          exact this
      · exact ret_of_true rest _ _ e

theorem flowLoop_both {F : FlowPassed} : ∀ (fuel : Nat) (st st1 st2 : FlowBfs), st.ret = none →
    flowLoop nb ws sink false F fuel st = .ok st1 → flowLoop nb ws sink true F fuel st = .ok st2 →
    (st1.ret = none ∧ st2 = st1) ∨ (st1.ret.isSome ∧ Ext st1 st2)
  | 0, _, _, _, _, e, _ => by cases e
  | fuel + 1, st, st1, st2, hr, e1, e2 => by
    rw [flowLoop] at e1 e2
    cases hq : st.queue with
    | nil =>
      rw [hq] at e1 e2
      cases e1; cases e2
      exact Or.inl ⟨hr, rfl⟩
    | cons curr rest =>
      rw [hq] at e1 e2
      dsimp only at e1 e2
      cases hn : nb curr with
      | error x => rw [hn] at e1; cases e1
      | ok ns =>
        rw [hn, ok_bind] at e1 e2
        cases h1 : flowEdges ws sink false F curr ns { st with queue := rest } with
        | error x => rw [h1] at e1; cases e1
        | ok sa =>
          cases h2 : flowEdges ws sink true F curr ns { st with queue := rest } with
          | error x => rw [h2] at e2; cases e2
          | ok sb =>
            rw [h1, ok_bind] at e1
            rw [h2, ok_bind] at e2
            rcases flowEdges_both ns _ _ _ (by exact hr) h1 h2 with ⟨ha, rfl⟩ | ⟨ha, hb, hx⟩
            · rw [ha] at e1 e2
              exact flowLoop_both fuel _ _ _ ha e1 e2
            · rw [if_pos ha] at e1
              rw [if_neg (by simp [hb])] at e2
              cases e1
              exact Or.inr ⟨ha, hx.trans (flowLoop_ext fuel _ _ e2)⟩

/-- The room that the search keeps is that of the way. -/
structure RoomInv (vs : List String) (wt : String → String → Option Int) (source : String) (F : FlowPassed) (st : FlowBfs) : Prop where
  queue : ∀ v ∈ st.queue, v ∈ vs
  room : ∀ v c, st.pathC.val v = some c → Bott source st.parent.val (fun a b => capOf wt a b - flowAt F a b) v c

theorem flowEdges_room (hW : WGraph vs nb ws wt) (hin : ∀ u, capOf wt u source = 0) {dinic : Bool} {F : FlowPassed} {curr : String} (hcu : curr ∈ vs) :
    ∀ (ns : List String), (∀ w ∈ ns, (wt curr w).isSome) → ∀ (st st' : FlowBfs), RoomInv vs wt source F st → st.ret = none →
    flowEdges ws sink dinic F curr ns st = .ok st' → RoomInv vs wt source F st' ∧ ∀ x, st'.ret = some x → st'.pathC.val sink = some (some x) ∧
      (st'.parent.val sink).isSome
  | [], _, st, st', hI, hr, e => by
    cases e
    refine ⟨hI, fun x hx => ?_⟩
    rw [hr] at hx; cases hx
  | next :: rest, hns, st, st', hI, hr, e => by
    obtain ⟨c0, hc0⟩ := Option.isSome_iff_exists.1 (hns next (by simp))
    have hnv := (hW.ends _ _ _ hc0).2
    have hg : capacity ws curr next = .ok c0 := by
      rw [capacity, hW.get curr hcu next hnv, hc0]; rfl
    have hcx : capOf wt curr next = c0 := capOf_some hc0
    rw [flowEdges, hg, ok_bind] at e
    split at e
    · next hcond =>
      cases hp : st.pathC.get curr with
      | error x => rw [hp] at e; cases e
      | ok c =>
        rw [hp, ok_bind] at e
        dsimp only at e
        have hpc : st.pathC.val curr = some c := by
          unfold PyDict.get at hp
          split at hp
          · cases hp; assumption
          · cases hp
        have hns' : next ≠ source := by
          intro h
          rw [h, hin] at hcx
          exact hcond.1 hcx.symm
        have hb : ∀ v d, (st.pathC.set next (some (infMin c (c0 - flowAt F curr next)))).val v = some d →
            Bott source (st.parent.set next curr).val (fun a b => capOf wt a b - flowAt F a b) v d := by
          intro v d hv
          have old : ∀ v d, Bott source st.parent.val (fun a b => capOf wt a b - flowAt F a b) v d →
              Bott source (st.parent.set next curr).val (fun a b => capOf wt a b - flowAt F a b) v d :=
            fun v d h => h.mono fun z p hz => ext_set hcond.2.1 hz
          by_cases e : v = next
          · subst e
            simp [PyDict.set] at hv
            subst hv
            have := Bott.step (R := fun a b => capOf wt a b - flowAt F a b) hns' (show (st.parent.set v curr).val v = some curr by simp [PyDict.set])
              (old _ _ (hI.room curr c hpc))
            rw [← hcx]
            exact this
          · simp [PyDict.set, e] at hv
            exact old _ _ (hI.room v d hv)
        split at e
        · next hsk =>
          cases e
          refine ⟨⟨hI.queue, hb⟩, fun x hx => ?_⟩
          cases hx
          rw [← hsk.1]
          simp [PyDict.set]
        · refine flowEdges_room hW hin hcu rest (fun w hw => hns w (by simp [hw])) _ _ ⟨?_, hb⟩ (by exact hr) e
          intro v hv
          rcases List.mem_append.1 hv with hv | hv
          · exact hI.queue v hv
          · rw [List.mem_singleton.1 hv]; exact hnv
    · exact flowEdges_room hW hin hcu rest (fun w hw => hns w (by simp [hw])) _ _ hI hr e

theorem flowLoop_room (hW : WGraph vs nb ws wt) (hin : ∀ u, capOf wt u source = 0) {dinic : Bool} {F : FlowPassed} :
    ∀ (fuel : Nat) (st st' : FlowBfs), RoomInv vs wt source F st → st.ret = none → flowLoop nb ws sink dinic F fuel st = .ok st' →
    RoomInv vs wt source F st' ∧ ∀ x, st'.ret = some x → st'.pathC.val sink = some (some x) ∧ (st'.parent.val sink).isSome
  | 0, _, _, _, _, e => by cases e
  | fuel + 1, st, st', hI, hr, e => by
    rw [flowLoop] at e
    cases hq : st.queue with
    | nil =>
      rw [hq] at e
      cases e
      refine ⟨hI, fun x hx => ?_⟩
      rw [hr] at hx; cases hx
    | cons curr rest =>
      rw [hq] at e
      dsimp only at e
      have hcu : curr ∈ vs := hI.queue curr (by rw [hq]; simp)
      obtain ⟨ns, hn, hmem⟩ := hW.nbrs curr hcu
      rw [hn, ok_bind] at e
      cases h1 : flowEdges ws sink dinic F curr ns { st with queue := rest } with
      | error x => rw [h1] at e; cases e
      | ok sa =>
        rw [h1, ok_bind] at e
        obtain ⟨hI1, h2⟩ := flowEdges_room hW hin hcu ns (fun w hw => (hmem w).1 hw) { st with queue := rest } _
          ⟨fun v (hv : v ∈ rest) => hI.queue v (by rw [hq]; simp only [List.mem_cons]; exact Or.inr hv), hI.room⟩ (by exact hr) h1
        split at e
        · cases e
          exact ⟨hI1, h2⟩
        · next hsn =>
          refine flowLoop_room hW hin fuel _ _ hI1 ?_ e
          cases hra : sa.ret with
          | none => rfl
          | some x => rw [hra] at hsn; simp at hsn

/-- The two searches from the same flow. -/
theorem flowBfs_both (hW : WGraph vs nb ws wt) (hpos : ∀ u v x, wt u v = some x → 0 ≤ x) (hs : source ∈ vs) (hss : source ≠ sink)
    (hin : ∀ u, capOf wt u source = 0) (F : FlowPassed) :
    ∃ x pE y pD, (∀ fuel, vs.length + 1 < fuel → flowBfs nb ws source sink false F fuel = .ok (x, pE)) ∧
      (∀ fuel, vs.length + 1 < fuel → flowBfs nb ws source sink true F fuel = .ok (y, pD)) ∧
      FlowSearch vs wt source sink false (flowAt F) x pE.val ∧ FlowSearch vs wt source sink true (flowAt F) y pD.val ∧
      (x = 0 → pD.val sink = none) ∧
      (x ≠ 0 → (∀ z p, pE.val z = some p → pD.val z = some p) ∧
        Bott source pE.val (fun a b => capOf wt a b - flowAt F a b) sink (some x)) := by
  obtain ⟨x, pE, e1, hE⟩ := flowBfs_spec hW hpos hs hss F false
  obtain ⟨y, pD, e2, hD⟩ := flowBfs_spec hW hpos hs hss F true
  refine ⟨x, pE, y, pD, e1, e2, hE, hD, ?_⟩
  have e1' := e1 (vs.length + 2) (by omega)
  have e2' := e2 (vs.length + 2) (by omega)
  unfold flowBfs at e1' e2'
  have hI0 : RoomInv vs wt source F ⟨[source], PyDict.empty, PyDict.empty.set source none, none⟩ := by
    refine ⟨fun v hv => by rw [List.mem_singleton.1 hv]; exact hs, fun v c hv => ?_⟩
    by_cases e : v = source
    · subst e
      simp [PyDict.set] at hv
      subst hv
      exact .base
    · simp [PyDict.set, e, PyDict.empty] at hv
  cases h1 : flowLoop nb ws sink false F (vs.length + 2) ⟨[source], PyDict.empty, PyDict.empty.set source none, none⟩ with
  | error z => rw [h1] at e1'; cases e1'
  | ok s1 =>
    cases h2 : flowLoop nb ws sink true F (vs.length + 2) ⟨[source], PyDict.empty, PyDict.empty.set source none, none⟩ with
    | error z => rw [h2] at e2'; cases e2'
    | ok s2 =>
      rw [h1, ok_bind] at e1'
      rw [h2, ok_bind] at e2'
      obtain ⟨rfl, rfl⟩ := Prod.mk.inj (Except.ok.inj e1')
      obtain ⟨rfl, rfl⟩ := Prod.mk.inj (Except.ok.inj e2')
      obtain ⟨hR, hret⟩ := flowLoop_room (sink := sink) hW hin _ _ _ hI0 rfl h1
      rcases flowLoop_both _ _ _ _ rfl h1 h2 with ⟨ha, rfl⟩ | ⟨ha, hx⟩
      · refine ⟨fun hx => hE.notFound rfl hx, fun hx => ?_⟩
        rw [ha] at hx
        exact absurd rfl hx
      · obtain ⟨z, hz⟩ := Option.isSome_iff_exists.1 ha
        obtain ⟨h3, h4⟩ := hret z hz
        constructor
        · intro h0
          have := hE.notFound rfl h0
          rw [this] at h4; cases h4
        · intro _
          refine ⟨hx, ?_⟩
          rw [hz]
          exact hR.room sink _ h3

/-! ## The two augmentations -/

theorem ekAugment_aug {parent : PyDict String String} {x : Int} : ∀ (fuel : Nat) (y : String) (F F' : FlowPassed),
    ekAugment parent source x fuel y F = .ok F' → Aug parent.val x y source F F'
  | 0, _, _, _, e => by cases e
  | fuel + 1, y, F, F', e => by
    rw [ekAugment] at e
    split at e
    · next h => cases e; subst h; exact .base
    · next h =>
      cases hp : parent.get y with
      | error z => rw [hp] at e; cases e
      | ok p =>
        rw [hp, ok_bind] at e
        have hp' : parent.val y = some p := by
          unfold PyDict.get at hp
          split at hp
          · cases hp; assumption
          · cases hp
        exact .step hp' (ekAugment_aug fuel p _ _ e)

/-- What a call of the depth first search does: nothing, or it passes the room of the way. -/
def DfsPath (wt : String → String → Option Int) (source sink : String) (parent : String → Option String) (u : String) (flow : Option Int) (F : FlowPassed)
    (x : Int) (F' : FlowPassed) : Prop :=
  (x ≤ 0 → F' = F) ∧ (0 < x → Bott source parent (fun a b => capOf wt a b - flowAt F a b) u flow →
    Bott source parent (fun a b => capOf wt a b - flowAt F a b) sink (some x) ∧ Aug parent x sink u F F')

theorem dinicEdges_path (hW : WGraph vs nb ws wt) {parent : PyDict String String} (hT : ParentTree vs wt source parent.val)
    {dfs : String → Option Int → FlowPassed → PyM (Int × FlowPassed)} {u : String} {flow : Option Int} {F : FlowPassed}
    (ih : ∀ v flow' x F', dfs v flow' F = .ok (x, F') → DfsPath wt source sink parent.val v flow' F x F') :
    ∀ (ns : List String) (x : Int) (F' : FlowPassed), dinicEdges ws parent dfs u flow ns F = .ok (x, F') → DfsPath wt source sink parent.val u flow F x F'
  | [], x, F', e => by
    obtain ⟨rfl, rfl⟩ := Prod.mk.inj (Except.ok.inj e)
    exact ⟨fun _ => rfl, fun h => absurd h (by omega)⟩
  | next :: rest, x, F', e => by
    rw [dinicEdges] at e
    cases hc : capacity ws u next with
    | error z => rw [hc] at e; cases e
    | ok cap =>
      rw [hc, ok_bind] at e
      split at e
      · next hcond =>
        cases hd : dfs next (some (infMin flow (cap - flowAt F u next))) F with
        | error z => rw [hd] at e; cases e
        | ok r =>
          obtain ⟨x1, F1⟩ := r
          rw [hd, ok_bind] at e
          have h1 := ih _ _ _ _ hd
          dsimp only at e
          split at e
          · next hx1 =>
            obtain ⟨rfl, rfl⟩ := Prod.mk.inj (Except.ok.inj e)
            refine ⟨fun h => absurd h (by omega), fun h hb => ?_⟩
            obtain ⟨hnv, huv, _⟩ := hT.link next u hcond.1
            have hcap : cap = capOf wt u next := by
              rw [capacity, hW.get u huv next hnv] at hc
              cases hw : wt u next with
              | none => rw [hw] at hc; cases hc
              | some c =>
                rw [hw] at hc
                cases hc
                exact (capOf_some hw).symm
            have hns : next ≠ source := by
              intro h
              rw [h, hT.root] at hcond
              cases hcond.1
            obtain ⟨h3, h4⟩ := h1.2 h (by rw [hcap]; exact .step hns hcond.1 hb)
            exact ⟨h3, h4.snoc hcond.1⟩
          · next hx1 =>
            have hF := h1.1 (by omega)
            subst hF
            exact dinicEdges_path hW hT ih rest x F' e
      · exact dinicEdges_path hW hT ih rest x F' e

theorem dinicDfs_path (hW : WGraph vs nb ws wt) {parent : PyDict String String} (hT : ParentTree vs wt source parent.val) :
    ∀ (fuel : Nat) (u : String) (flow : Option Int) (F : FlowPassed) (x : Int) (F' : FlowPassed),
    dinicDfs nb ws parent sink fuel u flow F = .ok (x, F') → DfsPath wt source sink parent.val u flow F x F'
  | 0, _, _, _, _, _, e => by cases e
  | fuel + 1, u, flow, F, x, F', e => by
    simp only [dinicDfs] at e
    split at e
    · next h =>
      subst h
      cases flow with
      | none => cases e
      | some y =>
        obtain ⟨rfl, rfl⟩ := Prod.mk.inj (Except.ok.inj e)
        exact ⟨fun _ => rfl, fun _ hb => ⟨hb, .base⟩⟩
    · cases hn : nb u with
      | error z => rw [hn] at e; cases e
      | ok ns =>
        rw [hn, ok_bind] at e
        exact dinicEdges_path hW hT (fun v flow' x F' h => dinicDfs_path hW hT fuel v flow' F x F' h) ns x F' e

/-! ## The path is full afterwards -/

theorem WayBack.above {parent : String → Option String} {R : String → String → Int} {x : Int} {y l} (h : WayBack vs source parent R x y l) :
    (y = source ∨ y ∈ l) ∧ ∀ c ∈ l, ∀ q, parent c = some q → q = source ∨ q ∈ l := by
  induction h with
  | base => exact ⟨Or.inl rfl, fun c hc => (nomatch hc)⟩
  | step h1 h2 h3 h4 h5 _ ih =>
    refine ⟨Or.inr (by simp), fun c hc q hq => ?_⟩
    rcases List.mem_cons.1 hc with rfl | hc
    · rw [h3] at hq
      cases hq
      rcases ih.1 with h | h
      · exact Or.inl h
      · exact Or.inr (by simp [h])
    · rcases ih.2 c hc q hq with h | h
      · exact Or.inl h
      · exact Or.inr (by simp [h])

theorem flowPass_other {F : FlowPassed} {u v a b : String} {x : Int} (huv : u ≠ v) (h1 : (a, b) ≠ (u, v)) (h2 : (a, b) ≠ (v, u)) :
    flowAt (flowPass F u v x) a b = flowAt F a b := by
  rw [flowAt_pass huv]
  simp only [netAdd, h1, h2, if_false]

theorem Aug.other {parent : String → Option String} (hroot : parent source = none) {x : Int} {a b : String} {y l} (h : TreePath vs source parent y l) :
    ∀ {F F'}, Aug parent x y source F F' → b ∉ l → a ∉ l → flowAt F' a b = flowAt F a b := by
  induction h with
  | base =>
    intro F F' ha _ _
    cases ha with
    | base => rfl
    | step h => rw [hroot] at h; cases h
  | @step y p l h1 h2 h3 h4 h5 hb ih =>
    intro F F' ha hnb hna
    cases ha with
    | base => exact absurd rfl h1
    | step h hr =>
      rw [h3] at h
      cases h
      have hpy : p ≠ y := by
        intro e
        subst e
        rcases (WayBack.above hb).1 with h | h
        · exact h1 h
        · exact h4 h
      rw [ih hr (fun h => hnb (by simp [h])) (fun h => hna (by simp [h])), flowPass_other hpy]
      · intro e; cases e; exact hnb (by simp)
      · intro e; cases e; exact hna (by simp)

theorem Aug.full {parent : String → Option String} (hroot : parent source = none) {x : Int} {y l} (h : TreePath vs source parent y l) :
    ∀ {F F'}, Aug parent x y source F F' → ∀ c ∈ l, ∀ q, parent c = some q → flowAt F' q c = flowAt F q c + x := by
  induction h with
  | base => intro F F' _ c hc; cases hc
  | @step y p l h1 h2 h3 h4 h5 hb ih =>
    intro F F' ha c hc q hq
    cases ha with
    | base => exact absurd rfl h1
    | step h hr =>
      rw [h3] at h
      cases h
      have hab := WayBack.above hb
      have hpy : p ≠ y := by
        intro e
        subst e
        rcases hab.1 with h | h
        · exact h1 h
        · exact h4 h
      rcases List.mem_cons.1 hc with rfl | hcl'
      · rw [h3] at hq
        cases hq
        have hkeep : flowAt F' p c = flowAt (flowPass F p c x) p c := by
          clear ih
          -- the further edges go between vertices above `c`
          have gen : ∀ {z l'}, TreePath vs source parent z l' → c ∉ l' → ∀ {G G'}, Aug parent x z source G G' → flowAt G' p c = flowAt G p c := by
            intro z l' hz
            induction hz with
            | base =>
              intro _ G G' ha
              cases ha with
              | base => rfl
              | step h => rw [hroot] at h; cases h
            | @step z r l' g1 g2 g3 g4 g5 gb ih =>
              intro hcl G G' ha
              cases ha with
              | base => exact absurd rfl g1
              | step h hr' =>
                rw [g3] at h
                cases h
                have gab := WayBack.above gb
                have hrz : r ≠ z := by
                  intro e
                  subst e
                  rcases gab.1 with h | h
                  · exact g1 h
                  · exact g4 h
                rw [ih (fun h => hcl (by simp [h])) hr', flowPass_other hrz]
                · intro e; cases e; exact hcl (by simp)
                · intro e
                  injection e with e1 e2
                  subst e1 e2
                  rcases gab.1 with h | h
                  · exact h1 h
                  · exact hcl (by simp [h])
          exact gen hb h4 hr
        rw [hkeep, flowAt_pass hpy]
        have : ¬ (p, c) = (c, p) := by intro e; cases e; exact hpy rfl
        simp [netAdd, this]
      · have hcl := hcl'
        rw [ih hr c hcl q hq, flowPass_other hpy]
        · intro e; cases e; exact h4 hcl
        · intro e
          injection e with e1 e2
          rcases hab.2 c hcl q hq with h | h
          · exact h1 (e1.symm.trans h)
          · exact h4 (e1 ▸ h)

/-- Where the room of the way is `x`, some edge of the way has the room `x`. -/
theorem Bott.attained {parent : String → Option String} {R : String → String → Int} {y c} (h : Bott source parent R y c) :
    ∀ {l}, TreePath vs source parent y l → ∀ x, c = some x → ∃ b ∈ l, ∃ a, parent b = some a ∧ R a b = x := by
  induction h with
  | base => intro l _ x hx; cases hx
  | @step y p c h1 h2 hb ih =>
    intro l hl x hx
    cases hl with
    | base => exact absurd rfl h1
    | step g1 g2 g3 g4 g5 gb =>
      rw [h2] at g3
      cases g3
      injection hx with hx
      cases c with
      | none => exact ⟨y, by simp, p, h2, hx⟩
      | some a =>
        simp only [infMin] at hx
        split at hx
        · exact ⟨y, by simp, p, h2, hx⟩
        · obtain ⟨b, hb, r, h3, h4⟩ := ih gb a rfl
          exact ⟨b, by simp [hb], r, h3, h4.trans hx⟩

theorem Down.edges {parent : String → Option String} {F : FlowPassed} {y} (h : Down wt parent F source y) :
    ∀ {l}, TreePath vs source parent y l → ∀ b ∈ l, ∀ a, parent b = some a → 0 < capOf wt a b - flowAt F a b := by
  induction h with
  | refl =>
    intro l hl b hb
    cases hl with
    | base => cases hb
    | step g1 => exact absurd rfl g1
  | @tail p y _ hs ih =>
    intro l hl b hb a ha
    cases hl with
    | base => cases hb
    | step g1 g2 g3 g4 g5 gb =>
      rw [hs.1] at g3
      cases g3
      rcases List.mem_cons.1 hb with rfl | hb
      · rw [hs.1] at ha
        cases ha
        exact hs.2
      · exact ih gb b hb a ha

/-! ## The loops -/

theorem dinicLoop_eq (hW : WGraph vs nb ws wt) (hpos : ∀ u v x, wt u v = some x → 0 ≤ x) (hne : "" ∉ vs) (hs : source ∈ vs) (hss : source ≠ sink)
    (hin : ∀ u, capOf wt u source = 0) {inner : Nat} (hinner : vs.length + 1 < inner) :
    ∀ (fuel : Nat) (m : Int) (F : FlowPassed), FlowState vs wt source sink m F →
    dinicLoop nb ws source sink inner fuel m F = ekLoop nb ws source sink inner fuel m F := by
  intro fuel
  induction fuel with
  | zero => intro m F _; rfl
  | succ fuel ih =>
    intro m F hF
    obtain ⟨x, pE, y, pD, e1, e2, hE, hD, h0, hx0⟩ := flowBfs_both hW hpos hs hss hin F
    rw [dinicLoop, ekLoop, e1 inner hinner, e2 inner hinner, ok_bind, ok_bind]
    dsimp only
    by_cases hx : x = 0
    · simp [h0 hx, hx]
    · obtain ⟨hext, hbot⟩ := hx0 hx
      obtain ⟨hxp, l, hl⟩ := hE.found rfl hx
      have hlD : WayBack vs source pD.val (fun a b => capOf wt a b - flowAt F a b) x sink l :=
        hl.mono (fun z hz => by
          obtain ⟨p, hp⟩ := Option.isSome_iff_exists.1 (hl.found z hz).1
          rw [hext z p hp, hp]) (fun a b _ => Int.le_refl _) (Int.le_refl _)
      have hlen : l.length ≤ vs.length := nodup_length_le hl.nodup fun z hz => (hl.found z hz).2.2
      have hsD : (pD.val sink).isSome := by
        cases hlD with
        | base => exact absurd rfl hss
        | step _ _ h => rw [h]; rfl
      have hT : ParentTree vs wt source pD.val := by
        refine ⟨?_, hD.link, fun v hv hf => ?_⟩
        · cases h : pD.val source with
          | none => rfl
          | some p => have := (hD.link source p h).2.2.1; rw [hin] at this; omega
        · obtain ⟨_, l, _, hl⟩ := hD.back v hv hf
          exact ⟨l, hl.tree⟩
      obtain ⟨F1, e3, hF1, hn1⟩ := ekAugment_spec hs (Int.le_of_lt hxp) hl hF.toFlowKept
      have hF1' : FlowState vs wt source sink (m + x) F1 :=
        { hF1 with
          inner := fun v hv h1 h2 => by rw [hn1 v, hF.inner v hv h1 h2]; simp [h1, h2]
          value := by rw [hn1, hF.value]; simp [hss] }
      have hbD : Bott source pD.val (fun a b => capOf wt a b - flowAt F a b) sink (some x) := hbot.mono hext
      have hA : Aug pD.val x sink source F F1 := (ekAugment_aug _ _ _ _ (e3 inner (by omega))).mono hext
      -- the first search of Dinic
      obtain ⟨x1, G1, d1, hP1⟩ := dinicDfs_spec (sink := sink) hW hne hs hT (vs.length + 1) source [] none F .base (by simp) (by intro y hy; cases hy)
        (fun _ => hss) hF.toFlowKept
      have hx1 : 0 < x1 := by
        have := hP1.nonneg
        refine Classical.byContradiction fun h => ?_
        exact (hP1.zero (by omega)).2 (hlD.down hxp)
      obtain ⟨hb1, ha1⟩ := (dinicDfs_path hW hT _ _ _ _ _ _ (d1 (vs.length + 1) (Nat.le_refl _))).2 hx1 .base
      have hxx : x1 = x := Option.some.inj (hb1.det hbD)
      subst hxx
      have hG : G1 = F1 := ha1.det hT.root hA
      subst hG
      -- the second one finds nothing
      obtain ⟨x2, G2, d2, hP2⟩ := dinicDfs_spec (sink := sink) hW hne hs hT (vs.length + 1) source [] none G1 .base (by simp) (by intro y hy; cases hy)
        (fun _ => hss) hF1
      have hx2 : x2 ≤ 0 := by
        refine Classical.byContradiction fun h => ?_
        have hpos2 : 0 < x2 := by omega
        obtain ⟨hb2, _⟩ := (dinicDfs_path hW hT _ _ _ _ _ _ (d2 (vs.length + 1) (Nat.le_refl _))).2 hpos2 .base
        obtain ⟨b, hb, a, hab, hr⟩ := hbD.attained hlD.tree x1 rfl
        have hfull := hA.full hT.root hlD.tree b hb a hab
        -- the room of the way is at most that of each edge
        have hle : ∀ {y c}, Bott source pD.val (fun a b => capOf wt a b - flowAt G1 a b) y c → ∀ {l}, TreePath vs source pD.val y l →
            ∀ z, c = some z → ∀ b ∈ l, ∀ a, pD.val b = some a → z ≤ capOf wt a b - flowAt G1 a b := by
          intro y c hbt
          induction hbt with
          | base => intro l _ z hz; cases hz
          | @step y p c h1 h2 hbp ihb =>
            intro l hl z hz b hb a ha
            cases hl with
            | base => exact absurd rfl h1
            | step g1 g2 g3 g4 g5 gb =>
              rw [h2] at g3
              cases g3
              injection hz with hz
              rcases List.mem_cons.1 hb with rfl | hb
              · rw [h2] at ha
                cases ha
                rw [← hz]
                exact infMin_le_right
              · cases c with
                | none =>
                  cases gb with
                  | base => cases hb
                  | step k1 =>
                    cases hbp
                    exact absurd rfl k1
                | some w =>
                  have := ihb gb w rfl b hb a ha
                  have h6 : infMin (some w) (capOf wt p y - flowAt G1 p y) ≤ w := infMin_le_left
                  omega
        have := hle hb2 hlD.tree x2 rfl b hb a hab
        omega
      have hG2 : G2 = G1 := (dinicDfs_path hW hT _ _ _ _ _ _ (d2 (vs.length + 1) (Nat.le_refl _))).1 hx2
      subst hG2
      have hpaths : dinicPaths nb ws pD source sink inner inner m F = .ok (m + x1, G2) := by
        obtain ⟨k, rfl⟩ : ∃ k, inner = k + 2 := ⟨inner - 2, by omega⟩
        rw [dinicPaths, d1 _ (by omega), ok_bind]
        dsimp only
        rw [if_neg (by omega), dinicPaths, d2 _ (by omega), ok_bind]
        dsimp only
        rw [if_pos hx2]
      rw [if_neg (by rw [Option.isNone_eq_false_iff.2 hsD]; simp), hpaths, ok_bind, if_neg hx, e3 inner (by omega), ok_bind]
      exact ih (m + x1) G2 hF1'
end

/-- C136: Dinic's algorithm and Edmonds-Karp return the same value, whether or not it is the value of a maximum flow, if no edge enters the source and no
vertex has the empty name. -/
theorem C136_agree_partial {vs nb ws wt source sink} (hW : WGraph vs nb ws wt) (hpos : ∀ u v x, wt u v = some x → 0 ≤ x) (hs : source ∈ vs)
    (hss : source ≠ sink) (hne : "" ∉ vs) (hin : ∀ u, capOf wt u source = 0) :
    ∃ m, EndsWith (maxFlowEdmondsKarp nb ws source sink) (.ok m) ∧ EndsWith (maxFlowDinic nb ws source sink) (.ok m) := by
  obtain ⟨m, _, e, _⟩ := edmondsKarp_result hW hpos hs hss
  refine ⟨m, ⟨_, e⟩, vs.length + 2 + (∑ w ∈ vs.toFinset, capOf wt source w).toNat, fun n hn => ?_⟩
  rw [← e n hn]
  exact dinicLoop_eq hW hpos hne hs hss hin (by omega) n 0 PyDict.empty (flowState_empty hpos)

/-- The property in full: the two always return the same value. -/
def C136_full : Prop := ∀ vs nb ws wt source sink, WGraph vs nb ws wt → (∀ u v x, wt u v = some x → 0 ≤ x) → source ∈ vs → sink ∈ vs → source ≠ sink →
  ∃ m, EndsWith (maxFlowEdmondsKarp nb ws source sink) (.ok m) ∧ EndsWith (maxFlowDinic nb ws source sink) (.ok m)

/-- Where an edge leads back to the source Dinic's algorithm may never end. -/
theorem C136_full_false : ¬ C136_full := by
  intro h
  obtain ⟨m, _, n, hn⟩ := h exLoop.vertices _ _ _ "s" "t" exLoop_wgraph (by
    intro u v x hx
    have he : exLoopD.edges = [("s", "a"), ("a", "s"), ("a", "t")] := by decide +kernel
    have h1 := (Digraph.wt_some hx).1
    have h2 : ∀ e ∈ exLoopD.edges, (Digraph.wt exLoopD e.1 e.2).all (fun y => decide (0 ≤ y)) = true := by
      rw [he]
      decide +kernel
    simpa [hx] using h2 _ h1) (by decide +kernel) (by decide +kernel) (by decide)
  have := hn n (Nat.le_refl _)
  rw [C68_dinic_never_ends] at this
  cases this

/-- The hypotheses are met by the network of `C68_full_false_dinic`, on which both algorithms return the same wrong value 1. -/
example : (∃ m, EndsWith (maxFlowEdmondsKarp (alNeighbors exNet) exNet.weights "S" "T") (.ok m) ∧
    EndsWith (maxFlowDinic (alNeighbors exNet) exNet.weights "S" "T") (.ok m)) :=
  C136_agree_partial exNet_wgraph exNet_pos (by decide +kernel) (by decide) (by decide +kernel) (by
    intro u
    rw [capOf, exNet_wt, if_neg]
    · rfl
    · simp)

end Props
