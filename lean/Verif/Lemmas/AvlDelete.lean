import Verif.Lemmas.RedBlackDelete

/-!
# Lemmas about AVL deletion
-/
namespace Props
open Py Model Spec
set_option linter.unusedSectionVars false
variable {κ δ : Type} [DecidableEq κ]

/-! ## The walk of `_balance_deletion` -/

/-- A step without rotation. -/
theorem avlDel_calm {t : BTree κ δ} {c : Around} {L R : Shape} {w : Nat} (h : TreeAt true t (Around.plug c (.node L w R)))
    (hL : Ann t.orderStat t.at L) (hR : Ann t.orderStat t.at R) (hc : AnnAround t.orderStat t.at c)
    (h1 : L.depth ≤ R.depth + 1) (h2 : R.depth ≤ L.depth + 1) :
    ∃ t', avlDelBody (t, some w) = .ok (t', Around.up c) ∧ TreeAt true t' (Around.plug c (.node L w R)) ∧
      Ann t.orderStat t'.at (.node L w R) ∧ AnnAround t.orderStat t'.at c ∧ Kept t t' := by
  obtain ⟨t1, t2, e1, e2, w2, a2⟩ := settle_spec h hL hR
  have h2' := w2.tree h
  obtain ⟨n, en, _, _, n3⟩ := h2'.node
  have hb := balanceFactor_ok h2' a2.1.2.1 a2.1.2.2
  obtain ⟨_, _, f3⟩ := h.fresh
  refine ⟨t2, ?_, h2', a2, w2.annAround f3 hc, w2.kept⟩
  have hcalm : ((R.depth : Int) - L.depth = 1 ∨ (R.depth : Int) - L.depth = 0 ∨ (R.depth : Int) - L.depth = -1) := by omega
  simp only [avlDelBody, asIdx, ok_bind, e1, e2, hb, if_pos hcalm, getNode_ok en, n3]

/-- A step that has to rotate, up to the rotation. -/
theorem avlDel_turn {t : BTree κ δ} {c : Around} {L R : Shape} {w : Nat} (h : TreeAt true t (Around.plug c (.node L w R)))
    (hL : Ann t.orderStat t.at L) (hR : Ann t.orderStat t.at R) (hc : AnnAround t.orderStat t.at c)
    (hd : R.depth + 2 ≤ L.depth ∨ L.depth + 2 ≤ R.depth) :
    ∃ t', TreeAt true t' (Around.plug c (.node L w R)) ∧ Ann t'.orderStat t'.at L ∧ Ann t'.orderStat t'.at R ∧ AnnAround t'.orderStat t'.at c ∧
      Kept t t' ∧ ∀ t'' n, avlDelRotate t' w = .ok t'' → t''.at w = some n → avlDelBody (t, some w) = .ok (t'', n.parent) := by
  obtain ⟨t1, t2, e1, e2, w2, a2⟩ := settle_spec h hL hR
  have h2' := w2.tree h
  have hb := balanceFactor_ok h2' a2.1.2.1 a2.1.2.2
  obtain ⟨f1, f2, f3⟩ := h.fresh
  have o2 := w2.rest.orderStat
  refine ⟨t2, h2', by rw [o2]; exact w2.ann f1 hL, by rw [o2]; exact w2.ann f2 hR, by rw [o2]; exact w2.annAround f3 hc, w2.kept, ?_⟩
  intro t3 n e3 en
  have hturn : ¬ ((R.depth : Int) - L.depth = 1 ∨ (R.depth : Int) - L.depth = 0 ∨ (R.depth : Int) - L.depth = -1) := by omega
  simp only [avlDelBody, asIdx, ok_bind, e1, e2, hb, if_neg hturn, e3, getNode_ok en]

/-- The higher side is the left one. -/
theorem delRotate_left {t : BTree κ δ} {c : Around} {A B C : Shape} {j k : Nat} (h : TreeAt true t (Around.plug c (.node (.node A k B) j C)))
    (hA : Heighted t.at (.node A k B)) (hC : Heighted t.at C) (hd : C.depth + 2 ≤ (Shape.node A k B).depth) :
    avlDelRotate t j = if B.depth ≤ A.depth then avlRight t j k else avlLeftRight t j k := by
  obtain ⟨n, en, n1, n2, n3⟩ := h.node
  have hb := balanceFactor_ok h hA hC
  have hk := balanceFactor_ok (show TreeAt true t (Around.plug (.inL j C :: c) (.node A k B)) from h) hA.2.1 hA.2.2
  rw [root_node] at n1
  have hneg : ((C.depth : Int) - (Shape.node A k B).depth) < 0 := by omega
  simp only [avlDelRotate, hb, ok_bind, getNode_ok en, if_pos hneg, n1, asIdx, hk]
  by_cases hc : B.depth ≤ A.depth
  · rw [if_pos hc, if_pos (by omega)]
  · rw [if_neg hc, if_neg (by omega)]

/-- The higher side is the right one. -/
theorem delRotate_right {t : BTree κ δ} {c : Around} {A B C : Shape} {j k : Nat} (h : TreeAt true t (Around.plug c (.node C j (.node B k A))))
    (hA : Heighted t.at (.node B k A)) (hC : Heighted t.at C) (hd : C.depth + 2 ≤ (Shape.node B k A).depth) :
    avlDelRotate t j = if B.depth ≤ A.depth then avlLeft t j k else avlRightLeft t j k := by
  obtain ⟨n, en, n1, n2, n3⟩ := h.node
  have hb := balanceFactor_ok h hC hA
  have hk := balanceFactor_ok (show TreeAt true t (Around.plug (.inR C j :: c) (.node B k A)) from h) hA.2.1 hA.2.2
  rw [root_node] at n2
  have hneg : ¬ (((Shape.node B k A).depth : Int) - C.depth) < 0 := by omega
  simp only [avlDelRotate, hb, ok_bind, getNode_ok en, if_neg hneg, n2, asIdx, hk]
  by_cases hc : B.depth ≤ A.depth
  · rw [if_pos hc, if_pos (by omega)]
  · rw [if_neg hc, if_neg (by omega)]

/-- The result of a walk of `_balance_deletion` from `s`. -/
def AvlShrunk (t : BTree κ δ) (T : Shape) (s : BTree κ δ × Option Nat) (steps : Nat) : Prop :=
  ∃ T' t', T'.ids = T.ids ∧ Balanced T' ∧ TreeAt true t' T' ∧ Ann t.orderStat t'.at T' ∧ Kept t t' ∧
    ∀ fuel > steps, whileLoop fuel avlDelCond avlDelBody s = .ok (t', none)

theorem AvlShrunk.after {t t1 : BTree κ δ} {T T1 : Shape} {s s' : BTree κ δ × Option Nat} {n : Nat} (hstep : avlDelBody s = .ok s') (hw : s.2.isSome = true)
    (k1 : Kept t t1) (hT : T1.ids = T.ids) (h : AvlShrunk t1 T1 s' n) : AvlShrunk t T s (n + 1) := by
  obtain ⟨T', t', h1, h2, h3, h4, h5, hrun⟩ := h
  refine ⟨T', t', h1.trans hT, h2, h3, by rw [← k1.rest.orderStat]; exact h4, k1.trans h5, fun fuel hf => ?_⟩
  obtain ⟨f, rfl⟩ : ∃ f, fuel = f + 1 := ⟨fuel - 1, by omega⟩
  exact (while_step (cond := avlDelCond) f (by simp [avlDelCond, hw]) hstep).trans (hrun f (by omega))

theorem AvlShrunk.mono {t : BTree κ δ} {T : Shape} {s : BTree κ δ × Option Nat} {n m : Nat} (h : AvlShrunk t T s n) (hm : n ≤ m) : AvlShrunk t T s m := by
  obtain ⟨T', t', h1, h2, h3, h4, h5, hrun⟩ := h
  exact ⟨T', t', h1, h2, h3, h4, h5, fun fuel hf => hrun fuel (by omega)⟩

/-- The walk above a subtree that may have lost one level. -/
theorem avl_shrink : ∀ (c : Around) (t : BTree κ δ) (S S0 : Shape), TreeAt true t (Around.plug c S) → Balanced (Around.plug c S0) →
    Balanced S → S.depth ≤ S0.depth → S0.depth ≤ S.depth + 1 → Ann t.orderStat t.at S → AnnAround t.orderStat t.at c →
    AvlShrunk t (Around.plug c S) (t, Around.up c) (2 * c.length) := by
  intro c
  induction c with
  | nil =>
    intro t S S0 h _ hS _ _ ha _
    refine ⟨S, t, rfl, hS, h, ha, .refl t, fun fuel hf => ?_⟩
    obtain ⟨f, rfl⟩ : ∃ f, fuel = f + 1 := ⟨fuel - 1, by omega⟩
    exact while_stop _ (by rfl)
  | cons fr c ih =>
    intro t S S0 h hB0 hS hd1 hd2 ha hc
    have hlen : 2 * (fr :: c).length = (2 * c.length + 1) + 1 := by simp; omega
    -- after a rotation: one step at the new root of the subtree
    have fin : ∀ {t2 : BTree κ δ} {w i : Nat} {L R : Shape}, avlDelBody (t, some w) = .ok (t2, some i) → Kept t t2 →
        TreeAt true t2 (Around.plug c (.node L i R)) →
        Ann t2.orderStat t2.at L → Ann t2.orderStat t2.at R → AnnAround t2.orderStat t2.at c → Balanced (.node L i R) →
        (∃ S0', Balanced (Around.plug c S0') ∧ (Shape.node L i R).depth ≤ S0'.depth ∧ S0'.depth ≤ (Shape.node L i R).depth + 1) →
        AvlShrunk t (Around.plug c (.node L i R)) (t, some w) (2 * c.length + 1 + 1) := by
      intro t2 w i L R e1 k1 h2 aL aR ac hb hS0
      obtain ⟨S0', b0, d1, d2⟩ := hS0
      obtain ⟨t3, e3, h3, a3, c3, k3⟩ := avlDel_calm h2 aL aR ac hb.1 hb.2.1
      have o3 := k3.rest.orderStat
      exact AvlShrunk.after e1 rfl k1 rfl (AvlShrunk.after e3 rfl k3 rfl (ih t3 _ S0' h3 b0 hb d1 d2 (by rw [o3]; exact a3) (by rw [o3]; exact c3)))
    rw [hlen]
    cases fr with
    | inL j C =>
      show AvlShrunk t (Around.plug c (.node S j C)) (t, some j) _
      have h' : TreeAt true t (Around.plug c (.node S j C)) := h
      have hb := Balanced.hole (c := c) (S := .node S0 j C) hB0
      have hb1 := hb.1
      have hb2 := hb.2.1
      have hbC := hb.2.2.2
      have d0 : (Shape.node S0 j C).depth = max S0.depth C.depth + 1 := rfl
      by_cases hdep : C.depth ≤ S.depth + 1
      · obtain ⟨t1, e1, h1, a1, c1, k1⟩ := avlDel_calm h' ha hc.1 hc.2 (by omega) hdep
        have o1 := k1.rest.orderStat
        refine (AvlShrunk.after e1 rfl k1 rfl (ih t1 (.node S j C) (.node S0 j C) h1 hB0 ⟨by omega, hdep, hS, hbC⟩ ?_ ?_ (by rw [o1]; exact a1) (by rw [o1]; exact c1))).mono (by omega)
        · simp only [Shape.depth]; omega
        · simp only [Shape.depth]; omega
      · obtain ⟨t2, h2, aS, aC, c2, k2, hstep⟩ := avlDel_turn h' ha hc.1 hc.2 (by omega)
        obtain ⟨B, k, A, rfl⟩ := depth_pos_root (T := C) (by omega)
        have dC : (Shape.node B k A).depth = max B.depth A.depth + 1 := rfl
        have aB : Ann t2.orderStat t2.at B := ⟨aC.1.2.1, fun ho => (aC.2 ho).2.1⟩
        have aA : Ann t2.orderStat t2.at A := ⟨aC.1.2.2, fun ho => (aC.2 ho).2.2⟩
        obtain ⟨q1, q2, qB, qA⟩ := hbC
        have hrot := delRotate_right h2 aC.1 aS.1 (by omega)
        by_cases hBA : B.depth ≤ A.depth
        · obtain ⟨t3, e3, h3, a3, c3, k3⟩ := avlLeft_spec h2 aA aB aS c2
          rw [if_pos hBA, e3] at hrot
          obtain ⟨n3, en3, _, _, np⟩ := (show TreeAt true t3 (Around.plug (.inL k A :: c) (.node S j B)) from h3).node
          have e4 := hstep t3 n3 hrot en3
          rw [np] at e4
          have o3 := k3.rest.orderStat
          obtain ⟨T', t', x1, x2⟩ := fin e4 (k2.trans k3) h3 (by rw [o3]; exact a3) (by rw [o3]; exact c3.1) (by rw [o3]; exact c3.2)
            ⟨by simp only [Shape.depth]; omega, by simp only [Shape.depth]; omega, ⟨by omega, by omega, hS, qB⟩, qA⟩
            ⟨_, hB0, by simp only [Shape.depth]; omega, by simp only [Shape.depth]; omega⟩
          exact ⟨T', t', x1.trans (by rw [Around.ids_plug, Around.ids_plug]; simp [Shape.ids, Frame.idx]), x2⟩
        · obtain ⟨W, i, V, rfl⟩ := depth_pos_root (T := B) (by omega)
          have dB : (Shape.node W i V).depth = max W.depth V.depth + 1 := rfl
          obtain ⟨q3, q4, qW, qV⟩ := qB
          obtain ⟨t3, e3, h3, a3, c3, k3⟩ := avlRightLeft_spec h2 aA ⟨aB.1.2.2, fun ho => (aB.2 ho).2.2⟩ ⟨aB.1.2.1, fun ho => (aB.2 ho).2.1⟩ aS c2
          rw [if_neg hBA, e3] at hrot
          obtain ⟨n3, en3, _, _, np⟩ := (show TreeAt true t3 (Around.plug (.inL i (.node V k A) :: c) (.node S j W)) from h3).node
          have e4 := hstep t3 n3 hrot en3
          rw [np] at e4
          have o3 := k3.rest.orderStat
          obtain ⟨T', t', x1, x2⟩ := fin e4 (k2.trans k3) h3 (by rw [o3]; exact a3) (by rw [o3]; exact c3.1) (by rw [o3]; exact c3.2)
            ⟨by simp only [Shape.depth]; omega, by simp only [Shape.depth]; omega, ⟨by omega, by omega, hS, qW⟩, by omega, by omega, qV, qA⟩
            ⟨_, hB0, by simp only [Shape.depth]; omega, by simp only [Shape.depth]; omega⟩
          exact ⟨T', t', x1.trans (by rw [Around.ids_plug, Around.ids_plug]; simp [Shape.ids, Frame.idx]), x2⟩
    | inR C j =>
      show AvlShrunk t (Around.plug c (.node C j S)) (t, some j) _
      have h' : TreeAt true t (Around.plug c (.node C j S)) := h
      have hb := Balanced.hole (c := c) (S := .node C j S0) hB0
      have hb1 := hb.1
      have hb2 := hb.2.1
      have hbC := hb.2.2.1
      have d0 : (Shape.node C j S0).depth = max C.depth S0.depth + 1 := rfl
      by_cases hdep : C.depth ≤ S.depth + 1
      · obtain ⟨t1, e1, h1, a1, c1, k1⟩ := avlDel_calm h' hc.1 ha hc.2 hdep (by omega)
        have o1 := k1.rest.orderStat
        refine (AvlShrunk.after e1 rfl k1 rfl (ih t1 (.node C j S) (.node C j S0) h1 hB0 ⟨hdep, by omega, hbC, hS⟩ ?_ ?_ (by rw [o1]; exact a1) (by rw [o1]; exact c1))).mono (by omega)
        · simp only [Shape.depth]; omega
        · simp only [Shape.depth]; omega
      · obtain ⟨t2, h2, aC, aS, c2, k2, hstep⟩ := avlDel_turn h' hc.1 ha hc.2 (by omega)
        obtain ⟨A, k, B, rfl⟩ := depth_pos_root (T := C) (by omega)
        have dC : (Shape.node A k B).depth = max A.depth B.depth + 1 := rfl
        have aA : Ann t2.orderStat t2.at A := ⟨aC.1.2.1, fun ho => (aC.2 ho).2.1⟩
        have aB : Ann t2.orderStat t2.at B := ⟨aC.1.2.2, fun ho => (aC.2 ho).2.2⟩
        obtain ⟨q1, q2, qA, qB⟩ := hbC
        have hrot := delRotate_left h2 aC.1 aS.1 (by omega)
        by_cases hBA : B.depth ≤ A.depth
        · obtain ⟨t3, e3, h3, a3, c3, k3⟩ := avlRight_spec h2 aA aB aS c2
          rw [if_pos hBA, e3] at hrot
          obtain ⟨n3, en3, _, _, np⟩ := (show TreeAt true t3 (Around.plug (.inR A k :: c) (.node B j S)) from h3).node
          have e4 := hstep t3 n3 hrot en3
          rw [np] at e4
          have o3 := k3.rest.orderStat
          obtain ⟨T', t', x1, x2⟩ := fin e4 (k2.trans k3) h3 (by rw [o3]; exact c3.1) (by rw [o3]; exact a3) (by rw [o3]; exact c3.2)
            ⟨by simp only [Shape.depth]; omega, by simp only [Shape.depth]; omega, qA, by omega, by omega, qB, hS⟩
            ⟨_, hB0, by simp only [Shape.depth]; omega, by simp only [Shape.depth]; omega⟩
          exact ⟨T', t', x1.trans (by rw [Around.ids_plug, Around.ids_plug]; simp [Shape.ids, Frame.idx]), x2⟩
        · obtain ⟨V, i, W, rfl⟩ := depth_pos_root (T := B) (by omega)
          have dB : (Shape.node V i W).depth = max V.depth W.depth + 1 := rfl
          obtain ⟨q3, q4, qV, qW⟩ := qB
          obtain ⟨t3, e3, h3, a3, c3, k3⟩ := avlLeftRight_spec h2 aA ⟨aB.1.2.1, fun ho => (aB.2 ho).2.1⟩ ⟨aB.1.2.2, fun ho => (aB.2 ho).2.2⟩ aS c2
          rw [if_neg hBA, e3] at hrot
          obtain ⟨n3, en3, _, _, np⟩ := (show TreeAt true t3 (Around.plug (.inR (.node A k V) i :: c) (.node W j S)) from h3).node
          have e4 := hstep t3 n3 hrot en3
          rw [np] at e4
          have o3 := k3.rest.orderStat
          obtain ⟨T', t', x1, x2⟩ := fin e4 (k2.trans k3) h3 (by rw [o3]; exact c3.1) (by rw [o3]; exact a3) (by rw [o3]; exact c3.2)
            ⟨by simp only [Shape.depth]; omega, by simp only [Shape.depth]; omega, ⟨by omega, by omega, qA, qV⟩, by omega, by omega, qW, hS⟩
            ⟨_, hB0, by simp only [Shape.depth]; omega, by simp only [Shape.depth]; omega⟩
          exact ⟨T', t', x1.trans (by rw [Around.ids_plug, Around.ids_plug]; simp [Shape.ids, Frame.idx]), x2⟩

/-! ## Deletion from a tree with right parent links -/

/-- The array holds the tree `T` with the entries `E`, and nothing else. -/
structure Stored (t : BTree κ δ) (T : Shape) (E : List (κ × Option δ)) : Prop where
  tree : TreeAt true t T
  ent : Ent t.at T.ids E
  occ : ∀ i, (t.at i).isSome → i ∈ T.ids
  low : ∀ i ∈ T.ids, i < t.top
  last : t.size = t.top → t.top - 1 ∈ T.ids
  ts : t.top ≤ t.size
  cap : t.top ≤ t.arr.length
  num : t.num = T.ids.length

theorem Stored.num_eq {t : BTree κ δ} {T : Shape} {E : List (κ × Option δ)} (h : Stored t T E) : t.num = E.length := by rw [h.num, h.ent.length]

theorem Stored.isSome {t : BTree κ δ} {T : Shape} {E : List (κ × Option δ)} (h : Stored t T E) {i : Nat} (hi : i ∈ T.ids) : (t.at i).isSome :=
  linked_isSome h.tree.linked i hi

theorem Stored.srt {lt : κ → κ → Bool} {t : BTree κ δ} {T : Shape} {E : List (κ × Option δ)} (h : Stored t T E) (hs : E.Pairwise fun a b => lt a.1 b.1 = true) :
    Srt lt t.at T := by
  have := Holding.srt (lt := lt) (t := { t with orderStat := false }) (T := T) (E := E)
    ⟨⟨h.tree.root, h.tree.linked.weaken, h.tree.nodup⟩, h.ent, hs, fun i hi => h.low i (h.occ i hi), h.cap, h.num, rfl⟩
  exact this

theorem Stored.carries {t : BTree κ δ} {T : Shape} {E : List (κ × Option δ)} (h : Stored t T E) {m : κ → Option (Option δ)}
    (hm : ∀ k d, m k = some d ↔ (k, d) ∈ E) : Carries t T m := by
  intro k d
  rw [hm, h.ent.mem]
  simp only [entryAt_some]

/-- Rearranging the links keeps what is stored. -/
theorem Stored.turn {t t' : BTree κ δ} {T T' : Shape} {E : List (κ × Option δ)} (h : Stored t T E) (hs : SameEntries t t') (hT : TreeAt true t' T') (e : T'.ids = T.ids) :
    Stored t' T' E := by
  refine ⟨hT, by rw [e]; exact h.ent.congr fun i _ => hs.entry i, fun i hi => ?_, fun i hi => ?_, fun hz => ?_, by rw [hs.rest.top, hs.rest.size]; exact h.ts, ?_, ?_⟩
  · rw [e]; rw [hs.isSome] at hi; exact h.occ i hi
  · rw [e] at hi; rw [hs.rest.top]; exact h.low i hi
  · rw [e, hs.rest.top]; rw [hs.rest.top, hs.rest.size] at hz; exact h.last hz
  · rw [hs.rest.top, hs.rest.len]; exact h.cap
  · rw [hs.rest.num, e]; exact h.num

theorem SameButSize.height {h h' : Cells κ δ} (H : SameButSize h h') (i : Nat) : (h' i).map BNode.height = (h i).map BNode.height := by
  have := H i
  cases e : h' i <;> cases e' : h i <;> simp_all [BNode.unsized]

theorem SameButSize.entries {t t' : BTree κ δ} (H : SameButSize t.at t'.at) (r : SameRest t t') : SameEntries t t' := by
  refine ⟨r, fun i => ?_, fun i => ?_⟩ <;>
  · have := H i
    cases e : t'.at i <;> cases e' : t.at i <;> simp_all [BNode.unsized]

theorem atDelete_modify {t : BTree κ δ} {x : Nat} (hx : (t.at x).isSome) (hlow : x < t.top) (hn : 1 ≤ t.num) :
    ∃ t', atDelete t x = atModify t' ∧ t'.at = (fun j => if j = x then none else t.at j) ∧ Freed t t' x ∧ t'.rootIdx = t.rootIdx ∧ t'.orderStat = t.orderStat := by
  refine ⟨{ t with arr := t.arr.set x none, num := t.num - 1, top := if t.top = x + 1 then x else t.top }, ?_, ?_, ⟨rfl, by simp; omega, by simp, rfl⟩, rfl, rfl⟩
  · unfold atDelete
    rw [if_pos ⟨hlow, hx⟩]
  · funext j
    simp only [BTree.at, List.getElem?_set]
    by_cases hj : x = j
    · subst hj
      rw [if_pos rfl, if_pos rfl]
      split <;> rfl
    · rw [if_neg hj, if_neg (fun e => hj e.symm)]

/-- The node `x`, whose only subtree is `S`, is cut out and its position is freed; the array may then be contracted. -/
theorem stored_free {t : BTree κ δ} {f : Frame} {C : Around} {A B S : Shape} {x : Nat} {E : List (κ × Option δ)} (hT : TreeAt true t (Around.plug (f :: C) (.node A x B)))
    (hS : A = .leaf ∧ S = B ∨ B = .leaf ∧ S = A) (he : Ent t.at (Around.plug (f :: C) S).ids E)
    (occ : ∀ i, (t.at i).isSome → i ∈ (Around.plug (f :: C) (.node A x B)).ids) (low : ∀ i ∈ (Around.plug (f :: C) (.node A x B)).ids, i < t.top)
    (last : t.size = t.top → t.top - 1 ∈ (Around.plug (f :: C) (.node A x B)).ids) (ts : t.top ≤ t.size) (cap : t.top ≤ t.arr.length)
    (num : t.num = (Around.plug (f :: C) (.node A x B)).ids.length) :
    ∃ t1 t2 t3, modNode t f.idx (fun n => if f.isL then { n with left := S.root } else { n with right := S.root }) = .ok t1 ∧
      modIf t1 S.root (fun n => { n with parent := some f.idx }) = .ok t2 ∧ atDelete t2 x = atModify t3 ∧ Stored t3 (Around.plug (f :: C) S) E ∧
      Freed t t3 x ∧ (t2.at f.idx).isSome ∧ (t2.at t2.rootIdx).isSome ∧ t3.orderStat = t.orderStat ∧
      (∀ i ∈ (Around.plug (f :: C) S).ids, (t3.at i).map BNode.strip = (t.at i).map BNode.strip) ∧
      (∀ i ∈ (Around.plug (f :: C) S).ids, t3.at i = t2.at i) ∧ t3.rootIdx = t2.rootIdx := by
  obtain ⟨t1, e1, r1, s1, q1, o1, a1, nd1, hx1, len1, rt1⟩ := rb_cut hT hS
  have hlS : ∃ p, Linked true t.at p S := by
    obtain ⟨_, _, l1, l2⟩ := (linked_plug true t.at (f :: C) _).mp hT.linked
    rcases hS with ⟨rfl, rfl⟩ | ⟨rfl, rfl⟩
    · exact ⟨_, l2⟩
    · exact ⟨_, l1⟩
  obtain ⟨p, hlS⟩ := hlS
  have hSm : ∀ i ∈ S.ids, i ∈ (Around.plug (f :: C) (.node A x B)).ids := by
    intro i hi
    rw [mem_plug]
    rcases hS with ⟨rfl, rfl⟩ | ⟨rfl, rfl⟩ <;> simp [Shape.ids, hi]
  have hfS : f.idx ∉ S.ids := by
    have := (around_fresh nd1).1
    exact this
  obtain ⟨t2, e2, a2, r2, q2⟩ := modIf_spec (t := t1) (o := S.root) (fun n => { n with parent := some f.idx }) (by
    intro i hi
    rw [s1.some_iff]; exact linked_isSome hT.linked i (hSm i (Shape.root_mem hi)))
  have s2 : SameContent t1.at t2.at := by
    rw [a2]
    intro j
    unfold mapAt?
    split
    · cases t1.at j <;> rfl
    · rfl
  have o2 : ∀ j, S.root ≠ some j → t2.at j = t1.at j := by
    intro j hj
    rw [a2]; unfold mapAt?; rw [if_neg hj]
  have hne : ∀ j ∈ Around.before (f :: C) ++ Around.after (f :: C), S.root ≠ some j := by
    intro j hj hr
    have h1 := Shape.root_mem hr
    rw [Around.ids_plug] at nd1
    grind
  have T2 : TreeAt true t2 (Around.plug (f :: C) S) := by
    refine ⟨by rw [q2, q1]; exact rt1, (linked_plug _ _ _ _).mpr ⟨?_, ?_⟩, nd1⟩
    · exact around_congr (fun j hj => by simp [linksOf, o2 j (hne j hj)]) a1
    · refine linked_reparent (h := t.at) (p := p) ?_ ?_ ?_ hlS
      · intro j hj hr
        simp [linksOf, o2 j hr, o1 j (by rintro rfl; exact hfS hj)]
      · intro j hj n hn
        have hjf : j ≠ f.idx := by rintro rfl; exact hfS (Shape.root_mem hj)
        refine ⟨{ n with parent := some f.idx }, ?_, rfl, rfl, rfl⟩
        rw [a2]; unfold mapAt?; rw [if_pos hj, o1 j hjf, hn]; rfl
      · rw [Around.ids_plug] at nd1; grind
  have rr := r1.trans r2
  have som : ∀ j, (t2.at j).isSome = (t.at j).isSome := fun j => by rw [s2.some_iff, s1.some_iff]
  have hxm : x ∈ (Around.plug (f :: C) (.node A x B)).ids := by rw [mem_plug]; simp [Shape.ids]
  obtain ⟨t3, e3, a3, f3, q3, o3⟩ := atDelete_modify (t := t2) (x := x) (by rw [som]; exact linked_isSome hT.linked x hxm)
    (by rw [rr.top]; exact low x hxm) (by rw [rr.num, num]; exact List.length_pos_of_mem hxm)
  have h3 : ∀ i, i ≠ x → t3.at i = t2.at i := fun i hi => by rw [a3]; simp only; rw [if_neg hi]
  have hix : ∀ i ∈ (Around.plug (f :: C) S).ids, i ≠ x := by rintro i hi rfl; exact hx1 hi
  have hsub : ∀ i, i ∈ (Around.plug (f :: C) (.node A x B)).ids → i ≠ x → i ∈ (Around.plug (f :: C) S).ids := by
    intro i hi hne
    rw [mem_plug] at hi ⊢
    rcases hi with hi | hi
    · left
      simp only [Shape.ids, List.mem_append, List.mem_cons, List.not_mem_nil, or_false] at hi
      rcases hS with ⟨rfl, rfl⟩ | ⟨rfl, rfl⟩ <;> simp only [Shape.ids, List.not_mem_nil] at hi <;> grind
    · exact .inr hi
  have hsup : ∀ i, i ∈ (Around.plug (f :: C) S).ids → i ∈ (Around.plug (f :: C) (.node A x B)).ids := by
    intro i hi
    rw [mem_plug] at hi
    rcases hi with hi | hi
    · exact hSm i hi
    · rw [mem_plug]; exact .inr hi
  refine ⟨t1, t2, t3, e1, e2, e3, ⟨?_, ?_, ?_, ?_, ?_, ?_, ?_, ?_⟩, ?_, ?_, ?_, by rw [o3, rr.orderStat], ?_, fun i hi => h3 i (hix i hi), q3⟩
  · exact ⟨by rw [q3]; exact T2.root, linked_congr (fun i hi => by simp [linksOf, h3 i (hix i hi)]) T2.linked, nd1⟩
  · refine he.congr fun i hi => ?_
    have : entryAt t3.at i = entryAt t2.at i := by simp [entryAt, h3 i (hix i hi)]
    rw [this, s2.entry, s1.entry]
  · intro i hi
    have hne : i ≠ x := by rintro rfl; rw [a3] at hi; simp at hi
    rw [h3 i hne, som] at hi
    exact hsub i (occ i hi) hne
  · intro i hi
    have := low i (hsup i hi)
    rw [f3.top, rr.top]
    split
    · have := hix i hi; omega
    · exact this
  · intro hz
    rw [f3.size, f3.top, rr.size, rr.top] at hz
    rw [f3.top, rr.top]
    by_cases ht : t.top = x + 1
    · rw [if_pos ht] at hz ⊢
      omega
    · rw [if_neg ht] at hz ⊢
      exact hsub _ (last hz) (by have := low x hxm; omega)
  · rw [f3.top, f3.size, rr.top, rr.size]; split <;> omega
  · rw [f3.top, f3.len, rr.top, rr.len]; split <;> omega
  · have := f3.num; rw [rr.num] at this; omega
  · exact ⟨by rw [f3.size, rr.size], by rw [← rr.num]; exact f3.num, by rw [f3.len, rr.len], by rw [f3.top, rr.top]⟩
  · rw [som]; exact linked_isSome hT.linked _ (Frame.idx_mem f C _)
  · rw [som, q2, q1]; exact linked_isSome hT.linked _ (Shape.root_mem hT.root)
  · intro i hi
    rw [h3 i (hix i hi)]
    exact (s2 i).trans (s1 i)

/-- The node `x`, whose only subtree is `S`, is cut out and its position is freed. -/
theorem stored_cut {t : BTree κ δ} {f : Frame} {C : Around} {A B S : Shape} {x : Nat} {E : List (κ × Option δ)} (hT : TreeAt true t (Around.plug (f :: C) (.node A x B)))
    (hS : A = .leaf ∧ S = B ∨ B = .leaf ∧ S = A) (he : Ent t.at (Around.plug (f :: C) S).ids E)
    (occ : ∀ i, (t.at i).isSome → i ∈ (Around.plug (f :: C) (.node A x B)).ids) (low : ∀ i ∈ (Around.plug (f :: C) (.node A x B)).ids, i < t.top)
    (last : t.size = t.top → t.top - 1 ∈ (Around.plug (f :: C) (.node A x B)).ids) (ts : t.top ≤ t.size) (cap : t.top ≤ t.arr.length)
    (num : t.num = (Around.plug (f :: C) (.node A x B)).ids.length) (h4 : t.arr.length ≤ 4 * (t.num - 1)) :
    ∃ t1 t2 t3, modNode t f.idx (fun n => if f.isL then { n with left := S.root } else { n with right := S.root }) = .ok t1 ∧
      modIf t1 S.root (fun n => { n with parent := some f.idx }) = .ok t2 ∧ atDelete t2 x = .ok (t3, none) ∧ Stored t3 (Around.plug (f :: C) S) E ∧
      Freed t t3 x ∧ (t2.at f.idx).isSome ∧ (t2.at t2.rootIdx).isSome ∧ t3.orderStat = t.orderStat ∧
      (∀ i ∈ (Around.plug (f :: C) S).ids, (t3.at i).map BNode.strip = (t.at i).map BNode.strip) := by
  obtain ⟨t1, t2, t3, e1, e2, e3, st, f3, i1, i2, o3, r, _, _⟩ := stored_free hT hS he occ low last ts cap num
  refine ⟨t1, t2, t3, e1, e2, ?_, st, f3, i1, i2, o3, r⟩
  rw [e3]
  unfold atModify
  rw [if_neg]
  have := f3.num
  have := f3.len
  omega

/-- An AVL tree with the entries `E`. A tree of one node may store a height and a size that are too large. -/
structure AvlTree (t : BTree κ δ) (T : Shape) (E : List (κ × Option δ)) : Prop where
  stored : Stored t T E
  bal : Balanced T
  ann : T.ids.length = 1 ∨ Ann t.orderStat t.at T

theorem annAround_heights {os : Bool} {h h' : Cells κ δ} (e : ∀ i, (h' i).map BNode.height = (h i).map BNode.height) : ∀ {c : Around}, AnnAround os h c → AnnAround false h' c := by
  intro c
  induction c with
  | nil => intros; trivial
  | cons f c ih => intro H; exact ⟨⟨heighted_congr (fun i _ => e i) H.1.1, nofun⟩, ih H.2⟩

/-- Cutting out a node, then `_update_size` and `_balance_deletion` from its parent. -/
theorem avl_cut {t : BTree κ δ} {f : Frame} {C : Around} {A B S : Shape} {x : Nat} {E : List (κ × Option δ)} (hT : TreeAt true t (Around.plug (f :: C) (.node A x B)))
    (hS : A = .leaf ∧ S = B ∨ B = .leaf ∧ S = A) (he : Ent t.at (Around.plug (f :: C) S).ids E)
    (occ : ∀ i, (t.at i).isSome → i ∈ (Around.plug (f :: C) (.node A x B)).ids) (low : ∀ i ∈ (Around.plug (f :: C) (.node A x B)).ids, i < t.top)
    (last : t.size = t.top → t.top - 1 ∈ (Around.plug (f :: C) (.node A x B)).ids) (ts : t.top ≤ t.size) (cap : t.top ≤ t.arr.length)
    (num : t.num = (Around.plug (f :: C) (.node A x B)).ids.length) (h4 : t.arr.length ≤ 4 * (t.num - 1))
    (bal : Balanced (Around.plug (f :: C) (.node A x B))) (ann : Ann t.orderStat t.at (Around.plug (f :: C) (.node A x B))) :
    ∃ t1 t2 t3 t5 T', modNode t f.idx (fun n => if f.isL then { n with left := S.root } else { n with right := S.root }) = .ok t1 ∧
      modIf t1 S.root (fun n => { n with parent := some f.idx }) = .ok t2 ∧ atDelete t2 x = .ok (t3, none) ∧ (t2.at f.idx).isSome ∧ (t2.at t2.rootIdx).isSome ∧
      AvlTree t5 T' E ∧ Freed t t5 x ∧ t5.orderStat = t.orderStat ∧
      ∃ n0, ∀ fuel, n0 ≤ fuel → ∃ t4, updateSize fuel t3 (some f.idx) = .ok t4 ∧ avlBalanceDel fuel t4 (some f.idx) = .ok t5 := by
  obtain ⟨t1, t2, t3, e1, e2, e3, st3, f3, i1, i2, o3, c3⟩ := stored_cut hT hS he occ low last ts cap num h4
  obtain ⟨aC, aS'⟩ := annAround_of_plug ann
  have aS : Ann t.orderStat t.at S := by
    rcases hS with ⟨rfl, rfl⟩ | ⟨rfl, rfl⟩
    · exact ⟨aS'.1.2.2, fun ho => (aS'.2 ho).2.2⟩
    · exact ⟨aS'.1.2.1, fun ho => (aS'.2 ho).2.1⟩
  have bS' := Balanced.hole (c := f :: C) (S := .node A x B) bal
  have bS : Balanced S := by
    rcases hS with ⟨rfl, rfl⟩ | ⟨rfl, rfl⟩
    · exact bS'.2.2.2
    · exact bS'.2.2.1
  have dS : (Shape.node A x B).depth = S.depth + 1 := by
    rcases hS with ⟨rfl, rfl⟩ | ⟨rfl, rfl⟩ <;> simp [Shape.depth]
  have hh3 : ∀ i ∈ (Around.plug (f :: C) S).ids, (t3.at i).map BNode.height = (t.at i).map BNode.height := by
    intro i hi
    have := c3 i hi
    cases e : t3.at i <;> cases e' : t.at i <;> simp_all [BNode.strip]
  have hs3 : ∀ i ∈ (Around.plug (f :: C) S).ids, (t3.at i).map BNode.size = (t.at i).map BNode.size := by
    intro i hi
    have := c3 i hi
    cases e : t3.at i <;> cases e' : t.at i <;> simp_all [BNode.strip]
  have mS : ∀ i ∈ S.ids, i ∈ (Around.plug (f :: C) S).ids := fun i hi => by rw [mem_plug]; exact .inl hi
  have mC : ∀ i ∈ Around.before (f :: C) ++ Around.after (f :: C), i ∈ (Around.plug (f :: C) S).ids := fun i hi => around_mem hi
  have aS3 : Ann t.orderStat t3.at S := ann_congr (fun i hi => hh3 i (mS i hi)) (fun i hi => hs3 i (mS i hi)) aS
  have aC3 : AnnAround t.orderStat t3.at (f :: C) := annAround_congr (fun i hi => hh3 i (mC i hi)) (fun i hi => hs3 i (mC i hi)) aC
  -- the sizes
  have size : ∃ t4, SameEntries t3 t4 ∧ TreeAt true t4 (Around.plug (f :: C) S) ∧ Ann t.orderStat t4.at S ∧ AnnAround t.orderStat t4.at (f :: C) ∧
      ∃ n0, ∀ fuel, n0 ≤ fuel → updateSize fuel t3 (some f.idx) = .ok t4 := by
    cases ho : t.orderStat with
    | false =>
      rw [ho] at aS3 aC3
      exact ⟨t3, .refl t3, st3.tree, aS3, aC3, 0, fun fuel _ => updateSize_off (by rw [o3, ho]) fuel _⟩
    | true =>
      rw [ho] at aS3 aC3
      obtain ⟨hA, _⟩ := (linked_plug true t3.at (f :: C) _).mp st3.tree.linked
      have sC : ∀ c : Around, AnnAround true t3.at c → SizedAround t3.at c := by
        intro c
        induction c with
        | nil => intro _; trivial
        | cons g c ih => intro h; exact ⟨h.1.2 rfl, ih h.2⟩
      obtain ⟨t4, sb, r4, q4, z4, hrun⟩ := updateSize_loop (f :: C) t3 S hA (aS3.2 rfl) (sC _ aC3) st3.tree.nodup
      have z := sizedAround_of_plug z4
      refine ⟨t4, sb.entries r4, ⟨by rw [q4]; exact st3.tree.root, linked_congr (fun i _ => sb.links i) st3.tree.linked, st3.tree.nodup⟩,
        ⟨heighted_congr (fun i _ => sb.height i) aS3.1, fun _ => z.2⟩, annAround_join (annAround_heights sb.height aC3) (fun _ => z.1),
        (f :: C).length + 1, fun fuel hf => ?_⟩
      · have := hrun fuel (by omega)
        simp only [updateSize, o3, ho, if_true]
        rw [show (some f.idx) = Around.up (f :: C) from rfl, this]; rfl
  obtain ⟨t4, se4, T4, aS4, aC4, n4, hrun4⟩ := size
  obtain ⟨T', t5, ids5, b5, T5, a5, k5, hrun5⟩ := avl_shrink (f :: C) t4 S (.node A x B) T4 bal bS (by omega) (by omega)
    (by rw [se4.rest.orderStat, o3]; exact aS4) (by rw [se4.rest.orderStat, o3]; exact aC4)
  have r35 := se4.rest.trans k5.rest
  refine ⟨t1, t2, t3, t5, T', e1, e2, e3, i1, i2, ⟨(st3.turn (se4.trans k5.entries) T5 ids5), b5, .inr ?_⟩,
    ⟨by rw [r35.size, f3.size], by rw [r35.num]; exact f3.num, by rw [r35.len, f3.len], by rw [r35.top, f3.top]⟩, by rw [r35.orderStat, o3],
    n4 + 2 * (f :: C).length + 1, fun fuel hf => ⟨t4, hrun4 fuel (by omega), ?_⟩⟩
  · rw [k5.rest.orderStat]; exact a5
  · simp only [avlBalanceDel]
    rw [show (some f.idx) = Around.up (f :: C) from rfl, hrun5 fuel (by omega)]; rfl

/-! ## The cases of `delete` -/

/-- A key has been deleted and its position `x` freed. -/
def AvlGone (t t' : BTree κ δ) (E : List (κ × Option δ)) : Prop := ∃ T' x, AvlTree t' T' E ∧ Freed t t' x ∧ t'.orderStat = t.orderStat

/-- The node found by the search has a parent and at most one child. -/
theorem avl_inner {t : BTree κ δ} {f : Frame} {C : Around} {A B S : Shape} {x : Nat} {E1 E2 : List (κ × Option δ)} {e : κ × Option δ}
    (H : AvlTree t (Around.plug (f :: C) (.node A x B)) (E1 ++ e :: E2)) (hS : A = .leaf ∧ S = B ∨ B = .leaf ∧ S = A)
    (he1 : Ent t.at (Around.before (f :: C) ++ A.ids) E1) (he2 : Ent t.at (B.ids ++ Around.after (f :: C)) E2) (h4 : t.arr.length ≤ 4 * (t.num - 1)) :
    ∃ t', AvlGone t t' (E1 ++ E2) ∧ ∃ n0, ∀ fuel, n0 ≤ fuel → ∃ t4,
      (match S.root with
        | none => delLeaf fuel t x (some f.idx)
        | some c => delOneInner fuel t x c f.idx) = .ok (t4, some f.idx) ∧ avlBalanceDel fuel t4 (some f.idx) = .ok t' := by
  have st := H.stored
  have hlen : 2 ≤ (Around.plug (f :: C) (.node A x B)).ids.length := by
    have := Around.up_mem (c := f :: C) (i := f.idx) rfl
    have := List.length_pos_of_mem this
    rw [Around.ids_plug]
    simp only [List.length_append, Shape.ids, List.length_cons] at this ⊢; omega
  have ann : Ann t.orderStat t.at (Around.plug (f :: C) (.node A x B)) := H.ann.resolve_left (by omega)
  have he : Ent t.at (Around.plug (f :: C) S).ids (E1 ++ E2) := by
    rw [Around.ids_plug]
    rcases hS with ⟨rfl, rfl⟩ | ⟨rfl, rfl⟩
    · simp only [Shape.ids, List.append_nil] at he1
      rw [List.append_assoc]
      exact Ent.append_iff.mpr ⟨E1, E2, rfl, he1, he2⟩
    · simp only [Shape.ids, List.nil_append] at he2
      exact Ent.append_iff.mpr ⟨E1, E2, rfl, he1, he2⟩
  obtain ⟨t1, t2, t3, t5, T', e1, e2, e3, i1, i2, h5, f5, o5, n0, hrun⟩ := avl_cut st.tree hS he st.occ st.low st.last st.ts st.cap st.num h4 H.bal ann
  refine ⟨t5, ⟨T', x, h5, f5, o5⟩, n0, fun fuel hf => ?_⟩
  obtain ⟨t4, e4, e5⟩ := hrun fuel hf
  refine ⟨t4, ?_, e5⟩
  rw [relink_eq st.tree] at e1
  cases hr : S.root with
  | none =>
    rw [hr] at e1 e2
    have : t2 = t1 := by simpa [modIf] using e2.symm
    subst this
    simp only [delLeaf, e1, ok_bind, delSlot_spec i1 i2 e3, e4]
  | some c =>
    rw [hr] at e1 e2
    obtain ⟨p, ep⟩ := Option.isSome_iff_exists.mp i1
    obtain ⟨r, er⟩ := Option.isSome_iff_exists.mp i2
    have e2' : modNode t1 c (fun n => { n with parent := some f.idx }) = .ok t2 := e2
    simp only [delOneInner, e1, e2', ok_bind, getNode_ok ep, getNode_ok er, e3, e4]

/-- The node found by the search has two children. -/
theorem avl_two {t : BTree κ δ} {c : Around} {l r : Shape} {i ri : Nat} {E1 E2 : List (κ × Option δ)} {e : κ × Option δ}
    (H : AvlTree t (Around.plug c (.node l i r)) (E1 ++ e :: E2)) (hr : r.root = some ri)
    (he1 : Ent t.at (Around.before c ++ l.ids) E1) (he2 : Ent t.at (r.ids ++ Around.after c) E2) (h4 : t.arr.length ≤ 4 * (t.num - 1)) :
    ∃ t' p, AvlGone t t' (E1 ++ E2) ∧ ∃ n0, ∀ fuel, n0 ≤ fuel → ∃ t4, delTwo fuel t i = .ok (t4, some p) ∧ avlBalanceDel fuel t4 (some p) = .ok t' := by
  have st := H.stored
  have hl := ((linked_plug true t.at c _).mp st.tree.linked).2
  obtain ⟨⟨n, en, n1, n2, _⟩, _, hlr⟩ := hl
  obtain ⟨cs, s, rs, er, hb, hcs, hrun⟩ := succ_loop r none i false ri hr hlr.weaken
  subst er
  rw [Around.ids_plug, hb] at he2
  simp only [Shape.ids, List.nil_append, List.cons_append, List.append_assoc] at he2
  obtain ⟨es, E3, rfl, hes, hE3⟩ := Ent.cons_iff.mp he2
  obtain ⟨g, C, hgC⟩ : ∃ g C, cs ++ Frame.inR l i :: c = g :: C := by cases cs <;> simp
  have hplug : ∀ S, Around.plug (g :: C) S = Around.plug c (.node l i (Around.plug cs S)) := by
    intro S; rw [← hgC, Around.plug_append]; rfl
  have hids : ∀ S : Shape, (Around.plug (g :: C) S).ids = (Around.before c ++ l.ids) ++ i :: (S.ids ++ (Around.after cs ++ Around.after c)) := by
    intro S; rw [hplug, Around.ids_plug, Shape.ids, Around.ids_plug, hb]; simp
  have H' := H
  rw [← hplug] at H'
  have st' := H'.stored
  have hnd := st'.tree.nodup
  rw [hids] at hnd
  simp only [Shape.ids] at hnd
  obtain ⟨m, em, m1, m2⟩ : ∃ m, t.at s = some m ∧ m.left = none ∧ m.right = rs.root := by
    obtain ⟨⟨m, em, m1, m2, _⟩, _⟩ := ((linked_plug true t.at (g :: C) _).mp st'.tree.linked).2
    exact ⟨m, em, m1, m2⟩
  obtain ⟨nd1, nd2, dj⟩ := List.nodup_append.mp hnd
  obtain ⟨nd3, nd4⟩ := List.nodup_cons.mp nd2
  have hi1 : ∀ j ∈ Around.before c ++ l.ids, j ≠ i := fun j hj => dj j hj i (by simp)
  have hi2 : ∀ j ∈ rs.ids ++ (Around.after cs ++ Around.after c), j ≠ i := by
    rintro j hj rfl
    apply nd3
    simp only [List.nil_append, List.cons_append, List.mem_cons]
    exact .inr hj
  obtain ⟨t1, e1, a1, r1, q1⟩ := modNode_spec (t := t) (i := i) (fun n => { n with data := m.data, key := m.key }) (by rw [en]; rfl)
  have at1 : ∀ j, j ≠ i → t1.at j = t.at j := fun j hj => by rw [a1]; unfold mapAt; rw [if_neg hj]
  have at1i : t1.at i = some { n with data := m.data, key := m.key } := by rw [a1]; unfold mapAt; rw [if_pos rfl, en]; rfl
  have lk : ∀ j, linksOf t1.at j = linksOf t.at j := by
    intro j
    by_cases e : j = i
    · subst e; simp [linksOf, at1i, en, BNode.links]
    · simp [linksOf, at1 j e]
  have hg : ∀ j, (t1.at j).map BNode.height = (t.at j).map BNode.height ∧ (t1.at j).map BNode.size = (t.at j).map BNode.size := by
    intro j
    by_cases e : j = i
    · subst e; simp [at1i, en]
    · simp [at1 j e]
  have som : ∀ j, (t1.at j).isSome = (t.at j).isSome := by
    intro j
    by_cases e : j = i
    · subst e; simp [at1i, en]
    · simp [at1 j e]
  have T1 : TreeAt true t1 (Around.plug (g :: C) (.node .leaf s rs)) :=
    ⟨by rw [q1]; exact st'.tree.root, linked_congr (fun j _ => lk j) st'.tree.linked, st'.tree.nodup⟩
  have ent1 : ∀ j, j ≠ i → entryAt t1.at j = entryAt t.at j := fun j hj => by unfold entryAt; rw [at1 j hj]
  have he : Ent t1.at (Around.plug (g :: C) rs).ids (E1 ++ es :: E3) := by
    rw [hids]
    refine Ent.append_iff.mpr ⟨E1, es :: E3, rfl, he1.congr fun j hj => ent1 j (hi1 j hj), Ent.cons_iff.mpr ⟨es, E3, rfl, ?_, hE3.congr fun j hj => ent1 j (hi2 j hj)⟩⟩
    unfold entryAt at hes ⊢
    rw [at1i]
    rw [em] at hes
    exact hes
  have hlen : 2 ≤ (Around.plug (g :: C) (.node .leaf s rs)).ids.length := by
    rw [hids]; simp [Shape.ids]; omega
  have ann := H'.ann.resolve_left (by omega)
  obtain ⟨t2, t3, t4', t5, T', x1, x2, x3, i1, i2, h5, f5, o5, n0, hrun5⟩ := avl_cut (t := t1) T1 (.inl ⟨rfl, rfl⟩) he (fun j hj => st'.occ j (by rwa [som] at hj))
    (fun j hj => by rw [r1.top]; exact st'.low j hj) (by rw [r1.top, r1.size]; exact st'.last) (by rw [r1.top, r1.size]; exact st'.ts) (by rw [r1.top, r1.len]; exact st'.cap)
    (by rw [r1.num]; exact st'.num) (by rw [r1.len, r1.num]; exact h4) H'.bal (by rw [r1.orderStat]; exact ann_congr (fun j _ => (hg j).1) (fun j _ => (hg j).2) ann)
  refine ⟨t5, g.idx, ⟨T', s, h5, ⟨by rw [f5.size, r1.size], by rw [← r1.num]; exact f5.num, by rw [f5.len, r1.len], by rw [f5.top, r1.top]⟩, by rw [o5, r1.orderStat]⟩,
    n0 + (Around.plug cs (.node .leaf s rs)).depth + 1, fun fuel hf => ?_⟩
  obtain ⟨t4, e4, e5⟩ := hrun5 fuel (by omega)
  refine ⟨t4, ?_, e5⟩
  have hloop := hrun fuel (by omega)
  have hds := delSlot_spec i1 i2 x3
  have hri : n.right = some ri := by rw [n2, hr]
  simp only [delTwo, getNode_ok en, hri, asIdx, ok_bind, hloop, getNode_ok em, e1]
  cases cs with
  | nil =>
    simp only [List.nil_append, List.cons.injEq] at hgC
    obtain ⟨rfl, rfl⟩ := hgC
    have e2' : modNode t1 i (fun n => { n with right := m.right }) = .ok t2 := by rw [m2]; exact x1
    have e3' : modIf t2 m.right (fun n => { n with parent := some i }) = .ok t3 := by rw [m2]; exact x2
    have hds' : delSlot t3 s i = .ok (t4', some i) := hds
    have e4' : updateSize fuel t4' (some i) = .ok t4 := e4
    simp only [Around.up, Option.getD_none, List.isEmpty_nil, Bool.not_true, Bool.or_false, Bool.false_eq_true, if_false, e2', ok_bind, e3', hds', e4']
    rfl
  | cons f cs =>
    simp only [List.cons_append, List.cons.injEq] at hgC
    obtain ⟨rfl, rfl⟩ := hgC
    obtain ⟨j, r', rfl⟩ := hcs f (by simp)
    have e2' : modNode t1 j (fun n => { n with left := m.right }) = .ok t2 := by rw [m2]; exact x1
    have e3' : modIf t2 m.right (fun n => { n with parent := some j }) = .ok t3 := by rw [m2]; exact x2
    have hds' : delSlot t3 s j = .ok (t4', some j) := hds
    have e4' : updateSize fuel t4' (some j) = .ok t4 := e4
    simp only [Around.up, Frame.idx, Option.getD_some, List.isEmpty_cons, Bool.not_false, Bool.or_true, if_true, e2', ok_bind, e3', hds', e4']

/-- The root takes over its only child. -/
theorem avl_root_one {t : BTree κ δ} {A B P Q : Shape} {x s : Nat} {E1 E2 : List (κ × Option δ)} {e : κ × Option δ}
    (H : AvlTree t (.node A x B) (E1 ++ e :: E2)) (hS : A = .leaf ∧ .node P s Q = B ∨ B = .leaf ∧ .node P s Q = A)
    (he1 : Ent t.at A.ids E1) (he2 : Ent t.at B.ids E2) (h4 : t.arr.length ≤ 4 * (t.num - 1)) :
    ∃ t', AvlGone t t' (E1 ++ E2) ∧ delOneRoot t s = .ok (t', none) := by
  have st := H.stored
  have hPQ : P = .leaf ∧ Q = .leaf := by
    have hb := H.bal
    have hd : (Shape.node P s Q).depth ≤ 1 := by
      rcases hS with ⟨rfl, rfl⟩ | ⟨rfl, rfl⟩
      · have := hb.2.1; simpa [Shape.depth] using this
      · have := hb.1; simpa [Shape.depth] using this
    cases P <;> cases Q <;> simp [Shape.depth] at hd ⊢
    all_goals omega
  obtain ⟨rfl, rfl⟩ := hPQ
  have hxs : x ≠ s := by
    have hnd := st.tree.nodup
    rcases hS with ⟨rfl, rfl⟩ | ⟨rfl, rfl⟩ <;> simp [Shape.ids] at hnd <;> omega
  have hmem : ∀ j, j ∈ (Shape.node A x B).ids ↔ j = x ∨ j = s := by
    intro j
    rcases hS with ⟨rfl, rfl⟩ | ⟨rfl, rfl⟩ <;> simp [Shape.ids] <;> omega
  have hnum : t.num = 2 := by
    rw [st.num]; rcases hS with ⟨rfl, rfl⟩ | ⟨rfl, rfl⟩ <;> rfl
  have hrt : x = t.rootIdx := by have := st.tree.root; rw [root_node] at this; exact Option.some.inj this
  obtain ⟨c, ec, c1, c2⟩ : ∃ c, t.at s = some c ∧ c.left = none ∧ c.right = none := by
    have hl := st.tree.linked
    rcases hS with ⟨rfl, rfl⟩ | ⟨rfl, rfl⟩
    · obtain ⟨_, _, ⟨n, en, n1, n2, _⟩, _⟩ := hl
      exact ⟨n, en, n1, n2⟩
    · obtain ⟨_, ⟨⟨n, en, n1, n2, _⟩, _⟩, _⟩ := hl
      exact ⟨n, en, n1, n2⟩
  have hE : ∃ e', E1 ++ E2 = [e'] ∧ entryAt t.at s = some e' := by
    rcases hS with ⟨rfl, rfl⟩ | ⟨rfl, rfl⟩
    · have : E1 = [] := List.length_eq_zero_iff.mp he1.length
      subst this
      simp only [Shape.ids, List.append_nil, List.nil_append] at he2
      obtain ⟨e', E3, rfl, h1, h2⟩ := Ent.cons_iff.mp he2
      have : E3 = [] := List.length_eq_zero_iff.mp h2.length
      subst this
      exact ⟨e', rfl, h1⟩
    · have : E2 = [] := List.length_eq_zero_iff.mp he2.length
      subst this
      simp only [Shape.ids, List.append_nil, List.nil_append] at he1
      obtain ⟨e', E3, rfl, h1, h2⟩ := Ent.cons_iff.mp he1
      have : E3 = [] := List.length_eq_zero_iff.mp h2.length
      subst this
      exact ⟨e', rfl, h1⟩
  obtain ⟨e', hE, hes⟩ := hE
  obtain ⟨nx, enx⟩ := Option.isSome_iff_exists.mp (st.isSome ((hmem x).mpr (.inl rfl)))
  obtain ⟨t1, e1, a1, r1, q1⟩ := modNode_spec (t := t) (i := t.rootIdx)
    (fun n => { n with left := c.left, right := c.right, data := c.data, key := c.key, parent := none }) (by rw [← hrt, enx]; rfl)
  have hat : ∀ i, i ≠ x → t1.at i = t.at i := fun i hi => by rw [a1]; unfold mapAt; rw [if_neg (by rw [← hrt]; exact hi)]
  have hatx : t1.at x = some { nx with left := c.left, right := c.right, data := c.data, key := c.key, parent := none } := by
    rw [a1]; unfold mapAt; rw [if_pos hrt, enx]; rfl
  obtain ⟨t2, e2, a2, f2, q2, o2⟩ := atDelete_spec (t := t1) (x := s) (by rw [hat s (Ne.symm hxs), ec]; rfl) (by rw [r1.top]; exact st.low s ((hmem s).mpr (.inr rfl)))
    (by rw [r1.num]; omega) (by rw [r1.num, r1.len]; exact h4)
  have f : Freed t t2 s := ⟨by rw [f2.size, r1.size], by rw [← r1.num]; exact f2.num, by rw [f2.len, r1.len], by rw [f2.top, r1.top]⟩
  have hat2x : t2.at x = some { nx with left := c.left, right := c.right, data := c.data, key := c.key, parent := none } := by
    rw [a2]; simp only; rw [if_neg hxs]; exact hatx
  have hls : s < t.top := st.low s ((hmem s).mpr (.inr rfl))
  have hlx : x < t.top := st.low x ((hmem x).mpr (.inl rfl))
  have hts := st.ts
  refine ⟨t2, ⟨.node .leaf x .leaf, s, ⟨⟨?_, ?_, ?_, ?_, ?_, ?_, ?_, ?_⟩, ⟨by simp [Shape.depth], by simp [Shape.depth], trivial, trivial⟩, .inl rfl⟩, f, by rw [o2, r1.orderStat]⟩, ?_⟩
  · exact ⟨by rw [root_node, q2, q1, hrt], ⟨⟨_, hat2x, c1, c2, fun _ => rfl⟩, trivial, trivial⟩, by simp [Shape.ids]⟩
  · rw [hE]
    refine Ent.cons_iff.mpr ⟨e', [], rfl, ?_, Ent.nil _⟩
    unfold entryAt at hes ⊢; rw [hat2x]; rw [ec] at hes; exact hes
  · intro j hj
    rw [a2] at hj
    simp only at hj
    by_cases e : j = s
    · rw [if_pos e] at hj; cases hj
    · rw [if_neg e] at hj
      by_cases e' : j = x
      · simp [Shape.ids, e']
      · rw [hat j e'] at hj
        rcases (hmem j).mp (st.occ j hj) with h | h
        · exact absurd h e'
        · exact absurd h e
  · intro j hj
    have : j = x := by simpa [Shape.ids] using hj
    subst this
    rw [f.top]; split <;> omega
  · intro hz
    rw [f.size, f.top] at hz
    rw [f.top]
    by_cases ht : t.top = s + 1
    · rw [if_pos ht] at hz; omega
    · rw [if_neg ht] at hz ⊢
      rcases (hmem _).mp (st.last hz) with h | h
      · simp [Shape.ids, h]
      · omega
  · rw [f.top, f.size]; split <;> omega
  · have := st.cap; rw [f.top, f.len]; split <;> omega
  · have := f.num; simp [Shape.ids]; omega
  · simp only [delOneRoot, getNode_ok ec, e1, ok_bind, e2]

/-- The tree after its last key has been deleted; also the tree before the first insertion. -/
structure AvlCleared (t : BTree κ δ) : Prop where
  root : ∃ n, t.at t.rootIdx = some n ∧ n.key = none ∧ n.left = none ∧ n.right = none ∧ n.parent = none
  occ : ∀ i, (t.at i).isSome → i = t.rootIdx
  low : t.rootIdx < t.top
  last : t.size = t.top → t.top - 1 = t.rootIdx
  ts : t.top ≤ t.size
  cap : t.top ≤ t.arr.length
  num : t.num = 1

theorem AvlCleared.empty (os : Bool) : AvlCleared (btEmpty os : BTree κ δ) := by
  refine ⟨⟨_, rfl, rfl, rfl, rfl, rfl⟩, ?_, by simp [btEmpty], fun _ => rfl, by simp [btEmpty], by simp [btEmpty], rfl⟩
  intro i hi
  cases i with
  | zero => rfl
  | succ i => simp [btEmpty, BTree.at] at hi

theorem avl_root_leaf {t : BTree κ δ} {E : List (κ × Option δ)} {x : Nat} (H : AvlTree t (.node .leaf x .leaf) E) :
    ∃ t', AvlCleared t' ∧ SameRest t t' ∧ ∀ fuel, 1 ≤ fuel → delLeaf fuel t x none = .ok (t', none) := by
  have st := H.stored
  have hrt : x = t.rootIdx := by have := st.tree.root; rw [root_node] at this; exact Option.some.inj this
  subst hrt
  obtain ⟨⟨n, en, n1, n2, n3⟩, _⟩ := st.tree.linked
  obtain ⟨t1, e1, a1, r1, q1⟩ := modNode_spec (t := t) (i := t.rootIdx) (fun n => { n with data := none, key := none }) (by rw [en]; rfl)
  refine ⟨t1, ⟨⟨{ n with data := none, key := none }, ?_, rfl, n1, n2, n3 rfl⟩, ?_, ?_, ?_, ?_, ?_, ?_⟩, r1, fun fuel hf => ?_⟩
  · rw [a1, q1]; simp [mapAt, en]
  · intro i hi
    rw [q1]
    have : (t.at i).isSome := by
      rw [a1] at hi
      simp only [mapAt] at hi
      split at hi
      · simpa using hi
      · exact hi
    simpa [Shape.ids] using st.occ i this
  · rw [r1.top, q1]; exact st.low _ (by simp [Shape.ids])
  · rw [r1.top, r1.size, q1]; intro hz; simpa [Shape.ids] using st.last hz
  · rw [r1.top, r1.size]; exact st.ts
  · rw [r1.top, r1.len]; exact st.cap
  · rw [r1.num, st.num]; rfl
  · obtain ⟨f, rfl⟩ : ∃ f, fuel = f + 1 := ⟨fuel - 1, by omega⟩
    have : updateSize (f + 1) t1 none = .ok t1 := by
      unfold updateSize
      split
      · rw [while_stop _ (by rfl)]; rfl
      · rfl
    simp only [delLeaf, e1, ok_bind, this]

theorem avlBalanceDel_none (t : BTree κ δ) {fuel : Nat} (h : 1 ≤ fuel) : avlBalanceDel fuel t none = .ok t := by
  obtain ⟨f, rfl⟩ : ∃ f, fuel = f + 1 := ⟨fuel - 1, by omega⟩
  unfold avlBalanceDel
  rw [while_stop _ (by rfl)]; rfl

/-- `delete` of a key that is present. -/
theorem avlDelete_present {lt : κ → κ → Bool} (ht : StrictTotal (ltRel lt)) {t : BTree κ δ} {T : Shape} {E : List (κ × Option δ)} {k : κ} {d : Option δ}
    (H : AvlTree t T E) (hs : E.Pairwise fun a b => lt a.1 b.1 = true) (hk : (k, d) ∈ E) (h4 : E.length = 1 ∨ t.arr.length ≤ 4 * (E.length - 1)) :
    ∃ t', (E.length = 1 ∧ AvlCleared t' ∧ SameRest t t' ∨ 2 ≤ E.length ∧ AvlGone t t' (E.filter fun e => e.1 ≠ k)) ∧
      ∃ n0, ∀ fuel, n0 ≤ fuel → avlDelete lt fuel t k = .ok (t', true) := by
  have st := H.stored
  obtain ⟨c, S, rfl, hF, hrun⟩ := searchP_spec ht st.tree (st.srt hs) k
  rw [← st.num_eq] at h4 ⊢
  rcases hF.here with rfl | ⟨l, i, r, rfl, hki⟩
  · exfalso
    obtain ⟨i, hi, ei⟩ := st.ent.mem.mp hk
    exact absurd (keyOf_entry ei) (hF.absent ht i hi)
  obtain ⟨E1, E2, e, rfl, hei, he1, he2⟩ := rb_entries st.ent
  have hek : e.1 = k := by have := keyOf_entry hei; rw [hki] at this; exact (Option.some.inj this).symm
  subst hek
  rw [filter_key ht hs]
  have hl := ((linked_plug true t.at c _).mp st.tree.linked).2
  obtain ⟨⟨n, en, n1, n2, _⟩, _, _⟩ := hl
  have hsz := st.num
  rw [Around.ids_plug] at hsz
  simp only [Shape.ids, List.length_append, List.length_cons, List.length_nil] at hsz
  have fin : ∀ {t' : BTree κ δ} {o : Option Nat} {m : Nat} {Q : Prop}, Q →
      (∀ fuel, m ≤ fuel → ∃ t4, delCases fuel t i (Around.up c) n = .ok (t4, o) ∧ avlBalanceDel fuel t4 o = .ok t') →
      Q ∧ ∃ n0, ∀ fuel, n0 ≤ fuel → avlDelete lt fuel t e.1 = .ok (t', true) := by
    intro t' o m Q hQ hm
    refine ⟨hQ, m + ((Around.plug c (.node l i r)).depth + 2), fun fuel hf => ?_⟩
    have h1 := hrun fuel (by omega)
    rw [root_node] at h1
    obtain ⟨t4, h2, h3⟩ := hm fuel (by omega)
    simp only [avlDelete, bstDeleteInfo, h1, ok_bind, getNode_ok en, h2, h3]
  cases l with
  | leaf =>
    have n1' : n.left = none := n1
    cases r with
    | leaf =>
      have n2' : n.right = none := n2
      cases c with
      | nil =>
        obtain ⟨t', hc, hr, hd⟩ := avl_root_leaf H
        refine ⟨t', fin (o := none) (m := 1) (.inl ⟨by rw [hsz]; rfl, hc, hr⟩) fun fuel hf => ⟨t', ?_, avlBalanceDel_none t' hf⟩⟩
        simp only [delCases, n1', n2']; exact hd fuel hf
      | cons g C =>
        have hlen : 2 ≤ t.num := by
          have := Around.up_mem (c := g :: C) (i := g.idx) rfl
          have := List.length_pos_of_mem this
          simp only [List.length_append, Shape.ids, List.length_nil] at this hsz; omega
        obtain ⟨t', hR, n0, hd⟩ := avl_inner H (.inl ⟨rfl, rfl⟩) he1 he2 (by omega)
        refine ⟨t', fin (o := some g.idx) (m := n0) (.inr ⟨hlen, hR⟩) fun fuel hf => ?_⟩
        simp only [delCases, n1', n2']; exact hd fuel hf
    | node A s B =>
      have n2' : n.right = some s := n2
      have hlen : 2 ≤ t.num := by simp only [Shape.ids, List.length_append, List.length_cons, List.length_nil] at hsz; omega
      cases c with
      | nil =>
        obtain ⟨t', hR, hd⟩ := avl_root_one H (.inl ⟨rfl, rfl⟩) (by simpa [Around.before] using he1) (by simpa [Around.after] using he2) (by omega)
        refine ⟨t', fin (o := none) (m := 1) (.inr ⟨hlen, hR⟩) fun fuel hf => ⟨t', ?_, avlBalanceDel_none t' hf⟩⟩
        simp only [delCases, n1', n2', Around.up]; exact hd
      | cons g C =>
        obtain ⟨t', hR, n0, hd⟩ := avl_inner H (.inl ⟨rfl, rfl⟩) he1 he2 (by omega)
        refine ⟨t', fin (o := some g.idx) (m := n0) (.inr ⟨hlen, hR⟩) fun fuel hf => ?_⟩
        simp only [delCases, n1', n2', Around.up]; exact hd fuel hf
  | node A s B =>
    have n1' : n.left = some s := n1
    have hlen : 2 ≤ t.num := by simp only [Shape.ids, List.length_append, List.length_cons, List.length_nil] at hsz; omega
    cases r with
    | leaf =>
      have n2' : n.right = none := n2
      cases c with
      | nil =>
        obtain ⟨t', hR, hd⟩ := avl_root_one H (.inr ⟨rfl, rfl⟩) (by simpa [Around.before] using he1) (by simpa [Around.after] using he2) (by omega)
        refine ⟨t', fin (o := none) (m := 1) (.inr ⟨hlen, hR⟩) fun fuel hf => ⟨t', ?_, avlBalanceDel_none t' hf⟩⟩
        simp only [delCases, n1', n2', Around.up]; exact hd
      | cons g C =>
        obtain ⟨t', hR, n0, hd⟩ := avl_inner H (.inr ⟨rfl, rfl⟩) he1 he2 (by omega)
        refine ⟨t', fin (o := some g.idx) (m := n0) (.inr ⟨hlen, hR⟩) fun fuel hf => ?_⟩
        simp only [delCases, n1', n2', Around.up]; exact hd fuel hf
    | node A' s' B' =>
      have n2' : n.right = some s' := n2
      obtain ⟨t', p, hR, n0, hd⟩ := avl_two H (root_node A' s' B') he1 he2 (by omega)
      refine ⟨t', fin (o := some p) (m := n0) (.inr ⟨hlen, hR⟩) fun fuel hf => ?_⟩
      simp only [delCases, n1', n2']; exact hd fuel hf

/-- `delete` of a key that is absent changes nothing; it returns `True` all the same. -/
theorem avlDelete_absent {lt : κ → κ → Bool} (ht : StrictTotal (ltRel lt)) {t : BTree κ δ} {T : Shape} {E : List (κ × Option δ)} {k : κ}
    (H : AvlTree t T E) (hs : E.Pairwise fun a b => lt a.1 b.1 = true) (hk : ∀ d, (k, d) ∉ E) : ∃ n0, ∀ fuel, n0 ≤ fuel → avlDelete lt fuel t k = .ok (t, true) := by
  have st := H.stored
  obtain ⟨c, S, rfl, hF, hrun⟩ := searchP_spec ht st.tree (st.srt hs) k
  rcases hF.here with rfl | ⟨l, i, r, rfl, hki⟩
  · refine ⟨(Around.plug c .leaf).depth + 2, fun fuel hf => ?_⟩
    have h1 : bstSearchP lt fuel t k = .ok (some (none, Around.up c)) := hrun fuel (by omega)
    simp only [avlDelete, bstDeleteInfo, h1, ok_bind, avlBalanceDel_none t (show 1 ≤ fuel by omega)]
  · obtain ⟨E1, E2, e, rfl, hei, _⟩ := rb_entries st.ent
    have hek : e.1 = k := by have := keyOf_entry hei; rw [hki] at this; exact (Option.some.inj this).symm
    exact absurd (by rw [← hek]; simp) (hk e.2)

/-! ## Insertion into a tree from which nodes have been deleted -/

/-- The loop of `insert`, for a key that is absent. -/
theorem stored_hung {lt : κ → κ → Bool} (ht : StrictTotal (ltRel lt)) {t : BTree κ δ} {T : Shape} {E : List (κ × Option δ)} {k : κ}
    (h : Stored t T E) (hs : E.Pairwise fun a b => lt a.1 b.1 = true) (hk : ∀ d, (k, d) ∉ E) (d : Option δ) (hsz : t.size = t.top) (hg : grown t ≤ 4 * (t.num + 1)) :
    ∃ f c t' E1 E2, T = Around.plug (f :: c) .leaf ∧ E = E1 ++ E2 ∧ Stored t' (Around.plug (f :: c) (.node .leaf t.top .leaf)) (E1 ++ (k, d) :: E2) ∧
      ((E1 ++ (k, d) :: E2).Pairwise fun a b => lt a.1 b.1 = true) ∧ Hung t t' f { key := some k, data := d, parent := some f.idx } ∧
      ∃ n0, ∀ fuel, n0 ≤ fuel → bstInsert lt fuel t k d = updateSize fuel t' (some t.top) := by
  have hsrt := h.srt hs
  have habs : ∀ i ∈ T.ids, keyOf t.at i ≠ some k := by
    intro i hi e
    obtain ⟨n, en⟩ := Option.isSome_iff_exists.mp (h.isSome hi)
    have hkn : n.key = some k := by simpa [keyOf, en] using e
    exact hk n.data (h.ent.mem.mpr ⟨i, hi, entryAt_some.mpr ⟨n, en, hkn, rfl⟩⟩)
  have hlow : ∀ i, (t.at i).isSome → i < t.top := fun i hi => h.low i (h.occ i hi)
  have hT : T ≠ .leaf := by rintro rfl; have := h.tree.root; cases this
  obtain ⟨f, c, t', hplug, hfit, hH, hrun⟩ := insert_loop ht (d := d) h.cap hg hsz hlow T [] hT h.tree.linked hsrt
    ⟨by simp [Around.before], by simp [Around.after]⟩ habs
  have hplug' : Around.plug (f :: c) .leaf = T := hplug
  subst hplug'
  have htree := hung_tree h.tree h.low hH
  have hent := h.ent
  rw [Around.ids_plug] at hent
  simp only [Shape.ids, List.append_nil] at hent
  obtain ⟨E1, E2, rfl, hE1, hE2⟩ := Ent.append_iff.mp hent
  have hft : t.top ≠ f.idx := fun e => absurd (h.low f.idx (Frame.idx_mem f c _)) (by omega)
  have hcont : ∀ j, j ≠ t.top → entryAt t'.at j = entryAt t.at j := by
    intro j hj
    unfold entryAt
    rw [hH.cells]
    by_cases e : j = f.idx
    · subst e
      simp only [hung, mapAt, if_neg hj, if_true]
      cases t.at f.idx with
      | none => rfl
      | some n => cases f <;> rfl
    · simp [hung, mapAt, if_neg hj, if_neg e]
  have htop : entryAt t'.at t.top = some (k, d) := by
    refine entryAt_some.mpr ⟨{ key := some k, data := d, parent := some f.idx }, ?_, rfl, rfl⟩
    rw [hH.cells]; simp [hung, mapAt, hft]
  have hlt1 : ∀ e ∈ E1, lt e.1 k = true := by
    intro e he
    obtain ⟨i, hi, ei⟩ := hE1.mem.mp he
    obtain ⟨a, ha, hlt⟩ := hfit.1 i hi
    rw [keyOf_entry ei] at ha; cases ha; exact hlt
  have hlt2 : ∀ e ∈ E2, lt k e.1 = true := by
    intro e he
    obtain ⟨i, hi, ei⟩ := hE2.mem.mp he
    obtain ⟨a, ha, hlt⟩ := hfit.2 i hi
    rw [keyOf_entry ei] at ha; cases ha; exact hlt
  refine ⟨f, c, t', E1, E2, rfl, rfl, ⟨htree, ?_, ?_, ?_, ?_, ?_, ?_, ?_⟩, ?_, hH, ?_⟩
  · rw [Around.ids_plug]
    simp only [Shape.ids, List.append_assoc, List.cons_append, List.nil_append]
    refine ent_hung hE1 hE2 (fun j hj => hcont j (Nat.ne_of_lt (h.low j ?_))) htop
    rw [Around.ids_plug]; simpa [Shape.ids] using hj
  · intro i hi
    rw [mem_plug]
    by_cases e : i = t.top
    · simp [Shape.ids, e]
    · have hi' : (t.at i).isSome := by
        rw [hH.cells] at hi
        by_cases e' : i = f.idx
        · subst e'; exact h.isSome (Frame.idx_mem f c _)
        · simpa [hung, mapAt, if_neg e, if_neg e'] using hi
      have := h.occ i hi'
      rw [mem_plug] at this
      rcases this with h' | h'
      · simp [Shape.ids] at h'
      · exact .inr h'
  · intro i hi
    rw [hH.top]
    rw [mem_plug] at hi
    rcases hi with hi | hi
    · simp [Shape.ids] at hi; omega
    · have := h.low i (around_mem hi); omega
  · intro _
    rw [hH.top, mem_plug]; simp [Shape.ids]
  · rw [hH.top, hH.size]; omega
  · rw [hH.top, hH.len]; have := h.cap; unfold grown; split <;> omega
  · have := h.num
    rw [Around.ids_plug] at this ⊢
    rw [hH.num, this]
    simp [Shape.ids]; omega
  · have := List.pairwise_append.mp hs
    refine List.pairwise_append.mpr ⟨this.1, List.pairwise_cons.mpr ⟨hlt2, this.2.1⟩, fun a ha b hb => ?_⟩
    simp only [List.mem_cons] at hb
    rcases hb with rfl | hb
    · exact hlt1 a ha
    · exact this.2.2 a ha b hb
  · obtain ⟨c', S', e', hF, hrs⟩ := search_spec ht h.tree hsrt k
    have hS : S' = .leaf := by
      rcases hF.here with rfl | ⟨l, i, r, rfl, hki⟩
      · rfl
      · exact absurd hki (habs i (by rw [← e', Around.ids_plug]; simp [Shape.ids]))
    subst hS
    refine ⟨(Around.plug (f :: c) .leaf).depth + 2, fun fuel hf => ?_⟩
    have h1 : bstSearch lt fuel t k = .ok none := hrs fuel (by omega)
    have h2 := hrun fuel (by omega)
    obtain ⟨nr, a, enr, ea⟩ := root_key h.tree hsrt
    have hne : nr.key ≠ none := by rw [ea]; simp
    have h2' : whileLoop fuel insertCond (insertBody lt k d) ⟨t, some t.rootIdx, some t.rootIdx, true⟩ = .ok ⟨t', some t.top, some t.top, false⟩ := by
      rw [← h.tree.root]; exact h2
    simp only [bstInsert, h1, ok_bind, bstInsertNew, getNode_ok enr, if_neg hne, h2']

theorem avlInsert_absent {lt : κ → κ → Bool} (ht : StrictTotal (ltRel lt)) {t : BTree κ δ} {T : Shape} {E : List (κ × Option δ)} {k : κ}
    (H : AvlTree t T E) (hs : E.Pairwise fun a b => lt a.1 b.1 = true) (hk : ∀ d, (k, d) ∉ E) (d : Option δ) (hsz : t.size = t.top) (hg : grown t ≤ 4 * (t.num + 1)) :
    ∃ t' T' E', AvlTree t' T' E' ∧ (E'.Pairwise fun a b => lt a.1 b.1 = true) ∧ E'.Perm ((k, d) :: E) ∧ t'.orderStat = t.orderStat ∧ t'.top = t.top + 1 ∧ t'.size = t.size + 1 ∧
      t'.num = t.num + 1 ∧ t'.arr.length = grown t ∧ ∃ n0, ∀ fuel, n0 ≤ fuel → avlInsert lt fuel t k d = .ok t' := by
  obtain ⟨f, c, t1, E1, E2, rfl, rfl, st1, hs1, hH, n1, hrun1⟩ := stored_hung ht H.stored hs hk d hsz hg
  have st := H.stored
  have hft : t.top ≠ f.idx := fun e => absurd (st.low f.idx (Frame.idx_mem f c _)) (by omega)
  have hnew : t1.at t.top = some { key := some k, data := d, parent := some f.idx } := by rw [hH.cells]; simp [hung, mapAt, hft]
  have hold : ∀ j, j ≠ t.top → (t1.at j).map BNode.height = (t.at j).map BNode.height ∧ (t1.at j).map BNode.size = (t.at j).map BNode.size := by
    intro j hj
    rw [hH.cells]
    by_cases e : j = f.idx
    · subst e
      simp only [hung, mapAt, if_neg hj, if_true]
      cases t.at f.idx with
      | none => exact ⟨rfl, rfl⟩
      | some n => cases f <;> exact ⟨rfl, rfl⟩
    · simp [hung, mapAt, if_neg hj, if_neg e]
  have hmem : ∀ j ∈ Around.before (f :: c) ++ Around.after (f :: c), j ≠ t.top := by
    intro j hj
    refine Nat.ne_of_lt (st.low j (around_mem hj))
  have a0 : AnnAround t.orderStat t.at (f :: c) := by
    rcases H.ann with h1 | h1
    · -- a single node: nothing beside the way
      cases c with
      | nil =>
        refine ⟨?_, trivial⟩
        have h0 : f.other = .leaf := by
          cases f with
          | inL i r =>
            cases r with
            | leaf => rfl
            | node A x B => simp [Around.plug, Shape.ids] at h1
          | inR l i =>
            cases l with
            | leaf => rfl
            | node A x B => simp [Around.plug, Shape.ids] at h1; omega
        rw [h0]; exact ⟨trivial, fun _ => trivial⟩
      | cons g c =>
        have := around_length (c := f :: g :: c) (S := .leaf) rfl
        simp [Shape.ids] at this; omega
    · exact (annAround_of_plug h1).1
  have a1 : AnnAround t.orderStat t1.at (f :: c) := annAround_congr (fun j hj => (hold j (hmem j hj)).1) (fun j hj => (hold j (hmem j hj)).2) a0
  have aS1 : Ann t.orderStat t1.at (.node .leaf t.top .leaf) := ⟨⟨⟨_, hnew, rfl⟩, trivial, trivial⟩, fun _ => ⟨⟨_, hnew, rfl⟩, trivial, trivial⟩⟩
  -- the sizes
  have size : ∃ t2, SameEntries t1 t2 ∧ TreeAt true t2 (Around.plug (f :: c) (.node .leaf t.top .leaf)) ∧ Ann t.orderStat t2.at (.node .leaf t.top .leaf) ∧
      AnnAround t.orderStat t2.at (f :: c) ∧ ∃ n0, ∀ fuel, n0 ≤ fuel → updateSize fuel t1 (some t.top) = .ok t2 := by
    cases ho : t.orderStat with
    | false =>
      rw [ho] at a1 aS1
      exact ⟨t1, .refl t1, st1.tree, aS1, a1, 0, fun fuel _ => updateSize_off (by rw [hH.orderStat, ho]) fuel _⟩
    | true =>
      rw [ho] at a1 aS1
      have hAr := ((linked_plug true t1.at (.inL t.top .leaf :: f :: c) .leaf).mp st1.tree.linked).1
      have sC : ∀ c : Around, AnnAround true t1.at c → SizedAround t1.at c := by
        intro c
        induction c with
        | nil => intro _; trivial
        | cons g c ih => intro h; exact ⟨h.1.2 rfl, ih h.2⟩
      obtain ⟨t2, sb, r2, q2, z2, hrun⟩ := updateSize_loop (.inL t.top .leaf :: f :: c) t1 .leaf hAr trivial ⟨trivial, sC _ a1⟩ st1.tree.nodup
      have z := sizedAround_of_plug (c := f :: c) (T := .node .leaf t.top .leaf) z2
      refine ⟨t2, sb.entries r2, ⟨by rw [q2]; exact st1.tree.root, linked_congr (fun i _ => sb.links i) st1.tree.linked, st1.tree.nodup⟩,
        ⟨heighted_congr (fun i _ => sb.height i) aS1.1, fun _ => z.2⟩, annAround_join (annAround_heights sb.height a1) (fun _ => z.1),
        (f :: c).length + 2, fun fuel hf => ?_⟩
      have := hrun fuel (by simp at hf ⊢; omega)
      simp only [updateSize, hH.orderStat, ho, if_true]
      rw [show (some t.top) = Around.up (.inL t.top .leaf :: f :: c) from rfl, this]; rfl
  obtain ⟨t2, se2, T2, aS2, aC2, n2, hrun2⟩ := size
  have o2 : t2.orderStat = t.orderStat := by rw [se2.rest.orderStat, hH.orderStat]
  obtain ⟨T', t3, ids3, b3, T3, a3, k3, q, hloop⟩ := avl_grow (f :: c) t2 (.node .leaf t.top .leaf) .leaf (some f.idx) T2 H.bal
    ⟨by simp [Shape.depth], by simp [Shape.depth], trivial, trivial⟩ (by simp [Shape.depth]) ⟨.leaf, t.top, .leaf, rfl, .inl ⟨rfl, rfl⟩⟩ (by rw [o2]; exact aS2) (by rw [o2]; exact aC2)
  have rr := se2.rest.trans k3.rest
  obtain ⟨n, en, _, _, np⟩ := T2.node
  have hsz2 : t2.size - 1 = t.top := by rw [se2.rest.size, hH.size]; omega
  refine ⟨t3, T', _, ⟨st1.turn (se2.trans k3.entries) T3 ids3, b3, .inr (by rw [k3.rest.orderStat]; exact a3)⟩, hs1, List.perm_middle, by rw [k3.rest.orderStat, o2],
    by rw [rr.top, hH.top], by rw [rr.size, hH.size], by rw [rr.num, hH.num], by rw [rr.len, hH.len], n1 + n2 + (f :: c).length + 3, fun fuel hf => ?_⟩
  refine avlInsert_eq (t1 := t2) (n := n) (w := none) (p := q) ((hrun1 fuel (by omega)).trans (hrun2 fuel (by omega))) (by rw [hsz2]; exact en) ?_
  rw [hsz2, np]
  exact hloop fuel (by omega)

theorem avlInsert_present {lt : κ → κ → Bool} (ht : StrictTotal (ltRel lt)) {t : BTree κ δ} {T : Shape} {E : List (κ × Option δ)} {k : κ} {d0 : Option δ}
    (H : AvlTree t T E) (hs : E.Pairwise fun a b => lt a.1 b.1 = true) (hk : (k, d0) ∈ E) (d : Option δ) (hsz : t.size = t.top) :
    ∃ t' E', AvlTree t' T E' ∧ (E'.Pairwise fun a b => lt a.1 b.1 = true) ∧ E'.Perm ((k, d) :: E.filter fun e => e.1 ≠ k) ∧ SameRest t t' ∧
      ∃ n0, ∀ fuel, n0 ≤ fuel → avlInsert lt fuel t k d = .ok t' := by
  have st := H.stored
  obtain ⟨c, S, rfl, hF, hrun⟩ := search_spec ht st.tree (st.srt hs) k
  rcases hF.here with rfl | ⟨l, i, r, rfl, hki⟩
  · obtain ⟨i, hi, ei⟩ := st.ent.mem.mp hk
    exact absurd (keyOf_entry ei) (hF.absent ht i hi)
  obtain ⟨E1, E2, e, rfl, hei, hE1, hE2⟩ := rb_entries st.ent
  have hek : e.1 = k := by have := keyOf_entry hei; rw [hki] at this; exact (Option.some.inj this).symm
  subst hek
  have hnd := st.tree.nodup
  rw [Around.ids_plug] at hnd
  simp only [Shape.ids] at hnd
  have him : i ∈ (Around.plug c (.node l i r)).ids := by rw [Around.ids_plug]; simp [Shape.ids]
  obtain ⟨t1, e1, a1, r1, q1⟩ := modNode_spec (t := t) (i := i) (fun n => { n with data := d }) (st.isSome him)
  have hcell : ∀ j, j ≠ i → t1.at j = t.at j := fun j hj => by rw [a1]; unfold mapAt; rw [if_neg hj]
  obtain ⟨n, en, hn1, _⟩ := entryAt_some.mp hei
  have hi1 : t1.at i = some { n with data := d } := by rw [a1]; simp [mapAt, en]
  have lk : ∀ j, linksOf t1.at j = linksOf t.at j := by
    intro j
    by_cases e : j = i
    · subst e; simp [linksOf, hi1, en, BNode.links]
    · simp [linksOf, hcell j e]
  have hg : ∀ j, (t1.at j).map BNode.height = (t.at j).map BNode.height ∧ (t1.at j).map BNode.size = (t.at j).map BNode.size := by
    intro j
    by_cases e : j = i
    · subst e; simp [hi1, en]
    · simp [hcell j e]
  have som : ∀ j, (t1.at j).isSome = (t.at j).isSome := by
    intro j
    by_cases e : j = i
    · subst e; simp [hi1, en]
    · simp [hcell j e]
  have T1 : TreeAt true t1 (Around.plug c (.node l i r)) := ⟨by rw [q1]; exact st.tree.root, linked_congr (fun j _ => lk j) st.tree.linked, st.tree.nodup⟩
  have st1 : Stored t1 (Around.plug c (.node l i r)) (E1 ++ (e.1, d) :: E2) := by
    refine ⟨T1, ?_, fun j hj => st.occ j (by rwa [som] at hj), by rw [r1.top]; exact st.low, by rw [r1.top, r1.size]; exact st.last, by rw [r1.top, r1.size]; exact st.ts,
      by rw [r1.top, r1.len]; exact st.cap, by rw [r1.num]; exact st.num⟩
    rw [Around.ids_plug]
    simp only [Shape.ids, List.append_assoc, List.cons_append, List.nil_append]
    rw [← List.append_assoc]
    refine ent_hung hE1 hE2 (fun j hj => ?_) (entryAt_some.mpr ⟨_, hi1, hn1, rfl⟩)
    have : j ≠ i := by rintro rfl; grind
    unfold entryAt; rw [hcell j this]
  have hs1 : (E1 ++ (e.1, d) :: E2).Pairwise fun a b => lt a.1 b.1 = true := by
    rw [List.pairwise_append, List.pairwise_cons] at hs ⊢
    refine ⟨hs.1, ⟨hs.2.1.1, hs.2.1.2⟩, fun a ha b hb => ?_⟩
    simp only [List.mem_cons] at hb
    rcases hb with rfl | hb
    · exact hs.2.2 a ha e (by simp)
    · exact hs.2.2 a ha b (by simp [hb])
  have hp : (E1 ++ (e.1, d) :: E2).Perm ((e.1, d) :: (E1 ++ e :: E2).filter fun x => x.1 ≠ e.1) := by
    rw [filter_key ht hs]; exact List.perm_middle
  have hins : ∀ fuel, (Around.plug c (.node l i r)).depth + 2 ≤ fuel → bstInsert lt fuel t e.1 d = .ok t1 := by
    intro fuel hf
    have h1 := hrun fuel (by omega)
    rw [root_node] at h1
    simp only [bstInsert, h1, ok_bind]; exact e1
  -- the walk from the last position
  have hlast : t1.size - 1 ∈ (Around.plug c (.node l i r)).ids := by
    have := st.last hsz
    rw [r1.size, hsz]; exact this
  rcases H.ann with h1 | h1
  · have h0 : Around.plug c (.node l i r) = .node .leaf i .leaf := by
      have hl := around_length (c := c) (S := .node l i r) rfl
      have hc : c = [] := by
        cases c with
        | nil => rfl
        | cons f c => simp [Shape.ids] at hl; omega
      subst hc
      have hh : (Shape.node l i r).ids.length = 1 := h1
      simp only [Shape.ids, List.length_append, List.length_cons] at hh
      have : l = .leaf := by cases l with | leaf => rfl | node _ _ _ => simp [Shape.ids] at hh; omega
      have : r = .leaf := by cases r with | leaf => rfl | node _ _ _ => simp [Shape.ids] at hh; omega
      subst_vars; rfl
    rw [h0] at hlast st1 T1 hins ⊢
    have hx : t1.size - 1 = i := by simpa [Shape.ids] using hlast
    obtain ⟨⟨n', en', _, _, np⟩, _⟩ := T1.linked
    refine ⟨t1, _, ⟨st1, ⟨by simp [Shape.depth], by simp [Shape.depth], trivial, trivial⟩, .inl rfl⟩, hs1, hp, r1, (Shape.node .leaf i .leaf).depth + 3, fun fuel hf => ?_⟩
    obtain ⟨fu, rfl⟩ : ∃ fu, fuel = fu + 1 := ⟨fuel - 1, by omega⟩
    refine avlInsert_eq (n := n') (w := none) (p := [some (t1.size - 1), none]) (hins (fu + 1) (by omega)) (by rw [hx]; exact en') ?_
    rw [np rfl]
    exact while_stop _ (by rfl)
  · obtain ⟨c', l', r', eT⟩ := plug_of_mem _ _ hlast
    have ann1 : Ann t1.orderStat t1.at (Around.plug c (.node l i r)) := by
      rw [r1.orderStat]; exact ann_congr (fun j _ => (hg j).1) (fun j _ => (hg j).2) h1
    have bal := H.bal
    rw [eT] at T1 ann1 bal
    obtain ⟨n', en', _, _, np⟩ := T1.node
    obtain ⟨aa, as⟩ := annAround_of_plug ann1
    obtain ⟨t2, T2, a2, k2, q, hloop⟩ := avl_settle c' t1 (.node l' (t1.size - 1) r') (some (t1.size - 1)) n'.parent T1 bal as aa
    refine ⟨t2, _, ⟨st1.turn k2.entries (by rw [eT]; exact T2) rfl, H.bal, .inr ?_⟩, hs1, hp, r1.trans k2.rest, (Around.plug c (.node l i r)).depth + c'.length + 3, fun fuel hf => ?_⟩
    · rw [k2.rest.orderStat, eT]; exact a2
    · exact avlInsert_eq (hins fuel (by omega)) en' (by rw [np] at hloop ⊢; exact hloop fuel (by omega))

theorem avlInsert_cleared {lt : κ → κ → Bool} {t : BTree κ δ} (h : AvlCleared t) (k : κ) (d : Option δ) (hsz : t.size = t.top) :
    ∃ t' T', AvlTree t' T' [(k, d)] ∧ SameRest t t' ∧ ∃ n0, ∀ fuel, n0 ≤ fuel → avlInsert lt fuel t k d = .ok t' := by
  obtain ⟨n, en, hk, h1, h2, h3⟩ := h.root
  obtain ⟨t1, e1, a1, r1, q1⟩ := modNode_spec (t := t) (i := t.rootIdx) (fun n => { n with key := some k, data := d }) (by rw [en]; rfl)
  have en1 : t1.at t.rootIdx = some { n with key := some k, data := d } := by rw [a1]; exact mapAt_same en
  have hx : t1.size - 1 = t.rootIdx := by rw [r1.size, hsz]; exact h.last hsz
  refine ⟨t1, .node .leaf t.rootIdx .leaf, ⟨⟨?_, ?_, ?_, ?_, ?_, ?_, ?_, ?_⟩, ⟨by simp [Shape.depth], by simp [Shape.depth], trivial, trivial⟩, .inl rfl⟩, r1, 1, fun fuel hf => ?_⟩
  · exact ⟨by rw [q1]; rfl, ⟨⟨_, en1, h1, h2, fun _ => h3⟩, trivial, trivial⟩, by simp [Shape.ids]⟩
  · exact Ent.cons_iff.mpr ⟨_, _, rfl, entryAt_some.mpr ⟨_, en1, rfl, rfl⟩, Ent.nil _⟩
  · intro i hi
    have : (t.at i).isSome := by
      rw [a1] at hi
      simp only [mapAt] at hi
      split at hi
      · simpa using hi
      · exact hi
    simp [Shape.ids, h.occ i this]
  · intro i hi
    have : i = t.rootIdx := by simpa [Shape.ids] using hi
    rw [r1.top, this]; exact h.low
  · rw [r1.top, r1.size]; intro hz; simp [Shape.ids, h.last hz]
  · rw [r1.top, r1.size]; exact h.ts
  · rw [r1.top, r1.len]; exact h.cap
  · rw [r1.num, h.num]; rfl
  · obtain ⟨fu, rfl⟩ : ∃ fu, fuel = fu + 1 := ⟨fuel - 1, by omega⟩
    have hs : bstSearch lt (fu + 1) t k = .ok none := by simp only [bstSearch, bstSearchP, getNode_ok en, hk, ok_bind]; rfl
    refine avlInsert_eq (n := { n with key := some k, data := d }) (w := none) (p := [some (t1.size - 1), none]) ?_ (by rw [hx]; exact en1) ?_
    · simp only [bstInsert, hs, ok_bind, bstInsertNew, getNode_ok en, hk, if_true]
      exact e1
    · show whileLoop (fu + 1) avlCond avlBody ⟨t1, n.parent, [some (t1.size - 1), n.parent]⟩ = _
      rw [h3]
      exact while_stop _ (by rfl)

end Props
