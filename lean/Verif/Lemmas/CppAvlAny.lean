import Verif.Lemmas.CppAvl
import Verif.Lemmas.Avl

/-!
# `_balance_insertion` of the C++ AVL tree, whatever objects are in the queue

Nothing is assumed about the objects or about the balance of the tree: the tree stays a search tree with the same nodes, and heights and sizes become right.
-/
namespace Props
open Py Model Model.Cpp Spec
set_option linter.unusedSectionVars false
variable {κ δ : Type} [DecidableEq κ]

theorem sameObj_eq {l : Option Nat} {o : PosObj} (h : sameObj l (some o) = true) : l = some o.pos := by
  cases l with
  | none => cases h
  | some i => simp only [sameObj, Bool.and_eq_true, decide_eq_true_eq] at h; rw [h.1]

theorem sameObj_ne {l : Option Nat} {o : PosObj} (h : l ≠ some o.pos) : sameObj l (some o) = false := by
  cases e : sameObj l (some o) with
  | false => rfl
  | true => exact absurd (sameObj_eq e) h

theorem cCase_skip {t : BTree κ δ} {l : Option Nat} {a b : PosObj} {side : BNode κ δ → Option Nat} {rotate : BTree κ δ → Nat → PyM (BTree κ δ)}
    (h : sameObj l (some a) = false) : cAvlCase t l (some a) (some b) side rotate = .ok t := by
  cases l with
  | none => rfl
  | some i => simp only [cAvlCase, h, Bool.false_eq_true, if_false]

theorem cCase_miss {t : BTree κ δ} {i : Nat} {n : BNode κ δ} {a b : PosObj} {side : BNode κ δ → Option Nat}
    {rotate : BTree κ δ → Nat → PyM (BTree κ δ)} (e : t.at i = some n) (h : sameObj (side n) (some b) = false) :
    cAvlCase t (some i) (some a) (some b) side rotate = .ok t := by
  simp only [cAvlCase, cNode_ok e, ok_bind, h, Bool.false_eq_true, if_false, ite_self]

theorem cCase_hit {t : BTree κ δ} {i : Nat} {n : BNode κ δ} {a b : PosObj} {side : BNode κ δ → Option Nat}
    {rotate : BTree κ δ → Nat → PyM (BTree κ δ)} (ha : sameObj (some i) (some a) = true) (e : t.at i = some n) (h : sameObj (side n) (some b) = true) :
    cAvlCase t (some i) (some a) (some b) side rotate = rotate t i := by
  simp only [cAvlCase, ha, if_true, cNode_ok e, ok_bind, h]

theorem cRebalance_LL {t : BTree κ δ} {c : Around} {A B C : Shape} {j k : Nat} {a b : PosObj} (h : TreeAt true t (Around.plug c (.node (.node A k B) j C)))
    (hA : Ann t.orderStat t.at A) (hB : Ann t.orderStat t.at B) (hC : Ann t.orderStat t.at C) (hc : AnnAround t.orderStat t.at c)
    (hk' : sameObj (some k) (some a) = true) (ha : sameObj A.root (some b) = true) :
    ∃ t', cAvlRebalance t j (some a) (some b) = .ok t' ∧ TreeAt true t' (Around.plug c (.node A k (.node B j C))) ∧
      Ann t.orderStat t'.at (.node B j C) ∧ AnnAround t.orderStat t'.at (.inR A k :: c) ∧ Kept t t' := by
  obtain ⟨t', e, h', a', c', k'⟩ := avlRight_spec h hA hB hC hc
  refine ⟨t', ?_, h', a', c', k'⟩
  have ek := sameObj_eq hk'
  have ea := sameObj_eq ha
  have hk := (show TreeAt true t (Around.plug (.inL j C :: c) (.node A k B)) from h).fresh
  simp only [Around.before, Around.after, List.mem_append, List.mem_cons, not_or] at hk
  obtain ⟨n, en, n1, n2, _⟩ := h.node
  obtain ⟨nk, enk, nk1, nk2, _⟩ := (show TreeAt true t (Around.plug (.inL j C :: c) (.node A k B)) from h).node
  obtain ⟨n', en', n1', n2', _⟩ := (show TreeAt true t' (Around.plug (.inR A k :: c) (.node B j C)) from h').node
  obtain ⟨m, em, m1, m2, _⟩ := h'.node
  have hj := h.fresh
  simp only [Shape.ids, List.mem_append, List.mem_cons, not_or] at hj
  have hskip : sameObj C.root (some a) = false := sameObj_ne (by rw [← ek]; exact root_ne hk.2.2.2.1.2)
  have hmiss : sameObj m.right (some b) = false := sameObj_ne (by
    rw [m2]; rintro e; cases e; exact hj.1.1 (Shape.root_mem ea))
  have e1 := cCase_hit (side := (·.left)) (rotate := fun t k => cAvlRight t j k) hk' enk (by rw [nk1]; exact ha)
  have e3 := cCase_miss (side := (·.right)) (a := a) (rotate := fun t k => cAvlLeftRight t j k) em hmiss
  simp only [cAvlRebalance, cNode_ok en, n1, ok_bind]
  simp only [root_node, e1, le_avlRight _ _ _ _ e, ok_bind, cNode_ok en', n2']
  rw [cCase_skip hskip]
  simp only [ok_bind, e3]
  exact cCase_skip hskip

theorem cRebalance_RR {t : BTree κ δ} {c : Around} {A B C : Shape} {j k : Nat} {a b : PosObj} (h : TreeAt true t (Around.plug c (.node C j (.node B k A))))
    (hA : Ann t.orderStat t.at A) (hB : Ann t.orderStat t.at B) (hC : Ann t.orderStat t.at C) (hc : AnnAround t.orderStat t.at c)
    (hk' : sameObj (some k) (some a) = true) (ha : sameObj A.root (some b) = true) :
    ∃ t', cAvlRebalance t j (some a) (some b) = .ok t' ∧ TreeAt true t' (Around.plug c (.node (.node C j B) k A)) ∧
      Ann t.orderStat t'.at (.node C j B) ∧ AnnAround t.orderStat t'.at (.inL k A :: c) ∧ Kept t t' := by
  obtain ⟨t', e, h', a', c', k'⟩ := avlLeft_spec h hA hB hC hc
  refine ⟨t', ?_, h', a', c', k'⟩
  have ek := sameObj_eq hk'
  have ea := sameObj_eq ha
  have hk := (show TreeAt true t (Around.plug (.inR C j :: c) (.node B k A)) from h).fresh
  simp only [Around.before, Around.after, List.mem_append, List.mem_cons, not_or] at hk
  obtain ⟨n, en, n1, n2, _⟩ := h.node
  obtain ⟨nk, enk, nk1, nk2, _⟩ := (show TreeAt true t (Around.plug (.inR C j :: c) (.node B k A)) from h).node
  obtain ⟨m, em, m1, m2, _⟩ := h'.node
  have hj := h.fresh
  simp only [Shape.ids, List.mem_append, List.mem_cons, not_or] at hj
  have hskip : sameObj C.root (some a) = false := sameObj_ne (by rw [← ek]; exact root_ne (by simp_all))
  have hmiss : sameObj m.left (some b) = false := sameObj_ne (by
    rw [m1]; rintro e; cases e; exact hj.2.1.2.2 (Shape.root_mem ea))
  have e1 := cCase_hit (side := (·.right)) (rotate := fun t k => cAvlLeft t j k) hk' enk (by rw [nk2]; exact ha)
  have e3 := cCase_miss (side := (·.left)) (a := a) (rotate := fun t k => cAvlRightLeft t j k) em hmiss
  simp only [cAvlRebalance, cNode_ok en, n1, ok_bind]
  rw [cCase_skip hskip]
  simp only [ok_bind, cNode_ok en, n2]
  simp only [root_node, e1, le_avlLeft _ _ _ _ e, ok_bind]
  rw [show cAvlCase t' (C.root) (some a) (some b) (·.right) (fun t k => cAvlLeftRight t j k) = .ok t' from cCase_skip hskip]
  simp only [ok_bind, e3]

theorem cRebalance_LR {t : BTree κ δ} {c : Around} {A V W C : Shape} {i j k : Nat} {a b : PosObj}
    (h : TreeAt true t (Around.plug c (.node (.node A k (.node V i W)) j C)))
    (hA : Ann t.orderStat t.at A) (hB : Ann t.orderStat t.at (.node V i W)) (hC : Ann t.orderStat t.at C) (hc : AnnAround t.orderStat t.at c)
    (hk' : sameObj (some k) (some a) = true) (ha : sameObj (some i) (some b) = true) :
    ∃ t', cAvlRebalance t j (some a) (some b) = .ok t' ∧ TreeAt true t' (Around.plug c (.node (.node A k V) i (.node W j C))) ∧
      Ann t.orderStat t'.at (.node W j C) ∧ AnnAround t.orderStat t'.at (.inR (.node A k V) i :: c) ∧ Kept t t' := by
  have hV : Ann t.orderStat t.at V := ⟨hB.1.2.1, fun ho => (hB.2 ho).2.1⟩
  have hW : Ann t.orderStat t.at W := ⟨hB.1.2.2, fun ho => (hB.2 ho).2.2⟩
  obtain ⟨t', e, h', a', c', k'⟩ := avlLeftRight_spec h hA hV hW hC hc
  refine ⟨t', ?_, h', a', c', k'⟩
  have ek := sameObj_eq hk'
  have ea := sameObj_eq ha
  have hk := (show TreeAt true t (Around.plug (.inL j C :: c) (.node A k (.node V i W))) from h).fresh
  have hi := (show TreeAt true t (Around.plug (.inR A k :: .inL j C :: c) (.node V i W)) from h).fresh
  simp only [Around.before, Around.after, List.mem_append, List.mem_cons, not_or] at hk hi
  obtain ⟨n, en, n1, n2, _⟩ := h.node
  obtain ⟨nk, enk, nk1, nk2, _⟩ := (show TreeAt true t (Around.plug (.inL j C :: c) (.node A k (.node V i W))) from h).node
  have hskip : sameObj C.root (some a) = false := sameObj_ne (by rw [← ek]; exact root_ne (by simp_all))
  have hmiss : sameObj nk.left (some b) = false := sameObj_ne (by rw [nk1, ← ea]; exact root_ne (by simp_all))
  have e1 := cCase_miss (side := (·.left)) (a := a) (rotate := fun t k => cAvlRight t j k) enk hmiss
  have e3 := cCase_hit (side := (·.right)) (b := b) (rotate := fun t k => cAvlLeftRight t j k) hk' enk (by rw [nk2]; exact ha)
  simp only [cAvlRebalance, cNode_ok en, n1, ok_bind]
  simp only [root_node, e1, ok_bind, cNode_ok en, n2]
  rw [cCase_skip hskip]
  simp only [ok_bind, e3, le_avlLeftRight _ _ _ _ e]
  exact cCase_skip hskip

theorem cRebalance_RL {t : BTree κ δ} {c : Around} {A V W C : Shape} {i j k : Nat} {a b : PosObj}
    (h : TreeAt true t (Around.plug c (.node C j (.node (.node W i V) k A))))
    (hA : Ann t.orderStat t.at A) (hB : Ann t.orderStat t.at (.node W i V)) (hC : Ann t.orderStat t.at C) (hc : AnnAround t.orderStat t.at c)
    (hk' : sameObj (some k) (some a) = true) (ha : sameObj (some i) (some b) = true) :
    ∃ t', cAvlRebalance t j (some a) (some b) = .ok t' ∧ TreeAt true t' (Around.plug c (.node (.node C j W) i (.node V k A))) ∧
      Ann t.orderStat t'.at (.node C j W) ∧ AnnAround t.orderStat t'.at (.inL i (.node V k A) :: c) ∧ Kept t t' := by
  have hV : Ann t.orderStat t.at V := ⟨hB.1.2.2, fun ho => (hB.2 ho).2.2⟩
  have hW : Ann t.orderStat t.at W := ⟨hB.1.2.1, fun ho => (hB.2 ho).2.1⟩
  obtain ⟨t', e, h', a', c', k'⟩ := avlRightLeft_spec h hA hV hW hC hc
  refine ⟨t', ?_, h', a', c', k'⟩
  have ek := sameObj_eq hk'
  have ea := sameObj_eq ha
  have hk := (show TreeAt true t (Around.plug (.inR C j :: c) (.node (.node W i V) k A)) from h).fresh
  have hi := (show TreeAt true t (Around.plug (.inL k A :: .inR C j :: c) (.node W i V)) from h).fresh
  simp only [Around.before, Around.after, List.mem_append, List.mem_cons, not_or] at hk hi
  obtain ⟨n, en, n1, n2, _⟩ := h.node
  obtain ⟨nk, enk, nk1, nk2, _⟩ := (show TreeAt true t (Around.plug (.inR C j :: c) (.node (.node W i V) k A)) from h).node
  have hskip : sameObj C.root (some a) = false := sameObj_ne (by rw [← ek]; exact root_ne (by simp_all))
  have hmiss : sameObj nk.right (some b) = false := sameObj_ne (by rw [nk2, ← ea]; exact root_ne (by simp_all))
  have e1 := cCase_miss (side := (·.right)) (a := a) (rotate := fun t k => cAvlLeft t j k) enk hmiss
  have e3 := cCase_hit (side := (·.left)) (b := b) (rotate := fun t k => cAvlRightLeft t j k) hk' enk (by rw [nk1]; exact ha)
  simp only [cAvlRebalance, cNode_ok en, n1, ok_bind]
  rw [cCase_skip hskip]
  simp only [ok_bind, cNode_ok en, n2]
  simp only [root_node, e1, ok_bind]
  rw [show cAvlCase t (C.root) (some a) (some b) (·.right) (fun t k => cAvlLeftRight t j k) = .ok t from cCase_skip hskip]
  simp only [ok_bind, e3, le_avlRightLeft _ _ _ _ e]

/-- The child subtree `L` gives no reason to rotate. -/
def NoTurn (L : Shape) (a b : PosObj) : Prop :=
  ∀ A k B, L = .node A k B → sameObj (some k) (some a) = true → sameObj A.root (some b) = false ∧ sameObj B.root (some b) = false

theorem cCase_none {t : BTree κ δ} {c : Around} {L : Shape} {a b : PosObj} {side : BNode κ δ → Option Nat} {rotate : BTree κ δ → Nat → PyM (BTree κ δ)}
    (h : TreeAt true t (Around.plug c L)) (hn : NoTurn L a b) (hs : ∀ n, side n = n.left ∨ side n = n.right) :
    cAvlCase t L.root (some a) (some b) side rotate = .ok t := by
  cases L with
  | leaf => rfl
  | node A k B =>
    cases e : sameObj (some k) (some a) with
    | false => exact cCase_skip e
    | true =>
      obtain ⟨h1, h2⟩ := hn A k B rfl e
      obtain ⟨n, en, n1, n2, _⟩ := h.node
      refine cCase_miss en ?_
      rcases hs n with e | e <;> rw [e]
      · rw [n1]; exact h1
      · rw [n2]; exact h2

theorem cRebalance_none {t : BTree κ δ} {c : Around} {L R : Shape} {w : Nat} {a b : PosObj} (h : TreeAt true t (Around.plug c (.node L w R)))
    (hL : NoTurn L a b) (hR : NoTurn R a b) : cAvlRebalance t w (some a) (some b) = .ok t := by
  obtain ⟨n, en, n1, n2, _⟩ := h.node
  have h1 : TreeAt true t (Around.plug (.inL w R :: c) L) := h
  have h2 : TreeAt true t (Around.plug (.inR L w :: c) R) := h
  simp only [cAvlRebalance, cNode_ok en, n1, n2, ok_bind]
  rw [cCase_none h1 hL (fun n => .inl rfl)]
  simp only [ok_bind, cNode_ok en, n2]
  rw [cCase_none h2 hR (fun n => .inr rfl)]
  simp only [ok_bind]
  rw [cCase_none h1 hL (fun n => .inr rfl)]
  simp only [ok_bind]
  exact cCase_none h2 hR (fun n => .inl rfl)

/-- A step at the node `w`, up to the rotations. -/
theorem cBody_step {t : BTree κ δ} {c : Around} {L R : Shape} {w : Nat} {a b : PosObj} (h : TreeAt true t (Around.plug c (.node L w R)))
    (hL : Ann t.orderStat t.at L) (hR : Ann t.orderStat t.at R) (hc : AnnAround t.orderStat t.at c) :
    ∃ t', TreeAt true t' (Around.plug c (.node L w R)) ∧ Ann t'.orderStat t'.at (.node L w R) ∧ Ann t'.orderStat t'.at L ∧ Ann t'.orderStat t'.at R ∧
      AnnAround t'.orderStat t'.at c ∧ Kept t t' ∧
      (cAvlBody ⟨t, some w, some a, some b⟩ = .ok ⟨t', Around.up c, some (linkObj w), some a⟩ ∨
        ∀ t'' n, cAvlRebalance t' w (some a) (some b) = .ok t'' → t''.at w = some n →
          cAvlBody ⟨t, some w, some a, some b⟩ = .ok ⟨t'', n.parent, some (linkObj w), some a⟩) := by
  obtain ⟨t1, t2, e1, e2, w2, a2⟩ := settle_spec h hL hR
  have h2' := w2.tree h
  have hb := balanceFactor_ok h2' a2.1.2.1 a2.1.2.2
  obtain ⟨n, en, _, _, n3⟩ := h2'.node
  obtain ⟨f1, f2, f3⟩ := h.fresh
  have o2 := w2.rest.orderStat
  refine ⟨t2, h2', by rw [o2]; exact a2, by rw [o2]; exact w2.ann f1 hL, by rw [o2]; exact w2.ann f2 hR, by rw [o2]; exact w2.annAround f3 hc, w2.kept, ?_⟩
  by_cases hd : ((R.depth : Int) - L.depth = 1 ∨ (R.depth : Int) - L.depth = 0 ∨ (R.depth : Int) - L.depth = -1)
  · left
    simp only [cAvlBody, cIdx, ok_bind, le_reheight _ _ _ e1, le_resizeIf _ _ _ e2, le_balanceFactor _ _ _ hb, if_pos hd, cNode_ok en, n3]
  · right
    intro t3 m e3 em
    simp only [cAvlBody, cIdx, ok_bind, le_reheight _ _ _ e1, le_resizeIf _ _ _ e2, le_balanceFactor _ _ _ hb, if_neg hd, e3, cNode_ok em]

/-- A step without a reason to rotate. -/
theorem cBody_calm {t : BTree κ δ} {c : Around} {L R : Shape} {w : Nat} {a b : PosObj} (h : TreeAt true t (Around.plug c (.node L w R)))
    (hL : Ann t.orderStat t.at L) (hR : Ann t.orderStat t.at R) (hc : AnnAround t.orderStat t.at c) (nL : NoTurn L a b) (nR : NoTurn R a b) :
    ∃ t', cAvlBody ⟨t, some w, some a, some b⟩ = .ok ⟨t', Around.up c, some (linkObj w), some a⟩ ∧ TreeAt true t' (Around.plug c (.node L w R)) ∧
      Ann t'.orderStat t'.at (.node L w R) ∧ AnnAround t'.orderStat t'.at c ∧ Kept t t' := by
  obtain ⟨t1, h1, a1, _, _, c1, k1, hb⟩ := cBody_step (a := a) (b := b) h hL hR hc
  refine ⟨t1, ?_, h1, a1, c1, k1⟩
  rcases hb with hb | hb
  · exact hb
  · obtain ⟨n, en, _, _, n3⟩ := h1.node
    rw [hb t1 n (cRebalance_none h1 nL nR) en, n3]

/-- A step: the node is settled, or a rotation puts some node `k` above it, and the next step will not rotate. -/
theorem cBody_any {t : BTree κ δ} {c : Around} {L R : Shape} {w : Nat} {a b : PosObj} (h : TreeAt true t (Around.plug c (.node L w R)))
    (hL : Ann t.orderStat t.at L) (hR : Ann t.orderStat t.at R) (hc : AnnAround t.orderStat t.at c) :
    ∃ t', Kept t t' ∧ AnnAround t'.orderStat t'.at c ∧
      ((cAvlBody ⟨t, some w, some a, some b⟩ = .ok ⟨t', Around.up c, some (linkObj w), some a⟩ ∧ TreeAt true t' (Around.plug c (.node L w R)) ∧
        Ann t'.orderStat t'.at (.node L w R)) ∨
      ∃ X k Y, cAvlBody ⟨t, some w, some a, some b⟩ = .ok ⟨t', some k, some (linkObj w), some a⟩ ∧ TreeAt true t' (Around.plug c (.node X k Y)) ∧
        (Shape.node X k Y).ids = (Shape.node L w R).ids ∧ Ann t'.orderStat t'.at X ∧ Ann t'.orderStat t'.at Y ∧
        NoTurn X (linkObj w) a ∧ NoTurn Y (linkObj w) a) := by
  obtain ⟨t1, h1, a1, aL, aR, c1, k1, hb⟩ := cBody_step (a := a) (b := b) h hL hR hc
  rcases hb with hb | hb
  · exact ⟨t1, k1, c1, .inl ⟨hb, h1, a1⟩⟩
  have nodup := h1.nodup
  rw [Around.ids_plug] at nodup
  by_cases nL : NoTurn L a b
  · by_cases nR : NoTurn R a b
    · obtain ⟨n, en, _, _, n3⟩ := h1.node
      exact ⟨t1, k1, c1, .inl ⟨by rw [hb t1 n (cRebalance_none h1 nL nR) en, n3], h1, a1⟩⟩
    · unfold NoTurn at nR
      simp only [Classical.not_forall] at nR
      obtain ⟨A, k, B, rfl, hk, hno⟩ := nR
      have ek := sameObj_eq hk
      have aA : Ann t1.orderStat t1.at A := ⟨aR.1.2.1, fun ho => (aR.2 ho).2.1⟩
      have aB : Ann t1.orderStat t1.at B := ⟨aR.1.2.2, fun ho => (aR.2 ho).2.2⟩
      cases hB : sameObj B.root (some b) with
      | true =>
        obtain ⟨t2, e2, h2, x2, y2, k2⟩ := cRebalance_RR (A := B) (B := A) h1 aB aA aL c1 hk hB
        obtain ⟨n, en, _, _, n3⟩ := (show TreeAt true t2 (Around.plug (.inL k B :: c) (.node L w A)) from h2).node
        have o2 := k2.rest.orderStat
        rw [← o2] at x2 y2
        refine ⟨t2, k1.trans k2, y2.2, .inr ⟨.node L w A, k, B, ?_, h2, by simp [Shape.ids], x2, y2.1, ?_, ?_⟩⟩
        · rw [hb t2 n e2 en, n3]; rfl
        · intro P q Q e hq
          cases e
          have e0 := Option.some.inj ek
          simp only [Shape.ids, List.mem_append, List.mem_cons, not_or] at nodup
          exact ⟨sameObj_ne (by rw [← e0]; exact root_ne (by grind)), sameObj_ne (by rw [← e0]; exact root_ne (by grind))⟩
        · rintro P q Q rfl hq
          exfalso
          have := Option.some.inj (sameObj_eq hq)
          dsimp only [linkObj] at this
          simp only [Shape.ids] at nodup
          grind
      | false =>
        have hA : sameObj A.root (some b) = true := by
          cases e : sameObj A.root (some b) with
          | true => rfl
          | false => exact absurd ⟨e, hB⟩ hno
        cases A with
        | leaf => cases hA
        | node W i V =>
          obtain ⟨t2, e2, h2, x2, y2, k2⟩ := cRebalance_RL h1 aB aA aL c1 hk hA
          obtain ⟨n, en, _, _, n3⟩ := (show TreeAt true t2 (Around.plug (.inL i (.node V k B) :: c) (.node L w W)) from h2).node
          have o2 := k2.rest.orderStat
          rw [← o2] at x2 y2
          refine ⟨t2, k1.trans k2, y2.2, .inr ⟨.node L w W, i, .node V k B, ?_, h2, by simp [Shape.ids], x2, y2.1, ?_, ?_⟩⟩
          · rw [hb t2 n e2 en, n3]; rfl
          · intro P q Q e hq
            cases e
            have e0 := Option.some.inj ek
            simp only [Shape.ids] at nodup
            exact ⟨sameObj_ne (by rw [← e0]; exact root_ne (by grind)), sameObj_ne (by rw [← e0]; exact root_ne (by grind))⟩
          · intro P q Q e hq
            exfalso
            cases e
            have := Option.some.inj (sameObj_eq hq)
            dsimp only [linkObj] at this
            simp only [Shape.ids] at nodup
            grind
  · unfold NoTurn at nL
    simp only [Classical.not_forall] at nL
    obtain ⟨A, k, B, rfl, hk, hno⟩ := nL
    have ek := sameObj_eq hk
    have aA : Ann t1.orderStat t1.at A := ⟨aL.1.2.1, fun ho => (aL.2 ho).2.1⟩
    have aB : Ann t1.orderStat t1.at B := ⟨aL.1.2.2, fun ho => (aL.2 ho).2.2⟩
    cases hA : sameObj A.root (some b) with
    | true =>
      obtain ⟨t2, e2, h2, x2, y2, k2⟩ := cRebalance_LL h1 aA aB aR c1 hk hA
      obtain ⟨n, en, _, _, n3⟩ := (show TreeAt true t2 (Around.plug (.inR A k :: c) (.node B w R)) from h2).node
      have o2 := k2.rest.orderStat
      rw [← o2] at x2 y2
      refine ⟨t2, k1.trans k2, y2.2, .inr ⟨A, k, .node B w R, ?_, h2, by simp [Shape.ids], y2.1, x2, ?_, ?_⟩⟩
      · rw [hb t2 n e2 en, n3]; rfl
      · rintro P q Q rfl hq
        exfalso
        have := Option.some.inj (sameObj_eq hq)
        dsimp only [linkObj] at this
        simp only [Shape.ids] at nodup
        grind
      · intro P q Q e hq
        cases e
        have e0 := Option.some.inj ek
        simp only [Shape.ids] at nodup
        exact ⟨sameObj_ne (by rw [← e0]; exact root_ne (by grind)), sameObj_ne (by rw [← e0]; exact root_ne (by grind))⟩
    | false =>
      have hB : sameObj B.root (some b) = true := by
        cases e : sameObj B.root (some b) with
        | true => rfl
        | false => exact absurd ⟨hA, e⟩ hno
      cases B with
      | leaf => cases hB
      | node V i W =>
        obtain ⟨t2, e2, h2, x2, y2, k2⟩ := cRebalance_LR h1 aA aB aR c1 hk hB
        obtain ⟨n, en, _, _, n3⟩ := (show TreeAt true t2 (Around.plug (.inR (.node A k V) i :: c) (.node W w R)) from h2).node
        have o2 := k2.rest.orderStat
        rw [← o2] at x2 y2
        refine ⟨t2, k1.trans k2, y2.2, .inr ⟨.node A k V, i, .node W w R, ?_, h2, by simp [Shape.ids], y2.1, x2, ?_, ?_⟩⟩
        · rw [hb t2 n e2 en, n3]; rfl
        · intro P q Q e hq
          exfalso
          cases e
          have := Option.some.inj (sameObj_eq hq)
          dsimp only [linkObj] at this
          simp only [Shape.ids] at nodup
          grind
        · intro P q Q e hq
          cases e
          have e0 := Option.some.inj ek
          simp only [Shape.ids] at nodup
          exact ⟨sameObj_ne (by rw [← e0]; exact root_ne (by grind)), sameObj_ne (by rw [← e0]; exact root_ne (by grind))⟩

theorem ids_swap (c : Around) {S S' : Shape} (h : S'.ids = S.ids) : (Around.plug c S').ids = (Around.plug c S).ids := by
  rw [Around.ids_plug, Around.ids_plug, h]

/-- The walk, whatever objects are in the queue. -/
theorem cavl_any : ∀ (c : Around) (t : BTree κ δ) (S : Shape) (a b : PosObj), TreeAt true t (Around.plug c S) → Ann t.orderStat t.at S → AnnAround t.orderStat t.at c →
    ∃ T' t', T'.ids = (Around.plug c S).ids ∧ TreeAt true t' T' ∧ Ann t'.orderStat t'.at T' ∧ Kept t t' ∧
      ∃ q, ∀ fuel > 2 * c.length, whileLoop fuel cAvlCond cAvlBody ⟨t, Around.up c, some a, some b⟩ = .ok ⟨t', none, q⟩ := by
  intro c
  induction c with
  | nil =>
    intro t S a b h hS _
    refine ⟨_, t, rfl, h, hS, .refl t, (some a, some b), fun fuel hf => ?_⟩
    obtain ⟨f, rfl⟩ : ∃ f, fuel = f + 1 := ⟨fuel - 1, by omega⟩
    exact while_stop _ (by rfl)
  | cons fr c ih =>
    intro t S a b h hS hc
    have key : ∀ (L R : Shape) (w : Nat), TreeAt true t (Around.plug c (.node L w R)) → Ann t.orderStat t.at L → Ann t.orderStat t.at R → AnnAround t.orderStat t.at c →
        ∃ T' t', T'.ids = (Around.plug c (.node L w R)).ids ∧ TreeAt true t' T' ∧ Ann t'.orderStat t'.at T' ∧ Kept t t' ∧
          ∃ q, ∀ fuel > 2 * c.length + 2, whileLoop fuel cAvlCond cAvlBody ⟨t, some w, some a, some b⟩ = .ok ⟨t', none, q⟩ := by
      intro L R w h hL hR hc
      obtain ⟨t1, k1, c1, hb⟩ := cBody_any (a := a) (b := b) h hL hR hc
      rcases hb with ⟨hb, h1, a1⟩ | ⟨X, k, Y, hb, h1, e1, aX, aY, nX, nY⟩
      · obtain ⟨T', t2, e2, h2, a2, k2, q, hrun⟩ := ih t1 _ (linkObj w) a h1 a1 c1
        refine ⟨T', t2, e2, h2, a2, k1.trans k2, q, fun fuel hf => ?_⟩
        obtain ⟨f, rfl⟩ : ∃ f, fuel = f + 1 := ⟨fuel - 1, by omega⟩
        exact (while_step (cond := cAvlCond) f (by rfl) hb).trans (hrun f (by omega))
      · obtain ⟨t2, hb2, h2, a2, c2, k2⟩ := cBody_calm (a := linkObj w) (b := a) h1 aX aY c1 nX nY
        obtain ⟨T', t3, e3, h3, a3, k3, q, hrun⟩ := ih t2 _ (linkObj k) (linkObj w) h2 a2 c2
        refine ⟨T', t3, e3.trans (ids_swap c e1), h3, a3, (k1.trans k2).trans k3, q, fun fuel hf => ?_⟩
        obtain ⟨f, rfl⟩ : ∃ f, fuel = f + 2 := ⟨fuel - 2, by omega⟩
        exact ((while_step (cond := cAvlCond) (f + 1) (by rfl) hb).trans (while_step (cond := cAvlCond) f (by rfl) hb2)).trans (hrun f (by omega))
    cases fr with
    | inL i r =>
      obtain ⟨T', t', h1, h2, h3, h4, q, hr⟩ := key S r i h hS hc.1 hc.2
      exact ⟨T', t', h1, h2, h3, h4, q, fun fuel hf => hr fuel (by simp at hf; omega)⟩
    | inR l i =>
      obtain ⟨T', t', h1, h2, h3, h4, q, hr⟩ := key l S i h hc.1 hS hc.2
      exact ⟨T', t', h1, h2, h3, h4, q, fun fuel hf => hr fuel (by simp at hf; omega)⟩

end Props
