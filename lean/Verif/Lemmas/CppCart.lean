import Verif.Model.CppCart
import Verif.Lemmas.CppSplay

/-!
# The C++ Cartesian tree follows the Python one
-/
namespace Props
open Py Model Model.Cpp Spec
set_option linter.unusedSectionVars false
variable {κ δ : Type} [DecidableEq κ]

theorem le_bubbleCond (i : Nat) (t : BTree κ δ) : Le (bubbleCond i t) (cBubbleCond i t) := by
  refine (le_node _ _).bind fun n _ => ?_
  cases hp : n.parent with
  | none => exact .refl _
  | some p =>
    refine (le_node _ _).bind fun m _ => ?_
    intro b h
    unfold prioGt at h
    cases hm : m.prio with
    | none => rw [hm] at h; cases h
    | some x =>
      cases hn : n.prio with
      | none => rw [hm, hn] at h; cases h
      | some y =>
        rw [hm, hn] at h
        cases h
        simp [cPrio, hm, hn]

theorem le_bubbleBody (i : Nat) (t : BTree κ δ) : Le (bubbleBody i t) (cBubbleBody i t) := by
  refine (le_node _ _).bind fun n _ => (le_idx _).bind fun p _ => (le_node _ _).bind fun m _ => ?_
  split
  · exact le_leftRotate _ _ _
  · exact le_rightRotate _ _ _

theorem le_bubbleUp (fuel : Nat) (t : BTree κ δ) (i : Nat) : Le (bubbleUp fuel t i) (cBubbleUp fuel t i) := by
  refine (le_node _ _).bind fun n _ => ?_
  intro r h
  obtain ⟨o, e, h⟩ := Py.bind_ok h
  cases hp : n.parent with
  | none => rw [hp] at e; cases e
  | some p =>
    show (whileLoop fuel (cBubbleCond i) (cBubbleBody i) t >>= _) = _
    refine ((Le.while_ (le_bubbleCond i) (le_bubbleBody i) fuel t).bind fun t1 _ => ?_) r h
    refine (le_node _ _).bind fun n _ => ?_
    split
    · exact le_mod _ _ _
    · exact .refl _

theorem steady_bubbleBody (i : Nat) (t : BTree κ δ) : Steady t (bubbleBody i t) :=
  .read fun _ => .read fun _ => .read fun _ => .ite (steady_leftRotate _ _ _) (steady_rightRotate _ _ _)

theorem steady_bubbleUp (fuel : Nat) (t : BTree κ δ) (i : Nat) : Steady t (bubbleUp fuel t i) := by
  refine .read fun _ => .read fun _ => ?_
  intro r h
  obtain ⟨t1, e, h⟩ := Py.bind_ok h
  have h1 : SameLen t t1 := while_inv (fun s => SameLen t s) (fun s s' hs hb => hs.trans (steady_bubbleBody i s s' hb)) fuel t _ (SameLen.refl t) e
  obtain ⟨n, _, h⟩ := Py.bind_ok h
  split at h
  · exact h1.trans (steady_mod _ _ _ _ h)
  · cases h; exact h1

/-- `insert`, given that the insertion into the binary search tree follows; `o` is the recorded size of the array before, `o'` after. -/
theorem le_cartPut_at {lt : κ → κ → Bool} {fuel o o' : Nat} {t t1 t2 : BTree κ δ} {k : κ} {p : Int} {d : Option δ}
    (h1 : bstInsert lt fuel t k d = .ok t1) (h2 : cartInsert lt fuel t k p d = .ok t2)
    (hc : cInsert (ofLt lt) fuel ⟨t, o⟩ k d = .ok ⟨t1, o'⟩) : cCartPut (ofLt lt) fuel ⟨t, o⟩ k p d = .ok ⟨t2, o'⟩ ∧ SameLen t1 t2 := by
  simp only [cartInsert, h1, ok_bind] at h2
  obtain ⟨r, e1, h2⟩ := Py.bind_ok h2
  obtain ⟨i, e2, h2⟩ := Py.bind_ok h2
  obtain ⟨n, e3, h2⟩ := Py.bind_ok h2
  obtain ⟨t3, e4, h2⟩ := Py.bind_ok h2
  simp only [cCartPut, hc, ok_bind, le_search _ _ _ _ _ e1, le_idx _ _ e2, le_node _ _ _ e3, le_mod _ _ _ _ e4]
  have hs := steady_mod _ _ _ _ e4
  cases hr : n.isRoot with
  | true =>
    rw [hr, if_pos rfl] at h2
    have hs2 := hs.trans (steady_mod _ _ _ _ h2)
    refine ⟨?_, hs2⟩
    simp only [if_true, le_mod _ _ _ _ h2, ok_bind]
  | false =>
    rw [hr, if_neg (by simp)] at h2
    have hs2 := hs.trans (steady_bubbleUp _ _ _ _ h2)
    refine ⟨?_, hs2⟩
    simp only [Bool.false_eq_true, if_false, le_bubbleUp _ _ _ _ h2, ok_bind]

theorem le_cartPut {lt : κ → κ → Bool} {fuel : Nat} {t t1 t2 : BTree κ δ} {k : κ} {p : Int} {d : Option δ}
    (h1 : bstInsert lt fuel t k d = .ok t1) (h2 : cartInsert lt fuel t k p d = .ok t2)
    (hc : cInsert (ofLt lt) fuel (onC t) k d = .ok (onC t1)) : cCartPut (ofLt lt) fuel (onC t) k p d = .ok (onC t2) ∧ SameLen t1 t2 := by
  obtain ⟨a, b⟩ := le_cartPut_at h1 h2 hc
  refine ⟨?_, b⟩
  rw [onC_len b] at a
  exact a

theorem le_cartPut_tight {lt : κ → κ → Bool} {fuel : Nat} {t r : BTree κ δ} {k : κ} {p : Int} {d : Option δ} (h : Tight t) (hr : cartInsert lt fuel t k p d = .ok r) :
    cCartPut (ofLt lt) fuel (onC t) k p d = .ok (onC r) ∧ Tight r := by
  have h2 := hr
  unfold cartInsert at h2
  obtain ⟨t1, e1, h2⟩ := Py.bind_ok h2
  obtain ⟨hc, ht⟩ := le_insert_tight h e1
  obtain ⟨a, b⟩ := le_cartPut e1 hr hc
  exact ⟨a, ht.same b⟩

/-! ## delete -/

theorem le_trickleBody (i : Nat) (t : BTree κ δ) : Le (trickleBody i t) (cTrickleBody i t) := by
  refine (le_node _ _).bind fun n _ => ?_
  cases hl : n.left with
  | none => exact (le_idx _).bind fun _ _ => le_leftRotate _ _ _
  | some l =>
    cases hr : n.right with
    | none => exact le_rightRotate _ _ _
    | some r =>
      refine (le_node _ _).bind fun a _ => (le_node _ _).bind fun b _ => ?_
      intro q h
      obtain ⟨c, e, h⟩ := Py.bind_ok h
      unfold prioGt at e
      cases hb : b.prio with
      | none => rw [hb] at e; cases e
      | some y =>
        cases ha : a.prio with
        | none => rw [hb, ha] at e; cases e
        | some x =>
          rw [hb, ha] at e
          cases e
          have e1 : cPrio a = x := by simp [cPrio, ha]
          have e2 : cPrio b = y := by simp [cPrio, hb]
          rw [e1, e2]
          by_cases hxy : x < y
          · rw [if_pos hxy]
            rw [if_pos (by simpa using hxy)] at h
            exact le_rightRotate _ _ _ _ h
          · rw [if_neg hxy]
            rw [if_neg (by simpa using hxy)] at h
            exact le_leftRotate _ _ _ _ h

theorem le_trickleDown (fuel : Nat) (t : BTree κ δ) (i : Nat) : Le (trickleDown fuel t i) (cTrickleDown fuel t i) :=
  Le.while_ (fun _ => (le_node _ _).bind fun _ _ => .refl _) (le_trickleBody i) fuel t

theorem steady_trickleBody (i : Nat) (t : BTree κ δ) : Steady t (trickleBody i t) := by
  refine .read fun n => ?_
  cases hl : n.left with
  | none => exact .read fun _ => steady_leftRotate _ _ _
  | some l =>
    cases hr : n.right with
    | none => exact steady_rightRotate _ _ _
    | some r => exact .read fun _ => .read fun _ => .read fun _ => .ite (steady_rightRotate _ _ _) (steady_leftRotate _ _ _)

theorem steady_trickleDown (fuel : Nat) (t : BTree κ δ) (i : Nat) : Steady t (trickleDown fuel t i) := by
  intro r h
  exact while_inv (fun s => SameLen t s) (fun s s' hs hb => hs.trans (steady_trickleBody i s s' hb)) fuel t _ (SameLen.refl t) h

theorem trickle_leaf {fuel : Nat} {t t2 : BTree κ δ} {i : Nat} {n : BNode κ δ} (hn : getNode t i = .ok n) (hl : n.left = none) (hr : n.right = none)
    (h : trickleDown fuel t i = .ok t2) : t2 = t := by
  cases fuel with
  | zero => cases h
  | succ f =>
    have : trickleCond i t = .ok false := by simp only [trickleCond, hn, ok_bind, hl, hr]; rfl
    unfold trickleDown at h
    rw [while_stop f this] at h
    cases h; rfl

/-- `delete`, given that the deletion from the tree in which the key has been moved down follows; `o` is the recorded size of the array. -/
theorem le_cartDelete {lt : κ → κ → Bool} {fuel o : Nat} {t : BTree κ δ} {k : κ}
    (hd : ∀ i t2, bstSearch lt fuel t k = .ok (some i) → trickleDown fuel t i = .ok t2 → ∀ r, bstDelete lt fuel t2 k = .ok r → cBstDelete (ofLt lt) fuel ⟨t2, o⟩ k = .ok (⟨r.1, o⟩, r.2)) :
    ∀ r, cartDelete lt fuel t k = .ok r → cCartDelete (ofLt lt) fuel ⟨t, o⟩ k = .ok (⟨r.1, o⟩, r.2) := by
  intro r h
  obtain ⟨o, e1, h⟩ := Py.bind_ok h
  simp only [cCartDelete, le_search _ _ _ _ _ e1, ok_bind]
  cases o with
  | none => cases h; rfl
  | some i =>
    dsimp only at h ⊢
    obtain ⟨t2, e2, h⟩ := Py.bind_ok h
    rw [le_trickleDown _ _ _ _ e2, ok_bind]
    exact hd i t2 e1 e2 r h

/-- `delete` of a leaf of a binary search tree, whatever the recorded size. -/
theorem le_deleteLeaf {lt : κ → κ → Bool} {fuel o w : Nat} {q : Option Nat} {t : BTree κ δ} {k : κ} {n : BNode κ δ} (h1 : bstSearchP lt fuel t k = .ok (some (some w, q)))
    (h2 : getNode t w = .ok n) (hl : n.left = none) (hr : n.right = none) :
    ∀ r, bstDelete lt fuel t k = .ok r → cBstDelete (ofLt lt) fuel ⟨t, o⟩ k = .ok (⟨r.1, o⟩, r.2) := by
  intro r h
  simp only [bstDelete, bstDeleteInfo, h1, h2, ok_bind, delCases, hl, hr] at h
  obtain ⟨s, e, h⟩ := Py.bind_ok h
  obtain ⟨s', e', e⟩ := Py.bind_ok e
  cases e
  cases h
  simp only [cBstDelete, le_searchP _ _ _ _ _ h1, le_node _ _ _ h2, ok_bind, cDelCases, hl, hr, le_leaf _ _ _ _ _ _ e']

/-! ## Priorities -/

theorem roundNat_small {n : Nat} (h : n ≤ 2 ^ 53) : roundNat n = n := by
  unfold roundNat
  by_cases hn : n = 2 ^ 53
  · rw [hn]; decide +kernel
  · have hlt : n < 2 ^ 53 := by omega
    have : n.log2 - 52 = 0 := by
      by_cases h0 : n = 0
      · subst h0; decide
      · have := (Nat.log2_lt h0).mpr hlt
        omega
    simp [this, Nat.mod_one]

theorem asDouble_small {p : Int} (h : p.natAbs ≤ 2 ^ 53) : asDouble p = .ok p := by
  unfold asDouble
  rw [roundNat_small h]
  have h2 : (2 : Nat) ^ 53 < 2 ^ 1024 := Nat.pow_lt_pow_right (by decide) (by decide)
  rw [if_pos (Nat.lt_of_le_of_lt h h2)]
  congr 1
  split <;> omega

end Props
