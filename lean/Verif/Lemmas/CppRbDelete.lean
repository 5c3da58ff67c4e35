import Verif.Lemmas.CppRb
import Verif.Lemmas.CppContract

/-!
# Deletion from the C++ red-black tree follows the Python one

The recorded size `o` of the C++ array is arbitrary.
-/
namespace Props
open Py Model Model.Cpp Spec
set_option linter.unusedSectionVars false
variable {κ δ : Type} [DecidableEq κ]

theorem cIsLeaf_eq (n : BNode κ δ) : cIsLeaf n = rbIsLeaf n := by
  unfold cIsLeaf rbIsLeaf
  cases n.left <;> cases n.right <;> rfl

theorem cHasTwo_eq (n : BNode κ δ) : cHasTwo n = rbHasTwo n := by
  unfold cHasTwo rbHasTwo
  cases n.left <;> cases n.right <;> rfl

theorem cHasOne_eq (n : BNode κ δ) : cHasOne n = rbHasOne n := by
  unfold cHasOne rbHasOne
  rw [cIsLeaf_eq, cHasTwo_eq]

theorem le_findPred (fuel : Nat) (t : BTree κ δ) (i : Nat) : Le (findPred fuel t i) (cFindPred fuel t i) :=
  Le.while_ (fun _ => (le_node _ _).bind fun _ _ => .refl _) (fun _ => (le_node _ _).bind fun _ _ => le_idx _) fuel i

theorem le_replace (fuel : Nat) (t : BTree κ δ) (i : Nat) : Le (rbReplace fuel t i) (cReplace fuel t i) := by
  refine (le_node t i).bind fun n _ => ?_
  cases n.left with
  | none => cases n.right <;> exact .refl _
  | some l => cases n.right with
    | none => exact .refl _
    | some r => exact (le_findPred _ _ _).bind fun _ _ => .refl _

theorem list_set_same {α : Type _} {l : List α} {i : Nat} {x : α} (h : l[i]? = some x) : l.set i x = l := by
  apply List.ext_getElem?
  intro j
  by_cases e : i = j
  · subst e
    rw [List.getElem?_set_self (List.getElem?_eq_some_iff.mp h).1, h]
  · rw [List.getElem?_set_ne e]

/-- Where the parent that the C++ code forgets to clear is `None` already. -/
theorem le_transplant (t : BTree κ δ) (i1 i2 : Nat) (h : ∀ n, getNode t i1 = .ok n → n.parent = none ∨ rbHasOne n = false) :
    Le (rbTransplant t i1 i2) (cTransplant t i1 i2) := by
  refine (le_node t i1).bind fun n1 e1 => (le_node t i2).bind fun n2 _ => ?_
  rw [cHasOne_eq]
  split
  · rename_i hc
    have hp : n1.parent = none := (h n1 e1).resolve_right (by simp at hc; simp [hc.2])
    intro r hr
    obtain ⟨t1, e2, hr⟩ := Py.bind_ok hr
    obtain ⟨t2, e3, hr⟩ := Py.bind_ok hr
    have ht : t2 = t1 := by
      obtain ⟨m, em, e2⟩ := Py.bind_ok e2
      obtain ⟨m', em', e3⟩ := Py.bind_ok e3
      cases e2
      cases e3
      have a1 := at_some.mp (getNode_eq_ok e1)
      have a3 := at_some.mp (getNode_eq_ok em')
      have hm' : m'.parent = none := by
        dsimp only at a3
        by_cases hi : t.rootIdx = i1
        · rw [hi, e1] at em
          cases em
          rw [hi, List.getElem?_set_self (List.getElem?_eq_some_iff.mp a1).1] at a3
          cases a3
          exact hp
        · rw [List.getElem?_set_ne hi, a1] at a3
          cases a3
          exact hp
      have hs : ({ m' with parent := none } : BNode κ δ) = m' := by
        cases m'
        cases hm'
        rfl
      dsimp only at a3 ⊢
      rw [hs, list_set_same a3]
    obtain ⟨x, e4, hr⟩ := Py.bind_ok hr
    rw [ht] at e4 hr
    rw [le_mod _ _ _ _ e2, ok_bind]
    rw [le_node _ _ _ e4, ok_bind, hr]
  · exact (le_mod _ _ _).bind fun _ _ => .refl _

theorem le_hasRedChild (t : BTree κ δ) (i : Nat) : Le (rbHasRedChild t i) (cHasRedChild t i) := by
  refine (le_node t i).bind fun n _ => (le_redAt _ _).bind fun l _ => ?_
  split
  · exact .refl _
  · exact le_redAt _ _

theorem le_bothBlack (t : BTree κ δ) (c : Nat) (o : Option Nat) : Le (rbBothBlack t (some c) o) (cBothBlack t c o) := by
  cases o with
  | none =>
    intro r h
    cases h
    simp only [cBothBlack, Option.some.injEq]
  | some i =>
    refine (le_node t i).bind fun n _ => ?_
    intro r h
    obtain ⟨b, e, h⟩ := Py.bind_ok h
    cases h
    rw [isCol_ok e]
    simp only [Option.some.injEq]

theorem le_LL (t : BTree κ δ) (i : Nat) : Le (rbLL t i) (cRbLL t i) := by
  unfold rbLL cRbLL
  repeat' le_rb

theorem le_RL (t : BTree κ δ) (i : Nat) : Le (rbRL t i) (cRbRL t i) := by
  unfold rbRL cRbRL
  repeat' le_rb

theorem le_LR (t : BTree κ δ) (i : Nat) : Le (rbLR t i) (cRbLR t i) := by
  unfold rbLR cRbLR
  repeat' le_rb

theorem le_RR (t : BTree κ δ) (i : Nat) : Le (rbRR t i) (cRbRR t i) := by
  unfold rbRR cRbRR
  repeat' le_rb

theorem le_delRed (t : BTree κ δ) (p s : Nat) : Le (rbDelRed t p s) (cRbDelRed t p s) := by
  refine (le_setRoot _ _ _).bind fun t _ => (le_paint _ _ _).bind fun t _ => (le_paint _ _ _).bind fun t _ => (le_onLeft _ _).bind fun b _ => ?_
  dsimp only
  split <;> repeat' le_rb

theorem le_delTurn (t : BTree κ δ) (s : Nat) : Le (rbDelTurn t s) (cRbDelTurn t s) := by
  refine (le_node _ _).bind fun n _ => (le_redAt _ _).bind fun l _ => (le_onLeft _ _).bind fun b _ => ?_
  split
  · split
    · exact le_LL _ _
    · exact le_RL _ _
  · split
    · exact le_LR _ _
    · exact le_RR _ _

theorem le_delBlack (t : BTree κ δ) (p s : Nat) : Le (rbDelBlack t p s) (cRbDelBlack t p s) :=
  (le_setRoot _ _ _).bind fun _ _ => (le_delTurn _ _).bind fun _ _ => (le_setRoot _ _ _).bind fun _ _ => le_paint _ _ _

theorem le_rbDelBody (s : RbDelSt κ δ) : Le (rbDelBody s) (cRbDelBody s) := by
  refine (le_idx _).bind fun i _ => (le_sibling _ _).bind fun sib _ => (le_parent _ _).bind fun par _ => ?_
  cases sib with
  | none => exact .refl _
  | some sib =>
    refine (le_redAt _ _).bind fun red _ => (le_idx _).bind fun p _ => ?_
    split
    · exact (le_delRed _ _ _).bind fun _ _ => .refl _
    · refine (le_hasRedChild _ _).bind fun rc _ => ?_
      split
      · exact (le_delBlack _ _ _).bind fun _ _ => .refl _
      · refine (le_paint _ _ _).bind fun t _ => (le_node _ _).bind fun n _ => ?_
        intro r h
        obtain ⟨b, e, h⟩ := Py.bind_ok h
        rw [isCol_ok e] at h
        split at h
        · rename_i hb
          rw [if_pos (by simpa using hb)]
          exact h
        · rename_i hb
          rw [if_neg (by simpa using hb)]
          exact ((le_paint _ _ _).bind fun _ _ => .refl _) r h

theorem le_rbDelCond (s : RbDelSt κ δ) : Le (rbDelCond s) (cRbDelCond s) := by
  intro r h
  cases h
  unfold cRbDelCond
  simp only [ne_eq, decide_not]

theorem le_fixDel (fuel : Nat) (t : BTree κ δ) (i : Nat) : Le (rbFixDel fuel t i) (cRbFixDel fuel t i) :=
  (le_colorAt t i).bind fun _ _ => (Le.while_ le_rbDelCond le_rbDelBody fuel _).bind fun _ _ => .refl _

theorem le_rbRemove (fuel : Nat) (t : BTree κ δ) (o i : Nat) : ∀ r, rbRemove fuel t i = .ok r → cRbRemove fuel ⟨t, o⟩ i = .ok ⟨r, o⟩ := by
  intro r hr
  unfold rbRemove at hr
  unfold cRbRemove
  obtain ⟨par, e1, hr⟩ := Py.bind_ok hr
  obtain ⟨n, e2, hr⟩ := Py.bind_ok hr
  dsimp only at hr ⊢
  rw [le_parent _ _ _ e1, ok_bind, le_node _ _ _ e2, ok_bind, cIsLeaf_eq, cHasOne_eq]
  split at hr
  · rename_i h1
    rw [if_pos h1]
    obtain ⟨p, e3, hr⟩ := Py.bind_ok hr
    obtain ⟨q, e4, hr⟩ := Py.bind_ok hr
    rw [le_idx _ _ e3, ok_bind, le_slot _ o _ _ _ e4, ok_bind]
    dsimp only
    rw [le_updateSize _ _ _ _ hr, ok_bind]
  · rename_i h1
    rw [if_neg h1]
    split at hr
    · rename_i h2
      rw [if_pos h2]
      obtain ⟨a, e3, hr⟩ := Py.bind_ok hr
      obtain ⟨p, e3', e3⟩ := Py.bind_ok e3
      obtain ⟨b, e4, hr⟩ := Py.bind_ok hr
      obtain ⟨res, e5, hr⟩ := Py.bind_ok hr
      rw [le_idx _ _ e3', ok_bind, le_node _ _ _ e3, ok_bind, le_node _ _ _ e4, ok_bind, le_delete_at _ o _ _ e5, ok_bind, ok_bind]
      rw [ok_bind] at hr
      dsimp only at hr ⊢
      rw [le_updateSize _ _ _ _ hr, ok_bind]
    · rename_i h2
      rw [if_neg h2]
      rw [ok_bind] at hr ⊢
      dsimp only at hr ⊢
      rw [le_updateSize _ _ _ _ hr, ok_bind]

theorem le_rbDeleteRoot (t : BTree κ δ) (o i : Nat) (i1 : Option Nat) (h : ∀ n, getNode t i = .ok n → n.parent = none) : ∀ r,
    rbDeleteRoot t i i1 = .ok r → cRbDeleteRoot ⟨t, o⟩ i i1 = .ok ⟨r, o⟩ := by
  intro r hr
  unfold rbDeleteRoot at hr
  unfold cRbDeleteRoot
  obtain ⟨n, e1, hr⟩ := Py.bind_ok hr
  dsimp only at hr ⊢
  rw [le_node _ _ _ e1, ok_bind, cIsLeaf_eq, cHasOne_eq]
  split at hr
  · rename_i h1
    rw [if_pos h1, le_mod _ _ _ _ hr, ok_bind]
  · rename_i h1
    rw [if_neg h1]
    split at hr
    · rename_i h2
      rw [if_pos h2]
      obtain ⟨c, e2, hr⟩ := Py.bind_ok hr
      obtain ⟨q, e3, hr⟩ := Py.bind_ok hr
      obtain ⟨⟨r1, r2⟩, e4, hr⟩ := Py.bind_ok hr
      rw [le_idx _ _ e2, ok_bind, le_transplant t i c (fun n hn => .inl (h n hn)) _ e3, ok_bind, le_delete_at _ o _ _ e4, ok_bind]
      cases r2 with
      | none => cases hr; rfl
      | some ixs =>
        dsimp only at hr ⊢
        obtain ⟨root, e5, hr⟩ := Py.bind_ok hr
        cases hr
        rw [le_index _ _ _ e5, ok_bind]
    · rename_i h2
      rw [if_neg h2]
      cases hr
      rfl

theorem le_paintIf (t : BTree κ δ) (o : Option Nat) (c : Nat) : Le (paintIf t o c) (cPaintIf t o c) := by
  cases o with
  | none => exact .refl _
  | some i => exact le_paint _ _ _

theorem parent_none {t : BTree κ δ} {i : Nat} (e : getParent t i = .ok none) : ∀ n, getNode t i = .ok n → n.parent = none := by
  intro n hn
  unfold getParent at e
  rw [hn, ok_bind] at e
  injection e

theorem le_leafCase (fuel : Nat) (t : BTree κ δ) (o w : Nat) (w1 : Option Nat) : ∀ r,
    rbLeafCase fuel t w w1 = .ok r → cRbLeafCase fuel ⟨t, o⟩ w w1 = .ok ⟨r, o⟩ := by
  intro r hr
  unfold rbLeafCase at hr
  unfold cRbLeafCase
  obtain ⟨par, e1, hr⟩ := Py.bind_ok hr
  obtain ⟨c, e2, hr⟩ := Py.bind_ok hr
  dsimp only
  rw [le_parent _ _ _ e1, ok_bind, le_colorAt _ _ _ e2, ok_bind]
  cases par with
  | none => exact le_rbDeleteRoot t o w w1 (parent_none e1) r hr
  | some parent =>
    dsimp only at hr ⊢
    obtain ⟨bb, e3, hr⟩ := Py.bind_ok hr
    rw [le_bothBlack _ _ _ _ e3, ok_bind]
    split at hr
    · rename_i h1
      rw [if_pos h1]
      obtain ⟨t1, e4, hr⟩ := Py.bind_ok hr
      obtain ⟨onl, e5, hr⟩ := Py.bind_ok hr
      obtain ⟨t2, e6, hr⟩ := Py.bind_ok hr
      rw [le_fixDel _ _ _ _ e4, ok_bind, le_onLeft _ _ _ e5, ok_bind, le_mod _ _ _ _ e6, ok_bind]
      exact le_rbRemove fuel t2 o w r hr
    · rename_i h1
      rw [if_neg h1]
      obtain ⟨sib, e4', hr⟩ := Py.bind_ok hr
      obtain ⟨t1, e4, hr⟩ := Py.bind_ok hr
      obtain ⟨onl, e5, hr⟩ := Py.bind_ok hr
      obtain ⟨t2, e6, hr⟩ := Py.bind_ok hr
      rw [le_sibling _ _ _ e4', ok_bind, le_paintIf _ _ _ _ e4, ok_bind, le_onLeft _ _ _ e5, ok_bind, le_mod _ _ _ _ e6, ok_bind]
      exact le_rbRemove fuel t2 o w r hr

theorem le_oneCase (fuel : Nat) (t : BTree κ δ) (o w w1 : Nat) : ∀ r, rbOneCase fuel t w w1 = .ok r → cRbOneCase fuel ⟨t, o⟩ w w1 = .ok ⟨r, o⟩ := by
  intro r hr
  unfold rbOneCase at hr
  unfold cRbOneCase
  obtain ⟨c, e2, hr⟩ := Py.bind_ok hr
  obtain ⟨par, e1, hr⟩ := Py.bind_ok hr
  dsimp only
  rw [le_colorAt _ _ _ e2, ok_bind, le_parent _ _ _ e1, ok_bind]
  cases par with
  | none => exact le_rbDeleteRoot t o w _ (parent_none e1) r hr
  | some parent =>
    dsimp only at hr ⊢
    obtain ⟨onl, e3, hr⟩ := Py.bind_ok hr
    obtain ⟨t1, e4, hr⟩ := Py.bind_ok hr
    obtain ⟨t2, e5, hr⟩ := Py.bind_ok hr
    obtain ⟨t3, e6, hr⟩ := Py.bind_ok hr
    obtain ⟨bb, e7, hr⟩ := Py.bind_ok hr
    rw [le_onLeft _ _ _ e3, ok_bind, le_mod _ _ _ _ e4, ok_bind, le_mod _ _ _ _ e5, ok_bind, le_rbRemove fuel t2 o w _ e6, ok_bind]
    dsimp only
    rw [le_bothBlack _ _ _ _ e7, ok_bind]
    split at hr
    · rename_i h1
      rw [if_pos h1, le_fixDel _ _ _ _ hr, ok_bind]
    · rename_i h1
      rw [if_neg h1, le_paint _ _ _ _ hr, ok_bind]

theorem le_rbDeleteNode (fuel : Nat) (t : BTree κ δ) (o w : Nat) (w1 : Option Nat) : ∀ r,
    rbDeleteNode fuel t w w1 = .ok r → cRbDeleteNode fuel ⟨t, o⟩ w w1 = .ok ⟨r, o⟩ := by
  intro r hr
  unfold rbDeleteNode at hr
  unfold cRbDeleteNode
  obtain ⟨n, e1, hr⟩ := Py.bind_ok hr
  dsimp only
  rw [le_node _ _ _ e1, ok_bind, cIsLeaf_eq, cHasOne_eq]
  split at hr
  · rename_i h1
    rw [if_pos h1]
    exact le_leafCase fuel t o w w1 r hr
  · rename_i h1
    rw [if_neg h1]
    split at hr
    · rename_i h2
      rw [if_pos h2]
      obtain ⟨x, e2, hr⟩ := Py.bind_ok hr
      rw [le_idx _ _ e2, ok_bind]
      exact le_oneCase fuel t o w x r hr
    · rename_i h2
      rw [if_neg h2]
      cases hr
      rfl

/-- Wherever the Python `delete` succeeds, the C++ `delete` does the same, whatever the recorded size of the array. -/
theorem le_rbDelete (lt : κ → κ → Bool) (fuel : Nat) (t : BTree κ δ) (o : Nat) (k : κ) : ∀ r,
    rbDelete lt fuel t k = .ok r → cRbDelete (ofLt lt) fuel ⟨t, o⟩ k = .ok (⟨r.1, o⟩, r.2) := by
  intro r hr
  unfold rbDelete at hr
  unfold cRbDelete
  obtain ⟨q, e1, hr⟩ := Py.bind_ok hr
  dsimp only
  rw [le_search _ _ _ _ _ e1, ok_bind]
  cases q with
  | none => cases hr; rfl
  | some w =>
    dsimp only at hr ⊢
    obtain ⟨w1, e2, hr⟩ := Py.bind_ok hr
    obtain ⟨n, e3, hr⟩ := Py.bind_ok hr
    rw [le_replace _ _ _ _ e2, ok_bind, le_node _ _ _ e3, ok_bind, cHasTwo_eq]
    split at hr
    · rename_i h1
      rw [if_pos h1]
      obtain ⟨s, e4, hr⟩ := Py.bind_ok hr
      obtain ⟨x, e5, hr⟩ := Py.bind_ok hr
      obtain ⟨w2, e6, hr⟩ := Py.bind_ok hr
      obtain ⟨t2, e7, hr⟩ := Py.bind_ok hr
      cases hr
      have hx : ∀ m, getNode t w = .ok m → m.parent = none ∨ rbHasOne m = false := by
        intro m hm
        rw [e3] at hm
        cases hm
        exact .inr (by simp [rbHasOne, h1])
      rw [le_idx _ _ e4, ok_bind, le_transplant t w s hx _ e5, ok_bind, le_replace _ _ _ _ e6, ok_bind, le_rbDeleteNode _ _ o _ _ _ e7, ok_bind]
    · rename_i h1
      rw [if_neg h1]
      obtain ⟨t2, e7, hr⟩ := Py.bind_ok hr
      cases hr
      rw [le_rbDeleteNode _ _ o _ _ _ e7, ok_bind]

end Props
