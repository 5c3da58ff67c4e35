import Verif.Lemmas.CppLen

/-!
# The C++ array for trees follows the Python one, contractions included

The recorded size `o` of the C++ array is arbitrary: `delete` does not read it.
-/
namespace Props
open Py Model Model.Cpp Spec
set_option linter.unusedSectionVars false
variable {κ δ : Type} [DecidableEq κ]

theorem Le.forList {α σ : Type _} {f g : α → σ → PyM σ} (h : ∀ a s, Le (f a s) (g a s)) : ∀ (l : List α) (s : σ), Le (forList l s f) (forList l s g) := by
  intro l
  induction l with
  | nil => intro s; exact .refl _
  | cons a l ih =>
    intro s
    rw [Py.forList, Py.forList]
    exact (h a s).bind fun s' _ => ih s'

theorem le_index (ixs : List (Option κ × Nat)) (k : Option κ) : Le (atIndex ixs k) (cIndex ixs k) := by
  unfold atIndex cIndex
  cases ixs.lookup k with
  | none => exact .error
  | some j => exact .refl _

theorem le_relinkOne (t : BTree κ δ) (ixs : List (Option κ × Nat)) (o : Option Nat) : Le (atRelink t ixs o) (cRelinkOne t ixs o) := by
  cases o with
  | none => exact .refl _
  | some i => exact (le_node t i).bind fun _ _ => (le_index _ _).bind fun _ _ => .refl _

theorem le_relinkNode (t : BTree κ δ) (ixs : List (Option κ × Nat)) (n : BNode κ δ) (out : List (Option (BNode κ δ))) :
    Le (atRelinkNode t ixs n out) (cRelinkNode t ixs n out) :=
  (le_relinkOne _ _ _).bind fun _ _ => (le_relinkOne _ _ _).bind fun _ _ => (le_relinkOne _ _ _).bind fun _ _ => .refl _

theorem le_modify (t : BTree κ δ) (o : Nat) : ∀ r, atModify t = .ok r → cModify ⟨t, o⟩ = .ok (⟨r.1, o⟩, r.2) := by
  intro r hr
  unfold atModify at hr
  unfold cModify
  by_cases h : 4 * t.num < t.arr.length
  · rw [if_pos h] at hr
    rw [if_pos (show 4 * (⟨t, o⟩ : CTree κ δ).t.num < (⟨t, o⟩ : CTree κ δ).t.arr.length from h)]
    obtain ⟨out, e, hr⟩ := Py.bind_ok hr
    cases hr
    have := Le.forList (fun a s => le_relinkNode t (atCompact (t.arr.take t.top) 0 [] []).1 a s) _ _ _ e
    dsimp only
    rw [this, ok_bind]
  · rw [if_neg h] at hr
    rw [if_neg (show ¬ 4 * (⟨t, o⟩ : CTree κ δ).t.num < (⟨t, o⟩ : CTree κ δ).t.arr.length from h)]
    cases hr
    rfl

theorem le_delete_at (t : BTree κ δ) (o i : Nat) : ∀ r, atDelete t i = .ok r → cDelete ⟨t, o⟩ i = .ok (⟨r.1, o⟩, r.2) := by
  intro r hr
  unfold atDelete at hr
  unfold cDelete
  by_cases h : i < t.top ∧ (t.arr[i]?).join.isSome
  · rw [if_pos h] at hr
    rw [if_pos (show i < (⟨t, o⟩ : CTree κ δ).t.top ∧ ((⟨t, o⟩ : CTree κ δ).t.arr[i]?).join.isSome from h)]
    exact le_modify _ o r hr
  · rw [if_neg h] at hr
    rw [if_neg (show ¬ (i < (⟨t, o⟩ : CTree κ δ).t.top ∧ ((⟨t, o⟩ : CTree κ δ).t.arr[i]?).join.isSome) from h)]
    cases hr
    rfl

theorem le_slot (t : BTree κ δ) (o x p : Nat) : ∀ r, delSlot t x p = .ok r → cDelSlot ⟨t, o⟩ x p = .ok (⟨r.1, o⟩, r.2) := by
  intro r hr
  unfold delSlot at hr
  unfold cDelSlot
  obtain ⟨n1, e1, hr⟩ := Py.bind_ok hr
  obtain ⟨n2, e2, hr⟩ := Py.bind_ok hr
  obtain ⟨⟨q1, q2⟩, e3, hr⟩ := Py.bind_ok hr
  dsimp only
  rw [le_node _ _ _ e1, ok_bind, le_node _ _ _ e2, ok_bind, le_delete_at t o x _ e3, ok_bind]
  cases q2 with
  | none => cases hr; rfl
  | some ixs =>
    dsimp only at hr ⊢
    obtain ⟨a, e4, hr⟩ := Py.bind_ok hr
    obtain ⟨root, e5, hr⟩ := Py.bind_ok hr
    cases hr
    rw [le_index _ _ _ e4, ok_bind, le_index _ _ _ e5, ok_bind]

theorem le_leaf (fuel : Nat) (t : BTree κ δ) (o w : Nat) (p : Option Nat) : ∀ r,
    delLeaf fuel t w p = .ok r → cDelLeaf fuel ⟨t, o⟩ w p = .ok (⟨r.1, o⟩, r.2) := by
  intro r hr
  cases p with
  | none =>
    unfold delLeaf at hr
    unfold cDelLeaf
    obtain ⟨t1, e1, hr⟩ := Py.bind_ok hr
    obtain ⟨t2, e2, hr⟩ := Py.bind_ok hr
    cases hr
    dsimp only
    rw [le_mod _ _ _ _ e1, ok_bind, le_updateSize _ _ _ _ e2, ok_bind]
  | some p =>
    unfold delLeaf at hr
    unfold cDelLeaf
    obtain ⟨t1, e1, hr⟩ := Py.bind_ok hr
    obtain ⟨q, e2, hr⟩ := Py.bind_ok hr
    obtain ⟨t2, e3, hr⟩ := Py.bind_ok hr
    cases hr
    dsimp only
    rw [le_turn _ _ _ _ _ e1, ok_bind, le_slot _ o _ _ _ e2, ok_bind]
    dsimp only
    rw [le_updateSize _ _ _ _ e3, ok_bind]

theorem le_two (fuel : Nat) (t : BTree κ δ) (o w : Nat) : ∀ r, delTwo fuel t w = .ok r → cDelTwo fuel ⟨t, o⟩ w = .ok (⟨r.1, o⟩, r.2) := by
  intro r hr
  unfold delTwo at hr
  unfold cDelTwo
  obtain ⟨n, e1, hr⟩ := Py.bind_ok hr
  obtain ⟨x, e2, hr⟩ := Py.bind_ok hr
  obtain ⟨s, e3, hr⟩ := Py.bind_ok hr
  obtain ⟨m, e4, hr⟩ := Py.bind_ok hr
  obtain ⟨t1, e5, hr⟩ := Py.bind_ok hr
  have e3' := Le.while_ (c := succCond t) (c' := cSuccCond t) (b := succBody t) (b' := cSuccBody t)
    (fun s => (le_node t _).bind fun _ _ => .refl _) (fun s => (le_node t _).bind fun _ _ => (le_idx _).bind fun _ _ => .refl _) fuel _ _ e3
  dsimp only
  rw [le_node _ _ _ e1, ok_bind, le_idx _ _ e2, ok_bind, e3', ok_bind, le_node _ _ _ e4, ok_bind, le_mod _ _ _ _ e5, ok_bind]
  cases hf : s.flag with
  | true =>
    simp only [hf, if_true] at hr ⊢
    obtain ⟨t2, e6, hr⟩ := Py.bind_ok hr
    obtain ⟨t3, e7, hr⟩ := Py.bind_ok hr
    obtain ⟨q, e8, hr⟩ := Py.bind_ok hr
    obtain ⟨t4, e9, hr⟩ := Py.bind_ok hr
    cases hr
    rw [le_mod _ _ _ _ e6, ok_bind, le_modIf _ _ _ _ e7, ok_bind, le_slot _ o _ _ _ e8, ok_bind]
    dsimp only
    rw [le_updateSize _ _ _ _ e9, ok_bind]
  | false =>
    simp only [hf, Bool.false_eq_true, if_false] at hr ⊢
    obtain ⟨t2, e6, hr⟩ := Py.bind_ok hr
    obtain ⟨t3, e7, hr⟩ := Py.bind_ok hr
    obtain ⟨q, e8, hr⟩ := Py.bind_ok hr
    obtain ⟨t4, e9, hr⟩ := Py.bind_ok hr
    cases hr
    rw [le_mod _ _ _ _ e6, ok_bind, le_modIf _ _ _ _ e7, ok_bind, le_slot _ o _ _ _ e8, ok_bind]
    dsimp only
    rw [le_updateSize _ _ _ _ e9, ok_bind]

theorem le_oneRoot (t : BTree κ δ) (o x : Nat) : ∀ r, delOneRoot t x = .ok r → cDelOneRoot ⟨t, o⟩ x = .ok (⟨r.1, o⟩, r.2) := by
  intro r hr
  unfold delOneRoot at hr
  unfold cDelOneRoot
  obtain ⟨n, e1, hr⟩ := Py.bind_ok hr
  obtain ⟨t1, e2, hr⟩ := Py.bind_ok hr
  obtain ⟨⟨q1, q2⟩, e3, hr⟩ := Py.bind_ok hr
  dsimp only
  rw [le_node _ _ _ e1, ok_bind, le_mod _ _ _ _ e2, ok_bind, le_delete_at _ o _ _ e3, ok_bind]
  cases q2 with
  | none => cases hr; rfl
  | some ixs =>
    dsimp only at hr ⊢
    obtain ⟨root, e5, hr⟩ := Py.bind_ok hr
    cases hr
    rw [le_index _ _ _ e5, ok_bind]

end Props
