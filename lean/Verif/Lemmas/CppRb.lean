import Verif.Model.CppRb
import Verif.Lemmas.CppLen

/-!
# The C++ red-black tree follows the Python one
-/
namespace Props
open Py Model Model.Cpp Spec
set_option linter.unusedSectionVars false
variable {κ δ : Type} [DecidableEq κ]

theorem isCol_ok {n : BNode κ δ} {c : Nat} {b : Bool} (h : isCol n c = .ok b) : b = decide (cColor n = c) := by
  unfold isCol at h
  unfold cColor
  cases e : n.color with
  | none => rw [e] at h; cases h
  | some x => rw [e] at h; cases h; rfl

theorem le_isCol (n : BNode κ δ) (c : Nat) : Le (isCol n c) (.ok (decide (cColor n = c))) := by
  intro b h
  rw [isCol_ok h]

theorem le_paint (t : BTree κ δ) (i c : Nat) : Le (paint t i c) (cPaint t i c) := le_mod _ _ _
theorem le_setRoot (t : BTree κ δ) (i : Nat) (b : Bool) : Le (setRoot t i b) (cSetRoot t i b) := le_mod _ _ _

theorem le_parent (t : BTree κ δ) (i : Nat) : Le (getParent t i) (cParent t i) := (le_node t i).bind fun _ _ => .refl _
theorem le_parentIdx (t : BTree κ δ) (i : Nat) : Le (getParentIdx t i) (cParentIdx t i) := (le_parent t i).bind fun _ _ => le_idx _

theorem le_sibling (t : BTree κ δ) (i : Nat) : Le (getSibling t i) (cSibling t i) := by
  refine (le_parent t i).bind fun p _ => ?_
  cases p with
  | none => exact .refl _
  | some p => exact (le_node t p).bind fun _ _ => .refl _

theorem le_uncle (t : BTree κ δ) (i : Nat) : Le (getUncle t i) (cUncle t i) := (le_parentIdx t i).bind fun _ _ => le_sibling _ _

theorem le_onLeft (t : BTree κ δ) (i : Nat) : Le (isOnLeft t i) (cOnLeft t i) := (le_parentIdx t i).bind fun _ _ => (le_node t _).bind fun _ _ => .refl _

theorem le_redAt (t : BTree κ δ) (o : Option Nat) : Le (isRedAt t o) (cRedAt t o) := by
  cases o with
  | none => exact .refl _
  | some u => exact (le_node t u).bind fun n _ => le_isCol n 1

theorem le_colorAt (t : BTree κ δ) (i : Nat) : Le (colorAt t i) (cColorAt t i) := by
  refine (le_node t i).bind fun n _ => ?_
  intro r h
  unfold cColor
  split at h
  · cases h
  · cases h; rename_i e; rw [e]; rfl

/-- One step for the red-black tree. -/
macro "le_rb" : tactic => `(tactic| first
  | exact le_paint _ _ _
  | exact le_setRoot _ _ _
  | exact le_parent _ _
  | exact le_parentIdx _ _
  | exact le_sibling _ _
  | exact le_uncle _ _
  | exact le_onLeft _ _
  | exact le_redAt _ _
  | exact le_colorAt _ _
  | exact le_rightRotate _ _ _
  | exact le_leftRotate _ _ _
  | le_one)

theorem le_rbTurnRight (t : BTree κ δ) (i p : Nat) : Le (rbTurnRight t i p) (cRbTurnRight t i p) := by
  refine (le_onLeft t i).bind fun onl _ => ?_
  dsimp only
  split <;> repeat' le_rb

theorem le_rbTurnLeft (t : BTree κ δ) (i p : Nat) : Le (rbTurnLeft t i p) (cRbTurnLeft t i p) := by
  refine (le_onLeft t i).bind fun onl _ => ?_
  dsimp only
  split <;> repeat' le_rb

theorem le_rbRecolor (t : BTree κ δ) (u : Option Nat) (p : Nat) (g : Option Nat) : Le (rbRecolor t u p g) (cRbRecolor t u p g) := by
  unfold rbRecolor cRbRecolor
  repeat' le_rb

theorem le_rbRotate (t : BTree κ δ) (i p : Nat) : Le (rbRotate t i p) (cRbRotate t i p) := by
  refine (le_setRoot _ _ _).bind fun t _ => (le_onLeft _ _).bind fun onl _ => ?_
  dsimp only
  split
  · refine (le_rbTurnLeft _ _ _).bind fun m _ => ?_
    repeat' le_rb
  · refine (le_rbTurnRight _ _ _).bind fun m _ => ?_
    repeat' le_rb

theorem le_rbCond (s : RbSt κ δ) : Le (rbCond s) (cRbCond s) := by
  unfold rbCond cRbCond
  split
  · exact .refl _
  · refine (le_node _ _).bind fun n _ => ?_
    cases hp : n.parent with
    | none => exact .refl _
    | some p =>
      refine (le_node _ _).bind fun m _ => ?_
      intro r h
      obtain ⟨b, e, h⟩ := Py.bind_ok h
      rw [isCol_ok e] at h
      split at h
      · rename_i hb
        rw [isCol_ok h, hb, Bool.true_and]
      · rename_i hb
        cases h
        rw [show decide (cColor m = 1) = false from by simpa using hb]
        rfl

theorem le_rbBody (s : RbSt κ δ) : Le (rbBody s) (cRbBody s) := by
  refine (le_parentIdx _ _).bind fun p _ => (le_parent _ _).bind fun g _ => (le_uncle _ _).bind fun u _ => (le_redAt _ _).bind fun red _ => ?_
  dsimp only
  split
  · exact (le_rbRecolor _ _ _ _).bind fun m _ => (le_node _ _).bind fun _ _ => .refl _
  · exact (le_rbRotate _ _ _).bind fun m _ => (le_node _ _).bind fun _ _ => .refl _

theorem le_rbFix (fuel : Nat) (t : BTree κ δ) (i : Nat) : Le (rbFix fuel t i) (cRbFix fuel t i) :=
  (Le.while_ le_rbCond le_rbBody fuel _).bind fun _ _ => le_paint _ _ _

/-! ## The bookkeeping of the array -/

theorem steady_paint (t : BTree κ δ) (i c : Nat) : Steady t (paint t i c) := steady_mod _ _ _
theorem steady_setRoot (t : BTree κ δ) (i : Nat) (b : Bool) : Steady t (setRoot t i b) := steady_mod _ _ _

/-- The same bookkeeping, for a computation that also returns other things. -/
def SteadyM {α : Type} (p : α → BTree κ δ) (t : BTree κ δ) (x : PyM α) : Prop := ∀ r, x = .ok r → SameLen t (p r)

theorem SteadyM.read {α β : Type} {p : α → BTree κ δ} {t : BTree κ δ} {x : PyM β} {k : β → PyM α} (h : ∀ a, SteadyM p t (k a)) : SteadyM p t (x >>= k) := by
  intro r e
  obtain ⟨a, _, e⟩ := Py.bind_ok e
  exact h a r e

theorem SteadyM.write {α : Type} {p : α → BTree κ δ} {t s : BTree κ δ} {x : PyM (BTree κ δ)} {k : BTree κ δ → PyM α} (hs : SameLen t s) (hx : Steady s x)
    (h : ∀ s', SameLen t s' → SteadyM p t (k s')) : SteadyM p t (x >>= k) := by
  intro r e
  obtain ⟨a, e1, e⟩ := Py.bind_ok e
  exact h a (hs.trans (hx a e1)) r e

theorem SteadyM.writeM {α β : Type} {p : α → BTree κ δ} {q : β → BTree κ δ} {t s : BTree κ δ} {x : PyM β} {k : β → PyM α} (hs : SameLen t s) (hx : SteadyM q s x)
    (h : ∀ b, SameLen t (q b) → SteadyM p t (k b)) : SteadyM p t (x >>= k) := by
  intro r e
  obtain ⟨a, e1, e⟩ := Py.bind_ok e
  exact h a (hs.trans (hx a e1)) r e

theorem SteadyM.ok {α : Type} {p : α → BTree κ δ} {t : BTree κ δ} {a : α} (h : SameLen t (p a)) : SteadyM p t (.ok a) := by
  intro r e; cases e; exact h

theorem steadyM_turnRight (t : BTree κ δ) (i p : Nat) : SteadyM RbMove.t t (rbTurnRight t i p) := by
  refine .read fun onl => ?_
  dsimp only
  split
  · refine .write (.refl t) (steady_rightRotate _ _ _) fun s h => .read fun q => .writeM (q := RbMove.t) h (.ok (.refl s)) fun _ h => ?_
    exact .read fun _ => .write h (steady_leftRotate _ _ _) fun _ h => .ok h
  · exact .writeM (q := RbMove.t) (.refl t) (.ok (.refl t)) fun _ h => .read fun _ => .write h (steady_leftRotate _ _ _) fun _ h => .ok h

theorem steadyM_turnLeft (t : BTree κ δ) (i p : Nat) : SteadyM RbMove.t t (rbTurnLeft t i p) := by
  refine .read fun onl => ?_
  dsimp only
  split
  · exact .writeM (q := RbMove.t) (.refl t) (.ok (.refl t)) fun _ h => .read fun _ => .write h (steady_rightRotate _ _ _) fun _ h => .ok h
  · refine .write (.refl t) (steady_leftRotate _ _ _) fun s h => .read fun q => .writeM (q := RbMove.t) h (.ok (.refl s)) fun _ h => ?_
    exact .read fun _ => .write h (steady_rightRotate _ _ _) fun _ h => .ok h

theorem steadyM_recolor (t : BTree κ δ) (u : Option Nat) (p : Nat) (g : Option Nat) : SteadyM RbMove.t t (rbRecolor t u p g) :=
  .read fun _ => .write (.refl t) (steady_paint _ _ _) fun _ h => .write h (steady_paint _ _ _) fun _ h => .read fun _ => .write h (steady_paint _ _ _) fun _ h => .ok h

theorem steadyM_rotate (t : BTree κ δ) (i p : Nat) : SteadyM RbMove.t t (rbRotate t i p) := by
  refine .write (.refl t) (steady_setRoot _ _ _) fun s h => .read fun onl => ?_
  dsimp only
  split
  · exact .writeM h (steadyM_turnLeft _ _ _) fun _ h => .write h (steady_paint _ _ _) fun _ h => .write h (steady_paint _ _ _) fun _ h => .write h (steady_setRoot _ _ _) fun _ h => .ok h
  · exact .writeM h (steadyM_turnRight _ _ _) fun _ h => .write h (steady_paint _ _ _) fun _ h => .write h (steady_paint _ _ _) fun _ h => .write h (steady_setRoot _ _ _) fun _ h => .ok h

theorem steadyM_rbBody (s : RbSt κ δ) : SteadyM RbSt.t s.t (rbBody s) := by
  refine .read fun p => .read fun g => .read fun u => .read fun red => ?_
  dsimp only
  split
  · exact .writeM (.refl _) (steadyM_recolor _ _ _ _) fun _ h => .read fun _ => .ok h
  · exact .writeM (.refl _) (steadyM_rotate _ _ _) fun _ h => .read fun _ => .ok h

theorem steady_rbFix (fuel : Nat) (t : BTree κ δ) (i : Nat) : Steady t (rbFix fuel t i) := by
  intro r h
  obtain ⟨s, e, h⟩ := Py.bind_ok h
  have := while_inv (fun s => SameLen t s.t) (fun s s' hs hb => hs.trans (steadyM_rbBody s s' hb)) fuel ⟨t, i, false⟩ _ (SameLen.refl t) e
  exact this.trans (steady_paint _ _ _ _ h)

theorem onC_len {t r : BTree κ δ} (h : SameLen t r) : (⟨r, t.arr.length⟩ : CTree κ δ) = onC r := by
  unfold onC
  rw [h.1]

/-- `insert`, given that the insertion into the binary search tree follows. -/
theorem le_rbInsert {lt : κ → κ → Bool} {fuel : Nat} {t t1 t2 : BTree κ δ} {k : κ} {d : Option δ}
    (h1 : bstInsert lt fuel t k d = .ok t1) (h2 : rbInsert lt fuel t k d = .ok t2)
    (hc : cInsert (ofLt lt) fuel (onC t) k d = .ok (onC t1)) : cRbInsert (ofLt lt) fuel (onC t) k d = .ok (onC t2) := by
  simp only [rbInsert, h1, ok_bind] at h2
  obtain ⟨r, e1, h2⟩ := Py.bind_ok h2
  obtain ⟨i, e2, h2⟩ := Py.bind_ok h2
  obtain ⟨n, e3, h2⟩ := Py.bind_ok h2
  obtain ⟨t3, e4, h2⟩ := Py.bind_ok h2
  simp only [cRbInsert, hc, ok_bind, show (onC t1).t = t1 from rfl, le_search _ _ _ _ _ e1, le_idx _ _ e2, le_node _ _ _ e3, le_mod _ _ _ _ e4]
  have h3 : SameLen t1 t3 := steady_mod _ _ _ _ e4
  split at h2
  · rename_i hr
    obtain ⟨t4, e5, h2⟩ := Py.bind_ok h2
    rw [if_pos hr, le_setRoot _ _ _ _ e5, ok_bind, le_paint _ _ _ _ h2, ok_bind]
    have := (h3.trans (steady_setRoot _ _ _ _ e5)).trans (steady_paint _ _ _ _ h2)
    exact congrArg Except.ok (onC_len this)
  · rename_i hr
    obtain ⟨m, e5, h2⟩ := Py.bind_ok h2
    obtain ⟨b, e6, h2⟩ := Py.bind_ok h2
    obtain ⟨p, hp⟩ : ∃ p, n.parent = some p := by
      cases hp : n.parent with
      | none => rw [hp] at e5; cases e5
      | some p => exact ⟨p, rfl⟩
    rw [hp] at e5
    rw [if_neg hr, hp]
    simp only [cIdx, ok_bind, le_node _ _ _ (show getNode t3 p = .ok m from e5)]
    rw [isCol_ok e6] at h2
    split at h2
    · rename_i hb
      rw [if_pos (by simpa using hb), le_rbFix _ _ _ _ h2, ok_bind]
      exact congrArg Except.ok (onC_len (h3.trans (steady_rbFix _ _ _ _ h2)))
    · rename_i hb
      rw [if_neg (by simpa using hb)]
      cases h2
      exact congrArg Except.ok (onC_len h3)

end Props
