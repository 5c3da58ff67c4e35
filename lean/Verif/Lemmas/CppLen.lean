import Verif.Lemmas.CppAvl

/-!
# Rotations and balancing leave the bookkeeping of the array alone
-/
namespace Props
open Py Model Model.Cpp
set_option linter.unusedSectionVars false
variable {κ δ : Type}

/-- The same array length, counters and size. -/
def SameLen (t r : BTree κ δ) : Prop := r.arr.length = t.arr.length ∧ r.num = t.num ∧ r.top = t.top ∧ r.size = t.size

theorem SameLen.refl (t : BTree κ δ) : SameLen t t := ⟨rfl, rfl, rfl, rfl⟩
theorem SameLen.trans {a b c : BTree κ δ} (h : SameLen a b) (g : SameLen b c) : SameLen a c :=
  ⟨g.1.trans h.1, g.2.1.trans h.2.1, g.2.2.1.trans h.2.2.1, g.2.2.2.trans h.2.2.2⟩

/-- Whatever the computation returns has the same bookkeeping as `t`. -/
def Steady (t : BTree κ δ) (x : PyM (BTree κ δ)) : Prop := ∀ r, x = .ok r → SameLen t r

theorem Steady.ok {t s : BTree κ δ} (h : SameLen t s) : Steady t (.ok s) := by
  intro r e; cases e; exact h

theorem Steady.err {t : BTree κ δ} (e : PyErr) : Steady t (.error e) := nofun

theorem Steady.read {α : Type} {t : BTree κ δ} {x : PyM α} {k : α → PyM (BTree κ δ)} (h : ∀ a, Steady t (k a)) : Steady t (x >>= k) := by
  intro r e
  obtain ⟨a, _, e⟩ := Py.bind_ok e
  exact h a r e

theorem Steady.write {t s : BTree κ δ} {x : PyM (BTree κ δ)} {k : BTree κ δ → PyM (BTree κ δ)} (hs : SameLen t s) (hx : Steady s x)
    (h : ∀ s', SameLen t s' → Steady t (k s')) : Steady t (x >>= k) := by
  intro r e
  obtain ⟨a, e1, e⟩ := Py.bind_ok e
  exact h a (hs.trans (hx a e1)) r e

theorem Steady.from {t s : BTree κ δ} {x : PyM (BTree κ δ)} (h : SameLen t s) (hx : Steady s x) : Steady t x := fun r e => h.trans (hx r e)

theorem Steady.ite {t : BTree κ δ} {c : Prop} [Decidable c] {x y : PyM (BTree κ δ)} (hx : Steady t x) (hy : Steady t y) : Steady t (if c then x else y) := by
  split <;> assumption

theorem steady_mod [DecidableEq κ] (t : BTree κ δ) (i : Nat) (f : BNode κ δ → BNode κ δ) : Steady t (modNode t i f) := by
  intro r h
  obtain ⟨h1, h2, h3, _, h5⟩ := mod_len h
  exact ⟨h1, h2, h3, h5⟩

theorem steady_modIf [DecidableEq κ] (t : BTree κ δ) (o : Option Nat) (f : BNode κ δ → BNode κ δ) : Steady t (modIf t o f) := by
  intro r h
  obtain ⟨h1, h2, h3, _, h5⟩ := modIf_len h
  exact ⟨h1, h2, h3, h5⟩

theorem steady_relink [DecidableEq κ] (t : BTree κ δ) (p w : Nat) (x : Option Nat) : Steady t (relink t p w x) :=
  .read fun _ => .ite (steady_mod _ _ _) (steady_mod _ _ _)

theorem steady_hoist [DecidableEq κ] (t : BTree κ δ) (p : Option Nat) (j k : Nat) : Steady t (hoist t p j k) := by
  cases p with
  | none => exact .ok ⟨rfl, rfl, rfl, rfl⟩
  | some p => exact steady_relink _ _ _ _

/-- Closes goals about straight-line code. -/
macro "steady" : tactic => `(tactic| repeat' (first
  | exact SameLen.refl _
  | assumption
  | exact Steady.from ‹_› (steady_mod _ _ _)
  | exact Steady.from ‹_› (steady_modIf _ _ _)
  | exact Steady.from ‹_› (steady_hoist _ _ _ _)
  | exact Steady.from ‹_› (steady_relink _ _ _ _)
  | exact steady_mod _ _ _
  | exact steady_modIf _ _ _
  | exact steady_hoist _ _ _ _
  | exact steady_relink _ _ _ _
  | (refine Steady.write ?_ (steady_mod _ _ _) fun _ _ => ?_)
  | (refine Steady.write ?_ (steady_modIf _ _ _) fun _ _ => ?_)
  | (refine Steady.write ?_ (steady_hoist _ _ _ _) fun _ _ => ?_)
  | (refine Steady.write ?_ (steady_relink _ _ _ _) fun _ _ => ?_)
  | (refine Steady.read fun _ => ?_)))

variable [DecidableEq κ]

theorem steady_rightRotate (t : BTree κ δ) (j k : Nat) : Steady t (rightRotate t j k) := by unfold rightRotate; steady
theorem steady_leftRotate (t : BTree κ δ) (j k : Nat) : Steady t (leftRotate t j k) := by unfold leftRotate; steady
theorem steady_leftRightRotate (t : BTree κ δ) (j k : Nat) : Steady t (leftRightRotate t j k) := by unfold leftRightRotate; steady
theorem steady_rightLeftRotate (t : BTree κ δ) (j k : Nat) : Steady t (rightLeftRotate t j k) := by unfold rightLeftRotate; steady
theorem steady_reheight (t : BTree κ δ) (j : Nat) : Steady t (reheight t j) := by unfold reheight; steady

theorem steady_resizeIf (t : BTree κ δ) (j : Nat) : Steady t (resizeIf t j) := by
  unfold resizeIf resize
  split
  · steady
  · exact .ok (.refl t)

theorem steady_avlRight (t : BTree κ δ) (j k : Nat) : Steady t (avlRight t j k) :=
  .write (.refl t) (steady_rightRotate _ _ _) fun _ h => .write h (steady_reheight _ _) fun _ h => .from h (steady_resizeIf _ _)

theorem steady_avlLeft (t : BTree κ δ) (j k : Nat) : Steady t (avlLeft t j k) :=
  .write (.refl t) (steady_leftRotate _ _ _) fun _ h => .write h (steady_reheight _ _) fun _ h => .write h (steady_reheight _ _) fun _ h => .from h (steady_resizeIf _ _)

theorem steady_avlLeftRight (t : BTree κ δ) (j k : Nat) : Steady t (avlLeftRight t j k) :=
  .write (.refl t) (steady_leftRightRotate _ _ _) fun _ h => .write h (steady_reheight _ _) fun _ h => .write h (steady_reheight _ _) fun _ h =>
    .write h (steady_resizeIf _ _) fun _ h => .from h (steady_resizeIf _ _)

theorem steady_avlRightLeft (t : BTree κ δ) (j k : Nat) : Steady t (avlRightLeft t j k) :=
  .write (.refl t) (steady_rightLeftRotate _ _ _) fun _ h => .write h (steady_reheight _ _) fun _ h => .write h (steady_reheight _ _) fun _ h =>
    .write h (steady_resizeIf _ _) fun _ h => .from h (steady_resizeIf _ _)

theorem steady_avlDelRotate (t : BTree κ δ) (w : Nat) : Steady t (avlDelRotate t w) := by
  refine .read fun _ => .read fun _ => ?_
  split
  · exact .read fun _ => .read fun _ => .ite (steady_avlRight _ _ _) (steady_avlLeftRight _ _ _)
  · exact .read fun _ => .read fun _ => .ite (steady_avlLeft _ _ _) (steady_avlRightLeft _ _ _)

theorem steady_avlBalanceDel (fuel : Nat) (t : BTree κ δ) (o : Option Nat) : Steady t (avlBalanceDel fuel t o) := by
  intro r h
  obtain ⟨s, e, h⟩ := Py.bind_ok h
  cases h
  refine while_inv (fun s => SameLen t s.1) ?_ fuel _ _ (SameLen.refl t) e
  intro s s' hs hb
  obtain ⟨w, _, hb⟩ := Py.bind_ok hb
  obtain ⟨t1, e1, hb⟩ := Py.bind_ok hb
  obtain ⟨t2, e2, hb⟩ := Py.bind_ok hb
  obtain ⟨b, _, hb⟩ := Py.bind_ok hb
  have h2 : SameLen t t2 := (hs.trans (steady_reheight _ _ _ e1)).trans (steady_resizeIf _ _ _ e2)
  dsimp only at hb
  split at hb
  · obtain ⟨t3, e3, hb⟩ := Py.bind_ok hb
    cases e3
    obtain ⟨n, _, hb⟩ := Py.bind_ok hb
    cases hb
    exact h2
  · obtain ⟨t3, e3, hb⟩ := Py.bind_ok hb
    obtain ⟨n, _, hb⟩ := Py.bind_ok hb
    cases hb
    exact h2.trans (steady_avlDelRotate _ _ _ e3)

theorem steady_avlCase {t : BTree κ δ} {l last last2 : Option Nat} {side : BNode κ δ → Option Nat} {f : BTree κ δ → Nat → PyM (BTree κ δ)}
    (h : ∀ t k, Steady t (f t k)) : Steady t (avlCase t l last last2 side f) := by
  cases l with
  | none => exact .ok (.refl t)
  | some i => exact .ite (.read fun _ => .ite (h _ _) (.ok (.refl t))) (.ok (.refl t))

theorem steady_avlRebalance (t : BTree κ δ) (w : Nat) (a b : Option Nat) : Steady t (avlRebalance t w a b) :=
  .read fun _ => .write (.refl t) (steady_avlCase fun _ _ => steady_avlRight _ _ _) fun _ h => .read fun _ =>
    .write h (steady_avlCase fun _ _ => steady_avlLeft _ _ _) fun _ h => .write h (steady_avlCase fun _ _ => steady_avlLeftRight _ _ _) fun _ h =>
    .from h (steady_avlCase fun _ _ => steady_avlRightLeft _ _ _)

theorem steady_avlBalance (fuel : Nat) (t : BTree κ δ) (x : Nat) (o : Option Nat) : Steady t (avlBalance fuel t x o) := by
  intro r h
  obtain ⟨s, e, h⟩ := Py.bind_ok h
  cases h
  refine while_inv (fun s => SameLen t s.t) ?_ fuel _ _ (SameLen.refl t) e
  intro s s' hs hb
  obtain ⟨w, _, hb⟩ := Py.bind_ok hb
  obtain ⟨t1, e1, hb⟩ := Py.bind_ok hb
  obtain ⟨t2, e2, hb⟩ := Py.bind_ok hb
  obtain ⟨p, _, hb⟩ := Py.bind_ok hb
  obtain ⟨b, _, hb⟩ := Py.bind_ok hb
  have h2 : SameLen t t2 := (hs.trans (steady_reheight _ _ _ e1)).trans (steady_resizeIf _ _ _ e2)
  dsimp only at hb
  split at hb
  · obtain ⟨t3, e3, hb⟩ := Py.bind_ok hb
    cases e3
    obtain ⟨n, _, hb⟩ := Py.bind_ok hb
    cases hb
    exact h2
  · obtain ⟨t3, e3, hb⟩ := Py.bind_ok hb
    obtain ⟨n, _, hb⟩ := Py.bind_ok hb
    cases hb
    exact h2.trans (steady_avlRebalance _ _ _ _ _ e3)

/-- Where the Python method succeeds and the new object is the one the interpreter keeps, so does the C++ method. -/
theorem le_avlInsert {lt : κ → κ → Bool} {fuel : Nat} {t t1 t2 : BTree κ δ} {k : κ} {d : Option δ}
    (h1 : bstInsert lt fuel t k d = .ok t1) (h2 : avlInsert lt fuel t k d = .ok t2) (hs : t1.size - 1 ≤ 256)
    (hc : cInsert (ofLt lt) fuel (onC t) k d = .ok (onC t1)) : cAvlInsert (ofLt lt) fuel (onC t) k d = .ok (onC t2) := by
  simp only [avlInsert, h1, ok_bind] at h2
  obtain ⟨n, e1, h2⟩ := Py.bind_ok h2
  simp only [cAvlInsert, hc, ok_bind, show (onC t1).t = t1 from rfl, le_node _ _ _ e1, le_avlBalance fuel t1 _ true _ hs _ h2]
  simp only [onC, (steady_avlBalance _ _ _ _ _ h2).1]

/-- `delete` with the balancing information, without a contraction. -/
theorem le_deleteInfo (lt : κ → κ → Bool) (fuel : Nat) (t : BTree κ δ) (k : κ)
    (hg : t.arr.length ≤ 4 * (t.num - 1) ∨ bstSearch lt fuel t k = .ok none ∨
      ∃ w n, bstSearchP lt fuel t k = .ok (some (some w, none)) ∧ getNode t w = .ok n ∧ n.left = none ∧ n.right = none) : ∀ r,
    bstDeleteInfo lt fuel t k = .ok r → cBstDeleteInfo (ofLt lt) fuel (onC t) k = .ok (onC r.1, r.2.1) := by
  intro r e
  unfold bstDeleteInfo at e
  unfold cBstDeleteInfo
  obtain ⟨o, e1, e⟩ := Py.bind_ok e
  rw [show (onC t).t = t from rfl, le_searchP _ _ _ _ _ e1, ok_bind]
  match o, e1, e with
  | none, _, e => cases e
  | some (none, _), _, e => cases e; rfl
  | some (some w, p), e1, e =>
    dsimp only at e ⊢
    obtain ⟨n, e2, e⟩ := Py.bind_ok e
    obtain ⟨s, e3, e⟩ := Py.bind_ok e
    cases e
    rw [le_node _ _ _ e2, ok_bind]
    unfold delCases at e3
    unfold cDelCases
    rcases hg with hg | hg | ⟨w', n', g1, g2, g3, g4⟩
    · cases hl : n.left with
      | none => cases hr : n.right with
        | none => rw [hl, hr] at e3; exact le_delLeaf fuel t w p (.inr hg) _ e3
        | some x =>
          rw [hl, hr] at e3
          cases p with
          | none => exact le_delOneRoot t _ hg _ e3
          | some p => exact le_delOneInner fuel t w _ _ hg _ e3
      | some y => cases hr : n.right with
        | none =>
          rw [hl, hr] at e3
          cases p with
          | none => exact le_delOneRoot t _ hg _ e3
          | some p => exact le_delOneInner fuel t w _ _ hg _ e3
        | some x => rw [hl, hr] at e3; exact le_delTwo fuel t w hg _ e3
    · simp only [bstSearch, e1, ok_bind] at hg
      cases hg
    · rw [e1] at g1
      cases g1
      rw [e2] at g2
      cases g2
      rw [g3, g4] at e3 ⊢
      exact le_delLeaf fuel t w none (.inl rfl) _ e3

theorem le_avlDelete (lt : κ → κ → Bool) (fuel : Nat) (t : BTree κ δ) (k : κ)
    (hg : t.arr.length ≤ 4 * (t.num - 1) ∨ bstSearch lt fuel t k = .ok none ∨
      ∃ w n, bstSearchP lt fuel t k = .ok (some (some w, none)) ∧ getNode t w = .ok n ∧ n.left = none ∧ n.right = none) : ∀ r,
    avlDelete lt fuel t k = .ok r → cAvlDelete (ofLt lt) fuel (onC t) k = .ok (onC r.1, r.2) := by
  intro r hr
  unfold avlDelete at hr
  unfold cAvlDelete
  obtain ⟨q, e1, hr⟩ := Py.bind_ok hr
  obtain ⟨t', e2, hr⟩ := Py.bind_ok hr
  cases hr
  rw [le_deleteInfo lt fuel t k hg _ e1, ok_bind]
  dsimp only
  rw [show (onC q.1).t = q.1 from rfl, le_avlBalanceDel _ _ _ _ e2, ok_bind]
  simp only [onC, (steady_avlBalanceDel _ _ _ _ e2).1]

end Props
