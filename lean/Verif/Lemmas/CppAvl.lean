import Verif.Model.CppAvl
import Verif.Lemmas.CppBst

/-!
# The C++ AVL tree follows the Python one
-/
namespace Props
open Py Model Model.Cpp Spec
set_option linter.unusedSectionVars false
variable {κ δ : Type} [DecidableEq κ]

/-- One step of a proof that the C++ code follows the Python code. -/
macro "le_one" : tactic => `(tactic| first
  | exact Le.refl _
  | exact Le.error
  | exact le_node _ _
  | exact le_idx _
  | exact le_mod _ _ _
  | exact le_modIf _ _ _
  | exact le_turn _ _ _ _
  | exact le_leftSize _ _
  | exact le_rightSize _ _
  | assumption
  | (refine Le.bind ?_ (fun _ _ => ?_)))

theorem le_hoist (t : BTree κ δ) (p : Option Nat) (j k : Nat) : Le (hoist t p j k) (cHoist t p j k) := by
  cases p with
  | none => exact .refl _
  | some p => exact le_turn t p j (some k)

theorem le_rightRotate (t : BTree κ δ) (j k : Nat) : Le (rightRotate t j k) (cRightRotate t j k) := by
  unfold rightRotate cRightRotate
  repeat' first | exact le_hoist _ _ _ _ | le_one

theorem le_leftRotate (t : BTree κ δ) (j k : Nat) : Le (leftRotate t j k) (cLeftRotate t j k) := by
  unfold leftRotate cLeftRotate
  repeat' first | exact le_hoist _ _ _ _ | le_one

theorem le_leftRightRotate (t : BTree κ δ) (j k : Nat) : Le (leftRightRotate t j k) (cLeftRightRotate t j k) := by
  unfold leftRightRotate cLeftRightRotate
  repeat' first | exact le_hoist _ _ _ _ | le_one

theorem le_rightLeftRotate (t : BTree κ δ) (j k : Nat) : Le (rightLeftRotate t j k) (cRightLeftRotate t j k) := by
  unfold rightLeftRotate cRightLeftRotate
  repeat' first | exact le_hoist _ _ _ _ | le_one

theorem le_heightOf (t : BTree κ δ) (o : Option Nat) : Le (heightOf t o) (cHeightOf t o) := by
  cases o with
  | none => exact .refl _
  | some i => exact (le_node t i).bind fun _ _ => .refl _

theorem le_balanceFactor (t : BTree κ δ) (w : Nat) : Le (balanceFactor t w) (cBalanceFactor t w) := by
  unfold balanceFactor cBalanceFactor
  repeat' first | exact le_heightOf _ _ | le_one

theorem le_reheight (t : BTree κ δ) (w : Nat) : Le (reheight t w) (cReheight t w) := by
  unfold reheight cReheight
  repeat' first | exact le_heightOf _ _ | le_one

theorem le_resizeIf (t : BTree κ δ) (w : Nat) : Le (resizeIf t w) (cResizeIf t w) := by
  unfold resizeIf cResizeIf
  split
  · unfold resize
    repeat' le_one
  · exact .refl _

theorem le_avlRight (t : BTree κ δ) (j k : Nat) : Le (avlRight t j k) (cAvlRight t j k) :=
  (le_rightRotate t j k).bind fun _ _ => (le_reheight _ _).bind fun _ _ => le_resizeIf _ _

theorem le_avlLeft (t : BTree κ δ) (j k : Nat) : Le (avlLeft t j k) (cAvlLeft t j k) :=
  (le_leftRotate t j k).bind fun _ _ => (le_reheight _ _).bind fun _ _ => (le_reheight _ _).bind fun _ _ => le_resizeIf _ _

theorem le_avlLeftRight (t : BTree κ δ) (j k : Nat) : Le (avlLeftRight t j k) (cAvlLeftRight t j k) :=
  (le_leftRightRotate t j k).bind fun _ _ => (le_reheight _ _).bind fun _ _ => (le_reheight _ _).bind fun _ _ => (le_resizeIf _ _).bind fun _ _ => le_resizeIf _ _

theorem le_avlRightLeft (t : BTree κ δ) (j k : Nat) : Le (avlRightLeft t j k) (cAvlRightLeft t j k) :=
  (le_rightLeftRotate t j k).bind fun _ _ => (le_reheight _ _).bind fun _ _ => (le_reheight _ _).bind fun _ _ => (le_resizeIf _ _).bind fun _ _ => le_resizeIf _ _

/-- The object is the one in the tree. -/
def _root_.Model.Cpp.PosObj.Known (o : PosObj) : Prop := o.fresh = true → o.pos ≤ 256

theorem sameObj_known {l : Option Nat} {o : Option PosObj} (h : ∀ x, o = some x → PosObj.Known x) : sameObj l o = decide (l = o.map PosObj.pos) := by
  cases o with
  | none => cases l <;> rfl
  | some x =>
    cases l with
    | none => rfl
    | some i =>
      have : (!x.fresh || decide (x.pos ≤ 256)) = true := by
        cases e : x.fresh with
        | false => rfl
        | true => simpa using h x rfl e
      simp only [sameObj, this, Bool.and_true, Option.map_some, Option.some.injEq]

theorem le_avlCase {t : BTree κ δ} {l : Option Nat} {last last2 : Option PosObj} {side : BNode κ δ → Option Nat} {f g : BTree κ δ → Nat → PyM (BTree κ δ)}
    (h1 : ∀ x, last = some x → PosObj.Known x) (h2 : ∀ x, last2 = some x → PosObj.Known x) (h : ∀ t k, Le (f t k) (g t k)) :
    Le (avlCase t l (last.map PosObj.pos) (last2.map PosObj.pos) side f) (cAvlCase t l last last2 side g) := by
  cases l with
  | none => exact .refl _
  | some i =>
    simp only [avlCase, cAvlCase, sameObj_known h1, sameObj_known h2, decide_eq_true_eq]
    split
    · refine (le_node t i).bind fun n _ => ?_
      split
      · exact h t i
      · exact .refl _
    · exact .refl _

theorem le_avlRebalance (t : BTree κ δ) (w : Nat) {last last2 : Option PosObj} (h1 : ∀ x, last = some x → PosObj.Known x)
    (h2 : ∀ x, last2 = some x → PosObj.Known x) :
    Le (avlRebalance t w (last.map PosObj.pos) (last2.map PosObj.pos)) (cAvlRebalance t w last last2) := by
  refine (le_node t w).bind fun n _ => (le_avlCase h1 h2 fun t k => le_avlRight t w k).bind fun t _ => (le_node t w).bind fun m _ =>
    (le_avlCase h1 h2 fun t k => le_avlLeft t w k).bind fun t _ => (le_avlCase h1 h2 fun t k => le_avlLeftRight t w k).bind fun t _ =>
    le_avlCase h1 h2 fun t k => le_avlRightLeft t w k

/-- The Python state. -/
def _root_.Model.Cpp.CAvlSt.py (s : CAvlSt κ δ) : AvlSt κ δ := ⟨s.t, s.walk, [s.path.1.map PosObj.pos, s.path.2.map PosObj.pos]⟩

theorem le_avlBody (s : CAvlSt κ δ) (h1 : ∀ x, s.path.1 = some x → PosObj.Known x) (h2 : ∀ x, s.path.2 = some x → PosObj.Known x) : ∀ r, avlBody s.py = .ok r →
    ∃ s', cAvlBody s = .ok s' ∧ r = s'.py ∧ (∀ x, s'.path.1 = some x → PosObj.Known x) ∧ ∀ x, s'.path.2 = some x → PosObj.Known x := by
  intro r hr
  unfold avlBody at hr
  unfold cAvlBody
  obtain ⟨w, e1, hr⟩ := Py.bind_ok hr
  obtain ⟨t1, e2, hr⟩ := Py.bind_ok hr
  obtain ⟨t2, e3, hr⟩ := Py.bind_ok hr
  obtain ⟨p, e4, hr⟩ := Py.bind_ok hr
  obtain ⟨b, e5, hr⟩ := Py.bind_ok hr
  cases e4
  dsimp only [CAvlSt.py] at e1 e2 e3 e5 hr
  rw [le_idx _ _ e1, ok_bind, le_reheight _ _ _ e2, ok_bind, le_resizeIf _ _ _ e3, ok_bind, le_balanceFactor _ _ _ e5, ok_bind]
  have key : ∀ t3, (getNode t3 w >>= fun n => Except.ok (⟨t3, n.parent, [some w, s.path.1.map PosObj.pos]⟩ : AvlSt κ δ)) = .ok r →
      ∃ s', (cNode t3 w >>= fun n => Except.ok (⟨t3, n.parent, some (linkObj w), s.path.1⟩ : CAvlSt κ δ)) = .ok s' ∧ r = s'.py ∧
        (∀ x, s'.path.1 = some x → PosObj.Known x) ∧ ∀ x, s'.path.2 = some x → PosObj.Known x := by
    intro t3 hr
    obtain ⟨n, e7, hr⟩ := Py.bind_ok hr
    cases hr
    rw [le_node _ _ _ e7, ok_bind]
    refine ⟨_, rfl, rfl, ?_, h1⟩
    intro x hx
    cases hx
    exact nofun
  by_cases hb : b = 1 ∨ b = 0 ∨ b = -1
  · rw [if_pos hb] at hr
    rw [if_pos hb]
    exact key _ hr
  · rw [if_neg hb] at hr
    rw [if_neg hb]
    obtain ⟨t3, e6, hr⟩ := Py.bind_ok hr
    rw [le_avlRebalance t2 w h1 h2 _ e6, ok_bind]
    exact key _ hr

theorem le_avlLoop : ∀ (fuel : Nat) (s : CAvlSt κ δ) (r : AvlSt κ δ), (∀ x, s.path.1 = some x → PosObj.Known x) → (∀ x, s.path.2 = some x → PosObj.Known x) →
    whileLoop fuel avlCond avlBody s.py = .ok r → ∃ s', whileLoop fuel cAvlCond cAvlBody s = .ok s' ∧ s'.t = r.t := by
  intro fuel
  induction fuel with
  | zero => intro s r _ _ h; cases h
  | succ fuel ih =>
    intro s r h1 h2 h
    rw [whileLoop] at h ⊢
    simp only [show cAvlCond s = .ok s.walk.isSome from rfl, show avlCond s.py = .ok s.walk.isSome from rfl, ok_bind] at h ⊢
    cases e : s.walk.isSome with
    | false =>
      rw [e] at h
      cases h
      exact ⟨s, rfl, rfl⟩
    | true =>
      rw [e] at h
      simp only [if_true] at h ⊢
      obtain ⟨q, eq, h⟩ := Py.bind_ok h
      obtain ⟨s', e1, rfl, e3, e4⟩ := le_avlBody s h1 h2 q eq
      obtain ⟨s2, e5, e6⟩ := ih s' r e3 e4 h
      exact ⟨s2, by rw [e1, ok_bind, e5], e6⟩

theorem le_avlBalance (fuel : Nat) (t : BTree κ δ) (x : Nat) (b : Bool) (o : Option Nat) (hx : x ≤ 256) :
    Le (avlBalance fuel t x o) (cAvlBalance fuel t ⟨x, b⟩ o) := by
  intro r hr
  unfold avlBalance at hr
  unfold cAvlBalance
  obtain ⟨s, e, hr⟩ := Py.bind_ok hr
  cases hr
  obtain ⟨s', e1, e2⟩ := le_avlLoop fuel ⟨t, o, some ⟨x, b⟩, o.map linkObj⟩ s (by intro y hy; cases hy; intro _; exact hx)
    (by
      intro y hy
      cases o with
      | none => cases hy
      | some i => cases hy; exact nofun)
    (by
      rw [← e]
      cases o <;> rfl)
  rw [e1, ok_bind, e2]

theorem le_avlDelRotate (t : BTree κ δ) (w : Nat) : Le (avlDelRotate t w) (cAvlDelRotate t w) := by
  refine (le_balanceFactor t w).bind fun f _ => (le_node t w).bind fun n _ => ?_
  split
  · refine (le_idx _).bind fun b _ => (le_balanceFactor t b).bind fun g _ => ?_
    split
    · exact le_avlRight _ _ _
    · exact le_avlLeftRight _ _ _
  · refine (le_idx _).bind fun b _ => (le_balanceFactor t b).bind fun g _ => ?_
    split
    · exact le_avlLeft _ _ _
    · exact le_avlRightLeft _ _ _

theorem le_avlDelBody (s : BTree κ δ × Option Nat) : Le (avlDelBody s) (cAvlDelBody s) := by
  refine (le_idx _).bind fun w _ => (le_reheight _ _).bind fun t _ => (le_resizeIf _ _).bind fun t _ => (le_balanceFactor t w).bind fun b _ =>
    ?_
  dsimp only
  split
  · exact (le_node _ _).bind fun _ _ => .refl _
  · exact (le_avlDelRotate _ _).bind fun _ _ => (le_node _ _).bind fun _ _ => .refl _

theorem le_avlBalanceDel (fuel : Nat) (t : BTree κ δ) (o : Option Nat) : Le (avlBalanceDel fuel t o) (cAvlBalanceDel fuel t o) :=
  (Le.while_ (fun _ => .refl _) le_avlDelBody fuel _).bind fun _ _ => .refl _

end Props
