import Verif.Model.RedBlack
import Verif.Props.Cartesian

/-!
# Lemmas about red-black insertion
-/
namespace Props
open Py Model Spec
set_option linter.unusedSectionVars false
variable {κ δ : Type} [DecidableEq κ]

/-- The colour stored at a position (0 black, 1 red). -/
def colOf (h : Cells κ δ) (i : Nat) : Option Nat := (h i).bind BNode.color

/-- The root mark stored at a position. -/
def flagOf (h : Cells κ δ) (i : Nat) : Option Bool := (h i).map BNode.isRoot

/-- The tree is empty or has a black root. -/
def BlackRoot (h : Cells κ δ) (T : Shape) : Prop := ∀ i, T.root = some i → colOf h i = some 0

/-- A red node has no red child. -/
def RedOk (h : Cells κ δ) : Shape → Prop
  | .leaf => True
  | .node l i r => (colOf h i = some 1 → BlackRoot h l ∧ BlackRoot h r) ∧ RedOk h l ∧ RedOk h r

/-- What a node adds to the black height. -/
def blk (h : Cells κ δ) (i : Nat) : Nat := if colOf h i = some 0 then 1 else 0

/-- Every path from the root to an empty subtree passes `n` black nodes. -/
def BlackHeight (h : Cells κ δ) : Shape → Nat → Prop
  | .leaf, n => n = 0
  | .node l i r, n => ∃ m, BlackHeight h l m ∧ BlackHeight h r m ∧ n = m + blk h i

/-- Same as `RedOk`, around a hole; `hb` says that the root of the filling is black. -/
def RedAround (h : Cells κ δ) : Around → Prop → Prop
  | [], _ => True
  | f :: c, hb => (colOf h f.idx = some 1 → hb ∧ BlackRoot h f.other) ∧ RedOk h f.other ∧ RedAround h c (colOf h f.idx = some 0)

/-- Same as `BlackHeight`, around a hole filled with a tree of black height `n`. -/
def BlackAround (h : Cells κ δ) : Around → Nat → Prop
  | [], _ => True
  | f :: c, n => BlackHeight h f.other n ∧ BlackAround h c (n + blk h f.idx)

theorem RedAround.mono {h : Cells κ δ} {c : Around} {p q : Prop} (hpq : p → q) (H : RedAround h c p) : RedAround h c q := by
  cases c with
  | nil => trivial
  | cons f c => exact ⟨fun e => ⟨hpq (H.1 e).1, (H.1 e).2⟩, H.2⟩

theorem blackRoot_node {h : Cells κ δ} {l r : Shape} {i : Nat} : BlackRoot h (.node l i r) ↔ colOf h i = some 0 := by
  constructor
  · intro H; exact H i rfl
  · intro H j hj; cases hj; exact H

theorem redOk_plug {h : Cells κ δ} : ∀ {c : Around} {S : Shape}, RedOk h (Around.plug c S) ↔ RedAround h c (BlackRoot h S) ∧ RedOk h S := by
  intro c
  induction c with
  | nil => intro S; simp [Around.plug, RedAround]
  | cons f c ih =>
    intro S
    cases f with
    | inL i r =>
      show RedOk h (Around.plug c (.node S i r)) ↔ _
      rw [ih]
      simp only [RedAround, RedOk, blackRoot_node, Frame.idx, Frame.other]
      constructor
      · rintro ⟨a, b, c, d⟩; exact ⟨⟨b, d, a⟩, c⟩
      · rintro ⟨⟨b, d, a⟩, c⟩; exact ⟨a, b, c, d⟩
    | inR l i =>
      show RedOk h (Around.plug c (.node l i S)) ↔ _
      rw [ih]
      simp only [RedAround, RedOk, blackRoot_node, Frame.idx, Frame.other]
      constructor
      · rintro ⟨a, b, c, d⟩; exact ⟨⟨fun e => (b e).symm, c, a⟩, d⟩
      · rintro ⟨⟨b, d, a⟩, c⟩; exact ⟨a, fun e => (b e).symm, d, c⟩

theorem black_plug {h : Cells κ δ} : ∀ {c : Around} {S : Shape}, (∃ N, BlackHeight h (Around.plug c S) N) ↔ ∃ n, BlackHeight h S n ∧ BlackAround h c n := by
  intro c
  induction c with
  | nil => intro S; simp [Around.plug, BlackAround]
  | cons f c ih =>
    intro S
    cases f with
    | inL i r =>
      show (∃ N, BlackHeight h (Around.plug c (.node S i r)) N) ↔ _
      rw [ih]
      simp only [BlackHeight, BlackAround, Frame.idx, Frame.other]
      constructor
      · rintro ⟨n, ⟨m, a, b, rfl⟩, c⟩; exact ⟨m, a, b, c⟩
      · rintro ⟨m, a, b, c⟩; exact ⟨_, ⟨m, a, b, rfl⟩, c⟩
    | inR l i =>
      show (∃ N, BlackHeight h (Around.plug c (.node l i S)) N) ↔ _
      rw [ih]
      simp only [BlackHeight, BlackAround, Frame.idx, Frame.other]
      constructor
      · rintro ⟨n, ⟨m, a, b, rfl⟩, c⟩; exact ⟨m, b, a, c⟩
      · rintro ⟨m, a, b, c⟩; exact ⟨_, ⟨m, b, a, rfl⟩, c⟩

theorem blackRoot_congr {h h' : Cells κ δ} {T : Shape} (e : ∀ i ∈ T.ids, colOf h' i = colOf h i) (H : BlackRoot h T) : BlackRoot h' T :=
  fun i hi => by rw [e i (Shape.root_mem hi)]; exact H i hi

theorem redOk_congr {h h' : Cells κ δ} : ∀ {T : Shape}, (∀ i ∈ T.ids, colOf h' i = colOf h i) → RedOk h T → RedOk h' T := by
  intro T
  induction T with
  | leaf => intros; trivial
  | node l i r ih1 ih2 =>
    rintro e ⟨h1, h2, h3⟩
    have el : ∀ j ∈ l.ids, colOf h' j = colOf h j := fun j hj => e j (by simp [Shape.ids, hj])
    have er : ∀ j ∈ r.ids, colOf h' j = colOf h j := fun j hj => e j (by simp [Shape.ids, hj])
    refine ⟨fun hi => ?_, ih1 el h2, ih2 er h3⟩
    rw [e i (by simp [Shape.ids])] at hi
    exact ⟨blackRoot_congr el (h1 hi).1, blackRoot_congr er (h1 hi).2⟩

theorem blackHeight_congr {h h' : Cells κ δ} : ∀ {T : Shape} {n : Nat}, (∀ i ∈ T.ids, colOf h' i = colOf h i) → BlackHeight h T n → BlackHeight h' T n := by
  intro T
  induction T with
  | leaf => intro n _ H; exact H
  | node l i r ih1 ih2 =>
    rintro n e ⟨m, h1, h2, h3⟩
    refine ⟨m, ih1 (fun j hj => e j (by simp [Shape.ids, hj])) h1, ih2 (fun j hj => e j (by simp [Shape.ids, hj])) h2, ?_⟩
    rw [h3, blk, blk, e i (by simp [Shape.ids])]

theorem frame_ids {f : Frame} {c : Around} {j : Nat} : j ∈ Around.before (f :: c) ++ Around.after (f :: c) ↔
    j = f.idx ∨ j ∈ f.other.ids ∨ j ∈ Around.before c ++ Around.after c := by
  cases f <;> simp only [Around.before, Around.after, Frame.idx, Frame.other, List.mem_append, List.mem_cons] <;> constructor <;> intro h <;> grind

theorem redAround_congr {h h' : Cells κ δ} : ∀ {c : Around} {p : Prop}, (∀ i ∈ Around.before c ++ Around.after c, colOf h' i = colOf h i) →
    RedAround h c p → RedAround h' c p := by
  intro c
  induction c with
  | nil => intros; trivial
  | cons f c ih =>
    rintro p e ⟨h1, h2, h3⟩
    have ef := e f.idx (frame_ids.mpr (.inl rfl))
    have eo : ∀ i ∈ f.other.ids, colOf h' i = colOf h i := fun i hi => e i (frame_ids.mpr (.inr (.inl hi)))
    refine ⟨fun hi => ?_, redOk_congr eo h2, ?_⟩
    · rw [ef] at hi
      exact ⟨(h1 hi).1, blackRoot_congr eo (h1 hi).2⟩
    · rw [ef]
      exact ih (fun i hi => e i (frame_ids.mpr (.inr (.inr hi)))) h3

theorem blackAround_congr {h h' : Cells κ δ} : ∀ {c : Around} {n : Nat}, (∀ i ∈ Around.before c ++ Around.after c, colOf h' i = colOf h i) →
    BlackAround h c n → BlackAround h' c n := by
  intro c
  induction c with
  | nil => intros; trivial
  | cons f c ih =>
    rintro n e ⟨h1, h2⟩
    refine ⟨blackHeight_congr (fun i hi => e i (frame_ids.mpr (.inr (.inl hi)))) h1, ?_⟩
    have : blk h' f.idx = blk h f.idx := by rw [blk, blk, e f.idx (frame_ids.mpr (.inl rfl))]
    rw [this]
    exact ih (fun i hi => e i (frame_ids.mpr (.inr (.inr hi)))) h2

/-! ## Marks -/

/-- Only colours and root marks differ; they are now `col` and `flg`. -/
structure Marked (t t' : BTree κ δ) (col : Nat → Option Nat) (flg : Nat → Option Bool) : Prop where
  ent : SameEntries t t'
  root : t'.rootIdx = t.rootIdx
  tree : ∀ T, TreeAt true t T → TreeAt true t' T
  col : ∀ j, colOf t'.at j = col j
  flg : ∀ j, flagOf t'.at j = flg j

theorem paint_spec {t : BTree κ δ} {i : Nat} (c : Nat) (h : (t.at i).isSome) :
    ∃ t', paint t i c = .ok t' ∧ Marked t t' (fun j => if j = i then some c else colOf t.at j) (flagOf t.at) := by
  obtain ⟨t', e, a, r, q⟩ := modNode_spec (t := t) (i := i) (fun n => { n with color := some c }) h
  refine ⟨t', e, sameEntries_mapAt a r (fun _ _ => ⟨rfl, rfl⟩), q, fun T => treeAt_mapAt a q (fun _ => rfl), fun j => ?_, fun j => ?_⟩
  · rw [a]
    unfold colOf mapAt
    by_cases hj : j = i
    · subst hj
      obtain ⟨n, en⟩ := Option.isSome_iff_exists.mp h
      simp [en]
    · simp [hj]
  · rw [a]
    unfold flagOf mapAt
    split
    · simp only [Option.map_map]; congr 1
    · rfl

theorem setRoot_spec {t : BTree κ δ} {i : Nat} (b : Bool) (h : (t.at i).isSome) :
    ∃ t', setRoot t i b = .ok t' ∧ Marked t t' (colOf t.at) (fun j => if j = i then some b else flagOf t.at j) := by
  obtain ⟨t', e, a, r, q⟩ := modNode_spec (t := t) (i := i) (fun n => { n with isRoot := b }) h
  refine ⟨t', e, sameEntries_mapAt a r (fun _ _ => ⟨rfl, rfl⟩), q, fun T => treeAt_mapAt a q (fun _ => rfl), fun j => ?_, fun j => ?_⟩
  · rw [a]
    unfold colOf mapAt
    split
    · cases t.at j <;> rfl
    · rfl
  · rw [a]
    unfold flagOf mapAt
    by_cases hj : j = i
    · subst hj
      obtain ⟨n, en⟩ := Option.isSome_iff_exists.mp h
      simp [en]
    · simp [hj]

theorem SameContent.col {h h' : Cells κ δ} (H : SameContent h h') (i : Nat) : colOf h' i = colOf h i := by
  have := H i
  unfold colOf
  cases e : h' i <;> cases e' : h i <;> simp_all [BNode.strip]

theorem SameContent.flag {h h' : Cells κ δ} (H : SameContent h h') (i : Nat) : flagOf h' i = flagOf h i := by
  have := H i
  unfold flagOf
  cases e : h' i <;> cases e' : h i <;> simp_all [BNode.strip]

theorem SameEntries.trans {a b c : BTree κ δ} (h : SameEntries a b) (h' : SameEntries b c) : SameEntries a c :=
  ⟨h.rest.trans h'.rest, fun i => (h'.key i).trans (h.key i), fun i => (h'.data i).trans (h.data i)⟩

theorem SameEntries.refl (t : BTree κ δ) : SameEntries t t := ⟨.refl t, fun _ => rfl, fun _ => rfl⟩

/-! ## Looking around -/

/-- The step goes into the left subtree. -/
def Frame.isL : Frame → Bool
  | .inL _ _ => true
  | .inR _ _ => false

theorem frame_node {t : BTree κ δ} {f : Frame} {c : Around} {A B : Shape} {i : Nat} (h : TreeAt true t (Around.plug (f :: c) (.node A i B))) :
    ∃ n m, t.at i = some n ∧ n.parent = some f.idx ∧ t.at f.idx = some m ∧ m.parent = Around.up c ∧
      (if m.left = some i then m.right else m.left) = f.other.root ∧ decide (m.left = some i) = f.isL := by
  obtain ⟨n, en, _, _, np⟩ := h.node
  have hi := h.fresh
  cases f with
  | inL j C =>
    obtain ⟨m, em, m1, m2, mp⟩ := (show TreeAt true t (Around.plug c (.node (.node A i B) j C)) from h).node
    have m1' : m.left = some i := m1
    exact ⟨n, m, en, np, em, mp, by rw [if_pos m1', m2]; rfl, by simp [m1', Frame.isL]⟩
  | inR C j =>
    obtain ⟨m, em, m1, m2, mp⟩ := (show TreeAt true t (Around.plug c (.node C j (.node A i B))) from h).node
    have m1' : m.left ≠ some i := by
      rw [m1]
      refine root_ne ?_
      simp only [Around.before, Around.after, List.mem_append, List.mem_cons, not_or] at hi
      simp_all
    exact ⟨n, m, en, np, em, mp, by rw [if_neg m1', m1]; rfl, by simp [m1', Frame.isL]⟩

theorem getParent_ok {t : BTree κ δ} {c : Around} {A B : Shape} {i : Nat} (h : TreeAt true t (Around.plug c (.node A i B))) :
    getParent t i = .ok (Around.up c) := by
  obtain ⟨n, en, _, _, np⟩ := h.node
  simp only [getParent, getNode_ok en, ok_bind, np]

theorem getParentIdx_ok {t : BTree κ δ} {f : Frame} {c : Around} {A B : Shape} {i : Nat} (h : TreeAt true t (Around.plug (f :: c) (.node A i B))) :
    getParentIdx t i = .ok f.idx := by
  simp only [getParentIdx, getParent_ok h, ok_bind]; rfl

theorem getSibling_ok {t : BTree κ δ} {f : Frame} {c : Around} {A B : Shape} {i : Nat} (h : TreeAt true t (Around.plug (f :: c) (.node A i B))) :
    getSibling t i = .ok f.other.root := by
  obtain ⟨n, m, en, np, em, mp, h1, h2⟩ := frame_node h
  simp only [getSibling, getParent_ok h, ok_bind, Around.up, getNode_ok em]
  rw [h1]

theorem isOnLeft_ok {t : BTree κ δ} {f : Frame} {c : Around} {A B : Shape} {i : Nat} (h : TreeAt true t (Around.plug (f :: c) (.node A i B))) :
    isOnLeft t i = .ok f.isL := by
  obtain ⟨n, m, en, np, em, mp, h1, h2⟩ := frame_node h
  simp only [isOnLeft, getParentIdx_ok h, ok_bind, getNode_ok em, h2]

/-- The frame's node as the root of a subtree. -/
theorem frame_plug (f : Frame) (c : Around) (S : Shape) : ∃ L R, Around.plug (f :: c) S = Around.plug c (.node L f.idx R) := by
  cases f with
  | inL j C => exact ⟨S, C, rfl⟩
  | inR C j => exact ⟨C, S, rfl⟩

theorem getUncle_ok {t : BTree κ δ} {f g : Frame} {c : Around} {A B : Shape} {i : Nat} (h : TreeAt true t (Around.plug (f :: g :: c) (.node A i B))) :
    getUncle t i = .ok g.other.root := by
  obtain ⟨L, R, e⟩ := frame_plug f (g :: c) (.node A i B)
  simp only [getUncle, getParentIdx_ok h, ok_bind]
  rw [e] at h
  exact getSibling_ok h

/-! ## The rotation branch -/

/-- What the rotations leave: `y` on top of the two others, the four subtrees below those. -/
structure Turned (t t' : BTree κ δ) (f g : Frame) (c : Around) (A : Shape) (i : Nat) (B : Shape) (P : Shape) (x : Nat) (Q : Shape) (y : Nat) (R : Shape) (z : Nat) (S : Shape) : Prop where
  tree : TreeAt true t' (Around.plug c (.node (.node P x Q) y (.node R z S)))
  ids : (Around.plug c (.node (.node P x Q) y (.node R z S))).ids = (Around.plug (f :: g :: c) (.node A i B)).ids
  parts : ∀ W : Shape → Prop, (W A ∧ W B ∧ W f.other ∧ W g.other) ↔ (W P ∧ W Q ∧ W R ∧ W S)
  tops : (x = g.idx ∧ (z = i ∨ z = f.idx)) ∨ (z = g.idx ∧ (x = i ∨ x = f.idx))
  mid : y = i ∨ y = f.idx
  rest : SameRest t t'
  content : SameContent t.at t'.at

theorem turn_spec {t : BTree κ δ} {f g : Frame} {c : Around} {A B : Shape} {i : Nat} (h : TreeAt true t (Around.plug (f :: g :: c) (.node A i B))) :
    ∃ t' P x Q y R z S, Turned t t' f g c A i B P x Q y R z S ∧
      (if g.isL then rbTurnLeft t i f.idx else rbTurnRight t i f.idx) = .ok ⟨t', y, g.idx⟩ := by
  have hl := isOnLeft_ok h
  cases g with
  | inL j U =>
    cases f with
    | inL p C =>
      have h' : TreeAt true t (Around.plug c (.node (.node (.node A i B) p C) j U)) := h
      obtain ⟨t1, e1, h1, r1, s1⟩ := rightRotate_spec h'
      refine ⟨t1, A, i, B, p, C, j, U, ⟨h1, ?_, fun W => ⟨fun ⟨a, b, c, d⟩ => ⟨a, b, c, d⟩, fun ⟨a, b, c, d⟩ => ⟨a, b, c, d⟩⟩, .inr ⟨rfl, .inl rfl⟩, .inr rfl, r1, s1⟩, ?_⟩
      · rw [Around.ids_plug, Around.ids_plug]; simp [Around.before, Around.after, Shape.ids]
      · have q : getParentIdx t p = .ok j := getParentIdx_ok (f := .inL j U) (show TreeAt true t (Around.plug (.inL j U :: c) (.node (.node A i B) p C)) from h)
        simp only [Frame.isL, if_true, rbTurnLeft, hl, ok_bind, Frame.idx, q, e1]
    | inR C p =>
      have h' : TreeAt true t (Around.plug (.inL j U :: c) (.node C p (.node A i B))) := h
      obtain ⟨t1, e1, h1, r1, s1⟩ := leftRotate_spec h'
      have q1 : getParentIdx t1 p = .ok i := getParentIdx_ok (f := .inL i B) (show TreeAt true t1 (Around.plug (.inL i B :: .inL j U :: c) (.node C p A)) from h1)
      have q2 : getParentIdx t1 i = .ok j := getParentIdx_ok h1
      obtain ⟨t2, e2, h2, r2, s2⟩ := rightRotate_spec (show TreeAt true t1 (Around.plug c (.node (.node (.node C p A) i B) j U)) from h1)
      refine ⟨t2, C, p, A, i, B, j, U, ⟨h2, ?_, fun W => ⟨fun ⟨a, b, c, d⟩ => ⟨c, a, b, d⟩, fun ⟨c, a, b, d⟩ => ⟨a, b, c, d⟩⟩, .inr ⟨rfl, .inr rfl⟩, .inl rfl, r1.trans r2, s1.trans s2⟩, ?_⟩
      · rw [Around.ids_plug, Around.ids_plug]; simp [Around.before, Around.after, Shape.ids]
      · simp only [Frame.isL, if_true, rbTurnLeft, hl, ok_bind, Frame.idx, if_neg Bool.false_ne_true, e1, q1, q2, e2]
  | inR U j =>
    cases f with
    | inR C p =>
      have h' : TreeAt true t (Around.plug c (.node U j (.node C p (.node A i B)))) := h
      obtain ⟨t1, e1, h1, r1, s1⟩ := leftRotate_spec h'
      refine ⟨t1, U, j, C, p, A, i, B, ⟨h1, ?_, fun W => ⟨fun ⟨a, b, c, d⟩ => ⟨d, c, a, b⟩, fun ⟨d, c, a, b⟩ => ⟨a, b, c, d⟩⟩, .inl ⟨rfl, .inl rfl⟩, .inr rfl, r1, s1⟩, ?_⟩
      · rw [Around.ids_plug, Around.ids_plug]; simp [Around.before, Around.after, Shape.ids]
      · have q : getParentIdx t p = .ok j := getParentIdx_ok (f := .inR U j) (show TreeAt true t (Around.plug (.inR U j :: c) (.node C p (.node A i B))) from h)
        simp only [Frame.isL, if_neg Bool.false_ne_true, rbTurnRight, hl, ok_bind, Frame.idx, q, e1]
    | inL p C =>
      have h' : TreeAt true t (Around.plug (.inR U j :: c) (.node (.node A i B) p C)) := h
      obtain ⟨t1, e1, h1, r1, s1⟩ := rightRotate_spec h'
      have q1 : getParentIdx t1 p = .ok i := getParentIdx_ok (f := .inR A i) (show TreeAt true t1 (Around.plug (.inR A i :: .inR U j :: c) (.node B p C)) from h1)
      have q2 : getParentIdx t1 i = .ok j := getParentIdx_ok h1
      obtain ⟨t2, e2, h2, r2, s2⟩ := leftRotate_spec (show TreeAt true t1 (Around.plug c (.node U j (.node A i (.node B p C)))) from h1)
      refine ⟨t2, U, j, A, i, B, p, C, ⟨h2, ?_, fun W => ⟨fun ⟨a, b, c, d⟩ => ⟨d, a, b, c⟩, fun ⟨d, a, b, c⟩ => ⟨a, b, c, d⟩⟩, .inl ⟨rfl, .inr rfl⟩, .inl rfl, r1.trans r2, s1.trans s2⟩, ?_⟩
      · rw [Around.ids_plug, Around.ids_plug]; simp [Around.before, Around.after, Shape.ids]
      · simp only [Frame.isL, if_true, if_neg Bool.false_ne_true, rbTurnRight, hl, ok_bind, Frame.idx, e1, q1, q2, e2]

/-- Colours are 0 or 1 and exactly the root carries the root mark. -/
structure RbOk (t : BTree κ δ) (T : Shape) : Prop where
  cols : ∀ j ∈ T.ids, colOf t.at j = some 0 ∨ colOf t.at j = some 1
  flags : ∀ j ∈ T.ids, flagOf t.at j = some (decide (j = t.rootIdx))

theorem Marked.trans {a b c : BTree κ δ} {co co' : Nat → Option Nat} {fl fl' : Nat → Option Bool} (h : Marked a b co fl) (h' : Marked b c co' fl') : Marked a c co' fl' :=
  ⟨h.ent.trans h'.ent, h'.root.trans h.root, fun T H => h'.tree T (h.tree T H), h'.col, h'.flg⟩

theorem root_above {c : Around} {S : Shape} {r : Nat} (hc : c ≠ []) (h : (Around.plug c S).root = some r) : r ∈ Around.before c ++ Around.after c := by
  cases c with
  | nil => exact absurd rfl hc
  | cons f c =>
    rw [Around.root_plug_cons f c .leaf S] at h
    have := Shape.root_mem h
    rw [Around.ids_plug] at this
    simpa [Shape.ids] using this

theorem TreeAt.isSome {up : Bool} {t : BTree κ δ} {T : Shape} (h : TreeAt up t T) {j : Nat} (hj : j ∈ T.ids) : (t.at j).isSome := linked_isSome h.linked j hj

theorem TreeAt.root_isSome {up : Bool} {t : BTree κ δ} {T : Shape} (h : TreeAt up t T) : (t.at t.rootIdx).isSome := h.isSome (Shape.root_mem h.root)

theorem grand_ne {t : BTree κ δ} {f g : Frame} {c : Around} {A B : Shape} {i : Nat} (h : TreeAt true t (Around.plug (f :: g :: c) (.node A i B))) :
    g.idx ≠ i ∧ g.idx ≠ f.idx := by
  have h1 := h.fresh
  obtain ⟨L, R, e⟩ := frame_plug f (g :: c) (.node A i B)
  rw [e] at h
  have h2 := h.fresh
  constructor
  · rintro rfl
    exact h1.2.2 (frame_ids.mpr (.inr (.inr (frame_ids.mpr (.inl rfl)))))
  · intro e
    exact h2.2.2 (frame_ids.mpr (.inl e.symm))

/-- The result of the rotation branch. -/
structure RbTurned (t t' : BTree κ δ) (f g : Frame) (c : Around) (A : Shape) (i : Nat) (B : Shape) (P : Shape) (x : Nat) (Q : Shape) (y : Nat) (R : Shape) (z : Nat) (S : Shape) : Prop where
  tree : TreeAt true t' (Around.plug c (.node (.node P x Q) y (.node R z S)))
  ids : (Around.plug c (.node (.node P x Q) y (.node R z S))).ids = (Around.plug (f :: g :: c) (.node A i B)).ids
  parts : ∀ W : Shape → Prop, (W A ∧ W B ∧ W f.other ∧ W g.other) ↔ (W P ∧ W Q ∧ W R ∧ W S)
  ent : SameEntries t t'
  flags : ∀ j ∈ (Around.plug c (.node (.node P x Q) y (.node R z S))).ids, flagOf t'.at j = some (decide (j = t'.rootIdx))
  colx : colOf t'.at x = some 1
  coly : colOf t'.at y = some 0
  colz : colOf t'.at z = some 1
  cold : ∀ j, j ≠ x → j ≠ y → j ≠ z → colOf t'.at j = colOf t.at j

theorem rbRotate_spec {t : BTree κ δ} {f g : Frame} {c : Around} {A B : Shape} {i : Nat} (h : TreeAt true t (Around.plug (f :: g :: c) (.node A i B)))
    (hok : RbOk t (Around.plug (f :: g :: c) (.node A i B))) (hi : colOf t.at i = some 1) (hf : colOf t.at f.idx = some 1) :
    ∃ t' P x Q y R z S, RbTurned t t' f g c A i B P x Q y R z S ∧ rbRotate t i f.idx = .ok ⟨t', y, g.idx⟩ := by
  obtain ⟨t1, e1, m1⟩ := setRoot_spec false h.root_isSome
  have h1 := m1.tree _ h
  obtain ⟨t2, P, x, Q, y, R, z, S, T, e2⟩ := turn_spec h1
  have hm : ∀ j ∈ [x, y, z], j ∈ (Around.plug c (.node (.node P x Q) y (.node R z S))).ids := by
    intro j hj
    rw [Around.ids_plug]
    simp only [List.mem_cons, List.not_mem_nil, or_false] at hj
    rcases hj with rfl | rfl | rfl <;> simp [Shape.ids]
  have hg : g.idx ∈ (Around.plug c (.node (.node P x Q) y (.node R z S))).ids := by
    rcases T.tops with ⟨e, _⟩ | ⟨e, _⟩ <;> rw [← e] <;> exact hm _ (by simp)
  have hnd := T.tree.nodup
  rw [Around.ids_plug] at hnd
  have hxy : x ≠ y ∧ z ≠ y ∧ x ≠ z := by
    simp only [Shape.ids] at hnd
    grind
  obtain ⟨t3, e3, m3⟩ := paint_spec (t := t2) (i := y) 0 (T.tree.isSome (hm y (by simp)))
  have h3 := m3.tree _ T.tree
  obtain ⟨t4, e4, m4⟩ := paint_spec (t := t3) (i := g.idx) 1 (h3.isSome hg)
  have h4 := m4.tree _ h3
  obtain ⟨t5, e5, m5⟩ := setRoot_spec (t := t4) true h4.root_isSome
  have h5 := m5.tree _ h4
  have hcol : ∀ j, colOf t5.at j = if j = g.idx then some 1 else if j = y then some 0 else colOf t.at j := by
    intro j
    rw [m5.col, m4.col]
    split
    · rfl
    · rw [m3.col]
      split
      · rfl
      · rw [T.content.col, m1.col]
  have hgi := grand_ne h
  refine ⟨t5, P, x, Q, y, R, z, S, ⟨h5, T.ids, T.parts, ?_, ?_, ?_, ?_, ?_, ?_⟩, ?_⟩
  · exact m1.ent.trans ((T.content.entries T.rest).trans (m3.ent.trans (m4.ent.trans m5.ent)))
  · intro j hj
    have hr : t4.rootIdx = t2.rootIdx := m4.root.trans m3.root
    rw [m5.flg, m5.root]
    by_cases hjr : j = t4.rootIdx
    · simp [hjr]
    · rw [if_neg hjr, decide_eq_false hjr, m4.flg, m3.flg, T.content.flag, m1.flg]
      rw [T.ids] at hj
      by_cases hj0 : j = t.rootIdx
      · simp [hj0]
      · rw [if_neg hj0, hok.flags j hj, decide_eq_false hj0]
  · rw [hcol]
    rcases T.tops with ⟨e, _⟩ | ⟨_, e⟩
    · rw [if_pos e]
    · split
      · rfl
      · rw [if_neg hxy.1]; rcases e with rfl | rfl <;> assumption
  · rw [hcol, if_neg, if_pos rfl]
    rcases T.mid with e | e <;> rw [e]
    · exact hgi.1.symm
    · exact hgi.2.symm
  · rw [hcol]
    rcases T.tops with ⟨_, e⟩ | ⟨e, _⟩
    · split
      · rfl
      · rw [if_neg hxy.2.1]; rcases e with rfl | rfl <;> assumption
    · rw [if_pos e]
  · intro j h1 h2 h3
    rw [hcol, if_neg, if_neg h2]
    rcases T.tops with ⟨e, _⟩ | ⟨e, _⟩ <;> rw [← e] <;> assumption
  · obtain ⟨L, N, ep⟩ := frame_plug f (g :: c) (.node A i B)
    have q : isOnLeft t1 f.idx = .ok g.isL := isOnLeft_ok (by rw [ep] at h1; exact h1)
    simp only [rbRotate, e1, ok_bind, q]
    cases hgl : g.isL <;> rw [hgl] at e2
    · rw [if_neg Bool.false_ne_true] at e2
      simp only [if_neg Bool.false_ne_true, e2, ok_bind, e3, e4, e5]
    · rw [if_pos rfl] at e2
      simp only [if_true, e2, ok_bind, e3, e4, e5]

theorem blacken {h h' : Cells κ δ} {T : Shape} {r : Nat} (hn : T.ids.Nodup) (hr : T.root = some r) (e : ∀ j ∈ T.ids, j ≠ r → colOf h' j = colOf h j)
    (er : colOf h' r = some 0) : (RedOk h T → RedOk h' T) ∧ ∀ n, BlackHeight h T n → BlackHeight h' T (n + if colOf h r = some 0 then 0 else 1) := by
  cases T with
  | leaf => cases hr
  | node A i B =>
    rw [root_node, Option.some.injEq] at hr
    subst hr
    have hA : ∀ j ∈ A.ids, colOf h' j = colOf h j := fun j hj => e j (by simp [Shape.ids, hj]) (by rintro rfl; simp only [Shape.ids] at hn; grind)
    have hB : ∀ j ∈ B.ids, colOf h' j = colOf h j := fun j hj => e j (by simp [Shape.ids, hj]) (by rintro rfl; simp only [Shape.ids] at hn; grind)
    constructor
    · rintro ⟨_, h2, h3⟩
      exact ⟨fun h => (by rw [er] at h; cases h), redOk_congr hA h2, redOk_congr hB h3⟩
    · rintro n ⟨m, h1, h2, rfl⟩
      refine ⟨m, blackHeight_congr hA h1, blackHeight_congr hB h2, ?_⟩
      simp only [blk, er]
      split <;> simp_all

theorem three_avoid {c : Around} {P Q R S : Shape} {x y z : Nat} (h : (Around.plug c (.node (.node P x Q) y (.node R z S))).ids.Nodup) :
    (∀ j ∈ Around.before c ++ Around.after c, j ≠ x ∧ j ≠ y ∧ j ≠ z) ∧ (∀ j ∈ P.ids, j ≠ x ∧ j ≠ y ∧ j ≠ z) ∧ (∀ j ∈ Q.ids, j ≠ x ∧ j ≠ y ∧ j ≠ z) ∧
      (∀ j ∈ R.ids, j ≠ x ∧ j ≠ y ∧ j ≠ z) ∧ (∀ j ∈ S.ids, j ≠ x ∧ j ≠ y ∧ j ≠ z) := by
  rw [Around.ids_plug] at h
  simp only [Shape.ids] at h
  rw [List.nodup_iff_count] at h
  refine ⟨?_, ?_, ?_, ?_, ?_⟩ <;> intro j hj <;> refine ⟨?_, ?_, ?_⟩ <;> rintro rfl <;> have := h j <;> have hp := List.count_pos_iff.mpr hj <;>
    simp only [List.count_append, List.count_cons, beq_self_eq_true, if_true] at this hp <;> omega

/-- Colouring right except possibly for a red node `S.root` below a red parent. -/
def Nearly (h : Cells κ δ) (c : Around) (S : Shape) : Prop := RedOk h S ∧ RedAround h c True ∧ ∃ N, BlackHeight h (Around.plug c S) N

/-- What the loop of `__fix_insert` leaves. -/
structure RbDone (t t' : BTree κ δ) (T T' : Shape) (good fair : Prop) : Prop where
  ids : T'.ids = T.ids
  tree : TreeAt true t' T'
  ent : SameEntries t t'
  ok : RbOk t' T'
  colour : good → RedOk t'.at T' ∧ ∃ N, BlackHeight t'.at T' N
  back : fair → (∃ N, BlackHeight t'.at T' N) → ∃ N, BlackHeight t.at T N

/-- The rotation branch does not mend unequal black heights. -/
theorem rb_turn_back {t t' : BTree κ δ} {f g : Frame} {c : Around} {A B P Q R S : Shape} {i x y z : Nat} (H : RbTurned t t' f g c A i B P x Q y R z S)
    (hi : colOf t.at i = some 1) (hf : colOf t.at f.idx = some 1) (hg : colOf t.at g.idx = some 0 ∨ colOf t.at g.idx = some 1)
    (ha : RedAround t.at (f :: g :: c) True) (hN : ∃ N, BlackHeight t'.at (Around.plug c (.node (.node P x Q) y (.node R z S))) N) :
    ∃ N, BlackHeight t.at (Around.plug (f :: g :: c) (.node A i B)) N := by
  obtain ⟨b1, b2, b3, b4, b5⟩ := ha
  have hg0 : colOf t.at g.idx = some 0 := by
    rcases hg with hg | hg
    · exact hg
    · have := (b3 hg).1; rw [hf] at this; cases this
  have ei : blk t.at i = 0 := by simp [blk, hi]
  have ef : blk t.at f.idx = 0 := by simp [blk, hf]
  have eg : blk t.at g.idx = 1 := by simp [blk, hg0]
  obtain ⟨v0, v1, v2, v3, v4⟩ := three_avoid H.tree.nodup
  have cg : ∀ {X : Shape}, (∀ j ∈ X.ids, j ≠ x ∧ j ≠ y ∧ j ≠ z) → ∀ j ∈ X.ids, colOf t.at j = colOf t'.at j :=
    fun hX j hj => (H.cold j (hX j hj).1 (hX j hj).2.1 (hX j hj).2.2).symm
  have cc : ∀ j ∈ Around.before c ++ Around.after c, colOf t.at j = colOf t'.at j := fun j hj => (H.cold j (v0 j hj).1 (v0 j hj).2.1 (v0 j hj).2.2).symm
  obtain ⟨n, ⟨m, ⟨m1, p, q, e1⟩, ⟨m2, r, s, e2⟩, e3⟩, hr⟩ := black_plug.mp hN
  simp only [blk, H.colx, H.coly, H.colz] at e1 e2 e3
  simp at e1 e2 e3
  subst e1 e2 e3
  obtain ⟨hA, hB, hC, hD⟩ := (H.parts (fun X => BlackHeight t.at X m)).mpr
    ⟨blackHeight_congr (cg v1) p, blackHeight_congr (cg v2) q, blackHeight_congr (cg v3) r, blackHeight_congr (cg v4) s⟩
  refine black_plug.mpr ⟨m, ⟨m, hA, hB, by rw [ei]; rfl⟩, hC, ?_⟩
  rw [ef, Nat.add_zero]
  exact ⟨hD, by rw [eg]; exact blackAround_congr cc hr⟩

theorem rb_turn_colour {t t' : BTree κ δ} {f g : Frame} {c : Around} {A B P Q R S : Shape} {i x y z : Nat} (H : RbTurned t t' f g c A i B P x Q y R z S)
    (hi : colOf t.at i = some 1) (hf : colOf t.at f.idx = some 1) (hg : colOf t.at g.idx = some 0 ∨ colOf t.at g.idx = some 1) (hu : BlackRoot t.at g.other)
    (hn : Nearly t.at (f :: g :: c) (.node A i B)) :
    RedOk t'.at (Around.plug c (.node (.node P x Q) y (.node R z S))) ∧ ∃ N, BlackHeight t'.at (Around.plug c (.node (.node P x Q) y (.node R z S))) N := by
  obtain ⟨⟨a1, a2, a3⟩, ⟨b1, b2, b3, b4, b5⟩, hN⟩ := hn
  obtain ⟨n, ⟨m, m1, m2, rfl⟩, n1, n2, n3⟩ := black_plug.mp hN
  have hg0 : colOf t.at g.idx = some 0 := by
    rcases hg with hg | hg
    · exact hg
    · have := (b3 hg).1; rw [hf] at this; cases this
  have ei : blk t.at i = 0 := by simp [blk, hi]
  have ef : blk t.at f.idx = 0 := by simp [blk, hf]
  have eg : blk t.at g.idx = 1 := by simp [blk, hg0]
  simp only [ei, ef, eg, Nat.add_zero] at n1 n2 n3
  obtain ⟨p, q, r, s⟩ := (H.parts (fun X => BlackHeight t.at X m ∧ RedOk t.at X ∧ BlackRoot t.at X)).mp ⟨⟨m1, a2, (a1 hi).1⟩, ⟨m2, a3, (a1 hi).2⟩,
    ⟨n1, b2, (b1 hf).2⟩, ⟨n2, b4, hu⟩⟩
  obtain ⟨v0, v1, v2, v3, v4⟩ := three_avoid H.tree.nodup
  have cg : ∀ {X : Shape}, (∀ j ∈ X.ids, j ≠ x ∧ j ≠ y ∧ j ≠ z) → ∀ j ∈ X.ids, colOf t'.at j = colOf t.at j :=
    fun hX j hj => H.cold j (hX j hj).1 (hX j hj).2.1 (hX j hj).2.2
  have cc : ∀ j ∈ Around.before c ++ Around.after c, colOf t'.at j = colOf t.at j := fun j hj => H.cold j (v0 j hj).1 (v0 j hj).2.1 (v0 j hj).2.2
  constructor
  · rw [redOk_plug]
    refine ⟨redAround_congr cc (b5.mono (fun _ => blackRoot_node.mpr H.coly)), fun h => (by rw [H.coly] at h; cases h), ⟨fun _ => ⟨blackRoot_congr (cg v1) p.2.2, blackRoot_congr (cg v2) q.2.2⟩, redOk_congr (cg v1) p.2.1, redOk_congr (cg v2) q.2.1⟩,
      ⟨fun _ => ⟨blackRoot_congr (cg v3) r.2.2, blackRoot_congr (cg v4) s.2.2⟩, redOk_congr (cg v3) r.2.1, redOk_congr (cg v4) s.2.1⟩⟩
  · rw [black_plug]
    refine ⟨m + 1, ⟨m, ⟨m, blackHeight_congr (cg v1) p.1, blackHeight_congr (cg v2) q.1, by simp [blk, H.colx]⟩,
      ⟨m, blackHeight_congr (cg v3) r.1, blackHeight_congr (cg v4) s.1, by simp [blk, H.colz]⟩, by simp [blk, H.coly]⟩, blackAround_congr cc n3⟩

theorem isCol_at {t : BTree κ δ} {i v : Nat} {n : BNode κ δ} (e : t.at i = some n) (h : colOf t.at i = some v) (c : Nat) : isCol n c = .ok (decide (v = c)) := by
  have : n.color = some v := by simpa [colOf, e] using h
  simp only [isCol, this]

theorem rbCond_black {s : RbSt κ δ} {c : Around} {A B : Shape} (h : TreeAt true s.t (Around.plug c (.node A s.node B))) (hb : colOf s.t.at s.node = some 0)
    (hok : RbOk s.t (Around.plug c (.node A s.node B))) : rbCond s = .ok false := by
  obtain ⟨n, en, _, _, n3⟩ := h.node
  unfold rbCond
  split
  · rfl
  simp only [getNode_ok en, ok_bind, n3]
  cases c with
  | nil => rfl
  | cons f c =>
    obtain ⟨n', m, en', _, em, _⟩ := frame_node h
    have hfm : f.idx ∈ (Around.plug (f :: c) (.node A s.node B)).ids := by
      rw [Around.ids_plug]
      have := frame_ids.mpr (.inl rfl : f.idx = f.idx ∨ f.idx ∈ f.other.ids ∨ f.idx ∈ Around.before c ++ Around.after c)
      simp only [List.mem_append] at this ⊢
      rcases this with h | h <;> simp [h]
    simp only [Around.up, getNode_ok em, ok_bind]
    rcases hok.cols _ hfm with h | h
    · simp only [isCol_at em h, ok_bind]; rfl
    · simp only [isCol_at em h, ok_bind, isCol_at en hb]; rfl

theorem around_mem {c : Around} {S : Shape} {j : Nat} (h : j ∈ Around.before c ++ Around.after c) : j ∈ (Around.plug c S).ids := by
  rw [Around.ids_plug]
  simp only [List.mem_append] at h ⊢
  rcases h with h | h <;> simp [h]

theorem around_avoid {t : BTree κ δ} {c : Around} {S : Shape} (h : TreeAt true t (Around.plug c S)) {j : Nat} (hj : j ∈ Around.before c ++ Around.after c) : j ∉ S.ids := by
  have := h.nodup
  rw [Around.ids_plug] at this
  intro hs
  simp only [List.mem_append] at hj
  grind

theorem plug_cons (f : Frame) (c : Around) (S : Shape) : Around.plug (f :: c) S = Around.plug c (Around.plug [f] S) := by cases f <;> rfl

theorem plug_two (f g : Frame) (c : Around) (S : Shape) : Around.plug (f :: g :: c) S = Around.plug c (Around.plug [f, g] S) := by
  rw [plug_cons, plug_cons g c, plug_cons f [g]]

/-- The positions involved in recolouring are apart. -/
theorem recolour_apart {t : BTree κ δ} {f g : Frame} {c : Around} {S : Shape} {u : Nat} (h : TreeAt true t (Around.plug (f :: g :: c) S)) (hu : u ∈ g.other.ids) :
    (g.other.ids.Nodup ∧ g.idx ∉ g.other.ids ∧ f.idx ∉ g.other.ids) ∧ (∀ j ∈ f.other.ids, j ≠ f.idx ∧ j ≠ g.idx ∧ j ≠ u) ∧ (∀ j ∈ S.ids, j ≠ f.idx ∧ j ≠ g.idx ∧ j ≠ u) ∧
      ∀ j ∈ Around.before c ++ Around.after c, j ≠ f.idx ∧ j ≠ g.idx ∧ j ≠ u := by
  have nd := h.nodup
  rw [Around.ids_plug, List.nodup_iff_count] at nd
  have hc : ∀ j, (f.other.ids.count j + g.other.ids.count j + S.ids.count j + (Around.before c ++ Around.after c).count j + if j = f.idx then 1 else 0) + (if j = g.idx then 1 else 0) ≤ 1 := by
    intro j
    have := nd j
    cases f <;> cases g <;> simp only [Around.before, Around.after, Frame.other, Frame.idx, List.count_append, List.count_cons, beq_iff_eq] at this ⊢ <;> 
      simp only [eq_comm (a := j)] <;> omega
  have hup : 0 < g.other.ids.count u := List.count_pos_iff.mpr hu
  have k1 : ∀ j, 0 < f.other.ids.count j + S.ids.count j + (Around.before c ++ Around.after c).count j → j ≠ f.idx ∧ j ≠ g.idx ∧ j ≠ u := by
    intro j hj
    have := hc j
    refine ⟨?_, ?_, ?_⟩
    · intro e; rw [if_pos e] at this; omega
    · intro e; rw [if_pos e] at this; omega
    · rintro rfl; omega
  refine ⟨⟨?_, ?_, ?_⟩, ?_, ?_, ?_⟩
  · rw [List.nodup_iff_count]; intro j; have := hc j; omega
  · intro e; have := hc g.idx; have := List.count_pos_iff.mpr e; simp only [if_true] at *; omega
  · intro e; have := hc f.idx; have := List.count_pos_iff.mpr e; simp only [if_true] at *; omega
  · intro j hj; have := List.count_pos_iff.mpr hj; exact k1 j (by omega)
  · intro j hj; have := List.count_pos_iff.mpr hj; exact k1 j (by omega)
  · intro j hj; have := List.count_pos_iff.mpr hj; exact k1 j (by omega)

theorem recolour_colour {t t3 : BTree κ δ} {f g : Frame} {c : Around} {A B : Shape} {i u : Nat} (h : TreeAt true t (Around.plug (f :: g :: c) (.node A i B)))
    (hok : RbOk t (Around.plug (f :: g :: c) (.node A i B))) (hf : colOf t.at f.idx = some 1) (hu : g.other.root = some u) (hu1 : colOf t.at u = some 1)
    (hcol : ∀ j, colOf t3.at j = if j = g.idx then some 1 else if j = f.idx then some 0 else if j = u then some 0 else colOf t.at j)
    (hN : Nearly t.at (f :: g :: c) (.node A i B)) :
    RedOk t3.at (Around.plug [f, g] (.node A i B)) ∧ RedAround t3.at c True ∧ ∃ N, BlackHeight t3.at (Around.plug (f :: g :: c) (.node A i B)) N := by
  obtain ⟨a1, ⟨b1, b2, b3, b4, b5⟩, hN⟩ := hN
  have hum := Shape.root_mem hu
  have hgm : g.idx ∈ (Around.plug (f :: g :: c) (.node A i B)).ids := around_mem (frame_ids.mpr (.inr (.inr (frame_ids.mpr (.inl rfl)))))
  obtain ⟨⟨ndg, hgo⟩, hfo, hSo, dis⟩ := recolour_apart h hum
  have hgf := (grand_ne h).2
  have hg0 : colOf t.at g.idx = some 0 := by
    rcases hok.cols _ hgm with hg | hg
    · exact hg
    · have := (b3 hg).1; rw [hf] at this; cases this
  have cS : ∀ j ∈ (Shape.node A i B).ids, colOf t3.at j = colOf t.at j := fun j hj => by
    obtain ⟨x1, x2, x3⟩ := hSo j hj; rw [hcol, if_neg x2, if_neg x1, if_neg x3]
  have cf : ∀ j ∈ f.other.ids, colOf t3.at j = colOf t.at j := fun j hj => by
    obtain ⟨x1, x2, x3⟩ := hfo j hj; rw [hcol, if_neg x2, if_neg x1, if_neg x3]
  have cg : ∀ j ∈ g.other.ids, j ≠ u → colOf t3.at j = colOf t.at j := fun j hj hju => by
    rw [hcol, if_neg (by rintro rfl; exact hgo.1 hj), if_neg (by rintro rfl; exact hgo.2 hj), if_neg hju]
  have cc : ∀ j ∈ Around.before c ++ Around.after c, colOf t3.at j = colOf t.at j := fun j hj => by
    obtain ⟨x1, x2, x3⟩ := dis j hj; rw [hcol, if_neg x2, if_neg x1, if_neg x3]
  have cu : colOf t3.at u = some 0 := by
    rw [hcol, if_neg (by rintro rfl; exact hgo.1 hum), if_neg (by rintro rfl; exact hgo.2 hum), if_pos rfl]
  have c3f : colOf t3.at f.idx = some 0 := by rw [hcol, if_neg hgf.symm, if_pos rfl]
  have c3g : colOf t3.at g.idx = some 1 := by rw [hcol, if_pos rfl]
  obtain ⟨bl1, bl2⟩ := blacken ndg hu cg cu
  refine ⟨?_, ?_, ?_⟩
  · rw [redOk_plug]
    exact ⟨⟨fun e => (by rw [c3f] at e; cases e), redOk_congr cf b2, fun _ => ⟨c3f, fun x hx => (by rw [hu] at hx; cases hx; exact cu)⟩, bl1 b4, trivial⟩, redOk_congr cS a1⟩
  · exact redAround_congr cc (b5.mono (fun _ => trivial))
  · obtain ⟨n, n0, n1, n2, n3⟩ := black_plug.mp hN
    have ef : blk t.at f.idx = 0 := by simp [blk, hf]
    have eg : blk t.at g.idx = 1 := by simp [blk, hg0]
    have ef' : blk t3.at f.idx = 1 := by simp [blk, c3f]
    have eg' : blk t3.at g.idx = 0 := by simp [blk, c3g]
    rw [ef] at n2 n3; rw [eg] at n3
    have n2' := bl2 _ n2
    rw [if_neg (by rw [hu1]; simp)] at n2'
    refine black_plug.mpr ⟨n, blackHeight_congr cS n0, blackHeight_congr cf n1, by rw [ef']; exact n2', ?_⟩
    rw [ef', eg']
    exact blackAround_congr cc n3

theorem blacken_back {h h' : Cells κ δ} {T : Shape} {r : Nat} (hn : T.ids.Nodup) (hr : T.root = some r) (e : ∀ j ∈ T.ids, j ≠ r → colOf h' j = colOf h j)
    (er : colOf h' r = some 0) {n : Nat} (H : BlackHeight h' T n) : ∃ m, n = m + 1 ∧ BlackHeight h T (m + blk h r) := by
  cases T with
  | leaf => cases hr
  | node A i B =>
    rw [root_node, Option.some.injEq] at hr
    subst hr
    have hA : ∀ j ∈ A.ids, colOf h j = colOf h' j := fun j hj => (e j (by simp [Shape.ids, hj]) (by rintro rfl; simp only [Shape.ids] at hn; grind)).symm
    have hB : ∀ j ∈ B.ids, colOf h j = colOf h' j := fun j hj => (e j (by simp [Shape.ids, hj]) (by rintro rfl; simp only [Shape.ids] at hn; grind)).symm
    obtain ⟨m, h1, h2, rfl⟩ := H
    exact ⟨m, by simp [blk, er], m, blackHeight_congr hA h1, blackHeight_congr hB h2, rfl⟩

/-- The recolouring branch does not mend unequal black heights. -/
theorem recolour_back {t t3 : BTree κ δ} {f g : Frame} {c : Around} {A B : Shape} {i u : Nat} (h : TreeAt true t (Around.plug (f :: g :: c) (.node A i B)))
    (hok : RbOk t (Around.plug (f :: g :: c) (.node A i B))) (hf : colOf t.at f.idx = some 1) (hu : g.other.root = some u) (hu1 : colOf t.at u = some 1)
    (hcol : ∀ j, colOf t3.at j = if j = g.idx then some 1 else if j = f.idx then some 0 else if j = u then some 0 else colOf t.at j)
    (ha : RedAround t.at (f :: g :: c) True) :
    RedAround t3.at c True ∧ ((∃ N, BlackHeight t3.at (Around.plug (f :: g :: c) (.node A i B)) N) → ∃ N, BlackHeight t.at (Around.plug (f :: g :: c) (.node A i B)) N) := by
  obtain ⟨b1, b2, b3, b4, b5⟩ := ha
  have hum := Shape.root_mem hu
  have hgm : g.idx ∈ (Around.plug (f :: g :: c) (.node A i B)).ids := around_mem (frame_ids.mpr (.inr (.inr (frame_ids.mpr (.inl rfl)))))
  obtain ⟨⟨ndg, hgo⟩, hfo, hSo, dis⟩ := recolour_apart h hum
  have hgf := (grand_ne h).2
  have hg0 : colOf t.at g.idx = some 0 := by
    rcases hok.cols _ hgm with hg | hg
    · exact hg
    · have := (b3 hg).1; rw [hf] at this; cases this
  have cS : ∀ j ∈ (Shape.node A i B).ids, colOf t.at j = colOf t3.at j := fun j hj => by
    obtain ⟨x1, x2, x3⟩ := hSo j hj; rw [hcol, if_neg x2, if_neg x1, if_neg x3]
  have cf : ∀ j ∈ f.other.ids, colOf t.at j = colOf t3.at j := fun j hj => by
    obtain ⟨x1, x2, x3⟩ := hfo j hj; rw [hcol, if_neg x2, if_neg x1, if_neg x3]
  have cg : ∀ j ∈ g.other.ids, j ≠ u → colOf t3.at j = colOf t.at j := fun j hj hju => by
    rw [hcol, if_neg (by rintro rfl; exact hgo.1 hj), if_neg (by rintro rfl; exact hgo.2 hj), if_neg hju]
  have cc : ∀ j ∈ Around.before c ++ Around.after c, colOf t3.at j = colOf t.at j := fun j hj => by
    obtain ⟨x1, x2, x3⟩ := dis j hj; rw [hcol, if_neg x2, if_neg x1, if_neg x3]
  have cu : colOf t3.at u = some 0 := by
    rw [hcol, if_neg (by rintro rfl; exact hgo.1 hum), if_neg (by rintro rfl; exact hgo.2 hum), if_pos rfl]
  have c3f : colOf t3.at f.idx = some 0 := by rw [hcol, if_neg hgf.symm, if_pos rfl]
  have c3g : colOf t3.at g.idx = some 1 := by rw [hcol, if_pos rfl]
  refine ⟨redAround_congr cc (b5.mono (fun _ => trivial)), fun hN => ?_⟩
  obtain ⟨n, n0, n1, n2, n3⟩ := black_plug.mp hN
  have ef : blk t.at f.idx = 0 := by simp [blk, hf]
  have eg : blk t.at g.idx = 1 := by simp [blk, hg0]
  have eu : blk t.at u = 0 := by simp [blk, hu1]
  have ef' : blk t3.at f.idx = 1 := by simp [blk, c3f]
  have eg' : blk t3.at g.idx = 0 := by simp [blk, c3g]
  rw [ef'] at n2 n3; rw [eg'] at n3
  obtain ⟨m, hm, n2'⟩ := blacken_back ndg hu cg cu n2
  rw [eu] at n2'
  have hmn : m = n := by omega
  subst hmn
  refine black_plug.mpr ⟨m, blackHeight_congr cS n0, blackHeight_congr cf n1, by rw [ef]; exact n2', ?_⟩
  rw [ef, eg]
  exact blackAround_congr (fun j hj => (cc j hj).symm) n3

theorem rb_loop : ∀ (b : Nat) (c : Around) (t : BTree κ δ) (A B : Shape) (i : Nat), c.length ≤ b → TreeAt true t (Around.plug c (.node A i B)) →
    RbOk t (Around.plug c (.node A i B)) → colOf t.at i = some 1 → (c ≠ [] → colOf t.at t.rootIdx = some 0) →
    ∃ t' T' w st, RbDone t t' (Around.plug c (.node A i B)) T' (Nearly t.at c (.node A i B)) (RedAround t.at c True) ∧
      ∀ fuel > b + 1, whileLoop fuel rbCond rbBody ⟨t, i, false⟩ = .ok ⟨t', w, st⟩ := by
  intro b
  induction b with
  | zero =>
    intro c t A B i hc h hok hi _
    cases c with
    | cons f c => simp at hc
    | nil =>
      obtain ⟨n, en, _, _, n3⟩ := h.node
      refine ⟨t, _, i, false, ⟨rfl, h, .refl t, hok, fun g => ⟨g.1, g.2.2⟩, fun _ h => h⟩, fun fuel hf => ?_⟩
      obtain ⟨f, rfl⟩ : ∃ f, fuel = f + 1 := ⟨fuel - 1, by omega⟩
      refine while_stop _ ?_
      simp only [rbCond, getNode_ok en, ok_bind, n3, Around.up]; rfl
  | succ b ih =>
    intro c t A B i hc h hok hi hroot
    obtain ⟨n, en, _, _, n3⟩ := h.node
    cases c with
    | nil =>
      refine ⟨t, _, i, false, ⟨rfl, h, .refl t, hok, fun g => ⟨g.1, g.2.2⟩, fun _ h => h⟩, fun fuel hf => ?_⟩
      obtain ⟨f, rfl⟩ : ∃ f, fuel = f + 1 := ⟨fuel - 1, by omega⟩
      refine while_stop _ ?_
      simp only [rbCond, getNode_ok en, ok_bind, n3, Around.up]; rfl
    | cons f c =>
      obtain ⟨n', m, en', _, em, _⟩ := frame_node h
      have hfm : f.idx ∈ (Around.plug (f :: c) (.node A i B)).ids := around_mem (frame_ids.mpr (.inl rfl))
      have cond : ∀ v, colOf t.at f.idx = some v → rbCond ⟨t, i, false⟩ = .ok (decide (v = 1)) := by
        intro v hv
        simp only [rbCond, getNode_ok en, ok_bind, n3, Around.up, getNode_ok em, isCol_at em hv, isCol_at en hi]
        by_cases hv1 : v = 1 <;> simp [hv1]
      rcases hok.cols _ hfm with hf | hf
      · refine ⟨t, _, i, false, ⟨rfl, h, .refl t, hok, fun g => ⟨?_, g.2.2⟩, fun _ h => h⟩, fun fuel hf' => ?_⟩
        · rw [redOk_plug]
          refine ⟨⟨fun e => ?_, g.2.1.2⟩, g.1⟩
          rw [hf] at e; cases e
        · obtain ⟨f', rfl⟩ : ∃ f', fuel = f' + 1 := ⟨fuel - 1, by omega⟩
          exact while_stop _ (cond 0 hf)
      · have condT : rbCond ⟨t, i, false⟩ = .ok true := cond 1 hf
        cases c with
        | nil =>
          exfalso
          obtain ⟨L, R, e⟩ := frame_plug f [] (.node A i B)
          have := h.root
          rw [e] at this
          simp only [Around.plug, root_node, Option.some.injEq] at this
          have h0 := hroot (by simp)
          rw [← this, hf] at h0; cases h0
        | cons g c =>
          have hgm : g.idx ∈ (Around.plug (f :: g :: c) (.node A i B)).ids := around_mem (frame_ids.mpr (.inr (.inr (frame_ids.mpr (.inl rfl)))))
          have hug : ∀ j ∈ g.other.ids, j ∈ (Around.plug (f :: g :: c) (.node A i B)).ids :=
            fun j hj => around_mem (frame_ids.mpr (.inr (.inr (frame_ids.mpr (.inr (.inl hj))))))
          have e1 : getParentIdx t i = .ok f.idx := getParentIdx_ok h
          obtain ⟨L, R, ep⟩ := frame_plug f (g :: c) (.node A i B)
          have e2 : getParent t f.idx = .ok (some g.idx) := getParent_ok (c := g :: c) (by rw [← ep]; exact h)
          have e3 : getUncle t i = .ok g.other.root := getUncle_ok h
          by_cases hu : ∃ u, g.other.root = some u ∧ colOf t.at u = some 1
          · obtain ⟨u, hu, hu1⟩ := hu
            have hum := Shape.root_mem hu
            have e4 : isRedAt t g.other.root = .ok true := by
              obtain ⟨x, ex⟩ := Option.isSome_iff_exists.mp (h.isSome (hug u hum))
              simp only [hu, isRedAt, getNode_ok ex, ok_bind, isCol_at ex hu1]; rfl
            obtain ⟨t1, p1, k1⟩ := paint_spec (t := t) (i := u) 0 (h.isSome (hug u hum))
            have h1 := k1.tree _ h
            obtain ⟨t2, p2, k2⟩ := paint_spec (t := t1) (i := f.idx) 0 (h1.isSome hfm)
            have h2 := k2.tree _ h1
            obtain ⟨t3, p3, k3⟩ := paint_spec (t := t2) (i := g.idx) 1 (h2.isSome hgm)
            have h3 := k3.tree _ h2
            have hgf := (grand_ne h).2
            have hcol : ∀ j, colOf t3.at j = if j = g.idx then some 1 else if j = f.idx then some 0 else if j = u then some 0 else colOf t.at j := by
              intro j; rw [k3.col, k2.col, k1.col]
            have hflg : ∀ j, flagOf t3.at j = flagOf t.at j := by intro j; rw [k3.flg, k2.flg, k1.flg]
            have hrt : t3.rootIdx = t.rootIdx := k3.root.trans (k2.root.trans k1.root)
            have hent : SameEntries t t3 := k1.ent.trans (k2.ent.trans k3.ent)
            have hok3 : RbOk t3 (Around.plug (f :: g :: c) (.node A i B)) := by
              refine ⟨fun j hj => ?_, fun j hj => ?_⟩
              · rw [hcol]; split
                · exact .inr rfl
                split
                · exact .inl rfl
                split
                · exact .inl rfl
                exact hok.cols j hj
              · rw [hflg, hrt]; exact hok.flags j hj
            have body : ∀ x, t3.at g.idx = some x → rbBody ⟨t, i, false⟩ = .ok ⟨t3, g.idx, x.isRoot⟩ := by
              intro x ex
              rw [hu] at e3 e4
              simp only [rbBody, e1, ok_bind, e2, e3, e4, if_true, rbRecolor, asIdx, p1, p2, p3, getNode_ok ex]
            have hxg : ∀ x, t3.at g.idx = some x → x.isRoot = decide (g.idx = t.rootIdx) := by
              intro x ex
              have := hflg g.idx
              rw [hok.flags _ hgm] at this
              simpa [flagOf, ex] using this
            have dis := (recolour_apart h hum).2.2.2
            have near := recolour_colour h hok hf hu hu1 hcol
            obtain ⟨L0, R0, ep0⟩ := frame_plug g [] (Around.plug [f] (.node A i B))
            have ep0' : Around.plug [f, g] (.node A i B) = .node L0 g.idx R0 := by rw [plug_cons]; exact ep0
            have eq3 : Around.plug (f :: g :: c) (.node A i B) = Around.plug c (.node L0 g.idx R0) := by
              rw [← ep0', plug_two]
            obtain ⟨x, ex⟩ := Option.isSome_iff_exists.mp (h3.isSome hgm)
            by_cases hstop : g.idx = t.rootIdx
            · refine ⟨t3, _, g.idx, true, ⟨rfl, h3, hent, hok3, fun hN => ?_, fun ha => (recolour_back h hok hf hu hu1 hcol ha).2⟩, ?_⟩
              · obtain ⟨n1, n2, n3⟩ := near hN
                have hcn : c = [] := by
                  cases c with
                  | nil => rfl
                  | cons f' c' =>
                    have hr' := h3.root
                    rw [eq3] at hr'
                    have := root_above (by simp) hr'
                    rw [hrt, ← hstop] at this
                    exact absurd rfl (dis _ this).2.1
                subst hcn
                exact ⟨n1, n3⟩
              · intro fuel hfu
                obtain ⟨f', rfl⟩ : ∃ f', fuel = f' + 1 + 1 := ⟨fuel - 2, by omega⟩
                refine (while_step (s' := ⟨t3, g.idx, true⟩) _ condT ?_).trans (while_stop _ (show rbCond (κ := κ) (δ := δ) ⟨t3, g.idx, true⟩ = .ok false from rfl))
                rw [body x ex, hxg x ex, decide_eq_true hstop]
            · have hc0 : c ≠ [] → colOf t3.at t3.rootIdx = some 0 := by
                intro hcn
                have hr' := h3.root
                rw [eq3] at hr'
                obtain ⟨x1, x2, x3⟩ := dis _ (root_above hcn hr')
                rw [hcol, if_neg x2, if_neg x1, if_neg x3, hrt]
                exact hroot (by simp)
              obtain ⟨t', T', w, st, D, hrun⟩ := ih c t3 L0 R0 g.idx (by simp at hc; omega) (by rw [← eq3]; exact h3) (by rw [← eq3]; exact hok3)
                (by rw [hcol, if_pos rfl]) hc0
              refine ⟨t', T', w, st, ⟨by rw [eq3]; exact D.ids, D.tree, hent.trans D.ent, D.ok, fun hN => D.colour ?_, fun ha hN => ?_⟩, ?_⟩
              · obtain ⟨n1, n2, n3⟩ := near hN
                exact ⟨by rw [← ep0']; exact n1, n2, by rw [← eq3]; exact n3⟩
              · obtain ⟨q1, q2⟩ := recolour_back h hok hf hu hu1 hcol ha
                exact q2 (by rw [eq3]; exact D.back q1 hN)
              · intro fuel hfu
                obtain ⟨f', rfl⟩ : ∃ f', fuel = f' + 1 := ⟨fuel - 1, by omega⟩
                refine (while_step (s' := ⟨t3, g.idx, false⟩) _ condT ?_).trans (hrun f' (by omega))
                rw [body x ex, hxg x ex, decide_eq_false hstop]
          · have hub : BlackRoot t.at g.other := by
              intro u hu'
              rcases hok.cols u (hug u (Shape.root_mem hu')) with h0 | h1
              · exact h0
              · exact absurd ⟨u, hu', h1⟩ hu
            have e4 : isRedAt t g.other.root = .ok false := by
              cases hr : g.other.root with
              | none => rfl
              | some u =>
                obtain ⟨x, ex⟩ := Option.isSome_iff_exists.mp (h.isSome (hug u (Shape.root_mem hr)))
                simp only [isRedAt, getNode_ok ex, ok_bind, isCol_at ex (hub u hr)]; rfl
            obtain ⟨t', P, x, Q, y, R', z, S, H, e5⟩ := rbRotate_spec h hok hi hf
            obtain ⟨ny, eny⟩ := Option.isSome_iff_exists.mp (H.tree.isSome (j := y) (by rw [Around.ids_plug]; simp [Shape.ids]))
            have hok' : RbOk t' (Around.plug c (.node (.node P x Q) y (.node R' z S))) := by
              refine ⟨fun j hj => ?_, H.flags⟩
              by_cases h1 : j = x
              · subst h1; exact .inr H.colx
              by_cases h2 : j = y
              · subst h2; exact .inl H.coly
              by_cases h3 : j = z
              · subst h3; exact .inr H.colz
              rw [H.cold j h1 h2 h3]
              exact hok.cols j (by rw [← H.ids]; exact hj)
            refine ⟨t', _, y, ny.isRoot, ⟨H.ids, H.tree, H.ent, hok', fun hN => rb_turn_colour H hi hf (hok.cols _ hgm) hub hN,
              fun ha hN => rb_turn_back H hi hf (hok.cols _ hgm) ha hN⟩, ?_⟩
            intro fuel hfu
            obtain ⟨f', rfl⟩ : ∃ f', fuel = f' + 1 + 1 := ⟨fuel - 2, by omega⟩
            refine (while_step (s' := ⟨t', y, ny.isRoot⟩) _ condT ?_).trans (while_stop _ (rbCond_black H.tree H.coly hok'))
            simp only [rbBody, e1, ok_bind, e2, e3, e4, if_neg Bool.false_ne_true, e5, getNode_ok eny]
end Props
