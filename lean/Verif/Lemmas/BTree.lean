import Verif.Model.BinaryTree
import Verif.Lemmas.Py

/-!
# Shapes of array-stored binary trees

`Shape` is a finite binary tree of array positions. `Linked` says that the cells of the array link up to the shape.
-/
namespace Props
open Py Model
set_option linter.unusedSectionVars false
variable {κ δ : Type}

/-- A finite binary tree of array positions. -/
inductive Shape where
  | leaf
  | node (l : Shape) (i : Nat) (r : Shape)
  deriving DecidableEq, Repr

namespace Shape

/-- The position at the root. -/
def root : Shape → Option Nat
  | leaf => none
  | node _ i _ => some i

/-- The positions, from left to right. -/
def ids : Shape → List Nat
  | leaf => []
  | node l i r => l.ids ++ i :: r.ids

/-- The height; an empty tree has height 0. -/
def depth : Shape → Nat
  | leaf => 0
  | node l _ r => max l.depth r.depth + 1

theorem depth_le : ∀ T : Shape, T.depth ≤ T.ids.length := by
  intro T
  induction T with
  | leaf => simp [depth, ids]
  | node l i r ih1 ih2 => simp only [depth, ids, List.length_append, List.length_cons]; omega

theorem root_mem {T : Shape} {i : Nat} (h : T.root = some i) : i ∈ T.ids := by
  cases T with
  | leaf => cases h
  | node l j r => simp [root] at h; subst h; simp [ids]

theorem root_none {T : Shape} (h : T.root = none) : T = leaf := by
  cases T with
  | leaf => rfl
  | node l j r => cases h

end Shape

/-- One step of the way down to a hole: into the left or into the right subtree. -/
inductive Frame where
  | inL (i : Nat) (r : Shape)
  | inR (l : Shape) (i : Nat)

/-- The position of the node the step leaves from. -/
def Frame.idx : Frame → Nat
  | .inL i _ => i
  | .inR _ i => i

/-- The sibling subtree the step leaves aside. -/
def Frame.other : Frame → Shape
  | .inL _ r => r
  | .inR l _ => l

/-- The rest of the tree around a hole, innermost step first. -/
abbrev Around := List Frame

namespace Around

/-- Fill the hole. -/
def plug : Around → Shape → Shape
  | [], T => T
  | .inL i r :: c, T => plug c (.node T i r)
  | .inR l i :: c, T => plug c (.node l i T)

/-- The parent of the hole. -/
def up : Around → Option Nat
  | [] => none
  | f :: _ => some f.idx

/-- Positions left of the hole. -/
def before : Around → List Nat
  | [] => []
  | .inL _ _ :: c => before c
  | .inR l i :: c => before c ++ (l.ids ++ [i])

/-- Positions right of the hole. -/
def after : Around → List Nat
  | [] => []
  | .inL i r :: c => i :: r.ids ++ after c
  | .inR _ _ :: c => after c

theorem ids_plug : ∀ (c : Around) (T : Shape), (plug c T).ids = before c ++ T.ids ++ after c := by
  intro c
  induction c with
  | nil => intro T; simp [plug, before, after]
  | cons f c ih =>
    intro T
    cases f with
    | inL i r => simp [plug, before, after, ih, Shape.ids, List.append_assoc]
    | inR l i => simp [plug, before, after, ih, Shape.ids, List.append_assoc]

theorem up_mem {c : Around} {i : Nat} (h : up c = some i) : i ∈ before c ++ after c := by
  cases c with
  | nil => cases h
  | cons f c =>
    cases f with
    | inL j r => simp [up, Frame.idx] at h; subst h; simp [before, after]
    | inR l j => simp [up, Frame.idx] at h; subst h; simp [before, after]

theorem root_plug : ∀ (c : Around) (T T' : Shape), T'.root = T.root → (plug c T').root = (plug c T).root := by
  intro c
  induction c with
  | nil => intro T T' h; exact h
  | cons f c ih =>
    intro T T' h
    cases f with
    | inL i r => exact ih _ _ rfl
    | inR l i => exact ih _ _ rfl

theorem root_plug_cons (f : Frame) (c : Around) (T T' : Shape) : (plug (f :: c) T').root = (plug (f :: c) T).root := by
  cases f with
  | inL i r => exact root_plug c _ _ rfl
  | inR l i => exact root_plug c _ _ rfl

theorem plug_append : ∀ (c d : Around) (T : Shape), plug (c ++ d) T = plug d (plug c T) := by
  intro c
  induction c with
  | nil => intro d T; rfl
  | cons f c ih =>
    intro d T
    cases f with
    | inL i r => exact ih _ _
    | inR l i => exact ih _ _

end Around

/-- The array as a partial function from positions to nodes. -/
abbrev Cells (κ δ : Type) := Nat → Option (BNode κ δ)

/-- The node at a position, if there is one. -/
def _root_.Model.BTree.at (t : BTree κ δ) : Cells κ δ := fun i => (t.arr[i]?).join

/-- The cell at `i` has these links; the parent is required to be `p` only if `up` is set. -/
def LinksAt (up : Bool) (h : Cells κ δ) (p l : Option Nat) (i : Nat) (r : Option Nat) : Prop :=
  ∃ n, h i = some n ∧ n.left = l ∧ n.right = r ∧ (up = true → n.parent = p)

/-- The cells link up to the shape `T` below the parent `p`. -/
def Linked (up : Bool) (h : Cells κ δ) : Option Nat → Shape → Prop
  | _, .leaf => True
  | p, .node l i r => LinksAt up h p l.root i r.root ∧ Linked up h (some i) l ∧ Linked up h (some i) r

/-- The cells around a hole link up, the link into the hole being `x`. -/
def LinkedAround (up : Bool) (h : Cells κ δ) : Around → Option Nat → Prop
  | [], _ => True
  | .inL i r :: c, x => LinksAt up h (Around.up c) x i r.root ∧ Linked up h (some i) r ∧ LinkedAround up h c (some i)
  | .inR l i :: c, x => LinksAt up h (Around.up c) l.root i x ∧ Linked up h (some i) l ∧ LinkedAround up h c (some i)

theorem linked_plug (up : Bool) (h : Cells κ δ) : ∀ (c : Around) (T : Shape),
    Linked up h none (c.plug T) ↔ LinkedAround up h c T.root ∧ Linked up h (Around.up c) T := by
  intro c
  induction c with
  | nil => intro T; simp [Around.plug, LinkedAround, Around.up]
  | cons f c ih =>
    intro T
    cases f with
    | inL i r =>
      rw [Around.plug, ih]
      simp only [LinkedAround, Linked, Shape.root, Around.up, Frame.idx]
      constructor
      · rintro ⟨h1, h2, h3, h4⟩; exact ⟨⟨h2, h4, h1⟩, h3⟩
      · rintro ⟨⟨h2, h4, h1⟩, h3⟩; exact ⟨h1, h2, h3, h4⟩
    | inR l i =>
      rw [Around.plug, ih]
      simp only [LinkedAround, Linked, Shape.root, Around.up, Frame.idx]
      constructor
      · rintro ⟨h1, h2, h3, h4⟩; exact ⟨⟨h2, h3, h1⟩, h4⟩
      · rintro ⟨⟨h2, h4, h1⟩, h3⟩; exact ⟨h1, h2, h4, h3⟩

/-- The links of a node. -/
def _root_.Model.BNode.links (n : BNode κ δ) : Option Nat × Option Nat × Option Nat := (n.left, n.right, n.parent)

/-- The links of a cell. -/
def linksOf (h : Cells κ δ) (i : Nat) : Option (Option Nat × Option Nat × Option Nat) := (h i).map BNode.links

theorem linksAt_congr {up : Bool} {h h' : Cells κ δ} {p l r : Option Nat} {i : Nat} (e : linksOf h' i = linksOf h i)
    (H : LinksAt up h p l i r) : LinksAt up h' p l i r := by
  obtain ⟨n, e1, e2, e3, e4⟩ := H
  simp only [linksOf, e1, Option.map_some, Option.map_eq_some_iff] at e
  obtain ⟨m, em, el⟩ := e
  simp only [BNode.links, Prod.mk.injEq] at el
  exact ⟨m, em, by rw [el.1, e2], by rw [el.2.1, e3], fun hu => by rw [el.2.2, e4 hu]⟩

theorem linked_congr {up : Bool} {h h' : Cells κ δ} : ∀ {T : Shape} {p : Option Nat},
    (∀ i ∈ T.ids, linksOf h' i = linksOf h i) → Linked up h p T → Linked up h' p T := by
  intro T
  induction T with
  | leaf => intros; trivial
  | node l i r ih1 ih2 =>
    intro p e H
    exact ⟨linksAt_congr (e i (by simp [Shape.ids])) H.1,
      ih1 (fun j hj => e j (by simp [Shape.ids, hj])) H.2.1, ih2 (fun j hj => e j (by simp [Shape.ids, hj])) H.2.2⟩

/-- Give a subtree another parent. -/
theorem linked_reparent {up : Bool} {h h' : Cells κ δ} {T : Shape} {p q : Option Nat}
    (e : ∀ i ∈ T.ids, T.root ≠ some i → linksOf h' i = linksOf h i)
    (er : ∀ i, T.root = some i → ∀ n, h i = some n →
      ∃ n', h' i = some n' ∧ n'.left = n.left ∧ n'.right = n.right ∧ n'.parent = q)
    (nd : T.ids.Nodup) (H : Linked up h p T) : Linked up h' q T := by
  cases T with
  | leaf => trivial
  | node l i r =>
    obtain ⟨⟨n, e1, e2, e3, _⟩, H1, H2⟩ := H
    obtain ⟨n', e1', e2', e3', e4'⟩ := er i rfl n e1
    simp only [Shape.ids] at nd e
    refine ⟨⟨n', e1', by rw [e2', e2], by rw [e3', e3], fun _ => e4'⟩, linked_congr ?_ H1, linked_congr ?_ H2⟩
    · intro j hj
      exact e j (by simp [hj]) (by simp only [Shape.root]; grind)
    · intro j hj
      exact e j (by simp [hj]) (by simp only [Shape.root]; grind)

theorem around_congr {up : Bool} {h h' : Cells κ δ} : ∀ {c : Around} {x : Option Nat},
    (∀ i ∈ Around.before c ++ Around.after c, linksOf h' i = linksOf h i) → LinkedAround up h c x →
    LinkedAround up h' c x := by
  intro c
  induction c with
  | nil => intros; trivial
  | cons f c ih =>
    intro x e H
    cases f with
    | inL i r =>
      simp only [Around.before, Around.after, List.mem_append, List.cons_append, List.mem_cons] at e
      refine ⟨linksAt_congr (e i (by simp)) H.1, linked_congr (fun j hj => e j (by simp [hj])) H.2.1, ih ?_ H.2.2⟩
      intro j hj
      simp only [List.mem_append] at hj
      exact e j (by rcases hj with h | h <;> simp [h])
    | inR l i =>
      simp only [Around.before, Around.after, List.mem_append, List.mem_cons] at e
      refine ⟨linksAt_congr (e i (by simp)) H.1, linked_congr (fun j hj => e j (by simp [hj])) H.2.1, ih ?_ H.2.2⟩
      intro j hj
      simp only [List.mem_append] at hj
      exact e j (by rcases hj with h | h <;> simp [h])

/-- The positions of the whole tree are distinct: what that says around the hole. -/
theorem around_fresh {f : Frame} {c : Around} {T : Shape} (nd : (Around.plug (f :: c) T).ids.Nodup) :
    f.idx ∉ T.ids ∧ f.idx ∉ f.other.ids ∧
    f.idx ∉ Around.before c ++ Around.after c := by
  rw [Around.ids_plug] at nd
  cases f with
  | inL i r => simp only [Around.before, Around.after, Frame.idx, Frame.other] at nd ⊢; grind
  | inR l i => simp only [Around.before, Around.after, Frame.idx, Frame.other] at nd ⊢; grind

/-- `n'` is `n` with the link of the step `f` turned to `y`. -/
def Frame.Turned (f : Frame) (n n' : BNode κ δ) (y : Option Nat) : Prop :=
  match f with
  | .inL _ _ => n'.left = y ∧ n'.right = n.right
  | .inR _ _ => n'.left = n.left ∧ n'.right = y

/-- Redirect the link into the hole. -/
theorem around_redirect {up : Bool} {h h' : Cells κ δ} {f : Frame} {c : Around} {x y : Option Nat}
    (nd : (Around.plug (f :: c) .leaf).ids.Nodup)
    (e : ∀ i ∈ Around.before (f :: c) ++ Around.after (f :: c), f.idx ≠ i → linksOf h' i = linksOf h i)
    (er : ∀ n, h f.idx = some n → ∃ n', h' f.idx = some n' ∧ n'.parent = n.parent ∧
      f.Turned n n' y)
    (H : LinkedAround up h (f :: c) x) : LinkedAround up h' (f :: c) y := by
  have hfr := around_fresh nd
  cases f with
  | inL i r =>
    simp only [Frame.idx, Frame.other, Frame.Turned, Around.before, Around.after, List.mem_append, List.cons_append, List.mem_cons] at *
    obtain ⟨⟨n, e1, e2, e3, e4⟩, H1, H2⟩ := H
    obtain ⟨n', a1, a2, a3, a4⟩ := er n e1
    refine ⟨⟨n', a1, a3, by rw [a4, e3], fun hu => by rw [a2, e4 hu]⟩, linked_congr ?_ H1, around_congr ?_ H2⟩
    · intro j hj
      exact e j (by simp [hj]) (by rintro rfl; exact hfr.2.1 hj)
    · intro j hj
      simp only [List.mem_append] at hj
      exact e j (by rcases hj with h | h <;> simp [h]) (by rintro rfl; exact hfr.2.2 hj)
  | inR l i =>
    simp only [Frame.idx, Frame.other, Frame.Turned, Around.before, Around.after, List.mem_append, List.mem_cons] at *
    obtain ⟨⟨n, e1, e2, e3, e4⟩, H1, H2⟩ := H
    obtain ⟨n', a1, a2, a3, a4⟩ := er n e1
    refine ⟨⟨n', a1, by rw [a3, e2], a4, fun hu => by rw [a2, e4 hu]⟩, linked_congr ?_ H1, around_congr ?_ H2⟩
    · intro j hj
      exact e j (by simp [hj]) (by rintro rfl; exact hfr.2.1 hj)
    · intro j hj
      simp only [List.mem_append] at hj
      exact e j (by rcases hj with h | h <;> simp [h]) (by rintro rfl; exact hfr.2.2 hj)

/-! ## Reading and writing cells -/

theorem at_some {t : BTree κ δ} {i : Nat} {n : BNode κ δ} : t.at i = some n ↔ t.arr[i]? = some (some n) := by
  unfold BTree.at
  cases h : t.arr[i]? with
  | none => simp
  | some o => cases o <;> simp

theorem at_lt {t : BTree κ δ} {i : Nat} {n : BNode κ δ} (h : t.at i = some n) : i < t.arr.length := by
  have := at_some.mp h
  exact (List.getElem?_eq_some_iff.mp this).1

theorem getNode_ok {t : BTree κ δ} {i : Nat} {n : BNode κ δ} (h : t.at i = some n) : getNode t i = .ok n := by
  simp [getNode, rd, at_some.mp h, cell]

theorem getNode?_ok {t : BTree κ δ} {i : Nat} {n : BNode κ δ} (h : t.at i = some n) : getNode? t (some i) = .ok n := by
  simp [getNode?, asIdx, getNode_ok h]

theorem getNode_eq_ok {t : BTree κ δ} {i : Nat} {n : BNode κ δ} (h : getNode t i = .ok n) : t.at i = some n := by
  rw [at_some]
  unfold getNode rd at h
  cases e : t.arr[i]? with
  | none => simp [e] at h
  | some o =>
    cases o with
    | none => simp [e, cell] at h
    | some m => simp [e, cell] at h; rw [h]

/-- Rewriting the cell `i`. -/
def _root_.Model.BTree.upd (t : BTree κ δ) (i : Nat) (n : BNode κ δ) : BTree κ δ := { t with arr := t.arr.set i (some n) }

theorem modNode_ok {t : BTree κ δ} {i : Nat} {n : BNode κ δ} (f : BNode κ δ → BNode κ δ) (h : t.at i = some n) :
    modNode t i f = .ok (t.upd i (f n)) := by
  simp [modNode, getNode_ok h, BTree.upd]

theorem upd_at {t : BTree κ δ} {i : Nat} {n m : BNode κ δ} (h : t.at i = some m) :
    (t.upd i n).at = fun j => if j = i then some n else t.at j := by
  funext j
  have hl := at_lt h
  simp only [BTree.upd, BTree.at, List.getElem?_set]
  by_cases hj : i = j
  · subst hj; simp [hl]
  · rw [if_neg hj, if_neg (fun e => hj e.symm)]

end Props
