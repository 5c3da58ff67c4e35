import Verif.Model.Cartesian
import Verif.Props.Avl

/-!
# C80: Cartesian trees and treaps built by insertions
-/
namespace Props
open Py Model Spec
set_option linter.unusedSectionVars false
variable {κ δ : Type} [DecidableEq κ]

/-- The priority stored at a position. -/
def prioOf (h : Cells κ δ) (i : Nat) : Option Int := (h i).bind BNode.prio

/-- Both positions have a priority, and that of `i` is at most that of `j`. -/
def PrioLe (h : Cells κ δ) (i j : Nat) : Prop := ∃ a b, prioOf h i = some a ∧ prioOf h j = some b ∧ a ≤ b

theorem PrioLe.trans {h : Cells κ δ} {i j k : Nat} (h1 : PrioLe h i j) (h2 : PrioLe h j k) : PrioLe h i k := by
  obtain ⟨a, b, ea, eb, l1⟩ := h1
  obtain ⟨b', c, eb', ec, l2⟩ := h2
  rw [eb] at eb'; cases eb'
  exact ⟨a, c, ea, ec, by omega⟩

/-- Heap order: no node below `i` has a smaller priority than `i`. -/
def MinHeap (h : Cells κ δ) : Shape → Prop
  | .leaf => True
  | .node l i r => (∀ j ∈ l.ids ++ r.ids, PrioLe h i j) ∧ MinHeap h l ∧ MinHeap h r

/-- Heap order around a hole filled with the positions `D`. -/
def HeapAround (h : Cells κ δ) : Around → List Nat → Prop
  | [], _ => True
  | f :: c, D => MinHeap h f.other ∧ (∀ j ∈ f.other.ids ++ D, PrioLe h f.idx j) ∧ HeapAround h c (f.idx :: f.other.ids ++ D)

theorem HeapAround.mono {h : Cells κ δ} : ∀ {c : Around} {D D' : List Nat}, (∀ j ∈ D', j ∈ D) → HeapAround h c D → HeapAround h c D' := by
  intro c
  induction c with
  | nil => intros; trivial
  | cons f c ih =>
    intro D D' hs H
    refine ⟨H.1, fun j hj => H.2.1 j ?_, ih ?_ H.2.2⟩
    · simp only [List.mem_append] at hj ⊢; rcases hj with hj | hj
      · exact .inl hj
      · exact .inr (hs j hj)
    · intro j hj
      simp only [List.cons_append, List.mem_cons, List.mem_append] at hj ⊢
      rcases hj with hj | hj | hj
      · exact .inl hj
      · exact .inr (.inl hj)
      · exact .inr (.inr (hs j hj))

/-- A position above one of the present ones may be added. -/
theorem HeapAround.add {h : Cells κ δ} {i j : Nat} (hij : PrioLe h j i) : ∀ {c : Around} {D : List Nat}, j ∈ D → HeapAround h c D → HeapAround h c (i :: D) := by
  intro c
  induction c with
  | nil => intros; trivial
  | cons f c ih =>
    intro D hj H
    refine ⟨H.1, ?_, ?_⟩
    · intro x hx
      simp only [List.mem_append, List.mem_cons] at hx
      rcases hx with hx | rfl | hx
      · exact H.2.1 x (by simp [hx])
      · exact (H.2.1 j (by simp [hj])).trans hij
      · exact H.2.1 x (by simp [hx])
    · refine HeapAround.mono ?_ (ih (D := f.idx :: f.other.ids ++ D) (by simp [hj]) H.2.2)
      intro x hx
      simp only [List.cons_append, List.mem_cons, List.mem_append] at hx ⊢
      rcases hx with hx | hx | hx | hx <;> simp [hx]

theorem minHeap_plug {h : Cells κ δ} : ∀ {c : Around} {S : Shape}, MinHeap h (Around.plug c S) ↔ HeapAround h c S.ids ∧ MinHeap h S := by
  intro c
  induction c with
  | nil => intro S; simp [Around.plug, HeapAround]
  | cons f c ih =>
    intro S
    cases f with
    | inL i r =>
      show MinHeap h (Around.plug c (.node S i r)) ↔ _
      rw [ih]
      constructor
      · rintro ⟨h1, h2, h3, h4⟩
        refine ⟨⟨h4, ?_, h1.mono ?_⟩, h3⟩
        · intro j hj; simp only [Frame.other, List.mem_append] at hj; exact h2 j (by simp only [List.mem_append]; exact hj.symm)
        · intro j hj; simp only [Frame.other, Frame.idx, List.cons_append, List.mem_cons, List.mem_append, Shape.ids] at hj ⊢
          rcases hj with hj | hj | hj <;> simp [hj]
      · rintro ⟨⟨h4, h2, h1⟩, h3⟩
        refine ⟨h1.mono ?_, ?_, h3, h4⟩
        · intro j hj; simp only [Frame.other, Frame.idx, List.cons_append, List.mem_cons, List.mem_append, Shape.ids] at hj ⊢
          rcases hj with hj | hj | hj <;> simp [hj]
        · intro j hj; simp only [List.mem_append] at hj; exact h2 j (by simp only [Frame.other, List.mem_append]; exact hj.symm)
    | inR l i =>
      show MinHeap h (Around.plug c (.node l i S)) ↔ _
      rw [ih]
      constructor
      · rintro ⟨h1, h2, h3, h4⟩
        refine ⟨⟨h3, ?_, h1.mono ?_⟩, h4⟩
        · intro j hj; simp only [Frame.other, List.mem_append] at hj; exact h2 j (by simp only [List.mem_append]; exact hj)
        · intro j hj; simp only [Frame.other, Frame.idx, List.cons_append, List.mem_cons, List.mem_append, Shape.ids] at hj ⊢
          rcases hj with hj | hj | hj <;> simp [hj]
      · rintro ⟨⟨h4, h2, h1⟩, h3⟩
        refine ⟨h1.mono ?_, ?_, h4, h3⟩
        · intro j hj; simp only [Frame.other, Frame.idx, List.cons_append, List.mem_cons, List.mem_append, Shape.ids] at hj ⊢
          rcases hj with hj | hj | hj <;> simp [hj]
        · intro j hj; simp only [List.mem_append] at hj; exact h2 j (by simp only [Frame.other, List.mem_append]; exact hj)

theorem prioLe_congr {h h' : Cells κ δ} {i j : Nat} (ei : prioOf h' i = prioOf h i) (ej : prioOf h' j = prioOf h j) (H : PrioLe h i j) : PrioLe h' i j := by
  obtain ⟨a, b, ea, eb, l⟩ := H
  exact ⟨a, b, by rw [ei, ea], by rw [ej, eb], l⟩

theorem minHeap_congr {h h' : Cells κ δ} : ∀ {T : Shape}, (∀ i ∈ T.ids, prioOf h' i = prioOf h i) → MinHeap h T → MinHeap h' T := by
  intro T
  induction T with
  | leaf => intros; trivial
  | node l i r ih1 ih2 =>
    rintro e ⟨h1, h2, h3⟩
    refine ⟨fun j hj => prioLe_congr (e i (by simp [Shape.ids])) (e j ?_) (h1 j hj), ih1 (fun j hj => e j (by simp [Shape.ids, hj])) h2,
      ih2 (fun j hj => e j (by simp [Shape.ids, hj])) h3⟩
    simp only [List.mem_append] at hj; rcases hj with hj | hj <;> simp [Shape.ids, hj]

theorem SameContent.prio {h h' : Cells κ δ} (H : SameContent h h') (i : Nat) : prioOf h' i = prioOf h i := by
  have := H i
  unfold prioOf
  cases e : h' i <;> cases e' : h i <;> simp_all [BNode.strip]

theorem SameContent.entries {t t' : BTree κ δ} (hr : SameRest t t') (H : SameContent t.at t'.at) : SameEntries t t' :=
  (kept_of_content hr H).entries

/-- All positions have a priority. -/
def AllPrio (h : Cells κ δ) (T : Shape) : Prop := ∀ j ∈ T.ids, (prioOf h j).isSome

/-- The loop of `_bubble_up` from the position `i`. -/
theorem bubble_loop : ∀ (c : Around) (t : BTree κ δ) (A B : Shape) (i : Nat), TreeAt true t (Around.plug c (.node A i B)) →
    AllPrio t.at (Around.plug c (.node A i B)) →
    ∃ c' A' B' t', (Around.plug c' (.node A' i B')).ids = (Around.plug c (.node A i B)).ids ∧ TreeAt true t' (Around.plug c' (.node A' i B')) ∧
      SameRest t t' ∧ SameContent t.at t'.at ∧ (c' ≠ [] → t'.rootIdx = t.rootIdx) ∧
      (HeapAround t.at c (A.ids ++ B.ids) → MinHeap t.at (.node A i B) → MinHeap t'.at (Around.plug c' (.node A' i B'))) ∧
      ∀ fuel > c.length, whileLoop fuel (bubbleCond i) (bubbleBody i) t = .ok t' := by
  intro c
  induction c with
  | nil =>
    intro t A B i h _
    obtain ⟨n, en, _, _, n3⟩ := h.node
    refine ⟨[], A, B, t, rfl, h, .refl t, .refl _, fun e => absurd rfl e, fun _ H => H, fun fuel hf => ?_⟩
    obtain ⟨f, rfl⟩ : ∃ f, fuel = f + 1 := ⟨fuel - 1, by omega⟩
    refine while_stop _ ?_
    simp only [bubbleCond, getNode_ok en, ok_bind, n3, Around.up]
  | cons fr c ih =>
    intro t A B i h hp
    obtain ⟨n, en, n1, n2, n3⟩ := h.node
    have hpi : (prioOf t.at i).isSome := hp i (by rw [Around.ids_plug]; simp [Shape.ids])
    have hpf : (prioOf t.at fr.idx).isSome := hp fr.idx (by
      rw [Around.ids_plug]
      have := Around.up_mem (c := fr :: c) rfl
      simp only [List.mem_append] at this ⊢
      rcases this with this | this <;> simp [this])
    obtain ⟨pi, epi⟩ := Option.isSome_iff_exists.mp hpi
    obtain ⟨pf, epf⟩ := Option.isSome_iff_exists.mp hpf
    have hni : n.prio = some pi := by simpa [prioOf, en] using epi
    have up3 : n.parent = some fr.idx := n3
    by_cases hgt : pf > pi
    · cases fr with
      | inL j C =>
        have h' : TreeAt true t (Around.plug c (.node (.node A i B) j C)) := h
        obtain ⟨m, em, m1, m2, _⟩ := h'.node
        have hmj : m.prio = some pf := by simpa [prioOf, Frame.idx, em] using epf
        have hne : m.right ≠ some i := by
          rw [m2]
          have hi := h.fresh
          simp only [Around.before, Around.after, List.mem_append, List.mem_cons, not_or] at hi
          exact root_ne (by simp_all)
        obtain ⟨t1, e1, h1, r1, s1⟩ := rightRotate_spec h'
        have eids : (Around.plug c (.node A i (.node B j C))).ids = (Around.plug (.inL j C :: c) (.node A i B)).ids := by
          rw [Around.ids_plug, Around.ids_plug]; simp [Around.before, Around.after, Shape.ids]
        obtain ⟨c', A', B', t', x1, x2, x3, x4, x5, x6, x7⟩ := ih t1 A (.node B j C) i h1 (fun x hx => by
          rw [s1.prio]; exact hp x (by rw [← eids]; exact hx))
        refine ⟨c', A', B', t', x1.trans eids, x2, r1.trans x3, s1.trans x4, ?_, ?_, ?_⟩
        · intro hc'
          have hr1 : t1.rootIdx = t.rootIdx ∨ c = [] := by
            cases c with
            | nil => exact .inr rfl
            | cons g c =>
              left
              have a := h1.root
              have b := h'.root
              rw [Around.root_plug_cons g c (.node (.node A i B) j C) _, b] at a
              exact (Option.some.inj a).symm
          rcases hr1 with hr1 | rfl
          · rw [x5 hc', hr1]
          · exfalso
            -- the walk ends at the root
            have := x7 1 (by simp)
            obtain ⟨n1', en1', _, _, n3'⟩ := h1.node
            rw [while_stop _ (by simp only [bubbleCond, getNode_ok en1', ok_bind, n3', Around.up])] at this
            cases this
            obtain ⟨n2', en2', _, _, n4'⟩ := x2.node
            rw [en1'] at en2'; cases en2'
            rw [n3'] at n4'
            cases c' with
            | nil => exact hc' rfl
            | cons g c' => cases n4'
        · rintro ⟨g1, g2, g3⟩ ⟨g4, g5, g6⟩
          simp only [Frame.other, Frame.idx] at g1 g2 g3
          have hij : PrioLe t.at i j := ⟨pi, pf, epi, epf, by omega⟩
          refine x6 (HeapAround.mono ?_ (?_ : HeapAround t1.at c (j :: C.ids ++ (A.ids ++ B.ids)))) (minHeap_congr (fun x _ => s1.prio x) ⟨?_, g5, ?_, g6, g1⟩)
          · intro x hx
            simp only [Shape.ids, List.mem_append, List.mem_cons, List.cons_append] at hx ⊢
            rcases hx with hx | hx | hx | hx <;> simp [hx]
          · have hcg : ∀ {c : Around} {D : List Nat}, HeapAround t.at c D → HeapAround t1.at c D := by
              intro c
              induction c with
              | nil => intros; trivial
              | cons f c ih =>
                intro D H
                exact ⟨minHeap_congr (fun x _ => s1.prio x) H.1, fun x hx => prioLe_congr (s1.prio _) (s1.prio _) (H.2.1 x hx), ih H.2.2⟩
            exact hcg g3
          · intro x hx
            simp only [Shape.ids, List.mem_append, List.mem_cons] at hx
            rcases hx with hx | hx | rfl | hx
            · exact g4 x (by simp [hx])
            · exact g4 x (by simp [hx])
            · exact hij
            · exact hij.trans (g2 x (by simp [hx]))
          · intro x hx
            simp only [List.mem_append] at hx
            rcases hx with hx | hx <;> exact g2 x (by simp [hx])
        · intro fuel hf
          obtain ⟨f, rfl⟩ : ∃ f, fuel = f + 1 := ⟨fuel - 1, by omega⟩
          refine (while_step (s' := t1) f ?_ ?_).trans (x7 f (by simp at hf; omega))
          · simp only [bubbleCond, getNode_ok en, ok_bind, up3, Frame.idx, getNode_ok em, hmj, hni, prioGt, decide_eq_true hgt]
          · simp only [bubbleBody, getNode_ok en, ok_bind, up3, Frame.idx, asIdx, getNode_ok em, if_neg hne, e1]
      | inR C j =>
        have h' : TreeAt true t (Around.plug c (.node C j (.node A i B))) := h
        obtain ⟨m, em, m1, m2, _⟩ := h'.node
        have hmj : m.prio = some pf := by simpa [prioOf, Frame.idx, em] using epf
        obtain ⟨t1, e1, h1, r1, s1⟩ := leftRotate_spec h'
        have eids : (Around.plug c (.node (.node C j A) i B)).ids = (Around.plug (.inR C j :: c) (.node A i B)).ids := by
          rw [Around.ids_plug, Around.ids_plug]; simp [Around.before, Around.after, Shape.ids]
        obtain ⟨c', A', B', t', x1, x2, x3, x4, x5, x6, x7⟩ := ih t1 (.node C j A) B i h1 (fun x hx => by
          rw [s1.prio]; exact hp x (by rw [← eids]; exact hx))
        refine ⟨c', A', B', t', x1.trans eids, x2, r1.trans x3, s1.trans x4, ?_, ?_, ?_⟩
        · intro hc'
          have hr1 : t1.rootIdx = t.rootIdx ∨ c = [] := by
            cases c with
            | nil => exact .inr rfl
            | cons g c =>
              left
              have a := h1.root
              have b := h'.root
              rw [Around.root_plug_cons g c (.node C j (.node A i B)) _, b] at a
              exact (Option.some.inj a).symm
          rcases hr1 with hr1 | rfl
          · rw [x5 hc', hr1]
          · exfalso
            have := x7 1 (by simp)
            obtain ⟨n1', en1', _, _, n3'⟩ := h1.node
            rw [while_stop _ (by simp only [bubbleCond, getNode_ok en1', ok_bind, n3', Around.up])] at this
            cases this
            obtain ⟨n2', en2', _, _, n4'⟩ := x2.node
            rw [en1'] at en2'; cases en2'
            rw [n3'] at n4'
            cases c' with
            | nil => exact hc' rfl
            | cons g c' => cases n4'
        · rintro ⟨g1, g2, g3⟩ ⟨g4, g5, g6⟩
          simp only [Frame.other, Frame.idx] at g1 g2 g3
          have hij : PrioLe t.at i j := ⟨pi, pf, epi, epf, by omega⟩
          refine x6 (HeapAround.mono ?_ (?_ : HeapAround t1.at c (j :: C.ids ++ (A.ids ++ B.ids)))) (minHeap_congr (fun x _ => s1.prio x) ⟨?_, ⟨?_, g1, g5⟩, g6⟩)
          · intro x hx
            simp only [Shape.ids, List.mem_append, List.mem_cons, List.cons_append] at hx ⊢
            rcases hx with (hx | hx | hx) | hx <;> simp [hx]
          · have hcg : ∀ {c : Around} {D : List Nat}, HeapAround t.at c D → HeapAround t1.at c D := by
              intro c
              induction c with
              | nil => intros; trivial
              | cons f c ih =>
                intro D H
                exact ⟨minHeap_congr (fun x _ => s1.prio x) H.1, fun x hx => prioLe_congr (s1.prio _) (s1.prio _) (H.2.1 x hx), ih H.2.2⟩
            exact hcg g3
          · intro x hx
            simp only [Shape.ids, List.mem_append, List.mem_cons] at hx
            rcases hx with (hx | rfl | hx) | hx
            · exact hij.trans (g2 x (by simp [hx]))
            · exact hij
            · exact g4 x (by simp [hx])
            · exact g4 x (by simp [hx])
          · intro x hx
            simp only [List.mem_append] at hx
            rcases hx with hx | hx <;> exact g2 x (by simp [hx])
        · intro fuel hf
          obtain ⟨f, rfl⟩ : ∃ f, fuel = f + 1 := ⟨fuel - 1, by omega⟩
          refine (while_step (s' := t1) f ?_ ?_).trans (x7 f (by simp at hf; omega))
          · simp only [bubbleCond, getNode_ok en, ok_bind, up3, Frame.idx, getNode_ok em, hmj, hni, prioGt, decide_eq_true hgt]
          · have : m.right = some i := m2
            simp only [bubbleBody, getNode_ok en, ok_bind, up3, Frame.idx, asIdx, getNode_ok em, if_pos this, e1]
    · refine ⟨fr :: c, A, B, t, rfl, h, .refl t, .refl _, fun _ => rfl, ?_, fun fuel hf => ?_⟩
      · intro g1 g2
        rw [minHeap_plug]
        refine ⟨?_, g2⟩
        have hji : PrioLe t.at fr.idx i := ⟨pf, pi, epf, epi, by omega⟩
        obtain ⟨a1, a2, a3⟩ := g1
        refine ⟨a1, ?_, ?_⟩
        · intro x hx
          simp only [Shape.ids, List.mem_append, List.mem_cons] at hx
          rcases hx with hx | hx | rfl | hx
          · exact a2 x (by simp [hx])
          · exact a2 x (by simp [hx])
          · exact hji
          · exact a2 x (by simp [hx])
        · refine HeapAround.mono ?_ (HeapAround.add hji (j := fr.idx) (by simp) a3)
          intro x hx
          simp only [Shape.ids, List.mem_append, List.mem_cons, List.cons_append] at hx ⊢
          rcases hx with hx | hx | hx | hx | hx <;> simp [hx]
      · obtain ⟨f, rfl⟩ : ∃ f, fuel = f + 1 := ⟨fuel - 1, by omega⟩
        refine while_stop _ ?_
        obtain ⟨m, em⟩ : ∃ m, t.at fr.idx = some m := by
          cases e : t.at fr.idx with
          | none => simp [prioOf, e] at epf
          | some m => exact ⟨m, rfl⟩
        have hmj : m.prio = some pf := by simpa [prioOf, em] using epf
        simp only [bubbleCond, getNode_ok en, ok_bind, up3, getNode_ok em, hmj, hni, prioGt, decide_eq_false hgt]

/-- Every node carries a priority, namely the one recorded for its key. -/
def Prios (t : BTree κ δ) (T : Shape) (pm : κ → Option (Option Int)) : Prop :=
  ∀ j ∈ T.ids, ∃ n k p, t.at j = some n ∧ n.key = some k ∧ n.prio = some p ∧ pm k = some (some p)

/-- The root is marked as such. -/
def RootFlag (t : BTree κ δ) : Prop := ∃ n, t.at t.rootIdx = some n ∧ n.isRoot = true

/-- The state after a history of Cartesian tree insertions; `H` says when the heap order is kept. -/
inductive CartState (lt : κ → κ → Bool) (os : Bool) (H : Prop) (t : BTree κ δ) (m : κ → Option (Option δ)) (pm : κ → Option (Option Int)) : Prop where
  | empty (h : t = btEmpty os) (hm : ∀ k, m k = none)
  | tree (T : Shape) (ok : BstOk lt t T) (car : Carries t T m) (pr : Prios t T pm) (flag : RootFlag t) (heap : H → MinHeap t.at T)

theorem Prios.all {t : BTree κ δ} {T : Shape} {pm : κ → Option (Option Int)} (h : Prios t T pm) : AllPrio t.at T := by
  intro j hj
  obtain ⟨n, k, p, en, _, hp, _⟩ := h j hj
  simp [prioOf, en, hp]

/-- Cells that agree up to links. -/
theorem SameContent.prios {t t' : BTree κ δ} {T T' : Shape} {pm : κ → Option (Option Int)} (s : SameContent t.at t'.at) (e : T'.ids = T.ids)
    (h : Prios t T pm) : Prios t' T' pm := by
  intro j hj
  obtain ⟨n, k, p, en, hk, hp, hm⟩ := h j (by rw [← e]; exact hj)
  have := s j
  rw [en] at this
  cases e' : t'.at j with
  | none => rw [e'] at this; simp at this
  | some n' =>
    rw [e'] at this
    simp only [Option.map_some, Option.some.injEq, BNode.strip, BNode.mk.injEq] at this
    exact ⟨n', k, p, rfl, by rw [this.1, hk], by rw [this.2.2.2.2.2.2.2.2.1, hp], hm⟩

/-- Everything `insert` does after `super().insert` and `search`. -/
def cartFinish (fuel : Nat) (t : BTree κ δ) (k : κ) (prio : Int) (d : Option δ) (i : Nat) : PyM (BTree κ δ) := do
  let n ← getNode t i
  let t ← modNode t i (fun n => { key := some k, data := d, prio := some prio, left := n.left, right := n.right, parent := n.parent })
  if n.isRoot then modNode t i (fun n => { n with isRoot := true }) else bubbleUp fuel t i

theorem sameEntries_mapAt {t t' : BTree κ δ} {i : Nat} {f : BNode κ δ → BNode κ δ} (a : t'.at = mapAt t.at i f) (r : SameRest t t')
    (hf : ∀ n, t.at i = some n → (f n).key = n.key ∧ (f n).data = n.data) : SameEntries t t' := by
  refine ⟨r, fun j => ?_, fun j => ?_⟩ <;>
  · rw [a]
    unfold mapAt
    by_cases hj : j = i
    · subst hj
      rw [if_pos rfl]
      cases e : t.at j with
      | none => rfl
      | some n => simp [hf n e]
    · rw [if_neg hj]

theorem treeAt_mapAt {up : Bool} {t t' : BTree κ δ} {T : Shape} {i : Nat} {f : BNode κ δ → BNode κ δ} (a : t'.at = mapAt t.at i f)
    (q : t'.rootIdx = t.rootIdx) (hf : ∀ n, (f n).links = n.links) (h : TreeAt up t T) : TreeAt up t' T := by
  refine ⟨by rw [q]; exact h.root, linked_congr (fun j _ => ?_) h.linked, h.nodup⟩
  simp only [linksOf, a, mapAt]
  split
  · simp only [Option.map_map]; congr 1; funext n; exact hf n
  · rfl

theorem mapAt_same {h : Cells κ δ} {i : Nat} {f : BNode κ δ → BNode κ δ} {n : BNode κ δ} (e : h i = some n) : mapAt h i f i = some (f n) := by
  simp [mapAt, e]

/-- The new priority of the node in the hole fits: it is at most the priorities below and, if the node is marked as root (so that it is not moved), at
least that of the parent. -/
structure HeapFits (h : Cells κ δ) (c : Around) (A B : Shape) (prio : Int) (marked : Bool) : Prop where
  around : HeapAround h c (A.ids ++ B.ids)
  left : MinHeap h A
  right : MinHeap h B
  below : ∀ j ∈ A.ids ++ B.ids, ∃ p, prioOf h j = some p ∧ prio ≤ p
  above : marked = true → c = [] ∨ ∃ f c' p, c = f :: c' ∧ prioOf h f.idx = some p ∧ p ≤ prio

theorem HeapFits.new {h : Cells κ δ} {c : Around} {prio : Int} {marked : Bool} (h1 : marked = true → c = []) (h2 : HeapAround h c []) :
    HeapFits h c .leaf .leaf prio marked :=
  ⟨h2, trivial, trivial, by simp [Shape.ids], fun h => .inl (h1 h)⟩

theorem heap_plug_le {h : Cells κ δ} {f : Frame} {c : Around} {A B : Shape} {i : Nat} (g1 : HeapAround h (f :: c) (A.ids ++ B.ids)) (g2 : MinHeap h (.node A i B))
    (hji : PrioLe h f.idx i) : MinHeap h (Around.plug (f :: c) (.node A i B)) := by
  rw [minHeap_plug]
  refine ⟨?_, g2⟩
  obtain ⟨a1, a2, a3⟩ := g1
  refine ⟨a1, ?_, ?_⟩
  · intro x hx
    simp only [Shape.ids, List.mem_append, List.mem_cons] at hx
    rcases hx with hx | hx | rfl | hx
    · exact a2 x (by simp [hx])
    · exact a2 x (by simp [hx])
    · exact hji
    · exact a2 x (by simp [hx])
  · refine HeapAround.mono ?_ (HeapAround.add hji (j := f.idx) (by simp) a3)
    intro x hx
    simp only [Shape.ids, List.mem_append, List.mem_cons, List.cons_append] at hx ⊢
    rcases hx with hx | hx | hx | hx | hx <;> simp [hx]

theorem cart_finish {lt : κ → κ → Bool} {t : BTree κ δ} {m : κ → Option (Option δ)} {pm : κ → Option (Option Int)} {c : Around} {A B : Shape} {i : Nat} {k : κ}
    {prio : Int} {d : Option δ} {n : BNode κ δ} {H : Prop} {os : Bool} (ht : StrictTotal (ltRel lt)) (ok : BstOk lt t (Around.plug c (.node A i B)))
    (car : Carries t (Around.plug c (.node A i B)) m)
    (en : t.at i = some n) (hk : n.key = some k) (hd : n.data = d) (flag : RootFlag t)
    (pr : ∀ j ∈ (Around.plug c (.node A i B)).ids, j ≠ i → ∃ n k p, t.at j = some n ∧ n.key = some k ∧ n.prio = some p ∧ pm k = some (some p))
    (hH : H → HeapFits t.at c A B prio n.isRoot) :
    ∃ t', CartState lt os H t' m (fun k' => if k' = k then some (some prio) else pm k') ∧
      ∀ fuel > (Around.plug c (.node A i B)).ids.length, cartFinish fuel t k prio d i = .ok t' := by
  obtain ⟨t1, e1, a1, r1, q1⟩ := modNode_spec (t := t) (i := i)
    (fun n => { key := some k, data := d, prio := some prio, left := n.left, right := n.right, parent := n.parent }) (by rw [en]; rfl)
  have E1 : SameEntries t t1 := sameEntries_mapAt a1 r1 (by intro x ex; rw [en] at ex; cases ex; exact ⟨hk.symm, hd.symm⟩)
  have T1 : TreeAt true t1 (Around.plug c (.node A i B)) := treeAt_mapAt a1 q1 (fun _ => rfl) ok.tree
  have ok1 := E1.bstOk ok T1 rfl
  have car1 := E1.carries (T' := Around.plug c (.node A i B)) rfl car
  have hni : ∀ j ∈ (Around.plug c (.node A i B)).ids, keyOf t.at j = some k → j = i := by
    intro j hj hj'
    exact ok.srt.inj ht hj (by rw [Around.ids_plug]; simp [Shape.ids]) hj' (by simp [keyOf, en, hk])
  have oth1 : ∀ j, j ≠ i → t1.at j = t.at j := fun j hj => by rw [a1]; simp [mapAt, hj]
  have pr1 : Prios t1 (Around.plug c (.node A i B)) (fun k' => if k' = k then some (some prio) else pm k') := by
    intro j hj
    by_cases hji : j = i
    · subst hji
      exact ⟨_, k, prio, by rw [a1]; exact mapAt_same en, rfl, rfl, by simp⟩
    · obtain ⟨x, k', p, ex, hk', hp, hpm⟩ := pr j hj hji
      refine ⟨x, k', p, by rw [oth1 j hji, ex], hk', hp, ?_⟩
      have hne : k' ≠ k := by rintro rfl; exact hji (hni j hj (by simp [keyOf, ex, hk']))
      show (if k' = k then some (some prio) else pm k') = _
      rw [if_neg hne, hpm]
  have hprio1 : ∀ j, j ≠ i → prioOf t1.at j = prioOf t.at j := fun j hj => by unfold prioOf; rw [oth1 j hj]
  have hmem1 : ∀ j ∈ Around.before c ++ Around.after c, j ≠ i := by
    rintro j hj rfl
    exact T1.fresh.2.2 hj
  have heap1 : H → HeapAround t1.at c (A.ids ++ B.ids) ∧ MinHeap t1.at (.node A i B) := by
    intro h
    obtain ⟨hh, hA, hB, hbel, _⟩ := hH h
    have hnd := T1.nodup
    rw [Around.ids_plug, List.nodup_iff_count] at hnd
    have hAB : ∀ j ∈ A.ids ++ B.ids, j ≠ i := by
      rintro j hj rfl
      have := hnd j
      have hp := List.count_pos_iff.mpr hj
      simp only [Shape.ids, List.count_append, List.count_cons, beq_self_eq_true, if_true] at this hp
      omega
    refine ⟨?_, ⟨fun j hj => ?_, minHeap_congr (fun j hj => hprio1 j (hAB j (by simp [hj]))) hA, minHeap_congr (fun j hj => hprio1 j (hAB j (by simp [hj]))) hB⟩⟩
    rotate_left
    · obtain ⟨p, ep, hle⟩ := hbel j hj
      exact ⟨prio, p, by unfold prioOf; rw [a1, mapAt_same en]; rfl, by rw [hprio1 j (hAB j hj), ep], hle⟩
    have : ∀ (c : Around) (D : List Nat), (∀ j ∈ Around.before c ++ Around.after c, j ≠ i) → (∀ j ∈ D, j ≠ i) → HeapAround t.at c D → HeapAround t1.at c D := by
      intro c
      induction c with
      | nil => intros; trivial
      | cons f c ih =>
        intro D h1 h2 G
        have hfo : ∀ j ∈ f.other.ids, j ≠ i := by
          intro j hj; apply h1
          cases f <;> simp only [Frame.other] at hj <;> simp [Around.before, Around.after, hj]
        have hfi : f.idx ≠ i := by
          apply h1
          cases f <;> simp [Around.before, Around.after, Frame.idx]
        refine ⟨minHeap_congr (fun j hj => hprio1 j (hfo j hj)) G.1, ?_, ih _ ?_ ?_ G.2.2⟩
        · intro j hj
          refine prioLe_congr (hprio1 _ hfi) (hprio1 j ?_) (G.2.1 j hj)
          simp only [List.mem_append] at hj
          rcases hj with hj | hj
          · exact hfo j hj
          · exact h2 j hj
        · intro j hj
          apply h1
          simp only [List.mem_append] at hj
          cases f <;> rcases hj with hj | hj <;> simp [Around.before, Around.after, hj]
        · intro j hj
          simp only [List.cons_append, List.mem_cons, List.mem_append] at hj
          rcases hj with rfl | hj | hj
          · exact hfi
          · exact hfo j hj
          · exact h2 j hj
    exact this c _ hmem1 hAB hh
  cases hroot : n.isRoot with
  | true =>
    obtain ⟨t2, e2, a2, r2, q2⟩ := modNode_spec (t := t1) (i := i) (fun n => { n with isRoot := true }) (by rw [a1]; simp [mapAt, en])
    have E2 : SameEntries t1 t2 := sameEntries_mapAt a2 r2 (fun _ _ => ⟨rfl, rfl⟩)
    have T2 := treeAt_mapAt a2 q2 (fun _ => rfl) T1
    have hpr2 : ∀ j, prioOf t2.at j = prioOf t1.at j := by
      intro j; unfold prioOf; rw [a2]; unfold mapAt
      split
      · cases t1.at j <;> rfl
      · rfl
    refine ⟨t2, .tree _ (E2.bstOk ok1 T2 rfl) (E2.carries rfl car1) ?_ ?_ ?_, fun fuel hf => ?_⟩
    · intro j hj
      obtain ⟨x, k', p, ex, h1, h2, h3⟩ := pr1 j hj
      by_cases hji : j = i
      · exact ⟨{ x with isRoot := true }, k', p, by rw [a2, hji]; exact mapAt_same (hji ▸ ex), h1, h2, h3⟩
      · exact ⟨x, k', p, by rw [a2]; simp [mapAt, hji, ex], h1, h2, h3⟩
    · obtain ⟨x, ex, hx⟩ := flag
      by_cases hri : t.rootIdx = i
      · exact ⟨_, by rw [q2, q1, hri, a2, a1]; exact mapAt_same (mapAt_same en), rfl⟩
      · exact ⟨x, by rw [q2, q1, a2, a1]; simp [mapAt, hri, ex], hx⟩
    · intro h
      obtain ⟨g1, g2⟩ := heap1 h
      refine minHeap_congr (fun j _ => hpr2 j) ?_
      rcases (hH h).above hroot with rfl | ⟨f, c', p, rfl, ep, hle⟩
      · exact g2
      · refine heap_plug_le g1 g2 ⟨p, prio, ?_, by unfold prioOf; rw [a1, mapAt_same en]; rfl, hle⟩
        rw [hprio1 _ (hmem1 _ ?_), ep]
        cases f <;> simp [Around.before, Around.after, Frame.idx]
    · simp only [cartFinish, getNode_ok en, ok_bind, e1, hroot, if_true, e2]
  | false =>
    have hcne : c ≠ [] := by
      rintro rfl
      obtain ⟨x, ex, hx⟩ := flag
      have hr := ok.tree.root
      simp only [Around.plug, Shape.root, Option.some.injEq] at hr
      rw [← hr, en] at ex; cases ex; rw [hroot] at hx; cases hx
    obtain ⟨c', A', B', t2, x1, x2, x3, x4, x5, x6, x7⟩ := bubble_loop c t1 A B i T1 pr1.all
    have E2 : SameEntries t1 t2 := SameContent.entries x3 x4
    obtain ⟨n1, en1, _, _, np1⟩ := T1.node
    obtain ⟨n2, en2, _, _, np2⟩ := x2.node
    have hstart : ∃ y, getNode? t1 n1.parent = .ok y := by
      cases c with
      | nil => exact absurd rfl hcne
      | cons f c =>
        have hm : f.idx ∈ (Around.plug (f :: c) (.node A i B)).ids := by
          rw [Around.ids_plug]
          have := Around.up_mem (c := f :: c) rfl
          simp only [List.mem_append] at this ⊢
          rcases this with this | this <;> simp [this]
        obtain ⟨y, ey⟩ := Option.isSome_iff_exists.mp (linked_isSome T1.linked _ hm)
        exact ⟨y, by rw [np1]; exact getNode?_ok ey⟩
    obtain ⟨y, ey⟩ := hstart
    have hlen : c.length < (Around.plug c (.node A i B)).ids.length := by
      have := around_length (c := c) (S := .node A i B) rfl
      simp [Shape.ids] at this; omega
    cases hc' : c' with
    | nil =>
      subst hc'
      obtain ⟨t3, e3, a3, r3, q3⟩ := modNode_spec (t := t2) (i := i) (fun n => { n with isRoot := true }) (by rw [en2]; rfl)
      have E3 : SameEntries t2 t3 := sameEntries_mapAt a3 r3 (fun _ _ => ⟨rfl, rfl⟩)
      have T3 := treeAt_mapAt a3 q3 (fun _ => rfl) x2
      have hpr3 : ∀ j, prioOf t3.at j = prioOf t2.at j := by
        intro j; unfold prioOf; rw [a3]; unfold mapAt
        split
        · cases t2.at j <;> rfl
        · rfl
      refine ⟨t3, .tree _ (E3.bstOk (E2.bstOk ok1 x2 x1) T3 rfl) (E3.carries rfl (E2.carries x1 car1)) ?_ ?_ ?_, fun fuel hf => ?_⟩
      · intro j hj
        obtain ⟨x, k', p, ex, h1, h2, h3⟩ := x4.prios x1 pr1 j hj
        by_cases hji : j = i
        · exact ⟨{ x with isRoot := true }, k', p, by rw [a3, hji]; exact mapAt_same (hji ▸ ex), h1, h2, h3⟩
        · exact ⟨x, k', p, by rw [a3]; simp [mapAt, hji, ex], h1, h2, h3⟩
      · have hr := T3.root
        simp only [Around.plug, Shape.root, Option.some.injEq] at hr
        exact ⟨{ n2 with isRoot := true }, by rw [← hr, a3]; simp [mapAt, en2], rfl⟩
      · intro h
        obtain ⟨g1, g2⟩ := heap1 h
        exact minHeap_congr (fun j _ => hpr3 j) (x6 g1 g2)
      · have hp2 : n2.parent = none := np2
        simp only [cartFinish, getNode_ok en, ok_bind, e1, hroot, Bool.false_eq_true, if_false, bubbleUp, getNode_ok en1, ey, x7 fuel (by omega),
          getNode_ok en2, if_pos hp2, e3]
    | cons g c'' =>
      rw [hc'] at x1 x2 x5 x6 np2
      have hp2 : ¬ n2.parent = none := by rw [np2]; exact nofun
      refine ⟨t2, .tree _ (E2.bstOk ok1 x2 x1) (E2.carries x1 car1) (x4.prios x1 pr1) ?_ ?_, fun fuel hf => ?_⟩
      · obtain ⟨x, ex, hx⟩ := flag
        have hri : t.rootIdx ≠ i := by
          intro e
          rw [e, en] at ex; cases ex; rw [hroot] at hx; cases hx
        have e1' : t1.at t.rootIdx = some x := by rw [oth1 _ hri, ex]
        have := x4 t.rootIdx
        rw [e1'] at this
        rw [RootFlag, x5 nofun, q1]
        cases e' : t2.at t.rootIdx with
        | none => rw [e'] at this; simp at this
        | some x' =>
          rw [e'] at this
          simp only [Option.map_some, Option.some.injEq, BNode.strip, BNode.mk.injEq] at this
          exact ⟨x', rfl, by rw [this.2.2.2.2.2.2.2.1, hx]⟩
      · intro h
        obtain ⟨g1, g2⟩ := heap1 h
        exact x6 g1 g2
      · simp only [cartFinish, getNode_ok en, ok_bind, e1, hroot, Bool.false_eq_true, if_false, bubbleUp, getNode_ok en1, ey, x7 fuel (by omega),
          getNode_ok en2, if_neg hp2]

/-- `search` finds the position of a key. -/
theorem search_at {lt : κ → κ → Bool} (ht : StrictTotal (ltRel lt)) {t : BTree κ δ} {T : Shape} (ok : BstOk lt t T) {i : Nat} {k : κ} (hi : i ∈ T.ids)
    (hk : keyOf t.at i = some k) : ∀ fuel > T.ids.length + 1, bstSearch lt fuel t k = .ok (some i) := by
  obtain ⟨c, S, rfl, hF, hrun⟩ := search_spec ht ok.tree ok.srt k
  have hdep := Shape.depth_le (Around.plug c S)
  intro fuel hf
  rcases hF.here with rfl | ⟨l, i', r, rfl, hi'⟩
  · exact absurd hk (hF.absent ht i hi)
  · have : i' = i := ok.srt.inj ht (by rw [Around.ids_plug]; simp [Shape.ids]) hi hi' hk
    subst this
    exact hrun fuel (by omega)

theorem cartInsert_eq {lt : κ → κ → Bool} {fuel : Nat} {t t1 t2 : BTree κ δ} {k : κ} {prio : Int} {d : Option δ} {i : Nat}
    (h1 : bstInsert lt fuel t k d = .ok t1) (h2 : bstSearch lt fuel t1 k = .ok (some i)) (h3 : cartFinish fuel t1 k prio d i = .ok t2) :
    cartInsert lt fuel t k prio d = .ok t2 := by
  unfold cartFinish at h3
  simp only [cartInsert, h1, ok_bind, h2, asIdx]
  exact h3

theorem cartState_insert {lt : κ → κ → Bool} (ht : StrictTotal (ltRel lt)) {os : Bool} {H : Prop} {t : BTree κ δ} {m : κ → Option (Option δ)}
    {pm : κ → Option (Option Int)} (h : CartState lt os H t m pm) (k : κ) (prio : Int) (d : Option δ) :
    ∃ t', CartState lt os (H ∧ m k = none) t' (fun k' => if k' = k then some d else m k') (fun k' => if k' = k then some (some prio) else pm k') ∧
      ∃ n0, ∀ fuel, n0 ≤ fuel → cartInsert lt fuel t k prio d = .ok t' := by
  cases h with
  | empty h hm =>
    subst h
    have ok := btFirst_ok (δ := δ) lt os k d
    have e0 : (btFirst os k d).at 0 = some { key := some k, data := d, isRoot := true } := rfl
    obtain ⟨t', h1, h2⟩ := cart_finish (os := os) (H := H ∧ m k = none) (pm := pm) (prio := prio) (c := []) (A := .leaf) (B := .leaf) ht ok (carries_first os k d hm) e0 rfl rfl
      ⟨_, e0, rfl⟩ (by intro j hj hji; simp [Around.plug, Shape.ids] at hj; exact absurd hj hji) (fun _ => .new (fun _ => rfl) trivial)
    refine ⟨t', h1, 4, fun fuel hf => ?_⟩
    exact cartInsert_eq (bstInsert_first os k d) (search_at ht ok (i := 0) (by simp [Shape.ids]) rfl fuel (by simp [Shape.ids]; omega))
      (h2 fuel (by simp [Around.plug, Shape.ids]; omega))
  | tree T ok car pr flag heap =>
    rcases bstInsert_spec ht ok k d with ⟨i, t1, hi, hk, hr, hrun⟩ | ⟨f, c, t1, rfl, habs, hI, hrun⟩
    · have ok1 := hr.bstOk ok
      have car1 := hr.carries ht ok hi hk car
      obtain ⟨n, en⟩ := Option.isSome_iff_exists.mp (linked_isSome ok.tree.linked i hi)
      have e1 : t1.at i = some { n with data := d } := by rw [hr.cells]; exact mapAt_same en
      have hnk : n.key = some k := by simpa [keyOf, en] using hk
      have hsome : (m k).isSome := by
        rw [Option.isSome_iff_exists]
        exact ⟨n.data, (car k _).mpr ⟨i, hi, n, en, hnk, rfl⟩⟩
      obtain ⟨c, A, B, rfl⟩ := plug_of_mem T i hi
      obtain ⟨t', h1, h2⟩ := cart_finish (os := os) (H := H ∧ m k = none) (pm := pm) (prio := prio) ht ok1 car1 e1 hnk rfl
        (by
          obtain ⟨x, ex, hx⟩ := flag
          rw [RootFlag, hr.rootIdx, hr.cells]
          by_cases h : t.rootIdx = i
          · exact ⟨{ x with data := d }, by rw [h]; exact mapAt_same (h ▸ ex), hx⟩
          · exact ⟨x, by simp [mapAt, h, ex], hx⟩)
        (by
          intro j hj hji
          obtain ⟨x, k', p, ex, a, b, c⟩ := pr j hj
          exact ⟨x, k', p, by rw [hr.cells]; simp [mapAt, hji, ex], a, b, c⟩)
        (by rintro ⟨_, h⟩; rw [h] at hsome; cases hsome)
      refine ⟨t', h1, (Around.plug c (.node A i B)).ids.length + 2, fun fuel hf => ?_⟩
      exact cartInsert_eq (hrun fuel (by omega)) (search_at ht ok1 hi (by rw [hr.sameKey, hk]) fuel (by omega)) (h2 fuel (by omega))
    · obtain ⟨s, hs⟩ := hI.new
      have car1 := hI.carries ok habs car
      have hmem : ∀ j ∈ (Around.plug (f :: c) (.node .leaf t.top .leaf)).ids, j ≠ t.top → j ∈ (Around.plug (f :: c) .leaf).ids := by
        intro j hj hne
        rw [Around.ids_plug] at hj ⊢
        simp only [Shape.ids, List.append_nil, List.nil_append, List.mem_append, List.mem_singleton] at hj ⊢
        rcases hj with (hj | hj) | hj
        · exact .inl hj
        · exact absurd hj hne
        · exact .inr hj
      have hold : ∀ j, j ≠ t.top → ∀ x, t.at j = some x → ∃ x', t1.at j = some x' ∧ x'.key = x.key ∧ x'.prio = x.prio ∧ x'.isRoot = x.isRoot := by
        intro j hj x ex
        have := hI.old j hj
        rw [ex] at this
        cases e' : t1.at j with
        | none => rw [e'] at this; simp at this
        | some x' =>
          rw [e'] at this
          simp only [Option.map_some, Option.some.injEq, BNode.core, BNode.mk.injEq] at this
          exact ⟨x', rfl, this.1, this.2.2.2.2.2.2.2.2.1, this.2.2.2.2.2.2.2.1⟩
      have hrt : t.rootIdx ≠ t.top := Nat.ne_of_lt (ok.lt_top _ (Shape.root_mem ok.tree.root))
      obtain ⟨t', h1, h2⟩ := cart_finish (os := os) (H := H ∧ m k = none) (pm := pm) (prio := prio) ht hI.ok car1 hs rfl rfl
        (by
          obtain ⟨x, ex, hx⟩ := flag
          obtain ⟨x', ex', _, _, h3⟩ := hold _ hrt x ex
          exact ⟨x', by rw [hI.rootIdx, ex'], by rw [h3, hx]⟩)
        (by
          intro j hj hji
          obtain ⟨x, k', p, ex, a, b, c⟩ := pr j (hmem j hj hji)
          obtain ⟨x', ex', h1, h2, _⟩ := hold j hji x ex
          exact ⟨x', k', p, ex', by rw [h1, a], by rw [h2, b], c⟩)
        (by
          rintro ⟨hH, _⟩
          refine .new nofun ?_
          have := (minHeap_plug.mp (heap hH)).1
          have hp : ∀ j ∈ (Around.plug (f :: c) .leaf).ids, prioOf t1.at j = prioOf t.at j := by
            intro j hj
            have hne : j ≠ t.top := Nat.ne_of_lt (ok.lt_top j hj)
            obtain ⟨x, ex⟩ := Option.isSome_iff_exists.mp (linked_isSome ok.tree.linked j hj)
            obtain ⟨x', ex', _, h2, _⟩ := hold j hne x ex
            simp [prioOf, ex, ex', h2]
          have hm1 : MinHeap t1.at (Around.plug (f :: c) .leaf) := minHeap_congr hp (heap hH)
          exact (minHeap_plug.mp hm1).1)
      have hlen : (Around.plug (f :: c) (.node .leaf t.top .leaf)).ids.length = (Around.plug (f :: c) .leaf).ids.length + 1 := by
        rw [Around.ids_plug, Around.ids_plug]; simp [Shape.ids]; omega
      refine ⟨t', h1, (Around.plug (f :: c) .leaf).ids.length + 3, fun fuel hf => ?_⟩
      exact cartInsert_eq (hrun fuel (by omega)) (search_at ht hI.ok (i := t.top) (by rw [Around.ids_plug]; simp [Shape.ids]) (by simp [keyOf, hs]) fuel (by omega))
        (h2 fuel (by omega))

/-- A history of `CartesianTree.insert(key, priority, data)` calls; a treap history is the same with the drawn priorities. -/
def cartInserts (lt : κ → κ → Bool) (fuel : Nat) (t : BTree κ δ) (ops : List (κ × Int × Option δ)) : PyM (BTree κ δ) :=
  ops.foldlM (fun t op => cartInsert lt fuel t op.1 op.2.1 op.2.2) t

/-- A history of `Treap.insert(key, data)` calls together with the priorities drawn. -/
def treapInserts (lt : κ → κ → Bool) (fuel : Nat) (t : BTree κ δ) (ops : List (κ × Int × Option δ)) : PyM (BTree κ δ) :=
  ops.foldlM (fun t op => treapInsert lt fuel t op.1 op.2.2 op.2.1) t

/-- The keys with their data, in the order of insertion. -/
def entries (ops : List (κ × Int × Option δ)) : List (κ × Option δ) := ops.map (fun op => (op.1, op.2.2))

/-- The keys with their priorities, in the order of insertion. -/
def priorities (ops : List (κ × Int × Option δ)) : List (κ × Option Int) := ops.map (fun op => (op.1, some op.2.1))

theorem lastData_cons_eq {ε : Type} (op : κ × Option ε) (ops : List (κ × Option ε)) (m : κ → Option (Option ε)) :
    (fun k => (lastData (op :: ops) k).or (m k)) = fun k => (lastData ops k).or (if k = op.1 then some op.2 else m k) := by
  funext k
  simp only [lastData, Option.or_assoc]
  congr 1
  by_cases hk : op.1 = k
  · simp [hk]
  · rw [if_neg hk, if_neg (fun e => hk e.symm), Option.none_or]

theorem cartState_history {lt : κ → κ → Bool} (ht : StrictTotal (ltRel lt)) {os : Bool} : ∀ (ops : List (κ × Int × Option δ)) (H : Prop) (t : BTree κ δ)
    (m : κ → Option (Option δ)) (pm : κ → Option (Option Int)), CartState lt os H t m pm →
    ∃ t', CartState lt os (H ∧ (ops.map (·.1)).Nodup ∧ ∀ k ∈ ops.map (·.1), m k = none) t' (fun k => (lastData (entries ops) k).or (m k))
        (fun k => (lastData (priorities ops) k).or (pm k)) ∧
      ∃ n0, ∀ fuel, n0 ≤ fuel → cartInserts lt fuel t ops = .ok t' := by
  intro ops
  induction ops with
  | nil =>
    intro H t m pm h
    refine ⟨t, ?_, 0, fun _ _ => rfl⟩
    simpa [lastData, entries, priorities] using h
  | cons op ops ih =>
    intro H t m pm h
    obtain ⟨t1, h1, n1, r1⟩ := cartState_insert ht h op.1 op.2.1 op.2.2
    obtain ⟨t2, h2, n2, r2⟩ := ih _ t1 _ _ h1
    refine ⟨t2, ?_, max n1 n2, ?_⟩
    · rw [show entries (op :: ops) = (op.1, op.2.2) :: entries ops from rfl, show priorities (op :: ops) = (op.1, some op.2.1) :: priorities ops from rfl,
        lastData_cons_eq, lastData_cons_eq]
      have mono : ∀ {H H' : Prop} {t : BTree κ δ} {m : κ → Option (Option δ)} {pm : κ → Option (Option Int)}, (H' → H) → CartState lt os H t m pm → CartState lt os H' t m pm := by
        intro H H' t m pm hh hs
        cases hs with
        | empty a b => exact .empty a b
        | tree T a b c d e => exact .tree T a b c d (fun x => e (hh x))
      refine mono ?_ h2
      rintro ⟨a, b, c⟩
      simp only [List.map_cons, List.nodup_cons, List.mem_cons, forall_eq_or_imp] at b c
      refine ⟨⟨a, c.1⟩, b.2, ?_⟩
      intro k hk
      rw [if_neg (by rintro rfl; exact b.1 hk)]
      exact c.2 k hk
    · intro fuel hf
      have e1 := r1 fuel (by omega)
      have e2 := r2 fuel (by omega)
      unfold cartInserts at e2 ⊢
      rw [List.foldlM_cons, e1]
      exact e2

theorem cart_history {lt : κ → κ → Bool} (ht : StrictTotal (ltRel lt)) (os : Bool) (ops : List (κ × Int × Option δ)) :
    ∃ t, CartState lt os (ops.map (·.1)).Nodup t (lastData (entries ops)) (lastData (priorities ops)) ∧
      EndsWith (fun n => cartInserts lt n (btEmpty os) ops) (.ok t) := by
  obtain ⟨t, h, n0, hr⟩ := cartState_history ht ops True (btEmpty os) (fun _ => none) (fun _ => none) (.empty rfl (fun _ => rfl))
  exact ⟨t, by simpa using h, n0, hr⟩

/-- After any history of insertions (keys may repeat), `search` finds exactly the inserted keys, each with the data inserted last. -/
theorem C80_search {lt : κ → κ → Bool} (ht : StrictTotal (ltRel lt)) (os : Bool) (ops : List (κ × Int × Option δ)) :
    ∃ t, EndsWith (fun n => cartInserts lt n (btEmpty os) ops) (.ok t) ∧
      ∀ k, ∃ r, EndsWith (fun n => bstSearch lt n t k) (.ok r) ∧ Answers t k (lastData (entries ops) k) r := by
  obtain ⟨t, hst, hrun⟩ := cart_history ht os ops
  refine ⟨t, hrun, fun k => ?_⟩
  cases hst with
  | empty h hm =>
    subst h
    exact ⟨none, ⟨0, fun n _ => rfl⟩, by rw [hm]; rfl⟩
  | tree T ok car _ _ _ => exact search_map ht ok.tree ok.srt car k

/-- The tree held in the array: its in-order traversal lists the inserted keys in increasing order, every node has the priority given with
its key last, and (under `H`) no node has a smaller priority than a node above it. -/
def CartesianTreeOf (lt : κ → κ → Bool) (t : BTree κ δ) (ops : List (κ × Int × Option δ)) (H : Prop) : Prop :=
  ∃ T ns, HoldsTree t t.rootIdx T ∧ EndsWith (fun n => treeDfs n t .ino none) (.ok ns) ∧ NodesAt t T.ids ns ∧ ListsKeys lt (lastData (entries ops)) ns ∧
    (∀ n ∈ ns, ∀ k, n.key = some k → lastData (priorities ops) k = some n.prio ∧ n.prio.isSome) ∧ (H → MinHeap t.at T)

theorem C80_tree {lt : κ → κ → Bool} (ht : StrictTotal (ltRel lt)) (os : Bool) (ops : List (κ × Int × Option δ)) (hne : ops ≠ []) :
    ∃ t, EndsWith (fun n => cartInserts lt n (btEmpty os) ops) (.ok t) ∧ CartesianTreeOf lt t ops (ops.map (·.1)).Nodup := by
  obtain ⟨t, hst, hrun⟩ := cart_history ht os ops
  cases hst with
  | empty h hm =>
    have := ops_none hm
    simp [entries] at this
    exact absurd this hne
  | tree T ok car pr _ heap =>
    have hH : HoldsTree t t.rootIdx T := ⟨ok.tree.root, ok.tree.linked.weaken, ok.tree.nodup⟩
    obtain ⟨ns, h1, h2⟩ := inorder_map ok.tree.root ok.tree.linked.weaken ok.tree.nodup ok.srt car
    obtain ⟨ns', h3, n0, h4⟩ := C74_in_order hH
    obtain ⟨n1, h5⟩ := h1
    have e : ns = ns' := by
      have a := h5 (max n0 n1) (by omega)
      have b := h4 (max n0 n1) (by omega)
      simp only [treeDfs, Option.getD_none, Option.getD_some] at a b
      rw [a] at b
      cases b; rfl
    subst e
    refine ⟨t, hrun, T, ns, hH, ⟨n1, h5⟩, h3, h2, ?_, heap⟩
    intro n hn k hk
    have hm : some n ∈ ns.map some := List.mem_map.mpr ⟨n, hn, rfl⟩
    rw [← h3] at hm
    obtain ⟨j, hj, ej⟩ := List.mem_map.mp hm
    obtain ⟨n', k', p, en, hk', hp, hpm⟩ := pr j hj
    rw [ej] at en; cases en
    rw [hk] at hk'; cases hk'
    rw [hp]; exact ⟨hpm, rfl⟩

/-- The full statement: search order and heap order after every history of insertions. -/
def C80_full : Prop :=
  ∀ ops : List (Nat × Int × Option Char), ops ≠ [] → ∃ t, EndsWith (fun n => cartInserts (fun a b => decide (a < b)) n (btEmpty false) ops) (.ok t) ∧
    CartesianTreeOf (fun a b => decide (a < b)) t ops True

/-- The full statement is proved when no key is inserted twice. -/
theorem C80_heap_order_partial {lt : κ → κ → Bool} (ht : StrictTotal (ltRel lt)) (os : Bool) (ops : List (κ × Int × Option δ)) (hne : ops ≠ [])
    (hd : (ops.map (·.1)).Nodup) :
    ∃ t, EndsWith (fun n => cartInserts lt n (btEmpty os) ops) (.ok t) ∧ CartesianTreeOf lt t ops True := by
  obtain ⟨t, h1, T, ns, a, b, c, d, e, f⟩ := C80_tree ht os ops hne
  exact ⟨t, h1, T, ns, a, b, c, d, e, fun _ => f hd⟩

/-- The same for treaps, for every outcome of the random priorities. -/
theorem C80_treap_partial {lt : κ → κ → Bool} (ht : StrictTotal (ltRel lt)) (os : Bool) (ops : List (κ × Int × Option δ)) (hne : ops ≠ []) :
    ∃ t, EndsWith (fun n => treapInserts lt n (btEmpty os) ops) (.ok t) ∧ CartesianTreeOf lt t ops (ops.map (·.1)).Nodup ∧
      ∀ k, ∃ r, EndsWith (fun n => bstSearch lt n t k) (.ok r) ∧ Answers t k (lastData (entries ops) k) r := by
  obtain ⟨t, h1, h2⟩ := C80_tree ht os ops hne
  obtain ⟨t', h3, h4⟩ := C80_search ht os ops
  obtain ⟨n1, h1⟩ := h1
  obtain ⟨n3, h3⟩ := h3
  have e : t = t' := by
    have a := h1 (max n1 n3) (by omega)
    have b := h3 (max n1 n3) (by omega)
    dsimp only at a b
    rw [a] at b; cases b; rfl
  subst e
  exact ⟨t, ⟨n1, h1⟩, h2, h4⟩

/-- Inserting a present key again with a larger priority leaves it above its children: `insert(1, 1)`, `insert(2, 2)`, `insert(1, 9)`. -/
theorem C80_full_false : ¬ C80_full := by
  intro h
  obtain ⟨t, ⟨n0, hrun⟩, T, ns, hH, _, _, _, _, hheap⟩ := h [(1, 1, none), (2, 2, none), (1, 9, none)] (by simp)
  have e : ∀ m, cartInserts (fun a b : Nat => decide (a < b)) (m + 20) (btEmpty (δ := Char) false) [(1, 1, none), (2, 2, none), (1, 9, none)] =
      .ok ⟨[some { key := some 1, data := none, right := some 1, isRoot := true, prio := some 9 },
        some { key := some 2, data := none, parent := some 0, prio := some 2 }, none], 2, 2, 0, 2, false⟩ := fun m => rfl
  have := hrun (n0 + 20) (by omega)
  dsimp only at this
  rw [e n0] at this
  cases this
  obtain ⟨hr, hl, _⟩ := hH
  cases T with
  | leaf => cases hr
  | node l i r =>
    simp only [Shape.root, Option.some.injEq] at hr
    subst hr
    obtain ⟨⟨n, en, n1, n2, _⟩, _, _⟩ := hl
    have en' : n = { key := some 1, data := none, right := some 1, isRoot := true, prio := some 9 } := by
      simpa [BTree.at] using en.symm
    subst en'
    have hr : r.root = some 1 := n2.symm
    obtain ⟨a, b, ha, hb, hab⟩ := (hheap trivial).1 1 (by simp [Shape.root_mem hr])
    simp [prioOf, BTree.at] at ha hb
    omega

/-- A concrete history with distinct keys. -/
example : (cartInserts (fun a b : Nat => decide (a < b)) 20 (btEmpty false)
      [(5, 3, some 'a'), (2, 1, some 'b'), (8, 2, none), (1, 7, some 'c'), (6, 0, none)]).bind (fun t => do
        let l ← treeDfs 40 t .pre none
        .ok (t.rootIdx, l.map (fun n => (n.key, n.prio)))) =
      .ok (4, [(some 6, some 0), (some 2, some 1), (some 1, some 7), (some 5, some 3), (some 8, some 2)]) := by decide +kernel
end Props
