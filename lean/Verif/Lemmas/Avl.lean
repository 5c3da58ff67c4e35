import Verif.Model.Avl
import Verif.Props.Bst

/-!
# Lemmas about AVL insertion
-/
namespace Props
open Py Model Spec
set_option linter.unusedSectionVars false
variable {κ δ : Type} [DecidableEq κ]

/-- Sibling subtrees differ in height by at most one, everywhere. -/
def Balanced : Shape → Prop
  | .leaf => True
  | .node l _ r => l.depth ≤ r.depth + 1 ∧ r.depth ≤ l.depth + 1 ∧ Balanced l ∧ Balanced r

/-- Every node stores the height of its subtree (a single node has height 0). -/
def Heighted (h : Cells κ δ) : Shape → Prop
  | .leaf => True
  | .node l i r => (∃ n, h i = some n ∧ n.height = ((max l.depth r.depth : Nat) : Int)) ∧ Heighted h l ∧ Heighted h r

/-- Heights and, for order statistic trees, sizes are right. -/
def Ann (os : Bool) (h : Cells κ δ) (T : Shape) : Prop := Heighted h T ∧ (os = true → Sized h T)

/-- Heights and sizes beside the way to the hole are right. -/
def AnnAround (os : Bool) (h : Cells κ δ) : Around → Prop
  | [] => True
  | f :: c => Ann os h f.other ∧ AnnAround os h c

/-- A node without links, height and size. -/
def _root_.Model.BNode.bare (n : BNode κ δ) : BNode κ δ := { n with left := none, right := none, parent := none, height := 0, size := 0 }

/-- A node without height and size. -/
def _root_.Model.BNode.unmarked (n : BNode κ δ) : BNode κ δ := { n with height := 0, size := 0 }

/-- Only links, heights and sizes may differ. -/
structure Kept (t t' : BTree κ δ) : Prop where
  rest : SameRest t t'
  bare : ∀ i, (t'.at i).map BNode.bare = (t.at i).map BNode.bare

theorem Kept.refl (t : BTree κ δ) : Kept t t := ⟨.refl t, fun _ => rfl⟩

theorem Kept.trans {a b c : BTree κ δ} (h : Kept a b) (h' : Kept b c) : Kept a c :=
  ⟨h.rest.trans h'.rest, fun i => (h'.bare i).trans (h.bare i)⟩

/-- Only height and size of the node `w` may differ. -/
structure Tweak (t t' : BTree κ δ) (w : Nat) : Prop where
  rest : SameRest t t'
  root : t'.rootIdx = t.rootIdx
  other : ∀ j, j ≠ w → t'.at j = t.at j
  same : ∀ j, (t'.at j).map BNode.unmarked = (t.at j).map BNode.unmarked

theorem heighted_congr {h h' : Cells κ δ} : ∀ {T : Shape}, (∀ i ∈ T.ids, (h' i).map BNode.height = (h i).map BNode.height) →
    Heighted h T → Heighted h' T := by
  intro T
  induction T with
  | leaf => intros; trivial
  | node l i r ih1 ih2 =>
    rintro e ⟨⟨n, en, hn⟩, h1, h2⟩
    refine ⟨?_, ih1 (fun j hj => e j (by simp [Shape.ids, hj])) h1, ih2 (fun j hj => e j (by simp [Shape.ids, hj])) h2⟩
    have := e i (by simp [Shape.ids])
    rw [en] at this
    cases e' : h' i with
    | none => rw [e'] at this; cases this
    | some n' => rw [e'] at this; exact ⟨n', rfl, by simpa [hn] using this⟩

theorem ann_congr {os : Bool} {h h' : Cells κ δ} {T : Shape} (e1 : ∀ i ∈ T.ids, (h' i).map BNode.height = (h i).map BNode.height)
    (e2 : ∀ i ∈ T.ids, (h' i).map BNode.size = (h i).map BNode.size) (H : Ann os h T) : Ann os h' T :=
  ⟨heighted_congr e1 H.1, fun ho => sized_congr e2 (H.2 ho)⟩

theorem annAround_congr {os : Bool} {h h' : Cells κ δ} : ∀ {c : Around},
    (∀ i ∈ Around.before c ++ Around.after c, (h' i).map BNode.height = (h i).map BNode.height) →
    (∀ i ∈ Around.before c ++ Around.after c, (h' i).map BNode.size = (h i).map BNode.size) →
    AnnAround os h c → AnnAround os h' c := by
  intro c
  induction c with
  | nil => intros; trivial
  | cons f c ih =>
    intro e1 e2 H
    cases f with
    | inL i r =>
      exact ⟨ann_congr (fun j hj => e1 j (by simp only [Frame.other] at hj; simp [Around.before, Around.after, hj])) (fun j hj => e2 j (by simp only [Frame.other] at hj; simp [Around.before, Around.after, hj])) H.1,
        ih (fun j hj => e1 j (by simp only [List.mem_append] at hj; rcases hj with hj | hj <;> simp [Around.before, Around.after, hj]))
          (fun j hj => e2 j (by simp only [List.mem_append] at hj; rcases hj with hj | hj <;> simp [Around.before, Around.after, hj])) H.2⟩
    | inR l i =>
      exact ⟨ann_congr (fun j hj => e1 j (by simp only [Frame.other] at hj; simp [Around.before, Around.after, hj])) (fun j hj => e2 j (by simp only [Frame.other] at hj; simp [Around.before, Around.after, hj])) H.1,
        ih (fun j hj => e1 j (by simp only [List.mem_append] at hj; rcases hj with hj | hj <;> simp [Around.before, Around.after, hj]))
          (fun j hj => e2 j (by simp only [List.mem_append] at hj; rcases hj with hj | hj <;> simp [Around.before, Around.after, hj])) H.2⟩

theorem SameContent.height {h h' : Cells κ δ} (H : SameContent h h') (i : Nat) : (h' i).map BNode.height = (h i).map BNode.height := by
  have := H i
  cases e : h' i <;> cases e' : h i <;> simp_all [BNode.strip]

theorem SameContent.sizes {h h' : Cells κ δ} (H : SameContent h h') (i : Nat) : (h' i).map BNode.size = (h i).map BNode.size := by
  have := H i
  cases e : h' i <;> cases e' : h i <;> simp_all [BNode.strip]

theorem SameContent.ann {os : Bool} {h h' : Cells κ δ} (H : SameContent h h') {T : Shape} (a : Ann os h T) : Ann os h' T :=
  ann_congr (fun i _ => H.height i) (fun i _ => H.sizes i) a

theorem SameContent.annAround {os : Bool} {h h' : Cells κ δ} (H : SameContent h h') {c : Around} (a : AnnAround os h c) : AnnAround os h' c :=
  annAround_congr (fun i _ => H.height i) (fun i _ => H.sizes i) a

theorem kept_of_content {t t' : BTree κ δ} (h1 : SameRest t t') (h2 : SameContent t.at t'.at) : Kept t t' := by
  refine ⟨h1, fun i => ?_⟩
  have := h2 i
  cases e : t'.at i <;> cases e' : t.at i <;> simp_all [BNode.strip, BNode.bare]

theorem Tweak.kept {t t' : BTree κ δ} {w : Nat} (h : Tweak t t' w) : Kept t t' := by
  refine ⟨h.rest, fun i => ?_⟩
  have := h.same i
  cases e : t'.at i <;> cases e' : t.at i <;> simp_all [BNode.unmarked, BNode.bare]

theorem Tweak.links {t t' : BTree κ δ} {w : Nat} (h : Tweak t t' w) (j : Nat) : linksOf t'.at j = linksOf t.at j := by
  have := h.same j
  simp only [linksOf]
  cases e : t'.at j <;> cases e' : t.at j <;> simp_all [BNode.unmarked, BNode.links]

theorem Tweak.tree {up : Bool} {t t' : BTree κ δ} {w : Nat} {T : Shape} (h : Tweak t t' w) (H : TreeAt up t T) : TreeAt up t' T :=
  ⟨by rw [h.root]; exact H.root, linked_congr (fun j _ => h.links j) H.linked, H.nodup⟩

theorem Tweak.ann {os : Bool} {t t' : BTree κ δ} {w : Nat} {T : Shape} (h : Tweak t t' w) (hw : w ∉ T.ids) (a : Ann os t.at T) : Ann os t'.at T :=
  ann_congr (fun i hi => by rw [h.other i (by rintro rfl; exact hw hi)]) (fun i hi => by rw [h.other i (by rintro rfl; exact hw hi)]) a

theorem Tweak.annAround {os : Bool} {t t' : BTree κ δ} {w : Nat} {c : Around} (h : Tweak t t' w) (hw : w ∉ Around.before c ++ Around.after c)
    (a : AnnAround os t.at c) : AnnAround os t'.at c :=
  annAround_congr (fun i hi => by rw [h.other i (by rintro rfl; exact hw hi)]) (fun i hi => by rw [h.other i (by rintro rfl; exact hw hi)]) a

theorem Tweak.trans {a b c : BTree κ δ} {w : Nat} (h : Tweak a b w) (h' : Tweak b c w) : Tweak a c w :=
  ⟨h.rest.trans h'.rest, h'.root.trans h.root, fun j hj => (h'.other j hj).trans (h.other j hj), fun j => (h'.same j).trans (h.same j)⟩

theorem tweak_mapAt {t t' : BTree κ δ} {w : Nat} {f : BNode κ δ → BNode κ δ} (e : t'.at = mapAt t.at w f) (hf : ∀ n, (f n).unmarked = n.unmarked)
    (hr : SameRest t t') (hq : t'.rootIdx = t.rootIdx) : Tweak t t' w := by
  refine ⟨hr, hq, fun j hj => by rw [e]; simp [mapAt, hj], fun j => ?_⟩
  rw [e]
  unfold mapAt
  by_cases hj : j = w
  · simp only [hj, if_true, Option.map_map]; congr 1; funext n; exact hf n
  · rw [if_neg hj]

theorem heightOf_ok {t : BTree κ δ} {L : Shape} (H : Heighted t.at L) : heightOf t L.root = .ok ((L.depth : Int) - 1) := by
  cases L with
  | leaf => rfl
  | node l i r =>
    obtain ⟨⟨n, en, hn⟩, _, _⟩ := H
    simp only [Shape.root, heightOf, getNode_ok en, ok_bind, hn, Shape.depth]
    congr 1
    omega

/-- What hangs at the hole, seen from the array. -/
theorem TreeAt.node {t : BTree κ δ} {c : Around} {L R : Shape} {w : Nat} (h : TreeAt true t (Around.plug c (.node L w R))) :
    ∃ n, t.at w = some n ∧ n.left = L.root ∧ n.right = R.root ∧ n.parent = Around.up c := by
  obtain ⟨_, ⟨n, en, n1, n2, n3⟩, _⟩ := (linked_plug true t.at c _).mp h.linked
  exact ⟨n, en, n1, n2, n3 rfl⟩

theorem TreeAt.fresh {t : BTree κ δ} {c : Around} {L R : Shape} {w : Nat} (h : TreeAt true t (Around.plug c (.node L w R))) :
    w ∉ L.ids ∧ w ∉ R.ids ∧ w ∉ Around.before c ++ Around.after c := by
  have hn := h.nodup
  rw [Around.ids_plug] at hn
  simp only [Shape.ids] at hn
  refine ⟨?_, ?_, ?_⟩ <;> grind

theorem reheight_spec {t : BTree κ δ} {c : Around} {L R : Shape} {w : Nat} (h : TreeAt true t (Around.plug c (.node L w R)))
    (hL : Heighted t.at L) (hR : Heighted t.at R) :
    ∃ t', reheight t w = .ok t' ∧ Tweak t t' w ∧ Heighted t'.at (.node L w R) ∧ ∀ j, (t'.at j).map BNode.size = (t.at j).map BNode.size := by
  obtain ⟨n, en, n1, n2, _⟩ := h.node
  obtain ⟨f1, f2, _⟩ := h.fresh
  obtain ⟨t', e, a, r, q⟩ := modNode_spec (t := t) (i := w) (fun n => { n with height := max ((L.depth : Int) - 1) ((R.depth : Int) - 1) + 1 }) (by rw [en]; rfl)
  have htw := tweak_mapAt a (fun _ => rfl) r q
  refine ⟨t', ?_, htw, ⟨⟨{ n with height := max ((L.depth : Int) - 1) ((R.depth : Int) - 1) + 1 }, by rw [a]; simp [mapAt, en], ?_⟩, ?_, ?_⟩, ?_⟩
  · have hl := heightOf_ok hL
    have hr := heightOf_ok hR
    rw [← n1] at hl; rw [← n2] at hr
    simp only [reheight, getNode_ok en, ok_bind, hl, hr]
    exact e
  · show max ((L.depth : Int) - 1) ((R.depth : Int) - 1) + 1 = _
    omega
  · exact heighted_congr (fun i hi => by rw [htw.other i (by rintro rfl; exact f1 hi)]) hL
  · exact heighted_congr (fun i hi => by rw [htw.other i (by rintro rfl; exact f2 hi)]) hR
  · intro j
    rw [a]
    unfold mapAt
    split
    · simp only [Option.map_map]; congr 1
    · rfl

theorem resizeIf_spec {t : BTree κ δ} {c : Around} {L R : Shape} {w : Nat} (h : TreeAt true t (Around.plug c (.node L w R)))
    (hL : t.orderStat = true → Sized t.at L) (hR : t.orderStat = true → Sized t.at R) :
    ∃ t', resizeIf t w = .ok t' ∧ Tweak t t' w ∧ (t.orderStat = true → Sized t'.at (.node L w R)) ∧
      ∀ j, (t'.at j).map BNode.height = (t.at j).map BNode.height := by
  unfold resizeIf
  cases ho : t.orderStat with
  | false => exact ⟨t, rfl, ⟨.refl t, rfl, fun _ _ => rfl, fun _ => rfl⟩, nofun, fun _ => rfl⟩
  | true =>
    obtain ⟨n, en, n1, n2, n3⟩ := h.node
    obtain ⟨f1, f2, _⟩ := h.fresh
    obtain ⟨t', e, a, r, q⟩ := resize_spec (t := t) (p := Around.up c) (L := L) (R := R) (i := w) ⟨n, en, n1, n2, fun _ => n3⟩ (hL ho) (hR ho)
    have htw := tweak_mapAt a (fun _ => rfl) r q
    refine ⟨t', e, htw, fun _ => ⟨⟨{ n with size := L.ids.length + R.ids.length + 1 }, by rw [a]; simp [mapAt, en], rfl⟩, ?_, ?_⟩, ?_⟩
    · exact sized_congr (fun i hi => by rw [htw.other i (by rintro rfl; exact f1 hi)]) (hL ho)
    · exact sized_congr (fun i hi => by rw [htw.other i (by rintro rfl; exact f2 hi)]) (hR ho)
    · intro j
      rw [a]
      unfold mapAt
      split
      · simp only [Option.map_map]; congr 1
      · rfl

/-- `reheight` followed by `resizeIf`. -/
theorem settle_spec {t : BTree κ δ} {c : Around} {L R : Shape} {w : Nat} (h : TreeAt true t (Around.plug c (.node L w R)))
    (hL : Ann t.orderStat t.at L) (hR : Ann t.orderStat t.at R) :
    ∃ t' t'', reheight t w = .ok t' ∧ resizeIf t' w = .ok t'' ∧ Tweak t t'' w ∧ Ann t.orderStat t''.at (.node L w R) := by
  obtain ⟨t1, e1, w1, a1, s1⟩ := reheight_spec h hL.1 hR.1
  obtain ⟨t2, e2, w2, a2, s2⟩ := resizeIf_spec (w1.tree h)
    (fun ho => sized_congr (fun i _ => s1 i) (hL.2 (by rw [← w1.rest.orderStat]; exact ho)))
    (fun ho => sized_congr (fun i _ => s1 i) (hR.2 (by rw [← w1.rest.orderStat]; exact ho)))
  exact ⟨t1, t2, e1, e2, w1.trans w2, heighted_congr (fun i _ => s2 i) a1, fun ho => a2 (by rw [w1.rest.orderStat]; exact ho)⟩

theorem avlRight_spec {t : BTree κ δ} {c : Around} {A B C : Shape} {j k : Nat} (h : TreeAt true t (Around.plug c (.node (.node A k B) j C)))
    (hA : Ann t.orderStat t.at A) (hB : Ann t.orderStat t.at B) (hC : Ann t.orderStat t.at C) (hc : AnnAround t.orderStat t.at c) :
    ∃ t', avlRight t j k = .ok t' ∧ TreeAt true t' (Around.plug c (.node A k (.node B j C))) ∧ Ann t.orderStat t'.at (.node B j C) ∧
      AnnAround t.orderStat t'.at (.inR A k :: c) ∧ Kept t t' := by
  obtain ⟨t1, e1, h1, r1, s1⟩ := rightRotate_spec h
  rw [← r1.orderStat] at hA hB hC hc ⊢
  have h1' : TreeAt true t1 (Around.plug (.inR A k :: c) (.node B j C)) := h1
  obtain ⟨t2, t3, e2, e3, w3, a3⟩ := settle_spec h1' (s1.ann hB) (s1.ann hC)
  obtain ⟨f1, f2, f3⟩ := h1'.fresh
  refine ⟨t3, by simp [avlRight, e1, e2, e3], w3.tree h1, a3, ?_, (kept_of_content r1 s1).trans w3.kept⟩
  exact w3.annAround f3 ⟨s1.ann hA, s1.annAround hc⟩

theorem avlLeft_spec {t : BTree κ δ} {c : Around} {A B C : Shape} {j k : Nat} (h : TreeAt true t (Around.plug c (.node C j (.node B k A))))
    (hA : Ann t.orderStat t.at A) (hB : Ann t.orderStat t.at B) (hC : Ann t.orderStat t.at C) (hc : AnnAround t.orderStat t.at c) :
    ∃ t', avlLeft t j k = .ok t' ∧ TreeAt true t' (Around.plug c (.node (.node C j B) k A)) ∧ Ann t.orderStat t'.at (.node C j B) ∧
      AnnAround t.orderStat t'.at (.inL k A :: c) ∧ Kept t t' := by
  obtain ⟨t1, e1, h1, r1, s1⟩ := leftRotate_spec h
  rw [← r1.orderStat] at hA hB hC hc ⊢
  have h1' : TreeAt true t1 (Around.plug (.inL k A :: c) (.node C j B)) := h1
  obtain ⟨f1, f2, f3⟩ := h1'.fresh
  obtain ⟨t2, e2, w2, a2, s2⟩ := reheight_spec h1' (s1.ann hC).1 (s1.ann hB).1
  have h2 := w2.tree h1
  have h2' := w2.tree h1'
  obtain ⟨t3, e3, w3, a3, s3⟩ := reheight_spec (c := c) (L := .node C j B) (w := k) (R := A) h2 a2
    (heighted_congr (fun i hi => by rw [w2.other i (by rintro rfl; exact f3 (by simp [Around.before, Around.after, hi]))]) (s1.ann hA).1)
  have h3' := w3.tree h2'
  have hz : ∀ i, (t3.at i).map BNode.size = (t1.at i).map BNode.size := fun i => (s3 i).trans (s2 i)
  have hos : t3.orderStat = t1.orderStat := w3.rest.orderStat.trans w2.rest.orderStat
  obtain ⟨t4, e4, w4, a4, s4⟩ := resizeIf_spec h3'
    (fun ho => sized_congr (fun i _ => hz i) ((s1.ann hC).2 (by rw [← hos]; exact ho)))
    (fun ho => sized_congr (fun i _ => hz i) ((s1.ann hB).2 (by rw [← hos]; exact ho)))
  refine ⟨t4, by simp [avlLeft, e1, e2, e3, e4], w4.tree (w3.tree h2), ?_, ?_, (kept_of_content r1 s1).trans (w2.kept.trans (w3.kept.trans w4.kept))⟩
  · exact ⟨heighted_congr (fun i _ => s4 i) a3.2.1, fun ho => a4 (by rw [hos]; exact ho)⟩
  · have g := h2.fresh
    have hA1 := w2.ann (fun hi => f3 (by simp [Around.before, Around.after, hi])) (s1.ann hA)
    have hA2 := w3.ann g.2.1 hA1
    have hA3 := w4.ann (fun hi => f3 (by simp [Around.before, Around.after, hi])) hA2
    have hin : ∀ i, i ∈ Around.before c ++ Around.after c → i ∈ Around.before (.inL k A :: c) ++ Around.after (.inL k A :: c) := by
      intro i hi; simp only [List.mem_append] at hi; rcases hi with hi | hi <;> simp [Around.before, Around.after, hi]
    have hc1 := w2.annAround (fun hi => f3 (hin _ hi)) (s1.annAround hc)
    have hc2 := w3.annAround g.2.2 hc1
    have hc3 := w4.annAround (fun hi => f3 (hin _ hi)) hc2
    exact ⟨hA3, hc3⟩

/-- Both lower nodes of a double rotation are settled. -/
theorem settle2_spec {t : BTree κ δ} {T : Shape} {cx cy : Around} {Lx Rx Ly Ry : Shape} {x y : Nat} (h : TreeAt true t T)
    (hx : T = Around.plug cx (.node Lx x Rx)) (hy : T = Around.plug cy (.node Ly y Ry)) (hxy : x ≠ y)
    (hxL : x ∉ Ly.ids) (hxR : x ∉ Ry.ids) (hyL : y ∉ Lx.ids) (hyR : y ∉ Rx.ids)
    (a1 : Ann t.orderStat t.at Lx) (a2 : Ann t.orderStat t.at Rx) (a3 : Ann t.orderStat t.at Ly) (a4 : Ann t.orderStat t.at Ry) :
    ∃ t1 t2 t3 t4, reheight t x = .ok t1 ∧ reheight t1 y = .ok t2 ∧ resizeIf t2 x = .ok t3 ∧ resizeIf t3 y = .ok t4 ∧ TreeAt true t4 T ∧
      Ann t.orderStat t4.at (.node Lx x Rx) ∧ Ann t.orderStat t4.at (.node Ly y Ry) ∧ Kept t t4 ∧ ∀ j, j ≠ x → j ≠ y → t4.at j = t.at j := by
  have hxn : x ∉ (Shape.node Ly y Ry).ids := by simp [Shape.ids, hxL, hxR, hxy]
  have hyn : y ∉ (Shape.node Lx x Rx).ids := by simp [Shape.ids, hyL, hyR, Ne.symm hxy]
  obtain ⟨t1, e1, w1, b1, s1⟩ := reheight_spec (hx ▸ h) a1.1 a2.1
  have h1 := w1.tree h
  obtain ⟨t2, e2, w2, b2, s2⟩ := reheight_spec (hy ▸ h1) (w1.ann hxL a3).1 (w1.ann hxR a4).1
  have h2 := w2.tree h1
  have o1 := w1.rest.orderStat
  have o2 := w2.rest.orderStat
  have ht2x : Heighted t2.at (.node Lx x Rx) := heighted_congr (fun i hi => by rw [w2.other i (by rintro rfl; exact hyn hi)]) b1
  have z2 : ∀ i, (t2.at i).map BNode.size = (t.at i).map BNode.size := fun i => (s2 i).trans (s1 i)
  obtain ⟨t3, e3, w3, b3, s3⟩ := resizeIf_spec (hx ▸ h2) (fun ho => sized_congr (fun i _ => z2 i) (a1.2 (by rw [← o1, ← o2]; exact ho)))
    (fun ho => sized_congr (fun i _ => z2 i) (a2.2 (by rw [← o1, ← o2]; exact ho)))
  have h3 := w3.tree h2
  have o3 := w3.rest.orderStat
  have hzy : ∀ (S : Shape), x ∉ S.ids → Ann t.orderStat t.at S → t3.orderStat = true → Sized t3.at S := by
    intro S hS a ho
    have : Sized t2.at S := sized_congr (fun i _ => z2 i) (a.2 (by rw [← o1, ← o2, ← o3]; exact ho))
    exact sized_congr (fun i hi => by rw [w3.other i (by rintro rfl; exact hS hi)]) this
  obtain ⟨t4, e4, w4, b4, s4⟩ := resizeIf_spec (hy ▸ h3) (hzy Ly hxL a3) (hzy Ry hxR a4)
  refine ⟨t1, t2, t3, t4, e1, e2, e3, e4, w4.tree h3, ⟨?_, ?_⟩, ⟨?_, ?_⟩, w1.kept.trans (w2.kept.trans (w3.kept.trans w4.kept)), ?_⟩
  · exact heighted_congr (fun i _ => (s4 i).trans (s3 i)) ht2x
  · intro ho
    have := b3 (by rw [o2, o1]; exact ho)
    exact sized_congr (fun i hi => by rw [w4.other i (by rintro rfl; exact hyn hi)]) this
  · exact heighted_congr (fun i _ => (s4 i).trans (s3 i)) b2
  · intro ho
    exact b4 (by rw [o3, o2, o1]; exact ho)
  · intro j h1 h2
    rw [w4.other j h2, w3.other j h1, w2.other j h2, w1.other j h1]

theorem avlLeftRight_spec {t : BTree κ δ} {c : Around} {A V W C : Shape} {i j k : Nat}
    (h : TreeAt true t (Around.plug c (.node (.node A k (.node V i W)) j C)))
    (hA : Ann t.orderStat t.at A) (hV : Ann t.orderStat t.at V) (hW : Ann t.orderStat t.at W) (hC : Ann t.orderStat t.at C)
    (hc : AnnAround t.orderStat t.at c) :
    ∃ t', avlLeftRight t j k = .ok t' ∧ TreeAt true t' (Around.plug c (.node (.node A k V) i (.node W j C))) ∧ Ann t.orderStat t'.at (.node W j C) ∧
      AnnAround t.orderStat t'.at (.inR (.node A k V) i :: c) ∧ Kept t t' := by
  obtain ⟨t1, e1, h1, r1, s1⟩ := leftRightRotate_spec h
  rw [← r1.orderStat] at hA hV hW hC hc ⊢
  have hj := (show TreeAt true t1 (Around.plug (.inR (.node A k V) i :: c) (.node W j C)) from h1).fresh
  have hk := (show TreeAt true t1 (Around.plug (.inL i (.node W j C) :: c) (.node A k V)) from h1).fresh
  simp only [Around.before, Around.after, Shape.ids, List.mem_append, List.mem_cons, not_or] at hj hk
  obtain ⟨t2, t3, t4, t5, e2, e3, e4, e5, h5, a1, a2, k5, o5⟩ := settle2_spec (cx := .inR (.node A k V) i :: c) (cy := .inL i (.node W j C) :: c)
    (x := j) (y := k) h1 rfl rfl (by grind) (by grind) (by grind) (by grind) (by grind) (s1.ann hW) (s1.ann hC) (s1.ann hA) (s1.ann hV)
  refine ⟨t5, by simp [avlLeftRight, e1, e2, e3, e4, e5], h5, a1, ⟨a2, ?_⟩, (kept_of_content r1 s1).trans k5⟩
  refine annAround_congr (fun m hm => ?_) (fun m hm => ?_) (s1.annAround hc)
  · rw [o5 m (by grind) (by grind)]
  · rw [o5 m (by grind) (by grind)]

theorem avlRightLeft_spec {t : BTree κ δ} {c : Around} {A V W C : Shape} {i j k : Nat}
    (h : TreeAt true t (Around.plug c (.node C j (.node (.node W i V) k A))))
    (hA : Ann t.orderStat t.at A) (hV : Ann t.orderStat t.at V) (hW : Ann t.orderStat t.at W) (hC : Ann t.orderStat t.at C)
    (hc : AnnAround t.orderStat t.at c) :
    ∃ t', avlRightLeft t j k = .ok t' ∧ TreeAt true t' (Around.plug c (.node (.node C j W) i (.node V k A))) ∧ Ann t.orderStat t'.at (.node C j W) ∧
      AnnAround t.orderStat t'.at (.inL i (.node V k A) :: c) ∧ Kept t t' := by
  obtain ⟨t1, e1, h1, r1, s1⟩ := rightLeftRotate_spec h
  rw [← r1.orderStat] at hA hV hW hC hc ⊢
  have hj := (show TreeAt true t1 (Around.plug (.inL i (.node V k A) :: c) (.node C j W)) from h1).fresh
  have hk := (show TreeAt true t1 (Around.plug (.inR (.node C j W) i :: c) (.node V k A)) from h1).fresh
  simp only [Around.before, Around.after, Shape.ids, List.mem_append, List.mem_cons, not_or] at hj hk
  obtain ⟨t2, t3, t4, t5, e2, e3, e4, e5, h5, a1, a2, k5, o5⟩ := settle2_spec (cx := .inL i (.node V k A) :: c) (cy := .inR (.node C j W) i :: c)
    (x := j) (y := k) h1 rfl rfl (by grind) (by grind) (by grind) (by grind) (by grind) (s1.ann hC) (s1.ann hW) (s1.ann hV) (s1.ann hA)
  refine ⟨t5, by simp [avlRightLeft, e1, e2, e3, e4, e5], h5, a1, ⟨a2, ?_⟩, (kept_of_content r1 s1).trans k5⟩
  refine annAround_congr (fun m hm => ?_) (fun m hm => ?_) (s1.annAround hc)
  · rw [o5 m (by grind) (by grind)]
  · rw [o5 m (by grind) (by grind)]

/-! ## One step of `_balance_insertion` -/

theorem avlCase_skip {t : BTree κ δ} {l last last2 : Option Nat} {side : BNode κ δ → Option Nat} {rotate : BTree κ δ → Nat → PyM (BTree κ δ)}
    (h : l ≠ last) : avlCase t l last last2 side rotate = .ok t := by
  cases l with
  | none => rfl
  | some i => simp only [avlCase, if_neg h]

theorem avlCase_miss {t : BTree κ δ} {i : Nat} {n : BNode κ δ} {last2 : Option Nat} {side : BNode κ δ → Option Nat}
    {rotate : BTree κ δ → Nat → PyM (BTree κ δ)} (e : t.at i = some n) (h : side n ≠ last2) : avlCase t (some i) (some i) last2 side rotate = .ok t := by
  simp only [avlCase, if_true, getNode_ok e, ok_bind, if_neg h]

theorem avlCase_hit {t : BTree κ δ} {i : Nat} {n : BNode κ δ} {last2 : Option Nat} {side : BNode κ δ → Option Nat}
    {rotate : BTree κ δ → Nat → PyM (BTree κ δ)} (e : t.at i = some n) (h : side n = last2) : avlCase t (some i) (some i) last2 side rotate = rotate t i := by
  simp only [avlCase, if_true, getNode_ok e, ok_bind, if_pos h]

theorem balanceFactor_ok {t : BTree κ δ} {c : Around} {L R : Shape} {w : Nat} (h : TreeAt true t (Around.plug c (.node L w R)))
    (hL : Heighted t.at L) (hR : Heighted t.at R) : balanceFactor t w = .ok ((R.depth : Int) - L.depth) := by
  obtain ⟨n, en, n1, n2, _⟩ := h.node
  have hl := heightOf_ok hL
  have hr := heightOf_ok hR
  rw [← n1] at hl; rw [← n2] at hr
  simp only [balanceFactor, getNode_ok en, ok_bind, hl, hr]
  congr 1
  omega

/-- A step without rotation. -/
theorem avlBody_calm {t : BTree κ δ} {c : Around} {L R : Shape} {w : Nat} {a b : Option Nat} (h : TreeAt true t (Around.plug c (.node L w R)))
    (hL : Ann t.orderStat t.at L) (hR : Ann t.orderStat t.at R) (hc : AnnAround t.orderStat t.at c)
    (h1 : L.depth ≤ R.depth + 1) (h2 : R.depth ≤ L.depth + 1) :
    ∃ t', avlBody ⟨t, some w, [a, b]⟩ = .ok ⟨t', Around.up c, [some w, a]⟩ ∧ TreeAt true t' (Around.plug c (.node L w R)) ∧
      Ann t.orderStat t'.at (.node L w R) ∧ AnnAround t.orderStat t'.at c ∧ Kept t t' := by
  obtain ⟨t1, t2, e1, e2, w2, a2⟩ := settle_spec h hL hR
  have h2' := w2.tree h
  obtain ⟨n, en, _, _, n3⟩ := h2'.node
  have hb := balanceFactor_ok h2' a2.1.2.1 a2.1.2.2
  obtain ⟨_, _, f3⟩ := h.fresh
  refine ⟨t2, ?_, h2', a2, w2.annAround f3 hc, w2.kept⟩
  have hcalm : ((R.depth : Int) - L.depth = 1 ∨ (R.depth : Int) - L.depth = 0 ∨ (R.depth : Int) - L.depth = -1) := by omega
  simp only [avlBody, asIdx, ok_bind, e1, e2, pop2, hb, if_pos hcalm, getNode_ok en, n3, List.nil_append]

theorem Balanced.hole : ∀ {c : Around} {S : Shape}, Balanced (Around.plug c S) → Balanced S := by
  intro c
  induction c with
  | nil => intro S h; exact h
  | cons f c ih =>
    intro S h
    cases f with
    | inL i r => exact (ih (S := .node S i r) h).2.2.1
    | inR l i => exact (ih (S := .node l i S) h).2.2.2

/-- Nothing grows: the rest of the walk only settles heights and sizes. -/
theorem avl_settle : ∀ (c : Around) (t : BTree κ δ) (S : Shape) (a b : Option Nat), TreeAt true t (Around.plug c S) → Balanced (Around.plug c S) →
    Ann t.orderStat t.at S → AnnAround t.orderStat t.at c →
    ∃ t', TreeAt true t' (Around.plug c S) ∧ Ann t.orderStat t'.at (Around.plug c S) ∧ Kept t t' ∧
      ∃ q, ∀ fuel > c.length, whileLoop fuel avlCond avlBody ⟨t, Around.up c, [a, b]⟩ = .ok ⟨t', none, q⟩ := by
  intro c
  induction c with
  | nil =>
    intro t S a b h _ hS _
    refine ⟨t, h, hS, .refl t, [a, b], fun fuel hf => ?_⟩
    obtain ⟨f, rfl⟩ : ∃ f, fuel = f + 1 := ⟨fuel - 1, by omega⟩
    exact while_stop _ (by rfl)
  | cons fr c ih =>
    intro t S a b h hB hS hc
    cases fr with
    | inL i r =>
      have hb := Balanced.hole (c := c) (S := .node S i r) hB
      obtain ⟨t1, e1, h1, a1, c1, k1⟩ := avlBody_calm (c := c) (L := S) (w := i) (R := r) (a := a) (b := b) h hS hc.1 hc.2 hb.1 hb.2.1
      have o1 := k1.rest.orderStat
      obtain ⟨t2, h2, a2, k2, q, hrun⟩ := ih t1 (.node S i r) (some i) a h1 hB (by rw [o1]; exact a1) (by rw [o1]; exact c1)
      refine ⟨t2, h2, by rw [← o1]; exact a2, k1.trans k2, q, fun fuel hf => ?_⟩
      obtain ⟨f, rfl⟩ : ∃ f, fuel = f + 1 := ⟨fuel - 1, by omega⟩
      exact (while_step (cond := avlCond) f (by rfl) e1).trans (hrun f (by simp at hf; omega))
    | inR l i =>
      have hb := Balanced.hole (c := c) (S := .node l i S) hB
      obtain ⟨t1, e1, h1, a1, c1, k1⟩ := avlBody_calm (c := c) (L := l) (w := i) (R := S) (a := a) (b := b) h hc.1 hS hc.2 hb.1 hb.2.1
      have o1 := k1.rest.orderStat
      obtain ⟨t2, h2, a2, k2, q, hrun⟩ := ih t1 (.node l i S) (some i) a h1 hB (by rw [o1]; exact a1) (by rw [o1]; exact c1)
      refine ⟨t2, h2, by rw [← o1]; exact a2, k1.trans k2, q, fun fuel hf => ?_⟩
      obtain ⟨f, rfl⟩ : ∃ f, fuel = f + 1 := ⟨fuel - 1, by omega⟩
      exact (while_step (cond := avlCond) f (by rfl) e1).trans (hrun f (by simp at hf; omega))

theorem Balanced.swap : ∀ {c : Around} {S S' : Shape}, Balanced (Around.plug c S) → Balanced S' → S'.depth = S.depth → Balanced (Around.plug c S') := by
  intro c
  induction c with
  | nil => intro S S' _ h _; exact h
  | cons f c ih =>
    intro S S' h h' e
    cases f with
    | inL i r =>
      have hb := Balanced.hole (c := c) (S := .node S i r) h
      exact ih (S := .node S i r) (S' := .node S' i r) h ⟨by rw [e]; exact hb.1, by rw [e]; exact hb.2.1, h', hb.2.2.2⟩ (by simp [Shape.depth, e])
    | inR l i =>
      have hb := Balanced.hole (c := c) (S := .node l i S) h
      exact ih (S := .node l i S) (S' := .node l i S') h ⟨by rw [e]; exact hb.1, by rw [e]; exact hb.2.1, hb.2.2.1, h'⟩ (by simp [Shape.depth, e])

/-- The subtree has just grown, and `b` is the root of its higher side (unless it is the new node itself). -/
def Heavy (S : Shape) (b : Option Nat) : Prop :=
  ∃ A k B, S = .node A k B ∧ ((A = .leaf ∧ B = .leaf) ∨ (b = A.root ∧ A.depth = B.depth + 1) ∨ (b = B.root ∧ B.depth = A.depth + 1))

/-- The result of a walk of `_balance_insertion` from the state `s`. -/
def AvlDone (t : BTree κ δ) (T : Shape) (s : AvlSt κ δ) (steps : Nat) : Prop :=
  ∃ T' t', T'.ids = T.ids ∧ Balanced T' ∧ TreeAt true t' T' ∧ Ann t.orderStat t'.at T' ∧ Kept t t' ∧
    ∃ q, ∀ fuel > steps, whileLoop fuel avlCond avlBody s = .ok ⟨t', none, q⟩

/-- A step that rotates leaves a state in which nothing grows any more. -/
theorem avl_rotated {t t1 : BTree κ δ} {T : Shape} {w : Nat} {a b : Option Nat} {c' : Around} {S' : Shape} {n : Nat}
    (hstep : avlBody ⟨t, some w, [a, b]⟩ = .ok ⟨t1, Around.up c', [some w, a]⟩)
    (hids : (Around.plug c' S').ids = T.ids) (h1 : TreeAt true t1 (Around.plug c' S')) (hB : Balanced (Around.plug c' S'))
    (hS : Ann t.orderStat t1.at S') (hc : AnnAround t.orderStat t1.at c') (k1 : Kept t t1) (hn : c'.length ≤ n) :
    AvlDone t T ⟨t, some w, [a, b]⟩ (n + 1) := by
  have o1 := k1.rest.orderStat
  obtain ⟨t2, h2, a2, k2, q, hrun⟩ := avl_settle c' t1 S' (some w) a h1 hB (by rw [o1]; exact hS) (by rw [o1]; exact hc)
  refine ⟨_, t2, hids, hB, h2, by rw [← o1]; exact a2, k1.trans k2, q, fun fuel hf => ?_⟩
  obtain ⟨f, rfl⟩ : ∃ f, fuel = f + 1 := ⟨fuel - 1, by omega⟩
  exact (while_step (cond := avlCond) f (by rfl) hstep).trans (hrun f (by omega))

/-- A step that has to rotate, up to the rotation. -/
theorem avlBody_turn {t : BTree κ δ} {c : Around} {L R : Shape} {w : Nat} {a b : Option Nat} (h : TreeAt true t (Around.plug c (.node L w R)))
    (hL : Ann t.orderStat t.at L) (hR : Ann t.orderStat t.at R) (hc : AnnAround t.orderStat t.at c)
    (hd : R.depth + 2 ≤ L.depth ∨ L.depth + 2 ≤ R.depth) :
    ∃ t', TreeAt true t' (Around.plug c (.node L w R)) ∧ Ann t'.orderStat t'.at L ∧ Ann t'.orderStat t'.at R ∧ AnnAround t'.orderStat t'.at c ∧
      Kept t t' ∧ ∀ t'' n, avlRebalance t' w a b = .ok t'' → t''.at w = some n → avlBody ⟨t, some w, [a, b]⟩ = .ok ⟨t'', n.parent, [some w, a]⟩ := by
  obtain ⟨t1, t2, e1, e2, w2, a2⟩ := settle_spec h hL hR
  have h2' := w2.tree h
  have hb := balanceFactor_ok h2' a2.1.2.1 a2.1.2.2
  obtain ⟨f1, f2, f3⟩ := h.fresh
  have o2 := w2.rest.orderStat
  refine ⟨t2, h2', by rw [o2]; exact w2.ann f1 hL, by rw [o2]; exact w2.ann f2 hR, by rw [o2]; exact w2.annAround f3 hc, w2.kept, ?_⟩
  intro t3 n e3 en
  have hturn : ¬ ((R.depth : Int) - L.depth = 1 ∨ (R.depth : Int) - L.depth = 0 ∨ (R.depth : Int) - L.depth = -1) := by omega
  simp only [avlBody, asIdx, ok_bind, e1, e2, pop2, hb, if_neg hturn, e3, getNode_ok en, List.nil_append]

theorem root_node (l : Shape) (i : Nat) (r : Shape) : (Shape.node l i r).root = some i := rfl

theorem root_ne {C : Shape} {k : Nat} (h : k ∉ C.ids) : C.root ≠ some k := fun e => h (Shape.root_mem e)

theorem depth_pos_root {T : Shape} (h : 0 < T.depth) : ∃ V i W, T = .node V i W := by
  cases T with
  | leaf => simp [Shape.depth] at h
  | node V i W => exact ⟨V, i, W, rfl⟩

theorem rebalance_LL {t : BTree κ δ} {c : Around} {A B C : Shape} {j k a : Nat} (h : TreeAt true t (Around.plug c (.node (.node A k B) j C)))
    (hA : Ann t.orderStat t.at A) (hB : Ann t.orderStat t.at B) (hC : Ann t.orderStat t.at C) (hc : AnnAround t.orderStat t.at c)
    (ha : A.root = some a) :
    ∃ t', avlRebalance t j (some k) (some a) = .ok t' ∧ TreeAt true t' (Around.plug c (.node A k (.node B j C))) ∧
      Ann t.orderStat t'.at (.node B j C) ∧ AnnAround t.orderStat t'.at (.inR A k :: c) ∧ Kept t t' := by
  obtain ⟨t', e, h', a', c', k'⟩ := avlRight_spec h hA hB hC hc
  refine ⟨t', ?_, h', a', c', k'⟩
  have hk := (show TreeAt true t (Around.plug (.inL j C :: c) (.node A k B)) from h).fresh
  simp only [Around.before, Around.after, List.mem_append, List.mem_cons, not_or] at hk
  obtain ⟨n, en, n1, n2, _⟩ := h.node
  obtain ⟨nk, enk, nk1, nk2, _⟩ := (show TreeAt true t (Around.plug (.inL j C :: c) (.node A k B)) from h).node
  obtain ⟨n', en', n1', n2', _⟩ := (show TreeAt true t' (Around.plug (.inR A k :: c) (.node B j C)) from h').node
  obtain ⟨m, em, m1, m2, _⟩ := h'.node
  have hj := h.fresh
  simp only [Shape.ids, List.mem_append, List.mem_cons, not_or] at hj
  have hskip : C.root ≠ some k := root_ne hk.2.2.2.1.2
  have hmiss : m.right ≠ some a := by
    rw [m2]; rintro e; cases e; exact hj.1.1 (Shape.root_mem ha)
  have e1 := avlCase_hit (side := (·.left)) (rotate := fun t k => avlRight t j k) enk (nk1.trans ha)
  have e3 := avlCase_miss (side := (·.right)) (last2 := some a) (rotate := fun t k => avlLeftRight t j k) em hmiss
  simp only [avlRebalance, getNode_ok en, n1, ok_bind]
  simp only [root_node, e1, e, ok_bind, getNode_ok en', n2']
  rw [avlCase_skip hskip]
  simp only [ok_bind, e3]
  exact avlCase_skip hskip

theorem rebalance_RR {t : BTree κ δ} {c : Around} {A B C : Shape} {j k a : Nat} (h : TreeAt true t (Around.plug c (.node C j (.node B k A))))
    (hA : Ann t.orderStat t.at A) (hB : Ann t.orderStat t.at B) (hC : Ann t.orderStat t.at C) (hc : AnnAround t.orderStat t.at c)
    (ha : A.root = some a) :
    ∃ t', avlRebalance t j (some k) (some a) = .ok t' ∧ TreeAt true t' (Around.plug c (.node (.node C j B) k A)) ∧
      Ann t.orderStat t'.at (.node C j B) ∧ AnnAround t.orderStat t'.at (.inL k A :: c) ∧ Kept t t' := by
  obtain ⟨t', e, h', a', c', k'⟩ := avlLeft_spec h hA hB hC hc
  refine ⟨t', ?_, h', a', c', k'⟩
  have hk := (show TreeAt true t (Around.plug (.inR C j :: c) (.node B k A)) from h).fresh
  simp only [Around.before, Around.after, List.mem_append, List.mem_cons, not_or] at hk
  obtain ⟨n, en, n1, n2, _⟩ := h.node
  obtain ⟨nk, enk, nk1, nk2, _⟩ := (show TreeAt true t (Around.plug (.inR C j :: c) (.node B k A)) from h).node
  obtain ⟨m, em, m1, m2, _⟩ := h'.node
  have hj := h.fresh
  simp only [Shape.ids, List.mem_append, List.mem_cons, not_or] at hj
  have hskip : C.root ≠ some k := root_ne (by simp_all)
  have hmiss : m.left ≠ some a := by
    rw [m1]; rintro e; cases e; exact hj.2.1.2.2 (Shape.root_mem ha)
  have e1 := avlCase_hit (side := (·.right)) (rotate := fun t k => avlLeft t j k) enk (nk2.trans ha)
  have e3 := avlCase_miss (side := (·.left)) (last2 := some a) (rotate := fun t k => avlRightLeft t j k) em hmiss
  simp only [avlRebalance, getNode_ok en, n1, ok_bind]
  rw [avlCase_skip hskip]
  simp only [ok_bind, getNode_ok en, n2]
  simp only [root_node, e1, e, ok_bind]
  rw [show avlCase t' (C.root) (some k) (some a) (·.right) (fun t k => avlLeftRight t j k) = .ok t' from avlCase_skip hskip]
  simp only [ok_bind, e3]

theorem rebalance_LR {t : BTree κ δ} {c : Around} {A V W C : Shape} {i j k : Nat}
    (h : TreeAt true t (Around.plug c (.node (.node A k (.node V i W)) j C)))
    (hA : Ann t.orderStat t.at A) (hB : Ann t.orderStat t.at (.node V i W)) (hC : Ann t.orderStat t.at C) (hc : AnnAround t.orderStat t.at c) :
    ∃ t', avlRebalance t j (some k) (some i) = .ok t' ∧ TreeAt true t' (Around.plug c (.node (.node A k V) i (.node W j C))) ∧
      Ann t.orderStat t'.at (.node W j C) ∧ AnnAround t.orderStat t'.at (.inR (.node A k V) i :: c) ∧ Kept t t' := by
  have hV : Ann t.orderStat t.at V := ⟨hB.1.2.1, fun ho => (hB.2 ho).2.1⟩
  have hW : Ann t.orderStat t.at W := ⟨hB.1.2.2, fun ho => (hB.2 ho).2.2⟩
  obtain ⟨t', e, h', a', c', k'⟩ := avlLeftRight_spec h hA hV hW hC hc
  refine ⟨t', ?_, h', a', c', k'⟩
  have hk := (show TreeAt true t (Around.plug (.inL j C :: c) (.node A k (.node V i W))) from h).fresh
  have hi := (show TreeAt true t (Around.plug (.inR A k :: .inL j C :: c) (.node V i W)) from h).fresh
  simp only [Around.before, Around.after, List.mem_append, List.mem_cons, not_or] at hk hi
  obtain ⟨n, en, n1, n2, _⟩ := h.node
  obtain ⟨nk, enk, nk1, nk2, _⟩ := (show TreeAt true t (Around.plug (.inL j C :: c) (.node A k (.node V i W))) from h).node
  have hskip : C.root ≠ some k := root_ne (by simp_all)
  have hmiss : nk.left ≠ some i := by rw [nk1]; exact root_ne (by simp_all)
  have e1 := avlCase_miss (side := (·.left)) (last2 := some i) (rotate := fun t k => avlRight t j k) enk hmiss
  have e3 := avlCase_hit (side := (·.right)) (last2 := some i) (rotate := fun t k => avlLeftRight t j k) enk nk2
  simp only [avlRebalance, getNode_ok en, n1, ok_bind]
  simp only [root_node, e1, ok_bind, getNode_ok en, n2]
  rw [avlCase_skip hskip]
  simp only [ok_bind, e3, e]
  exact avlCase_skip hskip

theorem rebalance_RL {t : BTree κ δ} {c : Around} {A V W C : Shape} {i j k : Nat}
    (h : TreeAt true t (Around.plug c (.node C j (.node (.node W i V) k A))))
    (hA : Ann t.orderStat t.at A) (hB : Ann t.orderStat t.at (.node W i V)) (hC : Ann t.orderStat t.at C) (hc : AnnAround t.orderStat t.at c) :
    ∃ t', avlRebalance t j (some k) (some i) = .ok t' ∧ TreeAt true t' (Around.plug c (.node (.node C j W) i (.node V k A))) ∧
      Ann t.orderStat t'.at (.node C j W) ∧ AnnAround t.orderStat t'.at (.inL i (.node V k A) :: c) ∧ Kept t t' := by
  have hV : Ann t.orderStat t.at V := ⟨hB.1.2.2, fun ho => (hB.2 ho).2.2⟩
  have hW : Ann t.orderStat t.at W := ⟨hB.1.2.1, fun ho => (hB.2 ho).2.1⟩
  obtain ⟨t', e, h', a', c', k'⟩ := avlRightLeft_spec h hA hV hW hC hc
  refine ⟨t', ?_, h', a', c', k'⟩
  have hk := (show TreeAt true t (Around.plug (.inR C j :: c) (.node (.node W i V) k A)) from h).fresh
  have hi := (show TreeAt true t (Around.plug (.inL k A :: .inR C j :: c) (.node W i V)) from h).fresh
  simp only [Around.before, Around.after, List.mem_append, List.mem_cons, not_or] at hk hi
  obtain ⟨n, en, n1, n2, _⟩ := h.node
  obtain ⟨nk, enk, nk1, nk2, _⟩ := (show TreeAt true t (Around.plug (.inR C j :: c) (.node (.node W i V) k A)) from h).node
  have hskip : C.root ≠ some k := root_ne (by simp_all)
  have hmiss : nk.right ≠ some i := by rw [nk2]; exact root_ne (by simp_all)
  have e1 := avlCase_miss (side := (·.right)) (last2 := some i) (rotate := fun t k => avlLeft t j k) enk hmiss
  have e3 := avlCase_hit (side := (·.left)) (last2 := some i) (rotate := fun t k => avlRightLeft t j k) enk nk1
  simp only [avlRebalance, getNode_ok en, n1, ok_bind]
  rw [avlCase_skip hskip]
  simp only [ok_bind, getNode_ok en, n2]
  simp only [root_node, e1, ok_bind]
  rw [show avlCase t (C.root) (some k) (some i) (·.right) (fun t k => avlLeftRight t j k) = .ok t from avlCase_skip hskip]
  simp only [ok_bind, e3, e]

/-- A step without rotation in front of a walk. -/
theorem AvlDone.after {t t1 : BTree κ δ} {T : Shape} {s s' : AvlSt κ δ} {n : Nat} (hstep : avlBody s = .ok s') (hw : s.walk.isSome = true)
    (k1 : Kept t t1) (h : AvlDone t1 T s' n) : AvlDone t T s (n + 1) := by
  obtain ⟨T', t', h1, h2, h3, h4, h5, q, hrun⟩ := h
  refine ⟨T', t', h1, h2, h3, by rw [← k1.rest.orderStat]; exact h4, k1.trans h5, q, fun fuel hf => ?_⟩
  obtain ⟨f, rfl⟩ : ∃ f, fuel = f + 1 := ⟨fuel - 1, by omega⟩
  exact (while_step (cond := avlCond) f (by simp [avlCond, hw]) hstep).trans (hrun f (by omega))

/-- The walk above a subtree that has just grown by one level. -/
theorem avl_grow : ∀ (c : Around) (t : BTree κ δ) (S S0 : Shape) (b : Option Nat), TreeAt true t (Around.plug c S) → Balanced (Around.plug c S0) →
    Balanced S → S.depth = S0.depth + 1 → Heavy S b → Ann t.orderStat t.at S → AnnAround t.orderStat t.at c →
    AvlDone t (Around.plug c S) ⟨t, Around.up c, [S.root, b]⟩ (c.length + 2) := by
  intro c
  induction c with
  | nil =>
    intro t S S0 b h _ hS _ _ ha _
    refine ⟨S, t, rfl, hS, h, ha, .refl t, [S.root, b], fun fuel hf => ?_⟩
    obtain ⟨f, rfl⟩ : ∃ f, fuel = f + 1 := ⟨fuel - 1, by omega⟩
    exact while_stop _ (by rfl)
  | cons fr c ih =>
    intro t S S0 b h hB0 hS hd hv ha hc
    cases fr with
    | inL j C =>
      have hb := Balanced.hole (c := c) (S := .node S0 j C) hB0
      have hb1 := hb.1
      have hb2 := hb.2.1
      have hlen : (Frame.inL j C :: c).length + 2 = (c.length + 2) + 1 := by simp
      rw [hlen]
      show AvlDone t (Around.plug c (.node S j C)) ⟨t, some j, [S.root, b]⟩ _
      have h' : TreeAt true t (Around.plug c (.node S j C)) := h
      by_cases hdep : S.depth ≤ C.depth + 1
      · obtain ⟨t1, e1, h1, a1, c1, k1⟩ := avlBody_calm (a := S.root) (b := b) h' ha hc.1 hc.2 hdep (by omega)
        have hbal : Balanced (.node S j C) := ⟨hdep, by omega, hS, hb.2.2.2⟩
        by_cases hdeq : S.depth ≤ C.depth
        · exact avl_rotated e1 rfl h1 (Balanced.swap (S := .node S0 j C) hB0 hbal (by simp only [Shape.depth]; omega)) a1 c1 k1 (by omega)
        · have o1 := k1.rest.orderStat
          refine AvlDone.after e1 rfl k1 (ih t1 (.node S j C) (.node S0 j C) S.root h1 hB0 hbal (by simp only [Shape.depth]; omega) ?_ (by rw [o1]; exact a1) (by rw [o1]; exact c1))
          exact ⟨S, j, C, rfl, .inr (.inl ⟨rfl, by omega⟩)⟩
      · obtain ⟨A, k, B, rfl, hv⟩ := hv
        have dS : (Shape.node A k B).depth = max A.depth B.depth + 1 := rfl
        have d0 : (Shape.node S0 j C).depth = max S0.depth C.depth + 1 := rfl
        obtain ⟨t2, h2, aS, aC, c2, k2, hstep⟩ := avlBody_turn (a := some k) (b := b) h' ha hc.1 hc.2 (by omega)
        have aA : Ann t2.orderStat t2.at A := ⟨aS.1.2.1, fun ho => (aS.2 ho).2.1⟩
        have aB : Ann t2.orderStat t2.at B := ⟨aS.1.2.2, fun ho => (aS.2 ho).2.2⟩
        have o2 := k2.rest.orderStat
        rcases hv with ⟨rfl, rfl⟩ | ⟨rfl, hv⟩ | ⟨rfl, hv⟩
        · simp [Shape.depth] at hdep
        · obtain ⟨V, i, W, rfl⟩ := depth_pos_root (T := A) (by omega)
          obtain ⟨t3, e3, h3, a3, c3, k3⟩ := rebalance_LL (a := i) h2 aA aB aC c2 rfl
          obtain ⟨n3, en3, _, _, np⟩ := (show TreeAt true t3 (Around.plug (.inR (.node V i W) k :: c) (.node B j C)) from h3).node
          have e4 := hstep t3 n3 e3 en3
          rw [np] at e4
          refine avl_rotated (c' := .inR (.node V i W) k :: c) (S' := .node B j C) e4 ?_ h3 ?_ (by rw [← o2]; exact a3) (by rw [← o2]; exact c3) (k2.trans k3) (by simp)
          · rw [Around.ids_plug, Around.ids_plug]; simp [Around.before, Around.after, Shape.ids]
          · refine Balanced.swap (c := c) (S := .node S0 j C) hB0 ⟨?_, ?_, hS.2.2.1, ?_, ?_, hS.2.2.2, hb.2.2.2⟩ ?_ <;> simp only [Shape.depth] at * <;> omega
        · obtain ⟨V, i, W, rfl⟩ := depth_pos_root (T := B) (by omega)
          obtain ⟨t3, e3, h3, a3, c3, k3⟩ := rebalance_LR h2 aA aB aC c2
          obtain ⟨n3, en3, _, _, np⟩ := (show TreeAt true t3 (Around.plug (.inR (.node A k V) i :: c) (.node W j C)) from h3).node
          have e4 := hstep t3 n3 e3 en3
          rw [np] at e4
          refine avl_rotated (c' := .inR (.node A k V) i :: c) (S' := .node W j C) e4 ?_ h3 ?_ (by rw [← o2]; exact a3) (by rw [← o2]; exact c3) (k2.trans k3) (by simp)
          · rw [Around.ids_plug, Around.ids_plug]; simp [Around.before, Around.after, Shape.ids]
          · have hVW := hS.2.2.2
            simp only [Balanced] at hVW
            refine Balanced.swap (c := c) (S := .node S0 j C) hB0 ⟨?_, ?_, ⟨?_, ?_, hS.2.2.1, hVW.2.2.1⟩, ?_, ?_, hVW.2.2.2, hb.2.2.2⟩ ?_ <;> simp only [Shape.depth] at * <;> omega
    | inR C j =>
      have hb := Balanced.hole (c := c) (S := .node C j S0) hB0
      have hb1 := hb.1
      have hb2 := hb.2.1
      have hlen : (Frame.inR C j :: c).length + 2 = (c.length + 2) + 1 := by simp
      rw [hlen]
      show AvlDone t (Around.plug c (.node C j S)) ⟨t, some j, [S.root, b]⟩ _
      have h' : TreeAt true t (Around.plug c (.node C j S)) := h
      by_cases hdep : S.depth ≤ C.depth + 1
      · obtain ⟨t1, e1, h1, a1, c1, k1⟩ := avlBody_calm (a := S.root) (b := b) h' hc.1 ha hc.2 (by omega) hdep
        have hbal : Balanced (.node C j S) := ⟨by omega, hdep, hb.2.2.1, hS⟩
        by_cases hdeq : S.depth ≤ C.depth
        · exact avl_rotated e1 rfl h1 (Balanced.swap (S := .node C j S0) hB0 hbal (by simp only [Shape.depth]; omega)) a1 c1 k1 (by omega)
        · have o1 := k1.rest.orderStat
          refine AvlDone.after e1 rfl k1 (ih t1 (.node C j S) (.node C j S0) S.root h1 hB0 hbal (by simp only [Shape.depth]; omega) ?_ (by rw [o1]; exact a1) (by rw [o1]; exact c1))
          exact ⟨C, j, S, rfl, .inr (.inr ⟨rfl, by omega⟩)⟩
      · obtain ⟨B, k, A, rfl, hv⟩ := hv
        have dS : (Shape.node B k A).depth = max B.depth A.depth + 1 := rfl
        have d0 : (Shape.node C j S0).depth = max C.depth S0.depth + 1 := rfl
        obtain ⟨t2, h2, aC, aS, c2, k2, hstep⟩ := avlBody_turn (a := some k) (b := b) h' hc.1 ha hc.2 (by omega)
        have aB : Ann t2.orderStat t2.at B := ⟨aS.1.2.1, fun ho => (aS.2 ho).2.1⟩
        have aA : Ann t2.orderStat t2.at A := ⟨aS.1.2.2, fun ho => (aS.2 ho).2.2⟩
        have o2 := k2.rest.orderStat
        rcases hv with ⟨rfl, rfl⟩ | ⟨rfl, hv⟩ | ⟨rfl, hv⟩
        · simp [Shape.depth] at hdep
        · obtain ⟨W, i, V, rfl⟩ := depth_pos_root (T := B) (by omega)
          obtain ⟨t3, e3, h3, a3, c3, k3⟩ := rebalance_RL h2 aA aB aC c2
          obtain ⟨n3, en3, _, _, np⟩ := (show TreeAt true t3 (Around.plug (.inL i (.node V k A) :: c) (.node C j W)) from h3).node
          have e4 := hstep t3 n3 e3 en3
          rw [np] at e4
          refine avl_rotated (c' := .inL i (.node V k A) :: c) (S' := .node C j W) e4 ?_ h3 ?_ (by rw [← o2]; exact a3) (by rw [← o2]; exact c3) (k2.trans k3) (by simp)
          · rw [Around.ids_plug, Around.ids_plug]; simp [Around.before, Around.after, Shape.ids]
          · have hVW := hS.2.2.1
            simp only [Balanced] at hVW
            refine Balanced.swap (c := c) (S := .node C j S0) hB0 ⟨?_, ?_, ⟨?_, ?_, hb.2.2.1, hVW.2.2.1⟩, ?_, ?_, hVW.2.2.2, hS.2.2.2⟩ ?_ <;> simp only [Shape.depth] at * <;> omega
        · obtain ⟨V, i, W, rfl⟩ := depth_pos_root (T := A) (by omega)
          obtain ⟨t3, e3, h3, a3, c3, k3⟩ := rebalance_RR (a := i) h2 aA aB aC c2 rfl
          obtain ⟨n3, en3, _, _, np⟩ := (show TreeAt true t3 (Around.plug (.inL k (.node V i W) :: c) (.node C j B)) from h3).node
          have e4 := hstep t3 n3 e3 en3
          rw [np] at e4
          refine avl_rotated (c' := .inL k (.node V i W) :: c) (S' := .node C j B) e4 ?_ h3 ?_ (by rw [← o2]; exact a3) (by rw [← o2]; exact c3) (k2.trans k3) (by simp)
          · rw [Around.ids_plug, Around.ids_plug]; simp [Around.before, Around.after, Shape.ids]
          · refine Balanced.swap (c := c) (S := .node C j S0) hB0 ⟨?_, ?_, ⟨?_, ?_, hb.2.2.1, hS.2.2.1⟩, hS.2.2.2⟩ ?_ <;> simp only [Shape.depth] at * <;> omega

end Props
