import Verif.Lemmas.RedBlackFix
import Verif.Lemmas.BstDelete

/-!
# Red-black deletion, as long as the array is not contracted
-/
namespace Props
open Py Model Spec
set_option linter.unusedSectionVars false
variable {κ δ : Type} [DecidableEq κ]

/-- The array holds the red-black tree `T` with the entries `E`, in the order of the tree. -/
structure RbTree (t : BTree κ δ) (T : Shape) (E : List (κ × Option δ)) : Prop where
  tree : TreeAt true t T
  ent : Ent t.at T.ids E
  low : ∀ i, (t.at i).isSome → i < t.top
  cap : t.top ≤ t.arr.length
  num : t.num = T.ids.length
  os : t.orderStat = false
  rb : RbOk t T
  root : colOf t.at t.rootIdx = some 0
  red : RedOk t.at T
  black : ∃ N, BlackHeight t.at T N

theorem RbTree.lt_top {t : BTree κ δ} {T : Shape} {E : List (κ × Option δ)} (h : RbTree t T E) : ∀ i ∈ T.ids, i < t.top :=
  fun i hi => h.low i (h.tree.isSome hi)

theorem RbTree.num_eq {t : BTree κ δ} {T : Shape} {E : List (κ × Option δ)} (h : RbTree t T E) : t.num = E.length := by
  rw [h.num, h.ent.length]

theorem RbTree.holding {lt : κ → κ → Bool} {t : BTree κ δ} {T : Shape} {E : List (κ × Option δ)} (h : RbTree t T E) (hs : E.Pairwise fun a b => lt a.1 b.1 = true) :
    Holding lt t T E := ⟨⟨h.tree.root, h.tree.linked.weaken, h.tree.nodup⟩, h.ent, hs, h.low, h.cap, h.num, h.os⟩

theorem SameEntries.entry {t t' : BTree κ δ} (h : SameEntries t t') (i : Nat) : entryAt t'.at i = entryAt t.at i := by
  have h1 := h.key i
  have h2 := h.data i
  unfold entryAt
  cases e : t'.at i with
  | none =>
    cases e' : t.at i with
    | none => rfl
    | some n =>
      rw [e, e'] at h1 h2
      simp_all
  | some n' =>
    cases e' : t.at i with
    | none => simp_all
    | some n => simp_all

/-- A link of the parent is turned. -/
theorem relink_eq {t : BTree κ δ} {f : Frame} {C : Around} {A B : Shape} {x : Nat} {y : Option Nat} (h : TreeAt true t (Around.plug (f :: C) (.node A x B))) :
    modNode t f.idx (fun n => if f.isL then { n with left := y } else { n with right := y }) = relink t f.idx x y := by
  obtain ⟨n, m, en, np, em, mp, h1, h2⟩ := frame_node h
  simp only [relink, getNode_ok em, ok_bind]
  cases hl : f.isL <;> rw [hl] at h2
  · rw [if_neg (of_decide_eq_false h2)]; simp
  · rw [if_pos (of_decide_eq_true h2)]; simp

/-- The node `x`, whose only subtree is `S`, is cut out of the tree. -/
theorem rb_cut {t : BTree κ δ} {f : Frame} {C : Around} {A B S : Shape} {x : Nat} (h : TreeAt true t (Around.plug (f :: C) (.node A x B)))
    (hS : A = .leaf ∧ S = B ∨ B = .leaf ∧ S = A) :
    ∃ t1, modNode t f.idx (fun n => if f.isL then { n with left := S.root } else { n with right := S.root }) = .ok t1 ∧ SameRest t t1 ∧ SameContent t.at t1.at ∧
      t1.rootIdx = t.rootIdx ∧ (∀ j, j ≠ f.idx → t1.at j = t.at j) ∧ LinkedAround true t1.at (f :: C) S.root ∧ (Around.plug (f :: C) S).ids.Nodup ∧
      x ∉ (Around.plug (f :: C) S).ids ∧ (Around.plug (f :: C) S).ids.length + 1 = (Around.plug (f :: C) (.node A x B)).ids.length ∧
      (Around.plug (f :: C) S).root = some t.rootIdx := by
  have hnd := h.nodup
  have hx := h.fresh.2.2
  obtain ⟨hA, _⟩ := (linked_plug true t.at (f :: C) _).mp h.linked
  have hnd0 : (Around.plug (f :: C) .leaf).ids.Nodup := by
    rw [Around.ids_plug] at hnd ⊢; simp only [Shape.ids] at hnd ⊢
    grind
  rw [root_node] at hA
  obtain ⟨t1, e1, r1, s1, o1, a1, q1⟩ := relink_spec (y := S.root) hA hnd0 hx
  refine ⟨t1, by rw [relink_eq h]; exact e1, r1, s1, q1, fun j hj => o1 j (Ne.symm hj), a1, ?_, ?_, ?_, ?_⟩
  · rw [Around.ids_plug] at hnd ⊢
    rcases hS with ⟨rfl, rfl⟩ | ⟨rfl, rfl⟩ <;> simp only [Shape.ids] at hnd <;> grind
  · rw [Around.ids_plug] at hnd ⊢
    rcases hS with ⟨rfl, rfl⟩ | ⟨rfl, rfl⟩ <;> simp only [Shape.ids] at hnd <;> grind
  · rw [Around.ids_plug, Around.ids_plug]
    rcases hS with ⟨rfl, rfl⟩ | ⟨rfl, rfl⟩ <;> simp [Shape.ids] <;> omega
  · rw [← h.root]; exact plug_root (by simp) _ _

/-- Freeing the position of a node that has been cut out. -/
theorem rb_freed {t t2 : BTree κ δ} {T : Shape} {E : List (κ × Option δ)} {x : Nat} (hT : TreeAt true t T) (he : Ent t.at T.ids E)
    (hlow : ∀ i, (t.at i).isSome → i < t.top) (hcap : t.top ≤ t.arr.length) (hnum : t.num = T.ids.length + 1) (hos : t.orderStat = false) (hx : x ∉ T.ids)
    (rb : RbOk t T) (root : colOf t.at t.rootIdx = some 0) (red : RedOk t.at T) (bh : ∃ N, BlackHeight t.at T N)
    (ha : t2.at = fun j => if j = x then none else t.at j) (hf : Freed t t2 x) (hr : t2.rootIdx = t.rootIdx) (ho : t2.orderStat = t.orderStat) : RbTree t2 T E := by
  have hne : ∀ i ∈ T.ids, t2.at i = t.at i := fun i hi => by rw [ha]; simp only; rw [if_neg (by rintro rfl; exact hx hi)]
  have hcol : ∀ i ∈ T.ids, colOf t2.at i = colOf t.at i := fun i hi => by unfold colOf; rw [hne i hi]
  refine ⟨⟨by rw [hr]; exact hT.root, linked_congr (fun i hi => by simp [linksOf, hne i hi]) hT.linked, hT.nodup⟩,
    he.congr (fun i hi => by simp [entryAt, hne i hi]), ?_, ?_, ?_, by rw [ho, hos], ⟨fun j hj => ?_, fun j hj => ?_⟩, ?_, redOk_congr hcol red, ?_⟩
  · intro i hi
    rw [ha] at hi
    simp only at hi
    by_cases e : i = x
    · rw [if_pos e] at hi; cases hi
    · rw [if_neg e] at hi
      have := hlow i hi
      rw [hf.top]; split <;> omega
  · rw [hf.top, hf.len]; split <;> omega
  · have := hf.num; omega
  · rw [hcol j hj]; exact rb.cols j hj
  · rw [hr]; unfold flagOf; rw [hne j hj]; exact rb.flags j hj
  · rw [hr, hcol _ (Shape.root_mem hT.root)]; exact root
  · obtain ⟨N, hN⟩ := bh
    exact ⟨N, blackHeight_congr hcol hN⟩

/-- The second half of `__leaf_case`. -/
theorem rb_unlink {t : BTree κ δ} {f : Frame} {C : Around} {x : Nat} {E1 E2 : List (κ × Option δ)} (L : Lacks t (f :: C) (.node .leaf x .leaf) 0)
    (low : ∀ i, (t.at i).isSome → i < t.top) (cap : t.top ≤ t.arr.length) (num : t.num = (Around.plug (f :: C) (.node .leaf x .leaf)).ids.length)
    (os : t.orderStat = false) (h4 : t.arr.length ≤ 4 * (t.num - 1)) (he1 : Ent t.at (Around.before (f :: C)) E1) (he2 : Ent t.at (Around.after (f :: C)) E2) :
    ∃ t1 t', modNode t f.idx (fun n => if f.isL then { n with left := none } else { n with right := none }) = .ok t1 ∧
      (∀ fuel, rbRemove fuel t1 x = .ok t') ∧ RbTree t' (Around.plug (f :: C) .leaf) (E1 ++ E2) ∧ Freed t t' x := by
  obtain ⟨t1, e1, r1, s1, q1, o1, a1, nd1, hx1, len1, rt1⟩ := rb_cut (S := .leaf) L.tree (.inl ⟨rfl, rfl⟩)
  have hxf : x ≠ f.idx := by
    rintro rfl; exact L.tree.fresh.2.2 (frame_ids.mpr (.inl rfl))
  have hxm : x ∈ (Around.plug (f :: C) (.node .leaf x .leaf)).ids := by rw [mem_plug]; simp [Shape.ids]
  have hxt := L.tree.isSome hxm
  obtain ⟨n, en, n1, n2, n3⟩ := L.tree.node
  have en1 : t1.at x = some n := by rw [o1 x hxf]; exact en
  have T1 : TreeAt true t1 (Around.plug (f :: C) .leaf) := ⟨by rw [q1]; exact rt1, (linked_plug _ _ _ _).mpr ⟨a1, trivial⟩, nd1⟩
  obtain ⟨t2, e2, a2, f2, q2, o2⟩ := atDelete_spec (t := t1) (x := x) (by rw [en1]; rfl) (by rw [r1.top]; exact low x hxt) (by rw [r1.num]; omega) (by rw [r1.num, r1.len]; exact h4)
  have sub : ∀ j ∈ (Around.plug (f :: C) .leaf).ids, j ∈ (Around.plug (f :: C) (.node .leaf x .leaf)).ids := by
    intro j hj; rw [mem_plug] at hj ⊢; exact .inr (by simpa [Shape.ids] using hj)
  have hcol : ∀ j, colOf t1.at j = colOf t.at j := s1.col
  refine ⟨t1, t2, e1, fun fuel => ?_, rb_freed T1 ?_ ?_ ?_ ?_ ?_ hx1 ?_ ?_ ?_ ?_ a2 f2 q2 o2, ?_⟩
  · have hp : getParent t1 x = .ok (some f.idx) := by simp only [getParent, getNode_ok en1, ok_bind, n3]; rfl
    have n1' : n.left = none := n1
    have n2' : n.right = none := n2
    have hl : rbIsLeaf n = true := by simp [rbIsLeaf, n1', n2']
    have hd := delSlot_spec (p := f.idx) (T1.isSome (Frame.idx_mem f C _)) T1.root_isSome e2
    simp only [rbRemove, hp, getNode_ok en1, ok_bind, hl, if_true, asIdx, hd]
    exact updateSize_off (by rw [o2, r1.orderStat]; exact os) fuel _
  · rw [Around.ids_plug]
    simp only [Shape.ids, List.append_nil]
    exact Ent.append_iff.mpr ⟨E1, E2, rfl, he1.congr fun j _ => s1.entry j, he2.congr fun j _ => s1.entry j⟩
  · intro i hi; rw [r1.top]; exact low i (by rwa [s1.some_iff] at hi)
  · rw [r1.top, r1.len]; exact cap
  · rw [r1.num, num]; omega
  · rw [r1.orderStat]; exact os
  · exact ⟨fun j hj => by rw [hcol]; exact L.ok.cols j (sub j hj), fun j hj => by rw [s1.flag, q1]; exact L.ok.flags j (sub j hj)⟩
  · rw [q1, hcol]; exact L.root
  · exact redOk_congr (fun j _ => hcol j) (redOk_plug.mpr ⟨L.red.mono (fun _ => nofun), trivial⟩)
  · obtain ⟨N, hN⟩ := black_plug.mpr ⟨0, (show BlackHeight t.at .leaf 0 from rfl), L.black⟩
    exact ⟨N, blackHeight_congr (fun j _ => hcol j) hN⟩
  · exact ⟨by rw [f2.size, r1.size], by rw [← r1.num]; exact f2.num, by rw [f2.len, r1.len], by rw [f2.top, r1.top]⟩

/-- A leaf below a parent is deleted. -/
theorem rb_leaf {t : BTree κ δ} {f : Frame} {C : Around} {x : Nat} {E1 E2 : List (κ × Option δ)} {e : κ × Option δ}
    (H : RbTree t (Around.plug (f :: C) (.node .leaf x .leaf)) (E1 ++ e :: E2)) (h4 : t.arr.length ≤ 4 * (t.num - 1))
    (he1 : Ent t.at (Around.before (f :: C)) E1) (he2 : Ent t.at (Around.after (f :: C)) E2) :
    ∃ t' T', RbTree t' T' (E1 ++ E2) ∧ Freed t t' x ∧ ∃ n0, ∀ fuel, n0 ≤ fuel → rbLeafCase fuel t x none = .ok t' := by
  obtain ⟨r1, _⟩ := redOk_plug.mp H.red
  obtain ⟨N, ⟨m, hm, _, hN⟩, b1⟩ := black_plug.mp H.black
  have hm0 : m = 0 := hm
  subst hm0
  have hxm : x ∈ (Around.plug (f :: C) (.node .leaf x .leaf)).ids := by rw [mem_plug]; simp [Shape.ids]
  obtain ⟨n, en, n1, n2, n3⟩ := H.tree.node
  have eup : getParent t x = .ok (some f.idx) := getParent_ok H.tree
  have fix : ∃ t1 c', Lacks t1 c' (.node .leaf x .leaf) 0 ∧ Around2 t t1 (f :: C) c' (.node .leaf x .leaf) ∧
      ∃ v, colOf t.at x = some v ∧ ∃ n0, ∀ fuel, n0 ≤ fuel →
        (if decide (some v = some 0) = true then rbFixDel fuel t x else do
          let sib ← getSibling t x
          paintIf t sib 1) = .ok t1 := by
    rcases H.rb.cols x hxm with hx | hx
    · have hb : blk t.at x = 1 := by simp [blk, hx]
      rw [hb] at hN
      subst hN
      obtain ⟨t1, c', w, b, L, a, n0, hrun⟩ := rbDel_loop (f :: C) t .leaf .leaf x 0 ⟨H.tree, H.rb, r1.mono (fun _ => trivial), b1, H.root⟩
      refine ⟨t1, c', L, a, 0, hx, n0, fun fuel hf => ?_⟩
      simp only [decide_true, if_true, rbFixDel, colorAt_ok hx, ok_bind, hrun fuel hf]
    · have hb : blk t.at x = 0 := by simp [blk, hx]
      rw [hb] at hN
      subst hN
      have L0 : Lacks t (f :: C) (.node .leaf x .leaf) 0 := ⟨H.tree, H.rb, r1.mono (fun _ => trivial), b1, H.root⟩
      have e2 := getSibling_ok H.tree
      cases ho : f.other with
      | leaf =>
        refine ⟨t, f :: C, L0, ⟨rfl, rfl, rfl, .refl t, fun _ _ => rfl⟩, 1, hx, 0, fun fuel _ => ?_⟩
        rw [ho] at e2
        simp only [e2]; rfl
      | node P s Q =>
        have hom : ∀ j ∈ f.other.ids, j ∈ (Around.plug (f :: C) (.node .leaf x .leaf)).ids := fun j hj => around_mem (frame_ids.mpr (.inr (.inl hj)))
        have hsm : s ∈ (Around.plug (f :: C) (.node .leaf x .leaf)).ids := hom s (by rw [ho]; simp [Shape.ids])
        have hs : colOf t.at s = some 1 := by
          rcases H.rb.cols s hsm with h0 | h1
          · obtain ⟨m', _, _, hh⟩ := (ho ▸ b1.1 : BlackHeight t.at (.node P s Q) 0)
            simp [blk, h0] at hh
          · exact h1
        obtain ⟨t1, p1, m1⟩ := paint_spec (t := t) (i := s) 1 (H.tree.isSome hsm)
        have hcol : ∀ j, colOf t1.at j = colOf t.at j := by
          intro j; rw [m1.col]; split
          · rename_i h; rw [h, hs]
          · rfl
        refine ⟨t1, f :: C, ⟨m1.tree _ H.tree, paint_keep m1 (.inr rfl) H.rb, redAround_congr (fun j _ => hcol j) L0.red, blackAround_congr (fun j _ => hcol j) L0.black,
          by rw [hcol, m1.root]; exact H.root⟩, ⟨rfl, rfl, rfl, m1.ent, fun j _ => hcol j⟩, 1, hx, 0, fun fuel _ => ?_⟩
        rw [ho, root_node] at e2
        simp only [e2]; exact p1
  obtain ⟨t1, c', L, a, v, hv, n0, hrun⟩ := fix
  cases c' with
  | nil => have := a.up; simp [Around.up] at this
  | cons f' C' =>
    have hidx : f'.idx = f.idx := by have := a.up; simpa [Around.up] using this
    have hids : (Around.plug (f' :: C') (.node .leaf x .leaf)).ids = (Around.plug (f :: C) (.node .leaf x .leaf)).ids := by rw [Around.ids_plug, Around.ids_plug, a.bef, a.aft]
    obtain ⟨t2, t3, e2, e3, h3, f3⟩ := rb_unlink (E1 := E1) (E2 := E2) L
      (fun i hi => by
        rw [a.ent.rest.top]; apply H.low
        have := a.ent.key i
        cases h1 : t.at i with
        | none => rw [h1] at this; cases h2 : t1.at i <;> simp_all
        | some n => rfl)
      (by rw [a.ent.rest.top, a.ent.rest.len]; exact H.cap) (by rw [a.ent.rest.num, hids]; exact H.num) (by rw [a.ent.rest.orderStat]; exact H.os)
      (by rw [a.ent.rest.len, a.ent.rest.num]; exact h4) (by rw [a.bef]; exact he1.congr fun j _ => a.ent.entry j) (by rw [a.aft]; exact he2.congr fun j _ => a.ent.entry j)
    refine ⟨t3, _, h3, ⟨by rw [f3.size, a.ent.rest.size], by rw [f3.num, a.ent.rest.num], by rw [f3.len, a.ent.rest.len], by rw [f3.top, a.ent.rest.top]⟩, n0, fun fuel hf => ?_⟩
    have h1 := hrun fuel hf
    have h2 : isOnLeft t1 x = .ok f'.isL := isOnLeft_ok L.tree
    rw [hidx] at e2
    have hbb : rbBothBlack t (some v) none = .ok (decide (some v = some 0)) := rfl
    cases hb : decide (some v = some 0) <;> rw [hb] at h1 hbb
    · rw [if_neg Bool.false_ne_true] at h1
      cases hsib : getSibling t x with
      | error e => rw [hsib] at h1; cases h1
      | ok sib =>
        rw [hsib] at h1
        have h1' : paintIf t sib 1 = .ok t1 := h1
        simp only [rbLeafCase, eup, colorAt_ok hv, ok_bind, hbb, Bool.false_eq_true, if_false, hsib, h1', h2, e2, e3]
    · rw [if_pos rfl] at h1
      simp only [rbLeafCase, eup, colorAt_ok hv, ok_bind, hbb, if_true, h1, h2, e2, e3]

/-- An only child is a red leaf below a black node. -/
theorem only_child {t : BTree κ δ} {A B S : Shape} {x N : Nat} (hS : A = .leaf ∧ S = B ∨ B = .leaf ∧ S = A) (hne : S ≠ .leaf)
    (hc : ∀ j ∈ (Shape.node A x B).ids, colOf t.at j = some 0 ∨ colOf t.at j = some 1) (hr : RedOk t.at (.node A x B)) (hb : BlackHeight t.at (.node A x B) N) :
    ∃ w, S = .node .leaf w .leaf ∧ colOf t.at w = some 1 ∧ colOf t.at x = some 0 ∧ N = 1 := by
  obtain ⟨q1, q2, q3⟩ := hr
  obtain ⟨m, b1, b2, b3⟩ := hb
  have key : m = 0 ∧ BlackHeight t.at S 0 ∧ RedOk t.at S ∧ (colOf t.at x = some 1 → BlackRoot t.at S) ∧ ∀ j ∈ S.ids, colOf t.at j = some 0 ∨ colOf t.at j = some 1 := by
    rcases hS with ⟨rfl, rfl⟩ | ⟨rfl, rfl⟩
    · have h0 : m = 0 := b1
      subst h0
      exact ⟨rfl, b2, q3, fun e => (q1 e).2, fun j hj => hc j (by simp [Shape.ids, hj])⟩
    · have h0 : m = 0 := b2
      subst h0
      exact ⟨rfl, b1, q2, fun e => (q1 e).1, fun j hj => hc j (by simp [Shape.ids, hj])⟩
  obtain ⟨rfl, hS0, hSr, hxS, hcS⟩ := key
  cases S with
  | leaf => exact absurd rfl hne
  | node P w Q =>
    obtain ⟨m, c1, c2, c3⟩ := hS0
    have hw : colOf t.at w = some 1 := by
      rcases hcS w (by simp [Shape.ids]) with h | h
      · simp [blk, h] at c3
      · exact h
    have hm : m = 0 := by omega
    subst hm
    obtain ⟨d1, d2, d3⟩ := hSr
    have leafy : ∀ {X : Shape}, BlackRoot t.at X → BlackHeight t.at X 0 → X = .leaf := by
      intro X h1 h2
      cases X with
      | leaf => rfl
      | node X1 y X2 =>
        rw [blackRoot_node] at h1
        obtain ⟨m, _, _, h3⟩ := h2
        simp [blk, h1] at h3
    rw [leafy (d1 hw).1 c1, leafy (d1 hw).2 c2]
    have hx : colOf t.at x = some 0 := by
      rcases hc x (by simp [Shape.ids]) with h | h
      · exact h
      · have := hxS h; rw [blackRoot_node, hw] at this; cases this
    exact ⟨w, rfl, hw, hx, by rw [b3]; simp [blk, hx]⟩

theorem mapAt_freed {h : Cells κ δ} {g : BNode κ δ → BNode κ δ} {x w : Nat} (hxw : x ≠ w) :
    mapAt (fun j => if j = x then none else h j) w g = fun j => if j = x then none else mapAt h w g j := by
  funext j
  unfold mapAt
  by_cases hj : j = w
  · subst hj; simp [Ne.symm hxw]
  · simp [hj]

/-- A node with one child, below a parent, is deleted. -/
theorem rb_one {t : BTree κ δ} {f : Frame} {C : Around} {A B S : Shape} {x : Nat} {E1 E2 : List (κ × Option δ)} {e : κ × Option δ}
    (H : RbTree t (Around.plug (f :: C) (.node A x B)) (E1 ++ e :: E2)) (hS : A = .leaf ∧ S = B ∨ B = .leaf ∧ S = A) (hne : S ≠ .leaf) (h4 : t.arr.length ≤ 4 * (t.num - 1))
    (he1 : Ent t.at (Around.before (f :: C) ++ A.ids) E1) (he2 : Ent t.at (B.ids ++ Around.after (f :: C)) E2) :
    ∃ t' T' w, S.root = some w ∧ RbTree t' T' (E1 ++ E2) ∧ Freed t t' x ∧ ∀ fuel, rbOneCase fuel t x w = .ok t' := by
  obtain ⟨r1, r2⟩ := redOk_plug.mp H.red
  obtain ⟨N, hN, b1⟩ := black_plug.mp H.black
  obtain ⟨w, rfl, hw, hx, rfl⟩ := only_child hS hne (fun j hj => H.rb.cols j (by rw [mem_plug]; exact .inl hj)) r2 hN
  obtain ⟨t1, e1, s1r, s1, q1, o1, a1, nd1, hx1, len1, rt1⟩ := rb_cut H.tree hS
  have hxm : x ∈ (Around.plug (f :: C) (.node A x B)).ids := by rw [mem_plug]; simp [Shape.ids]
  have hwm : w ∈ (Around.plug (f :: C) (.node .leaf w .leaf)).ids := by rw [mem_plug]; simp [Shape.ids]
  have hxw : x ≠ w := by rintro rfl; exact hx1 hwm
  have hxf : x ≠ f.idx := by rintro rfl; exact H.tree.fresh.2.2 (frame_ids.mpr (.inl rfl))
  have hwf : w ≠ f.idx := by
    have := (around_fresh nd1).1
    rintro rfl; exact this (by simp [Shape.ids])
  have hwa : ∀ j ∈ Around.before (f :: C) ++ Around.after (f :: C), j ≠ w := by
    intro j hj
    have nd := nd1
    rw [Around.ids_plug] at nd
    simp only [Shape.ids, List.append_nil, List.nil_append] at nd
    rintro rfl
    simp only [List.mem_append] at hj
    grind
  have sub : ∀ j ∈ (Around.plug (f :: C) (.node .leaf w .leaf)).ids, j ∈ (Around.plug (f :: C) (.node A x B)).ids := by
    intro j hj; rw [mem_plug] at hj ⊢
    rcases hj with hj | hj
    · refine .inl ?_
      rcases hS with ⟨rfl, rfl⟩ | ⟨rfl, rfl⟩ <;> simp [Shape.ids] at hj ⊢ <;> simp [hj]
    · exact .inr hj
  obtain ⟨n, en, n1, n2, n3⟩ := H.tree.node
  obtain ⟨m, em⟩ := Option.isSome_iff_exists.mp (H.tree.isSome (sub w hwm))
  have hml : m.left = none ∧ m.right = none := by
    obtain ⟨_, _, l1, l2⟩ := (linked_plug true t.at (f :: C) _).mp H.tree.linked
    rcases hS with ⟨rfl, rfl⟩ | ⟨rfl, rfl⟩
    · obtain ⟨⟨m', em', x1, x2, _⟩, _⟩ := l2
      rw [em] at em'; cases em'; exact ⟨x1, x2⟩
    · obtain ⟨⟨m', em', x1, x2, _⟩, _⟩ := l1
      rw [em] at em'; cases em'; exact ⟨x1, x2⟩
  have em1 : t1.at w = some m := by rw [o1 w hwf]; exact em
  obtain ⟨t2, e2, a2, r2', q2⟩ := modNode_spec (t := t1) (i := w) (fun n => { n with parent := some f.idx }) (by rw [em1]; rfl)
  have en2 : t2.at x = some n := by rw [a2]; simp only [mapAt, if_neg hxw]; rw [o1 x hxf]; exact en
  have em2 : t2.at w = some { m with parent := some f.idx } := by rw [a2]; exact mapAt_same em1
  have oth2 : ∀ j, j ≠ w → t2.at j = t1.at j := fun j hj => by rw [a2]; simp only [mapAt, if_neg hj]
  have T2 : TreeAt true t2 (Around.plug (f :: C) (.node .leaf w .leaf)) := by
    refine ⟨by rw [q2, q1]; exact rt1, (linked_plug _ _ _ _).mpr ⟨around_congr (fun j hj => ?_) a1, ⟨_, em2, hml.1, hml.2, fun _ => rfl⟩, trivial, trivial⟩, nd1⟩
    simp only [linksOf, oth2 j (hwa j hj)]
  have rr : SameRest t t2 := s1r.trans r2'
  -- painting first or freeing first gives the same
  obtain ⟨u, eu, au, ru, qu⟩ := modNode_spec (t := t2) (i := w) (fun n => { n with color := some 0 }) (by rw [em2]; rfl)
  obtain ⟨u', eu', mu⟩ := paint_spec (t := t2) (i := w) 0 (by rw [em2]; rfl)
  have : u' = u := by unfold paint at eu'; rw [eu] at eu'; cases eu'; rfl
  subst this
  have Tu := mu.tree _ T2
  obtain ⟨t3, e3, a3, f3, q3, o3⟩ := atDelete_spec (t := t2) (x := x) (by rw [en2]; rfl) (by rw [rr.top]; exact H.lt_top x hxm)
    (by rw [rr.num, H.num]; have := List.length_pos_of_mem hxm; omega) (by rw [rr.num, rr.len]; exact h4)
  have em3 : t3.at w = some { m with parent := some f.idx } := by rw [a3]; simp only; rw [if_neg (Ne.symm hxw)]; exact em2
  obtain ⟨t4, e4, a4, r4, q4⟩ := modNode_spec (t := t3) (i := w) (fun n => { n with color := some 0 }) (by rw [em3]; rfl)
  have c2 : ∀ j, colOf t2.at j = colOf t.at j := by
    intro j
    rw [← s1.col]
    by_cases hj : j = w
    · subst hj; unfold colOf; rw [em2, em1]; rfl
    · unfold colOf; rw [oth2 j hj]
  have fl2 : ∀ j, flagOf t2.at j = flagOf t.at j := by
    intro j
    rw [← s1.flag]
    by_cases hj : j = w
    · subst hj; unfold flagOf; rw [em2, em1]; rfl
    · unfold flagOf; rw [oth2 j hj]
  have en2' : ∀ j, entryAt t2.at j = entryAt t.at j := by
    intro j
    rw [← s1.entry]
    by_cases hj : j = w
    · subst hj; unfold entryAt; rw [em2, em1]; rfl
    · unfold entryAt; rw [oth2 j hj]
  have cu : ∀ j, j ≠ w → colOf u'.at j = colOf t.at j := fun j hj => by rw [mu.col, if_neg hj, c2]
  have cuw : colOf u'.at w = some 0 := by rw [mu.col, if_pos rfl]
  have rroot : colOf u'.at u'.rootIdx = some 0 := by
    rw [mu.col, mu.root, q2, q1]
    split
    · rfl
    · rw [c2]; exact H.root
  refine ⟨t4, _, w, rfl, rb_freed (t := u') (x := x) Tu ?_ ?_ ?_ ?_ ?_ hx1 ?_ rroot ?_ ?_ ?_ ?_ ?_ ?_, ?_, fun fuel => ?_⟩
  · have : Ent t.at (Around.plug (f :: C) (.node .leaf w .leaf)).ids (E1 ++ E2) := by
      rw [Around.ids_plug]
      have := Ent.append_iff.mpr ⟨E1, E2, rfl, he1, he2⟩
      rcases hS with ⟨rfl, rfl⟩ | ⟨rfl, rfl⟩ <;> simpa [Shape.ids] using this
    exact this.congr fun j _ => by rw [mu.ent.entry, en2']
  · intro i hi
    rw [ru.top, rr.top]
    apply H.low
    rw [au] at hi
    have hi2 : (t2.at i).isSome := by
      simp only [mapAt] at hi
      split at hi
      · simpa using hi
      · exact hi
    rw [← s1.some_iff]
    by_cases hj : i = w
    · subst hj; rw [em1]; rfl
    · rwa [oth2 i hj] at hi2
  · rw [ru.top, ru.len, rr.top, rr.len]; exact H.cap
  · rw [ru.num, rr.num, H.num]; omega
  · rw [ru.orderStat, rr.orderStat]; exact H.os
  · refine ⟨fun j hj => ?_, fun j hj => ?_⟩
    · by_cases hjw : j = w
      · subst hjw; exact .inl cuw
      · rw [cu j hjw]; exact H.rb.cols j (sub j hj)
    · rw [mu.flg, fl2, mu.root, q2, q1]; exact H.rb.flags j (sub j hj)
  · refine redOk_plug.mpr ⟨redAround_congr (fun j hj => cu j (hwa j hj)) (r1.mono (fun _ => ?_)), fun e => (by rw [cuw] at e; cases e), trivial, trivial⟩
    rw [blackRoot_node]; exact cuw
  · refine black_plug.mpr ⟨1, ⟨0, rfl, rfl, by simp [blk, cuw]⟩, blackAround_congr (fun j hj => cu j (hwa j hj)) b1⟩
  · rw [a4, a3, au]
    exact mapAt_freed hxw
  · exact ⟨by rw [r4.size, f3.size, ru.size], by rw [r4.num, ru.num]; exact f3.num, by rw [r4.len, f3.len, ru.len], by rw [r4.top, f3.top, ru.top]⟩
  · rw [q4, q3, qu]
  · rw [r4.orderStat, o3, ru.orderStat]
  · exact ⟨by rw [r4.size, f3.size, rr.size], by rw [r4.num, ← rr.num]; exact f3.num, by rw [r4.len, f3.len, rr.len], by rw [r4.top, f3.top, rr.top]⟩
  · have h1 : getParent t x = .ok (some f.idx) := getParent_ok H.tree
    have h2 : isOnLeft t x = .ok f.isL := isOnLeft_ok H.tree
    have h3 : getParent t2 x = .ok (some f.idx) := by simp only [getParent, getNode_ok en2, ok_bind, n3]; rfl
    have hl : rbIsLeaf n = false ∧ rbHasOne n = true := by
      rcases hS with ⟨rfl, rfl⟩ | ⟨rfl, rfl⟩
      · have x1 : n.left = none := n1
        have x2 : n.right = some w := n2
        simp [rbIsLeaf, rbHasOne, rbHasTwo, x1, x2]
      · have x1 : n.left = some w := n1
        have x2 : n.right = none := n2
        simp [rbIsLeaf, rbHasOne, rbHasTwo, x1, x2]
    obtain ⟨nf, enf⟩ := Option.isSome_iff_exists.mp (T2.isSome (Frame.idx_mem f C _))
    obtain ⟨nr, enr⟩ := Option.isSome_iff_exists.mp T2.root_isSome
    have hu : updateSize fuel t3 (some f.idx) = .ok t3 := updateSize_off (by rw [o3, rr.orderStat]; exact H.os) fuel _
    have hrem : rbRemove fuel t2 x = .ok t3 := by
      simp only [rbRemove, h3, getNode_ok en2, ok_bind, hl, Bool.false_eq_true, if_false, if_true, getNode?_ok enf, getNode_ok enr, e3, hu]
    have hcw : colOf t3.at w = some 1 := by
      unfold colOf; rw [em3]; have := hw; unfold colOf at this; rw [em] at this; exact this
    have hbb : rbBothBlack t3 (some 0) (some w) = .ok false := by
      simp only [rbBothBlack, getNode_ok em3, ok_bind, isCol_at em3 hcw]; rfl
    simp only [root_node] at e1
    simp only [rbOneCase, colorAt_ok hx, h1, h2, ok_bind, e1, e2, hrem, hbb, Bool.false_eq_true, if_false]
    exact e4

/-- The tree after its last key has been deleted; also the tree before the first insertion. -/
structure RbCleared (t : BTree κ δ) : Prop where
  root : ∃ n, t.at t.rootIdx = some n ∧ n.key = none ∧ n.left = none ∧ n.right = none ∧ n.parent = none ∧ n.isRoot = true
  low : ∀ i, (t.at i).isSome → i < t.top
  cap : t.top ≤ t.arr.length
  num : t.num = 1
  os : t.orderStat = false

theorem RbCleared.cleared {t : BTree κ δ} (h : RbCleared t) : Cleared t := by
  obtain ⟨n, en, a, b, c, _⟩ := h.root
  exact ⟨⟨n, en, a, b, c⟩, h.low, h.cap, h.num, h.os⟩

theorem RbCleared.empty : RbCleared (btEmpty false : BTree κ δ) := by
  refine ⟨⟨_, rfl, rfl, rfl, rfl, rfl, rfl⟩, ?_, by simp [btEmpty], rfl, rfl⟩
  exact Cleared.empty.low

theorem rb_root_leaf {t : BTree κ δ} {E : List (κ × Option δ)} {x : Nat} (H : RbTree t (.node .leaf x .leaf) E) :
    ∃ t', RbCleared t' ∧ SameRest t t' ∧ ∀ fuel, rbLeafCase fuel t x none = .ok t' := by
  have hrt : x = t.rootIdx := by have := H.tree.root; rw [root_node] at this; exact Option.some.inj this
  subst hrt
  obtain ⟨⟨n, en, n1, n2, n3⟩, _⟩ := H.tree.linked
  have n3' := n3 rfl
  have hf : n.isRoot = true := by have := H.rb.flags t.rootIdx (by simp [Shape.ids]); simpa [flagOf, en] using this
  obtain ⟨t1, e1, a1, r1, q1⟩ := modNode_spec (t := t) (i := t.rootIdx) (fun n => { n with data := none, key := none }) (by rw [en]; rfl)
  refine ⟨t1, ⟨⟨{ n with data := none, key := none }, ?_, rfl, n1, n2, n3', hf⟩, ?_, by rw [r1.top, r1.len]; exact H.cap, ?_, by rw [r1.orderStat]; exact H.os⟩, r1, fun fuel => ?_⟩
  · rw [a1, q1]; simp [mapAt, en]
  · intro i hi
    rw [r1.top]
    apply H.low
    rw [a1] at hi
    simp only [mapAt] at hi
    split at hi
    · simpa using hi
    · exact hi
  · rw [r1.num, H.num]; rfl
  · have hp : getParent t t.rootIdx = .ok none := by simp only [getParent, getNode_ok en, ok_bind, n3']
    have n1' : n.left = none := n1
    have n2' : n.right = none := n2
    have hl : rbIsLeaf n = true := by simp [rbIsLeaf, n1', n2']
    simp only [rbLeafCase, hp, colorAt_ok H.root, ok_bind, rbDeleteRoot, getNode_ok en, hl, if_true]
    exact e1

/-- The root with one child takes over the child's entry. -/
theorem rb_root_one {t : BTree κ δ} {A B S : Shape} {x : Nat} {E1 E2 : List (κ × Option δ)} {e : κ × Option δ}
    (H : RbTree t (.node A x B) (E1 ++ e :: E2)) (hS : A = .leaf ∧ S = B ∨ B = .leaf ∧ S = A) (hne : S ≠ .leaf) (h4 : t.arr.length ≤ 4 * (t.num - 1))
    (he1 : Ent t.at A.ids E1) (he2 : Ent t.at B.ids E2) :
    ∃ t' T' w, S.root = some w ∧ RbTree t' T' (E1 ++ E2) ∧ Freed t t' w ∧ ∀ fuel, rbOneCase fuel t x w = .ok t' := by
  obtain ⟨N, hN⟩ := H.black
  obtain ⟨w, rfl, hw, hx, rfl⟩ := only_child hS hne H.rb.cols H.red hN
  have hrt : x = t.rootIdx := by have := H.tree.root; rw [root_node] at this; exact Option.some.inj this
  obtain ⟨⟨n, en, n1, n2, n3⟩, l1, l2⟩ := H.tree.linked
  have n3' := n3 rfl
  have hxm : x ∈ (Shape.node A x B).ids := by simp [Shape.ids]
  have hwm : w ∈ (Shape.node A x B).ids := by rcases hS with ⟨rfl, rfl⟩ | ⟨rfl, rfl⟩ <;> simp [Shape.ids]
  have hxw : x ≠ w := by
    have := H.tree.nodup
    rcases hS with ⟨rfl, rfl⟩ | ⟨rfl, rfl⟩ <;> simp [Shape.ids] at this <;> grind
  have hids : t.num = 2 := by rw [H.num]; rcases hS with ⟨rfl, rfl⟩ | ⟨rfl, rfl⟩ <;> simp [Shape.ids]
  obtain ⟨m, em, m1, m2⟩ : ∃ m, t.at w = some m ∧ m.left = none ∧ m.right = none := by
    rcases hS with ⟨rfl, rfl⟩ | ⟨rfl, rfl⟩
    · obtain ⟨⟨m', em', x1, x2, _⟩, _⟩ := l2
      exact ⟨m', em', x1, x2⟩
    · obtain ⟨⟨m', em', x1, x2, _⟩, _⟩ := l1
      exact ⟨m', em', x1, x2⟩
  have hf : n.isRoot = true := by have := H.rb.flags x hxm; rw [← hrt] at this; simpa [flagOf, en] using this
  have hl : rbIsLeaf n = false ∧ rbHasOne n = true := by
    rcases hS with ⟨rfl, rfl⟩ | ⟨rfl, rfl⟩
    · have x1 : n.left = none := n1
      have x2 : n.right = some w := n2
      simp [rbIsLeaf, rbHasOne, rbHasTwo, x1, x2]
    · have x1 : n.left = some w := n1
      have x2 : n.right = none := n2
      simp [rbIsLeaf, rbHasOne, rbHasTwo, x1, x2]
  have hw1 : entryAt t.at w = entryAt t.at w := rfl
  have hent : Ent t.at [w] (E1 ++ E2) := by
    have := Ent.append_iff.mpr ⟨E1, E2, rfl, he1, he2⟩
    rcases hS with ⟨rfl, rfl⟩ | ⟨rfl, rfl⟩ <;> simpa [Shape.ids] using this
  obtain ⟨t1, e1, a1, r1, q1⟩ := modNode_spec (t := t) (i := x)
    (fun n => { n with key := m.key, data := m.data, left := m.left, right := m.right }) (by rw [en]; rfl)
  have en1 : t1.at x = some { n with key := m.key, data := m.data, left := m.left, right := m.right } := by rw [a1]; exact mapAt_same en
  obtain ⟨t2, e2, a2, r2, q2⟩ := modNode_spec (t := t1) (i := x) (fun n => { n with parent := none }) (by rw [en1]; rfl)
  have en2 : t2.at x = some { n with key := m.key, data := m.data, left := m.left, right := m.right, parent := none } := by rw [a2]; exact mapAt_same en1
  have oth : ∀ j, j ≠ x → t2.at j = t.at j := fun j hj => by rw [a2]; simp only [mapAt, if_neg hj]; rw [a1]; simp only [mapAt, if_neg hj]
  have rr := r1.trans r2
  have qq : t2.rootIdx = t.rootIdx := q2.trans q1
  obtain ⟨t3, e3, a3, f3, q3, o3⟩ := atDelete_spec (t := t2) (x := w) (by rw [oth w (Ne.symm hxw), em]; rfl) (by rw [rr.top]; exact H.lt_top w hwm)
    (by rw [rr.num]; omega) (by rw [rr.num, rr.len]; exact h4)
  have colx : colOf t2.at x = some 0 := by unfold colOf at hx ⊢; rw [en2]; rw [en] at hx; exact hx
  have some_iff : ∀ j, (t2.at j).isSome → (t.at j).isSome := by
    intro j hj
    by_cases e : j = x
    · rw [e, en]; rfl
    · rwa [oth j e] at hj
  refine ⟨t3, .node .leaf x .leaf, w, rfl, rb_freed (t := t2) (x := w) ⟨by rw [root_node, qq, hrt], ⟨⟨_, en2, m1, m2, fun _ => rfl⟩, trivial, trivial⟩, by simp [Shape.ids]⟩ ?_
    (fun i hi => by rw [rr.top]; exact H.low i (some_iff i hi)) (by rw [rr.top, rr.len]; exact H.cap) (by rw [rr.num, hids]; rfl) (by rw [rr.orderStat]; exact H.os)
    (by simp [Shape.ids, Ne.symm hxw]) ?_ (by rw [qq, ← hrt]; exact colx) ⟨fun e => (by rw [colx] at e; cases e), trivial, trivial⟩ ⟨1, 0, rfl, rfl, by simp [blk, colx]⟩ a3 f3 q3 o3, ?_, fun fuel => ?_⟩
  · obtain ⟨e', E3, h1, h2, h3⟩ := Ent.cons_iff.mp hent
    have : E3 = [] := by have := h3.length; simpa using this
    subst this
    rw [h1]
    refine Ent.cons_iff.mpr ⟨e', [], rfl, ?_, Ent.nil _⟩
    unfold entryAt at h2 ⊢; rw [em] at h2; rw [en2]; exact h2
  · refine ⟨fun j hj => ?_, fun j hj => ?_⟩ <;> simp [Shape.ids] at hj <;> subst hj
    · exact .inl colx
    · rw [qq, ← hrt]; unfold flagOf; rw [en2]; simp [hf]
  · exact ⟨by rw [f3.size, rr.size], by rw [← rr.num]; exact f3.num, by rw [f3.len, rr.len], by rw [f3.top, rr.top]⟩
  · have hp : getParent t x = .ok none := by simp only [getParent, getNode_ok en, ok_bind, n3']
    have e1' : modNode t t.rootIdx (fun n => { n with key := m.key, data := m.data, left := m.left, right := m.right }) = .ok t1 := by rw [← hrt]; exact e1
    have en2' : t2.at t2.rootIdx = some { n with key := m.key, data := m.data, left := m.left, right := m.right, parent := none } := by rw [qq, ← hrt]; exact en2
    simp only [rbOneCase, colorAt_ok hx, hp, ok_bind, rbDeleteRoot, getNode_ok en, hl, Bool.false_eq_true, if_false, if_true, asIdx, rbTransplant, getNode_ok em, hf, Bool.and_self,
      e1', e2, getNode_ok en2', e3]

/-- What deleting a node with at most one child achieves. -/
def RbGone (t t' : BTree κ δ) (E : List (κ × Option δ)) : Prop :=
  t.num = 1 ∧ RbCleared t' ∧ SameRest t t' ∧ E = [] ∨ 2 ≤ t.num ∧ ∃ T' y, RbTree t' T' E ∧ Freed t t' y

theorem rb_node {t : BTree κ δ} {c : Around} {A B : Shape} {x : Nat} {E1 E2 : List (κ × Option δ)} {e : κ × Option δ}
    (H : RbTree t (Around.plug c (.node A x B)) (E1 ++ e :: E2)) (hS : A = .leaf ∨ B = .leaf) (h4 : t.num = 1 ∨ t.arr.length ≤ 4 * (t.num - 1))
    (he1 : Ent t.at (Around.before c ++ A.ids) E1) (he2 : Ent t.at (B.ids ++ Around.after c) E2) :
    ∃ t' w, RbGone t t' (E1 ++ E2) ∧ (∀ fuel, rbReplace fuel t x = .ok w) ∧ ∃ n0, ∀ fuel, n0 ≤ fuel → rbDeleteNode fuel t x w = .ok t' := by
  have hnum := H.num
  rw [Around.ids_plug] at hnum
  simp only [Shape.ids, List.length_append, List.length_cons, List.length_nil] at hnum
  obtain ⟨⟨n, en, n1, n2, _⟩, _⟩ := ((linked_plug true t.at c _).mp H.tree.linked).2
  have one : ∀ {S : Shape}, (A = .leaf ∧ S = B ∨ B = .leaf ∧ S = A) → S ≠ .leaf →
      ∃ t' w, RbGone t t' (E1 ++ E2) ∧ (∀ fuel, rbReplace fuel t x = .ok w) ∧ ∃ n0, ∀ fuel, n0 ≤ fuel → rbDeleteNode fuel t x w = .ok t' := by
    intro S hS hne
    have h2 : 2 ≤ t.num := by
      cases S with
      | leaf => exact absurd rfl hne
      | node P w Q => rcases hS with ⟨rfl, rfl⟩ | ⟨rfl, rfl⟩ <;> simp [Shape.ids] at hnum <;> omega
    have h4' : t.arr.length ≤ 4 * (t.num - 1) := by omega
    have : ∃ t' T' w y, S.root = some w ∧ RbTree t' T' (E1 ++ E2) ∧ Freed t t' y ∧ ∀ fuel, rbOneCase fuel t x w = .ok t' := by
      cases c with
      | nil =>
        obtain ⟨t', T', w, a, b, d, r⟩ := rb_root_one H hS hne h4' (by simpa [Around.before] using he1) (by simpa [Around.after] using he2)
        exact ⟨t', T', w, w, a, b, d, r⟩
      | cons f C =>
        obtain ⟨t', T', w, a, b, d, r⟩ := rb_one H hS hne h4' he1 he2
        exact ⟨t', T', w, x, a, b, d, r⟩
    obtain ⟨t', T', w, y, hw, hR, hf, hrun⟩ := this
    have hl : rbIsLeaf n = false ∧ rbHasOne n = true ∧ (n.left = none ∧ n.right = some w ∨ n.left = some w ∧ n.right = none) := by
      rcases hS with ⟨rfl, rfl⟩ | ⟨rfl, rfl⟩
      · have x1 : n.left = none := n1
        have x2 : n.right = some w := n2.trans hw
        simp [rbIsLeaf, rbHasOne, rbHasTwo, x1, x2]
      · have x1 : n.left = some w := n1.trans hw
        have x2 : n.right = none := n2
        simp [rbIsLeaf, rbHasOne, rbHasTwo, x1, x2]
    refine ⟨t', some w, .inr ⟨h2, T', y, hR, hf⟩, fun fuel => ?_, 0, fun fuel _ => ?_⟩
    · rcases hl.2.2 with ⟨a, b⟩ | ⟨a, b⟩ <;> simp only [rbReplace, getNode_ok en, ok_bind, a, b]
    · simp only [rbDeleteNode, getNode_ok en, ok_bind, hl, Bool.false_eq_true, if_false, if_true, asIdx, hrun fuel]
  cases A with
  | node P w Q => exact one (.inr ⟨hS.resolve_left (by simp), rfl⟩) (by simp)
  | leaf =>
    cases B with
    | node P w Q => exact one (.inl ⟨rfl, rfl⟩) (by simp)
    | leaf =>
      have n1' : n.left = none := n1
      have n2' : n.right = none := n2
      have hl : rbIsLeaf n = true := by simp [rbIsLeaf, n1', n2']
      have hrep : ∀ fuel, rbReplace fuel t x = .ok none := fun fuel => by simp only [rbReplace, getNode_ok en, ok_bind, n1', n2']
      simp only [Shape.ids, List.append_nil, List.nil_append] at he1 he2
      cases c with
      | nil =>
        obtain ⟨t', hc, hs, hrun⟩ := rb_root_leaf H
        refine ⟨t', none, .inl ⟨by rw [hnum]; rfl, hc, hs, ?_⟩, hrep, 0, fun fuel _ => ?_⟩
        · have a := he1.length
          have b := he2.length
          simp only [Around.before, Around.after, List.length_nil, List.length_eq_zero_iff] at a b
          rw [a, b]; rfl
        · simp only [rbDeleteNode, getNode_ok en, ok_bind, hl, if_true, hrun fuel]
      | cons f C =>
        have h2 : 2 ≤ t.num := by
          have := Around.up_mem (c := f :: C) (i := f.idx) rfl
          have := List.length_pos_of_mem this
          simp only [List.length_append, Shape.ids, List.length_nil] at this hnum; omega
        obtain ⟨t', T', hR, hf, n0, hrun⟩ := rb_leaf H (by omega) he1 he2
        refine ⟨t', none, .inr ⟨h2, T', x, hR, hf⟩, hrep, n0, fun fuel hfu => ?_⟩
        simp only [rbDeleteNode, getNode_ok en, ok_bind, hl, if_true, hrun fuel hfu]

/-! ## The predecessor -/

theorem pred_loop {t : BTree κ δ} {up : Bool} : ∀ (S : Shape) (p : Option Nat) (i : Nat), S.root = some i → Linked up t.at p S →
    ∃ cs s ls, S = Around.plug cs (.node ls s .leaf) ∧ Around.after cs = [] ∧ ∀ fuel > S.depth, findPred fuel t i = .ok s := by
  intro S
  induction S with
  | leaf => intro p i h; cases h
  | node l j r _ ih2 =>
    intro p i hi hl
    rw [root_node, Option.some.injEq] at hi
    subst hi
    obtain ⟨⟨n, en, n1, n2, _⟩, hl1, hl2⟩ := hl
    cases r with
    | leaf =>
      refine ⟨[], j, l, rfl, rfl, fun fuel hf => ?_⟩
      obtain ⟨f, rfl⟩ : ∃ f, fuel = f + 1 := ⟨fuel - 1, by omega⟩
      have q1 : n.right = none := n2
      unfold findPred
      rw [while_stop _ (by simp only [predCond, getNode_ok en, ok_bind, q1]; rfl)]
    | node l1 j1 r1 =>
      obtain ⟨cs, s, ls, e1, e2, hrun⟩ := ih2 (some j) j1 rfl hl2
      refine ⟨cs ++ [.inR l j], s, ls, ?_, ?_, fun fuel hf => ?_⟩
      · rw [Around.plug_append, ← e1]; rfl
      · have : ∀ (c : Around), Around.after c = [] → Around.after (c ++ [Frame.inR l j]) = [] := by
          intro c
          induction c with
          | nil => intro _; rfl
          | cons f c ih =>
            intro h
            cases f with
            | inR a b => exact ih h
            | inL a b => simp [Around.after] at h
        exact this cs e2
      · obtain ⟨f, rfl⟩ : ∃ f, fuel = f + 1 := ⟨fuel - 1, by omega⟩
        have q1 : n.right = some j1 := n2
        have hb : predBody t j = .ok j1 := by simp only [predBody, getNode_ok en, ok_bind, q1, asIdx]
        unfold findPred at hrun ⊢
        refine (while_step f (by simp only [predCond, getNode_ok en, ok_bind, q1]; rfl) hb).trans ?_
        exact hrun f (by simp only [Shape.depth] at hf ⊢; omega)

theorem ent_unique {h : Cells κ δ} {L : List Nat} {E E' : List (κ × Option δ)} (a : Ent h L E) (b : Ent h L E') : E = E' := by
  unfold Ent at a b
  rw [a] at b
  exact List.map_inj_right (by intro x y hxy; exact Option.some.inj hxy) |>.mp b

theorem rb_entries {t : BTree κ δ} {c : Around} {l r : Shape} {i : Nat} {E : List (κ × Option δ)} (h : Ent t.at (Around.plug c (.node l i r)).ids E) :
    ∃ E1 E2 e, E = E1 ++ e :: E2 ∧ entryAt t.at i = some e ∧ Ent t.at (Around.before c ++ l.ids) E1 ∧ Ent t.at (r.ids ++ Around.after c) E2 := by
  rw [Around.ids_plug] at h
  simp only [Shape.ids, List.append_assoc, List.cons_append, List.nil_append] at h
  rw [← List.append_assoc] at h
  obtain ⟨E1, E2, rfl, h1, h2⟩ := Ent.append_iff.mp h
  obtain ⟨e, E3, rfl, h3, h5⟩ := Ent.cons_iff.mp h2
  exact ⟨E1, E3, e, rfl, h3, h1, h5⟩

/-- The node with two children takes over the entry of its predecessor, which is then deleted. -/
theorem rb_two {t : BTree κ δ} {c : Around} {l r : Shape} {i li ri : Nat} {E1 E2 : List (κ × Option δ)} {e : κ × Option δ}
    (H : RbTree t (Around.plug c (.node l i r)) (E1 ++ e :: E2)) (hli : l.root = some li) (hri : r.root = some ri)
    (h4 : t.arr.length ≤ 4 * (t.num - 1)) (he1 : Ent t.at (Around.before c ++ l.ids) E1) (he2 : Ent t.at (r.ids ++ Around.after c) E2) :
    ∃ t' s t1 w, RbGone t t' (E1 ++ E2) ∧ (∀ fuel > l.depth, rbReplace fuel t i = .ok (some s)) ∧ rbTransplant t i s = .ok (t1, none) ∧
      (∀ fuel, rbReplace fuel t1 s = .ok w) ∧ ∃ n0, ∀ fuel, n0 ≤ fuel → rbDeleteNode fuel t1 s w = .ok t' := by
  obtain ⟨⟨n, en, n1, n2, _⟩, hll, _⟩ := ((linked_plug true t.at c _).mp H.tree.linked).2
  obtain ⟨cs, s, ls, er, haft, hrun⟩ := pred_loop l (some i) li hli hll
  subst er
  have hplug : ∀ S, Around.plug (cs ++ Frame.inL i r :: c) S = Around.plug c (.node (Around.plug cs S) i r) := by
    intro S; rw [Around.plug_append]; rfl
  have hT : TreeAt true t (Around.plug (cs ++ Frame.inL i r :: c) (.node ls s .leaf)) := by rw [hplug]; exact H.tree
  have hb : Around.before (cs ++ Frame.inL i r :: c) = Around.before c ++ Around.before cs := by
    have key : ∀ cs : Around, Around.before (cs ++ Frame.inL i r :: c) = Around.before c ++ Around.before cs := by
      intro cs
      induction cs with
      | nil => simp [Around.before]
      | cons f cs ih => cases f <;> simp [Around.before, ih]
    exact key cs
  have ha : Around.after (cs ++ Frame.inL i r :: c) = i :: (r.ids ++ Around.after c) := by
    have key : ∀ cs : Around, Around.after (cs ++ Frame.inL i r :: c) = Around.after cs ++ i :: (r.ids ++ Around.after c) := by
      intro cs
      induction cs with
      | nil => simp [Around.after]
      | cons f cs ih => cases f <;> simp [Around.after, ih]
    rw [key cs, haft]; rfl
  rw [Around.ids_plug, haft] at he1
  simp only [Shape.ids, List.append_nil] at he1
  rw [← List.append_assoc, ← List.append_assoc] at he1
  obtain ⟨F1, F2, rfl, hF1, hF2⟩ := Ent.append_iff.mp he1
  obtain ⟨es, F3, rfl, hes, hF3⟩ := Ent.cons_iff.mp hF2
  have : F3 = [] := by have := hF3.length; simpa using this
  subst this
  have him : i ∈ (Around.plug (cs ++ Frame.inL i r :: c) (.node ls s .leaf)).ids := by rw [mem_plug, ha]; simp
  have hsm : s ∈ (Around.plug (cs ++ Frame.inL i r :: c) (.node ls s .leaf)).ids := by rw [mem_plug]; simp [Shape.ids]
  have hnd := hT.nodup
  rw [Around.ids_plug, ha] at hnd
  simp only [Shape.ids, List.append_nil] at hnd
  have hne : ∀ j, j ∈ Around.before (cs ++ Frame.inL i r :: c) ++ ls.ids ∨ j = s ∨ j ∈ r.ids ++ Around.after c → j ≠ i := by
    rintro j hj rfl
    rw [List.nodup_append] at hnd
    obtain ⟨_, hd2, hd3⟩ := hnd
    rcases hj with hj | rfl | hj
    · refine hd3 j ?_ j (by simp) rfl
      simp only [List.mem_append] at hj ⊢
      rcases hj with hj | hj
      · exact .inl hj
      · exact .inr (.inl hj)
    · exact hd3 j (by simp) j (by simp) rfl
    · exact (List.nodup_cons.mp hd2).1 hj
  obtain ⟨m, em⟩ := Option.isSome_iff_exists.mp (hT.isSome hsm)
  obtain ⟨t1, e1, a1, r1, q1⟩ := modNode_spec (t := t) (i := i) (fun n => { n with key := m.key, data := m.data }) (by rw [en]; rfl)
  have en1 : t1.at i = some { n with key := m.key, data := m.data } := by rw [a1]; exact mapAt_same en
  have oth : ∀ j, j ≠ i → t1.at j = t.at j := fun j hj => by rw [a1]; simp only [mapAt, if_neg hj]
  have T1 : TreeAt true t1 (Around.plug (cs ++ Frame.inL i r :: c) (.node ls s .leaf)) := treeAt_mapAt a1 q1 (fun _ => rfl) hT
  have col1 : ∀ j, colOf t1.at j = colOf t.at j := by
    intro j; by_cases hj : j = i
    · subst hj; unfold colOf; rw [en1, en]; rfl
    · unfold colOf; rw [oth j hj]
  have flg1 : ∀ j, flagOf t1.at j = flagOf t.at j := by
    intro j; by_cases hj : j = i
    · subst hj; unfold flagOf; rw [en1, en]; rfl
    · unfold flagOf; rw [oth j hj]
  have enti : entryAt t1.at i = some es := by
    unfold entryAt at hes ⊢; rw [em] at hes; rw [en1]; exact hes
  have ento : ∀ j, j ≠ i → entryAt t1.at j = entryAt t.at j := fun j hj => by unfold entryAt; rw [oth j hj]
  have G1 : Ent t1.at (Around.before (cs ++ Frame.inL i r :: c) ++ ls.ids) F1 := by
    refine Ent.congr (fun j hj => ento j (hne j (.inl hj))) ?_
    rw [hb]; exact hF1
  have G2 : Ent t1.at (Shape.leaf.ids ++ Around.after (cs ++ Frame.inL i r :: c)) (es :: E2) := by
    rw [ha]
    show Ent t1.at (i :: (r.ids ++ Around.after c)) (es :: E2)
    exact Ent.cons_iff.mpr ⟨es, E2, rfl, enti, he2.congr fun j hj => ento j (hne j (.inr (.inr hj)))⟩
  have H1 : RbTree t1 (Around.plug (cs ++ Frame.inL i r :: c) (.node ls s .leaf)) (F1 ++ es :: (es :: E2)) := by
    refine ⟨T1, ?_, ?_, by rw [r1.top, r1.len]; exact H.cap, by rw [r1.num, hplug]; exact H.num, by rw [r1.orderStat]; exact H.os, ?_, by rw [q1, col1]; exact H.root, ?_, ?_⟩
    · rw [Around.ids_plug]
      simp only [Shape.ids, List.append_assoc, List.cons_append, List.nil_append]
      rw [← List.append_assoc]
      refine Ent.append_iff.mpr ⟨F1, _, rfl, G1, Ent.cons_iff.mpr ⟨es, _, rfl, ?_, G2⟩⟩
      rw [ento s (hne s (.inr (.inl rfl)))]; exact hes
    · intro j hj
      rw [r1.top]
      apply H.low
      by_cases e : j = i
      · rw [e, en]; rfl
      · rwa [oth j e] at hj
    · rw [hplug]
      exact ⟨fun j hj => by rw [col1]; exact H.rb.cols j hj, fun j hj => by rw [flg1, q1]; exact H.rb.flags j hj⟩
    · rw [hplug]; exact redOk_congr (fun j _ => col1 j) H.red
    · rw [hplug]; obtain ⟨N, hN⟩ := H.black; exact ⟨N, blackHeight_congr (fun j _ => col1 j) hN⟩
  obtain ⟨t', w, hgone, hrep, n0, hdel⟩ := rb_node H1 (.inr rfl) (.inr (by rw [r1.len, r1.num]; exact h4)) G1 G2
  refine ⟨t', s, t1, w, ?_, fun fuel hf => ?_, ?_, hrep, n0, hdel⟩
  · have : F1 ++ es :: E2 = F1 ++ [es] ++ E2 := by simp
    rw [this] at hgone
    rcases hgone with ⟨_, _, _, h⟩ | ⟨h2, T', y, hR, hf⟩
    · simp at h
    · exact .inr ⟨by rw [← r1.num]; exact h2, T', y, hR, by rw [hf.size, r1.size], by rw [← r1.num]; exact hf.num, by rw [hf.len, r1.len], by rw [hf.top, r1.top]⟩
  · have x1 : n.left = some li := n1.trans hli
    have x2 : n.right = some ri := n2.trans hri
    simp only [rbReplace, getNode_ok en, ok_bind, x1, x2, hrun fuel hf]
  · have x1 : n.left = some li := n1.trans hli
    have x2 : n.right = some ri := n2.trans hri
    have hh : (n.isRoot && rbHasOne n) = false := by simp [rbHasOne, rbHasTwo, x1, x2]
    simp only [rbTransplant, getNode_ok en, getNode_ok em, ok_bind, hh, Bool.false_eq_true, if_false, e1]

/-- `delete` of a key that is present. -/
theorem rbDelete_present {lt : κ → κ → Bool} (ht : StrictTotal (ltRel lt)) {t : BTree κ δ} {T : Shape} {E : List (κ × Option δ)} {k : κ} {d : Option δ}
    (H : RbTree t T E) (hs : E.Pairwise fun a b => lt a.1 b.1 = true) (hk : (k, d) ∈ E) (h4 : E.length = 1 ∨ t.arr.length ≤ 4 * (E.length - 1)) :
    ∃ t', RbGone t t' (E.filter fun e => e.1 ≠ k) ∧ ∃ n0, ∀ fuel, n0 ≤ fuel → rbDelete lt fuel t k = .ok (t', true) := by
  have h := H.holding hs
  obtain ⟨c, S, rfl, hF, hrun⟩ := search_spec ht h.tree h.srt k
  rw [← H.num_eq] at h4
  rcases hF.here with rfl | ⟨l, i, r, rfl, hki⟩
  · obtain ⟨i, hi, ei⟩ := H.ent.mem.mp hk
    exact absurd (keyOf_entry ei) (hF.absent ht i hi)
  obtain ⟨⟨n, en, n1, n2, _⟩, _, _⟩ := ((linked_plug true t.at c _).mp H.tree.linked).2
  obtain ⟨E1, E2, e, rfl, hei, he1, he2⟩ := rb_entries H.ent
  have hek : e.1 = k := by have := keyOf_entry hei; rw [hki] at this; exact (Option.some.inj this).symm
  subst hek
  rw [filter_key ht hs]
  have hsr : ∀ fuel, (Around.plug c (.node l i r)).depth + 2 ≤ fuel → bstSearch lt fuel t e.1 = .ok (some i) := by
    intro fuel hf
    have h1 := hrun fuel (by omega)
    rw [root_node] at h1
    exact h1
  by_cases hlr : l = .leaf ∨ r = .leaf
  · obtain ⟨t', w, hgone, hrep, n0, hdel⟩ := rb_node H hlr h4 he1 he2
    refine ⟨t', hgone, n0 + ((Around.plug c (.node l i r)).depth + 2), fun fuel hf => ?_⟩
    have htwo : rbHasTwo n = false := by
      rcases hlr with rfl | rfl
      · have x1 : n.left = none := n1
        simp [rbHasTwo, x1]
      · have x1 : n.right = none := n2
        simp [rbHasTwo, x1]
    simp only [rbDelete, hsr fuel (by omega), ok_bind, hrep fuel, getNode_ok en, htwo, Bool.false_eq_true, if_false, hdel fuel (by omega)]
  · cases l with
    | leaf => exact absurd (.inl rfl) hlr
    | node l1 li l2 =>
      cases r with
      | leaf => exact absurd (.inr rfl) hlr
      | node r1 ri r2 =>
        have hnum := H.num
        rw [Around.ids_plug] at hnum
        simp only [Shape.ids, List.length_append, List.length_cons, List.length_nil] at hnum
        obtain ⟨t', s, t1, w, hgone, hrep, htr, hrep1, n0, hdel⟩ := rb_two H (root_node l1 li l2) (root_node r1 ri r2) (by omega) he1 he2
        refine ⟨t', hgone, n0 + (Shape.node l1 li l2).depth + ((Around.plug c (.node (.node l1 li l2) i (.node r1 ri r2))).depth + 2), fun fuel hf => ?_⟩
        have x1 : n.left = some li := n1
        have x2 : n.right = some ri := n2
        have htwo : rbHasTwo n = true := by simp [rbHasTwo, x1, x2]
        simp only [rbDelete, hsr fuel (by omega), ok_bind, hrep fuel (by omega), getNode_ok en, htwo, if_true, asIdx, htr, hrep1 fuel, hdel fuel (by omega)]

/-- `delete` of a key that is absent. -/
theorem rbDelete_absent {lt : κ → κ → Bool} (ht : StrictTotal (ltRel lt)) {t : BTree κ δ} {T : Shape} {E : List (κ × Option δ)} {k : κ}
    (h : Holding lt t T E) (hk : ∀ d, (k, d) ∉ E) : ∃ n0, ∀ fuel, n0 ≤ fuel → rbDelete lt fuel t k = .ok (t, false) := by
  obtain ⟨c, S, rfl, hF, hrun⟩ := search_spec ht h.tree h.srt k
  rcases hF.here with rfl | ⟨l, i, r, rfl, hki⟩
  · refine ⟨(Around.plug c .leaf).depth + 2, fun fuel hf => ?_⟩
    have h1 : bstSearch lt fuel t k = .ok none := hrun fuel (by omega)
    simp only [rbDelete, h1, ok_bind]
  · obtain ⟨E1, E2, d, rfl, _⟩ := h.entries hki
    exact absurd (by simp) (hk d)

theorem rbDelete_cleared {lt : κ → κ → Bool} {t : BTree κ δ} (h : RbCleared t) (k : κ) (fuel : Nat) : rbDelete lt fuel t k = .ok (t, false) := by
  obtain ⟨n, en, hk, _⟩ := h.root
  have hs : bstSearch lt fuel t k = .ok none := by simp only [bstSearch, bstSearchP, getNode_ok en, hk, ok_bind]; rfl
  simp only [rbDelete, hs, ok_bind]

end Props
