import Verif.Model.RedBlackDelete
import Verif.Lemmas.RedBlack

/-!
# The repair loop of red-black deletion
-/
namespace Props
open Py Model Spec
set_option linter.unusedSectionVars false
variable {κ δ : Type} [DecidableEq κ]

theorem colorAt_ok {t : BTree κ δ} {i v : Nat} (h : colOf t.at i = some v) : colorAt t i = .ok v := by
  unfold colOf at h
  cases e : t.at i with
  | none => rw [e] at h; cases h
  | some n =>
    rw [e] at h
    have h' : n.color = some v := h
    simp only [colorAt, getNode_ok e, ok_bind, h']

theorem isRedAt_ok {t : BTree κ δ} {i v : Nat} (h : colOf t.at i = some v) : isRedAt t (some i) = .ok (decide (v = 1)) := by
  cases e : t.at i with
  | none => unfold colOf at h; rw [e] at h; cases h
  | some n => simp only [isRedAt, getNode_ok e, ok_bind, isCol_at e h]

theorem avoid_two {L W : List Nat} {a b : Nat} (h : L.Nodup) (hp : ∀ j, L.count j = (a :: b :: W).count j) : a ≠ b ∧ ∀ j ∈ W, j ≠ a ∧ j ≠ b := by
  have h' := (List.perm_iff_count.mpr hp).nodup_iff.mp h
  simp only [List.nodup_cons, List.mem_cons, not_or] at h'
  refine ⟨h'.1.1, fun j hj => ⟨?_, ?_⟩⟩ <;> rintro rfl
  · exact h'.1.2 hj
  · exact h'.2.1 hj

/-- The black sibling `s` with a red child has been turned over the parent: what `S` sees afterwards. -/
structure DelTurned (t t' : BTree κ δ) (f : Frame) (c : Around) (S : Shape) (g1 g2 : Frame) (h : Nat) : Prop where
  tree : TreeAt true t' (Around.plug (g1 :: g2 :: c) S)
  bef : Around.before (g1 :: g2 :: c) = Around.before (f :: c)
  aft : Around.after (g1 :: g2 :: c) = Around.after (f :: c)
  ent : SameEntries t t'
  flg : ∀ j, flagOf t'.at j = flagOf t.at j
  idx : g1.idx = f.idx
  coly : colOf t'.at g2.idx = colOf t.at f.idx
  keep : ∀ j, j ∈ S.ids ∨ j ∈ Around.before c ++ Around.after c → colOf t'.at j = colOf t.at j
  cols : ∀ j, colOf t'.at j = some 0 ∨ colOf t'.at j = colOf t.at f.idx ∨ colOf t'.at j = colOf t.at j
  red1 : RedOk t'.at g1.other
  red2 : RedOk t'.at g2.other
  bh1 : BlackHeight t'.at g1.other h
  bh2 : BlackHeight t'.at g2.other (h + 1)
  br2 : BlackRoot t'.at g2.other

theorem rbLL_spec {t : BTree κ δ} {c : Around} {A B P1 P2 Q : Shape} {i l s p v h : Nat}
    (H : TreeAt true t (Around.plug (.inR (.node (.node P1 l P2) s Q) p :: c) (.node A i B)))
    (hl : colOf t.at l = some 1) (hs : colOf t.at s = some 0) (hp : colOf t.at p = some v)
    (hr : RedOk t.at (.node (.node P1 l P2) s Q)) (hb : BlackHeight t.at (.node (.node P1 l P2) s Q) (h + 1)) :
    ∃ t' g1 g2, rbLL t s = .ok t' ∧ DelTurned t t' (.inR (.node (.node P1 l P2) s Q) p) c (.node A i B) g1 g2 h := by
  have H0 : TreeAt true t (Around.plug c (.node (.node (.node P1 l P2) s Q) p (.node A i B))) := H
  have hnd := H0.nodup
  rw [Around.ids_plug] at hnd
  simp only [Shape.ids] at hnd
  obtain ⟨hne, hav⟩ := avoid_two (a := l) (b := s) (W := (P1.ids ++ (P2.ids ++ (Q.ids ++ ((A.ids ++ i :: B.ids) ++ (p :: (Around.before c ++ Around.after c))))))) hnd (by
    intro j; simp only [List.count_append, List.count_cons]; omega)
  have H1 : TreeAt true t (Around.plug (.inL p (.node A i B) :: c) (.node (.node P1 l P2) s Q)) := H
  obtain ⟨n, en, n1, n2, n3⟩ := H1.node
  have n1' : n.left = some l := n1
  have e1 : getParentIdx t s = .ok p := getParentIdx_ok H1
  have ml : l ∈ (Around.plug c (.node (.node (.node P1 l P2) s Q) p (.node A i B))).ids := by rw [Around.ids_plug]; simp [Shape.ids]
  have ms : s ∈ (Around.plug c (.node (.node (.node P1 l P2) s Q) p (.node A i B))).ids := by rw [Around.ids_plug]; simp [Shape.ids]
  obtain ⟨t1, p1, k1⟩ := paint_spec (t := t) (i := l) 0 (H0.isSome ml)
  have T1 := k1.tree _ H0
  obtain ⟨t2, p2, k2⟩ := paint_spec (t := t1) (i := s) v (T1.isSome ms)
  have T2 := k2.tree _ T1
  obtain ⟨t3, e3, T3, r3, s3⟩ := rightRotate_spec T2
  have col : ∀ j, colOf t3.at j = if j = s then some v else if j = l then some 0 else colOf t.at j := by
    intro j; rw [s3.col, k2.col, k1.col]
  obtain ⟨m, ⟨mm, b1, b2, b3⟩, b4, b5⟩ := hb
  have es : blk t.at s = 1 := by simp [blk, hs]
  have el : blk t.at l = 0 := by simp [blk, hl]
  rw [es] at b5; rw [el] at b3
  have b5' : m = h := by omega
  subst b5'
  have b3' : m = mm := by omega
  subst b3'
  obtain ⟨q1, ⟨q2, q3, q4⟩, q5⟩ := hr
  have cQ : ∀ j ∈ Q.ids, colOf t3.at j = colOf t.at j := fun j hj => by
    have := hav j (by simp [hj])
    rw [col, if_neg this.2, if_neg this.1]
  have cP1 : ∀ j ∈ P1.ids, colOf t3.at j = colOf t.at j := fun j hj => by
    have := hav j (by simp [hj])
    rw [col, if_neg this.2, if_neg this.1]
  have cP2 : ∀ j ∈ P2.ids, colOf t3.at j = colOf t.at j := fun j hj => by
    have := hav j (by simp [hj])
    rw [col, if_neg this.2, if_neg this.1]
  have cl : colOf t3.at l = some 0 := by rw [col, if_neg hne, if_pos rfl]
  refine ⟨t3, .inR Q p, .inR (.node P1 l P2) s, ?_, ⟨T3, ?_, rfl, ?_, ?_, rfl, ?_, ?_, ?_, ?_, ?_, ?_, ?_, ?_⟩⟩
  · simp only [rbLL, getNode_ok en, ok_bind, e1, colorAt_ok hp, n1', asIdx, colorAt_ok hs, p1, p2, e3]
  · simp [Around.before, Shape.ids]
  · exact k1.ent.trans (k2.ent.trans (s3.entries r3))
  · intro j; rw [s3.flag, k2.flg, k1.flg]
  · show colOf t3.at s = colOf t.at p
    rw [col, if_pos rfl, hp]
  · intro j hj
    have := hav j (by simp only [Shape.ids, List.mem_append, List.mem_cons] at hj ⊢; rcases hj with hj | hj <;> simp [hj])
    rw [col, if_neg this.2, if_neg this.1]
  · intro j
    rw [col]
    split
    · exact .inr (.inl hp.symm)
    split
    · exact .inl rfl
    · exact .inr (.inr rfl)
  · exact redOk_congr cQ q5
  · exact ⟨fun e => (by rw [cl] at e; cases e), redOk_congr cP1 q3, redOk_congr cP2 q4⟩
  · exact blackHeight_congr cQ b4
  · exact ⟨m, blackHeight_congr cP1 b1, blackHeight_congr cP2 b2, by simp [blk, cl]⟩
  · exact blackRoot_node.mpr cl

theorem rbRR_spec {t : BTree κ δ} {c : Around} {A B P Q1 Q2 : Shape} {i r s p v h : Nat}
    (H : TreeAt true t (Around.plug (.inL p (.node P s (.node Q1 r Q2)) :: c) (.node A i B)))
    (hl : colOf t.at r = some 1) (hs : colOf t.at s = some 0) (hp : colOf t.at p = some v)
    (hr : RedOk t.at (.node P s (.node Q1 r Q2))) (hb : BlackHeight t.at (.node P s (.node Q1 r Q2)) (h + 1)) :
    ∃ t' g1 g2, rbRR t s = .ok t' ∧ DelTurned t t' (.inL p (.node P s (.node Q1 r Q2))) c (.node A i B) g1 g2 h := by
  have H0 : TreeAt true t (Around.plug c (.node (.node A i B) p (.node P s (.node Q1 r Q2)))) := H
  have hnd := H0.nodup
  rw [Around.ids_plug] at hnd
  simp only [Shape.ids] at hnd
  obtain ⟨hne, hav⟩ := avoid_two (a := r) (b := s) (W := (P.ids ++ (Q1.ids ++ (Q2.ids ++ ((A.ids ++ i :: B.ids) ++ (p :: (Around.before c ++ Around.after c))))))) hnd (by
    intro j; simp only [List.count_append, List.count_cons]; omega)
  have H1 : TreeAt true t (Around.plug (.inR (.node A i B) p :: c) (.node P s (.node Q1 r Q2))) := H
  obtain ⟨n, en, n1, n2, n3⟩ := H1.node
  have n2' : n.right = some r := n2
  have e1 : getParentIdx t s = .ok p := getParentIdx_ok H1
  have ml : r ∈ (Around.plug c (.node (.node A i B) p (.node P s (.node Q1 r Q2)))).ids := by rw [Around.ids_plug]; simp [Shape.ids]
  have ms : s ∈ (Around.plug c (.node (.node A i B) p (.node P s (.node Q1 r Q2)))).ids := by rw [Around.ids_plug]; simp [Shape.ids]
  obtain ⟨t1, p1, k1⟩ := paint_spec (t := t) (i := r) 0 (H0.isSome ml)
  have T1 := k1.tree _ H0
  obtain ⟨t2, p2, k2⟩ := paint_spec (t := t1) (i := s) v (T1.isSome ms)
  have T2 := k2.tree _ T1
  obtain ⟨t3, e3, T3, r3, s3⟩ := leftRotate_spec T2
  have col : ∀ j, colOf t3.at j = if j = s then some v else if j = r then some 0 else colOf t.at j := by
    intro j; rw [s3.col, k2.col, k1.col]
  obtain ⟨m, b4, ⟨mm, b1, b2, b3⟩, b5⟩ := hb
  have es : blk t.at s = 1 := by simp [blk, hs]
  have el : blk t.at r = 0 := by simp [blk, hl]
  rw [es] at b5; rw [el] at b3
  have b5' : m = h := by omega
  subst b5'
  have b3' : m = mm := by omega
  subst b3'
  obtain ⟨q1, q5, ⟨q2, q3, q4⟩⟩ := hr
  have cQ : ∀ j ∈ P.ids, colOf t3.at j = colOf t.at j := fun j hj => by
    have := hav j (by simp [hj])
    rw [col, if_neg this.2, if_neg this.1]
  have cP1 : ∀ j ∈ Q1.ids, colOf t3.at j = colOf t.at j := fun j hj => by
    have := hav j (by simp [hj])
    rw [col, if_neg this.2, if_neg this.1]
  have cP2 : ∀ j ∈ Q2.ids, colOf t3.at j = colOf t.at j := fun j hj => by
    have := hav j (by simp [hj])
    rw [col, if_neg this.2, if_neg this.1]
  have cl : colOf t3.at r = some 0 := by rw [col, if_neg hne, if_pos rfl]
  refine ⟨t3, .inL p P, .inL s (.node Q1 r Q2), ?_, ⟨T3, rfl, ?_, ?_, ?_, rfl, ?_, ?_, ?_, ?_, ?_, ?_, ?_, ?_⟩⟩
  · simp only [rbRR, getNode_ok en, ok_bind, e1, colorAt_ok hp, n2', asIdx, colorAt_ok hs, p1, p2, e3]
  · simp [Around.after, Shape.ids]
  · exact k1.ent.trans (k2.ent.trans (s3.entries r3))
  · intro j; rw [s3.flag, k2.flg, k1.flg]
  · show colOf t3.at s = colOf t.at p
    rw [col, if_pos rfl, hp]
  · intro j hj
    have := hav j (by simp only [Shape.ids, List.mem_append, List.mem_cons] at hj ⊢; rcases hj with hj | hj <;> simp [hj])
    rw [col, if_neg this.2, if_neg this.1]
  · intro j
    rw [col]
    split
    · exact .inr (.inl hp.symm)
    split
    · exact .inl rfl
    · exact .inr (.inr rfl)
  · exact redOk_congr cQ q5
  · exact ⟨fun e => (by rw [cl] at e; cases e), redOk_congr cP1 q3, redOk_congr cP2 q4⟩
  · exact blackHeight_congr cQ b4
  · exact ⟨m, blackHeight_congr cP1 b1, blackHeight_congr cP2 b2, by simp [blk, cl]⟩
  · exact blackRoot_node.mpr cl

theorem rbLR_spec {t : BTree κ δ} {c : Around} {A B P Q1 Q2 : Shape} {i r s p v h : Nat}
    (H : TreeAt true t (Around.plug (.inR (.node P s (.node Q1 r Q2)) p :: c) (.node A i B)))
    (hl : colOf t.at r = some 1) (hs : colOf t.at s = some 0) (hp : colOf t.at p = some v)
    (hr : RedOk t.at (.node P s (.node Q1 r Q2))) (hb : BlackHeight t.at (.node P s (.node Q1 r Q2)) (h + 1)) :
    ∃ t' g1 g2, rbLR t s = .ok t' ∧ DelTurned t t' (.inR (.node P s (.node Q1 r Q2)) p) c (.node A i B) g1 g2 h := by
  have H0 : TreeAt true t (Around.plug c (.node (.node P s (.node Q1 r Q2)) p (.node A i B))) := H
  have hnd := H0.nodup
  rw [Around.ids_plug] at hnd
  simp only [Shape.ids] at hnd
  obtain ⟨hne, hav⟩ := avoid_two (a := r) (b := s) (W := (P.ids ++ (Q1.ids ++ (Q2.ids ++ ((A.ids ++ i :: B.ids) ++ (p :: (Around.before c ++ Around.after c))))))) hnd (by
    intro j; simp only [List.count_append, List.count_cons]; omega)
  have H1 : TreeAt true t (Around.plug (.inL p (.node A i B) :: c) (.node P s (.node Q1 r Q2))) := H
  obtain ⟨n, en, n1, n2, n3⟩ := H1.node
  have n2' : n.right = some r := n2
  have e1 : getParentIdx t s = .ok p := getParentIdx_ok H1
  have ml : r ∈ (Around.plug c (.node (.node P s (.node Q1 r Q2)) p (.node A i B))).ids := by rw [Around.ids_plug]; simp [Shape.ids]
  obtain ⟨t1, p1, k1⟩ := paint_spec (t := t) (i := r) v (H0.isSome ml)
  have T1 := k1.tree _ H1
  obtain ⟨t2, e2, T2, r2, s2⟩ := leftRotate_spec T1
  have e3 : getParentIdx t2 s = .ok r :=
    getParentIdx_ok (f := .inL r Q2) (show TreeAt true t2 (Around.plug (.inL r Q2 :: .inL p (.node A i B) :: c) (.node P s Q1)) from T2)
  obtain ⟨t3, e4, T3, r3, s3⟩ := rightRotate_spec (show TreeAt true t2 (Around.plug c (.node (.node (.node P s Q1) r Q2) p (.node A i B))) from T2)
  have col : ∀ j, colOf t3.at j = if j = r then some v else colOf t.at j := by
    intro j; rw [s3.col, s2.col, k1.col]
  obtain ⟨m, b4, ⟨mm, b1, b2, b3⟩, b5⟩ := hb
  have es : blk t.at s = 1 := by simp [blk, hs]
  have el : blk t.at r = 0 := by simp [blk, hl]
  rw [es] at b5; rw [el] at b3
  have b5' : m = h := by omega
  subst b5'
  have b3' : m = mm := by omega
  subst b3'
  obtain ⟨q1, q5, ⟨q2, q3, q4⟩⟩ := hr
  have cQ : ∀ j ∈ P.ids, colOf t3.at j = colOf t.at j := fun j hj => by
    have := hav j (by simp [hj])
    rw [col, if_neg this.1]
  have cP1 : ∀ j ∈ Q1.ids, colOf t3.at j = colOf t.at j := fun j hj => by
    have := hav j (by simp [hj])
    rw [col, if_neg this.1]
  have cP2 : ∀ j ∈ Q2.ids, colOf t3.at j = colOf t.at j := fun j hj => by
    have := hav j (by simp [hj])
    rw [col, if_neg this.1]
  have cs : colOf t3.at s = some 0 := by rw [col, if_neg (Ne.symm hne), hs]
  refine ⟨t3, .inR Q2 p, .inR (.node P s Q1) r, ?_, ⟨T3, ?_, rfl, ?_, ?_, rfl, ?_, ?_, ?_, ?_, ?_, ?_, ?_, ?_⟩⟩
  · simp only [rbLR, getNode_ok en, ok_bind, e1, colorAt_ok hp, n2', asIdx, p1, e2, e3, e4]
  · simp [Around.before, Shape.ids]
  · exact k1.ent.trans ((s2.entries r2).trans (s3.entries r3))
  · intro j; rw [s3.flag, s2.flag, k1.flg]
  · show colOf t3.at r = colOf t.at p
    rw [col, if_pos rfl, hp]
  · intro j hj
    have := hav j (by simp only [Shape.ids, List.mem_append, List.mem_cons] at hj ⊢; rcases hj with hj | hj <;> simp [hj])
    rw [col, if_neg this.1]
  · intro j
    rw [col]
    split
    · exact .inr (.inl hp.symm)
    · exact .inr (.inr rfl)
  · exact redOk_congr cP2 q4
  · exact ⟨fun e => (by rw [cs] at e; cases e), redOk_congr cQ q5, redOk_congr cP1 q3⟩
  · exact blackHeight_congr cP2 b2
  · exact ⟨m, blackHeight_congr cQ b4, blackHeight_congr cP1 b1, by simp [blk, cs]⟩
  · exact blackRoot_node.mpr cs

theorem rbRL_spec {t : BTree κ δ} {c : Around} {A B P1 P2 Q : Shape} {i l s p v h : Nat}
    (H : TreeAt true t (Around.plug (.inL p (.node (.node P1 l P2) s Q) :: c) (.node A i B)))
    (hl : colOf t.at l = some 1) (hs : colOf t.at s = some 0) (hp : colOf t.at p = some v)
    (hr : RedOk t.at (.node (.node P1 l P2) s Q)) (hb : BlackHeight t.at (.node (.node P1 l P2) s Q) (h + 1)) :
    ∃ t' g1 g2, rbRL t s = .ok t' ∧ DelTurned t t' (.inL p (.node (.node P1 l P2) s Q)) c (.node A i B) g1 g2 h := by
  have H0 : TreeAt true t (Around.plug c (.node (.node A i B) p (.node (.node P1 l P2) s Q))) := H
  have hnd := H0.nodup
  rw [Around.ids_plug] at hnd
  simp only [Shape.ids] at hnd
  obtain ⟨hne, hav⟩ := avoid_two (a := l) (b := s) (W := (P1.ids ++ (P2.ids ++ (Q.ids ++ ((A.ids ++ i :: B.ids) ++ (p :: (Around.before c ++ Around.after c))))))) hnd (by
    intro j; simp only [List.count_append, List.count_cons]; omega)
  have H1 : TreeAt true t (Around.plug (.inR (.node A i B) p :: c) (.node (.node P1 l P2) s Q)) := H
  obtain ⟨n, en, n1, n2, n3⟩ := H1.node
  have n1' : n.left = some l := n1
  have e1 : getParentIdx t s = .ok p := getParentIdx_ok H1
  have ml : l ∈ (Around.plug c (.node (.node A i B) p (.node (.node P1 l P2) s Q))).ids := by rw [Around.ids_plug]; simp [Shape.ids]
  obtain ⟨t1, p1, k1⟩ := paint_spec (t := t) (i := l) v (H0.isSome ml)
  have T1 := k1.tree _ H1
  obtain ⟨t2, e2, T2, r2, s2⟩ := rightRotate_spec T1
  have e3 : getParentIdx t2 s = .ok l :=
    getParentIdx_ok (f := .inR P1 l) (show TreeAt true t2 (Around.plug (.inR P1 l :: .inR (.node A i B) p :: c) (.node P2 s Q)) from T2)
  obtain ⟨t3, e4, T3, r3, s3⟩ := leftRotate_spec (show TreeAt true t2 (Around.plug c (.node (.node A i B) p (.node P1 l (.node P2 s Q)))) from T2)
  have col : ∀ j, colOf t3.at j = if j = l then some v else colOf t.at j := by
    intro j; rw [s3.col, s2.col, k1.col]
  obtain ⟨m, ⟨mm, b1, b2, b3⟩, b4, b5⟩ := hb
  have es : blk t.at s = 1 := by simp [blk, hs]
  have el : blk t.at l = 0 := by simp [blk, hl]
  rw [es] at b5; rw [el] at b3
  have b5' : m = h := by omega
  subst b5'
  have b3' : m = mm := by omega
  subst b3'
  obtain ⟨q1, ⟨q2, q3, q4⟩, q5⟩ := hr
  have cQ : ∀ j ∈ Q.ids, colOf t3.at j = colOf t.at j := fun j hj => by
    have := hav j (by simp [hj])
    rw [col, if_neg this.1]
  have cP1 : ∀ j ∈ P1.ids, colOf t3.at j = colOf t.at j := fun j hj => by
    have := hav j (by simp [hj])
    rw [col, if_neg this.1]
  have cP2 : ∀ j ∈ P2.ids, colOf t3.at j = colOf t.at j := fun j hj => by
    have := hav j (by simp [hj])
    rw [col, if_neg this.1]
  have cs : colOf t3.at s = some 0 := by rw [col, if_neg (Ne.symm hne), hs]
  refine ⟨t3, .inL p P1, .inL l (.node P2 s Q), ?_, ⟨T3, rfl, ?_, ?_, ?_, rfl, ?_, ?_, ?_, ?_, ?_, ?_, ?_, ?_⟩⟩
  · simp only [rbRL, getNode_ok en, ok_bind, e1, colorAt_ok hp, n1', asIdx, p1, e2, e3, e4]
  · simp [Around.after, Shape.ids]
  · exact k1.ent.trans ((s2.entries r2).trans (s3.entries r3))
  · intro j; rw [s3.flag, s2.flag, k1.flg]
  · show colOf t3.at l = colOf t.at p
    rw [col, if_pos rfl, hp]
  · intro j hj
    have := hav j (by simp only [Shape.ids, List.mem_append, List.mem_cons] at hj ⊢; rcases hj with hj | hj <;> simp [hj])
    rw [col, if_neg this.1]
  · intro j
    rw [col]
    split
    · exact .inr (.inl hp.symm)
    · exact .inr (.inr rfl)
  · exact redOk_congr cP1 q3
  · exact ⟨fun e => (by rw [cs] at e; cases e), redOk_congr cP2 q4, redOk_congr cQ q5⟩
  · exact blackHeight_congr cP1 b1
  · exact ⟨m, blackHeight_congr cP2 b2, blackHeight_congr cQ b4, by simp [blk, cs]⟩
  · exact blackRoot_node.mpr cs

theorem redRoot_node {h : Cells κ δ} {T : Shape} (hc : ∀ j ∈ T.ids, colOf h j = some 0 ∨ colOf h j = some 1) (hb : ¬ BlackRoot h T) :
    ∃ A i B, T = .node A i B ∧ colOf h i = some 1 := by
  cases T with
  | leaf => exact absurd nofun hb
  | node A i B =>
    refine ⟨A, i, B, rfl, ?_⟩
    rw [blackRoot_node] at hb
    exact (hc i (by simp [Shape.ids])).resolve_left hb

theorem isRedAt_root {t : BTree κ δ} {T : Shape} (hc : ∀ j ∈ T.ids, colOf t.at j = some 0 ∨ colOf t.at j = some 1) :
    ∃ b, isRedAt t T.root = .ok b ∧ (b = true ↔ ¬ BlackRoot t.at T) := by
  cases T with
  | leaf => exact ⟨false, rfl, by simp; exact nofun⟩
  | node A i B =>
    rw [root_node, blackRoot_node]
    rcases hc i (by simp [Shape.ids]) with h | h
    · exact ⟨_, isRedAt_ok h, by simp [h]⟩
    · exact ⟨_, isRedAt_ok h, by simp [h]⟩

theorem rbDelTurn_spec {t : BTree κ δ} {f : Frame} {c : Around} {A B P Q : Shape} {i s v h : Nat} (H : TreeAt true t (Around.plug (f :: c) (.node A i B)))
    (ho : f.other = .node P s Q) (hs : colOf t.at s = some 0) (hp : colOf t.at f.idx = some v)
    (hc : ∀ j ∈ f.other.ids, colOf t.at j = some 0 ∨ colOf t.at j = some 1)
    (hr : RedOk t.at f.other) (hb : BlackHeight t.at f.other (h + 1)) (hred : ¬ (BlackRoot t.at P ∧ BlackRoot t.at Q)) :
    ∃ t' g1 g2, rbDelTurn t s = .ok t' ∧ DelTurned t t' f c (.node A i B) g1 g2 h := by
  rw [ho] at hc hr hb
  have hcP : ∀ j ∈ P.ids, colOf t.at j = some 0 ∨ colOf t.at j = some 1 := fun j hj => hc j (by simp [Shape.ids, hj])
  have hcQ : ∀ j ∈ Q.ids, colOf t.at j = some 0 ∨ colOf t.at j = some 1 := fun j hj => hc j (by simp [Shape.ids, hj])
  obtain ⟨b, eb, hb'⟩ := isRedAt_root hcP
  cases f with
  | inL p U =>
    have ho' : U = .node P s Q := ho
    subst ho'
    have H1 : TreeAt true t (Around.plug (.inR (.node A i B) p :: c) (.node P s Q)) := H
    obtain ⟨n, en, n1, n2, n3⟩ := H1.node
    have eo : isOnLeft t s = .ok false := isOnLeft_ok H1
    by_cases hP : BlackRoot t.at P
    · have hQ : ¬ BlackRoot t.at Q := fun h => hred ⟨hP, h⟩
      obtain ⟨Q1, r, Q2, rfl, hr1⟩ := redRoot_node hcQ hQ
      have hbf : b = false := by cases b; rfl; exact absurd hP (hb'.mp rfl)
      subst hbf
      obtain ⟨t', g1, g2, e, D⟩ := rbRR_spec H hr1 hs hp hr hb
      exact ⟨t', g1, g2, by simp only [rbDelTurn, getNode_ok en, ok_bind, n1, eb, eo, Bool.false_eq_true, if_false, e], D⟩
    · obtain ⟨P1, l, P2, rfl, hr1⟩ := redRoot_node hcP hP
      have hbf : b = true := hb'.mpr hP
      subst hbf
      obtain ⟨t', g1, g2, e, D⟩ := rbRL_spec H hr1 hs hp hr hb
      exact ⟨t', g1, g2, by simp only [rbDelTurn, getNode_ok en, ok_bind, n1, eb, eo, Bool.false_eq_true, if_false, if_true, e], D⟩
  | inR U p =>
    have ho' : U = .node P s Q := ho
    subst ho'
    have H1 : TreeAt true t (Around.plug (.inL p (.node A i B) :: c) (.node P s Q)) := H
    obtain ⟨n, en, n1, n2, n3⟩ := H1.node
    have eo : isOnLeft t s = .ok true := isOnLeft_ok H1
    by_cases hP : BlackRoot t.at P
    · have hQ : ¬ BlackRoot t.at Q := fun h => hred ⟨hP, h⟩
      obtain ⟨Q1, r, Q2, rfl, hr1⟩ := redRoot_node hcQ hQ
      have hbf : b = false := by cases b; rfl; exact absurd hP (hb'.mp rfl)
      subst hbf
      obtain ⟨t', g1, g2, e, D⟩ := rbLR_spec H hr1 hs hp hr hb
      exact ⟨t', g1, g2, by simp only [rbDelTurn, getNode_ok en, ok_bind, n1, eb, eo, Bool.false_eq_true, if_false, if_true, e], D⟩
    · obtain ⟨P1, l, P2, rfl, hr1⟩ := redRoot_node hcP hP
      have hbf : b = true := hb'.mpr hP
      subst hbf
      obtain ⟨t', g1, g2, e, D⟩ := rbLL_spec H hr1 hs hp hr hb
      exact ⟨t', g1, g2, by simp only [rbDelTurn, getNode_ok en, ok_bind, n1, eb, eo, if_true, e], D⟩

/-! ## One step of the loop -/

/-- The colouring around a subtree that lacks one black node: `n` is what is expected of it. -/
structure Lacks (t : BTree κ δ) (c : Around) (S : Shape) (n : Nat) : Prop where
  tree : TreeAt true t (Around.plug c S)
  ok : RbOk t (Around.plug c S)
  red : RedAround t.at c True
  black : BlackAround t.at c n
  root : colOf t.at t.rootIdx = some 0

/-- What a step of the loop, or the whole loop, does: the surroundings of `S` change from `c` to `c'`, nothing else. -/
structure Around2 (t t' : BTree κ δ) (c c' : Around) (S : Shape) : Prop where
  bef : Around.before c' = Around.before c
  aft : Around.after c' = Around.after c
  up : Around.up c' = Around.up c
  ent : SameEntries t t'
  keep : ∀ j ∈ S.ids, colOf t'.at j = colOf t.at j

theorem Around2.trans {t t' t'' : BTree κ δ} {c c' c'' : Around} {S : Shape} (a : Around2 t t' c c' S) (b : Around2 t' t'' c' c'' S) : Around2 t t'' c c'' S :=
  ⟨b.bef.trans a.bef, b.aft.trans a.aft, b.up.trans a.up, a.ent.trans b.ent, fun j hj => (b.keep j hj).trans (a.keep j hj)⟩

/-- The root mark is taken away before the rotations and given back after them. -/
theorem flags_again {t t1 t2 t3 : BTree κ δ} {T T' : Shape} (hok : ∀ j ∈ T.ids, flagOf t.at j = some (decide (j = t.rootIdx)))
    (m1 : Marked t t1 (colOf t.at) (fun j => if j = t.rootIdx then some false else flagOf t.at j)) (e : ∀ j, flagOf t2.at j = flagOf t1.at j)
    (m3 : Marked t2 t3 (colOf t2.at) (fun j => if j = t2.rootIdx then some true else flagOf t2.at j)) (hids : ∀ j ∈ T'.ids, j ∈ T.ids) :
    ∀ j ∈ T'.ids, flagOf t3.at j = some (decide (j = t3.rootIdx)) := by
  intro j hj
  rw [m3.flg, m3.root]
  by_cases hjr : j = t2.rootIdx
  · simp [hjr]
  · rw [if_neg hjr, decide_eq_false hjr, e, m1.flg]
    by_cases hj0 : j = t.rootIdx
    · rw [if_pos hj0]
    · rw [if_neg hj0, hok j (hids j hj), decide_eq_false hj0]

theorem mem_plug {c : Around} {S : Shape} {j : Nat} : j ∈ (Around.plug c S).ids ↔ j ∈ S.ids ∨ j ∈ Around.before c ++ Around.after c := by
  rw [Around.ids_plug]; simp only [List.mem_append]
  constructor
  · rintro ((h | h) | h) <;> simp [h]
  · rintro (h | h | h) <;> simp [h]

theorem plug_root {c : Around} (h : c ≠ []) (S S' : Shape) : (Around.plug c S).root = (Around.plug c S').root := by
  cases c with
  | nil => exact absurd rfl h
  | cons f c => exact Around.root_plug_cons f c S' S

/-- The root stays black when the surroundings of the parent keep their colours. -/
theorem root_black {t t' : BTree κ δ} {c : Around} {S S' : Shape} {i j : Nat} (h : TreeAt true t (Around.plug c S)) (h' : TreeAt true t' (Around.plug c S'))
    (hi : S.root = some i) (hj : S'.root = some j) (hr : colOf t.at t.rootIdx = some 0) (e : ∀ j ∈ Around.before c ++ Around.after c, colOf t'.at j = colOf t.at j)
    (hij : c = [] → colOf t.at i = some 0 → colOf t'.at j = some 0) : colOf t'.at t'.rootIdx = some 0 := by
  have h1 := h.root
  have h2 := h'.root
  cases c with
  | nil =>
    have h1' : S.root = some t.rootIdx := h1
    have h2' : S'.root = some t'.rootIdx := h2
    rw [hi] at h1'; rw [hj] at h2'
    cases h1'; 
    rw [← Option.some.inj h2']; exact hij rfl hr
  | cons f c =>
    rw [plug_root (by simp) S' S, h1] at h2
    rw [← Option.some.inj h2, e _ (root_above (by simp) h1)]
    exact hr

/-- A black sibling with a red child: the rotations repair everything. -/
theorem rbDelBlack_spec {t : BTree κ δ} {f : Frame} {c : Around} {A B P Q : Shape} {i s h : Nat} (H : Lacks t (f :: c) (.node A i B) (h + 1))
    (ho : f.other = .node P s Q) (hs : colOf t.at s = some 0) (hred : ¬ (BlackRoot t.at P ∧ BlackRoot t.at Q)) :
    ∃ t' c', rbDelBlack t f.idx s = .ok t' ∧ Lacks t' c' (.node A i B) h ∧ Around2 t t' (f :: c) c' (.node A i B) := by
  have hfm : f.idx ∈ (Around.plug (f :: c) (.node A i B)).ids := around_mem (frame_ids.mpr (.inl rfl))
  have hom : ∀ j ∈ f.other.ids, j ∈ (Around.plug (f :: c) (.node A i B)).ids := fun j hj => around_mem (frame_ids.mpr (.inr (.inl hj)))
  obtain ⟨t1, e1, m1⟩ := setRoot_spec (t := t) (i := t.rootIdx) false H.tree.root_isSome
  have T1 := m1.tree _ H.tree
  obtain ⟨v, hv, hv01⟩ : ∃ v, colOf t.at f.idx = some v ∧ (v = 0 ∨ v = 1) := by
    rcases H.ok.cols _ hfm with h | h
    · exact ⟨0, h, .inl rfl⟩
    · exact ⟨1, h, .inr rfl⟩
  have c1 : ∀ j, colOf t1.at j = colOf t.at j := m1.col
  obtain ⟨r1, r2, r3⟩ := H.red
  obtain ⟨b1, b2⟩ := H.black
  obtain ⟨t2, g1, g2, e2, D⟩ := rbDelTurn_spec (h := h) T1 ho (by rw [c1, hs]) (by rw [c1, hv]) (fun j hj => by rw [c1]; exact H.ok.cols j (hom j hj))
    (redOk_congr (fun j _ => c1 j) r2) (blackHeight_congr (fun j _ => c1 j) b1)
    (fun hh => hred ⟨blackRoot_congr (fun j _ => (c1 j).symm) hh.1, blackRoot_congr (fun j _ => (c1 j).symm) hh.2⟩)
  obtain ⟨t3, e3, m3⟩ := setRoot_spec (t := t2) (i := t2.rootIdx) true D.tree.root_isSome
  have T3 := m3.tree _ D.tree
  have hids : (Around.plug (g1 :: g2 :: c) (.node A i B)).ids = (Around.plug (f :: c) (.node A i B)).ids := by
    rw [Around.ids_plug, Around.ids_plug, D.bef, D.aft]
  have hfm3 : f.idx ∈ (Around.plug (g1 :: g2 :: c) (.node A i B)).ids := by rw [hids]; exact hfm
  obtain ⟨t4, e4, m4⟩ := paint_spec (t := t3) (i := f.idx) 0 (T3.isSome hfm3)
  have T4 := m4.tree _ T3
  have hcol : ∀ j, colOf t4.at j = if j = f.idx then some 0 else colOf t2.at j := by intro j; rw [m4.col, m3.col]
  have fl := flags_again (T := Around.plug (f :: c) (.node A i B)) (T' := Around.plug (g1 :: g2 :: c) (.node A i B)) H.ok.flags m1 D.flg m3 (by rw [hids]; exact fun j hj => hj)
  have fr := around_fresh T3.nodup
  rw [D.idx] at fr
  have fr2 : f.idx ∉ g2.other.ids ∧ f.idx ≠ g2.idx ∧ ∀ j ∈ Around.before c ++ Around.after c, j ≠ f.idx := by
    refine ⟨fun h => fr.2.2 (frame_ids.mpr (.inr (.inl h))), fun h => fr.2.2 (frame_ids.mpr (.inl h)), fun j hj => ?_⟩
    rintro rfl
    exact fr.2.2 (frame_ids.mpr (.inr (.inr hj)))
  have cp : colOf t4.at g1.idx = some 0 := by rw [D.idx, hcol, if_pos rfl]
  have cy : colOf t4.at g2.idx = some v := by rw [hcol, if_neg (Ne.symm fr2.2.1), D.coly, c1, hv]
  have cc : ∀ j ∈ Around.before c ++ Around.after c, colOf t4.at j = colOf t.at j := fun j hj => by
    rw [hcol, if_neg (fr2.2.2 j hj), D.keep j (.inr hj), c1]
  have co1 : ∀ j ∈ g1.other.ids, colOf t4.at j = colOf t2.at j := fun j hj => by rw [hcol, if_neg]; rintro rfl; exact fr.2.1 hj
  have co2 : ∀ j ∈ g2.other.ids, colOf t4.at j = colOf t2.at j := fun j hj => by rw [hcol, if_neg]; rintro rfl; exact fr2.1 hj
  obtain ⟨L0, R0, ep0⟩ := frame_plug f c (.node A i B)
  obtain ⟨L1, R1, ep1⟩ := frame_plug g2 c (Around.plug [g1] (.node A i B))
  have rb4 : colOf t4.at t4.rootIdx = some 0 := by
    refine root_black (c := c) (by rw [← ep0]; exact H.tree) (S' := .node L1 g2.idx R1) (by rw [← ep1, ← plug_cons]; exact T4) (root_node _ _ _) (root_node _ _ _) H.root cc ?_
    intro _ h0; rw [cy]; rw [hv] at h0; exact h0
  refine ⟨t4, g1 :: g2 :: c, ?_, ⟨T4, ⟨?_, ?_⟩, ?_, ?_, rb4⟩, ⟨D.bef, D.aft, ?_, ?_, ?_⟩⟩
  · simp only [rbDelBlack, e1, ok_bind, e2, e3, e4]
  · intro j hj
    rw [hcol]
    split
    · exact .inl rfl
    · rcases D.cols j with hh | hh | hh
      · exact .inl hh
      · rw [hh, c1, hv]; rcases hv01 with rfl | rfl <;> simp
      · rw [hh, c1]; exact H.ok.cols j (by rw [← hids]; exact hj)
  · intro j hj; rw [m4.flg, m4.root]; exact fl j hj
  · refine ⟨fun e => (by rw [cp] at e; cases e), redOk_congr co1 D.red1, fun _ => ⟨cp, blackRoot_congr co2 D.br2⟩, redOk_congr co2 D.red2, ?_⟩
    exact redAround_congr cc (r3.mono (by rw [cy, hv]; exact id))
  · have h1 : blk t4.at g1.idx = 1 := by simp [blk, cp]
    have h2 : blk t4.at g2.idx = blk t.at f.idx := by simp only [blk, cy, hv]
    refine ⟨blackHeight_congr co1 D.bh1, ?_, ?_⟩
    · rw [h1]; exact blackHeight_congr co2 D.bh2
    · rw [h1, h2]; exact blackAround_congr cc b2
  · exact congrArg some D.idx
  · exact m1.ent.trans (D.ent.trans (m3.ent.trans m4.ent))
  · intro j hj
    rw [hcol, if_neg (by rintro rfl; exact fr.1 hj), D.keep j (.inl hj), c1]

/-- A red sibling: one rotation gives a red parent and a black sibling. -/
theorem rbDelRed_spec {t : BTree κ δ} {f : Frame} {c : Around} {A B P Q : Shape} {i s h : Nat} (H : Lacks t (f :: c) (.node A i B) (h + 1))
    (ho : f.other = .node P s Q) (hs : colOf t.at s = some 1) :
    ∃ t' g c', rbDelRed t f.idx s = .ok t' ∧ Lacks t' (g :: c') (.node A i B) (h + 1) ∧ Around2 t t' (f :: c) (g :: c') (.node A i B) ∧
      colOf t'.at g.idx = some 1 ∧ BlackRoot t'.at g.other := by
  have hfm : f.idx ∈ (Around.plug (f :: c) (.node A i B)).ids := around_mem (frame_ids.mpr (.inl rfl))
  have hom : ∀ j ∈ f.other.ids, j ∈ (Around.plug (f :: c) (.node A i B)).ids := fun j hj => around_mem (frame_ids.mpr (.inr (.inl hj)))
  have hsm : s ∈ (Around.plug (f :: c) (.node A i B)).ids := hom s (by rw [ho]; simp [Shape.ids])
  obtain ⟨r1, r2, r3⟩ := H.red
  obtain ⟨b1, b2⟩ := H.black
  have hp0 : colOf t.at f.idx = some 0 := by
    rcases H.ok.cols _ hfm with h | h
    · exact h
    · have := (r1 h).2; rw [ho, blackRoot_node, hs] at this; cases this
  rw [ho] at r2 b1
  obtain ⟨q1, q2, q3⟩ := r2
  obtain ⟨m, b3, b4, b5⟩ := b1
  have es : blk t.at s = 0 := by simp [blk, hs]
  rw [es] at b5
  have b5' : m = h + 1 := by omega
  subst b5'
  obtain ⟨t1, e1, m1⟩ := setRoot_spec (t := t) (i := t.rootIdx) false H.tree.root_isSome
  have T1 := m1.tree _ H.tree
  obtain ⟨t2, e2, m2⟩ := paint_spec (t := t1) (i := f.idx) 1 (T1.isSome hfm)
  have T2 := m2.tree _ T1
  obtain ⟨t3, e3, m3⟩ := paint_spec (t := t2) (i := s) 0 (T2.isSome hsm)
  have T3 := m3.tree _ T2
  have turn : ∃ t4 g1 g2, (∃ b, isOnLeft t3 s = .ok b ∧ (if b = true then rightRotate t3 f.idx s else leftRotate t3 f.idx s) = .ok t4) ∧
      TreeAt true t4 (Around.plug (g1 :: g2 :: c) (.node A i B)) ∧ SameRest t3 t4 ∧ SameContent t3.at t4.at ∧ g1.idx = f.idx ∧ g2.idx = s ∧
      (g1.other = P ∧ g2.other = Q ∨ g1.other = Q ∧ g2.other = P) ∧
      Around.before (g1 :: g2 :: c) = Around.before (f :: c) ∧ Around.after (g1 :: g2 :: c) = Around.after (f :: c) := by
    cases f with
    | inL p U =>
      have ho' : U = .node P s Q := ho
      subst ho'
      have H1 : TreeAt true t3 (Around.plug (.inR (.node A i B) p :: c) (.node P s Q)) := T3
      obtain ⟨t4, e4, T4, r4, s4⟩ := leftRotate_spec (show TreeAt true t3 (Around.plug c (.node (.node A i B) p (.node P s Q))) from T3)
      exact ⟨t4, .inL p P, .inL s Q, ⟨false, isOnLeft_ok H1, by rw [if_neg Bool.false_ne_true]; exact e4⟩, T4, r4, s4, rfl, rfl, .inl ⟨rfl, rfl⟩, rfl, by simp [Around.after, Shape.ids]⟩
    | inR U p =>
      have ho' : U = .node P s Q := ho
      subst ho'
      have H1 : TreeAt true t3 (Around.plug (.inL p (.node A i B) :: c) (.node P s Q)) := T3
      obtain ⟨t4, e4, T4, r4, s4⟩ := rightRotate_spec (show TreeAt true t3 (Around.plug c (.node (.node P s Q) p (.node A i B))) from T3)
      exact ⟨t4, .inR Q p, .inR P s, ⟨true, isOnLeft_ok H1, by rw [if_pos rfl]; exact e4⟩, T4, r4, s4, rfl, rfl, .inr ⟨rfl, rfl⟩, by simp [Around.before, Shape.ids], rfl⟩
  obtain ⟨t4, g1, g2, ⟨b, eb, e4⟩, T4, r4, s4, i1, i2, hoth, hbef, haft⟩ := turn
  obtain ⟨t5, e5, m5⟩ := setRoot_spec (t := t4) (i := t4.rootIdx) true T4.root_isSome
  have T5 := m5.tree _ T4
  have hids : (Around.plug (g1 :: g2 :: c) (.node A i B)).ids = (Around.plug (f :: c) (.node A i B)).ids := by
    rw [Around.ids_plug, Around.ids_plug, hbef, haft]
  have hcol : ∀ j, colOf t5.at j = if j = s then some 0 else if j = f.idx then some 1 else colOf t.at j := by
    intro j; rw [m5.col, s4.col, m3.col, m2.col, m1.col]
  have fl := flags_again (t2 := t4) (T := Around.plug (f :: c) (.node A i B)) (T' := Around.plug (g1 :: g2 :: c) (.node A i B)) H.ok.flags m1
    (fun j => by rw [s4.flag, m3.flg, m2.flg]) m5 (by rw [hids]; exact fun j hj => hj)
  have fr := around_fresh T4.nodup
  rw [i1] at fr
  have fr2 := around_fresh (show (Around.plug (g2 :: c) (Around.plug [g1] (.node A i B))).ids.Nodup by rw [← plug_cons]; exact T4.nodup)
  rw [i2] at fr2
  have hsf : s ≠ f.idx := fun e => fr.2.2 (frame_ids.mpr (.inl (by rw [i2, e])))
  have hg1s : ∀ j ∈ g1.other.ids, j ≠ s ∧ j ≠ f.idx := by
    intro j hj
    refine ⟨?_, fun e => fr.2.1 (e ▸ hj)⟩
    rintro rfl
    apply fr2.1
    cases g1 <;> simp only [Around.plug, Shape.ids, List.mem_append, List.mem_cons] <;> simp only [Frame.other] at hj <;> simp [hj]
  have hg2s : ∀ j ∈ g2.other.ids, j ≠ s ∧ j ≠ f.idx := by
    intro j hj
    exact ⟨fun e => fr2.2.1 (e ▸ hj), fun e => fr.2.2 (frame_ids.mpr (.inr (.inl (e ▸ hj))))⟩
  have hcs : ∀ j ∈ Around.before c ++ Around.after c, j ≠ s ∧ j ≠ f.idx := by
    intro j hj
    exact ⟨fun e => fr2.2.2 (e ▸ hj), fun e => fr.2.2 (frame_ids.mpr (.inr (.inr (e ▸ hj))))⟩
  have keep : ∀ {j}, j ≠ s ∧ j ≠ f.idx → colOf t5.at j = colOf t.at j := fun hj => by rw [hcol, if_neg hj.1, if_neg hj.2]
  have parts : ∀ W : Shape → Prop, W P → W Q → W g1.other ∧ W g2.other := by
    intro W w1 w2
    rcases hoth with ⟨x, y⟩ | ⟨x, y⟩ <;> rw [x, y] <;> exact ⟨by assumption, by assumption⟩
  obtain ⟨⟨x1, x2, x3⟩, ⟨y1, y2, y3⟩⟩ := parts (fun X => RedOk t.at X ∧ BlackRoot t.at X ∧ BlackHeight t.at X (h + 1)) ⟨q2, (q1 hs).1, b3⟩ ⟨q3, (q1 hs).2, b4⟩
  have cp : colOf t5.at g1.idx = some 1 := by rw [i1, hcol, if_neg (Ne.symm hsf), if_pos rfl]
  have cs : colOf t5.at g2.idx = some 0 := by rw [i2, hcol, if_pos rfl]
  obtain ⟨L0, R0, ep0⟩ := frame_plug f c (.node A i B)
  obtain ⟨L1, R1, ep1⟩ := frame_plug g2 c (Around.plug [g1] (.node A i B))
  have rb5 : colOf t5.at t5.rootIdx = some 0 := by
    refine root_black (c := c) (by rw [← ep0]; exact H.tree) (S' := .node L1 g2.idx R1) (by rw [← ep1, ← plug_cons]; exact T5) (root_node _ _ _) (root_node _ _ _) H.root
      (fun j hj => keep (hcs j hj)) ?_
    intro _ _; exact cs
  refine ⟨t5, g1, g2 :: c, ?_, ⟨T5, ⟨?_, fl⟩, ?_, ?_, rb5⟩, ⟨hbef, haft, ?_, ?_, ?_⟩, cp, blackRoot_congr (fun j hj => keep (hg1s j hj)) x2⟩
  · cases b with
    | true =>
      rw [if_pos rfl] at e4
      simp only [rbDelRed, e1, ok_bind, e2, e3, eb, if_true, e4, e5]
    | false =>
      rw [if_neg Bool.false_ne_true] at e4
      simp only [rbDelRed, e1, ok_bind, e2, e3, eb, Bool.false_eq_true, if_false, e4, e5]
  · intro j hj
    rw [hcol]
    split
    · exact .inl rfl
    split
    · exact .inr rfl
    · exact H.ok.cols j (by rw [← hids]; exact hj)
  · refine ⟨fun _ => ⟨trivial, blackRoot_congr (fun j hj => keep (hg1s j hj)) x2⟩, redOk_congr (fun j hj => keep (hg1s j hj)) x1,
      fun e => (by rw [cs] at e; cases e), redOk_congr (fun j hj => keep (hg2s j hj)) y1, ?_⟩
    exact redAround_congr (fun j hj => keep (hcs j hj)) (r3.mono (fun _ => cs))
  · have h1 : blk t5.at g1.idx = 0 := by simp [blk, cp]
    have h2 : blk t5.at g2.idx = 1 := by simp [blk, cs]
    have h3 : blk t.at f.idx = 1 := by simp [blk, hp0]
    rw [h3] at b2
    refine ⟨blackHeight_congr (fun j hj => keep (hg1s j hj)) x3, ?_, ?_⟩
    · rw [h1]; exact blackHeight_congr (fun j hj => keep (hg2s j hj)) y3
    · rw [h1, h2]; exact blackAround_congr (fun j hj => keep (hcs j hj)) b2
  · exact congrArg some i1
  · exact m1.ent.trans (m2.ent.trans (m3.ent.trans ((s4.entries r4).trans m5.ent)))
  · intro j hj
    refine keep ⟨?_, fun e => fr.1 (e ▸ hj)⟩
    rintro rfl
    apply fr2.1
    cases g1 <;> simp only [Around.plug, Shape.ids, List.mem_append, List.mem_cons] <;> simp only [Shape.ids, List.mem_append, List.mem_cons] at hj <;> simp [hj]

/-! ## The loop -/

theorem rbDelCond_inner {t : BTree κ δ} {f : Frame} {c : Around} {A B : Shape} {i : Nat} (h : TreeAt true t (Around.plug (f :: c) (.node A i B))) (b : Bool) :
    rbDelCond ⟨t, some i, b⟩ = .ok b := by
  have : i ≠ t.rootIdx := by
    rintro rfl
    exact h.fresh.2.2 (root_above (by simp) h.root)
  simp [rbDelCond, this]

/-- The sibling is a non-empty subtree. -/
theorem Lacks.sibling {t : BTree κ δ} {f : Frame} {c : Around} {S : Shape} {h : Nat} (H : Lacks t (f :: c) S (h + 1)) : ∃ P s Q, f.other = .node P s Q := by
  have := H.black.1
  cases e : f.other with
  | leaf => rw [e] at this; cases this
  | node P s Q => exact ⟨P, s, Q, rfl⟩

theorem rbHasRedChild_ok {t : BTree κ δ} {P Q : Shape} {s : Nat} {n : BNode κ δ} (en : t.at s = some n) (h1 : n.left = P.root) (h2 : n.right = Q.root)
    (hc : ∀ j ∈ (Shape.node P s Q).ids, colOf t.at j = some 0 ∨ colOf t.at j = some 1) :
    ∃ b, rbHasRedChild t s = .ok b ∧ (b = true ↔ ¬ (BlackRoot t.at P ∧ BlackRoot t.at Q)) := by
  obtain ⟨b, eb, hb⟩ := isRedAt_root (T := P) (fun j hj => hc j (by simp [Shape.ids, hj]))
  obtain ⟨b', eb', hb'⟩ := isRedAt_root (T := Q) (fun j hj => hc j (by simp [Shape.ids, hj]))
  cases b with
  | true =>
    refine ⟨true, by simp only [rbHasRedChild, getNode_ok en, ok_bind, h1, eb, if_true], ?_⟩
    have := hb.mp rfl
    simp only [true_iff]
    exact fun h => this h.1
  | false =>
    refine ⟨b', by simp only [rbHasRedChild, getNode_ok en, ok_bind, h1, h2, eb, eb', Bool.false_eq_true, if_false], ?_⟩
    have hP : BlackRoot t.at P := by
      have := mt hb.mpr (by simp)
      simpa using this
    rw [hb']
    simp [hP]

/-- The sibling's black root turns red. -/
theorem redden {h h' : Cells κ δ} {P Q : Shape} {s n : Nat} (e : ∀ j ∈ P.ids ++ Q.ids, colOf h' j = colOf h j) (hs : colOf h s = some 0) (hs' : colOf h' s = some 1)
    (hr : RedOk h (.node P s Q)) (hb : BlackHeight h (.node P s Q) (n + 1)) (hP : BlackRoot h P) (hQ : BlackRoot h Q) :
    RedOk h' (.node P s Q) ∧ BlackHeight h' (.node P s Q) n := by
  obtain ⟨r1, r2, r3⟩ := hr
  obtain ⟨m, b1, b2, b3⟩ := hb
  have e1 : ∀ j ∈ P.ids, colOf h' j = colOf h j := fun j hj => e j (by simp [hj])
  have e2 : ∀ j ∈ Q.ids, colOf h' j = colOf h j := fun j hj => e j (by simp [hj])
  refine ⟨⟨fun _ => ⟨blackRoot_congr e1 hP, blackRoot_congr e2 hQ⟩, redOk_congr e1 r2, redOk_congr e2 r3⟩, m, blackHeight_congr e1 b1, blackHeight_congr e2 b2, ?_⟩
  simp [blk, hs, hs'] at b3 ⊢
  omega

theorem paint_keep {t t' : BTree κ δ} {i c : Nat} {T : Shape} (m : Marked t t' (fun j => if j = i then some c else colOf t.at j) (flagOf t.at)) (hc : c = 0 ∨ c = 1) (h : RbOk t T) :
    RbOk t' T := by
  refine ⟨fun j hj => ?_, fun j hj => by rw [m.flg, m.root]; exact h.flags j hj⟩
  rw [m.col]
  split
  · rcases hc with rfl | rfl <;> simp
  · exact h.cols j hj

theorem sibling_node {t : BTree κ δ} {f : Frame} {c : Around} {S P Q : Shape} {s : Nat} (h : TreeAt true t (Around.plug (f :: c) S)) (ho : f.other = .node P s Q) :
    ∃ n, t.at s = some n ∧ n.left = P.root ∧ n.right = Q.root := by
  cases f with
  | inL p U =>
    have ho' : U = .node P s Q := ho
    subst ho'
    obtain ⟨n, en, n1, n2, _⟩ := (show TreeAt true t (Around.plug (.inR S p :: c) (.node P s Q)) from h).node
    exact ⟨n, en, n1, n2⟩
  | inR U p =>
    have ho' : U = .node P s Q := ho
    subst ho'
    obtain ⟨n, en, n1, n2, _⟩ := (show TreeAt true t (Around.plug (.inL p S :: c) (.node P s Q)) from h).node
    exact ⟨n, en, n1, n2⟩

/-- One step with a black sibling: done, or the lack moves up. -/
theorem rbDel_black_step {t : BTree κ δ} {f : Frame} {c : Around} {A B : Shape} {i h : Nat} (H : Lacks t (f :: c) (.node A i B) (h + 1))
    (hbl : BlackRoot t.at f.other) :
    (∃ t' c', rbDelBody ⟨t, some i, true⟩ = .ok ⟨t', some i, false⟩ ∧ Lacks t' c' (.node A i B) h ∧ Around2 t t' (f :: c) c' (.node A i B)) ∨
    (∃ t', rbDelBody ⟨t, some i, true⟩ = .ok ⟨t', some f.idx, true⟩ ∧ colOf t.at f.idx = some 0 ∧ colOf t'.at f.idx = some 0 ∧ RedOk t'.at f.other ∧
      BlackHeight t'.at f.other h ∧ Lacks t' c (Around.plug [f] (.node A i B)) (h + 2) ∧ SameEntries t t' ∧
      (∀ j ∈ (Shape.node A i B).ids, colOf t'.at j = colOf t.at j)) := by
  obtain ⟨P, s, Q, ho⟩ := H.sibling
  have hfm : f.idx ∈ (Around.plug (f :: c) (.node A i B)).ids := around_mem (frame_ids.mpr (.inl rfl))
  have hom : ∀ j ∈ f.other.ids, j ∈ (Around.plug (f :: c) (.node A i B)).ids := fun j hj => around_mem (frame_ids.mpr (.inr (.inl hj)))
  have hsm : s ∈ f.other.ids := by rw [ho]; simp [Shape.ids]
  have hs : colOf t.at s = some 0 := hbl s (by rw [ho]; rfl)
  have e1 : getSibling t i = .ok (some s) := by rw [getSibling_ok H.tree, ho]; rfl
  have e2 : getParent t i = .ok (some f.idx) := getParent_ok H.tree
  have e3 : isRedAt t (some s) = .ok false := isRedAt_ok hs
  obtain ⟨n, en, n1, n2⟩ := sibling_node H.tree ho
  obtain ⟨b, eb, hb⟩ := rbHasRedChild_ok en n1 n2 (fun j hj => H.ok.cols j (hom j (by rw [ho]; exact hj)))
  cases b with
  | true =>
    obtain ⟨t', c', e4, h1, h2⟩ := rbDelBlack_spec H ho hs (hb.mp rfl)
    exact .inl ⟨t', c', by simp only [rbDelBody, asIdx, ok_bind, e1, e2, e3, eb, Bool.false_eq_true, if_false, if_true, e4], h1, h2⟩
  | false =>
    have hPQ : BlackRoot t.at P ∧ BlackRoot t.at Q := by
      have := mt hb.mpr (by simp)
      simpa using this
    obtain ⟨r1, r2, r3⟩ := H.red
    obtain ⟨b1, b2⟩ := H.black
    rw [ho] at r2 b1
    obtain ⟨t1, p1, m1⟩ := paint_spec (t := t) (i := s) 1 (H.tree.isSome (hom s hsm))
    have T1 := m1.tree _ H.tree
    have ok1 := paint_keep m1 (.inr rfl) H.ok
    have fr := around_fresh H.tree.nodup
    have nd := H.tree.nodup
    rw [Around.ids_plug] at nd
    have hdis : (∀ j ∈ P.ids ++ Q.ids, j ≠ s ∧ j ≠ f.idx) ∧ (∀ j ∈ (Shape.node A i B).ids, j ≠ s ∧ j ≠ f.idx) ∧
        (∀ j ∈ Around.before c ++ Around.after c, j ≠ s ∧ j ≠ f.idx) ∧ s ≠ f.idx := by
      have := avoid_two (a := s) (b := f.idx) (W := (P.ids ++ Q.ids) ++ ((Shape.node A i B).ids ++ (Around.before c ++ Around.after c))) nd (by
        intro j
        cases f with
        | inL p U =>
          have ho' : U = .node P s Q := ho
          subst ho'
          simp only [Around.before, Around.after, Shape.ids, Frame.idx, List.count_append, List.count_cons, List.count_nil]; omega
        | inR U p =>
          have ho' : U = .node P s Q := ho
          subst ho'
          simp only [Around.before, Around.after, Shape.ids, Frame.idx, List.count_append, List.count_cons, List.count_nil]; omega)
      refine ⟨fun j hj => this.2 j (List.mem_append_left _ hj), fun j hj => this.2 j (List.mem_append_right _ (List.mem_append_left _ hj)),
        fun j hj => this.2 j (List.mem_append_right _ (List.mem_append_right _ hj)), this.1⟩
    obtain ⟨d1, d2, d3, d4⟩ := hdis
    have c1 : ∀ {j}, j ≠ s → colOf t1.at j = colOf t.at j := fun hj => by rw [m1.col, if_neg hj]
    have hs1 : colOf t1.at s = some 1 := by rw [m1.col, if_pos rfl]
    obtain ⟨x1, x2⟩ := redden (h := t.at) (h' := t1.at) (fun j hj => c1 (d1 j hj).1) hs hs1 r2 b1 hPQ.1 hPQ.2
    have hf1 : colOf t1.at f.idx = colOf t.at f.idx := c1 (Ne.symm d4)
    obtain ⟨nf, enf⟩ := Option.isSome_iff_exists.mp (T1.isSome hfm)
    obtain ⟨L0, R0, ep0⟩ := frame_plug f c (.node A i B)
    have rb1 : colOf t1.at t1.rootIdx = some 0 := by
      refine root_black (c := c) (by rw [← ep0]; exact H.tree) (by rw [← ep0]; exact T1) (root_node _ _ _) (root_node _ _ _) H.root (fun j hj => c1 (d3 j hj).1) ?_
      intro _ h0; rw [hf1]; exact h0
    rcases H.ok.cols _ hfm with hf | hf
    · refine .inr ⟨t1, ?_, hf, by rw [hf1, hf], by rw [ho]; exact x1, by rw [ho]; exact x2, ⟨by rw [← plug_cons]; exact T1, by rw [← plug_cons]; exact ok1, ?_, ?_, rb1⟩, m1.ent, fun j hj => c1 (d2 j hj).1⟩
      · simp only [rbDelBody, asIdx, ok_bind, e1, e2, e3, eb, Bool.false_eq_true, if_false, p1, getNode_ok enf, isCol_at enf (hf1.trans hf), decide_true, if_true]
      · exact redAround_congr (fun j hj => c1 (d3 j hj).1) (r3.mono (fun _ => trivial))
      · have : blk t.at f.idx = 1 := by simp [blk, hf]
        rw [this] at b2
        exact blackAround_congr (fun j hj => c1 (d3 j hj).1) b2
    · obtain ⟨t2, p2, m2⟩ := paint_spec (t := t1) (i := f.idx) 0 (T1.isSome hfm)
      have T2 := m2.tree _ T1
      have ok2 := paint_keep m2 (.inl rfl) ok1
      have c2 : ∀ {j}, j ≠ f.idx → colOf t2.at j = colOf t1.at j := fun hj => by rw [m2.col, if_neg hj]
      have hf2 : colOf t2.at f.idx = some 0 := by rw [m2.col, if_pos rfl]
      have rb2 : colOf t2.at t2.rootIdx = some 0 := by
        rw [m2.col, m2.root]
        split
        · rfl
        · exact rb1
      refine .inl ⟨t2, f :: c, ?_, ⟨T2, ok2, ⟨fun e => (by rw [hf2] at e; cases e), ?_, ?_⟩, ⟨?_, ?_⟩, rb2⟩, ⟨rfl, rfl, rfl, m1.ent.trans m2.ent, fun j hj => by rw [c2 (d2 j hj).2, c1 (d2 j hj).1]⟩⟩
      · simp only [rbDelBody, asIdx, ok_bind, e1, e2, e3, eb, Bool.false_eq_true, if_false, p1, getNode_ok enf, isCol_at enf (hf1.trans hf), show ¬ (1 = 0) from by omega, decide_false, p2]
      · rw [ho]; exact redOk_congr (fun j hj => c2 (by rintro rfl; exact fr.2.1 (by rw [ho]; exact hj))) x1
      · exact redAround_congr (fun j hj => by rw [c2 (d3 j hj).2, c1 (d3 j hj).1]) (r3.mono (fun e => hf2))
      · rw [ho]; exact blackHeight_congr (fun j hj => c2 (by rintro rfl; exact fr.2.1 (by rw [ho]; exact hj))) x2
      · have h1 : blk t.at f.idx = 0 := by simp [blk, hf]
        have h2 : blk t2.at f.idx = 1 := by simp [blk, hf2]
        rw [h1] at b2
        rw [h2]
        exact blackAround_congr (fun j hj => by rw [c2 (d3 j hj).2, c1 (d3 j hj).1]) b2

theorem rbDel_loop : ∀ (c : Around) (t : BTree κ δ) (A B : Shape) (i h : Nat), Lacks t c (.node A i B) (h + 1) →
    ∃ t' c' w b, Lacks t' c' (.node A i B) h ∧ Around2 t t' c c' (.node A i B) ∧
      ∃ n0, ∀ fuel, n0 ≤ fuel → whileLoop fuel rbDelCond rbDelBody ⟨t, some i, true⟩ = .ok ⟨t', w, b⟩ := by
  intro c
  induction c with
  | nil =>
    intro t A B i h H
    refine ⟨t, [], some i, true, ⟨H.tree, H.ok, trivial, trivial, H.root⟩, ⟨rfl, rfl, rfl, .refl t, fun _ _ => rfl⟩, 1, fun fuel hf => ?_⟩
    obtain ⟨f, rfl⟩ : ∃ f, fuel = f + 1 := ⟨fuel - 1, by omega⟩
    refine while_stop _ ?_
    have : i = t.rootIdx := by have := H.tree.root; simpa [Around.plug, root_node] using this
    simp [rbDelCond, this]
  | cons f c ih =>
    -- a black sibling
    have black : ∀ (t : BTree κ δ) (A B : Shape) (i h : Nat), Lacks t (f :: c) (.node A i B) (h + 1) → BlackRoot t.at f.other →
        ∃ t' c' w b, Lacks t' c' (.node A i B) h ∧ Around2 t t' (f :: c) c' (.node A i B) ∧
          ∃ n0, ∀ fuel, n0 ≤ fuel → whileLoop fuel rbDelCond rbDelBody ⟨t, some i, true⟩ = .ok ⟨t', w, b⟩ := by
      intro t A B i h H hbl
      rcases rbDel_black_step H hbl with ⟨t', c', e, h1, h2⟩ | ⟨t', e, hf, hf', r1, b1, H', ent, keep⟩
      · refine ⟨t', c', some i, false, h1, h2, 2, fun fuel hfu => ?_⟩
        obtain ⟨f', rfl⟩ : ∃ f', fuel = f' + 1 + 1 := ⟨fuel - 2, by omega⟩
        refine (while_step _ (rbDelCond_inner H.tree true) e).trans (while_stop _ ?_)
        simp [rbDelCond]
      · obtain ⟨L, R, ep⟩ := frame_plug f [] (.node A i B)
        have ep' : Around.plug [f] (.node A i B) = .node L f.idx R := ep
        rw [ep'] at H'
        obtain ⟨t2, c2, w, b, h1, h2, n0, hrun⟩ := ih t' L R f.idx (h + 1) H'
        have hmem : ∀ j, j = f.idx ∨ j ∈ f.other.ids ∨ j ∈ (Shape.node A i B).ids → j ∈ (Shape.node L f.idx R).ids := by
          intro j hj
          rw [← ep', mem_plug, frame_ids]
          rcases hj with h | h | h
          · exact .inr (.inl h)
          · exact .inr (.inr (.inl h))
          · exact .inl h
        have kf : colOf t2.at f.idx = some 0 := by rw [h2.keep _ (hmem _ (.inl rfl)), hf']
        have ko : ∀ j ∈ f.other.ids, colOf t2.at j = colOf t'.at j := fun j hj => h2.keep _ (hmem _ (.inr (.inl hj)))
        refine ⟨t2, f :: c2, w, b, ⟨?_, ?_, ⟨fun e => (by rw [kf] at e; cases e), redOk_congr ko r1, h1.red.mono (fun _ => kf)⟩, ⟨blackHeight_congr ko b1, ?_⟩, h1.root⟩, ⟨?_, ?_, rfl, ent.trans h2.ent, ?_⟩, n0 + 1, fun fuel hfu => ?_⟩
        · rw [plug_cons, ep']; exact h1.tree
        · rw [plug_cons, ep']; exact h1.ok
        · have : blk t2.at f.idx = 1 := by simp [blk, kf]
          rw [this]; exact h1.black
        · cases f <;> simp only [Around.before, h2.bef]
        · cases f <;> simp only [Around.after, h2.aft]
        · intro j hj
          rw [h2.keep _ (hmem _ (.inr (.inr hj))), keep j hj]
        · obtain ⟨f', rfl⟩ : ∃ f', fuel = f' + 1 := ⟨fuel - 1, by omega⟩
          exact (while_step _ (rbDelCond_inner H.tree true) e).trans (hrun f' (by omega))
    intro t A B i h H
    by_cases hbl : BlackRoot t.at f.other
    · exact black t A B i h H hbl
    · have hom : ∀ j ∈ f.other.ids, j ∈ (Around.plug (f :: c) (.node A i B)).ids := fun j hj => around_mem (frame_ids.mpr (.inr (.inl hj)))
      obtain ⟨P, s, Q, ho, hs⟩ := redRoot_node (fun j hj => H.ok.cols j (hom j hj)) hbl
      obtain ⟨t1, g, c1, e1, H1, a1, hg, hb1⟩ := rbDelRed_spec H ho hs
      have e2 : getSibling t i = .ok (some s) := by rw [getSibling_ok H.tree, ho]; rfl
      have e3 : getParent t i = .ok (some f.idx) := getParent_ok H.tree
      have e4 : isRedAt t (some s) = .ok true := isRedAt_ok hs
      have body : rbDelBody ⟨t, some i, true⟩ = .ok ⟨t1, some i, true⟩ := by
        simp only [rbDelBody, asIdx, ok_bind, e2, e3, e4, if_true, e1]
      rcases rbDel_black_step H1 hb1 with ⟨t', c', e, h1, h2⟩ | ⟨t', e, hf, _⟩
      · refine ⟨t', c', some i, false, h1, a1.trans h2, 3, fun fuel hfu => ?_⟩
        obtain ⟨f', rfl⟩ : ∃ f', fuel = f' + 1 + 1 + 1 := ⟨fuel - 3, by omega⟩
        refine (while_step _ (rbDelCond_inner H.tree true) body).trans ((while_step _ (rbDelCond_inner H1.tree true) e).trans (while_stop _ ?_))
        simp [rbDelCond]
      · rw [hg] at hf; cases hf
end Props
