import Verif.Lemmas.CppBst

/-!
# `select`, the traversals and the lowest common ancestor of the C++ tree
-/
namespace Props
open Py Model Model.Cpp Spec
set_option linter.unusedSectionVars false
variable {κ δ : Type} [DecidableEq κ]

/-- A loop follows another one. -/
theorem while_sim {σ τ : Type _} {c : σ → PyM Bool} {b : σ → PyM σ} {c' : τ → PyM Bool} {b' : τ → PyM τ} (f : σ → τ) (P : σ → Prop)
    (hc : ∀ s x, P s → c s = .ok x → c' (f s) = .ok x) (hb : ∀ s s', P s → c s = .ok true → b s = .ok s' → b' (f s) = .ok (f s') ∧ P s') :
    ∀ (n : Nat) (s r : σ), P s → whileLoop n c b s = .ok r → whileLoop n c' b' (f s) = .ok (f r) := by
  intro n
  induction n with
  | zero => intro s r _ h; cases h
  | succ n ih =>
    intro s r hs h
    rw [whileLoop] at h ⊢
    obtain ⟨x, e, h⟩ := Py.bind_ok h
    rw [hc s x hs e, ok_bind]
    cases x with
    | false => cases h; rfl
    | true =>
      simp only [if_true] at h ⊢
      obtain ⟨s1, e1, h⟩ := Py.bind_ok h
      obtain ⟨e2, hs1⟩ := hb s s1 hs e e1
      rw [e2, ok_bind]
      exact ih s1 r hs1 h

/-! ## select -/

theorem cselect_loop {lt : κ → κ → Bool} (ht : StrictTotal (ltRel lt)) {up : Bool} {t : BTree κ δ} : ∀ (S : Shape) (p : Option Nat) (j : Nat),
    Linked up t.at p S → Srt lt t.at S → Sized t.at S → j < S.ids.length →
    ∃ w i n, S.ids[j]? = some i ∧ t.at i = some n ∧ ∀ fuel > S.depth + 1,
      ∃ e, whileLoop fuel selectCond (cSelectBody (ofLt lt) t) ⟨S.root, (j : Int), none⟩ = .ok ⟨w, e, some n⟩ := by
  have hasym : ∀ a b, lt a b = true → lt b a = false := by
    intro a b h
    cases h' : lt b a with
    | false => rfl
    | true => exact absurd (ht.trans _ _ _ h h') (ht.irrefl _)
  intro S
  induction S with
  | leaf => intro p j _ _ _ hj; simp [Shape.ids] at hj
  | node l i r ih1 ih2 =>
    intro p j hl hs hz hj
    obtain ⟨⟨n, en, n1, n2, _⟩, hl1, hl2⟩ := hl
    obtain ⟨_, hz1, hz2⟩ := hz
    have hls := le_leftSize _ _ _ (leftSize_ok hz1 n1)
    obtain ⟨a, ha⟩ := Option.isSome_iff_exists.mp (hs.2 i (by simp [Shape.ids]))
    have hna : n.key = some a := by simpa [keyOf, en] using ha
    have hp := hs.1
    simp only [Shape.ids, List.pairwise_append, List.pairwise_cons] at hp
    simp only [Shape.ids, List.length_append, List.length_cons] at hj
    rcases Nat.lt_trichotomy j l.ids.length with hc | hc | hc
    · obtain ⟨w, x, m, e1, e2, hrun⟩ := ih1 _ j hl1 hs.left hz1 hc
      refine ⟨w, x, m, by rw [Shape.ids, List.getElem?_append_left hc, e1], e2, ?_⟩
      intro fuel hf
      obtain ⟨f, rfl⟩ : ∃ f, fuel = f + 1 := ⟨fuel - 1, by omega⟩
      obtain ⟨e, he⟩ := hrun f (by simp only [Shape.depth] at hf; omega)
      refine ⟨e, ?_⟩
      obtain ⟨li, hli⟩ : ∃ li, l.root = some li := by
        cases l with
        | leaf => simp [Shape.ids] at hc
        | node l' x' r' => exact ⟨x', rfl⟩
      obtain ⟨b, c, hb, hc', hbc⟩ := hp.2.2 li (Shape.root_mem hli) i (by simp)
      rw [ha] at hc'; cases hc'
      obtain ⟨m', em'⟩ := Option.isSome_iff_exists.mp (linked_isSome hl1 li (Shape.root_mem hli))
      have hm' : m'.key = some b := by simpa [keyOf, em'] using hb
      rw [while_step f (s' := ⟨l.root, (j : Int), none⟩) (by rfl)]
      · exact he
      · have hne : ¬ (j : Int) = l.ids.length := by omega
        have hlt : (j : Int) < l.ids.length := by omega
        have hsl : cSelectLeft (ofLt lt) t n = .ok l.root := by simp [cSelectLeft, cIdx, n1, hli, cNode_ok em', hm', hna, cCmp, ofLt, hbc]
        have hnn : ¬ (n.left = none ∧ n.right = none) := by rw [n1, hli]; simp
        show cSelectBody (ofLt lt) t ⟨some i, (j : Int), none⟩ = _
        simp only [cSelectBody, cIdx, ok_bind, cNode_ok en, hls, if_neg hne, if_neg hnn, if_pos hlt, hsl]
    · subst hc
      refine ⟨some i, i, n, by simp [Shape.ids], en, ?_⟩
      intro fuel hf
      obtain ⟨f, rfl⟩ : ∃ f, fuel = f + 2 := ⟨fuel - 2, by omega⟩
      refine ⟨(l.ids.length : Int), ?_⟩
      rw [while_step (f + 1) (s' := ⟨some i, (l.ids.length : Int), some n⟩) (by rfl), while_stop _ (by rfl)]
      simp [cSelectBody, Shape.root, cIdx, cNode_ok en, hls]
    · obtain ⟨w, x, m, e1, e2, hrun⟩ := ih2 _ (j - (l.ids.length + 1)) hl2 hs.right hz2 (by omega)
      refine ⟨w, x, m, ?_, e2, ?_⟩
      · rw [Shape.ids, List.getElem?_append_right (by omega), List.getElem?_cons, if_neg (by omega), ← e1]
        congr 1
      intro fuel hf
      obtain ⟨f, rfl⟩ : ∃ f, fuel = f + 1 := ⟨fuel - 1, by omega⟩
      obtain ⟨e, he⟩ := hrun f (by simp only [Shape.depth] at hf; omega)
      refine ⟨e, ?_⟩
      obtain ⟨ri, hri⟩ : ∃ ri, r.root = some ri := by
        cases r with
        | leaf => simp [Shape.ids] at hj; omega
        | node l' x' r' => exact ⟨x', rfl⟩
      obtain ⟨b, c, hb, hc', hbc⟩ := hp.2.1.1 ri (Shape.root_mem hri)
      rw [ha] at hb; cases hb
      obtain ⟨m', em'⟩ := Option.isSome_iff_exists.mp (linked_isSome hl2 ri (Shape.root_mem hri))
      have hm' : m'.key = some c := by simpa [keyOf, em'] using hc'
      rw [while_step f (s' := ⟨r.root, ((j - (l.ids.length + 1) : Nat) : Int), none⟩) (by rfl)]
      · exact he
      · have hne : ¬ (j : Int) = l.ids.length := by omega
        have hlt : ¬ (j : Int) < l.ids.length := by omega
        have hj' : (j : Int) - (l.ids.length + 1) = ((j - (l.ids.length + 1) : Nat) : Int) := by omega
        have hsl : cSelectRight (ofLt lt) t n = .ok r.root := by simp [cSelectRight, cIdx, n2, hri, cNode_ok em', hm', hna, cCmp, ofLt, hasym _ _ hbc]
        have hnn : ¬ (n.left = none ∧ n.right = none) := by rw [n2, hri]; simp
        show cSelectBody (ofLt lt) t ⟨some i, (j : Int), none⟩ = _
        simp only [cSelectBody, cIdx, ok_bind, cNode_ok en, hls, if_neg hne, if_neg hnn, if_neg hlt, hsl, hj']


/-! ## The traversals -/

theorem cPush_eq (l : List Nat) (o : Option Nat) : cPush l o = pushIf o l := by cases o <;> rfl

theorem le_pre (fuel : Nat) (t : BTree κ δ) (i : Nat) : Le (preOrder fuel t i) (ctPreOrder fuel t i) := by
  refine (Le.while_ (fun _ => .refl _) (fun s => ?_) fuel _).bind fun _ _ => .refl _
  unfold preBody ctPreBody
  cases s.todo with
  | nil => exact .refl _
  | cons x rest => exact (le_node t x).bind fun n _ => by rw [cPush_eq, cPush_eq]; exact .refl _

theorem le_bfs (fuel : Nat) (t : BTree κ δ) (o : Option Nat) : Le (treeBfs fuel t o) (ctBfs fuel t o) := by
  refine (Le.while_ (fun _ => .refl _) (fun s => ?_) fuel _).bind fun _ _ => .refl _
  unfold bfsTreeBody ctBfsBody
  cases s.todo with
  | nil => exact .refl _
  | cons x rest => exact (le_node t x).bind fun n _ => by rw [cPush_eq, cPush_eq]; exact .refl _

theorem le_in (fuel : Nat) (t : BTree κ δ) (i : Nat) : Le (inOrder fuel t i) (ctInOrder fuel t i) := by
  intro r h
  obtain ⟨s, e, h⟩ := Py.bind_ok h
  cases h
  have := while_sim (c' := inCond) (b' := ctInBody t) id (fun _ => True) (fun _ _ _ h => h) ?_ fuel _ _ trivial e
  · unfold ctInOrder
    simp only [id] at this
    rw [this]; rfl
  · intro s s' _ hc hb
    refine ⟨?_, trivial⟩
    unfold inBody at hb
    unfold ctInBody
    simp only [id]
    cases hn : s.node with
    | some j =>
      rw [hn] at hb
      dsimp only at hb ⊢
      obtain ⟨n, e1, hb⟩ := Py.bind_ok hb
      rw [le_node _ _ _ e1]; exact hb
    | none =>
      rw [hn] at hb
      dsimp only at hb ⊢
      cases hs : s.stack with
      | nil => simp [inCond, hn, hs] at hc
      | cons j rest =>
        rw [hs] at hb
        dsimp only at hb ⊢
        obtain ⟨n, e1, hb⟩ := Py.bind_ok hb
        rw [le_node _ _ _ e1]; exact hb

theorem le_out (fuel : Nat) (t : BTree κ δ) (i : Nat) : Le (outOrder fuel t i) (ctOutOrder fuel t i) :=
  (le_in fuel t i).bind fun _ _ => .refl _

theorem done_ok {last : List Bool} {o : Option Nat} {b : Bool} (h : postDone last o = .ok b) : ctDone last o = (b, false) := by
  cases o with
  | none => cases h; rfl
  | some i =>
    simp only [postDone, rd] at h
    unfold ctDone
    dsimp only
    cases e : last[i]? with
    | none => rw [e] at h; cases h
    | some x => rw [e] at h; cases h; rfl

theorem le_post (fuel : Nat) (t : BTree κ δ) (i : Nat) : Le (postOrder fuel t i) (ctPostOrder fuel t i) := by
  intro r h
  obtain ⟨s, e, h⟩ := Py.bind_ok h
  cases h
  have := while_sim (c := postCond) (b := postBody t) (c' := ctPostCond) (b' := ctPostBody t) (fun s : PostSt κ δ => (⟨s.stack, s.visit, s.last, false⟩ : CtPostSt κ δ)) (fun _ => True)
    (fun _ _ _ h => h) ?_ fuel _ _ trivial e
  · unfold ctPostOrder
    dsimp only at this
    rw [this]; rfl
  · intro s s' _ hc hb
    refine ⟨?_, trivial⟩
    unfold postBody at hb
    unfold ctPostBody
    dsimp only
    cases hs : s.stack with
    | nil => simp [postCond, hs] at hc
    | cons j rest =>
      rw [hs] at hb
      dsimp only at hb ⊢
      obtain ⟨n, e1, hb⟩ := Py.bind_ok hb
      obtain ⟨cl, e2, hb⟩ := Py.bind_ok hb
      obtain ⟨cr, e3, hb⟩ := Py.bind_ok hb
      rw [le_node _ _ _ e1, ok_bind, done_ok e2, done_ok e3]
      dsimp only
      split at hb
      · rw [if_pos ‹_›]
        obtain ⟨l', e4, hb⟩ := Py.bind_ok hb
        cases hb
        unfold wr at e4
        split at e4
        · cases e4
          simp only [Bool.or_false, Bool.false_or, Except.ok.injEq, CtPostSt.mk.injEq, true_and, decide_eq_false_iff_not]
          omega
        · cases e4
      · rw [if_neg ‹_›]
        cases hb
        simp only [cPush_eq, Bool.or_false]

theorem le_dfs (fuel : Nat) (t : BTree κ δ) (order : DfsOrder) (o : Option Nat) : Le (treeDfs fuel t order o) (ctDfs fuel t order o) := by
  cases order
  · exact le_pre _ _ _
  · exact le_in _ _ _
  · exact le_post _ _ _
  · exact le_out _ _ _

/-! ## The lowest common ancestor -/

theorem child_mem {h : Cells κ δ} {up : Bool} : ∀ {T : Shape} {p : Option Nat}, Linked up h p T → T.ids.Nodup → ∀ i ∈ T.ids, ∀ n, h i = some n →
    ∀ j, n.left = some j ∨ n.right = some j → j ∈ T.ids ∧ T.root ≠ some j := by
  intro T
  induction T with
  | leaf => intro p _ _ i hi; simp [Shape.ids] at hi
  | node l x r ih1 ih2 =>
    intro p hl hn i hi n en j hj
    obtain ⟨⟨m, em, m1, m2, _⟩, hl1, hl2⟩ := hl
    obtain ⟨n1, n2, nl, nr, _⟩ := nodup_node hn
    simp only [Shape.ids, List.mem_append, List.mem_cons, Shape.root] at hi ⊢
    rcases hi with hi | rfl | hi
    · have := (ih1 hl1 n1 i hi n en j hj).1
      exact ⟨.inl this, fun e => nl (by rw [Option.some.inj e]; exact this)⟩
    · rw [en] at em; cases em
      rcases hj with hj | hj
      · have := Shape.root_mem (m1.symm.trans hj)
        exact ⟨.inl this, fun e => nl (by rw [Option.some.inj e]; exact this)⟩
      · have := Shape.root_mem (m2.symm.trans hj)
        exact ⟨.inr (.inr this), fun e => nr (by rw [Option.some.inj e]; exact this)⟩
    · have := (ih2 hl2 n2 i hi n en j hj).1
      exact ⟨.inr (.inr this), fun e => nr (by rw [Option.some.inj e]; exact this)⟩

theorem le_simplePath {t : BTree κ δ} {T : Shape} {up : Bool} (h : TreeAt up t T) (h0 : t.rootIdx = 0) (fuel : Nat) (k : κ) :
    Le (simplePath fuel t k t.rootIdx) (cSimplePath fuel t k t.rootIdx) := by
  intro r hr
  unfold simplePath at hr
  unfold cSimplePath
  obtain ⟨s, e, hr⟩ := Py.bind_ok hr
  have := while_sim (c' := pathCond) (b' := cPathBody t k) id (fun s => ∀ i ∈ s.stack, i ∈ T.ids) (fun _ _ _ h => h) ?_ fuel _ _ ?_ e
  · simp only [id] at this
    rw [this, ok_bind]
    cases hf : s.found with
    | none => rw [hf] at hr; exact hr
    | some i =>
      rw [hf] at hr
      dsimp only at hr ⊢
      obtain ⟨c, e1, hr⟩ := Py.bind_ok hr
      rw [Le.while_ (c' := climbCond) (b' := cClimbBody t) (fun _ => .refl _) (fun s => (le_idx _).bind fun i _ => (le_node t i).bind fun _ _ => .refl _) fuel _ _ e1]
      exact hr
  · intro s s' hs _ hb
    unfold pathBody at hb
    unfold cPathBody
    simp only [id]
    cases hst : s.stack with
    | nil => rw [hst] at hb; cases hb; exact ⟨by first | rfl | skip, hs⟩
    | cons i rest =>
      rw [hst] at hb
      dsimp only at hb ⊢
      obtain ⟨n, e1, hb⟩ := Py.bind_ok hb
      rw [le_node _ _ _ e1, ok_bind]
      have hi : i ∈ T.ids := hs i (by simp [hst])
      have hrest : ∀ j ∈ rest, j ∈ T.ids := fun j hj => hs j (by simp [hst, hj])
      have en : t.at i = some n := by
        unfold getNode rd at e1
        rw [at_some]
        cases e2 : t.arr[i]? with
        | none => rw [e2] at e1; cases e1
        | some o => cases o with
          | none => rw [e2] at e1; cases e1
          | some m => rw [e2] at e1; cases e1; rfl
      have ch := child_mem h.linked h.nodup i hi n en
      have hpush : ∀ (o : Option Nat) (l : List Nat), (∀ j, o = some j → j ∈ T.ids ∧ T.root ≠ some j) → pushTruthy l o = cPush l o ∧
          ((∀ j ∈ l, j ∈ T.ids) → ∀ j ∈ cPush l o, j ∈ T.ids) := by
        intro o l ho
        cases o with
        | none => exact ⟨rfl, fun h => h⟩
        | some j =>
          obtain ⟨a, b⟩ := ho j rfl
          have : j ≠ 0 := by rintro rfl; exact b (by rw [h.root, h0])
          refine ⟨pushTruthy_pos this, fun h x hx => ?_⟩
          simp only [cPush, List.mem_cons] at hx
          rcases hx with rfl | hx
          · exact a
          · exact h x hx
      split at hb
      · rw [if_pos ‹_›]; cases hb; exact ⟨rfl, hrest⟩
      · rw [if_neg ‹_›]
        cases hb
        have p1 := hpush n.left rest (fun j hj => ch j (.inl hj))
        have p2 := hpush n.right (cPush rest n.left) (fun j hj => ch j (.inr hj))
        rw [p1.1, p2.1]
        exact ⟨rfl, p2.2 (p1.2 hrest)⟩
  · intro i hi
    simp only [List.mem_singleton] at hi
    subst hi
    exact Shape.root_mem h.root

theorem le_lca2 (lt : κ → κ → Bool) (fuel : Nat) (t : BTree κ δ) (j k : κ) : Le (lca2 lt fuel t j k) (cLca2 (ofLt lt) fuel t j k) := by
  have hq : ∀ o : Option Nat, ∀ r, getNode? t o = .ok r → ∃ i, cIdx o = .ok i ∧ cNode t i = .ok r := by
    intro o r h
    cases o with
    | none => cases h
    | some i => exact ⟨i, rfl, le_node _ _ _ h⟩
  intro r hr
  unfold lca2 at hr
  unfold cLca2
  obtain ⟨ou, e1, hr⟩ := Py.bind_ok hr
  obtain ⟨ov, e2, hr⟩ := Py.bind_ok hr
  rw [le_search _ _ _ _ _ e1, ok_bind, le_search _ _ _ _ _ e2, ok_bind]
  cases ou with
  | none => cases hr
  | some u => cases ov with
    | none => cases hr
    | some v =>
      dsimp only at hr ⊢
      obtain ⟨nu, e3, hr⟩ := Py.bind_ok hr
      obtain ⟨nr, e4, hr⟩ := Py.bind_ok hr
      obtain ⟨a, e5, hr⟩ := Py.bind_ok hr
      obtain ⟨nv, e6, hr⟩ := Py.bind_ok hr
      obtain ⟨b, e7, hr⟩ := Py.bind_ok hr
      obtain ⟨s, e8, hr⟩ := Py.bind_ok hr
      rw [le_node _ _ _ e3, ok_bind, le_node _ _ _ e4, ok_bind, cmp_inv e5, ok_bind, le_node _ _ _ e6, ok_bind, cmp_inv e7, ok_bind]
      have := while_sim (c' := cLca2Cond) (b' := cLca2Body (ofLt lt) t u v)
        (fun s : Lca2St κ => (⟨s.curr, if s.uLeft then 1 else 0, if s.vLeft then 1 else 0, s.out⟩ : CLca2St κ)) (fun _ => True) ?_ ?_ fuel _ _ trivial e8
      · dsimp only at this
        rw [this, ok_bind]
        dsimp only
        cases ho : s.out with
        | some o => rw [ho] at hr; exact hr
        | none =>
          rw [ho] at hr
          dsimp only at hr ⊢
          obtain ⟨n, e9, hr⟩ := Py.bind_ok hr
          obtain ⟨i, g1, g2⟩ := hq _ _ e9
          rw [g1, ok_bind, g2]; exact hr
      · intro s x _ h
        unfold lca2Cond at h
        unfold cLca2Cond
        rw [← h]
        cases s.uLeft <;> cases s.vLeft <;> rfl
      · intro s s' _ _ hb
        refine ⟨?_, trivial⟩
        unfold lca2Body at hb
        unfold cLca2Body
        obtain ⟨c, f1, hb⟩ := Py.bind_ok hb
        obtain ⟨i, g1, g2⟩ := hq _ _ f1
        dsimp only at hb ⊢
        rw [g1, ok_bind, g2, ok_bind]
        have hnext : (if (if s.uLeft = true then (1 : Int) else 0) ≠ 0 ∧ (if s.vLeft = true then (1 : Int) else 0) ≠ 0 then c.left else c.right) =
            if (s.uLeft && s.vLeft) = true then c.left else c.right := by
          cases s.uLeft <;> cases s.vLeft <;> rfl
        rw [hnext]
        generalize (if (s.uLeft && s.vLeft) = true then c.left else c.right) = next at hb ⊢
        split at hb
        · rw [if_pos ‹_›]
          obtain ⟨n, f2, hb⟩ := Py.bind_ok hb
          obtain ⟨i', g3, g4⟩ := hq _ _ f2
          rw [g3, ok_bind, g4, ok_bind]
          cases hb; rfl
        · rw [if_neg ‹_›]
          obtain ⟨mu, f2, hb⟩ := Py.bind_ok hb
          obtain ⟨n, f3, hb⟩ := Py.bind_ok hb
          obtain ⟨i', g3, g4⟩ := hq _ _ f3
          obtain ⟨x, f4, hb⟩ := Py.bind_ok hb
          obtain ⟨mv, f5, hb⟩ := Py.bind_ok hb
          obtain ⟨y, f6, hb⟩ := Py.bind_ok hb
          rw [le_node _ _ _ f2, ok_bind, g3, ok_bind, g4, ok_bind, cmp_inv f4, ok_bind, le_node _ _ _ f5, ok_bind, cmp_inv f6, ok_bind]
          cases hb; rfl

end Props
