import Verif.Lemmas.RedBlack

/-!
# C78: red-black trees built by insertions
-/
namespace Props
open Py Model Spec
set_option linter.unusedSectionVars false
variable {κ δ : Type} [DecidableEq κ]

/-- The state after a history of red-black insertions; `H` says when the colouring is kept. -/
inductive RbState (lt : κ → κ → Bool) (os : Bool) (H : Prop) (t : BTree κ δ) (m : κ → Option (Option δ)) : Prop where
  | empty (h : t = btEmpty os) (hm : ∀ k, m k = none)
  | tree (T : Shape) (ok : BstOk lt t T) (car : Carries t T m) (rb : RbOk t T) (black : colOf t.at t.rootIdx = some 0)
      (colour : H → RedOk t.at T ∧ ∃ N, BlackHeight t.at T N)

/-- Everything `insert` does after `super().insert` and `search`. -/
def rbFinish (fuel : Nat) (t : BTree κ δ) (k : κ) (d : Option δ) (i : Nat) : PyM (BTree κ δ) := do
  let n ← getNode t i
  let t ← modNode t i (fun n => { key := some k, data := d, color := some 1, left := n.left, right := n.right, parent := n.parent })
  if n.isRoot then do
    let t ← setRoot t i true
    paint t i 0
  else do
    let m ← getNode? t n.parent
    let b ← isCol m 1
    if b then rbFix fuel t i else .ok t

/-- What `insert` has made of the tree: the same entries, and a red-black tree when `H` holds. -/
structure RbMade (t t' : BTree κ δ) (T T' : Shape) (H : Prop) : Prop where
  tree : TreeAt true t' T'
  ids : T'.ids = T.ids
  ent : SameEntries t t'
  rb : RbOk t' T'
  black : colOf t'.at t'.rootIdx = some 0
  colour : H → RedOk t'.at T' ∧ ∃ N, BlackHeight t'.at T' N

/-- What painting a present node `i` red again has made of a red-black tree: nothing new if it is red or the root, unequal black heights
otherwise. -/
structure RbAgain (t t' : BTree κ δ) (T T' : Shape) (i : Nat) : Prop where
  keep : RedOk t.at T → (∃ N, BlackHeight t.at T N) → (i = t.rootIdx → colOf t.at i = some 0) → (i ≠ t.rootIdx → colOf t.at i = some 1) →
    RedOk t'.at T' ∧ ∃ N, BlackHeight t'.at T' N
  spoil : RedOk t.at T → (∃ N, BlackHeight t.at T N) → i ≠ t.rootIdx → colOf t.at i = some 0 → ¬ ∃ N, BlackHeight t'.at T' N

theorem blackHeight_unique {h : Cells κ δ} : ∀ {T : Shape} {m n : Nat}, BlackHeight h T m → BlackHeight h T n → m = n := by
  intro T
  induction T with
  | leaf => intro m n h1 h2; rw [h1, h2]
  | node A i B ihA _ =>
    rintro m n ⟨m', h1, _, rfl⟩ ⟨n', h2, _, rfl⟩
    rw [ihA h1 h2]

/-- A red node painted over a black one: the black heights are no longer equal. -/
theorem unequal_below {h h' : Cells κ δ} {f : Frame} {c : Around} {A B : Shape} {i : Nat} (hc : ∀ j ∈ A.ids ++ f.other.ids, colOf h' j = colOf h j)
    (h0 : colOf h i = some 0) (h1 : colOf h' i = some 1) (H : ∃ N, BlackHeight h (Around.plug (f :: c) (.node A i B)) N) :
    ¬ ∃ N, BlackHeight h' (Around.plug (f :: c) (.node A i B)) N := by
  intro H'
  obtain ⟨n, ⟨m, a1, _, rfl⟩, a2, _⟩ := black_plug.mp H
  obtain ⟨n', ⟨m', b1, _, rfl⟩, b2, _⟩ := black_plug.mp H'
  have e1 := blackHeight_unique (blackHeight_congr (fun j hj => hc j (List.mem_append_left _ hj)) a1) b1
  have e2 := blackHeight_unique (blackHeight_congr (fun j hj => hc j (List.mem_append_right _ hj)) a2) b2
  simp [blk, h0, h1] at e2
  omega

theorem rb_finish_steps {t : BTree κ δ} {c : Around} {A B : Shape} {i : Nat} {k : κ}
    {d : Option δ} {n : BNode κ δ} {H : Prop} (tree : TreeAt true t (Around.plug c (.node A i B)))
    (en : t.at i = some n) (hk : n.key = some k) (hd : n.data = d)
    (flags : ∀ j ∈ (Around.plug c (.node A i B)).ids, flagOf t.at j = some (decide (j = t.rootIdx)))
    (cols : ∀ j ∈ (Around.plug c (.node A i B)).ids, j ≠ i → colOf t.at j = some 0 ∨ colOf t.at j = some 1)
    (black : t.rootIdx ≠ i → colOf t.at t.rootIdx = some 0)
    (hH : H → A = .leaf ∧ B = .leaf ∧ RedOk t.at (Around.plug c .leaf) ∧ ∃ N, BlackHeight t.at (Around.plug c .leaf) N) :
    ∃ t' T', RbMade t t' (Around.plug c (.node A i B)) T' H ∧ RbAgain t t' (Around.plug c (.node A i B)) T' i ∧ ∀ fuel > c.length + 1, rbFinish fuel t k d i = .ok t' := by
  obtain ⟨t1, e1, a1, r1, q1⟩ := modNode_spec (t := t) (i := i)
    (fun n => { key := some k, data := d, color := some 1, left := n.left, right := n.right, parent := n.parent }) (by rw [en]; rfl)
  have E1 : SameEntries t t1 := sameEntries_mapAt a1 r1 (by intro x ex; rw [en] at ex; cases ex; exact ⟨hk.symm, hd.symm⟩)
  have T1 : TreeAt true t1 (Around.plug c (.node A i B)) := treeAt_mapAt a1 q1 (fun _ => rfl) tree
  have hi : i ∈ (Around.plug c (.node A i B)).ids := by rw [Around.ids_plug]; simp [Shape.ids]
  have oth1 : ∀ j, j ≠ i → t1.at j = t.at j := fun j hj => by rw [a1]; simp [mapAt, hj]
  have col1 : ∀ j, j ≠ i → colOf t1.at j = colOf t.at j := fun j hj => by unfold colOf; rw [oth1 j hj]
  have flg1 : ∀ j, j ≠ i → flagOf t1.at j = flagOf t.at j := fun j hj => by unfold flagOf; rw [oth1 j hj]
  have coli : colOf t1.at i = some 1 := by unfold colOf; rw [a1, mapAt_same en]; rfl
  have flgi : flagOf t1.at i = some false := by unfold flagOf; rw [a1, mapAt_same en]; rfl
  have hfi : n.isRoot = decide (i = t.rootIdx) := by simpa [flagOf, en] using flags i hi
  by_cases hroot : i = t.rootIdx
  · obtain ⟨t2, e2, m2⟩ := setRoot_spec (t := t1) (i := i) true (T1.isSome hi)
    have T2 := m2.tree _ T1
    obtain ⟨t3, e3, m3⟩ := paint_spec (t := t2) (i := i) 0 (T2.isSome hi)
    have T3 := m3.tree _ T2
    have E3 := m2.ent.trans m3.ent
    have hq : t3.rootIdx = i := by rw [m3.root, m2.root, q1, hroot]
    refine ⟨t3, _, ⟨T3, rfl, E1.trans E3, ⟨fun j hj => ?_, fun j hj => ?_⟩, ?_, ?_⟩, ⟨fun hr hb hi0 _ => ?_, fun _ _ h => absurd hroot h⟩, fun fuel hf => ?_⟩
    · rw [m3.col]
      split
      · exact .inl rfl
      · rename_i hji; rw [m2.col, col1 j hji]; exact cols j hj hji
    · rw [m3.flg, m2.flg, hq]
      split
      · rename_i hji; simp [hji]
      · rename_i hji; rw [flg1 j hji, flags j hj, hroot]
    · rw [hq, m3.col, if_pos rfl]
    · intro h
      obtain ⟨rfl, rfl, _⟩ := hH h
      have hc : c = [] := by
        cases c with
        | nil => rfl
        | cons f c =>
          have hr := T1.root
          rw [q1, ← hroot] at hr
          exact absurd (root_above (by simp) hr) T1.fresh.2.2
      subst hc
      exact ⟨⟨fun _ => ⟨nofun, nofun⟩, trivial, trivial⟩, _, 0, rfl, rfl, rfl⟩
    · have ce : ∀ j ∈ (Around.plug c (.node A i B)).ids, colOf t3.at j = colOf t.at j := by
        intro j _
        rw [m3.col]
        split
        · rename_i hji; rw [hji, hi0 hroot]
        · rename_i hji; rw [m2.col, col1 j hji]
      obtain ⟨N, hN⟩ := hb
      exact ⟨redOk_congr ce hr, N, blackHeight_congr ce hN⟩
    · simp only [rbFinish, getNode_ok en, ok_bind, e1, hfi, decide_eq_true hroot, if_true, e2, e3]
  · have rb1 : RbOk t1 (Around.plug c (.node A i B)) := by
      refine ⟨fun j hj => ?_, fun j hj => ?_⟩
      · by_cases hji : j = i
        · subst hji; exact .inr coli
        · rw [col1 j hji]; exact cols j hj hji
      · rw [q1]
        by_cases hji : j = i
        · subst hji; rw [flgi, decide_eq_false hroot]
        · rw [flg1 j hji]; exact flags j hj
    have black1 : colOf t1.at t1.rootIdx = some 0 := by rw [q1, col1 _ (fun e => hroot e.symm)]; exact black (fun e => hroot e.symm)
    cases c with
    | nil =>
      have hr := tree.root
      simp only [Around.plug, root_node, Option.some.injEq] at hr
      exact absurd hr hroot
    | cons f c =>
      have near : H → Nearly t1.at (f :: c) (.node A i B) := by
        intro h
        obtain ⟨rfl, rfl, h1, h2⟩ := hH h
        have ce : ∀ j ∈ Around.before (f :: c) ++ Around.after (f :: c), colOf t1.at j = colOf t.at j := fun j hj => col1 j (by
          rintro rfl; exact T1.fresh.2.2 hj)
        obtain ⟨n0, n1, n2⟩ := black_plug.mp h2
        have n1' : n0 = 0 := n1
        subst n1'
        refine ⟨⟨fun _ => ⟨nofun, nofun⟩, trivial, trivial⟩, redAround_congr ce ((redOk_plug.mp h1).1.mono (fun _ => trivial)), ?_⟩
        exact black_plug.mpr ⟨0, ⟨0, rfl, rfl, by simp [blk, coli]⟩, blackAround_congr ce n2⟩
      obtain ⟨n1, m1, en1, np1, em1, _⟩ := frame_node T1
      have hfm : f.idx ∈ (Around.plug (f :: c) (.node A i B)).ids := around_mem (frame_ids.mpr (.inl rfl))
      have hnp : n.parent = some f.idx := by
        have : t1.at i = some { key := some k, data := d, color := some 1, left := n.left, right := n.right, parent := n.parent } := by rw [a1, mapAt_same en]
        rw [en1] at this; cases this; exact np1
      have hav : ∀ j ∈ A.ids ++ f.other.ids, colOf t1.at j = colOf t.at j := by
        intro j hj
        refine col1 j ?_
        rintro rfl
        have hnd := tree.nodup
        rcases List.mem_append.mp hj with hj | hj
        · rw [Around.ids_plug] at hnd
          simp only [Shape.ids] at hnd
          rw [List.nodup_iff_count] at hnd
          have := hnd j
          have hp := List.count_pos_iff.mpr hj
          simp only [List.count_append, List.count_cons, beq_self_eq_true, if_true] at this
          omega
        · exact T1.fresh.2.2 (frame_ids.mpr (.inr (.inl hj)))
      have hne : f.idx ≠ i := fun e => T1.fresh.2.2 (by rw [← e]; exact frame_ids.mpr (.inl rfl))
      rcases rb1.cols _ hfm with hf0 | hf1
      · refine ⟨t1, _, ⟨T1, rfl, E1, rb1, black1, ?_⟩, ⟨fun hr hb _ h1 => ?_, fun _ hb _ h0 => unequal_below hav h0 coli hb⟩, fun fuel hf => ?_⟩
        · intro h
          obtain ⟨x1, x2, x3⟩ := near h
          exact ⟨redOk_plug.mpr ⟨⟨fun e => (by rw [hf0] at e; cases e), x2.2⟩, x1⟩, x3⟩
        · have ce : ∀ j ∈ (Around.plug (f :: c) (.node A i B)).ids, colOf t1.at j = colOf t.at j := by
            intro j _
            by_cases hji : j = i
            · rw [hji, coli, h1 hroot]
            · exact col1 j hji
          obtain ⟨N, hN⟩ := hb
          exact ⟨redOk_congr ce hr, N, blackHeight_congr ce hN⟩
        · simp only [rbFinish, getNode_ok en, ok_bind, e1, hfi, decide_eq_false hroot, if_neg Bool.false_ne_true, hnp, getNode?_ok em1, isCol_at em1 hf0]
          rfl
      · obtain ⟨t2, T2, w, st, D, hrun⟩ := rb_loop (f :: c).length (f :: c) t1 A B i (Nat.le_refl _) T1 rb1 coli (fun _ => black1)
        obtain ⟨t3, e3, m3⟩ := paint_spec (t := t2) (i := t2.rootIdx) 0 D.tree.root_isSome
        have T3 := m3.tree _ D.tree
        have E3 := D.ent.trans m3.ent
        refine ⟨t3, T2, ⟨T3, D.ids, E1.trans E3, ⟨fun j hj => ?_, fun j hj => ?_⟩, ?_, ?_⟩, ⟨fun hr _ _ h1 => ?_, fun hr hb _ h0 h3 => ?_⟩, fun fuel hf => ?_⟩
        · rw [m3.col]
          split
          · exact .inl rfl
          · exact D.ok.cols j hj
        · rw [m3.flg, m3.root]; exact D.ok.flags j hj
        · rw [m3.root, m3.col, if_pos rfl]
        · intro h
          obtain ⟨y1, N, y2⟩ := D.colour (near h)
          obtain ⟨b1, b2⟩ := blacken (h := t2.at) (h' := t3.at) D.tree.nodup D.tree.root (fun j _ hj => by rw [m3.col, if_neg hj]) (by rw [m3.col, if_pos rfl])
          exact ⟨b1 y1, _, b2 N y2⟩
        · have := ((redOk_plug.mp hr).1.1 (by rw [← col1 _ hne]; exact hf1)).1
          rw [blackRoot_node, h1 hroot] at this
          cases this
        · obtain ⟨N, hN⟩ := h3
          obtain ⟨m, _, hm⟩ := blacken_back (h := t2.at) (h' := t3.at) D.tree.nodup D.tree.root (fun j _ hj => by rw [m3.col, if_neg hj])
            (by rw [m3.col, if_pos rfl]) hN
          refine unequal_below hav h0 coli hb (D.back ?_ ⟨_, hm⟩)
          refine redAround_congr (fun j hj => col1 j ?_) ((redOk_plug.mp hr).1.mono (fun _ => trivial))
          rintro rfl; exact T1.fresh.2.2 hj
        · simp only [List.length_cons] at hf
          simp only [rbFinish, getNode_ok en, ok_bind, e1, hfi, decide_eq_false hroot, if_neg Bool.false_ne_true, hnp, getNode?_ok em1, isCol_at em1 hf1,
            decide_true, if_true, rbFix]
          rw [hrun fuel (by simp only [List.length_cons]; omega)]
          simp only [ok_bind, e3]

theorem rb_finish_core {t : BTree κ δ} {c : Around} {A B : Shape} {i : Nat} {k : κ}
    {d : Option δ} {n : BNode κ δ} {H : Prop} (tree : TreeAt true t (Around.plug c (.node A i B)))
    (en : t.at i = some n) (hk : n.key = some k) (hd : n.data = d)
    (flags : ∀ j ∈ (Around.plug c (.node A i B)).ids, flagOf t.at j = some (decide (j = t.rootIdx)))
    (cols : ∀ j ∈ (Around.plug c (.node A i B)).ids, j ≠ i → colOf t.at j = some 0 ∨ colOf t.at j = some 1)
    (black : t.rootIdx ≠ i → colOf t.at t.rootIdx = some 0)
    (hH : H → A = .leaf ∧ B = .leaf ∧ RedOk t.at (Around.plug c .leaf) ∧ ∃ N, BlackHeight t.at (Around.plug c .leaf) N) :
    ∃ t' T', RbMade t t' (Around.plug c (.node A i B)) T' H ∧ ∀ fuel > (Around.plug c (.node A i B)).ids.length + 1, rbFinish fuel t k d i = .ok t' := by
  obtain ⟨t', T', h1, _, h2⟩ := rb_finish_steps tree en hk hd flags cols black hH
  have hl := around_length (c := c) (S := .node A i B) rfl
  exact ⟨t', T', h1, fun fuel hf => h2 fuel (by omega)⟩

theorem rb_finish {lt : κ → κ → Bool} {t : BTree κ δ} {m : κ → Option (Option δ)} {c : Around} {A B : Shape} {i : Nat} {k : κ}
    {d : Option δ} {n : BNode κ δ} {H : Prop} {os : Bool} (ok : BstOk lt t (Around.plug c (.node A i B)))
    (car : Carries t (Around.plug c (.node A i B)) m)
    (en : t.at i = some n) (hk : n.key = some k) (hd : n.data = d)
    (flags : ∀ j ∈ (Around.plug c (.node A i B)).ids, flagOf t.at j = some (decide (j = t.rootIdx)))
    (cols : ∀ j ∈ (Around.plug c (.node A i B)).ids, j ≠ i → colOf t.at j = some 0 ∨ colOf t.at j = some 1)
    (black : t.rootIdx ≠ i → colOf t.at t.rootIdx = some 0)
    (hH : H → A = .leaf ∧ B = .leaf ∧ RedOk t.at (Around.plug c .leaf) ∧ ∃ N, BlackHeight t.at (Around.plug c .leaf) N) :
    ∃ t', RbState lt os H t' m ∧ ∀ fuel > c.length + 1, rbFinish fuel t k d i = .ok t' := by
  obtain ⟨t', T', M, _, hrun⟩ := rb_finish_steps ok.tree en hk hd flags cols black hH
  exact ⟨t', .tree T' (M.ent.bstOk ok M.tree M.ids) (M.ent.carries M.ids car) M.rb M.black M.colour, hrun⟩

theorem rbInsert_eq {lt : κ → κ → Bool} {fuel : Nat} {t t1 t2 : BTree κ δ} {k : κ} {d : Option δ} {i : Nat}
    (h1 : bstInsert lt fuel t k d = .ok t1) (h2 : bstSearch lt fuel t1 k = .ok (some i)) (h3 : rbFinish fuel t1 k d i = .ok t2) :
    rbInsert lt fuel t k d = .ok t2 := by
  unfold rbFinish at h3
  simp only [rbInsert, h1, ok_bind, h2, asIdx]
  exact h3

/-- A tree with black height `n` has at least `2 ^ n - 1` nodes. -/
theorem blackHeight_size {h : Cells κ δ} : ∀ {T : Shape} {n : Nat}, BlackHeight h T n → 2 ^ n ≤ T.ids.length + 1 := by
  intro T
  induction T with
  | leaf => rintro n rfl; simp [Shape.ids]
  | node l i r ih1 ih2 =>
    rintro n ⟨m, h1, h2, rfl⟩
    have a := ih1 h1
    have b := ih2 h2
    simp only [Shape.ids, List.length_append, List.length_cons]
    unfold blk
    split
    · rw [Nat.pow_succ]; omega
    · rw [Nat.add_zero]; omega

/-- The height is at most twice the black height, plus one when the root is red. -/
theorem redOk_depth {h : Cells κ δ} : ∀ {T : Shape} {n : Nat}, (∀ j ∈ T.ids, colOf h j = some 0 ∨ colOf h j = some 1) → RedOk h T → BlackHeight h T n →
    T.depth ≤ 2 * n + 1 ∧ (BlackRoot h T → T.depth ≤ 2 * n) := by
  intro T
  induction T with
  | leaf => rintro n _ _ rfl; simp [Shape.depth]
  | node l i r ih1 ih2 =>
    rintro n hc ⟨r1, r2, r3⟩ ⟨m, h1, h2, rfl⟩
    have a := ih1 (fun j hj => hc j (by simp [Shape.ids, hj])) r2 h1
    have b := ih2 (fun j hj => hc j (by simp [Shape.ids, hj])) r3 h2
    simp only [Shape.depth]
    rcases hc i (by simp [Shape.ids]) with h0 | h0
    · have e : blk h i = 1 := by simp [blk, h0]
      rw [e]
      exact ⟨by omega, fun _ => by omega⟩
    · have e : blk h i = 0 := by simp [blk, h0]
      rw [e]
      have a' := a.2 (r1 h0).1
      have b' := b.2 (r1 h0).2
      refine ⟨by omega, fun hb => ?_⟩
      rw [blackRoot_node, h0] at hb; cases hb

theorem search_steps {lt : κ → κ → Bool} (ht : StrictTotal (ltRel lt)) {t : BTree κ δ} {T : Shape} (ok : BstOk lt t T) {i : Nat} {k : κ} (hi : i ∈ T.ids)
    (hk : keyOf t.at i = some k) : ∀ fuel > T.depth + 1, bstSearch lt fuel t k = .ok (some i) := by
  obtain ⟨c, S, rfl, hF, hrun⟩ := search_spec ht ok.tree ok.srt k
  intro fuel hf
  rcases hF.here with rfl | ⟨l, i', r, rfl, hi'⟩
  · exact absurd hk (hF.absent ht i hi)
  · have : i' = i := ok.srt.inj ht (by rw [Around.ids_plug]; simp [Shape.ids]) hi hi' hk
    subst this
    exact hrun fuel hf

theorem plug_depth : ∀ (c : Around) (S S' : Shape), S'.depth ≤ S.depth + 1 → (Around.plug c S').depth ≤ (Around.plug c S).depth + 1 := by
  intro c
  induction c with
  | nil => intro S S' h; exact h
  | cons f c ih =>
    intro S S' h
    cases f with
    | inL i r => exact ih (.node S i r) (.node S' i r) (by simp [Shape.depth]; omega)
    | inR l i => exact ih (.node l i S) (.node l i S') (by simp [Shape.depth]; omega)

/-- `insert`, with the number of rounds its loops need. -/
theorem rbInsert_steps {lt : κ → κ → Bool} (ht : StrictTotal (ltRel lt)) {os : Bool} {H : Prop} {t : BTree κ δ} {m : κ → Option (Option δ)}
    (h : RbState lt os H t m) (k : κ) (d : Option δ) :
    ∃ t', RbState lt os (H ∧ m k = none) t' (fun k' => if k' = k then some d else m k') ∧
      ∃ n0, (H → ∀ ks : List κ, (∀ k, (m k).isSome → k ∈ ks) → 2 ^ ((n0 - 3) / 2) ≤ ks.length + 1) ∧
        ∀ fuel, n0 ≤ fuel → rbInsert lt fuel t k d = .ok t' := by
  cases h with
  | empty h hm =>
    subst h
    have ok := btFirst_ok (δ := δ) lt os k d
    have e0 : (btFirst os k d).at 0 = some { key := some k, data := d, isRoot := true } := rfl
    obtain ⟨t', h1, h2⟩ := rb_finish (os := os) (H := H ∧ m k = none) (c := []) (A := .leaf) (B := .leaf) ok (carries_first os k d hm) e0 rfl rfl
      (by intro j hj; simp [Around.plug, Shape.ids] at hj; subst hj; rfl)
      (by intro j hj hji; simp [Around.plug, Shape.ids] at hj; exact absurd hj hji) (fun h => absurd rfl h)
      (fun _ => ⟨rfl, rfl, trivial, 0, rfl⟩)
    refine ⟨t', h1, 3, fun _ ks _ => by simp, fun fuel hf => ?_⟩
    exact rbInsert_eq (bstInsert_first os k d) (search_steps ht ok (i := 0) (by simp [Shape.ids]) rfl fuel (by simp [Shape.depth]; omega))
      (h2 fuel (by simp; omega))
  | tree T ok car rb black colour =>
    have hbound : ∀ n0 ≤ T.depth + 3, H → ∀ ks : List κ, (∀ k, (m k).isSome → k ∈ ks) → 2 ^ ((n0 - 3) / 2) ≤ ks.length + 1 := by
      intro n0 hn hH ks hks
      have h1 := keys_count ht ok.srt ok.tree.nodup car hks
      obtain ⟨x1, N, x2⟩ := colour hH
      have hs := blackHeight_size x2
      have hb : BlackRoot t.at T := by intro j hj; rw [ok.tree.root] at hj; cases hj; exact black
      have hd := (redOk_depth rb.cols x1 x2).2 hb
      exact Nat.le_trans (Nat.pow_le_pow_right (by omega) (show (n0 - 3) / 2 ≤ N by omega)) (by omega)
    rcases bstInsert_steps ht ok k d with ⟨i, t1, hi, hk, hr, hrun⟩ | ⟨f, c, t1, rfl, habs, hI, hrun⟩
    · have ok1 := hr.bstOk ok
      have car1 := hr.carries ht ok hi hk car
      obtain ⟨n, en⟩ := Option.isSome_iff_exists.mp (linked_isSome ok.tree.linked i hi)
      have e1 : t1.at i = some { n with data := d } := by rw [hr.cells]; exact mapAt_same en
      have hnk : n.key = some k := by simpa [keyOf, en] using hk
      have hsome : (m k).isSome := by
        rw [Option.isSome_iff_exists]
        exact ⟨n.data, (car k _).mpr ⟨i, hi, n, en, hnk, rfl⟩⟩
      have hcol : ∀ j, colOf t1.at j = colOf t.at j := by
        intro j; unfold colOf; rw [hr.cells]; unfold mapAt; split
        · cases t.at j <;> rfl
        · rfl
      have hflg : ∀ j, flagOf t1.at j = flagOf t.at j := by
        intro j; unfold flagOf; rw [hr.cells]; unfold mapAt; split
        · cases t.at j <;> rfl
        · rfl
      obtain ⟨c, A, B, rfl⟩ := plug_of_mem T i hi
      obtain ⟨t', h1, h2⟩ := rb_finish (os := os) (H := H ∧ m k = none) ok1 car1 e1 hnk rfl
        (by intro j hj; rw [hflg, hr.rootIdx]; exact rb.flags j hj)
        (by intro j hj _; rw [hcol]; exact rb.cols j hj)
        (by intro _; rw [hcol, hr.rootIdx]; exact black)
        (by rintro ⟨_, h⟩; rw [h] at hsome; cases hsome)
      have hcl := around_depth (c := c) (S := .node A i B) rfl
      simp only [Shape.depth] at hcl
      refine ⟨t', h1, (Around.plug c (.node A i B)).depth + 2, fun h => hbound _ (by omega) h, fun fuel hf => ?_⟩
      exact rbInsert_eq (hrun fuel (by omega)) (search_steps ht ok1 hi (by rw [hr.sameKey, hk]) fuel (by omega)) (h2 fuel (by omega))
    · obtain ⟨s, hs⟩ := hI.new
      have car1 := hI.carries ok habs car
      have hmem : ∀ j ∈ (Around.plug (f :: c) (.node .leaf t.top .leaf)).ids, j ≠ t.top → j ∈ (Around.plug (f :: c) .leaf).ids := by
        intro j hj hne
        rw [Around.ids_plug] at hj ⊢
        simp only [Shape.ids, List.append_nil, List.nil_append, List.mem_append, List.mem_singleton] at hj ⊢
        rcases hj with (hj | hj) | hj
        · exact .inl hj
        · exact absurd hj hne
        · exact .inr hj
      have hold : ∀ j, j ≠ t.top → colOf t1.at j = colOf t.at j ∧ flagOf t1.at j = flagOf t.at j := by
        intro j hj
        have := hI.old j hj
        unfold colOf flagOf
        cases e' : t1.at j <;> cases ex : t.at j <;> rw [e', ex] at this <;> simp_all [BNode.core]
      have hrt : t.rootIdx ≠ t.top := Nat.ne_of_lt (ok.lt_top _ (Shape.root_mem ok.tree.root))
      obtain ⟨t', h1, h2⟩ := rb_finish (os := os) (H := H ∧ m k = none) hI.ok car1 hs rfl rfl
        (by
          intro j hj
          rw [hI.rootIdx]
          by_cases hji : j = t.top
          · subst hji; rw [decide_eq_false hrt.symm]; unfold flagOf; rw [hs]; rfl
          · rw [(hold j hji).2]; exact rb.flags j (hmem j hj hji))
        (by intro j hj hji; rw [(hold j hji).1]; exact rb.cols j (hmem j hj hji))
        (by intro _; rw [hI.rootIdx, (hold _ hrt).1]; exact black)
        (by
          rintro ⟨hH, _⟩
          have ce : ∀ j ∈ (Around.plug (f :: c) .leaf).ids, colOf t1.at j = colOf t.at j := fun j hj => (hold j (Nat.ne_of_lt (ok.lt_top j hj))).1
          obtain ⟨x1, N, x2⟩ := colour hH
          exact ⟨rfl, rfl, redOk_congr ce x1, N, blackHeight_congr ce x2⟩)
      have hlen := plug_depth (f :: c) .leaf (.node .leaf t.top .leaf) (by simp [Shape.depth])
      have hcl := around_depth (c := f :: c) (S := .leaf) rfl
      refine ⟨t', h1, (Around.plug (f :: c) .leaf).depth + 3, fun h => hbound _ (by omega) h, fun fuel hf => ?_⟩
      exact rbInsert_eq (hrun fuel (by omega)) (search_steps ht hI.ok (i := t.top) (by rw [Around.ids_plug]; simp [Shape.ids]) (by simp [keyOf, hs]) fuel (by omega))
        (h2 fuel (by omega))

theorem rbState_insert {lt : κ → κ → Bool} (ht : StrictTotal (ltRel lt)) {os : Bool} {H : Prop} {t : BTree κ δ} {m : κ → Option (Option δ)}
    (h : RbState lt os H t m) (k : κ) (d : Option δ) :
    ∃ t', RbState lt os (H ∧ m k = none) t' (fun k' => if k' = k then some d else m k') ∧
      ∃ n0, ∀ fuel, n0 ≤ fuel → rbInsert lt fuel t k d = .ok t' := by
  obtain ⟨t', h1, n0, _, h2⟩ := rbInsert_steps ht h k d
  exact ⟨t', h1, n0, h2⟩

/-- A history of `RedBlackTree.insert(key, data)` calls. -/
def rbInserts (lt : κ → κ → Bool) (fuel : Nat) (t : BTree κ δ) (ops : List (κ × Option δ)) : PyM (BTree κ δ) :=
  ops.foldlM (fun t op => rbInsert lt fuel t op.1 op.2) t

theorem rbState_history {lt : κ → κ → Bool} (ht : StrictTotal (ltRel lt)) {os : Bool} : ∀ (ops : List (κ × Option δ)) (H : Prop) (t : BTree κ δ)
    (m : κ → Option (Option δ)), RbState lt os H t m →
    ∃ t', RbState lt os (H ∧ (ops.map (·.1)).Nodup ∧ ∀ k ∈ ops.map (·.1), m k = none) t' (fun k => (lastData ops k).or (m k)) ∧
      ∃ n0, ∀ fuel, n0 ≤ fuel → rbInserts lt fuel t ops = .ok t' := by
  intro ops
  induction ops with
  | nil =>
    intro H t m h
    refine ⟨t, ?_, 0, fun _ _ => rfl⟩
    simpa [lastData] using h
  | cons op ops ih =>
    intro H t m h
    obtain ⟨t1, h1, n1, r1⟩ := rbState_insert ht h op.1 op.2
    obtain ⟨t2, h2, n2, r2⟩ := ih _ t1 _ h1
    refine ⟨t2, ?_, max n1 n2, ?_⟩
    · rw [lastData_cons_eq]
      have mono : ∀ {H H' : Prop} {t : BTree κ δ} {m : κ → Option (Option δ)}, (H' → H) → RbState lt os H t m → RbState lt os H' t m := by
        intro H H' t m hh hs
        cases hs with
        | empty a b => exact .empty a b
        | tree T a b c d e => exact .tree T a b c d (fun x => e (hh x))
      refine mono ?_ h2
      rintro ⟨a, b, c⟩
      simp only [List.map_cons, List.nodup_cons, List.mem_cons, forall_eq_or_imp] at b c
      refine ⟨⟨a, c.1⟩, b.2, ?_⟩
      intro k hk
      rw [if_neg (by rintro rfl; exact b.1 hk)]
      exact c.2 k hk
    · intro fuel hf
      have e1 := r1 fuel (by omega)
      have e2 := r2 fuel (by omega)
      unfold rbInserts at e2 ⊢
      rw [List.foldlM_cons, e1]
      exact e2

theorem rb_history {lt : κ → κ → Bool} (ht : StrictTotal (ltRel lt)) (os : Bool) (ops : List (κ × Option δ)) :
    ∃ t, RbState lt os (ops.map (·.1)).Nodup t (lastData ops) ∧ EndsWith (fun n => rbInserts lt n (btEmpty os) ops) (.ok t) := by
  obtain ⟨t, h, n0, hr⟩ := rbState_history ht ops True (btEmpty os) (fun _ => none) (.empty rfl (fun _ => rfl))
  exact ⟨t, by simpa using h, n0, hr⟩

/-- After any history of insertions (keys may repeat), `search` finds exactly the inserted keys, each with the data inserted last. -/
theorem C78_search {lt : κ → κ → Bool} (ht : StrictTotal (ltRel lt)) (os : Bool) (ops : List (κ × Option δ)) :
    ∃ t, EndsWith (fun n => rbInserts lt n (btEmpty os) ops) (.ok t) ∧
      ∀ k, ∃ r, EndsWith (fun n => bstSearch lt n t k) (.ok r) ∧ Answers t k (lastData ops k) r := by
  obtain ⟨t, hst, hrun⟩ := rb_history ht os ops
  refine ⟨t, hrun, fun k => ?_⟩
  cases hst with
  | empty h hm =>
    subst h
    exact ⟨none, ⟨0, fun n _ => rfl⟩, by rw [hm]; rfl⟩
  | tree T ok car _ _ _ => exact search_map ht ok.tree ok.srt car k

/-- Lower and upper bounds after any history of insertions. -/
theorem C78_bounds {lt : κ → κ → Bool} (ht : StrictTotal (ltRel lt)) (os : Bool) (ops : List (κ × Option δ)) (hne : ops ≠ []) :
    ∃ t, EndsWith (fun n => rbInserts lt n (btEmpty os) ops) (.ok t) ∧ ∀ k,
      (∃ r, EndsWith (fun n => bstLower lt n t k) (.ok r) ∧ LeastOf lt (fun a => a ∈ ops.map (·.1) ∧ lt a k = false) r) ∧
      (∃ r, EndsWith (fun n => bstUpper lt n t k) (.ok r) ∧ LeastOf lt (fun a => a ∈ ops.map (·.1) ∧ lt k a = true) r) := by
  obtain ⟨t, hst, hrun⟩ := rb_history ht os ops
  refine ⟨t, hrun, fun k => ?_⟩
  cases hst with
  | empty h hm => exact absurd (ops_none hm) hne
  | tree T ok car _ _ _ =>
    obtain ⟨r1, e1, h1⟩ := bound_map ht ok.tree ok.srt car false k
    obtain ⟨r2, e2, h2⟩ := bound_map ht ok.tree ok.srt car true k
    refine ⟨⟨r1, e1, ?_⟩, ⟨r2, e2, ?_⟩⟩
    · simpa only [lastData_isSome, Beyond, Bool.false_eq_true, if_false] using h1
    · simpa only [lastData_isSome, Beyond, if_true] using h2

/-- A red-black tree over the history `ops`: the array holds a binary tree whose in-order traversal lists the inserted keys in increasing
order and, under `H`: every node is black (0) or red (1), the root is black, no red node has a red child, all ways down from the root pass
the same number of black nodes, and the height is logarithmic. -/
def RedBlackTreeOf (lt : κ → κ → Bool) (t : BTree κ δ) (ops : List (κ × Option δ)) (H : Prop) : Prop :=
  ∃ T ns, HoldsTree t t.rootIdx T ∧ EndsWith (fun n => treeDfs n t .ino none) (.ok ns) ∧ NodesAt t T.ids ns ∧ ListsKeys lt (lastData ops) ns ∧
    (H → (∀ n ∈ ns, n.color = some 0 ∨ n.color = some 1) ∧ BlackRoot t.at T ∧ RedOk t.at T ∧ (∃ N, BlackHeight t.at T N) ∧
      2 ^ (T.depth / 2) ≤ ops.length + 1)

theorem C78_tree {lt : κ → κ → Bool} (ht : StrictTotal (ltRel lt)) (os : Bool) (ops : List (κ × Option δ)) (hne : ops ≠ []) :
    ∃ t, EndsWith (fun n => rbInserts lt n (btEmpty os) ops) (.ok t) ∧ RedBlackTreeOf lt t ops (ops.map (·.1)).Nodup := by
  obtain ⟨t, hst, hrun⟩ := rb_history ht os ops
  cases hst with
  | empty h hm => exact absurd (ops_none hm) hne
  | tree T ok car rb black colour =>
    have hH : HoldsTree t t.rootIdx T := ⟨ok.tree.root, ok.tree.linked.weaken, ok.tree.nodup⟩
    obtain ⟨ns, h1, h2⟩ := inorder_map ok.tree.root ok.tree.linked.weaken ok.tree.nodup ok.srt car
    obtain ⟨ns', h3, n0, h4⟩ := C74_in_order hH
    obtain ⟨n1, h5⟩ := h1
    have e : ns = ns' := by
      have a := h5 (max n0 n1) (by omega)
      have b := h4 (max n0 n1) (by omega)
      simp only [treeDfs, Option.getD_none, Option.getD_some] at a b
      rw [a] at b
      cases b; rfl
    subst e
    refine ⟨t, hrun, T, ns, hH, ⟨n1, h5⟩, h3, h2, fun hd => ?_⟩
    obtain ⟨x1, N, x2⟩ := colour hd
    have hb : BlackRoot t.at T := by intro j hj; rw [ok.tree.root] at hj; cases hj; exact black
    refine ⟨?_, hb, x1, ⟨N, x2⟩, ?_⟩
    · intro n hn
      have hm : some n ∈ ns.map some := List.mem_map.mpr ⟨n, hn, rfl⟩
      rw [← h3] at hm
      obtain ⟨j, hj, ej⟩ := List.mem_map.mp hm
      have := rb.cols j hj
      simpa [colOf, ej] using this
    · have hd := (redOk_depth rb.cols x1 x2).2 hb
      have hs := blackHeight_size x2
      have := carries_count ht ok.srt car
      have : 2 ^ (T.depth / 2) ≤ 2 ^ N := Nat.pow_le_pow_right (by omega) (by omega)
      omega

/-- The full statement: a red-black tree after every history of insertions. -/
def C78_full : Prop :=
  ∀ ops : List (Nat × Option Char), ops ≠ [] → ∃ t, EndsWith (fun n => rbInserts (fun a b => decide (a < b)) n (btEmpty false) ops) (.ok t) ∧
    RedBlackTreeOf (fun a b => decide (a < b)) t ops True

/-- The full statement is proved when no key is inserted twice. -/
theorem C78_colouring_partial {lt : κ → κ → Bool} (ht : StrictTotal (ltRel lt)) (os : Bool) (ops : List (κ × Option δ)) (hne : ops ≠ [])
    (hd : (ops.map (·.1)).Nodup) :
    ∃ t, EndsWith (fun n => rbInserts lt n (btEmpty os) ops) (.ok t) ∧ RedBlackTreeOf lt t ops True := by
  obtain ⟨t, h1, T, ns, a, b, c, d, e⟩ := C78_tree ht os ops hne
  exact ⟨t, h1, T, ns, a, b, c, d, fun _ => e hd⟩

/-- Inserting a present key again paints its node red: after `insert` of 1, 2, 3, 4 and again 1 the two ways down from the root pass
different numbers of black nodes. -/
theorem C78_full_false : ¬ C78_full := by
  intro h
  obtain ⟨t, ⟨n0, hrun⟩, T, ns, hH, _, _, _, hcol⟩ := h [(1, none), (2, none), (3, none), (4, none), (1, none)] (by simp)
  have e : ∀ m, rbInserts (fun a b : Nat => decide (a < b)) (m + 30) (btEmpty (δ := Char) false) [(1, none), (2, none), (3, none), (4, none), (1, none)] =
      .ok ⟨[some { key := some 1, data := none, parent := some 1, color := some 1 },
        some { key := some 2, data := none, left := some 0, right := some 2, color := some 0, isRoot := true },
        some { key := some 3, data := none, right := some 3, parent := some 1, color := some 0 },
        some { key := some 4, data := none, parent := some 2, color := some 1 }, none, none, none], 4, 4, 1, 4, false⟩ := fun m => rfl
  have := hrun (n0 + 30) (by omega)
  dsimp only at this
  rw [e n0] at this
  cases this
  obtain ⟨hr, hl, _⟩ := hH
  obtain ⟨_, _, _, ⟨N, hN⟩, _⟩ := hcol trivial
  cases T with
  | leaf => cases hr
  | node l i r =>
    rw [root_node, Option.some.injEq] at hr
    subst hr
    obtain ⟨⟨n, en, n1, n2, _⟩, hl1, hl2⟩ := hl
    have en' : n = { key := some 2, data := none, left := some 0, right := some 2, color := some 0, isRoot := true } := by
      simpa [BTree.at] using en.symm
    subst en'
    obtain ⟨m, m1, m2, _⟩ := hN
    have m0 : m = 0 := by
      cases l with
      | leaf => exact m1
      | node a j b =>
        rw [root_node, Option.some.injEq] at n1
        subst n1
        obtain ⟨⟨n, en, n1, n2, _⟩, _, _⟩ := hl1
        have en' : n = { key := some 1, data := none, parent := some 1, color := some 1 } := by simpa [BTree.at] using en.symm
        subst en'
        cases a with
        | node _ _ _ => cases n1
        | leaf => obtain ⟨x, h1, _, h3⟩ := m1; cases h1; simpa [blk, colOf, BTree.at] using h3
    cases r with
    | leaf => cases n2
    | node a j b =>
      rw [root_node, Option.some.injEq] at n2
      subst n2
      obtain ⟨x, _, _, h3⟩ := m2
      simp [blk, colOf, BTree.at] at h3
      omega

/-- A concrete history with distinct keys. -/
example : (rbInserts (fun a b : Nat => decide (a < b)) 30 (btEmpty false)
      [(1, some 'a'), (2, none), (3, none), (4, none), (5, none), (6, none), (7, some 'b')]).bind (fun t => do
        let l ← treeDfs 40 t .pre none
        .ok (t.rootIdx, l.map (fun n => (n.key, n.color)))) =
      .ok (1, [(some 2, some 0), (some 1, some 0), (some 4, some 1), (some 3, some 0), (some 6, some 0), (some 5, some 1), (some 7, some 1)]) := by decide +kernel
end Props
