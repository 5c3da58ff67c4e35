import Verif.Props.Bst

/-!
# C76: lowest common ancestors
-/
namespace Props
open Py Model Spec
set_option linter.unusedSectionVars false
variable {κ δ : Type} [DecidableEq κ]

/-- `y` is `x` or a descendant of `x`. -/
def Desc : Shape → Nat → Nat → Prop
  | .leaf, _, _ => False
  | .node l i r, x, y => (x = i ∧ y ∈ (Shape.node l i r).ids) ∨ Desc l x y ∨ Desc r x y

/-- `w` is the lowest node that has both `u` and `v` as descendants. -/
def IsLca (T : Shape) (u v w : Nat) : Prop :=
  Desc T w u ∧ Desc T w v ∧ ∀ x, Desc T x u → Desc T x v → Desc T x w

theorem Desc.mem : ∀ {T : Shape} {x y : Nat}, Desc T x y → x ∈ T.ids ∧ y ∈ T.ids := by
  intro T
  induction T with
  | leaf => intro x y h; exact h.elim
  | node l i r ih1 ih2 =>
    rintro x y (⟨rfl, h⟩ | h | h)
    · exact ⟨by simp [Shape.ids], h⟩
    · have := ih1 h; simp [Shape.ids, this.1, this.2]
    · have := ih2 h; simp [Shape.ids, this.1, this.2]

theorem nodup_node {l r : Shape} {i : Nat} (h : (Shape.node l i r).ids.Nodup) :
    l.ids.Nodup ∧ r.ids.Nodup ∧ i ∉ l.ids ∧ i ∉ r.ids ∧ ∀ x ∈ l.ids, x ∉ r.ids := by
  simp only [Shape.ids, List.nodup_append, List.nodup_cons, List.mem_cons] at h
  refine ⟨h.1, h.2.1.2, ?_, h.2.1.1, ?_⟩
  · intro hi; exact h.2.2 i hi i (.inl rfl) rfl
  · intro x hx hx'; exact h.2.2 x hx x (.inr hx') rfl

theorem isLca_left {l r : Shape} {i u v w : Nat} (hn : (Shape.node l i r).ids.Nodup) (h : IsLca l u v w) : IsLca (.node l i r) u v w := by
  obtain ⟨_, _, h1, _, h2⟩ := nodup_node hn
  refine ⟨.inr (.inl h.1), .inr (.inl h.2.1), ?_⟩
  have hu := h.1.mem.2
  have hw := h.1.mem.1
  rintro x (⟨rfl, _⟩ | hx | hx) hy
  · exact .inl ⟨rfl, by simp [Shape.ids, hw]⟩
  · rcases hy with ⟨rfl, _⟩ | hy | hy
    · exact absurd hx.mem.1 h1
    · exact .inr (.inl (h.2.2 x hx hy))
    · exact absurd hy.mem.1 (h2 _ hx.mem.1)
  · exact absurd hx.mem.2 (h2 _ hu)

theorem isLca_right {l r : Shape} {i u v w : Nat} (hn : (Shape.node l i r).ids.Nodup) (h : IsLca r u v w) : IsLca (.node l i r) u v w := by
  obtain ⟨_, _, _, h1, h2⟩ := nodup_node hn
  refine ⟨.inr (.inr h.1), .inr (.inr h.2.1), ?_⟩
  have hu := h.1.mem.2
  have hw := h.1.mem.1
  rintro x (⟨rfl, _⟩ | hx | hx) hy
  · exact .inl ⟨rfl, by simp [Shape.ids, hw]⟩
  · exact absurd hu (h2 _ hx.mem.2)
  · rcases hy with ⟨rfl, _⟩ | hy | hy
    · exact absurd hx.mem.1 h1
    · exact absurd hx.mem.1 (h2 _ hy.mem.1)
    · exact .inr (.inr (h.2.2 x hx hy))

/-- The root is the answer unless both positions are in the same subtree. -/
theorem isLca_root {l r : Shape} {i u v : Nat} (hn : (Shape.node l i r).ids.Nodup) (hu : u ∈ (Shape.node l i r).ids)
    (hv : v ∈ (Shape.node l i r).ids) (h1 : ¬ (u ∈ l.ids ∧ v ∈ l.ids)) (h2 : ¬ (u ∈ r.ids ∧ v ∈ r.ids)) : IsLca (.node l i r) u v i := by
  obtain ⟨_, _, _, _, h3⟩ := nodup_node hn
  refine ⟨.inl ⟨rfl, hu⟩, .inl ⟨rfl, hv⟩, ?_⟩
  rintro x (⟨rfl, _⟩ | hx | hx) hy
  · exact .inl ⟨rfl, by simp [Shape.ids]⟩
  · rcases hy with ⟨rfl, _⟩ | hy | hy
    · exact .inl ⟨rfl, by simp [Shape.ids]⟩
    · exact absurd ⟨hx.mem.2, hy.mem.2⟩ h1
    · exact absurd hy.mem.1 (h3 _ hx.mem.1)
  · rcases hy with ⟨rfl, _⟩ | hy | hy
    · exact .inl ⟨rfl, by simp [Shape.ids]⟩
    · exact absurd hx.mem.1 (h3 _ hy.mem.1)
    · exact absurd ⟨hx.mem.2, hy.mem.2⟩ h2

/-- The lowest common ancestor is unique. -/
theorem Desc.antisymm : ∀ {T : Shape} {x y : Nat}, T.ids.Nodup → Desc T x y → Desc T y x → x = y := by
  intro T
  induction T with
  | leaf => intro x y _ h; exact h.elim
  | node l i r ih1 ih2 =>
    intro x y hn h h'
    obtain ⟨n1, n2, h1, h2, h3⟩ := nodup_node hn
    rcases h with ⟨rfl, _⟩ | h | h <;> rcases h' with ⟨rfl, _⟩ | h' | h'
    · rfl
    · exact absurd h'.mem.2 h1
    · exact absurd h'.mem.2 h2
    · exact absurd h.mem.2 h1
    · exact ih1 n1 h h'
    · exact absurd h'.mem.1 (h3 _ h.mem.2)
    · exact absurd h.mem.2 h2
    · exact absurd h.mem.1 (h3 _ h'.mem.2)
    · exact ih2 n2 h h'

theorem IsLca.unique {T : Shape} {u v w w' : Nat} (hn : T.ids.Nodup) (h : IsLca T u v w) (h' : IsLca T u v w') : w = w' :=
  Desc.antisymm hn (h'.2.2 w h.1 h.2.1) (h.2.2 w' h'.1 h'.2.1)

/-! ## Paths from the root -/

/-- The positions from the root down to `x`. -/
def pathTo : Shape → Nat → List Nat
  | .leaf, _ => []
  | .node l i r, x => if x = i then [i] else if x ∈ l.ids then i :: pathTo l x else if x ∈ r.ids then i :: pathTo r x else []

theorem pathTo_head {T : Shape} {x : Nat} (h : x ∈ T.ids) : ∃ q, pathTo T x = T.root.getD 0 :: q := by
  cases T with
  | leaf => simp [Shape.ids] at h
  | node l i r =>
    simp only [Shape.ids, List.mem_append, List.mem_cons] at h
    simp only [pathTo, Shape.root, Option.getD_some]
    split
    · exact ⟨[], rfl⟩
    · next hx =>
      split
      · exact ⟨_, rfl⟩
      · next hl =>
        rw [if_pos (by rcases h with h | h | h <;> simp_all)]
        exact ⟨_, rfl⟩

/-- The steps down to the hole. -/
def trail (c : Around) : List Nat := (c.map Frame.idx).reverse

theorem pathTo_plug : ∀ (c : Around) (S : Shape) (x : Nat), (Around.plug c S).ids.Nodup → x ∈ S.ids →
    pathTo (Around.plug c S) x = trail c ++ pathTo S x := by
  intro c
  induction c with
  | nil => intros; rfl
  | cons f c ih =>
    intro S x hn hx
    have hsub : ∀ S' : Shape, (Around.plug c S').ids.Nodup → S'.ids.Nodup := by
      intro S' h
      rw [Around.ids_plug] at h
      simp only [List.nodup_append] at h
      exact h.1.2.1
    cases f with
    | inL i r =>
      have hn' : (Around.plug c (.node S i r)).ids.Nodup := hn
      obtain ⟨_, _, h1, _, _⟩ := nodup_node (hsub _ hn')
      show pathTo (Around.plug c (.node S i r)) x = _
      rw [ih _ x hn' (by simp [Shape.ids, hx])]
      have hne : x ≠ i := by rintro rfl; exact h1 hx
      simp [pathTo, hne, hx, trail, Frame.idx]
    | inR l i =>
      have hn' : (Around.plug c (.node l i S)).ids.Nodup := hn
      obtain ⟨_, _, _, h1, h2⟩ := nodup_node (hsub _ hn')
      show pathTo (Around.plug c (.node l i S)) x = _
      rw [ih _ x hn' (by simp [Shape.ids, hx])]
      have hne : x ≠ i := by rintro rfl; exact h1 hx
      have hnl : x ∉ l.ids := fun h => h2 x h hx
      simp [pathTo, hne, hnl, hx, trail, Frame.idx]

theorem mem_rest {P Q R : Prop} (h : P ∨ Q ∨ R) (hp : ¬ P) (hq : ¬ Q) : R := by
  rcases h with h | h | h
  · exact absurd h hp
  · exact absurd h hq
  · exact h

/-- The position `_lca_1` ends at. -/
def lcaPos (last : Nat) (p1 p2 : List Nat) : Nat :=
  match lcaDiverge last p1 p2 with
  | some i => i
  | none => if listLt p1 p2 then p1.getLastD 0 else p2.getLastD 0

theorem listLt_cons (i : Nat) (a b : List Nat) : listLt (i :: a) (i :: b) = listLt a b := by simp [listLt]

theorem getLastD_cons' (i : Nat) (a : List Nat) (h : a ≠ []) : (i :: a).getLastD 0 = a.getLastD 0 := by
  cases a with
  | nil => exact absurd rfl h
  | cons x xs => simp [List.getLastD]

theorem lcaPos_cons (last i : Nat) (q1 q2 : List Nat) (h1 : q1 ≠ []) (h2 : q2 ≠ []) :
    lcaPos last (i :: q1) (i :: q2) = lcaPos i q1 q2 := by
  simp only [lcaPos, lcaDiverge, ne_eq, not_true, if_false, listLt_cons, getLastD_cons' i q1 h1, getLastD_cons' i q2 h2]

theorem lcaPos_spec : ∀ (T : Shape) (last u v : Nat), T.ids.Nodup → u ∈ T.ids → v ∈ T.ids → IsLca T u v (lcaPos last (pathTo T u) (pathTo T v)) := by
  intro T
  induction T with
  | leaf => intro _ u v _ h; simp [Shape.ids] at h
  | node l i r ih1 ih2 =>
    intro last u v hn hu hv
    obtain ⟨n1, n2, h1, h2, h3⟩ := nodup_node hn
    have hu' := hu; have hv' := hv
    simp only [Shape.ids, List.mem_append, List.mem_cons] at hu' hv'
    by_cases hui : u = i
    · subst hui
      have : lcaPos last (pathTo (.node l u r) u) (pathTo (.node l u r) v) = u := by
        obtain ⟨q, hq⟩ := pathTo_head hv
        rw [hq]
        simp only [pathTo, if_true, Shape.root, Option.getD_some, lcaPos, lcaDiverge, ne_eq, not_true, if_false, listLt_cons]
        cases q with
        | nil => simp [listLt]
        | cons a q => simp [listLt]
      rw [this]
      exact isLca_root hn hu hv (fun h => h1 h.1) (fun h => h2 h.1)
    · by_cases hvi : v = i
      · subst hvi
        have : lcaPos last (pathTo (.node l v r) u) (pathTo (.node l v r) v) = v := by
          obtain ⟨q, hq⟩ := pathTo_head hu
          rw [hq]
          simp only [pathTo, if_true, Shape.root, Option.getD_some, lcaPos, lcaDiverge, ne_eq, not_true, if_false, listLt_cons]
          cases q with
          | nil => simp [listLt]
          | cons a q => simp [listLt]
        rw [this]
        exact isLca_root hn hu hv (fun h => h1 h.2) (fun h => h2 h.2)
      · have pu : pathTo (.node l i r) u = i :: (if u ∈ l.ids then pathTo l u else pathTo r u) := by
          simp only [pathTo, if_neg hui]
          split
          · rfl
          · next hl => rw [if_pos (mem_rest hu' hl hui)]
        have pv : pathTo (.node l i r) v = i :: (if v ∈ l.ids then pathTo l v else pathTo r v) := by
          simp only [pathTo, if_neg hvi]
          split
          · rfl
          · next hl => rw [if_pos (mem_rest hv' hl hvi)]
        rw [pu, pv]
        have nel : ∀ x ∈ l.ids, pathTo l x ≠ [] := fun x hx => by obtain ⟨q, e⟩ := pathTo_head hx; rw [e]; simp
        have ner : ∀ x ∈ r.ids, pathTo r x ≠ [] := fun x hx => by obtain ⟨q, e⟩ := pathTo_head hx; rw [e]; simp
        have hdiff : ∀ x ∈ l.ids, ∀ y ∈ r.ids, l.root.getD 0 ≠ r.root.getD 0 := by
          intro x hx y hy
          cases l with
          | leaf => simp [Shape.ids] at hx
          | node l1 a l2 =>
            cases r with
            | leaf => simp [Shape.ids] at hy
            | node r1 b r2 =>
              simp only [Shape.root, Option.getD_some]
              rintro rfl
              exact h3 a (by simp [Shape.ids]) (by simp [Shape.ids])
        by_cases hul : u ∈ l.ids
        · by_cases hvl : v ∈ l.ids
          · rw [if_pos hul, if_pos hvl, lcaPos_cons _ _ _ _ (nel u hul) (nel v hvl)]
            exact isLca_left hn (ih1 i u v n1 hul hvl)
          · have hvr : v ∈ r.ids := mem_rest hv' hvl hvi
            rw [if_pos hul, if_neg hvl, lcaPos_cons _ _ _ _ (nel u hul) (ner v hvr)]
            obtain ⟨q1, e1⟩ := pathTo_head hul
            obtain ⟨q2, e2⟩ := pathTo_head hvr
            rw [e1, e2]
            simp only [lcaPos, lcaDiverge, ne_eq, hdiff u hul v hvr, not_false_eq_true, if_true]
            exact isLca_root hn hu hv (fun h => hvl h.2) (fun h => h3 u hul h.1)
        · have hur : u ∈ r.ids := mem_rest hu' hul hui
          by_cases hvl : v ∈ l.ids
          · rw [if_neg hul, if_pos hvl, lcaPos_cons _ _ _ _ (ner u hur) (nel v hvl)]
            obtain ⟨q1, e1⟩ := pathTo_head hur
            obtain ⟨q2, e2⟩ := pathTo_head hvl
            rw [e1, e2]
            simp only [lcaPos, lcaDiverge, ne_eq, Ne.symm (hdiff v hvl u hur), not_false_eq_true, if_true]
            exact isLca_root hn hu hv (fun h => hul h.1) (fun h => h3 v hvl h.2)
          · have hvr : v ∈ r.ids := mem_rest hv' hvl hvi
            rw [if_neg hul, if_neg hvl, lcaPos_cons _ _ _ _ (ner u hur) (ner v hvr)]
            exact isLca_right hn (ih2 i u v n2 hur hvr)

/-! ## `_simple_path` -/

theorem pushTruthy_pos {rest : List Nat} {i : Nat} (h : i ≠ 0) : pushTruthy rest (some i) = i :: rest := by
  cases i with
  | zero => exact absurd rfl h
  | succ i => rfl

theorem path_absent {t : BTree κ δ} {up : Bool} {k : κ} : ∀ (S : Shape) (p : Option Nat), Linked up t.at p S →
    (∀ i ∈ S.ids, keyOf t.at i ≠ some k) → (∀ i ∈ S.ids, i ≠ 0) → ∀ fuel rest,
    whileLoop (fuel + S.ids.length) pathCond (pathBody t k) ⟨pushTruthy rest S.root, none⟩ = whileLoop fuel pathCond (pathBody t k) ⟨rest, none⟩ := by
  intro S
  induction S with
  | leaf => intro p _ _ _ fuel rest; rfl
  | node l i r ih1 ih2 =>
    intro p hl hk h0 fuel rest
    obtain ⟨⟨n, en, n1, n2, _⟩, hl1, hl2⟩ := hl
    have hi := h0 i (by simp [Shape.ids])
    have hki : n.key ≠ some k := by have := hk i (by simp [Shape.ids]); simpa [keyOf, en] using this
    have hlen : fuel + (Shape.node l i r).ids.length = (fuel + l.ids.length + r.ids.length) + 1 := by
      simp [Shape.ids]; omega
    rw [Shape.root, pushTruthy_pos hi, hlen, while_step _ (by rfl) (s' := ⟨pushTruthy (pushTruthy rest l.root) r.root, none⟩)
      (by simp [pathBody, getNode_ok en, hki, n1, n2])]
    rw [ih2 _ hl2 (fun j hj => hk j (by simp [Shape.ids, hj])) (fun j hj => h0 j (by simp [Shape.ids, hj])),
      ih1 _ hl1 (fun j hj => hk j (by simp [Shape.ids, hj])) (fun j hj => h0 j (by simp [Shape.ids, hj]))]

theorem path_found {t : BTree κ δ} {up : Bool} {k : κ} {x : Nat} : ∀ (S : Shape) (p : Option Nat), Linked up t.at p S →
    (∀ i ∈ S.ids, keyOf t.at i = some k → i = x) → x ∈ S.ids → keyOf t.at x = some k → (∀ i ∈ S.ids, i ≠ 0) → ∀ rest, ∃ st, ∀ fuel,
    whileLoop (fuel + 1 + S.ids.length) pathCond (pathBody t k) ⟨pushTruthy rest S.root, none⟩ = .ok ⟨st, some x⟩ := by
  intro S
  induction S with
  | leaf => intro p _ _ h; simp [Shape.ids] at h
  | node l i r ih1 ih2 =>
    intro p hl hu hx hxk h0 rest
    obtain ⟨⟨n, en, n1, n2, _⟩, hl1, hl2⟩ := hl
    have hi := h0 i (by simp [Shape.ids])
    have hlen : ∀ fuel, fuel + 1 + (Shape.node l i r).ids.length = (fuel + 1 + l.ids.length + r.ids.length) + 1 := by
      intro fuel; simp [Shape.ids]; omega
    rw [Shape.root, pushTruthy_pos hi]
    by_cases hki : n.key = some k
    · have : i = x := hu i (by simp [Shape.ids]) (by simp [keyOf, en, hki])
      subst this
      refine ⟨rest, fun fuel => ?_⟩
      rw [hlen, while_step _ (by rfl) (s' := ⟨rest, some i⟩) (by simp [pathBody, getNode_ok en, hki])]
      have : fuel + 1 + l.ids.length + r.ids.length = (fuel + l.ids.length + r.ids.length) + 1 := by omega
      rw [this, while_stop _ (by simp [pathCond])]
    · have hstep : ∀ f, whileLoop (f + 1) pathCond (pathBody t k) ⟨i :: rest, none⟩ =
          whileLoop f pathCond (pathBody t k) ⟨pushTruthy (pushTruthy rest l.root) r.root, none⟩ := fun f =>
        while_step _ (by rfl) (by simp [pathBody, getNode_ok en, hki, n1, n2])
      have hxi : x ≠ i := by rintro rfl; exact hki (by simpa [keyOf, en] using hxk)
      by_cases hr : x ∈ r.ids
      · obtain ⟨st, hst⟩ := ih2 _ hl2 (fun j hj => hu j (by simp [Shape.ids, hj])) hr hxk (fun j hj => h0 j (by simp [Shape.ids, hj]))
          (pushTruthy rest l.root)
        refine ⟨st, fun fuel => ?_⟩
        rw [hlen, hstep]
        have := hst (fuel + l.ids.length)
        rw [show fuel + l.ids.length + 1 = fuel + 1 + l.ids.length by omega] at this
        exact this
      · have hxl : x ∈ l.ids := by
          simp only [Shape.ids, List.mem_append, List.mem_cons] at hx
          rcases hx with h | h | h
          · exact h
          · exact absurd h hxi
          · exact absurd h hr
        obtain ⟨st, hst⟩ := ih1 _ hl1 (fun j hj => hu j (by simp [Shape.ids, hj])) hxl hxk (fun j hj => h0 j (by simp [Shape.ids, hj])) rest
        refine ⟨st, fun fuel => ?_⟩
        rw [hlen, hstep, path_absent r _ hl2 ?_ (fun j hj => h0 j (by simp [Shape.ids, hj])), hst]
        intro j hj e
        have := hu j (by simp [Shape.ids, hj]) e
        subst this
        exact hr hj

theorem climb_loop {t : BTree κ δ} : ∀ (c : Around) (S : Shape) (x : Nat) (acc : List Nat),
    TreeAt true t (Around.plug c S) → S.root = some x → t.rootIdx = 0 →
    ∃ q, 0 :: q = trail c ++ x :: acc ∧ ∀ fuel > c.length, whileLoop fuel climbCond (climbBody t) (acc, some x) = .ok (q, some 0) := by
  intro c
  induction c with
  | nil =>
    intro S x acc h hx h0
    have : x = 0 := by have := h.root; simp only [Around.plug] at this; rw [hx, h0] at this; exact Option.some.inj this
    subst this
    refine ⟨acc, rfl, fun fuel hf => ?_⟩
    obtain ⟨f, rfl⟩ : ∃ f, fuel = f + 1 := ⟨fuel - 1, by omega⟩
    exact while_stop _ (by simp [climbCond])
  | cons fr c ih =>
    intro S x acc h hx h0
    have hl := (linked_plug true t.at (fr :: c) S).mp h.linked
    obtain ⟨nx, ex, px⟩ : ∃ nx, t.at x = some nx ∧ nx.parent = some fr.idx := by
      cases S with
      | leaf => cases hx
      | node l y r =>
        simp only [Shape.root, Option.some.injEq] at hx; subst hx
        obtain ⟨⟨n, e, _, _, hpar⟩, _⟩ := hl.2
        exact ⟨n, e, hpar rfl⟩
    have hxr : x ≠ 0 := by
      intro e
      have h1 : (Around.plug (fr :: c) S).root = (Around.plug (fr :: c) Shape.leaf).root := Around.root_plug_cons fr c _ _
      have h2 := h.root
      rw [h1] at h2
      have h3 := Shape.root_mem h2
      rw [Around.ids_plug, h0] at h3
      simp only [Shape.ids, List.append_nil, List.mem_append] at h3
      rw [← e] at h3
      have hxS := Shape.root_mem hx
      have hnd := h.nodup
      rw [Around.ids_plug] at hnd
      simp only [List.nodup_append, List.mem_append] at hnd
      rcases h3 with h3 | h3
      · exact hnd.1.2.2 x h3 x hxS rfl
      · exact hnd.2.2 x (.inr hxS) x h3 rfl
    have hgo : ∀ f, whileLoop (f + 1) climbCond (climbBody t) (acc, some x) = whileLoop f climbCond (climbBody t) (x :: acc, some fr.idx) := fun f =>
      while_step _ (by simp [climbCond, hxr]) (by simp [climbBody, asIdx, getNode_ok ex, px])
    have key : ∃ q, 0 :: q = trail c ++ fr.idx :: x :: acc ∧
        ∀ fuel > c.length, whileLoop fuel climbCond (climbBody t) (x :: acc, some fr.idx) = .ok (q, some 0) := by
      cases fr with
      | inL i r => exact ih (.node S i r) i (x :: acc) h rfl h0
      | inR l i => exact ih (.node l i S) i (x :: acc) h rfl h0
    obtain ⟨q, e, hrun⟩ := key
    refine ⟨q, by simpa [trail] using e, fun fuel hf => ?_⟩
    obtain ⟨f, rfl⟩ : ∃ f, fuel = f + 1 := ⟨fuel - 1, by omega⟩
    rw [hgo, hrun f (by simp at hf; omega)]

theorem plug_of_mem : ∀ (T : Shape) (x : Nat), x ∈ T.ids → ∃ c l r, T = Around.plug c (.node l x r) := by
  intro T
  induction T with
  | leaf => intro x h; simp [Shape.ids] at h
  | node l i r ih1 ih2 =>
    intro x h
    simp only [Shape.ids, List.mem_append, List.mem_cons] at h
    rcases h with h | rfl | h
    · obtain ⟨c, a, b, e⟩ := ih1 x h
      exact ⟨c ++ [.inL i r], a, b, by rw [Around.plug_append, ← e]; rfl⟩
    · exact ⟨[], l, r, rfl⟩
    · obtain ⟨c, a, b, e⟩ := ih2 x h
      exact ⟨c ++ [.inR l i], a, b, by rw [Around.plug_append, ← e]; rfl⟩

/-- `_simple_path` from the root: the path if the key is there, the empty list otherwise. -/
theorem simplePath_spec {lt : κ → κ → Bool} (ht : StrictTotal (ltRel lt)) {t : BTree κ δ} {T : Shape} (h : TreeAt true t T) (hs : Srt lt t.at T)
    (h0 : t.rootIdx = 0) (k : κ) :
    (∀ x ∈ T.ids, keyOf t.at x = some k → ∀ fuel > T.ids.length + 1, simplePath fuel t k t.rootIdx = .ok (pathTo T x)) ∧
    ((∀ x ∈ T.ids, keyOf t.at x ≠ some k) → ∀ fuel > T.ids.length + 1, simplePath fuel t k t.rootIdx = .ok []) := by
  cases T with
  | leaf => have := h.root; cases this
  | node l i r =>
    have hi : i = 0 := by have := h.root; rw [h0] at this; exact Option.some.inj this
    have hi' : i = t.rootIdx := by rw [hi, h0]
    obtain ⟨n1', n2', hnl, hnr, _⟩ := nodup_node h.nodup
    have hzl : ∀ j ∈ l.ids, j ≠ 0 := fun j hj e => hnl (by rw [hi, ← e]; exact hj)
    have hzr : ∀ j ∈ r.ids, j ≠ 0 := fun j hj e => hnr (by rw [hi, ← e]; exact hj)
    obtain ⟨⟨n, en, n1, n2, _⟩, hl1, hl2⟩ := h.linked
    rw [← hi']
    have hlen : (Shape.node l i r).ids.length = l.ids.length + r.ids.length + 1 := by simp [Shape.ids]; omega
    have hstep : n.key ≠ some k → ∀ f, whileLoop (f + 1) pathCond (pathBody t k) ⟨[i], none⟩ =
          whileLoop f pathCond (pathBody t k) ⟨pushTruthy (pushTruthy [] l.root) r.root, none⟩ := fun hki f =>
        while_step _ (by rfl) (by simp [pathBody, getNode_ok en, hki, n1, n2])
    constructor
    · intro x hx hxk fuel hf
      have huniq : ∀ j ∈ (Shape.node l i r).ids, keyOf t.at j = some k → j = x := fun j hj e => hs.inj ht hj hx e hxk
      have hfind : ∃ st, whileLoop fuel pathCond (pathBody t k) ⟨[i], none⟩ = .ok ⟨st, some x⟩ := by
        by_cases hki : n.key = some k
        · have : i = x := huniq i (by simp [Shape.ids]) (by simp [keyOf, en, hki])
          subst this
          obtain ⟨f, rfl⟩ : ∃ f, fuel = f + 2 := ⟨fuel - 2, by omega⟩
          refine ⟨[], ?_⟩
          rw [while_step _ (by rfl) (s' := ⟨[], some i⟩) (by simp [pathBody, getNode_ok en, hki]), while_stop _ (by rfl)]
        · have hxi : x ≠ i := by rintro rfl; exact hki (by simpa [keyOf, en] using hxk)
          obtain ⟨f, rfl⟩ : ∃ f, fuel = (f + 1 + l.ids.length + r.ids.length) + 1 := ⟨fuel - 2 - l.ids.length - r.ids.length, by omega⟩
          rw [hstep hki]
          by_cases hr : x ∈ r.ids
          · obtain ⟨st, hst⟩ := path_found r _ hl2 (fun j hj => huniq j (by simp [Shape.ids, hj])) hr hxk hzr (pushTruthy [] l.root)
            have := hst (f + l.ids.length)
            rw [show f + l.ids.length + 1 = f + 1 + l.ids.length by omega] at this
            exact ⟨st, this⟩
          · have hxl : x ∈ l.ids := by
              simp only [Shape.ids, List.mem_append, List.mem_cons] at hx
              rcases hx with h | h | h
              · exact h
              · exact absurd h hxi
              · exact absurd h hr
            obtain ⟨st, hst⟩ := path_found l _ hl1 (fun j hj => huniq j (by simp [Shape.ids, hj])) hxl hxk hzl []
            refine ⟨st, ?_⟩
            rw [path_absent r _ hl2 ?_ hzr, hst]
            intro j hj e
            have := huniq j (by simp [Shape.ids, hj]) e
            subst this
            exact hr hj
      obtain ⟨st, hst⟩ := hfind
      obtain ⟨c, a, b, hc⟩ := plug_of_mem _ x hx
      have hT : TreeAt true t (Around.plug c (.node a x b)) := hc ▸ h
      obtain ⟨q, hq, hrun⟩ := climb_loop c (.node a x b) x [] hT rfl h0
      have hcl := around_length hc.symm
      have e2 := hrun fuel (by omega)
      simp only [simplePath, hst, ok_bind, e2, hq]
      rw [hc, pathTo_plug c _ x hT.nodup (by simp [Shape.ids])]
      simp [pathTo]
    · intro hk fuel hf
      have hki : n.key ≠ some k := by have := hk i (by simp [Shape.ids]); simpa [keyOf, en] using this
      obtain ⟨f, rfl⟩ : ∃ f, fuel = (f + 1 + l.ids.length + r.ids.length) + 1 := ⟨fuel - 2 - l.ids.length - r.ids.length, by omega⟩
      have e : whileLoop ((f + 1 + l.ids.length + r.ids.length) + 1) pathCond (pathBody t k) ⟨[i], none⟩ = .ok ⟨[], none⟩ := by
        rw [hstep hki, path_absent r _ hl2 (fun j hj => hk j (by simp [Shape.ids, hj])) hzr,
          path_absent l _ hl1 (fun j hj => hk j (by simp [Shape.ids, hj])) hzl, while_stop _ (by rfl)]
      simp only [simplePath, e, ok_bind]

/-- The position `w` holds a node with key `k`. -/
def KeyAt (t : BTree κ δ) (w : Nat) (k : κ) : Prop := ∃ n, t.arr[w]? = some (some n) ∧ n.key = some k

theorem keyAt_iff {t : BTree κ δ} {w : Nat} {k : κ} : KeyAt t w k ↔ keyOf t.at w = some k := by
  unfold KeyAt keyOf
  constructor
  · rintro ⟨n, h, hk⟩; rw [at_some.mpr h]; exact hk
  · intro h
    cases e : t.at w with
    | none => simp [e] at h
    | some n => exact ⟨n, at_some.mp e, by simpa [e] using h⟩

theorem lca1_spec {lt : κ → κ → Bool} (ht : StrictTotal (ltRel lt)) {t : BTree κ δ} {T : Shape} (h : TreeAt true t T) (hs : Srt lt t.at T)
    (h0 : t.rootIdx = 0) (j k : κ) :
    (∀ u ∈ T.ids, ∀ v ∈ T.ids, keyOf t.at u = some j → keyOf t.at v = some k →
      ∃ w a, IsLca T u v w ∧ keyOf t.at w = some a ∧ EndsWith (fun n => lca1 n t j k) (.ok (some a))) ∧
    ((∀ x ∈ T.ids, keyOf t.at x ≠ some j) ∨ (∀ x ∈ T.ids, keyOf t.at x ≠ some k) → EndsWith (fun n => lca1 n t j k) (.error .valueError)) := by
  obtain ⟨hj1, hj2⟩ := simplePath_spec ht h hs h0 j
  obtain ⟨hk1, hk2⟩ := simplePath_spec ht h hs h0 k
  constructor
  · intro u hu v hv huk hvk
    have hL := lcaPos_spec T ((pathTo T u).getLastD 0) u v h.nodup hu hv
    generalize hw : lcaPos ((pathTo T u).getLastD 0) (pathTo T u) (pathTo T v) = w at hL
    have hwm := hL.1.mem.1
    obtain ⟨a, ha⟩ := Option.isSome_iff_exists.mp (hs.2 w hwm)
    refine ⟨w, a, hL, ha, T.ids.length + 2, ?_⟩
    intro f hf
    obtain ⟨n, en, hna⟩ := keyAt_iff.mpr ha
    obtain ⟨q1, e1⟩ := pathTo_head hu
    obtain ⟨q2, e2⟩ := pathTo_head hv
    have ne : ¬ (pathTo T u = [] ∨ pathTo T v = []) := by rw [e1, e2]; simp
    simp only [lca1, hj1 u hu huk f (by omega), hk1 v hv hvk f (by omega), ok_bind, if_neg ne]
    unfold lcaPos at hw
    cases hd : lcaDiverge ((pathTo T u).getLastD 0) (pathTo T u) (pathTo T v) with
    | some i =>
      rw [hd] at hw
      dsimp only at hw ⊢
      subst hw
      simp [getNode_ok (at_some.mpr en), hna]
    | none =>
      rw [hd] at hw
      dsimp only at hw ⊢
      rw [hw]
      simp [getNode_ok (at_some.mpr en), hna]
  · intro hno
    refine ⟨T.ids.length + 2, ?_⟩
    intro f hf
    obtain ⟨p1, e1⟩ : ∃ p, simplePath f t j t.rootIdx = .ok p := by
      by_cases hx : ∃ x ∈ T.ids, keyOf t.at x = some j
      · obtain ⟨x, hx, e⟩ := hx; exact ⟨_, hj1 x hx e f (by omega)⟩
      · exact ⟨_, hj2 (fun x hx' e => hx ⟨x, hx', e⟩) f (by omega)⟩
    obtain ⟨p2, e2⟩ : ∃ p, simplePath f t k t.rootIdx = .ok p := by
      by_cases hx : ∃ x ∈ T.ids, keyOf t.at x = some k
      · obtain ⟨x, hx, e⟩ := hx; exact ⟨_, hk1 x hx e f (by omega)⟩
      · exact ⟨_, hk2 (fun x hx' e => hx ⟨x, hx', e⟩) f (by omega)⟩
    have : p1 = [] ∨ p2 = [] := by
      rcases hno with hno | hno
      · rw [hj2 hno f (by omega)] at e1; cases e1; exact .inl rfl
      · rw [hk2 hno f (by omega)] at e2; cases e2; exact .inr rfl
    simp only [lca1, e1, e2, ok_bind, if_pos this]

/-- The state after a non-empty history of insertions. -/
theorem bst_tree {lt : κ → κ → Bool} (ht : StrictTotal (ltRel lt)) (os : Bool) (ops : List (κ × Option δ)) (hne : ops ≠ []) :
    ∃ t T, EndsWith (fun n => bstInserts lt n (btEmpty os) ops) (.ok t) ∧ BstOk lt t T ∧ Carries t T (lastData ops) ∧ t.rootIdx = 0 := by
  obtain ⟨t, hst, hrun⟩ := bst_history ht os ops
  cases hst with
  | empty h hm =>
    cases ops with
    | nil => exact absurd rfl hne
    | cons op ops =>
      have := (lastData_isSome (op :: ops) op.1).mpr (by simp)
      rw [hm] at this; simp at this
  | tree T ok car _ _ r0 => exact ⟨t, T, hrun, ok, car, r0⟩

theorem Carries.pos {t : BTree κ δ} {T : Shape} {m : κ → Option (Option δ)} (hc : Carries t T m) {k : κ} (h : (m k).isSome) :
    ∃ u ∈ T.ids, keyOf t.at u = some k := by
  obtain ⟨d, hd⟩ := Option.isSome_iff_exists.mp h
  obtain ⟨i, hi, n, en, hk, _⟩ := (hc k d).mp hd
  exact ⟨i, hi, by simp [keyOf, en, hk]⟩

theorem Carries.absent {t : BTree κ δ} {T : Shape} {m : κ → Option (Option δ)} (hc : Carries t T m) {k : κ} (h : ¬ (m k).isSome) :
    ∀ x ∈ T.ids, keyOf t.at x ≠ some k := by
  intro x hx e
  cases en : t.at x with
  | none => simp [keyOf, en] at e
  | some n =>
    have := (hc k n.data).mpr ⟨x, hx, n, en, by simpa [keyOf, en] using e, rfl⟩
    rw [this] at h; exact h rfl

/-- After any history of insertions, `lowest_common_ancestor(j, k)` (algorithm 1) answers the key of the deepest node with both as
descendants when both keys have been inserted, and raises `ValueError` otherwise. -/
theorem C76_lca1 {lt : κ → κ → Bool} (ht : StrictTotal (ltRel lt)) (os : Bool) (ops : List (κ × Option δ)) (hne : ops ≠ []) :
    ∃ t T, EndsWith (fun n => bstInserts lt n (btEmpty os) ops) (.ok t) ∧ HoldsTree t t.rootIdx T ∧ ∀ j k,
      (j ∈ ops.map (·.1) → k ∈ ops.map (·.1) → ∃ u v w a, KeyAt t u j ∧ KeyAt t v k ∧ IsLca T u v w ∧ KeyAt t w a ∧
        EndsWith (fun n => lca1 n t j k) (.ok (some a))) ∧
      (j ∉ ops.map (·.1) ∨ k ∉ ops.map (·.1) → EndsWith (fun n => lca1 n t j k) (.error .valueError)) := by
  obtain ⟨t, T, hrun, ok, car, r0⟩ := bst_tree ht os ops hne
  refine ⟨t, T, hrun, ⟨ok.tree.root, ok.tree.linked.weaken, ok.tree.nodup⟩, fun j k => ?_⟩
  obtain ⟨h1, h2⟩ := lca1_spec ht ok.tree ok.srt r0 j k
  simp only [← lastData_isSome]
  constructor
  · intro hj hk
    obtain ⟨u, hu, eu⟩ := car.pos hj
    obtain ⟨v, hv, ev⟩ := car.pos hk
    obtain ⟨w, a, hL, ha, hr⟩ := h1 u hu v hv eu ev
    exact ⟨u, v, w, a, keyAt_iff.mpr eu, keyAt_iff.mpr ev, hL, keyAt_iff.mpr ha, hr⟩
  · rintro (h | h)
    · exact h2 (.inl (car.absent h))
    · exact h2 (.inr (car.absent h))

/-! ## Algorithm 2 -/

theorem lca2_loop {lt : κ → κ → Bool} (ht : StrictTotal (ltRel lt)) {up : Bool} {t : BTree κ δ} {u v : Nat} {ku kv : κ} (hu : keyOf t.at u = some ku)
    (hv : keyOf t.at v = some kv) : ∀ (S : Shape) (p : Option Nat), Linked up t.at p S → Srt lt t.at S → S.ids.Nodup → u ∈ S.ids → v ∈ S.ids →
    ∀ i a, S.root = some i → keyOf t.at i = some a → (u = i → lt kv a = true) → (v = i → lt ku a = true) →
    ∃ w b, IsLca S u v w ∧ keyOf t.at w = some b ∧ ∃ s : Lca2St κ, (s.out = some (some b) ∨ s.out = none ∧ s.curr = some w) ∧
      ∀ fuel > S.depth, whileLoop fuel lca2Cond (lca2Body lt t u v) ⟨some i, lt ku a, lt kv a, none⟩ = .ok s := by
  have hasym : ∀ a b, lt a b = true → lt b a = false := by
    intro a b h
    cases h' : lt b a with
    | false => rfl
    | true => exact absurd (ht.trans _ _ _ h h') (ht.irrefl _)
  have hirr : ∀ a, lt a a = false := fun a => by simpa using ht.irrefl a
  obtain ⟨nu, enu, hnu⟩ := keyAt_iff.mpr hu
  obtain ⟨nv, env, hnv⟩ := keyAt_iff.mpr hv
  replace enu := at_some.mpr enu
  replace env := at_some.mpr env
  intro S
  induction S with
  | leaf => intro p _ _ _ h; simp [Shape.ids] at h
  | node l y r ih1 ih2 =>
    intro p hl hs hn hum hvm i a hi ha hui hvi
    simp only [Shape.root, Option.some.injEq] at hi; subst hi
    obtain ⟨⟨n, en, n1, n2, _⟩, hl1, hl2⟩ := hl
    obtain ⟨nd1, nd2, h1, h2, h3⟩ := nodup_node hn
    have hna : n.key = some a := by simpa [keyOf, en] using ha
    have hp := hs.1
    simp only [Shape.ids, List.pairwise_append, List.pairwise_cons] at hp
    have hlow : ∀ j ∈ l.ids, ∀ b, keyOf t.at j = some b → lt b a = true := by
      intro j hj b hb
      obtain ⟨x, z, hx, hz, hxz⟩ := hp.2.2 j hj y (by simp)
      rw [hb] at hx; rw [ha] at hz; cases hx; cases hz; exact hxz
    have hhigh : ∀ j ∈ r.ids, ∀ b, keyOf t.at j = some b → lt a b = true := by
      intro j hj b hb
      obtain ⟨x, z, hx, hz, hxz⟩ := hp.2.1.1 j hj
      rw [ha] at hx; rw [hb] at hz; cases hx; cases hz; exact hxz
    have hmem : ∀ x ∈ (Shape.node l y r).ids, x ∈ l.ids ∨ x = y ∨ x ∈ r.ids := by
      intro x hx; simpa [Shape.ids] using hx
    have side : ∀ x ∈ (Shape.node l y r).ids, ∀ b, keyOf t.at x = some b → (lt b a = true ↔ x ∈ l.ids) := by
      intro x hx b hb
      refine ⟨fun hlt => ?_, fun h => hlow x h b hb⟩
      rcases hmem x hx with h | rfl | h
      · exact h
      · rw [ha] at hb; cases hb; rw [hirr] at hlt; cases hlt
      · have := hhigh x h b hb; rw [hasym _ _ this] at hlt; cases hlt
    have su := side u hum ku hu
    have sv := side v hvm kv hv
    by_cases hsame : lt ku a = lt kv a
    · -- both go the same way
      have huy : u ≠ y := by
        intro e
        have h := hui e
        rw [e, ha] at hu; cases hu
        rw [hirr, h] at hsame; cases hsame
      have hvy : v ≠ y := by
        intro e
        have h := hvi e
        rw [e, ha] at hv; cases hv
        rw [hirr, h] at hsame; cases hsame
      -- a step into the subtree `c` that contains both
      have go : ∀ c : Shape, (if lt ku a && lt kv a then n.left else n.right) = c.root → u ∈ c.ids → v ∈ c.ids → Linked up t.at (some y) c →
          Srt lt t.at c → c.ids.Nodup → c.depth ≤ max l.depth r.depth →
          (∀ w, IsLca c u v w → IsLca (.node l y r) u v w) →
          (∀ i a, c.root = some i → keyOf t.at i = some a → (u = i → lt kv a = true) → (v = i → lt ku a = true) →
            ∃ w b, IsLca c u v w ∧ keyOf t.at w = some b ∧ ∃ s : Lca2St κ, (s.out = some (some b) ∨ s.out = none ∧ s.curr = some w) ∧
            ∀ fuel > c.depth, whileLoop fuel lca2Cond (lca2Body lt t u v) ⟨some i, lt ku a, lt kv a, none⟩ = .ok s) →
          ∃ w b, IsLca (.node l y r) u v w ∧ keyOf t.at w = some b ∧ ∃ s : Lca2St κ, (s.out = some (some b) ∨ s.out = none ∧ s.curr = some w) ∧
            ∀ fuel > (Shape.node l y r).depth, whileLoop fuel lca2Cond (lca2Body lt t u v) ⟨some y, lt ku a, lt kv a, none⟩ = .ok s := by
        intro c hnext huc hvc hlc hsc hnc hdep hL ih
        obtain ⟨x, hx⟩ : ∃ x, c.root = some x := by
          cases c with
          | leaf => simp [Shape.ids] at huc
          | node c1 x c2 => exact ⟨x, rfl⟩
        obtain ⟨b, hb⟩ := Option.isSome_iff_exists.mp (hsc.2 x (Shape.root_mem hx))
        obtain ⟨nx, enx, hnx⟩ := keyAt_iff.mpr hb
        replace enx := at_some.mpr enx
        have hcond : lca2Cond (⟨some y, lt ku a, lt kv a, none⟩ : Lca2St κ) = .ok true := by simp [lca2Cond, hsame]
        by_cases hit : x = u ∨ x = v
        · refine ⟨x, b, hL x ?_, hb, ⟨some x, lt ku a, lt kv a, some (some b)⟩, .inl rfl, ?_⟩
          · cases c with
            | leaf => cases hx
            | node c1 x' c2 =>
              simp only [Shape.root, Option.some.injEq] at hx; subst hx
              obtain ⟨_, _, q1, q2, _⟩ := nodup_node hnc
              refine isLca_root hnc huc hvc ?_ ?_
              · rintro ⟨hh1, hh2⟩; rcases hit with rfl | rfl
                · exact q1 hh1
                · exact q1 hh2
              · rintro ⟨hh1, hh2⟩; rcases hit with rfl | rfl
                · exact q2 hh1
                · exact q2 hh2
          · intro fuel hf
            obtain ⟨f, rfl⟩ : ∃ f, fuel = f + 2 := ⟨fuel - 2, by
              have : 0 < c.depth := by cases c with
                | leaf => cases hx
                | node _ _ _ => simp [Shape.depth]
              simp only [Shape.depth] at hf; omega⟩
            rw [while_step (f + 1) hcond (s' := ⟨some x, lt ku a, lt kv a, some (some b)⟩), while_stop _ (by simp [lca2Cond])]
            simp only [lca2Body, getNode?_ok en, ok_bind, hnext, hx]
            rw [if_pos (by rcases hit with h | h <;> simp [h])]
            simp only [getNode?_ok enx, ok_bind, hnx]
        · have hxu : x ≠ u := fun e => hit (.inl e)
          have hxv : x ≠ v := fun e => hit (.inr e)
          obtain ⟨w, b', hL', hb', s, hs', hrun⟩ := ih x b hx hb (fun e => absurd e.symm hxu) (fun e => absurd e.symm hxv)
          refine ⟨w, b', hL w hL', hb', s, hs', ?_⟩
          intro fuel hf
          obtain ⟨f, rfl⟩ : ∃ f, fuel = f + 1 := ⟨fuel - 1, by omega⟩
          rw [while_step f hcond (s' := ⟨some x, lt ku b, lt kv b, none⟩)]
          · exact hrun f (by simp only [Shape.depth] at hf; omega)
          · simp only [lca2Body, getNode?_ok en, ok_bind, hnext, hx]
            rw [if_neg (by simp [hxu, hxv])]
            simp only [getNode_ok enu, getNode_ok env, getNode?_ok enx, ok_bind, hnu, hnv, hnx, cmpKey]
      cases hlu : lt ku a with
      | true =>
        have hul := su.mp hlu
        have hvl := sv.mp (hsame ▸ hlu)
        rw [← hlu]
        refine go l ?_ hul hvl hl1 hs.left nd1 (by omega) (fun w h => isLca_left hn h)
          (fun i a => ih1 _ hl1 hs.left nd1 hul hvl i a)
        rw [← hsame, hlu]; simpa using n1
      | false =>
        have hur : u ∈ r.ids := by
          refine mem_rest (hmem u hum) (fun h => ?_) huy
          rw [su.mpr h] at hlu; cases hlu
        have hvr : v ∈ r.ids := by
          refine mem_rest (hmem v hvm) (fun h => ?_) hvy
          rw [hsame, sv.mpr h] at hlu; cases hlu
        rw [← hlu]
        refine go r ?_ hur hvr hl2 hs.right nd2 (by omega) (fun w h => isLca_right hn h)
          (fun i a => ih2 _ hl2 hs.right nd2 hur hvr i a)
        rw [← hsame, hlu]; simpa using n2
    · refine ⟨y, a, isLca_root hn hum hvm ?_ ?_, ha, ⟨some y, lt ku a, lt kv a, none⟩, .inr ⟨rfl, rfl⟩, ?_⟩
      · rintro ⟨hh1, hh2⟩
        exact hsame ((su.mpr hh1).trans (sv.mpr hh2).symm)
      · rintro ⟨hh1, hh2⟩
        have e1 : lt ku a = false := by
          cases h : lt ku a with
          | false => rfl
          | true => exact absurd hh1 (h3 u (su.mp h))
        have e2 : lt kv a = false := by
          cases h : lt kv a with
          | false => rfl
          | true => exact absurd hh2 (h3 v (sv.mp h))
        exact hsame (e1.trans e2.symm)
      · intro fuel hf
        obtain ⟨f, rfl⟩ : ∃ f, fuel = f + 1 := ⟨fuel - 1, by omega⟩
        exact while_stop _ (by simp [lca2Cond, hsame])

theorem lca2_spec {lt : κ → κ → Bool} (ht : StrictTotal (ltRel lt)) {up : Bool} {t : BTree κ δ} {T : Shape} (h : TreeAt up t T)
    (hs : Srt lt t.at T) {u v : Nat} {j k a0 : κ} (hu : u ∈ T.ids) (hv : v ∈ T.ids) (hj : keyOf t.at u = some j) (hk : keyOf t.at v = some k)
    (ha0 : keyOf t.at t.rootIdx = some a0) (hc : (j ≠ a0 ∧ k ≠ a0) ∨ lt j a0 = true ∨ lt k a0 = true) :
    ∃ w a, IsLca T u v w ∧ keyOf t.at w = some a ∧ EndsWith (fun n => lca2 lt n t j k) (.ok (some a)) := by
  have find : ∀ x ∈ T.ids, ∀ k, keyOf t.at x = some k → ∀ fuel > T.depth + 1, bstSearch lt fuel t k = .ok (some x) := by
    intro x hx k hxk fuel hf
    obtain ⟨c, S, rfl, hF, hrun⟩ := search_spec ht h hs k
    rcases hF.here with rfl | ⟨l, y, r, rfl, hy⟩
    · exact absurd hxk (hF.absent ht x hx)
    · have hym : y ∈ (Around.plug c (.node l y r)).ids := by rw [Around.ids_plug]; simp [Shape.ids]
      have := hs.inj ht hx hym hxk hy
      subst this
      exact hrun fuel hf
  have hirr : ∀ a, lt a a = false := fun a => by simpa using ht.irrefl a
  obtain ⟨w, a, hL, ha, s, hs', hrun⟩ := lca2_loop ht hj hk T none h.linked hs h.nodup hu hv t.rootIdx a0 h.root ha0
    (by
      rintro rfl
      rw [ha0] at hj; cases hj
      rcases hc with h | h | h
      · exact absurd rfl h.1
      · rw [hirr] at h; cases h
      · exact h)
    (by
      rintro rfl
      rw [ha0] at hk; cases hk
      rcases hc with h | h | h
      · exact absurd rfl h.2
      · exact h
      · rw [hirr] at h; cases h)
  refine ⟨w, a, hL, ha, T.depth + 2, ?_⟩
  intro f hf
  obtain ⟨nu, enu, hnu⟩ := keyAt_iff.mpr hj
  obtain ⟨nv, env, hnv⟩ := keyAt_iff.mpr hk
  obtain ⟨nr, enr, hnr⟩ := keyAt_iff.mpr ha0
  obtain ⟨nw, enw, hnw⟩ := keyAt_iff.mpr ha
  simp only [lca2, find u hu j hj f hf, find v hv k hk f hf, ok_bind, getNode_ok (at_some.mpr enu), getNode_ok (at_some.mpr env),
    getNode_ok (at_some.mpr enr), hnu, hnv, hnr, cmpKey, hrun f (by omega)]
  rcases hs' with e | ⟨e1, e2⟩
  · rw [e]
  · rw [e1, e2]
    simp only [getNode?_ok (at_some.mpr enw), ok_bind, hnw]

/-- What was claimed of algorithm 2 (for integer keys): it answers the deepest common ancestor of any two inserted keys. -/
def C76_lca2_full : Prop :=
  ∀ ops : List (Nat × Option Nat), ops ≠ [] → ∃ t T, EndsWith (fun n => bstInserts (fun a b => decide (a < b)) n (btEmpty false) ops) (.ok t) ∧
    HoldsTree t t.rootIdx T ∧ ∀ j k, j ∈ ops.map (·.1) → k ∈ ops.map (·.1) → ∃ u v w a, KeyAt t u j ∧ KeyAt t v k ∧ IsLca T u v w ∧
      KeyAt t w a ∧ EndsWith (fun n => lca2 (fun a b => decide (a < b)) n t j k) (.ok (some a))

/-- The tree after inserting 1 and 2. -/
def lcaTree : BTree Nat Nat :=
  ⟨[some { key := some 1, data := none, right := some 1, isRoot := true }, some { key := some 2, data := none, parent := some 0 }, none],
    2, 2, 0, 2, false⟩

/-- Algorithm 2 is wrong when one of the keys is the root's: after inserting 1 and 2 it answers 2 as the ancestor of 1 and 2. -/
theorem C76_lca2_full_false : ¬ C76_lca2_full := by
  intro h
  obtain ⟨t, T, ⟨n0, h1⟩, hT, h2⟩ := h [(1, none), (2, none)] (by simp)
  have e : ∀ m, bstInserts (fun a b : Nat => decide (a < b)) (m + 20) (btEmpty false) [(1, none), (2, none)] = .ok lcaTree := fun m => rfl
  have : t = lcaTree := by
    have a := h1 (n0 + 20) (by omega)
    have b := e n0
    simp only at a
    rw [a] at b
    exact Except.ok.inj b
  subst this
  obtain ⟨u, v, w, a, hu, hv, hL, ha, ⟨n1, h3⟩⟩ := h2 1 2 (by simp) (by simp)
  have ea : ∀ m, lca2 (fun a b : Nat => decide (a < b)) (m + 20) lcaTree 1 2 = .ok (some 2) := fun m => rfl
  have ha2 : a = 2 := by
    have x := h3 (n1 + 20) (by omega)
    simp only [ea n1] at x
    cases x; rfl
  subst ha2
  have pos : ∀ x k, KeyAt lcaTree x k → (x = 0 ∧ k = 1) ∨ (x = 1 ∧ k = 2) := by
    rintro x k ⟨n, hn, hk⟩
    match x, hn with
    | 0, hn => simp [lcaTree] at hn; subst hn; cases hk; exact .inl ⟨rfl, rfl⟩
    | 1, hn => simp [lcaTree] at hn; subst hn; cases hk; exact .inr ⟨rfl, rfl⟩
    | 2, hn => simp [lcaTree] at hn
    | x + 3, hn => simp [lcaTree] at hn
  have hu0 : u = 0 := by rcases pos _ _ hu with h | h; exact h.1; exact absurd h.2 (by decide)
  have hv1 : v = 1 := by rcases pos _ _ hv with h | h; exact absurd h.2 (by decide); exact h.1
  have hw1 : w = 1 := by rcases pos _ _ ha with h | h; exact absurd h.2 (by decide); exact h.1
  subst hu0; subst hv1; subst hw1
  have hr : ∀ x ∈ T.ids, Desc T 0 x := by
    intro x hx
    cases T with
    | leaf => simp [Shape.ids] at hx
    | node l i r =>
      have : i = 0 := by have := hT.root; exact Option.some.inj this
      subst this
      exact .inl ⟨rfl, hx⟩
  have := Desc.antisymm hT.nodup hL.1 (hr 1 hL.1.mem.1)
  cases this

/-- After any history of insertions, algorithm 2 of `lowest_common_ancestor(j, k)` answers the key of the deepest node with both as
descendants, provided that neither key is the key `a0` of the root or that one of them is below it. -/
theorem C76_lca2_partial {lt : κ → κ → Bool} (ht : StrictTotal (ltRel lt)) (os : Bool) (ops : List (κ × Option δ)) (hne : ops ≠ []) :
    ∃ t T a0, EndsWith (fun n => bstInserts lt n (btEmpty os) ops) (.ok t) ∧ HoldsTree t t.rootIdx T ∧ KeyAt t t.rootIdx a0 ∧ ∀ j k,
      j ∈ ops.map (·.1) → k ∈ ops.map (·.1) → (j ≠ a0 ∧ k ≠ a0) ∨ lt j a0 = true ∨ lt k a0 = true →
      ∃ u v w a, KeyAt t u j ∧ KeyAt t v k ∧ IsLca T u v w ∧ KeyAt t w a ∧ EndsWith (fun n => lca2 lt n t j k) (.ok (some a)) := by
  obtain ⟨t, T, hrun, ok, car, r0⟩ := bst_tree ht os ops hne
  obtain ⟨n, a0, en, hn⟩ := root_key ok.tree ok.srt
  refine ⟨t, T, a0, hrun, ⟨ok.tree.root, ok.tree.linked.weaken, ok.tree.nodup⟩, ⟨n, at_some.mp en, hn⟩, fun j k => ?_⟩
  simp only [← lastData_isSome]
  intro hj hk hc
  obtain ⟨u, hu, eu⟩ := car.pos hj
  obtain ⟨v, hv, ev⟩ := car.pos hk
  obtain ⟨w, a, hL, ha, hr⟩ := lca2_spec ht ok.tree ok.srt hu hv eu ev (by simp [keyOf, en, hn]) hc
  exact ⟨u, v, w, a, keyAt_iff.mpr eu, keyAt_iff.mpr ev, hL, keyAt_iff.mpr ha, hr⟩

/-- A concrete tree: 5, 2, 8, 1, 3; both algorithms on 1 and 3, and algorithm 1 on the root and 8. -/
example : (bstInserts (fun a b : Nat => decide (a < b)) 20 (btEmpty false)
      [(5, some 'a'), (2, some 'b'), (8, none), (1, none), (3, some 'c')]).bind (fun t => do
        let a ← lca1 20 t 1 3
        let b ← lca2 (fun a b : Nat => decide (a < b)) 20 t 1 3
        let c ← lca1 20 t 5 8
        let d ← lca2 (fun a b : Nat => decide (a < b)) 20 t 5 8
        .ok (a, b, c, d)) = .ok (some 2, some 2, some 5, some 8) := by decide +kernel

end Props
