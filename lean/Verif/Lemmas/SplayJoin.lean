import Verif.Props.SplaySplit

/-!
# Joining splay trees
-/
namespace Props
open Py Model Spec
set_option linter.unusedSectionVars false
variable {κ δ : Type} [DecidableEq κ]

theorem Linked.forget {up : Bool} {h : Cells κ δ} : ∀ {S : Shape} {p q : Option Nat}, Linked up h p S → Linked false h q S := by
  intro S
  induction S with
  | leaf => intros; trivial
  | node l i r ih1 ih2 =>
    rintro p q ⟨⟨n, en, n1, n2, _⟩, h1, h2⟩
    exact ⟨⟨n, en, n1, n2, nofun⟩, ih1 h1, ih2 h2⟩

/-! ## The two walks -/

/-- The walk to the right ends at the rightmost node. -/
theorem max_loop {up : Bool} {t : BTree κ δ} : ∀ (S : Shape) (p : Option Nat) (i : Nat), S.root = some i → Linked up t.at p S →
    ∃ c l j, S = Around.plug c (.node l j .leaf) ∧ Around.after c = [] ∧
      ∀ fuel > S.depth, whileLoop fuel (joinMaxCond t) (joinMaxBody t) i = .ok j := by
  intro S
  induction S with
  | leaf => intro p i h; cases h
  | node l j r _ ih =>
    intro p i hi hl
    rw [root_node, Option.some.injEq] at hi
    subst hi
    obtain ⟨⟨n, en, n1, n2, _⟩, hl1, hl2⟩ := hl
    cases r with
    | leaf =>
      refine ⟨[], l, j, rfl, rfl, fun fuel hf => ?_⟩
      obtain ⟨f, rfl⟩ : ∃ f, fuel = f + 1 := ⟨fuel - 1, by omega⟩
      have q : n.right = none := n2
      exact while_stop _ (by simp only [joinMaxCond, getNode_ok en, ok_bind, q]; rfl)
    | node r1 j1 r2 =>
      obtain ⟨c, l', x, e1, e2, hrun⟩ := ih (some j) j1 rfl hl2
      refine ⟨c ++ [.inR l j], l', x, by rw [Around.plug_append, ← e1]; rfl, ?_, fun fuel hf => ?_⟩
      · have : ∀ (c : Around), Around.after c = [] → Around.after (c ++ [Frame.inR l j]) = [] := by
          intro c
          induction c with
          | nil => intro _; rfl
          | cons f c ih =>
            intro h
            cases f with
            | inR a b => exact ih h
            | inL a b => simp [Around.after] at h
        exact this c e2
      · obtain ⟨f, rfl⟩ : ∃ f, fuel = f + 1 := ⟨fuel - 1, by omega⟩
        have q : n.right = some j1 := n2
        refine (while_step f (by simp only [joinMaxCond, getNode_ok en, ok_bind, q]; rfl) (s' := j1) (by simp only [joinMaxBody, getNode_ok en, ok_bind, q, asIdx])).trans ?_
        exact hrun f (by simp only [Shape.depth] at hf ⊢; omega)

/-- The walk to the left ends at the leftmost node. -/
theorem min_loop {up : Bool} {t : BTree κ δ} : ∀ (S : Shape) (p : Option Nat) (i : Nat), S.root = some i → Linked up t.at p S →
    ∃ c j r, S = Around.plug c (.node .leaf j r) ∧ Around.before c = [] ∧
      ∀ fuel > S.depth, whileLoop fuel (joinMinCond t) (joinMinBody t) i = .ok j := by
  intro S
  induction S with
  | leaf => intro p i h; cases h
  | node l j r ih _ =>
    intro p i hi hl
    rw [root_node, Option.some.injEq] at hi
    subst hi
    obtain ⟨⟨n, en, n1, n2, _⟩, hl1, hl2⟩ := hl
    cases l with
    | leaf =>
      refine ⟨[], j, r, rfl, rfl, fun fuel hf => ?_⟩
      obtain ⟨f, rfl⟩ : ∃ f, fuel = f + 1 := ⟨fuel - 1, by omega⟩
      have q : n.left = none := n1
      exact while_stop _ (by simp only [joinMinCond, getNode_ok en, ok_bind, q]; rfl)
    | node r1 j1 r2 =>
      obtain ⟨c, x, r', e1, e2, hrun⟩ := ih (some j) j1 rfl hl1
      refine ⟨c ++ [.inL j r], x, r', by rw [Around.plug_append, ← e1]; rfl, ?_, fun fuel hf => ?_⟩
      · have : ∀ (c : Around), Around.before c = [] → Around.before (c ++ [Frame.inL j r]) = [] := by
          intro c
          induction c with
          | nil => intro _; rfl
          | cons f c ih =>
            intro h
            cases f with
            | inL a b => exact ih h
            | inR a b => simp [Around.before] at h
        exact this c e2
      · obtain ⟨f, rfl⟩ : ∃ f, fuel = f + 1 := ⟨fuel - 1, by omega⟩
        have q : n.left = some j1 := n1
        refine (while_step f (by simp only [joinMinCond, getNode_ok en, ok_bind, q]; rfl) (s' := j1) (by simp only [joinMinBody, getNode_ok en, ok_bind, q, asIdx])).trans ?_
        exact hrun f (by simp only [Shape.depth] at hf ⊢; omega)

/-! ## Shifting a tree to other positions -/

/-- The tree with all positions increased by `u`. -/
def Shape.shift (u : Nat) : Shape → Shape
  | .leaf => .leaf
  | .node l i r => .node (l.shift u) (i + u) (r.shift u)

theorem Shape.shift_root (u : Nat) (S : Shape) : (S.shift u).root = S.root.map (· + u) := by cases S <;> rfl

theorem Shape.shift_ids (u : Nat) (S : Shape) : (S.shift u).ids = S.ids.map (· + u) := by
  induction S with
  | leaf => rfl
  | node l i r ih1 ih2 => simp [Shape.shift, Shape.ids, ih1, ih2]

theorem linked_shift {up : Bool} {h h' : Cells κ δ} {u : Nat} : ∀ (S : Shape) (p p' : Option Nat), Linked up h p S → (∀ i ∈ S.ids, h' (i + u) = (h i).map (joinCopy u)) →
    Linked false h' p' (S.shift u) := by
  intro S
  induction S with
  | leaf => intros; trivial
  | node l i r ih1 ih2 =>
    intro p p' hl hc
    obtain ⟨⟨n, en, n1, n2, _⟩, hl1, hl2⟩ := hl
    refine ⟨⟨joinCopy u n, by rw [hc i (by simp [Shape.ids]), en]; rfl, ?_, ?_, nofun⟩, ih1 _ _ hl1 fun j hj => hc j (by simp [Shape.ids, hj]), ih2 _ _ hl2 fun j hj => hc j (by simp [Shape.ids, hj])⟩
    · rw [Shape.shift_root, ← n1]; rfl
    · rw [Shape.shift_root, ← n2]; rfl

theorem ent_shift {h h' : Cells κ δ} {u : Nat} : ∀ (L : List Nat) (E : List (κ × Option δ)), Ent h L E → (∀ i ∈ L, h' (i + u) = (h i).map (joinCopy u)) → Ent h' (L.map (· + u)) E := by
  intro L E hE hc
  unfold Ent at *
  rw [← hE, List.map_map]
  refine List.map_congr_left fun i hi => ?_
  unfold entryAt
  simp only [Function.comp_apply, hc i hi]
  cases h i with
  | none => rfl
  | some n => rfl

/-! ## Appending the copies -/

theorem joinAppend_spec {t : BTree κ δ} (u : Nat) (c : Option (BNode κ δ)) (h1 : t.top ≤ t.arr.length) (h2 : grown t ≤ 4 * (t.num + 1)) :
    ∃ t', joinAppend u c t = .ok t' ∧ t'.at = (fun j => if j = t.top then c.map (joinCopy u) else t.at j) ∧ t'.top = t.top + 1 ∧
      t'.num = t.num + 1 ∧ t'.size = t.size ∧ t'.rootIdx = t.rootIdx ∧ t'.arr.length = grown t := by
  unfold grown at h2 ⊢
  by_cases hg : t.top = t.arr.length
  · rw [if_pos hg] at h2 ⊢
    refine ⟨{ t with arr := t.arr ++ c.map (joinCopy u) :: (List.replicate (2 * t.arr.length + 1 - (t.arr.length + 1)) none),
                        top := t.top + 1, num := t.num + 1 }, ?_, ?_, rfl, rfl, rfl, rfl, ?_⟩
    · simp only [joinAppend, if_pos hg, atModify]
      rw [if_neg]
      · rfl
      · simp only [List.length_append, List.length_cons, List.length_replicate]; omega
    · funext j
      simp only [BTree.at]
      by_cases hj : j = t.top
      · subst hj
        rw [hg, List.getElem?_append_right (Nat.le_refl _)]; simp
      · rw [if_neg hj]
        by_cases hl : j < t.arr.length
        · rw [List.getElem?_append_left hl]
        · rw [List.getElem?_append_right (by omega), List.getElem?_eq_none (l := t.arr) (by omega)]
          obtain ⟨m, hm⟩ : ∃ m, j - t.arr.length = m + 1 := ⟨j - t.arr.length - 1, by omega⟩
          rw [hm, List.getElem?_cons_succ, List.getElem?_replicate]
          split <;> rfl
    · simp only [List.length_append, List.length_cons, List.length_replicate]; omega
  · rw [if_neg hg] at h2 ⊢
    refine ⟨{ t with arr := t.arr.set t.top (c.map (joinCopy u)), top := t.top + 1, num := t.num + 1 }, ?_, ?_, rfl, rfl, rfl, rfl, ?_⟩
    · simp only [joinAppend, if_neg hg, atModify]
      rw [if_neg]
      · rfl
      · simp only [List.length_set]; omega
    · funext j
      simp only [BTree.at, List.getElem?_set]
      by_cases hj : t.top = j
      · subst hj
        have : t.top < t.arr.length := by omega
        simp [this]
      · rw [if_neg hj, if_neg (fun e => hj e.symm)]
    · simp

theorem joinAppend_all (u : Nat) : ∀ (L : List (Option (BNode κ δ))) (t : BTree κ δ), t.top ≤ t.arr.length → t.num = t.top → t.arr.length + 1 ≤ 2 * t.top →
    ∃ t', forList L t (joinAppend u) = .ok t' ∧ (∀ j < t.top, t'.at j = t.at j) ∧ (∀ j < L.length, t'.at (t.top + j) = (L[j]?.join).map (joinCopy u)) ∧
      t'.size = t.size ∧ t'.rootIdx = t.rootIdx := by
  intro L
  induction L with
  | nil => intro t _ _ _; exact ⟨t, rfl, fun _ _ => rfl, fun j hj => by simp at hj, rfl, rfl⟩
  | cons c L ih =>
    intro t h1 h2 h3
    obtain ⟨t1, e1, a1, b1, b2, b3, b4, b5⟩ := joinAppend_spec u c h1 (by unfold grown; split <;> omega)
    obtain ⟨t2, e2, a2, a3, b6, b7⟩ := ih t1 (by rw [b1, b5]; unfold grown; split <;> omega) (by omega) (by rw [b1, b5]; unfold grown; split <;> omega)
    refine ⟨t2, by simp only [forList, e1, ok_bind, e2], fun j hj => ?_, fun j hj => ?_, by rw [b6, b3], by rw [b7, b4]⟩
    · rw [a2 j (by omega), a1]; simp only; rw [if_neg (by omega)]
    · cases j with
      | zero => rw [a2 _ (by omega), a1]; simp
      | succ j =>
        have := a3 j (by simp at hj; omega)
        rw [b1] at this
        rw [show t.top + (j + 1) = t.top + 1 + j by omega, this]
        simp

/-! ## The call -/

/-- A tree that is not empty: its greatest key. -/
theorem stored_max {t : BTree κ δ} {T : Shape} {E : List (κ × Option δ)} (st : Stored t T E) :
    ∃ c l j e E', T = Around.plug c (.node l j .leaf) ∧ E = E' ++ [e] ∧ entryAt t.at j = some e ∧
      ∀ fuel > T.depth, whileLoop fuel (joinMaxCond t) (joinMaxBody t) t.rootIdx = .ok j := by
  obtain ⟨c, l, j, rfl, hc, hrun⟩ := max_loop T none t.rootIdx st.tree.root st.tree.linked
  obtain ⟨E1, E2, e, rfl, he, _, h2⟩ := rb_entries st.ent
  simp only [Shape.ids, hc, List.append_nil] at h2
  have : E2 = [] := List.length_eq_zero_iff.mp h2.length
  subst this
  exact ⟨c, l, j, e, E1, rfl, rfl, he, hrun⟩

/-- A tree that is not empty: its least key. -/
theorem stored_min {t : BTree κ δ} {T : Shape} {E : List (κ × Option δ)} (st : Stored t T E) :
    ∃ j e E', E = e :: E' ∧ entryAt t.at j = some e ∧ ∀ fuel > T.depth, whileLoop fuel (joinMinCond t) (joinMinBody t) t.rootIdx = .ok j := by
  obtain ⟨c, j, r, rfl, hc, hrun⟩ := min_loop T none t.rootIdx st.tree.root st.tree.linked
  obtain ⟨E1, E2, e, rfl, he, h1, _⟩ := rb_entries st.ent
  simp only [Shape.ids, hc, List.append_nil] at h1
  have : E1 = [] := List.length_eq_zero_iff.mp h1.length
  subst this
  exact ⟨j, e, E2, rfl, he, hrun⟩

/-- `join` of two trees that are not empty, when the keys are not in order. -/
theorem splayJoin_refuses {lt : κ → κ → Bool} (ht : StrictTotal (ltRel lt)) {t o : BTree κ δ} {T S : Shape} {E F : List (κ × Option δ)} (st : Stored t T E) (so : Stored o S F)
    (hs : E.Pairwise fun a b => lt a.1 b.1 = true) (hS : F.Pairwise fun a b => lt a.1 b.1 = true) (hno : ∃ a ∈ E, ∃ b ∈ F, lt a.1 b.1 = false) :
    EndsWith (fun n => splayJoin lt n t o) (.error .valueError) := by
  obtain ⟨c, l, j, e, E', rfl, rfl, he, hrun⟩ := stored_max st
  obtain ⟨i, f, F', rfl, hf, hrun'⟩ := stored_min so
  obtain ⟨n, en, nk, _⟩ := entryAt_some.mp he
  obtain ⟨m, em, mk, _⟩ := entryAt_some.mp hf
  have hlt : lt e.1 f.1 = false := by
    cases hb : lt e.1 f.1 with
    | false => rfl
    | true =>
      obtain ⟨a, ha, b, hb', hab⟩ := hno
      have h1 : a = e ∨ lt a.1 e.1 = true := by
        rcases List.mem_append.mp ha with h | h
        · exact .inr ((List.pairwise_append.mp hs).2.2 a h e (by simp))
        · exact .inl (List.mem_singleton.mp h)
      have h2 : b = f ∨ lt f.1 b.1 = true := by
        rcases List.mem_cons.mp hb' with h | h
        · exact .inl h
        · exact .inr ((List.pairwise_cons.mp hS).1 b h)
      have h3 : lt e.1 b.1 = true := by
        rcases h2 with rfl | h2
        · exact hb
        · exact ht.trans _ _ _ hb h2
      have h4 : lt a.1 b.1 = true := by
        rcases h1 with rfl | h1
        · exact h3
        · exact ht.trans _ _ _ h1 h3
      rw [h4] at hab; cases hab
  refine ⟨(Around.plug c (.node l j .leaf)).depth + S.depth + 1, fun fuel hfu => ?_⟩
  simp only [splayJoin, hrun fuel (by omega), hrun' fuel (by omega), ok_bind, getNode_ok en, getNode_ok em, nk, mk, cmpKey, hlt, Bool.false_eq_true, if_false]

/-- `join` of two trees that are not empty, whose keys are in order, when the array of the first is full. -/
theorem splayJoin_full {lt : κ → κ → Bool} (ht : StrictTotal (ltRel lt)) {t o : BTree κ δ} {T S : Shape} {E F : List (κ × Option δ)} (st : Stored t T E) (so : Stored o S F)
    (hs : E.Pairwise fun a b => lt a.1 b.1 = true) (hS : F.Pairwise fun a b => lt a.1 b.1 = true) (hall : ∀ a ∈ E, ∀ b ∈ F, lt a.1 b.1 = true)
    (hfull : t.arr.length = t.top) (hnum : t.num = t.top) :
    ∃ t' T', TreeAt false t' T' ∧ Ent t'.at T'.ids (E ++ F) ∧ ((E ++ F).Pairwise fun a b => lt a.1 b.1 = true) ∧ rootKey t' = (E.getLast?).map (·.1) ∧ t'.size = t.size ∧
      EndsWith (fun n => splayJoin lt n t o) (.ok t') := by
  have hpos : 1 ≤ t.top := by
    have := st.low _ (Shape.root_mem st.tree.root); omega
  obtain ⟨c, l, j, e, E', rfl, rfl, he, hrun⟩ := stored_max st
  obtain ⟨i, f, F', rfl, hf, hrun'⟩ := stored_min so
  obtain ⟨n, en, nk, nd⟩ := entryAt_some.mp he
  obtain ⟨m, em, mk, _⟩ := entryAt_some.mp hf
  have hlt : lt e.1 f.1 = true := hall e (by simp) f (by simp)
  obtain ⟨n', en', _, _, hnp⟩ := st.tree.node
  rw [en] at en'; cases en'
  obtain ⟨A, B, t1, x1, x2, x3, x4, x5⟩ := splay_loop c.length c t l .leaf j (Nat.le_refl _) st.tree
  have se := SameContent.entries x3 x4
  have st1 := st.turn se x2 x1
  have hek : entryAt t1.at j = some e := by rw [se.entry]; exact he
  -- the splayed node is the greatest: nothing is to its right
  have hB : B = .leaf := by
    have hx := st1.ent
    simp only [Shape.ids] at hx
    obtain ⟨G1, G2, hG, g1, g2⟩ := Ent.append_iff.mp hx
    obtain ⟨e', G3, rfl, g3, g4⟩ := Ent.cons_iff.mp g2
    rw [hek] at g3; cases g3
    cases hB : B with
    | leaf => rfl
    | node P s Q =>
      exfalso
      have hlen := g4.length
      rw [hB] at hlen
      have hne : G3 ≠ [] := by rintro rfl; simp [Shape.ids] at hlen
      obtain ⟨G4, e2, rfl⟩ : ∃ G4 e2, G3 = G4 ++ [e2] := ⟨G3.dropLast, G3.getLast hne, (List.dropLast_concat_getLast hne).symm⟩
      have h2 : E' ++ [e] = (G1 ++ e :: G4) ++ [e2] := by rw [hG]; simp
      have h3 := (List.append_inj' h2 rfl).2
      simp only [List.cons.injEq, and_true] at h3
      subst h3
      rw [hG] at hs
      have := (List.pairwise_cons.mp (List.pairwise_append.mp hs).2.1).1 e (by simp)
      exact ht.irrefl _ this
  subst hB
  obtain ⟨⟨n1, en1, p1, p2, _⟩, hlA, _⟩ := x2.linked
  have hroot : j = t1.rootIdx := by have := x2.root; rw [root_node] at this; exact Option.some.inj this
  obtain ⟨t2, e2, a2, a3, b2, b3⟩ := joinAppend_all t1.arr.length o.arr t1 (by rw [x3.len, x3.top]; omega) (by rw [x3.num, x3.top]; exact hnum) (by rw [x3.len, x3.top]; omega)
  have hu : t1.arr.length = t1.top := by rw [x3.len, x3.top]; exact hfull
  have hjl : j < t1.top := st1.low j (by simp [Shape.ids])
  have en2 : t2.at j = some n1 := by rw [a2 j hjl, en1]
  obtain ⟨t3, e3, a4, r3, q3⟩ := modNode_spec (t := t2) (i := j) (fun n => { n with right := some (o.rootIdx + t1.arr.length) }) (by rw [en2]; rfl)
  have en3 : t3.at j = some { n1 with right := some (o.rootIdx + t1.arr.length) } := by rw [a4]; simp [mapAt, en2]
  have hat : ∀ x, x ≠ j → t3.at x = t2.at x := fun x hx => by rw [a4]; unfold mapAt; rw [if_neg hx]
  have hnd := st1.tree.nodup
  simp only [Shape.ids] at hnd
  obtain ⟨nd1, nd2, nd3⟩ := List.nodup_append.mp hnd
  have hA : ∀ x ∈ A.ids, t3.at x = t1.at x := fun x hx => by
    rw [hat x (nd3 x hx j (by simp)), a2 x (st1.low x (by simp [Shape.ids, hx]))]
  have hSlow : ∀ x ∈ S.ids, x < o.arr.length := fun x hx => Nat.lt_of_lt_of_le (so.low x hx) so.cap
  have hcopy : ∀ x ∈ S.ids, t3.at (x + t1.arr.length) = (o.at x).map (joinCopy t1.arr.length) := fun x hx => by
    rw [hat _ (by omega)]
    have := a3 x (hSlow x hx)
    rw [← hu, Nat.add_comm] at this
    exact this
  have T3 : TreeAt false t3 (.node A j (S.shift t1.arr.length)) := by
    refine ⟨by rw [root_node, q3, b3, hroot], ⟨⟨_, en3, p1, ?_, nofun⟩, ?_, linked_shift S none _ so.tree.linked hcopy⟩, ?_⟩
    · rw [Shape.shift_root, so.tree.root]; rfl
    · exact (linked_congr (h' := t3.at) (fun x hx => by unfold linksOf; rw [hA x hx]) hlA).forget
    · simp only [Shape.ids, Shape.shift_ids]
      refine List.nodup_append.mpr ⟨nd1, List.nodup_cons.mpr ⟨?_, ?_⟩, ?_⟩
      · intro h
        obtain ⟨x, _, hx⟩ := List.mem_map.mp h
        omega
      · rw [List.Nodup, List.pairwise_map]
        exact so.tree.nodup.imp (fun h => by omega)
      · intro a ha b hb
        have hal := st1.low a (by simp [Shape.ids, ha])
        rcases List.mem_cons.mp hb with rfl | hb
        · exact nd3 a ha b (by simp)
        · obtain ⟨x, _, hx⟩ := List.mem_map.mp hb
          omega
  have ent3 : Ent t3.at (Shape.node A j (S.shift t1.arr.length)).ids ((E' ++ [e]) ++ f :: F') := by
    have hx := st1.ent
    simp only [Shape.ids] at hx
    have h1 : Ent t3.at (A.ids ++ [j]) (E' ++ [e]) := by
      refine hx.congr fun x hx => ?_
      rcases List.mem_append.mp hx with h | h
      · unfold entryAt; rw [hA x h]
      · have := List.mem_singleton.mp h
        subst this
        unfold entryAt; rw [en3, en1]; rfl
    have h2 := ent_shift S.ids (f :: F') so.ent hcopy
    have h3 : (Shape.node A j (S.shift t1.arr.length)).ids = (A.ids ++ [j]) ++ S.ids.map (· + t1.arr.length) := by simp [Shape.ids, Shape.shift_ids]
    rw [h3]
    exact Ent.append_iff.mpr ⟨_, _, rfl, h1, h2⟩
  refine ⟨t3, _, T3, ent3, List.pairwise_append.mpr ⟨hs, hS, hall⟩, ?_, by rw [r3.size, b2, x3.size], (Around.plug c (.node l j .leaf)).depth + S.depth + c.length + 1, fun fuel hfu => ?_⟩
  · unfold rootKey keyOf
    have hk1 := keyOf_entry hek
    have : n1.key = some e.1 := by simpa [keyOf, en1] using hk1
    rw [q3, b3, ← hroot, en3]
    simp [this]
  · have e3' : modNode t2 t2.rootIdx (fun n => { n with right := some (o.rootIdx + t1.arr.length) }) = .ok t3 := by rw [b3, ← hroot]; exact e3
    simp only [splayJoin, hrun fuel (by omega), hrun' fuel (by omega), ok_bind, getNode_ok en, getNode_ok em, nk, mk, cmpKey, hlt, if_true, hnp, splay, x5 fuel (by omega), e2, e3']

end Props
