import Verif.Props.Splay
import Verif.Lemmas.CartDelete

/-!
# Deletion from splay trees
-/
namespace Props
open Py Model Spec
set_option linter.unusedSectionVars false
variable {κ δ : Type} [DecidableEq κ]

/-- A key has been deleted and the position `x` freed. -/
def StoredGone (t t' : BTree κ δ) (E : List (κ × Option δ)) : Prop := ∃ T' x, Stored t' T' E ∧ Freed t t' x ∧ t'.orderStat = t.orderStat

/-- The node found by the search has two children. -/
theorem stored_two {t : BTree κ δ} {c : Around} {l r : Shape} {i ri : Nat} {E1 E2 : List (κ × Option δ)} {e : κ × Option δ}
    (st : Stored t (Around.plug c (.node l i r)) (E1 ++ e :: E2)) (hr : r.root = some ri)
    (he1 : Ent t.at (Around.before c ++ l.ids) E1) (he2 : Ent t.at (r.ids ++ Around.after c) E2) (h4 : t.arr.length ≤ 4 * (t.num - 1)) :
    ∃ t' p, StoredGone t t' (E1 ++ E2) ∧ ∃ n0, ∀ fuel, n0 ≤ fuel → delTwo fuel t i = .ok (t', some p) := by
  have hl := ((linked_plug true t.at c _).mp st.tree.linked).2
  obtain ⟨⟨n, en, n1, n2, _⟩, _, hlr⟩ := hl
  obtain ⟨cs, s, rs, er, hb, hcs, hrun⟩ := succ_loop r none i false ri hr hlr.weaken
  subst er
  rw [Around.ids_plug, hb] at he2
  simp only [Shape.ids, List.nil_append, List.cons_append, List.append_assoc] at he2
  obtain ⟨es, E3, rfl, hes, hE3⟩ := Ent.cons_iff.mp he2
  obtain ⟨g, C, hgC⟩ : ∃ g C, cs ++ Frame.inR l i :: c = g :: C := by cases cs <;> simp
  have hplug : ∀ S, Around.plug (g :: C) S = Around.plug c (.node l i (Around.plug cs S)) := by
    intro S; rw [← hgC, Around.plug_append]; rfl
  have hids : ∀ S : Shape, (Around.plug (g :: C) S).ids = (Around.before c ++ l.ids) ++ i :: (S.ids ++ (Around.after cs ++ Around.after c)) := by
    intro S; rw [hplug, Around.ids_plug, Shape.ids, Around.ids_plug, hb]; simp
  have st' := st
  rw [← hplug] at st'
  have hnd := st'.tree.nodup
  rw [hids] at hnd
  simp only [Shape.ids] at hnd
  obtain ⟨m, em, m1, m2⟩ : ∃ m, t.at s = some m ∧ m.left = none ∧ m.right = rs.root := by
    obtain ⟨⟨m, em, m1, m2, _⟩, _⟩ := ((linked_plug true t.at (g :: C) _).mp st'.tree.linked).2
    exact ⟨m, em, m1, m2⟩
  obtain ⟨nd1, nd2, dj⟩ := List.nodup_append.mp hnd
  obtain ⟨nd3, nd4⟩ := List.nodup_cons.mp nd2
  have hi1 : ∀ j ∈ Around.before c ++ l.ids, j ≠ i := fun j hj => dj j hj i (by simp)
  have hi2 : ∀ j ∈ rs.ids ++ (Around.after cs ++ Around.after c), j ≠ i := by
    rintro j hj rfl
    apply nd3
    simp only [List.nil_append, List.cons_append, List.mem_cons]
    exact .inr hj
  obtain ⟨t1, e1, a1, r1, q1⟩ := modNode_spec (t := t) (i := i) (fun n => { n with data := m.data, key := m.key }) (by rw [en]; rfl)
  have at1 : ∀ j, j ≠ i → t1.at j = t.at j := fun j hj => by rw [a1]; unfold mapAt; rw [if_neg hj]
  have at1i : t1.at i = some { n with data := m.data, key := m.key } := by rw [a1]; unfold mapAt; rw [if_pos rfl, en]; rfl
  have lk : ∀ j, linksOf t1.at j = linksOf t.at j := by
    intro j
    by_cases e : j = i
    · subst e; simp [linksOf, at1i, en, BNode.links]
    · simp [linksOf, at1 j e]
  have som : ∀ j, (t1.at j).isSome = (t.at j).isSome := by
    intro j
    by_cases e : j = i
    · subst e; simp [at1i, en]
    · simp [at1 j e]
  have T1 : TreeAt true t1 (Around.plug (g :: C) (.node .leaf s rs)) :=
    ⟨by rw [q1]; exact st'.tree.root, linked_congr (fun j _ => lk j) st'.tree.linked, st'.tree.nodup⟩
  have ent1 : ∀ j, j ≠ i → entryAt t1.at j = entryAt t.at j := fun j hj => by unfold entryAt; rw [at1 j hj]
  have he : Ent t1.at (Around.plug (g :: C) rs).ids (E1 ++ es :: E3) := by
    rw [hids]
    refine Ent.append_iff.mpr ⟨E1, es :: E3, rfl, he1.congr fun j hj => ent1 j (hi1 j hj), Ent.cons_iff.mpr ⟨es, E3, rfl, ?_, hE3.congr fun j hj => ent1 j (hi2 j hj)⟩⟩
    unfold entryAt at hes ⊢
    rw [at1i]
    rw [em] at hes
    exact hes
  obtain ⟨t2, t3, t4, x1, x2, x3, st4, f4, i1, i2, o4, _⟩ := stored_cut (t := t1) T1 (.inl ⟨rfl, rfl⟩) he (fun j hj => st'.occ j (by rwa [som] at hj))
    (fun j hj => by rw [r1.top]; exact st'.low j hj) (by rw [r1.top, r1.size]; exact st'.last) (by rw [r1.top, r1.size]; exact st'.ts) (by rw [r1.top, r1.len]; exact st'.cap)
    (by rw [r1.num]; exact st'.num) (by rw [r1.len, r1.num]; exact h4)
  obtain ⟨t5, sb, r5, q5, hrun5⟩ := updateSize_any st4.tree
  have se := sb.entries r5
  have T5 : TreeAt true t5 (Around.plug (g :: C) rs) := ⟨by rw [q5]; exact st4.tree.root, linked_congr (fun i _ => sb.links i) st4.tree.linked, st4.tree.nodup⟩
  refine ⟨t5, g.idx, ⟨_, s, st4.turn se T5 rfl, ⟨by rw [r5.size, f4.size, r1.size], by rw [r5.num, ← r1.num]; exact f4.num, by rw [r5.len, f4.len, r1.len], by rw [r5.top, f4.top, r1.top]⟩,
    by rw [r5.orderStat, o4, r1.orderStat]⟩, (g :: C).length + (Around.plug cs (.node .leaf s rs)).depth + 1, fun fuel hf => ?_⟩
  have e4 : updateSize fuel t4 (some g.idx) = .ok t5 := hrun5 fuel (by omega)
  have hloop := hrun fuel (by omega)
  have hds := delSlot_spec i1 i2 x3
  have hri : n.right = some ri := by rw [n2, hr]
  simp only [delTwo, getNode_ok en, hri, asIdx, ok_bind, hloop, getNode_ok em, e1]
  cases cs with
  | nil =>
    simp only [List.nil_append, List.cons.injEq] at hgC
    obtain ⟨rfl, rfl⟩ := hgC
    have e2' : modNode t1 i (fun n => { n with right := m.right }) = .ok t2 := by rw [m2]; exact x1
    have e3' : modIf t2 m.right (fun n => { n with parent := some i }) = .ok t3 := by rw [m2]; exact x2
    have hds' : delSlot t3 s i = .ok (t4, some i) := hds
    have e4' : updateSize fuel t4 (some i) = .ok t5 := e4
    simp only [Around.up, Option.getD_none, List.isEmpty_nil, Bool.not_true, Bool.or_false, Bool.false_eq_true, if_false, e2', ok_bind, e3', hds', e4']
    rfl
  | cons f cs =>
    simp only [List.cons_append, List.cons.injEq] at hgC
    obtain ⟨rfl, rfl⟩ := hgC
    obtain ⟨j, r', rfl⟩ := hcs f (by simp)
    have e2' : modNode t1 j (fun n => { n with left := m.right }) = .ok t2 := by rw [m2]; exact x1
    have e3' : modIf t2 m.right (fun n => { n with parent := some j }) = .ok t3 := by rw [m2]; exact x2
    have hds' : delSlot t3 s j = .ok (t4, some j) := hds
    have e4' : updateSize fuel t4 (some j) = .ok t5 := e4
    simp only [Around.up, Frame.idx, Option.getD_some, List.isEmpty_cons, Bool.not_false, Bool.or_true, if_true, e2', ok_bind, e3', hds', e4']

/-- The two-node tree as an AVL tree, whose deletion of the root does not read heights or sizes. -/
theorem stored_root_one {t : BTree κ δ} {A B : Shape} {x s : Nat} {E1 E2 : List (κ × Option δ)} {e : κ × Option δ}
    (st : Stored t (.node A x B) (E1 ++ e :: E2)) (hS : A = .leaf ∧ .node .leaf s .leaf = B ∨ B = .leaf ∧ .node .leaf s .leaf = A)
    (he1 : Ent t.at A.ids E1) (he2 : Ent t.at B.ids E2) (h4 : t.arr.length ≤ 4 * (t.num - 1)) :
    ∃ t', StoredGone t t' (E1 ++ E2) ∧ delOneRoot t s = .ok (t', none) := by
  have hxs : x ≠ s := by
    have hnd := st.tree.nodup
    rcases hS with ⟨rfl, rfl⟩ | ⟨rfl, rfl⟩ <;> simp [Shape.ids] at hnd <;> omega
  have hmem : ∀ j, j ∈ (Shape.node A x B).ids ↔ j = x ∨ j = s := by
    intro j
    rcases hS with ⟨rfl, rfl⟩ | ⟨rfl, rfl⟩ <;> simp [Shape.ids] <;> omega
  have hnum : t.num = 2 := by
    rw [st.num]; rcases hS with ⟨rfl, rfl⟩ | ⟨rfl, rfl⟩ <;> rfl
  have hrt : x = t.rootIdx := by have := st.tree.root; rw [root_node] at this; exact Option.some.inj this
  obtain ⟨c, ec, c1, c2⟩ : ∃ c, t.at s = some c ∧ c.left = none ∧ c.right = none := by
    have hl := st.tree.linked
    rcases hS with ⟨rfl, rfl⟩ | ⟨rfl, rfl⟩
    · obtain ⟨_, _, ⟨n, en, n1, n2, _⟩, _⟩ := hl
      exact ⟨n, en, n1, n2⟩
    · obtain ⟨_, ⟨⟨n, en, n1, n2, _⟩, _⟩, _⟩ := hl
      exact ⟨n, en, n1, n2⟩
  have hE : ∃ e', E1 ++ E2 = [e'] ∧ entryAt t.at s = some e' := by
    rcases hS with ⟨rfl, rfl⟩ | ⟨rfl, rfl⟩
    · have : E1 = [] := List.length_eq_zero_iff.mp he1.length
      subst this
      simp only [Shape.ids, List.append_nil, List.nil_append] at he2
      obtain ⟨e', E3, rfl, h1, h2⟩ := Ent.cons_iff.mp he2
      have : E3 = [] := List.length_eq_zero_iff.mp h2.length
      subst this
      exact ⟨e', rfl, h1⟩
    · have : E2 = [] := List.length_eq_zero_iff.mp he2.length
      subst this
      simp only [Shape.ids, List.append_nil, List.nil_append] at he1
      obtain ⟨e', E3, rfl, h1, h2⟩ := Ent.cons_iff.mp he1
      have : E3 = [] := List.length_eq_zero_iff.mp h2.length
      subst this
      exact ⟨e', rfl, h1⟩
  obtain ⟨e', hE, hes⟩ := hE
  obtain ⟨nx, enx⟩ := Option.isSome_iff_exists.mp (st.isSome ((hmem x).mpr (.inl rfl)))
  obtain ⟨t1, e1, a1, r1, q1⟩ := modNode_spec (t := t) (i := t.rootIdx)
    (fun n => { n with left := c.left, right := c.right, data := c.data, key := c.key, parent := none }) (by rw [← hrt, enx]; rfl)
  have hat : ∀ i, i ≠ x → t1.at i = t.at i := fun i hi => by rw [a1]; unfold mapAt; rw [if_neg (by rw [← hrt]; exact hi)]
  have hatx : t1.at x = some { nx with left := c.left, right := c.right, data := c.data, key := c.key, parent := none } := by
    rw [a1]; unfold mapAt; rw [if_pos hrt, enx]; rfl
  obtain ⟨t2, e2, a2, f2, q2, o2⟩ := atDelete_spec (t := t1) (x := s) (by rw [hat s (Ne.symm hxs), ec]; rfl) (by rw [r1.top]; exact st.low s ((hmem s).mpr (.inr rfl)))
    (by rw [r1.num]; omega) (by rw [r1.num, r1.len]; exact h4)
  have f : Freed t t2 s := ⟨by rw [f2.size, r1.size], by rw [← r1.num]; exact f2.num, by rw [f2.len, r1.len], by rw [f2.top, r1.top]⟩
  have hat2x : t2.at x = some { nx with left := c.left, right := c.right, data := c.data, key := c.key, parent := none } := by
    rw [a2]; simp only; rw [if_neg hxs]; exact hatx
  have hls : s < t.top := st.low s ((hmem s).mpr (.inr rfl))
  have hlx : x < t.top := st.low x ((hmem x).mpr (.inl rfl))
  have hts := st.ts
  refine ⟨t2, ⟨.node .leaf x .leaf, s, ⟨?_, ?_, ?_, ?_, ?_, ?_, ?_, ?_⟩, f, by rw [o2, r1.orderStat]⟩, ?_⟩
  · exact ⟨by rw [root_node, q2, q1, hrt], ⟨⟨_, hat2x, c1, c2, fun _ => rfl⟩, trivial, trivial⟩, by simp [Shape.ids]⟩
  · rw [hE]
    refine Ent.cons_iff.mpr ⟨e', [], rfl, ?_, Ent.nil _⟩
    unfold entryAt at hes ⊢; rw [hat2x]; rw [ec] at hes; exact hes
  · intro j hj
    rw [a2] at hj
    simp only at hj
    by_cases e : j = s
    · rw [if_pos e] at hj; cases hj
    · rw [if_neg e] at hj
      by_cases e' : j = x
      · simp [Shape.ids, e']
      · rw [hat j e'] at hj
        rcases (hmem j).mp (st.occ j hj) with h | h
        · exact absurd h e'
        · exact absurd h e
  · intro j hj
    have : j = x := by simpa [Shape.ids] using hj
    subst this
    rw [f.top]; split <;> omega
  · intro hz
    rw [f.size, f.top] at hz
    rw [f.top]
    by_cases ht : t.top = s + 1
    · rw [if_pos ht] at hz; omega
    · rw [if_neg ht] at hz ⊢
      rcases (hmem _).mp (st.last hz) with h | h
      · simp [Shape.ids, h]
      · omega
  · rw [f.top, f.size]; split <;> omega
  · have := st.cap; rw [f.top, f.len]; split <;> omega
  · have := f.num; simp [Shape.ids]; omega
  · simp only [delOneRoot, getNode_ok ec, e1, ok_bind, e2]

/-- `delete` of a key that is present: it is splayed to the root first. The key lies strictly between two others, or the tree has at most two keys. -/
theorem splayDelete_present {lt : κ → κ → Bool} (ht : StrictTotal (ltRel lt)) {t : BTree κ δ} {T : Shape} {E : List (κ × Option δ)} {k : κ} {d : Option δ}
    (st : Stored t T E) (hs : E.Pairwise fun a b => lt a.1 b.1 = true) (hk : (k, d) ∈ E)
    (hmid : E.length ≤ 2 ∨ (∃ e ∈ E, lt e.1 k = true) ∧ ∃ e ∈ E, lt k e.1 = true) (h4 : E.length = 1 ∨ t.arr.length ≤ 4 * (E.length - 1)) :
    ∃ t', (E.length = 1 ∧ AvlCleared t' ∧ SameRest t t' ∨ 2 ≤ E.length ∧ StoredGone t t' (E.filter fun e => e.1 ≠ k)) ∧
      ∃ n0, ∀ fuel, n0 ≤ fuel → splayDelete lt fuel t k = .ok (t', true) := by
  obtain ⟨i, hi, ei⟩ := st.ent.mem.mp hk
  obtain ⟨c, A0, B0, rfl⟩ := plug_of_mem T i hi
  have hki := keyOf_entry ei
  obtain ⟨A, B, t1, x1, x2, x3, x4, x5⟩ := splay_loop c.length c t A0 B0 i (Nat.le_refl _) st.tree
  have se := SameContent.entries x3 x4
  have st1 := st.turn se x2 x1
  have hki1 : keyOf t1.at i = some k := by rw [se.keyOf, hki]
  have st1' : Stored t1 (Around.plug [] (.node A i B)) E := st1
  rw [← st.num_eq] at h4 hmid ⊢
  obtain ⟨E1, E2, e, rfl, hei, he1, he2⟩ := rb_entries st1'.ent
  have hek : e.1 = k := by have := keyOf_entry hei; rw [hki1] at this; exact (Option.some.inj this).symm
  subst hek
  rw [filter_key ht hs]
  simp only [Around.before, Around.after, List.nil_append, List.append_nil] at he1 he2
  obtain ⟨n, en, n1, n2, _⟩ := (show TreeAt true t1 (Around.plug [] (.node A i B)) from x2).node
  have fin : ∀ {t' : BTree κ δ} {o : Option Nat} {m : Nat} {Q : Prop}, Q → (∀ fuel, m ≤ fuel → delCases fuel t1 i none n = .ok (t', o)) →
      Q ∧ ∃ n0, ∀ fuel, n0 ≤ fuel → splayDelete lt fuel t e.1 = .ok (t', true) := by
    intro t' o m Q hQ hm
    refine ⟨hQ, m + ((Around.plug c (.node A0 i B0)).ids.length + c.length + 2), fun fuel hf => ?_⟩
    have h1 := stored_searchP ht st hs hki fuel (by omega)
    have h2 := stored_searchP ht st1' hs hki1 fuel (by show _ > (Shape.node A i B).ids.length + 1; rw [x1]; omega)
    have h2' : bstSearchP lt fuel t1 e.1 = .ok (some (some i, none)) := h2
    simp only [splayDelete, searchPair, h1, ok_bind, splay, x5 fuel (by omega), bstDelete, bstDeleteInfo, h2', getNode_ok en, hm fuel (by omega)]
  have hsz := st1.num
  rw [x3.num] at hsz
  have hlE := st.num_eq
  simp only [Shape.ids, List.length_append, List.length_cons] at hsz
  have l1 := he1.length
  have l2 := he2.length
  have hlen' : ∀ {t'} {E'}, StoredGone t1 t' E' → StoredGone t t' E' := by
    rintro t' E' ⟨T', x, g1, g2, g3⟩
    exact ⟨T', x, g1, ⟨by rw [g2.size, x3.size], by rw [g2.num, x3.num], by rw [g2.len, x3.len], by rw [g2.top, x3.top]⟩, by rw [g3, x3.orderStat]⟩
  cases hA : A with
  | leaf =>
    subst hA
    have n1' : n.left = none := n1
    cases hB : B with
    | leaf =>
      subst hB
      have n2' : n.right = none := n2
      obtain ⟨t', hc, hr, hd⟩ := avl_root_leaf (t := t1) ⟨st1, ⟨by simp [Shape.depth], by simp [Shape.depth], trivial, trivial⟩, .inl rfl⟩
      refine ⟨t', fin (o := none) (m := 1) (.inl ⟨by rw [hsz]; rfl, hc, x3.trans hr⟩) fun fuel hf => ?_⟩
      simp only [delCases, n1', n2']; exact hd fuel hf
    | node P s Q =>
      subst hB
      have n2' : n.right = some s := n2
      have hE1 : E1 = [] := List.length_eq_zero_iff.mp l1
      subst hE1
      have h2 : 2 ≤ t.num := by simp [Shape.ids] at hsz; omega
      have hn2 : t.num ≤ 2 := by
        rcases hmid with h | ⟨⟨b, hb, hlt⟩, _⟩
        · exact h
        · exfalso
          simp only [List.nil_append, List.mem_cons] at hb
          rcases hb with rfl | hb
          · exact ht.irrefl _ hlt
          · have := (List.pairwise_cons.mp hs).1 b hb
            exact ht.irrefl _ (ht.trans _ _ _ hlt this)
      have hP : P = .leaf := by cases P with | leaf => rfl | node _ _ _ => simp [Shape.ids] at hsz; omega
      have hQ : Q = .leaf := by cases Q with | leaf => rfl | node _ _ _ => simp [Shape.ids] at hsz; omega
      subst hP hQ
      obtain ⟨t', hR, hd⟩ := stored_root_one st1 (.inl ⟨rfl, rfl⟩) he1 he2 (by rw [x3.len, x3.num]; omega)
      refine ⟨t', fin (o := none) (m := 1) (.inr ⟨h2, hlen' hR⟩) fun fuel hf => ?_⟩
      simp only [delCases, n1', n2']; exact hd
  | node A1 s A2 =>
    subst hA
    have n1' : n.left = some s := n1
    have h2 : 2 ≤ t.num := by simp [Shape.ids] at hsz; omega
    cases hB : B with
    | leaf =>
      subst hB
      have n2' : n.right = none := n2
      have hE2 : E2 = [] := List.length_eq_zero_iff.mp l2
      subst hE2
      have hn2 : t.num ≤ 2 := by
        rcases hmid with h | ⟨_, ⟨b, hb, hlt⟩⟩
        · exact h
        · exfalso
          simp only [List.mem_append, List.mem_singleton] at hb
          rcases hb with hb | rfl
          · have := (List.pairwise_append.mp hs).2.2 b hb e (by simp)
            exact ht.irrefl _ (ht.trans _ _ _ hlt this)
          · exact ht.irrefl _ hlt
      have hP : A1 = .leaf := by cases A1 with | leaf => rfl | node _ _ _ => simp [Shape.ids] at hsz; omega
      have hQ : A2 = .leaf := by cases A2 with | leaf => rfl | node _ _ _ => simp [Shape.ids] at hsz; omega
      subst hP hQ
      obtain ⟨t', hR, hd⟩ := stored_root_one st1 (.inr ⟨rfl, rfl⟩) he1 he2 (by rw [x3.len, x3.num]; omega)
      refine ⟨t', fin (o := none) (m := 1) (.inr ⟨h2, hlen' hR⟩) fun fuel hf => ?_⟩
      simp only [delCases, n1', n2']; exact hd
    | node B1 s' B2 =>
      subst hB
      have n2' : n.right = some s' := n2
      obtain ⟨t', p, hR, n0, hd⟩ := stored_two (c := []) st1' (root_node B1 s' B2) (by simpa [Around.before] using he1) (by simpa [Around.after] using he2) (by rw [x3.len, x3.num]; omega)
      refine ⟨t', fin (o := some p) (m := n0) (.inr ⟨h2, hlen' hR⟩) fun fuel hf => ?_⟩
      simp only [delCases, n1', n2']; exact hd fuel hf

/-- `delete` of a key that is absent from a tree that is not empty changes nothing. -/
theorem splayDelete_absent {lt : κ → κ → Bool} (ht : StrictTotal (ltRel lt)) {t : BTree κ δ} {T : Shape} {E : List (κ × Option δ)} {k : κ}
    (st : Stored t T E) (hs : E.Pairwise fun a b => lt a.1 b.1 = true) (hk : ∀ d, (k, d) ∉ E) : ∃ n0, ∀ fuel, n0 ≤ fuel → splayDelete lt fuel t k = .ok (t, false) := by
  obtain ⟨c, S, rfl, hF, hrun⟩ := searchP_spec ht st.tree (st.srt hs) k
  rcases hF.here with rfl | ⟨l, i, r, rfl, hki⟩
  · refine ⟨(Around.plug c .leaf).depth + 2, fun fuel hf => ?_⟩
    have h1 : bstSearchP lt fuel t k = .ok (some (none, Around.up c)) := hrun fuel (by omega)
    simp only [splayDelete, searchPair, h1, ok_bind]
  · obtain ⟨E1, E2, e, rfl, hei, _⟩ := rb_entries st.ent
    have hek : e.1 = k := by have := keyOf_entry hei; rw [hki] at this; exact (Option.some.inj this).symm
    exact absurd (by rw [← hek]; simp) (hk e.2)

/-! ## Insertion -/

/-- The part of `insert` after `super().insert`, for a node that sits at the last position. -/
theorem splayFinish_spec {lt : κ → κ → Bool} (ht : StrictTotal (ltRel lt)) {t : BTree κ δ} {c : Around} {A B : Shape} {i : Nat} {E : List (κ × Option δ)} {k : κ}
    (st : Stored t (Around.plug c (.node A i B)) E) (hs : E.Pairwise fun a b => lt a.1 b.1 = true) (hk : keyOf t.at i = some k) (hi : t.size - 1 = i) :
    ∃ A' B' t', Stored t' (.node A' i B') E ∧ keyOf t'.at i = some k ∧ SameRest t t' ∧
      ∀ fuel > (Around.plug c (.node A i B)).ids.length + 1, splayFinish lt fuel t k = .ok t' := by
  obtain ⟨n, en, n1, n2, n3⟩ := st.tree.node
  obtain ⟨t1, e1, a1, r1, q1⟩ := modNode_spec (t := t) (i := i) (fun n => { n with parent := Around.up c }) (by rw [en]; rfl)
  have hsame : t1.at = t.at := by
    rw [a1]; funext j; unfold mapAt
    split
    · next h => subst h; rw [en, ← n3]; rfl
    · rfl
  have E1 : SameEntries t t1 := ⟨r1, fun j => by rw [hsame], fun j => by rw [hsame]⟩
  have T1 : TreeAt true t1 (Around.plug c (.node A i B)) := ⟨by rw [q1]; exact st.tree.root, by rw [hsame]; exact st.tree.linked, st.tree.nodup⟩
  obtain ⟨A', B', t2, x1, x2, x3, x4, x5⟩ := splay_loop c.length c t1 A B i (Nat.le_refl _) T1
  have E2 : SameEntries t1 t2 := SameContent.entries x3 x4
  have hlen := around_length (c := c) (S := .node A i B) rfl
  refine ⟨A', B', t2, st.turn (E1.trans E2) x2 x1, by rw [E2.keyOf, E1.keyOf, hk], r1.trans x3, fun fuel hf => ?_⟩
  have h1 := stored_searchP ht st hs hk fuel hf
  simp only [splayFinish, searchPair, h1, ok_bind, hi, e1, asIdx, splay, x5 fuel (by simp [Shape.ids] at hlen; omega)]

/-- `insert` of a key that is absent, into a tree that is not empty. -/
theorem splayInsert_absent {lt : κ → κ → Bool} (ht : StrictTotal (ltRel lt)) {t : BTree κ δ} {T : Shape} {E : List (κ × Option δ)} {k : κ}
    (st : Stored t T E) (hs : E.Pairwise fun a b => lt a.1 b.1 = true) (hk : ∀ d, (k, d) ∉ E) (d : Option δ) (hsz : t.size = t.top) (hg : grown t ≤ 4 * (t.num + 1)) :
    ∃ t' T' E', Stored t' T' E' ∧ (E'.Pairwise fun a b => lt a.1 b.1 = true) ∧ E'.Perm ((k, d) :: E) ∧ keyOf t'.at t'.rootIdx = some k ∧
      t'.orderStat = t.orderStat ∧ t'.top = t.top + 1 ∧ t'.size = t.size + 1 ∧ t'.num = t.num + 1 ∧ t'.arr.length = grown t ∧
      ∃ n0, ∀ fuel, n0 ≤ fuel → splayInsert lt fuel t k d = .ok t' := by
  obtain ⟨f, c, t1, E1, E2, rfl, rfl, st1, hs1, hH, n1, hrun1⟩ := stored_hung ht st hs hk d hsz hg
  have hft : t.top ≠ f.idx := fun e => absurd (st.low f.idx (Frame.idx_mem f c _)) (by omega)
  have hnew : t1.at t.top = some { key := some k, data := d, parent := some f.idx } := by rw [hH.cells]; simp [hung, mapAt, hft]
  obtain ⟨t2, sb, r2, q2, hrun2⟩ := updateSize_any (c := .inL t.top .leaf :: f :: c) (S := .leaf) st1.tree
  have se2 := sb.entries r2
  have T2 : TreeAt true t2 (Around.plug (f :: c) (.node .leaf t.top .leaf)) := ⟨by rw [q2]; exact st1.tree.root, linked_congr (fun i _ => sb.links i) st1.tree.linked, st1.tree.nodup⟩
  have st2 := st1.turn se2 T2 rfl
  obtain ⟨A', B', t3, st3, hk3, r3, hrun3⟩ := splayFinish_spec ht st2 hs1 (k := k) (by rw [se2.keyOf]; simp [keyOf, hnew]) (by rw [r2.size, hH.size]; omega)
  have rr := r2.trans r3
  have hroot : t.top = t3.rootIdx := by have := st3.tree.root; rw [root_node] at this; exact Option.some.inj this
  refine ⟨t3, _, _, st3, hs1, List.perm_middle, by rw [← hroot]; exact hk3, by rw [rr.orderStat, hH.orderStat], by rw [rr.top, hH.top], by rw [rr.size, hH.size], by rw [rr.num, hH.num],
    by rw [rr.len, hH.len], n1 + (f :: c).length + (Around.plug (f :: c) (.node .leaf t.top .leaf)).ids.length + 3, fun fuel hf => ?_⟩
  have p1 : bstInsert lt fuel t k d = .ok t2 := by
    rw [hrun1 fuel (by omega)]
    exact hrun2 fuel (by simp at hf ⊢; omega)
  rw [splayInsert_eq p1]
  exact hrun3 fuel (by omega)

/-- `insert` into an empty tree whose root is at the last position. -/
theorem splayInsert_cleared {lt : κ → κ → Bool} (ht : StrictTotal (ltRel lt)) {t : BTree κ δ} (h : AvlCleared t) (k : κ) (d : Option δ) (hsz : t.size = t.top) :
    ∃ t' T', Stored t' T' [(k, d)] ∧ keyOf t'.at t'.rootIdx = some k ∧ SameRest t t' ∧ ∃ n0, ∀ fuel, n0 ≤ fuel → splayInsert lt fuel t k d = .ok t' := by
  obtain ⟨n, en, hk, h1, h2, h3⟩ := h.root
  obtain ⟨t1, e1, a1, r1, q1⟩ := modNode_spec (t := t) (i := t.rootIdx) (fun n => { n with key := some k, data := d }) (by rw [en]; rfl)
  have en1 : t1.at t.rootIdx = some { n with key := some k, data := d } := by rw [a1]; exact mapAt_same en
  have hx : t1.size - 1 = t.rootIdx := by rw [r1.size, hsz]; exact h.last hsz
  have st1 : Stored t1 (Around.plug [] (.node .leaf t.rootIdx .leaf)) [(k, d)] := by
    refine ⟨⟨by rw [q1]; rfl, ⟨⟨_, en1, h1, h2, fun _ => h3⟩, trivial, trivial⟩, by simp [Around.plug, Shape.ids]⟩,
      Ent.cons_iff.mpr ⟨_, _, rfl, entryAt_some.mpr ⟨_, en1, rfl, rfl⟩, Ent.nil _⟩, ?_, ?_, ?_, ?_, ?_, ?_⟩
    · intro i hi
      by_cases e : i = t.rootIdx
      · simp [Around.plug, Shape.ids, e]
      · rw [a1] at hi
        simp only [mapAt, if_neg e] at hi
        exact absurd (h.occ i hi) e
    · intro i hi
      have : i = t.rootIdx := by simpa [Around.plug, Shape.ids] using hi
      rw [r1.top, this]; exact h.low
    · rw [r1.top, r1.size]; intro hz; simp [Around.plug, Shape.ids, h.last hz]
    · rw [r1.top, r1.size]; exact h.ts
    · rw [r1.top, r1.len]; exact h.cap
    · rw [r1.num, h.num]; rfl
  obtain ⟨A', B', t3, st3, hk3, r3, hrun3⟩ := splayFinish_spec (lt := lt) ht st1 (by simp) (k := k) (by simp [keyOf, en1]) hx
  have hroot : t.rootIdx = t3.rootIdx := by have := st3.tree.root; rw [root_node] at this; exact Option.some.inj this
  refine ⟨t3, _, st3, by rw [← hroot]; exact hk3, r1.trans r3, 4, fun fuel hf => ?_⟩
  have hs : bstSearch lt fuel t k = .ok none := by simp only [bstSearch, bstSearchP, getNode_ok en, hk, ok_bind]; rfl
  have hi : bstInsert lt fuel t k d = .ok t1 := by
    simp only [bstInsert, hs, ok_bind, bstInsertNew, getNode_ok en, hk, if_true]
    exact e1
  rw [splayInsert_eq hi]
  exact hrun3 fuel (by simp [Around.plug, Shape.ids]; omega)

end Props
