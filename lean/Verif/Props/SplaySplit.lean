import Verif.Lemmas.SplaySplit

/-!
# C89: splitting a splay tree
-/
namespace Props
open Py Model Spec
set_option linter.unusedSectionVars false
variable {κ δ : Type} [DecidableEq κ]

/-! ## Specification -/

/-- The entries whose keys are not greater than `x`. -/
def splitLow (lt : κ → κ → Bool) (x : κ) (D : List (κ × Option δ)) : List (κ × Option δ) := D.filter fun e => !lt x e.1

/-- The entries whose keys are greater than `x`. -/
def splitHigh (lt : κ → κ → Bool) (x : κ) (D : List (κ × Option δ)) : List (κ × Option δ) := D.filter fun e => lt x e.1

/-- `split(x)` leaves the entries up to `x` in the tree and returns a tree with the greater ones. -/
def Splits (lt : κ → κ → Bool) (t : BTree κ δ) (D : List (κ × Option δ)) (x : κ) : Prop :=
  ∃ t' o, EndsWith (fun n => splaySplit lt n t x) (.ok (t', some o)) ∧ ServesEntries lt t' (splitLow lt x D) ∧ ServesEntries lt o (splitHigh lt x D)

/-- **C89**, in full: any distinct keys, inserted in any order, and any `x`. -/
def C89_full (lt : κ → κ → Bool) (δ : Type) : Prop :=
  ∀ (os : Bool) (ins : List (κ × Option δ)) (x : κ), (ins.map (·.1)).Nodup →
    ∃ t, EndsWith (fun n => splayRun lt n (btEmpty os) (insertsOf ins)) (.ok (t, bstReturns [] (insertsOf ins))) ∧ Splits lt t (bstContents [] (insertsOf ins)) x

/-! ## The call -/

theorem splayHas_perm {lt : κ → κ → Bool} {t : BTree κ δ} {D D' : List (κ × Option δ)} (h : SplayHas lt t D) (hp : D.Perm D') : SplayHas lt t D' := by
  obtain ⟨E, h1, h2⟩ := h
  exact ⟨E, h1.trans hp, h2⟩

/-- In a sorted list, the entries after `e` are the greater ones. -/
theorem filter_high {lt : κ → κ → Bool} (ht : StrictTotal (ltRel lt)) {E1 E2 : List (κ × Option δ)} {e : κ × Option δ}
    (hs : (E1 ++ e :: E2).Pairwise fun a b => lt a.1 b.1 = true) :
    splitHigh lt e.1 (E1 ++ e :: E2) = E2 ∧ splitLow lt e.1 (E1 ++ e :: E2) = E1 ++ [e] := by
  obtain ⟨h1, h2, h3⟩ := List.pairwise_append.mp hs
  obtain ⟨h4, h5⟩ := List.pairwise_cons.mp h2
  have a1 : ∀ a ∈ E1, lt e.1 a.1 = false := fun a ha => by
    cases hb : lt e.1 a.1 with
    | false => rfl
    | true => exact absurd (ht.trans _ _ _ hb (h3 a ha e (by simp))) (ht.irrefl _)
  have a2 : lt e.1 e.1 = false := by
    cases hb : lt e.1 e.1 with
    | false => rfl
    | true => exact absurd hb (ht.irrefl _)
  unfold splitHigh splitLow
  simp only [List.filter_append, List.filter_cons, a2, Bool.false_eq_true, if_false, Bool.not_false, if_true]
  constructor
  · rw [List.filter_eq_nil_iff.mpr (fun a ha => by simp [a1 a ha]), List.filter_eq_self.mpr (fun a ha => h4 a ha)]; rfl
  · rw [List.filter_eq_self.mpr (fun a ha => by simp [a1 a ha]), List.filter_eq_nil_iff.mpr (fun a ha => by simp [h4 a ha])]

/-- The nodes in pre-order have the entries of the tree. -/
theorem entriesOf_pre {t : BTree κ δ} : ∀ (L : List Nat) (E : List (κ × Option δ)), Ent t.at L E → EntriesOf (L.filterMap t.at) E := by
  intro L
  induction L with
  | nil => intro E h; have : E = [] := List.length_eq_zero_iff.mp h.length; subst this; rfl
  | cons i L ih =>
    intro E h
    obtain ⟨e, E', rfl, h1, h2⟩ := Ent.cons_iff.mp h
    obtain ⟨n, en, hk, hd⟩ := entryAt_some.mp h1
    have := ih E' h2
    simp only [EntriesOf, List.filterMap_cons, en, List.map_cons, hk, hd] at this ⊢
    rw [this]

/-- A permutation of the positions permutes the entries. -/
theorem Ent.perm {h : Cells κ δ} {L L' : List Nat} {E : List (κ × Option δ)} (H : Ent h L E) (hp : L.Perm L') : ∃ E', E.Perm E' ∧ Ent h L' E' := by
  induction hp generalizing E with
  | nil => exact ⟨E, .refl _, H⟩
  | cons x _ ih =>
    obtain ⟨e, E1, rfl, h1, h2⟩ := Ent.cons_iff.mp H
    obtain ⟨E2, h3, h4⟩ := ih h2
    exact ⟨e :: E2, h3.cons e, Ent.cons_iff.mpr ⟨e, E2, rfl, h1, h4⟩⟩
  | swap x y l =>
    obtain ⟨e, E1, rfl, h1, h2⟩ := Ent.cons_iff.mp H
    obtain ⟨e', E2, rfl, h3, h4⟩ := Ent.cons_iff.mp h2
    exact ⟨e' :: e :: E2, List.Perm.swap _ _ _, Ent.cons_iff.mpr ⟨e', _, rfl, h3, Ent.cons_iff.mpr ⟨e, E2, rfl, h1, h4⟩⟩⟩
  | trans _ _ ih1 ih2 =>
    obtain ⟨E1, h1, h2⟩ := ih1 H
    obtain ⟨E2, h3, h4⟩ := ih2 h2
    exact ⟨E2, h1.trans h3, h4⟩

/-- What is left of the tree: its links are in order, and it has the entries `E`. -/
theorem serves_of_tree {lt : κ → κ → Bool} (ht : StrictTotal (ltRel lt)) {up : Bool} {t : BTree κ δ} {T : Shape} {E D : List (κ × Option δ)} (hT : TreeAt up t T) (hE : Ent t.at T.ids E)
    (hs : E.Pairwise fun a b => lt a.1 b.1 = true) (hp : E.Perm D) : ServesEntries lt t D := by
  have hn : (D.map (·.1)).Nodup := by
    refine (hp.map (·.1)).nodup_iff.mp ?_
    rw [List.Nodup, List.pairwise_map]
    refine hs.imp ?_
    intro a b hab he
    rw [he] at hab
    exact ht.irrefl _ hab
  have hcar : Carries t T (dataOf D) := by
    intro k d
    rw [dataOf_iff hn, ← hp.mem_iff, hE.mem]
    simp only [entryAt_some]
  have hsrt : Srt lt t.at T := by
    refine ⟨?_, fun i hi => ?_⟩
    · have key : ∀ (L : List Nat) (E : List (κ × Option δ)), Ent t.at L E → (E.Pairwise fun a b => lt a.1 b.1 = true) → L.Pairwise (KLt lt t.at) := by
        intro L
        induction L with
        | nil => intro E _ _; exact .nil
        | cons i L ih =>
          intro E hE hs
          obtain ⟨e, E', rfl, h1, h2⟩ := Ent.cons_iff.mp hE
          obtain ⟨s1, s2⟩ := List.pairwise_cons.mp hs
          refine List.pairwise_cons.mpr ⟨fun j hj => ?_, ih E' h2 s2⟩
          have : some (entryAt t.at j) ∈ (L.map (entryAt t.at)).map some := by simp; exact ⟨j, hj, rfl⟩
          rw [h2] at this
          simp only [List.mem_map] at this
          obtain ⟨_, ⟨e', he', rfl⟩, h3⟩ := this
          have h3 := (Option.some.inj h3).symm
          exact ⟨e.1, e'.1, keyOf_entry h1, keyOf_entry h3, s1 e' he'⟩
      exact key _ _ hE hs
    · have : some (entryAt t.at i) ∈ (T.ids.map (entryAt t.at)).map some := by simp; exact ⟨i, hi, rfl⟩
      rw [hE] at this
      simp only [List.mem_map] at this
      obtain ⟨_, ⟨e', he', rfl⟩, h3⟩ := this
      rw [keyOf_entry (Option.some.inj h3).symm]; rfl
  exact ⟨search_map ht hT hsrt hcar, fun _ => inorder_map hT.root (by cases up with | true => exact hT.linked.weaken | false => exact hT.linked) hT.nodup hsrt hcar, bounds_entries ht hn hT hsrt hcar⟩

/-- `split` at a key of the tree. -/
theorem splaySplit_present {lt : κ → κ → Bool} (ht : StrictTotal (ltRel lt)) {t : BTree κ δ} {D : List (κ × Option δ)} (h : SplayHas lt t D) {x : κ} (hx : Has D x) :
    ∃ t' o, ServesEntries lt t' (splitLow lt x D) ∧ rootKey t' = some x ∧ t'.size = t.size ∧ SplayHas lt o (splitHigh lt x D) ∧ FullOf o (splitHigh lt x D).length ∧
      EndsWith (fun n => splaySplit lt n t x) (.ok (t', some o)) := by
  obtain ⟨E, hp, ⟨rfl, _⟩ | ⟨T, st, hs⟩⟩ := h
  · rw [List.nil_perm.mp hp] at hx; obtain ⟨d, hd⟩ := hx; cases hd
  obtain ⟨d, hk⟩ := (has_perm hp x).mp hx
  obtain ⟨i, hi, ei⟩ := st.ent.mem.mp hk
  obtain ⟨c, A0, B0, rfl⟩ := plug_of_mem T i hi
  have hki := keyOf_entry ei
  obtain ⟨A, B, t1, x1, x2, x3, x4, x5⟩ := splay_loop c.length c t A0 B0 i (Nat.le_refl _) st.tree
  have se := SameContent.entries x3 x4
  have st1 := st.turn se x2 x1
  have hki1 : keyOf t1.at i = some x := by rw [se.keyOf, hki]
  have st1' : Stored t1 (Around.plug [] (.node A i B)) E := st1
  obtain ⟨E1, E2, e, rfl, hei, he1, he2⟩ := rb_entries st1'.ent
  have hek : e.1 = x := by have := keyOf_entry hei; rw [hki1] at this; exact (Option.some.inj this).symm
  subst hek
  simp only [Around.before, Around.after, List.nil_append, List.append_nil] at he1 he2
  obtain ⟨hH, hL⟩ := filter_high ht hs
  have hpH : (splitHigh lt e.1 (E1 ++ e :: E2)).Perm (splitHigh lt e.1 D) := hp.filter _
  have hpL : (splitLow lt e.1 (E1 ++ e :: E2)).Perm (splitLow lt e.1 D) := hp.filter _
  rw [hH] at hpH
  rw [hL] at hpL
  have hsL : (E1 ++ [e]).Pairwise fun a b => lt a.1 b.1 = true := hs.sublist (by simp)
  have hsH : E2.Pairwise fun a b => lt a.1 b.1 = true := hs.sublist (by simp)
  obtain ⟨⟨n, en, n1, n2, n3⟩, hlA, hlB⟩ := x2.linked
  have hroot : i = t1.rootIdx := by have := x2.root; rw [root_node] at this; exact Option.some.inj this
  have hsrt1 := st1.srt hs
  have pre : ∀ fuel > (Around.plug c (.node A0 i B0)).ids.length + 1 + c.length, searchPair lt fuel t e.1 = .ok (some i, Around.up c) ∧ splay fuel t i (Around.up c) = .ok t1 := by
    intro fuel hf
    have h1 := stored_searchP ht st hs hki fuel (by omega)
    exact ⟨by simp only [searchPair, h1, ok_bind], by simp only [splay, x5 fuel (by omega), ok_bind]⟩
  cases hB : B with
  | leaf =>
    subst hB
    have hE2 : E2 = [] := List.length_eq_zero_iff.mp he2.length
    subst hE2
    refine ⟨t1, btEmpty false, serves_of_tree ht x2 st1.ent hs hpL, by rw [rootKey, ← hroot, hki1], x3.size, ?_, ?_, ?_⟩
    · rw [List.nil_perm.mp hpH]; exact SplayHas.empty lt false
    · rw [List.nil_perm.mp hpH]; refine ⟨rfl, rfl, rfl, ?_, ?_⟩ <;> simp [btEmpty]
    · refine ⟨(Around.plug c (.node A0 i B0)).ids.length + 1 + c.length + 1, fun fuel hf => ?_⟩
      obtain ⟨h1, h2⟩ := pre fuel (by omega)
      have n2' : n.right = none := n2
      simp only [splaySplit, h1, ok_bind, h2, ← hroot, getNode_ok en, n2']
  | node P s Q =>
    have n2' : n.right = some s := by rw [n2, hB, root_node]
    have hnd := x2.nodup
    have hndB : B.ids.Nodup := by
      simp only [Shape.ids] at hnd
      exact (List.nodup_cons.mp (List.nodup_append.mp hnd).2.1).2
    have hiB : i ∉ B.ids := by
      simp only [Shape.ids] at hnd
      exact (List.nodup_cons.mp (List.nodup_append.mp hnd).2.1).1
    have hAB : ∀ a ∈ A.ids, a ∉ B.ids := by
      intro a ha hb
      simp only [Shape.ids] at hnd
      exact (List.nodup_append.mp hnd).2.2 a ha a (by simp [hb]) rfl
    have hiA : ∀ a ∈ A.ids, a ≠ i := by
      intro a ha
      simp only [Shape.ids] at hnd
      exact (List.nodup_append.mp hnd).2.2 a ha i (by simp)
    -- the elements
    have hdfs : ∃ m0, ∀ fuel, m0 ≤ fuel → treeDfs fuel t1 .pre (some s) = .ok (B.pre.filterMap t1.at) := by
      refine ⟨B.ids.length + 1, fun fuel hf => ?_⟩
      obtain ⟨f, rfl⟩ : ∃ f, fuel = f + 1 + B.ids.length := ⟨fuel - B.ids.length - 1, by omega⟩
      have := pre_steps hlB.weaken (f + 1) [] []
      rw [hB, root_node, ← hB, while_stop _ (by rfl)] at this
      have e : ({ todo := pushIf (some s) [], visit := [] } : VisitSt κ δ) = ⟨[s], []⟩ := rfl
      rw [e] at this
      simp [treeDfs, preOrder, this]
    obtain ⟨m0, hdfs⟩ := hdfs
    obtain ⟨F, hF1, hF2⟩ := he2.perm (Shape.pre_perm B).symm
    have hent := entriesOf_pre _ _ hF2
    have hndF : (F.map (·.1)).Nodup := by
      refine (hF1.map (·.1)).nodup_iff.mp ?_
      rw [List.Nodup, List.pairwise_map]
      refine hsH.imp ?_
      intro a b hab he
      rw [he] at hab
      exact ht.irrefl _ hab
    have hfe : FullOf (btEmpty false : BTree κ δ) ([] : List (κ × Option δ)).length := by refine ⟨rfl, rfl, rfl, ?_, ?_⟩ <;> simp [btEmpty]
    obtain ⟨o, ho1, ho2, n1o, ho3⟩ := splitInsert_all ht _ F (btEmpty false) [] (SplayHas.empty lt false) hfe hent hndF (by rintro e _ ⟨_, h⟩; cases h)
    simp only [List.append_nil] at ho1 ho2
    have hpF : F.reverse.Perm (splitHigh lt e.1 D) := (List.reverse_perm F).trans (hF1.symm.trans hpH)
    -- the second loop
    have hpath : B.pre.Pairwise fun x y => y ∉ (Shape.node A i B).path x := by
      refine List.Pairwise.imp_of_mem ?_ (Shape.pre_path B hndB)
      intro a b ha hb hab hmem
      have ha := (Shape.pre_perm B).mem_iff.mp ha
      have hb := (Shape.pre_perm B).mem_iff.mp hb
      have hai : a ≠ i := fun h => hiB (h ▸ ha)
      have haA : a ∉ A.ids := fun h => hAB a h ha
      simp only [Shape.path, if_neg hai, if_neg haA, List.mem_cons] at hmem
      rcases hmem with rfl | hmem
      · exact hiB hb
      · exact hab hmem
    obtain ⟨t2, hE2, hr2⟩ := splitClear_all ht x2 hsrt1 B.pre.reverse [] t1 ⟨fun j => by simp, .refl t1, rfl⟩
      (fun j hj => by
        have := (Shape.pre_perm B).mem_iff.mp (List.mem_reverse.mp hj)
        simp [Shape.ids, this]) (by simpa using hpath)
    simp only [List.reverse_reverse, List.append_nil] at hE2
    have hat2 : ∀ j, j ∉ B.ids → t2.at j = t1.at j := fun j hj => by
      rw [hE2.cells, if_neg (fun h => hj ((Shape.pre_perm B).mem_iff.mp h))]
    have en2 : t2.at i = some n := by rw [hat2 i hiB, en]
    obtain ⟨t3, e3, a3, r3, q3⟩ := modNode_spec (t := t2) (i := i) (fun n => { n with right := none }) (by rw [en2]; rfl)
    have en3 : t3.at i = some { n with right := none } := by rw [a3]; simp [mapAt, en2]
    have hat3 : ∀ j ∈ A.ids, t3.at j = t1.at j := fun j hj => by
      rw [a3]; unfold mapAt; rw [if_neg (hiA j hj)]; exact hat2 j (hAB j hj)
    have T3 : TreeAt true t3 (.node A i .leaf) := by
      refine ⟨by rw [root_node, q3, hE2.root, hroot], ⟨⟨_, en3, n1, rfl, n3⟩, ?_, trivial⟩, ?_⟩
      · exact linked_congr (fun j hj => by unfold linksOf; rw [hat3 j hj]) hlA
      · simp only [Shape.ids] at hnd ⊢
        exact hnd.sublist (by simp)
    have ent3 : Ent t3.at (Shape.node A i .leaf).ids (E1 ++ [e]) := by
      refine Ent.append_iff.mpr ⟨E1, [e], rfl, he1.congr fun j hj => by unfold entryAt; rw [hat3 j hj], Ent.cons_iff.mpr ⟨e, [], rfl, ?_, Ent.nil _⟩⟩
      unfold entryAt at hei ⊢
      rw [en3]; rw [en] at hei; exact hei
    refine ⟨t3, o, serves_of_tree ht T3 ent3 hsL hpL, ?_, by rw [r3.size, hE2.rest.size, x3.size], splayHas_perm ho1 hpF, by rw [← hpF.length_eq]; exact ho2, ?_⟩
    · unfold rootKey keyOf
      rw [q3, hE2.root, ← hroot, en3]
      simpa [keyOf, en] using hki1
    · refine ⟨(Around.plug c (.node A0 i B0)).ids.length + c.length + m0 + n1o + (Shape.node A i B).depth + 4, fun fuel hf => ?_⟩
      obtain ⟨h1, h2⟩ := pre fuel (by omega)
      have hrev : (B.pre.filterMap t1.at).reverse = B.pre.reverse.filterMap t1.at := by rw [List.filterMap_reverse]
      have e3' : modNode t2 t2.rootIdx (fun n => { n with right := none }) = .ok t3 := by rw [hE2.root, ← hroot]; exact e3
      simp only [splaySplit, h1, ok_bind, h2, ← hroot, getNode_ok en, n2', hdfs fuel (by omega), ho3 fuel (by omega), hrev, hr2 fuel (by omega), e3']

/-! ## The claims -/

/-- **C89** after any history the splay tree copes with (C88), for a key `x` of the tree: the tree keeps the entries up to `x`, with `x` at the root, and
`split` returns a splay tree with the greater entries, on which any further history it copes with does what C88 says. Missing: absent keys
(`C89_absent`), the empty tree (`C89_empty`), and the `size` of the tree, which is not adjusted. -/
theorem C89_copes_partial {lt : κ → κ → Bool} (ht : StrictTotal (ltRel lt)) (os : Bool) (ops : List (BstOp κ δ))
    (hc : ∃ n0, ∀ fuel, n0 ≤ fuel → CopesSplayAll lt fuel (btEmpty os) [] ops) (x : κ) (hx : Has (bstContents [] ops) x) :
    ∃ t t' o, EndsWith (fun n => splayRun lt n (btEmpty os) ops) (.ok (t, bstReturns [] ops)) ∧ EndsWith (fun n => splaySplit lt n t x) (.ok (t', some o)) ∧
      ServesEntries lt t' (splitLow lt x (bstContents [] ops)) ∧ rootKey t' = some x ∧ t'.size = t.size ∧
      ServesEntries lt o (splitHigh lt x (bstContents [] ops)) ∧
      ∀ more, (∃ n0, ∀ fuel, n0 ≤ fuel → CopesSplayAll lt fuel o (splitHigh lt x (bstContents [] ops)) more) →
        ∃ o', EndsWith (fun n => splayRun lt n o more) (.ok (o', bstReturns (splitHigh lt x (bstContents [] ops)) more)) ∧
          ServesSplay lt o' (bstContents (splitHigh lt x (bstContents [] ops)) more) more := by
  obtain ⟨t, h, _, hr⟩ := splayHas_run ht ops _ [] (SplayHas.empty lt os) hc
  obtain ⟨t', o, h1, h2, h3, h4, _, h6⟩ := splaySplit_present ht h hx
  refine ⟨t, t', o, hr, h6, h1, h2, h3, h4.serves ht, fun more hm => ?_⟩
  obtain ⟨o', g1, g2, g3⟩ := splayHas_run ht more o _ h4 hm
  exact ⟨o', g3, g1.serves ht, g2⟩

/-- **C89** for distinct keys, inserted in any order, when `x` is one of them; fresh keys may then be inserted into the new tree. Missing: see
`C89_copes_partial`. -/
theorem C89_inserts_partial {lt : κ → κ → Bool} (ht : StrictTotal (ltRel lt)) (os : Bool) (ins : List (κ × Option δ)) (hd : (ins.map (·.1)).Nodup) (x : κ)
    (hx : Has (bstContents [] (insertsOf ins)) x) :
    ∃ t, EndsWith (fun n => splayRun lt n (btEmpty os) (insertsOf ins)) (.ok (t, bstReturns [] (insertsOf ins))) ∧ Splits lt t (bstContents [] (insertsOf ins)) x ∧
      ∃ t' o, EndsWith (fun n => splaySplit lt n t x) (.ok (t', some o)) ∧
        ∀ new : List (κ × Option δ), (new.map (·.1)).Nodup → (∀ e ∈ new, ¬ Has (splitHigh lt x (bstContents [] (insertsOf ins))) e.1) →
          ∃ o', EndsWith (fun n => splayRun lt n o (insertsOf new)) (.ok (o', bstReturns (splitHigh lt x (bstContents [] (insertsOf ins))) (insertsOf new))) ∧
            ServesEntries lt o' (bstContents (splitHigh lt x (bstContents [] (insertsOf ins))) (insertsOf new)) := by
  have hfe : FullOf (btEmpty os : BTree κ δ) 0 := by refine ⟨rfl, rfl, rfl, ?_, ?_⟩ <;> simp [btEmpty]
  obtain ⟨t, h1, _, hr⟩ := splay_fill ht ins (btEmpty os) [] (SplayHas.empty lt os) hfe hd (by rintro e _ ⟨_, h⟩; cases h)
  obtain ⟨t', o, g1, _, _, g4, g5, g6⟩ := splaySplit_present ht h1 hx
  refine ⟨t, hr, ⟨t', o, g6, g1, g4.serves ht⟩, t', o, g6, fun new hn hab => ?_⟩
  obtain ⟨o', k1, _, k3⟩ := splay_fill ht new o _ g4 g5 hn hab
  exact ⟨o', k3, k1.serves ht⟩

theorem splaySplit_absent {lt : κ → κ → Bool} (ht : StrictTotal (ltRel lt)) {t : BTree κ δ} {D : List (κ × Option δ)} (h : SplayHas lt t D) {x : κ} (hne : D ≠ []) (hx : ¬ Has D x) :
    EndsWith (fun n => splaySplit lt n t x) (.ok (t, none)) := by
  obtain ⟨E, hp, ⟨rfl, _⟩ | ⟨T, st, hs⟩⟩ := h
  · exact absurd (List.nil_perm.mp hp) hne
  obtain ⟨c, S, rfl, hF, hrun⟩ := searchP_spec ht st.tree (st.srt hs) x
  rcases hF.here with rfl | ⟨l, i, r, rfl, hki⟩
  · refine ⟨(Around.plug c .leaf).depth + 2, fun fuel hf => ?_⟩
    have h1 : bstSearchP lt fuel t x = .ok (some (none, Around.up c)) := hrun fuel (by omega)
    simp only [splaySplit, searchPair, h1, ok_bind]
  · obtain ⟨E1, E2, e, rfl, hei, _⟩ := rb_entries st.ent
    have hek : e.1 = x := by have := keyOf_entry hei; rw [hki] at this; exact (Option.some.inj this).symm
    exact absurd ((has_perm hp x).mpr ⟨e.2, by rw [← hek]; simp⟩) hx

/-- `split` at a key that is not in the tree returns `None` and changes nothing, whatever keys are greater. -/
theorem C89_absent {lt : κ → κ → Bool} (ht : StrictTotal (ltRel lt)) (os : Bool) (ops : List (BstOp κ δ))
    (hc : ∃ n0, ∀ fuel, n0 ≤ fuel → CopesSplayAll lt fuel (btEmpty os) [] ops) (x : κ) (hne : bstContents [] ops ≠ []) (hx : ¬ Has (bstContents [] ops) x) :
    ∃ t, EndsWith (fun n => splayRun lt n (btEmpty os) ops) (.ok (t, bstReturns [] ops)) ∧ EndsWith (fun n => splaySplit lt n t x) (.ok (t, none)) := by
  obtain ⟨t, h, _, hr⟩ := splayHas_run ht ops _ [] (SplayHas.empty lt os) hc
  exact ⟨t, hr, splaySplit_absent ht h hne hx⟩

/-- `split` of an empty tree raises `TypeError`. -/
theorem C89_empty (lt : κ → κ → Bool) (os : Bool) (x : κ) : EndsWith (fun n => splaySplit lt n (btEmpty os : BTree κ δ) x) (.error .typeError) :=
  ⟨0, fun _ _ => rfl⟩

theorem nat_strict : StrictTotal (ltRel fun a b : Nat => decide (a < b)) :=
  ⟨fun a h => by simp at h, fun a b c h1 h2 => by simp at *; omega, fun a b => by simp; omega⟩

/-- **C89** in full is false: 3 is not among the keys 1 and 5. -/
theorem C89_full_false : ¬ C89_full (fun a b : Nat => decide (a < b)) Unit := by
  intro h
  obtain ⟨t, ⟨n1, h1⟩, t', o, ⟨n2, h2⟩, _⟩ := h false [(1, none), (5, none)] 3 (by decide)
  have hfe : FullOf (btEmpty false : BTree Nat Unit) 0 := by refine ⟨rfl, rfl, rfl, ?_, ?_⟩ <;> simp [btEmpty]
  obtain ⟨s, hs, _, n3, h3⟩ := splay_fill nat_strict [(1, none), (5, none)] (btEmpty false) [] (SplayHas.empty _ false) hfe (by decide) (by rintro e _ ⟨_, h⟩; cases h)
  obtain ⟨n4, h4⟩ := splaySplit_absent nat_strict hs (x := 3) (by decide) (by rintro ⟨d, hd⟩; simp [bstContents, insertsOf, bstSpec] at hd)
  have e1 := h1 (max (max n1 n2) (max n3 n4)) (by omega)
  have e2 := h2 (max (max n1 n2) (max n3 n4)) (by omega)
  have e3 := h3 (max (max n1 n2) (max n3 n4)) (by omega)
  have e4 := h4 (max (max n1 n2) (max n3 n4)) (by omega)
  dsimp only at e1 e2 e3 e4
  rw [e3] at e1
  cases e1
  rw [e4] at e2
  cases e2

/-- Seven keys, split at the fourth; the new tree takes two more. -/
example : Has (bstContents [] (insertsOf ((List.range 7).map fun i => (3 * i % 7, some i)))) 3 := ⟨some 1, by decide⟩

example : ((splayRun (fun a b : Nat => decide (a < b)) 60 (btEmpty true) (insertsOf ((List.range 7).map fun i => (3 * i % 7, some i)))).bind fun r => do
      let s ← splaySplit (fun a b : Nat => decide (a < b)) 60 r.1 3
      let q ← splayRun (fun a b : Nat => decide (a < b)) 60 (s.2.getD (btEmpty true)) (insertsOf [(9, none), (2, some 8)])
      let l1 ← treeDfs 60 s.1 .ino none
      let l2 ← treeDfs 60 q.1 .ino none
      .ok (l1.map (fun n => (n.key, n.data)), l2.map (fun n => (n.key, n.data)))) =
    .ok ([(some 0, some 0), (some 1, some 5), (some 2, some 3), (some 3, some 1)], [(some 2, some 8), (some 4, some 6), (some 5, some 4), (some 6, some 2), (some 9, none)]) := by decide +kernel

end Props
