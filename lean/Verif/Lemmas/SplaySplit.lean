import Verif.Model.SplayJoin
import Verif.Props.SplayDelete

/-!
# Splitting splay trees
-/
namespace Props
open Py Model Spec
set_option linter.unusedSectionVars false
variable {κ δ : Type} [DecidableEq κ]

/-! ## Paths from the root -/

/-- The positions on the way from the root to `j`. -/
def Shape.path : Shape → Nat → List Nat
  | .leaf, _ => []
  | .node l i r, j => i :: if j = i then [] else if j ∈ l.ids then l.path j else r.path j

theorem Shape.path_mem : ∀ (T : Shape) (j : Nat), ∀ a ∈ T.path j, a ∈ T.ids := by
  intro T
  induction T with
  | leaf => intro j a ha; cases ha
  | node l i r ih1 ih2 =>
    intro j a ha
    simp only [Shape.path, List.mem_cons] at ha
    simp only [Shape.ids, List.mem_append, List.mem_cons]
    rcases ha with rfl | ha
    · simp
    · split at ha
      · cases ha
      · split at ha
        · exact .inl (ih1 _ _ ha)
        · exact .inr (.inr (ih2 _ _ ha))

/-- In pre-order, no position comes after one it is on the way to. -/
theorem Shape.pre_path : ∀ (T : Shape), T.ids.Nodup → T.pre.Pairwise fun x y => y ∉ T.path x := by
  intro T
  induction T with
  | leaf => intro _; exact .nil
  | node l i r ih1 ih2 =>
    intro hnd
    simp only [Shape.ids] at hnd
    obtain ⟨n1, n2, dj⟩ := List.nodup_append.mp hnd
    obtain ⟨n3, n4⟩ := List.nodup_cons.mp n2
    have hl : ∀ a ∈ l.pre, a ∈ l.ids := fun a ha => (Shape.pre_perm l).mem_iff.mp ha
    have hr : ∀ a ∈ r.pre, a ∈ r.ids := fun a ha => (Shape.pre_perm r).mem_iff.mp ha
    have hli : ∀ a ∈ l.ids, a ≠ i := fun a ha => dj a ha i (by simp)
    have hri : ∀ a ∈ r.ids, a ≠ i := fun a ha e => n3 (e ▸ ha)
    have hlr : ∀ a ∈ l.ids, ∀ b ∈ r.ids, a ≠ b := fun a ha b hb => dj a ha b (by simp [hb])
    simp only [Shape.pre, List.pairwise_cons, List.pairwise_append, List.mem_append]
    refine ⟨?_, ?_, ?_, ?_⟩
    · intro y hy
      simp only [Shape.path, if_true, List.mem_singleton]
      rcases hy with hy | hy
      · exact hli y (hl y hy)
      · exact hri y (hr y hy)
    · refine List.Pairwise.imp_of_mem ?_ (ih1 n1)
      intro x y hx hy h
      have hx := hl x hx
      simp only [Shape.path, if_neg (hli x hx), if_pos hx, List.mem_cons, not_or]
      exact ⟨hli y (hl y hy), h⟩
    · refine List.Pairwise.imp_of_mem ?_ (ih2 n4)
      intro x y hx hy h
      have hx := hr x hx
      have hxl : x ∉ l.ids := fun h => hlr x h x hx rfl
      simp only [Shape.path, if_neg (hri x hx), if_neg hxl, List.mem_cons, not_or]
      exact ⟨hri y (hr y hy), h⟩
    · intro x hx y hy h
      have hx := hl x hx
      have hy := hr y hy
      simp only [Shape.path, if_neg (hli x hx), if_pos hx, List.mem_cons] at h
      rcases h with h | h
      · exact hri y hy h
      · exact hlr y (Shape.path_mem l x y h) y hy rfl

/-- The search for a key finds its node as long as the cells on the way to it are kept. -/
theorem search_kept {lt : κ → κ → Bool} (ht : StrictTotal (ltRel lt)) {up : Bool} {t t' : BTree κ δ} {k : κ} : ∀ (S : Shape) (p q : Option Nat) (j : Nat),
    Linked up t.at p S → Srt lt t.at S → S.ids.Nodup → j ∈ S.ids → keyOf t.at j = some k → (∀ a ∈ S.path j, t'.at a = t.at a) →
    ∃ q', ∀ fuel > S.depth + 1, whileLoop fuel bstSearchCond (bstSearchBody lt t' k) ⟨S.root, q, false⟩ = .ok ⟨some j, q', true⟩ := by
  intro S
  induction S with
  | leaf => intro _ _ j _ _ _ hj; cases hj
  | node l i r ih1 ih2 =>
    intro p q j hl hs hnd hj hk hp
    obtain ⟨⟨n, en, n1, n2, _⟩, hl1, hl2⟩ := hl
    obtain ⟨a, ha⟩ := Option.isSome_iff_exists.mp (hs.2 i (by simp [Shape.ids]))
    have hna : n.key = some a := by simpa [keyOf, en] using ha
    have en' : t'.at i = some n := by rw [hp i (by simp [Shape.path]), en]
    simp only [Shape.ids] at hnd hj
    obtain ⟨m1, m2, dj⟩ := List.nodup_append.mp hnd
    obtain ⟨m3, m4⟩ := List.nodup_cons.mp m2
    by_cases hji : j = i
    · subst hji
      rw [hk] at ha; cases ha
      refine ⟨q, fun fuel hfu => ?_⟩
      obtain ⟨f, rfl⟩ : ∃ f, fuel = f + 2 := ⟨fuel - 2, by omega⟩
      simp [whileLoop, bstSearchCond, bstSearchBody, Shape.root, asIdx, getNode_ok en', hna]
    · have hsrt := hs.1
      simp only [Shape.ids, List.pairwise_append, List.pairwise_cons] at hsrt
      have hka : a ≠ k := by
        rintro rfl
        rcases List.mem_append.mp hj with h | h
        · obtain ⟨x, y, hx, hy, hxy⟩ := hsrt.2.2 j h i (by simp)
          rw [hk] at hx; rw [ha] at hy; cases hx; cases hy
          exact ht.irrefl _ hxy
        · obtain ⟨x, y, hx, hy, hxy⟩ := hsrt.2.1.1 j ((List.mem_cons.mp h).resolve_left hji)
          rw [ha] at hx; rw [hk] at hy; cases hx; cases hy
          exact ht.irrefl _ hxy
      have hstep : bstSearchBody lt t' k ⟨some i, q, false⟩ = .ok ⟨if lt k a then l.root else r.root, some i, false⟩ := by
        simp only [bstSearchBody, asIdx, ok_bind, getNode_ok en', hna, Option.some.injEq, if_neg hka, cmpKey, n1, n2]
      by_cases hjl : j ∈ l.ids
      · have hlt : lt k a = true := by
          obtain ⟨x, y, hx, hy, hxy⟩ := hsrt.2.2 j hjl i (by simp)
          rw [hk] at hx; rw [ha] at hy; cases hx; cases hy
          exact hxy
        obtain ⟨q', hrun⟩ := ih1 (some i) (some i) j hl1 hs.left m1 hjl hk (fun b hb => hp b (by simp [Shape.path, hji, hjl, hb]))
        refine ⟨q', fun fuel hf => ?_⟩
        obtain ⟨f, rfl⟩ : ∃ f, fuel = f + 1 := ⟨fuel - 1, by omega⟩
        rw [root_node]
        refine (while_step f (by rfl) hstep).trans ?_
        rw [if_pos hlt]
        exact hrun f (by simp only [Shape.depth] at hf; omega)
      · have hjr : j ∈ r.ids := by
          rcases List.mem_append.mp hj with h | h
          · exact absurd h hjl
          · exact (List.mem_cons.mp h).resolve_left hji
        have hlt : lt a k = true := by
          obtain ⟨x, y, hx, hy, hxy⟩ := hsrt.2.1.1 j hjr
          rw [hk] at hy; rw [ha] at hx; cases hx; cases hy
          exact hxy
        have hnlt : ¬ lt k a = true := fun h => ht.irrefl _ (ht.trans _ _ _ h hlt)
        obtain ⟨q', hrun⟩ := ih2 (some i) (some i) j hl2 hs.right m4 hjr hk (fun b hb => hp b (by simp [Shape.path, hji, hjl, hb]))
        refine ⟨q', fun fuel hf => ?_⟩
        obtain ⟨f, rfl⟩ : ∃ f, fuel = f + 1 := ⟨fuel - 1, by omega⟩
        rw [root_node]
        refine (while_step f (by rfl) hstep).trans ?_
        rw [if_neg hnlt]
        exact hrun f (by simp only [Shape.depth] at hf; omega)

/-! ## The second loop -/

/-- The cells of `L` are emptied. -/
structure Emptied (t t' : BTree κ δ) (L : List Nat) : Prop where
  cells : ∀ j, t'.at j = if j ∈ L then none else t.at j
  rest : SameRest t t'
  root : t'.rootIdx = t.rootIdx

theorem splitClear_spec {lt : κ → κ → Bool} (ht : StrictTotal (ltRel lt)) {t t' : BTree κ δ} {T : Shape} {L : List Nat} {j : Nat} {n : BNode κ δ} (hT : TreeAt true t T)
    (hs : Srt lt t.at T) (hL : Emptied t t' L) (hj : j ∈ T.ids) (en : t.at j = some n) (hp : ∀ a ∈ T.path j, a ∉ L) :
    ∃ t'', Emptied t t'' (j :: L) ∧ ∀ fuel > T.depth + 1, splitClear lt fuel n t' = .ok t'' := by
  obtain ⟨k, hk⟩ := Option.isSome_iff_exists.mp (hs.2 j hj)
  have hnk : n.key = some k := by simpa [keyOf, en] using hk
  have hroot := hT.root
  obtain ⟨l, i, r, rfl⟩ : ∃ l i r, T = .node l i r := by
    cases T with
    | leaf => cases hroot
    | node l i r => exact ⟨l, i, r, rfl⟩
  have hpt : ∀ a ∈ (Shape.node l i r).path j, t'.at a = t.at a := fun a ha => by rw [hL.cells, if_neg (hp a ha)]
  obtain ⟨q', hrun⟩ := search_kept (t' := t') ht _ none none j hT.linked hs hT.nodup hj hk hpt
  obtain ⟨m, a, em, ea⟩ := root_key hT hs
  rw [root_node] at hroot
  have hri : i = t'.rootIdx := by rw [hL.root]; exact Option.some.inj hroot
  have em' : t'.at t'.rootIdx = some m := by
    rw [← hri, hpt i (by simp [Shape.path]), Option.some.inj hroot, em]
  have hjl : j ∉ L := by
    intro h
    refine hp j ?_ h
    clear hrun hpt hp em em' en hri hroot
    have key : ∀ S : Shape, j ∈ S.ids → j ∈ S.path j := by
      intro S
      induction S with
      | leaf => intro h; cases h
      | node l i r ih1 ih2 =>
        intro h
        simp only [Shape.ids, List.mem_append, List.mem_cons] at h
        simp only [Shape.path, List.mem_cons]
        by_cases e : j = i
        · exact .inl e
        · rw [if_neg e]
          by_cases e' : j ∈ l.ids
          · rw [if_pos e']; exact .inr (ih1 e')
          · rw [if_neg e']; exact .inr (ih2 ((h.resolve_left e').resolve_left e))
    exact key _ hj
  have enj : t'.at j = some n := by rw [hL.cells, if_neg hjl, en]
  have hlt : j < t'.arr.length := by
    unfold BTree.at at enj
    rcases Nat.lt_or_ge j t'.arr.length with h | h
    · exact h
    · rw [List.getElem?_eq_none h] at enj; cases enj
  refine ⟨{ t' with arr := t'.arr.set j none }, ⟨?_, ?_, hL.root⟩, fun fuel hf => ?_⟩
  · intro x
    show ((t'.arr.set j none)[x]?).join = _
    by_cases e : x = j
    · subst e; simp [hlt]
    · rw [List.getElem?_set_ne (Ne.symm e)]
      have := hL.cells x
      unfold BTree.at at this
      rw [this]
      simp only [List.mem_cons, e, false_or]; rfl
  · have := hL.rest
    exact ⟨this.num, this.top, this.size, this.orderStat, by simp [this.len]⟩
  · have hsearch : bstSearchP lt fuel t' k = .ok (some (some j, q')) := by
      have := hrun fuel hf
      rw [root_node, hri] at this
      simp only [bstSearchP, getNode_ok em', ea, ok_bind, this, reduceCtorEq, if_false]
    simp only [splitClear, hnk, searchPair, hsearch, ok_bind, asIdx, wr_of_lt _ hlt]

theorem splitClear_all {lt : κ → κ → Bool} (ht : StrictTotal (ltRel lt)) {t : BTree κ δ} {T : Shape} (hT : TreeAt true t T) (hs : Srt lt t.at T) :
    ∀ (R Q : List Nat) (t' : BTree κ δ), Emptied t t' Q → (∀ j ∈ R, j ∈ T.ids) → ((R.reverse ++ Q).Pairwise fun x y => y ∉ T.path x) →
    ∃ t'', Emptied t t'' (R.reverse ++ Q) ∧ ∀ fuel > T.depth + 1, forList (R.filterMap t.at) t' (splitClear lt fuel) = .ok t'' := by
  intro R
  induction R with
  | nil => intro Q t' h _ _; exact ⟨t', h, fun _ _ => rfl⟩
  | cons j R ih =>
    intro Q t' h hR hp
    obtain ⟨n, en⟩ := Option.isSome_iff_exists.mp (linked_isSome hT.linked j (hR j (by simp)))
    have hp' : (R.reverse ++ (j :: Q)).Pairwise fun x y => y ∉ T.path x := by simpa using hp
    obtain ⟨t1, h1, r1⟩ := splitClear_spec ht hT hs h (hR j (by simp)) en (by
      have := (List.pairwise_cons.mp (List.pairwise_append.mp hp').2.1).1
      intro a ha hQ
      exact this a hQ ha)
    obtain ⟨t2, h2, r2⟩ := ih (j :: Q) t1 h1 (fun x hx => hR x (by simp [hx])) hp'
    refine ⟨t2, by simpa using h2, fun fuel hf => ?_⟩
    simp only [List.filterMap_cons, en, forList, r1 fuel hf, ok_bind, r2 fuel hf]

/-! ## The first loop -/

/-- `super().insert` of an absent key into the new tree. -/
theorem splitInsert_spec {lt : κ → κ → Bool} (ht : StrictTotal (ltRel lt)) {t : BTree κ δ} {D : List (κ × Option δ)} (h : SplayHas lt t D) (hf : FullOf t D.length) (k : κ) (d : Option δ)
    (hk : ¬ Has D k) : ∃ t', SplayHas lt t' ((k, d) :: D) ∧ FullOf t' (D.length + 1) ∧ ∃ n0, ∀ fuel, n0 ≤ fuel → bstInsert lt fuel t k d = .ok t' := by
  obtain ⟨f1, f2, f3, f4, f5⟩ := hf
  have hg : grown t ≤ 4 * (t.num + 1) := by unfold grown; split <;> omega
  obtain ⟨E, hp, ⟨rfl, hcl⟩ | ⟨T, st, hs⟩⟩ := h
  · have := List.nil_perm.mp hp
    subst this
    obtain ⟨n, en, hkn, h1, h2, h3⟩ := hcl.root
    obtain ⟨t1, e1, a1, r1, q1⟩ := modNode_spec (t := t) (i := t.rootIdx) (fun n => { n with key := some k, data := d }) (by rw [en]; rfl)
    have en1 : t1.at t.rootIdx = some { n with key := some k, data := d } := by rw [a1]; exact mapAt_same en
    have st1 : Stored t1 (.node .leaf t.rootIdx .leaf) [(k, d)] := by
      refine ⟨⟨by rw [q1]; rfl, ⟨⟨_, en1, h1, h2, fun _ => h3⟩, trivial, trivial⟩, by simp [Shape.ids]⟩,
        Ent.cons_iff.mpr ⟨_, _, rfl, entryAt_some.mpr ⟨_, en1, rfl, rfl⟩, Ent.nil _⟩, ?_, ?_, ?_, ?_, ?_, ?_⟩
      · intro i hi
        by_cases e : i = t.rootIdx
        · simp [Shape.ids, e]
        · rw [a1] at hi
          simp only [mapAt, if_neg e] at hi
          exact absurd (hcl.occ i hi) e
      · intro i hi
        have : i = t.rootIdx := by simpa [Shape.ids] using hi
        rw [r1.top, this]; exact hcl.low
      · rw [r1.top, r1.size]; intro hz; simp [Shape.ids, hcl.last hz]
      · rw [r1.top, r1.size]; exact hcl.ts
      · rw [r1.top, r1.len]; exact hcl.cap
      · rw [r1.num, hcl.num]; rfl
    refine ⟨t1, ⟨[(k, d)], .refl _, .inr ⟨_, st1, by simp⟩⟩, ?_, 4, fun fuel hf => ?_⟩
    · simp only [List.length_nil] at f3
      unfold FullOf
      rw [r1.size, r1.top, r1.num, r1.len]
      exact ⟨f1, f2, by simp only [List.length_nil]; omega, f4, f5⟩
    · have hs : bstSearch lt fuel t k = .ok none := by simp only [bstSearch, bstSearchP, getNode_ok en, hkn, ok_bind]; rfl
      simp only [bstInsert, hs, ok_bind, bstInsertNew, getNode_ok en, hkn, if_true]
      exact e1
  · have hk' : ∀ d, (k, d) ∉ E := fun d hd => hk ((has_perm hp k).mpr ⟨d, hd⟩)
    obtain ⟨f, c, t1, E1, E2, rfl, rfl, st1, hs1, hH, n1, hrun1⟩ := stored_hung ht st hs hk' d f1 hg
    obtain ⟨t2, sb, r2, q2, hrun2⟩ := updateSize_any (c := .inL t.top .leaf :: f :: c) (S := .leaf) st1.tree
    have se2 := sb.entries r2
    have T2 : TreeAt true t2 (Around.plug (f :: c) (.node .leaf t.top .leaf)) := ⟨by rw [q2]; exact st1.tree.root, linked_congr (fun i _ => sb.links i) st1.tree.linked, st1.tree.nodup⟩
    refine ⟨t2, ⟨_, List.perm_middle.trans (hp.cons _), .inr ⟨_, st1.turn se2 T2 rfl, hs1⟩⟩, ?_, n1 + (f :: c).length + 3, fun fuel hf => ?_⟩
    · have hne : 1 ≤ D.length := by
        rw [← hp.length_eq, ← st.num_eq, f2]; omega
      unfold FullOf
      rw [r2.size, r2.top, r2.num, r2.len, hH.size, hH.top, hH.num, hH.len]
      unfold grown
      refine ⟨by omega, by omega, by omega, ?_, ?_⟩ <;> split <;> omega
    · rw [hrun1 fuel (by omega)]
      exact hrun2 fuel (by simp at hf ⊢; omega)

/-- The nodes `ns` have the entries `E`. -/
def EntriesOf (ns : List (BNode κ δ)) (E : List (κ × Option δ)) : Prop := ns.map (fun n => (n.key, n.data)) = E.map (fun e => (some e.1, e.2))

theorem splitInsert_all {lt : κ → κ → Bool} (ht : StrictTotal (ltRel lt)) : ∀ (ns : List (BNode κ δ)) (E : List (κ × Option δ)) (t : BTree κ δ) (D : List (κ × Option δ)),
    SplayHas lt t D → FullOf t D.length → EntriesOf ns E → (E.map (·.1)).Nodup → (∀ e ∈ E, ¬ Has D e.1) →
    ∃ t', SplayHas lt t' (E.reverse ++ D) ∧ FullOf t' (E.reverse ++ D).length ∧ ∃ n0, ∀ fuel, n0 ≤ fuel → forList ns t (splitInsert lt fuel) = .ok t' := by
  intro ns
  induction ns with
  | nil =>
    intro E t D h hf hE _ _
    have : E = [] := by cases E with | nil => rfl | cons _ _ => simp [EntriesOf] at hE
    subst this
    exact ⟨t, h, hf, 0, fun _ _ => rfl⟩
  | cons n ns ih =>
    intro E t D h hf hE hnd hab
    cases E with
    | nil => simp [EntriesOf] at hE
    | cons e E =>
      simp only [EntriesOf, List.map_cons, List.cons.injEq, Prod.mk.injEq] at hE
      obtain ⟨⟨e1, e2⟩, e3⟩ := hE
      simp only [List.map_cons, List.nodup_cons] at hnd
      obtain ⟨t1, h1, f1, n1, r1⟩ := splitInsert_spec ht h hf e.1 e.2 (hab e (by simp))
      obtain ⟨t2, h2, f2, n2, r2⟩ := ih E t1 ((e.1, e.2) :: D) h1 f1 e3 hnd.2 (by
        rintro e' he' ⟨d, hd⟩
        rcases List.mem_cons.mp hd with h | h
        · exact hnd.1 (by rw [← (Prod.mk.inj h).1]; exact List.mem_map_of_mem he')
        · exact hab e' (by simp [he']) ⟨d, h⟩)
      refine ⟨t2, by simpa using h2, by simpa using f2, max n1 n2, fun fuel hf => ?_⟩
      simp only [forList, splitInsert, e1, e2, r1 fuel (by omega), ok_bind, r2 fuel (by omega)]

end Props
