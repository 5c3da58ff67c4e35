import Verif.Lemmas.ContractTree
import Verif.Props.Cartesian
import Verif.Lemmas.AvlDelete

/-!
# Deletion from Cartesian trees
-/
namespace Props
open Py Model Spec
set_option linter.unusedSectionVars false
variable {κ δ : Type} [DecidableEq κ]

theorem heapAround_congr {h h' : Cells κ δ} (e : ∀ i, prioOf h' i = prioOf h i) : ∀ {c : Around} {D : List Nat}, HeapAround h c D → HeapAround h' c D := by
  intro c
  induction c with
  | nil => intros; trivial
  | cons f c ih =>
    intro D H
    exact ⟨minHeap_congr (fun x _ => e x) H.1, fun x hx => prioLe_congr (e _) (e _) (H.2.1 x hx), ih H.2.2⟩

/-- The left child goes up, the node goes down to the right. -/
theorem heap_down_right {h : Cells κ δ} {c : Around} {A1 A2 B : Shape} {k : Nat} (hc : HeapAround h c ((Shape.node A1 k A2).ids ++ B.ids))
    (hA : MinHeap h (.node A1 k A2)) (hB : ∀ j ∈ B.ids, PrioLe h k j) : HeapAround h (.inR A1 k :: c) (A2.ids ++ B.ids) := by
  obtain ⟨h1, h2, h3⟩ := hA
  refine ⟨h2, ?_, hc.mono ?_⟩
  · intro j hj
    simp only [Frame.other, List.mem_append] at hj
    rcases hj with hj | hj | hj
    · exact h1 j (by simp [hj])
    · exact h1 j (by simp [hj])
    · exact hB j hj
  · intro j hj
    simp only [Frame.idx, Frame.other, Shape.ids, List.cons_append, List.mem_cons, List.mem_append] at hj ⊢
    rcases hj with hj | hj | hj | hj <;> simp [hj]

/-- The right child goes up, the node goes down to the left. -/
theorem heap_down_left {h : Cells κ δ} {c : Around} {A B1 B2 : Shape} {k : Nat} (hc : HeapAround h c (A.ids ++ (Shape.node B1 k B2).ids))
    (hB : MinHeap h (.node B1 k B2)) (hA : ∀ j ∈ A.ids, PrioLe h k j) : HeapAround h (.inL k B2 :: c) (A.ids ++ B1.ids) := by
  obtain ⟨h1, h2, h3⟩ := hB
  refine ⟨h3, ?_, hc.mono ?_⟩
  · intro j hj
    simp only [Frame.other, List.mem_append] at hj
    rcases hj with hj | hj | hj
    · exact h1 j (by simp [hj])
    · exact hA j hj
    · exact h1 j (by simp [hj])
  · intro j hj
    simp only [Frame.idx, Frame.other, Shape.ids, List.cons_append, List.mem_cons, List.mem_append] at hj ⊢
    rcases hj with hj | hj | hj | hj <;> simp [hj]

theorem minHeap_root {h : Cells κ δ} {A B : Shape} {k : Nat} (H : MinHeap h (.node A k B)) {j : Nat} (hj : j ∈ (Shape.node A k B).ids) (hp : (prioOf h k).isSome) :
    PrioLe h k j := by
  obtain ⟨p, ep⟩ := Option.isSome_iff_exists.mp hp
  simp only [Shape.ids, List.mem_append, List.mem_cons] at hj
  rcases hj with hj | rfl | hj
  · exact H.1 j (by simp [hj])
  · exact ⟨p, p, ep, ep, Int.le_refl _⟩
  · exact H.1 j (by simp [hj])

/-- The loop of `_trickle_down`: the node ends as a leaf, and the tree without it is heap-ordered. -/
theorem trickle_loop : ∀ (n : Nat) (c : Around) (t : BTree κ δ) (A B : Shape) (i : Nat), A.ids.length + B.ids.length ≤ n →
    TreeAt true t (Around.plug c (.node A i B)) → AllPrio t.at (Around.plug c (.node A i B)) →
    ∃ c' t', (Around.plug c' (.node .leaf i .leaf)).ids = (Around.plug c (.node A i B)).ids ∧ TreeAt true t' (Around.plug c' (.node .leaf i .leaf)) ∧
      SameRest t t' ∧ SameContent t.at t'.at ∧
      (HeapAround t.at c (A.ids ++ B.ids) → MinHeap t.at A → MinHeap t.at B → HeapAround t'.at c' []) ∧
      ∀ fuel > n, whileLoop fuel (trickleCond i) (trickleBody i) t = .ok t' := by
  intro n
  induction n with
  | zero =>
    intro c t A B i hn h _
    have hA : A = .leaf := by cases A with | leaf => rfl | node _ _ _ => simp [Shape.ids] at hn
    have hB : B = .leaf := by cases B with | leaf => rfl | node _ _ _ => simp [Shape.ids] at hn
    subst hA hB
    obtain ⟨n, en, n1, n2, _⟩ := h.node
    refine ⟨c, t, rfl, h, .refl t, .refl _, fun H _ _ => H, fun fuel hf => ?_⟩
    obtain ⟨f, rfl⟩ : ∃ f, fuel = f + 1 := ⟨fuel - 1, by omega⟩
    refine while_stop _ ?_
    have n1' : n.left = none := n1
    have n2' : n.right = none := n2
    simp only [trickleCond, getNode_ok en, ok_bind, n1', n2']; rfl
  | succ m ih =>
    intro c t A B i hn h hp
    obtain ⟨n, en, n1, n2, _⟩ := h.node
    have right : ∀ A1 k A2, A = .node A1 k A2 → trickleBody i t = rightRotate t i k → (MinHeap t.at A → MinHeap t.at B → ∀ j ∈ B.ids, PrioLe t.at k j) →
      ∃ c' t', (Around.plug c' (.node .leaf i .leaf)).ids = (Around.plug c (.node A i B)).ids ∧ TreeAt true t' (Around.plug c' (.node .leaf i .leaf)) ∧
      SameRest t t' ∧ SameContent t.at t'.at ∧
      (HeapAround t.at c (A.ids ++ B.ids) → MinHeap t.at A → MinHeap t.at B → HeapAround t'.at c' []) ∧
      ∀ fuel > m + 1, whileLoop fuel (trickleCond i) (trickleBody i) t = .ok t' := by
      rintro A1 k A2 rfl hb hle
      obtain ⟨t1, e1, h1, r1, s1⟩ := rightRotate_spec h
      have h1' : TreeAt true t1 (Around.plug (.inR A1 k :: c) (.node A2 i B)) := h1
      have eids : (Around.plug (.inR A1 k :: c) (.node A2 i B)).ids = (Around.plug c (.node (.node A1 k A2) i B)).ids := by
        rw [Around.ids_plug, Around.ids_plug]; simp [Around.before, Around.after, Shape.ids]
      obtain ⟨c', t', x1, x2, x3, x4, x5, x6⟩ := ih (.inR A1 k :: c) t1 A2 B i (by simp [Shape.ids] at hn; omega) h1'
        (fun x hx => by rw [s1.prio]; exact hp x (by rw [← eids]; exact hx))
      refine ⟨c', t', x1.trans eids, x2, r1.trans x3, s1.trans x4, fun hc hA hB => ?_, fun fuel hf => ?_⟩
      · exact x5 (heapAround_congr s1.prio (heap_down_right hc hA (hle hA hB))) (minHeap_congr (fun x _ => s1.prio x) hA.2.2) (minHeap_congr (fun x _ => s1.prio x) hB)
      · obtain ⟨f, rfl⟩ : ∃ f, fuel = f + 1 := ⟨fuel - 1, by omega⟩
        refine (while_step (s' := t1) f ?_ ?_).trans (x6 f (by omega))
        · have n1' : n.left = some k := n1
          simp only [trickleCond, getNode_ok en, ok_bind, n1']; rfl
        · rw [hb, e1]
    have left : ∀ B1 k B2, B = .node B1 k B2 → trickleBody i t = leftRotate t i k → (MinHeap t.at A → MinHeap t.at B → ∀ j ∈ A.ids, PrioLe t.at k j) →
      ∃ c' t', (Around.plug c' (.node .leaf i .leaf)).ids = (Around.plug c (.node A i B)).ids ∧ TreeAt true t' (Around.plug c' (.node .leaf i .leaf)) ∧
      SameRest t t' ∧ SameContent t.at t'.at ∧
      (HeapAround t.at c (A.ids ++ B.ids) → MinHeap t.at A → MinHeap t.at B → HeapAround t'.at c' []) ∧
      ∀ fuel > m + 1, whileLoop fuel (trickleCond i) (trickleBody i) t = .ok t' := by
      rintro B1 k B2 rfl hb hle
      obtain ⟨t1, e1, h1, r1, s1⟩ := leftRotate_spec h
      have h1' : TreeAt true t1 (Around.plug (.inL k B2 :: c) (.node A i B1)) := h1
      have eids : (Around.plug (.inL k B2 :: c) (.node A i B1)).ids = (Around.plug c (.node A i (.node B1 k B2))).ids := by
        rw [Around.ids_plug, Around.ids_plug]; simp [Around.before, Around.after, Shape.ids]
      obtain ⟨c', t', x1, x2, x3, x4, x5, x6⟩ := ih (.inL k B2 :: c) t1 A B1 i (by simp [Shape.ids] at hn; omega) h1'
        (fun x hx => by rw [s1.prio]; exact hp x (by rw [← eids]; exact hx))
      refine ⟨c', t', x1.trans eids, x2, r1.trans x3, s1.trans x4, fun hc hA hB => ?_, fun fuel hf => ?_⟩
      · exact x5 (heapAround_congr s1.prio (heap_down_left hc hB (hle hA hB))) (minHeap_congr (fun x _ => s1.prio x) hA) (minHeap_congr (fun x _ => s1.prio x) hB.2.1)
      · obtain ⟨f, rfl⟩ : ∃ f, fuel = f + 1 := ⟨fuel - 1, by omega⟩
        refine (while_step (s' := t1) f ?_ ?_).trans (x6 f (by omega))
        · have n2' : n.right = some k := n2
          simp only [trickleCond, getNode_ok en, ok_bind, n2', Option.isSome_some, Bool.or_true]
        · rw [hb, e1]
    have mem : ∀ S : Shape, (S = A ∨ S = B) → ∀ j ∈ S.ids, j ∈ (Around.plug c (.node A i B)).ids := by
      rintro S (rfl | rfl) j hj <;> rw [mem_plug] <;> simp [Shape.ids, hj]
    cases A with
    | leaf =>
      have n1' : n.left = none := n1
      cases B with
      | leaf =>
        have n2' : n.right = none := n2
        refine ⟨c, t, rfl, h, .refl t, .refl _, fun H _ _ => H, fun fuel hf => ?_⟩
        obtain ⟨f, rfl⟩ : ∃ f, fuel = f + 1 := ⟨fuel - 1, by omega⟩
        refine while_stop _ ?_
        simp only [trickleCond, getNode_ok en, ok_bind, n1', n2']; rfl
      | node B1 k B2 =>
        have n2' : n.right = some k := n2
        refine left B1 k B2 rfl ?_ (fun _ _ j hj => absurd hj (by simp [Shape.ids]))
        simp only [trickleBody, getNode_ok en, ok_bind, n1', n2', asIdx]
    | node A1 k A2 =>
      have n1' : n.left = some k := n1
      cases B with
      | leaf =>
        have n2' : n.right = none := n2
        refine right A1 k A2 rfl ?_ (fun _ _ j hj => absurd hj (by simp [Shape.ids]))
        simp only [trickleBody, getNode_ok en, ok_bind, n1', n2']
      | node B1 l B2 =>
        have n2' : n.right = some l := n2
        have hk := hp k (mem _ (.inl rfl) k (by simp [Shape.ids]))
        have hl := hp l (mem _ (.inr rfl) l (by simp [Shape.ids]))
        obtain ⟨pk, epk⟩ := Option.isSome_iff_exists.mp hk
        obtain ⟨pl, epl⟩ := Option.isSome_iff_exists.mp hl
        obtain ⟨a, ea⟩ := Option.isSome_iff_exists.mp (linked_isSome h.linked k (mem _ (.inl rfl) k (by simp [Shape.ids])))
        obtain ⟨b, eb⟩ := Option.isSome_iff_exists.mp (linked_isSome h.linked l (mem _ (.inr rfl) l (by simp [Shape.ids])))
        have ha : a.prio = some pk := by simpa [prioOf, ea] using epk
        have hb : b.prio = some pl := by simpa [prioOf, eb] using epl
        by_cases hgt : pl > pk
        · refine right A1 k A2 rfl ?_ (fun _ hB j hj => ?_)
          · simp only [trickleBody, getNode_ok en, ok_bind, n1', n2', getNode_ok ea, getNode_ok eb, ha, hb, prioGt, decide_eq_true hgt, if_true]
          · exact PrioLe.trans ⟨pk, pl, epk, epl, by omega⟩ (minHeap_root hB hj hl)
        · refine left B1 l B2 rfl ?_ (fun hA _ j hj => ?_)
          · simp only [trickleBody, getNode_ok en, ok_bind, n1', n2', getNode_ok ea, getNode_ok eb, ha, hb, prioGt, decide_eq_false hgt, Bool.false_eq_true, if_false]
          · exact PrioLe.trans ⟨pl, pk, epl, epk, by omega⟩ (minHeap_root hA hj hk)

/-! ## The state -/

/-- A Cartesian tree with the entries `E` and the priorities `pm`. -/
structure CartTree (t : BTree κ δ) (T : Shape) (E : List (κ × Option δ)) (pm : κ → Option (Option Int)) : Prop where
  stored : Stored t T E
  prio : Prios t T pm
  heap : MinHeap t.at T

/-- `search` with the parent finds the position of a key and its parent. -/
theorem stored_searchP {lt : κ → κ → Bool} (ht : StrictTotal (ltRel lt)) {t : BTree κ δ} {c : Around} {A B : Shape} {i : Nat} {E : List (κ × Option δ)} {k : κ}
    (st : Stored t (Around.plug c (.node A i B)) E) (hs : E.Pairwise fun a b => lt a.1 b.1 = true) (hk : keyOf t.at i = some k) :
    ∀ fuel > (Around.plug c (.node A i B)).ids.length + 1, bstSearchP lt fuel t k = .ok (some (some i, Around.up c)) := by
  obtain ⟨c', S, e, hF, hrun⟩ := searchP_spec ht st.tree (st.srt hs) k
  have hdep := Shape.depth_le (Around.plug c (.node A i B))
  have hi : i ∈ (Around.plug c (.node A i B)).ids := by rw [mem_plug]; simp [Shape.ids]
  intro fuel hf
  rcases hF.here with rfl | ⟨l, i', r, rfl, hi'⟩
  · exact absurd hk (hF.absent ht i (by rw [e]; exact hi))
  · have : i' = i := (st.srt hs).inj ht (by rw [← e, mem_plug]; simp [Shape.ids]) hi hi' hk
    subst this
    obtain ⟨n, en, _, _, n3⟩ := st.tree.node
    have tr := st.tree
    rw [← e] at tr
    obtain ⟨n', en', _, _, n3'⟩ := tr.node
    rw [en] at en'; cases en'
    have := hrun fuel (by omega)
    rw [root_node] at this
    rw [this, ← n3', n3]

theorem stored_search {lt : κ → κ → Bool} (ht : StrictTotal (ltRel lt)) {t : BTree κ δ} {c : Around} {A B : Shape} {i : Nat} {E : List (κ × Option δ)} {k : κ}
    (st : Stored t (Around.plug c (.node A i B)) E) (hs : E.Pairwise fun a b => lt a.1 b.1 = true) (hk : keyOf t.at i = some k) :
    ∀ fuel > (Around.plug c (.node A i B)).ids.length + 1, bstSearch lt fuel t k = .ok (some i) := by
  intro fuel hf
  have := stored_searchP ht st hs hk fuel hf
  simp only [bstSearch, this, ok_bind]; rfl

/-- `_update_size` from the hole only changes sizes. -/
theorem updateSize_any {t : BTree κ δ} {c : Around} {S : Shape} (h : TreeAt true t (Around.plug c S)) :
    ∃ t', SameButSize t.at t'.at ∧ SameRest t t' ∧ t'.rootIdx = t.rootIdx ∧ ∀ fuel > c.length, updateSize fuel t (Around.up c) = .ok t' := by
  cases ho : t.orderStat with
  | false => exact ⟨t, .refl _, .refl t, rfl, fun fuel _ => updateSize_off ho fuel _⟩
  | true =>
    obtain ⟨h1, h2⟩ := (linked_plug true t.at c S).mp h.linked
    obtain ⟨t', s, r, q, hrun⟩ := updateSize_runs c t S h1 h2
    refine ⟨t', s, r, q, fun fuel hf => ?_⟩
    simp only [updateSize, ho, if_true, hrun fuel hf, ok_bind]

theorem SameButSize.prio {h h' : Cells κ δ} (H : SameButSize h h') (i : Nat) : prioOf h' i = prioOf h i := by
  have := H i
  unfold prioOf
  cases e : h' i <;> cases e' : h i <;> simp_all [BNode.unsized]

/-- Keys and priorities are the same at the positions of `T`. -/
theorem prios_congr {t t' : BTree κ δ} {T : Shape} {pm : κ → Option (Option Int)} (h : Prios t T pm)
    (hk : ∀ j ∈ T.ids, keyOf t'.at j = keyOf t.at j) (hp : ∀ j ∈ T.ids, prioOf t'.at j = prioOf t.at j) : Prios t' T pm := by
  intro j hj
  obtain ⟨n, k, p, en, h1, h2, h3⟩ := h j hj
  have a := hk j hj
  have b := hp j hj
  simp only [keyOf, prioOf, en, Option.bind_some] at a b
  cases e : t'.at j with
  | none => rw [e, h1] at a; cases a
  | some n' =>
    rw [e] at a b
    simp only [Option.bind_some] at a b
    exact ⟨n', k, p, rfl, by rw [a, h1], by rw [b, h2], h3⟩

theorem Prios.sub {t : BTree κ δ} {T T' : Shape} {pm : κ → Option (Option Int)} (h : Prios t T pm) (hs : ∀ j ∈ T'.ids, j ∈ T.ids) : Prios t T' pm :=
  fun j hj => h j (hs j hj)

/-- A key has been deleted. -/
def CartGone (t t' : BTree κ δ) (E : List (κ × Option δ)) (pm : κ → Option (Option Int)) : Prop :=
  ∃ T', CartTree t' T' E pm ∧ Shrunk t t' ∧ t'.num + 1 = t.num ∧ t'.orderStat = t.orderStat

theorem prioLe_rename {h h' : Cells κ δ} {f : Nat → Nat} {i j : Nat} (e1 : prioOf h' (f i) = prioOf h i) (e2 : prioOf h' (f j) = prioOf h j) (H : PrioLe h i j) :
    PrioLe h' (f i) (f j) := by
  obtain ⟨a, b, h1, h2, h3⟩ := H
  exact ⟨a, b, by rw [e1, h1], by rw [e2, h2], h3⟩

theorem minHeap_rename {h h' : Cells κ δ} {f : Nat → Nat} : ∀ {T : Shape}, (∀ i ∈ T.ids, prioOf h' (f i) = prioOf h i) → MinHeap h T → MinHeap h' (T.rename f) := by
  intro T
  induction T with
  | leaf => intros; trivial
  | node l i r ih1 ih2 =>
    rintro e ⟨h1, h2, h3⟩
    refine ⟨fun j hj => ?_, ih1 (fun j hj => e j (by simp [Shape.ids, hj])) h2, ih2 (fun j hj => e j (by simp [Shape.ids, hj])) h3⟩
    rw [Shape.ids_rename, Shape.ids_rename, ← List.map_append] at hj
    obtain ⟨j', hj', rfl⟩ := List.mem_map.mp hj
    refine prioLe_rename (e i (by simp [Shape.ids])) (e j' ?_) (h1 j' hj')
    simp only [Shape.ids, List.mem_append, List.mem_cons] at hj' ⊢
    rcases hj' with h | h <;> simp [h]

/-- A leaf below `f` is deleted; the tree without it is heap-ordered. -/
theorem cart_leaf {t : BTree κ δ} {f : Frame} {C : Around} {x : Nat} {E1 E2 : List (κ × Option δ)} {e : κ × Option δ} {pm : κ → Option (Option Int)}
    (st : Stored t (Around.plug (f :: C) (.node .leaf x .leaf)) (E1 ++ e :: E2)) (pr : Prios t (Around.plug (f :: C) (.node .leaf x .leaf)) pm)
    (hp : HeapAround t.at (f :: C) []) (he1 : Ent t.at (Around.before (f :: C)) E1) (he2 : Ent t.at (Around.after (f :: C)) E2) (hn : ((E1 ++ E2).map (·.1)).Nodup) (hn0 : ((E1 ++ e :: E2).map (·.1)).Nodup) :
    ∃ t' a, CartGone t t' (E1 ++ E2) pm ∧ ∃ n0, ∀ fuel, n0 ≤ fuel → delLeaf fuel t x (some f.idx) = .ok (t', some a) := by
  have he : Ent t.at (Around.plug (f :: C) .leaf).ids (E1 ++ E2) := by
    rw [Around.ids_plug]
    simp only [Shape.ids, List.append_nil]
    exact Ent.append_iff.mpr ⟨E1, E2, rfl, he1, he2⟩
  obtain ⟨t1, t3, ρ, e1, e3, st3, z3, n3, o3, c3⟩ := leaf_cut st he hn hn0
  have hp3 : ∀ j ∈ (Around.plug (f :: C) .leaf).ids, prioOf t3.at (ρ j) = prioOf t.at j := by
    intro j hj
    have := c3 j hj
    unfold prioOf
    cases e : t3.at (ρ j) <;> cases e' : t.at j <;> simp_all [BNode.strip]
  have pr3 : Prios t3 ((Around.plug (f :: C) .leaf).rename ρ) pm := by
    intro j hj
    rw [Shape.ids_rename] at hj
    obtain ⟨i, hi, rfl⟩ := List.mem_map.mp hj
    obtain ⟨n, k, p, en, h1, h2, h3⟩ := pr i (by
      rw [mem_plug] at hi ⊢
      rcases hi with hi | hi
      · simp [Shape.ids] at hi
      · exact .inr hi)
    have := c3 i hi
    rw [en] at this
    obtain ⟨m, em, hm⟩ := Option.map_eq_some_iff.mp this
    have hk : m.key = n.key := by simpa [BNode.strip] using congrArg BNode.key hm
    have hq : m.prio = n.prio := by simpa [BNode.strip] using congrArg BNode.prio hm
    exact ⟨m, k, p, em, by rw [hk, h1], by rw [hq, h2], h3⟩
  have hm3 : MinHeap t3.at ((Around.plug (f :: C) .leaf).rename ρ) := minHeap_rename hp3 (minHeap_plug.mpr ⟨hp, trivial⟩)
  have T3 := st3.tree
  rw [rename_plug] at T3
  obtain ⟨t4, sb, r4, q4, hrun⟩ := updateSize_any T3
  have se := sb.entries r4
  have T4 : TreeAt true t4 ((Around.plug (f :: C) .leaf).rename ρ) :=
    ⟨by rw [q4]; exact st3.tree.root, linked_congr (fun i _ => sb.links i) st3.tree.linked, st3.tree.nodup⟩
  refine ⟨t4, ρ f.idx, ⟨_, ⟨st3.turn se T4 rfl, ?_, ?_⟩, by unfold Shrunk; rw [r4.size, r4.top, r4.len]; exact z3, by rw [r4.num]; exact n3, by rw [r4.orderStat, o3]⟩, (f :: C).length + 1, fun fuel hf => ?_⟩
  · exact prios_congr pr3 (fun j _ => se.keyOf j) (fun j _ => sb.prio j)
  · exact minHeap_congr (fun j _ => sb.prio j) hm3
  · have e4 := hrun fuel (by simp only [List.length_map]; omega)
    have hup : Around.up ((f :: C).map (Frame.rename ρ)) = some (ρ f.idx) := by cases f <;> rfl
    rw [hup] at e4
    simp only [delLeaf, e1, ok_bind, e3, e4]

/-- `delete` of a key that is present. -/
theorem cartDelete_present {lt : κ → κ → Bool} (ht : StrictTotal (ltRel lt)) {t : BTree κ δ} {T : Shape} {E : List (κ × Option δ)} {pm : κ → Option (Option Int)} {k : κ}
    {d : Option δ} (H : CartTree t T E pm) (hs : E.Pairwise fun a b => lt a.1 b.1 = true) (hk : (k, d) ∈ E) :
    ∃ t', (E.length = 1 ∧ AvlCleared t' ∧ SameRest t t' ∨ 2 ≤ E.length ∧ CartGone t t' (E.filter fun e => e.1 ≠ k) pm) ∧
      ∃ n0, ∀ fuel, n0 ≤ fuel → cartDelete lt fuel t k = .ok (t', true) := by
  have st := H.stored
  obtain ⟨i, hi, ei⟩ := st.ent.mem.mp hk
  obtain ⟨c, A, B, rfl⟩ := plug_of_mem T i hi
  obtain ⟨hH1, hH2⟩ := minHeap_plug.mp H.heap
  have hki := keyOf_entry ei
  obtain ⟨c', t1, x1, x2, x3, x4, x5, x6⟩ := trickle_loop _ c t A B i (Nat.le_refl _) st.tree H.prio.all
  have se := SameContent.entries x3 x4
  have st1 := st.turn se x2 x1
  have pr1 : Prios t1 (Around.plug c' (.node .leaf i .leaf)) pm := x4.prios x1 H.prio
  have hp1 := x5 (hH1.mono (fun j hj => by simp only [Shape.ids, List.mem_append, List.mem_cons] at hj ⊢; rcases hj with hj | hj <;> simp [hj])) hH2.2.1 hH2.2.2
  have hki1 : keyOf t1.at i = some k := by rw [se.keyOf, hki]
  rw [← st.num_eq]
  obtain ⟨E1, E2, e, rfl, hei, he1, he2⟩ := rb_entries st1.ent
  have hek : e.1 = k := by have := keyOf_entry hei; rw [hki1] at this; exact (Option.some.inj this).symm
  subst hek
  rw [filter_key ht hs]
  obtain ⟨n, en, n1, n2, _⟩ := x2.node
  have n1' : n.left = none := n1
  have n2' : n.right = none := n2
  have fin : ∀ {t' : BTree κ δ} {o : Option Nat} {m : Nat} {Q : Prop}, Q → (∀ fuel, m ≤ fuel → delLeaf fuel t1 i (Around.up c') = .ok (t', o)) →
      Q ∧ ∃ n0, ∀ fuel, n0 ≤ fuel → cartDelete lt fuel t e.1 = .ok (t', true) := by
    intro t' o m Q hQ hm
    refine ⟨hQ, m + ((Around.plug c (.node A i B)).ids.length + (A.ids.length + B.ids.length) + 2), fun fuel hf => ?_⟩
    have h1 := stored_search ht st hs hki fuel (by omega)
    have h2 := stored_searchP ht st1 hs hki1 fuel (by rw [x1]; omega)
    simp only [cartDelete, h1, ok_bind, trickleDown, x6 fuel (by omega), bstDelete, bstDeleteInfo, h2, getNode_ok en, delCases, n1', n2', hm fuel (by omega)]
  have hsz := st1.num
  rw [x3.num] at hsz
  cases c' with
  | nil =>
    obtain ⟨t', hc, hr, hd⟩ := avl_root_leaf (t := t1) (E := E1 ++ e :: E2) ⟨st1, ⟨by simp [Shape.depth], by simp [Shape.depth], trivial, trivial⟩, .inl rfl⟩
    exact ⟨t', fin (o := none) (m := 1) (.inl ⟨by rw [hsz]; rfl, hc, x3.trans hr⟩) hd⟩
  | cons g C =>
    have hlen : 2 ≤ t.num := by
      have := Around.up_mem (c := g :: C) (i := g.idx) rfl
      have := List.length_pos_of_mem this
      rw [hsz, Around.ids_plug]
      simp only [List.length_append, Shape.ids, List.length_cons, List.length_nil] at this ⊢; omega
    have hn : ∀ {E : List (κ × Option δ)}, (E.Pairwise fun a b => lt a.1 b.1 = true) → (E.map (·.1)).Nodup := by
      intro E hs
      refine List.pairwise_map.mpr (hs.imp fun {a b} h e => ?_)
      rw [e] at h
      have : lt b.1 b.1 = true := h
      exact ht.irrefl _ this
    obtain ⟨t', a, ⟨T', g1, g2, g3, g4⟩, n0, hd⟩ := cart_leaf st1 pr1 hp1 (by simpa [Shape.ids] using he1) (by simpa [Shape.ids] using he2) (hn (sorted_drop hs)) (hn hs)
    exact ⟨t', fin (o := some a) (m := n0) (.inr ⟨hlen, T', g1, by unfold Shrunk at g2 ⊢; rw [← x3.size, ← x3.top, ← x3.len]; exact g2, by rw [g3, x3.num], by rw [g4, x3.orderStat]⟩) hd⟩

/-- `delete` moves a key that is present down until it is in a leaf. -/
theorem cart_trickled {lt : κ → κ → Bool} (ht : StrictTotal (ltRel lt)) {t : BTree κ δ} {T : Shape} {E : List (κ × Option δ)} {pm : κ → Option (Option Int)} {k : κ}
    {d : Option δ} (H : CartTree t T E pm) (hs : E.Pairwise fun a b => lt a.1 b.1 = true) (hk : (k, d) ∈ E) :
    ∃ i t1 p n, getNode t1 i = .ok n ∧ n.left = none ∧ n.right = none ∧
      ∃ n0, ∀ fuel, n0 ≤ fuel → bstSearch lt fuel t k = .ok (some i) ∧ trickleDown fuel t i = .ok t1 ∧ bstSearchP lt fuel t1 k = .ok (some (some i, p)) := by
  have st := H.stored
  obtain ⟨i, hi, ei⟩ := st.ent.mem.mp hk
  obtain ⟨c, A, B, rfl⟩ := plug_of_mem T i hi
  have hki := keyOf_entry ei
  obtain ⟨c', t1, x1, x2, x3, x4, x5, x6⟩ := trickle_loop _ c t A B i (Nat.le_refl _) st.tree H.prio.all
  have se := SameContent.entries x3 x4
  have st1 := st.turn se x2 x1
  have hki1 : keyOf t1.at i = some k := by rw [se.keyOf, hki]
  obtain ⟨n, en, n1, n2, _⟩ := x2.node
  refine ⟨i, t1, Around.up c', n, getNode_ok en, n1, n2, (Around.plug c (.node A i B)).ids.length + (A.ids.length + B.ids.length) + 2, fun fuel hf => ?_⟩
  exact ⟨stored_search ht st hs hki fuel (by omega), x6 fuel (by omega), stored_searchP ht st1 hs hki1 fuel (by rw [x1]; omega)⟩

/-- `delete` of a key that is absent changes nothing. -/
theorem cartDelete_absent {lt : κ → κ → Bool} (ht : StrictTotal (ltRel lt)) {t : BTree κ δ} {T : Shape} {E : List (κ × Option δ)} {k : κ}
    (st : Stored t T E) (hs : E.Pairwise fun a b => lt a.1 b.1 = true) (hk : ∀ d, (k, d) ∉ E) : ∃ n0, ∀ fuel, n0 ≤ fuel → cartDelete lt fuel t k = .ok (t, false) := by
  obtain ⟨c, S, rfl, hF, hrun⟩ := search_spec ht st.tree (st.srt hs) k
  rcases hF.here with rfl | ⟨l, i, r, rfl, hki⟩
  · refine ⟨(Around.plug c .leaf).depth + 2, fun fuel hf => ?_⟩
    have h1 : bstSearch lt fuel t k = .ok none := hrun fuel (by omega)
    simp only [cartDelete, h1, ok_bind]
  · obtain ⟨E1, E2, e, rfl, hei, _⟩ := rb_entries st.ent
    have hek : e.1 = k := by have := keyOf_entry hei; rw [hki] at this; exact (Option.some.inj this).symm
    exact absurd (by rw [← hek]; simp) (hk e.2)

/-! ## Insertion -/

/-- Everything is the same up to a flag of one node. -/
theorem cart_flag {t t' : BTree κ δ} {T : Shape} {E : List (κ × Option δ)} {pm : κ → Option (Option Int)} {i : Nat} (H : CartTree t T E pm)
    (a : t'.at = mapAt t.at i (fun n => { n with isRoot := true })) (r : SameRest t t') (q : t'.rootIdx = t.rootIdx) : CartTree t' T E pm := by
  have se : SameEntries t t' := sameEntries_mapAt a r (fun _ _ => ⟨rfl, rfl⟩)
  have hp : ∀ j, prioOf t'.at j = prioOf t.at j := by
    intro j; unfold prioOf; rw [a]; unfold mapAt
    split
    · cases t.at j <;> rfl
    · rfl
  exact ⟨H.stored.turn se (treeAt_mapAt a q (fun _ => rfl) H.stored.tree) rfl, prios_congr H.prio (fun j _ => se.keyOf j) (fun j _ => hp j), minHeap_congr (fun j _ => hp j) H.heap⟩

/-- `insert` of a key that is absent, into a tree that is not empty. -/
theorem cartInsert_absent {lt : κ → κ → Bool} (ht : StrictTotal (ltRel lt)) {t : BTree κ δ} {T : Shape} {E : List (κ × Option δ)} {pm : κ → Option (Option Int)} {k : κ}
    (H : CartTree t T E pm) (hs : E.Pairwise fun a b => lt a.1 b.1 = true) (hk : ∀ d, (k, d) ∉ E) (prio : Int) (d : Option δ) (hsz : t.size = t.top) (hg : grown t ≤ 4 * (t.num + 1)) :
    ∃ t' T' E', CartTree t' T' E' (fun k' => if k' = k then some (some prio) else pm k') ∧ (E'.Pairwise fun a b => lt a.1 b.1 = true) ∧ E'.Perm ((k, d) :: E) ∧
      t'.orderStat = t.orderStat ∧ t'.top = t.top + 1 ∧ t'.size = t.size + 1 ∧ t'.num = t.num + 1 ∧ t'.arr.length = grown t ∧
      ∃ n0, ∀ fuel, n0 ≤ fuel → cartInsert lt fuel t k prio d = .ok t' := by
  obtain ⟨f, c, t1, E1, E2, rfl, rfl, st1, hs1, hH, n1, hrun1⟩ := stored_hung ht H.stored hs hk d hsz hg
  have st := H.stored
  have hft : t.top ≠ f.idx := fun e => absurd (st.low f.idx (Frame.idx_mem f c _)) (by omega)
  have hnew : t1.at t.top = some { key := some k, data := d, parent := some f.idx } := by rw [hH.cells]; simp [hung, mapAt, hft]
  have hold : ∀ j, j ≠ t.top → keyOf t1.at j = keyOf t.at j ∧ prioOf t1.at j = prioOf t.at j := by
    intro j hj
    unfold keyOf prioOf
    rw [hH.cells]
    by_cases e : j = f.idx
    · subst e
      simp only [hung, mapAt, if_neg hj, if_true]
      cases t.at f.idx with
      | none => exact ⟨rfl, rfl⟩
      | some n => cases f <;> exact ⟨rfl, rfl⟩
    · simp [hung, mapAt, if_neg hj, if_neg e]
  obtain ⟨t2, sb, r2, q2, hrun2⟩ := updateSize_any (c := .inL t.top .leaf :: f :: c) (S := .leaf) st1.tree
  have se2 := sb.entries r2
  have T2 : TreeAt true t2 (Around.plug (f :: c) (.node .leaf t.top .leaf)) := ⟨by rw [q2]; exact st1.tree.root, linked_congr (fun i _ => sb.links i) st1.tree.linked, st1.tree.nodup⟩
  have st2 := st1.turn se2 T2 rfl
  obtain ⟨n2, en2, hk2, hd2, hr2⟩ : ∃ n, t2.at t.top = some n ∧ n.key = some k ∧ n.data = d ∧ n.isRoot = false := by
    have := sb t.top
    rw [hnew] at this
    cases e : t2.at t.top with
    | none => rw [e] at this; simp at this
    | some n =>
      rw [e] at this
      simp only [Option.map_some, Option.some.injEq, BNode.unsized, BNode.mk.injEq] at this
      exact ⟨n, rfl, by simp_all, by simp_all, by simp_all⟩
  obtain ⟨t3, e3, a3, r3, q3⟩ := modNode_spec (t := t2) (i := t.top)
    (fun n => { key := some k, data := d, prio := some prio, left := n.left, right := n.right, parent := n.parent }) (by rw [en2]; rfl)
  have se3 : SameEntries t2 t3 := sameEntries_mapAt a3 r3 (by intro x ex; rw [en2] at ex; cases ex; exact ⟨hk2.symm, hd2.symm⟩)
  have T3 : TreeAt true t3 (Around.plug (f :: c) (.node .leaf t.top .leaf)) := treeAt_mapAt a3 q3 (fun _ => rfl) T2
  have st3 := st2.turn se3 T3 rfl
  have oth3 : ∀ j, j ≠ t.top → t3.at j = t2.at j := fun j hj => by rw [a3]; simp [mapAt, hj]
  have en3 : t3.at t.top = some { key := some k, data := d, prio := some prio, left := n2.left, right := n2.right, parent := n2.parent } := by
    rw [a3]; exact mapAt_same en2
  have hpr : ∀ j, j ≠ t.top → prioOf t3.at j = prioOf t.at j := by
    intro j hj
    have : prioOf t3.at j = prioOf t2.at j := by unfold prioOf; rw [oth3 j hj]
    rw [this, sb.prio, (hold j hj).2]
  have hkey : ∀ j, j ≠ t.top → keyOf t3.at j = keyOf t.at j := fun j hj => by rw [se3.keyOf, se2.keyOf, (hold j hj).1]
  have hmem : ∀ j ∈ (Around.plug (f :: c) (.node .leaf t.top .leaf)).ids, j ≠ t.top → j ∈ (Around.plug (f :: c) .leaf).ids := by
    intro j hj hne
    rw [mem_plug] at hj ⊢
    rcases hj with hj | hj
    · simp [Shape.ids] at hj; exact absurd hj hne
    · exact .inr hj
  have hlt : ∀ j ∈ (Around.plug (f :: c) .leaf).ids, j ≠ t.top := fun j hj => Nat.ne_of_lt (st.low j hj)
  have habs : ∀ j ∈ (Around.plug (f :: c) .leaf).ids, keyOf t.at j ≠ some k := by
    intro i hi e
    obtain ⟨n, en⟩ := Option.isSome_iff_exists.mp (st.isSome hi)
    have hkn : n.key = some k := by simpa [keyOf, en] using e
    exact hk n.data (st.ent.mem.mpr ⟨i, hi, entryAt_some.mpr ⟨n, en, hkn, rfl⟩⟩)
  have pr3 : Prios t3 (Around.plug (f :: c) (.node .leaf t.top .leaf)) (fun k' => if k' = k then some (some prio) else pm k') := by
    intro j hj
    by_cases hjt : j = t.top
    · subst hjt
      exact ⟨_, k, prio, en3, rfl, rfl, by simp⟩
    · have hj' := hmem j hj hjt
      obtain ⟨x, k', p, ex, h1, h2, h3⟩ := prios_congr H.prio (fun j hj => hkey j (hlt j hj)) (fun j hj => hpr j (hlt j hj)) j hj'
      refine ⟨x, k', p, ex, h1, h2, ?_⟩
      have hne : k' ≠ k := by
        rintro rfl
        refine habs j hj' ?_
        rw [← hkey j hjt]; simp [keyOf, ex, h1]
      simp only [if_neg hne]; exact h3
  have heap3 : HeapAround t3.at (f :: c) [] := (minHeap_plug.mp (minHeap_congr (fun j hj => hpr j (hlt j hj)) H.heap)).1
  obtain ⟨c', A', B', t4, x1, x2, x3, x4, _, x6, x7⟩ := bubble_loop (f :: c) t3 .leaf .leaf t.top T3 pr3.all
  have ct4 : CartTree t4 (Around.plug c' (.node A' t.top B')) (E1 ++ (k, d) :: E2) (fun k' => if k' = k then some (some prio) else pm k') :=
    ⟨st3.turn (SameContent.entries x3 x4) x2 x1, x4.prios x1 pr3, x6 heap3 ⟨by simp [Shape.ids], trivial, trivial⟩⟩
  obtain ⟨n4, en4, _, _, np4⟩ := x2.node
  obtain ⟨y, ey⟩ := Option.isSome_iff_exists.mp (T3.isSome (Frame.idx_mem f c _))
  obtain ⟨n2', en2', _, _, np2⟩ := T2.node
  rw [en2] at en2'; cases en2'
  have np2' : n2.parent = some f.idx := np2
  have hkk : keyOf t2.at t.top = some k := by simp [keyOf, en2, hk2]
  have rr := (r2.trans r3).trans x3
  have pre : ∀ fuel, n1 + (f :: c).length + (Around.plug (f :: c) (.node .leaf t.top .leaf)).ids.length + 3 ≤ fuel →
      bstInsert lt fuel t k d = .ok t2 ∧ bstSearch lt fuel t2 k = .ok (some t.top) ∧ whileLoop fuel (bubbleCond t.top) (bubbleBody t.top) t3 = .ok t4 := by
    intro fuel hf
    refine ⟨?_, stored_search ht st2 hs1 hkk fuel (by omega), x7 fuel (by omega)⟩
    rw [hrun1 fuel (by omega)]
    exact hrun2 fuel (by simp at hf ⊢; omega)
  cases hc' : n4.parent with
  | none =>
    obtain ⟨t5, e5, a5, r5, q5⟩ := modNode_spec (t := t4) (i := t.top) (fun n => { n with isRoot := true }) (by rw [en4]; rfl)
    have rr := rr.trans r5
    refine ⟨t5, _, _, cart_flag ct4 a5 r5 q5, hs1, List.perm_middle, by rw [rr.orderStat, hH.orderStat], by rw [rr.top, hH.top], by rw [rr.size, hH.size], by rw [rr.num, hH.num],
      by rw [rr.len, hH.len], n1 + (f :: c).length + (Around.plug (f :: c) (.node .leaf t.top .leaf)).ids.length + 3, fun fuel hf => ?_⟩
    obtain ⟨p1, p2, p3⟩ := pre fuel hf
    refine cartInsert_eq p1 p2 ?_
    simp only [cartFinish, getNode_ok en2, ok_bind, e3, hr2, Bool.false_eq_true, if_false, bubbleUp, getNode_ok en3, np2', getNode?_ok ey, p3, getNode_ok en4, hc', if_true, e5]
  | some z =>
    refine ⟨t4, _, _, ct4, hs1, List.perm_middle, by rw [rr.orderStat, hH.orderStat], by rw [rr.top, hH.top], by rw [rr.size, hH.size], by rw [rr.num, hH.num],
      by rw [rr.len, hH.len], n1 + (f :: c).length + (Around.plug (f :: c) (.node .leaf t.top .leaf)).ids.length + 3, fun fuel hf => ?_⟩
    obtain ⟨p1, p2, p3⟩ := pre fuel hf
    refine cartInsert_eq p1 p2 ?_
    simp only [cartFinish, getNode_ok en2, ok_bind, e3, hr2, Bool.false_eq_true, if_false, bubbleUp, getNode_ok en3, np2', getNode?_ok ey, p3, getNode_ok en4, hc', reduceCtorEq]

/-- `insert` into an empty tree whose root carries the flag. -/
theorem cartInsert_cleared {lt : κ → κ → Bool} (ht : StrictTotal (ltRel lt)) {t : BTree κ δ} (h : AvlCleared t) (hf : RootFlag t) (k : κ) (prio : Int) (d : Option δ)
    (pm : κ → Option (Option Int)) :
    ∃ t' T', CartTree t' T' [(k, d)] (fun k' => if k' = k then some (some prio) else pm k') ∧ SameRest t t' ∧ ∃ n0, ∀ fuel, n0 ≤ fuel → cartInsert lt fuel t k prio d = .ok t' := by
  obtain ⟨n, en, hk, h1, h2, h3⟩ := h.root
  obtain ⟨n', en', hfl⟩ := hf
  rw [en] at en'; cases en'
  obtain ⟨t1, e1, a1, r1, q1⟩ := modNode_spec (t := t) (i := t.rootIdx) (fun n => { n with key := some k, data := d }) (by rw [en]; rfl)
  have en1 : t1.at t.rootIdx = some { n with key := some k, data := d } := by rw [a1]; exact mapAt_same en
  obtain ⟨t2, e2, a2, r2, q2⟩ := modNode_spec (t := t1) (i := t.rootIdx)
    (fun n => { key := some k, data := d, prio := some prio, left := n.left, right := n.right, parent := n.parent }) (by rw [en1]; rfl)
  obtain ⟨t3, e3, a3, r3, q3⟩ := modNode_spec (t := t2) (i := t.rootIdx) (fun n => { n with isRoot := true }) (by rw [a2]; simp [mapAt, en1])
  have en2 : t2.at t.rootIdx = some { key := some k, data := d, prio := some prio, left := n.left, right := n.right, parent := n.parent } := by rw [a2]; simp [mapAt, en1]
  have en3 : t3.at t.rootIdx = some { key := some k, data := d, prio := some prio, left := n.left, right := n.right, parent := n.parent, isRoot := true } := by
    rw [a3]; simp [mapAt, en2]
  have q : t3.rootIdx = t.rootIdx := by rw [q3, q2, q1]
  have rr := (r1.trans r2).trans r3
  have occ : ∀ i, (t3.at i).isSome → i = t.rootIdx := by
    intro i hi
    by_cases e : i = t.rootIdx
    · exact e
    · rw [a3, a2, a1] at hi
      simp only [mapAt, if_neg e] at hi
      exact h.occ i hi
  have st1 : Stored t1 (.node .leaf t.rootIdx .leaf) [(k, d)] := by
    refine ⟨⟨by rw [q1]; rfl, ⟨⟨_, en1, h1, h2, fun _ => h3⟩, trivial, trivial⟩, by simp [Shape.ids]⟩, Ent.cons_iff.mpr ⟨_, _, rfl, entryAt_some.mpr ⟨_, en1, rfl, rfl⟩, Ent.nil _⟩, ?_, ?_, ?_, ?_, ?_, ?_⟩
    · intro i hi
      by_cases e : i = t.rootIdx
      · simp [Shape.ids, e]
      · rw [a1] at hi
        simp only [mapAt, if_neg e] at hi
        exact absurd (h.occ i hi) e
    · intro i hi
      have : i = t.rootIdx := by simpa [Shape.ids] using hi
      rw [r1.top, this]; exact h.low
    · rw [r1.top, r1.size]; intro hz; simp [Shape.ids, h.last hz]
    · rw [r1.top, r1.size]; exact h.ts
    · rw [r1.top, r1.len]; exact h.cap
    · rw [r1.num, h.num]; rfl
  refine ⟨t3, .node .leaf t.rootIdx .leaf, ⟨?_, ?_, ⟨by simp [Shape.ids], trivial, trivial⟩⟩, rr, 4, fun fuel hf => ?_⟩
  · have se2 : SameEntries t1 t2 := sameEntries_mapAt a2 r2 (by intro x ex; rw [en1] at ex; cases ex; exact ⟨rfl, rfl⟩)
    have se3 : SameEntries t2 t3 := sameEntries_mapAt a3 r3 (fun _ _ => ⟨rfl, rfl⟩)
    exact st1.turn (se2.trans se3) ⟨by rw [q]; rfl, ⟨⟨_, en3, h1, h2, fun _ => h3⟩, trivial, trivial⟩, by simp [Shape.ids]⟩ rfl
  · intro j hj
    have : j = t.rootIdx := by simpa [Shape.ids] using hj
    subst this
    exact ⟨_, k, prio, en3, rfl, rfl, by simp⟩
  · have hs : bstSearch lt fuel t k = .ok none := by simp only [bstSearch, bstSearchP, getNode_ok en, hk, ok_bind]; rfl
    have hi : bstInsert lt fuel t k d = .ok t1 := by
      simp only [bstInsert, hs, ok_bind, bstInsertNew, getNode_ok en, hk, if_true]
      exact e1
    refine cartInsert_eq hi (stored_search (c := []) (A := .leaf) (B := .leaf) ht st1 (by simp) (by simp [keyOf, en1]) fuel (by simp [Around.plug, Shape.ids]; omega)) ?_
    simp only [cartFinish, getNode_ok en1, ok_bind, e2, hfl, if_true, e3]

end Props
