import Verif.Lemmas.Contract
import Verif.Lemmas.AvlDelete

/-!
# A tree whose array is contracted
-/
namespace Props
open Py Model Spec
set_option linter.unusedSectionVars false
variable {κ δ : Type} [DecidableEq κ]

/-- The shape with every position renumbered. -/
def Shape.rename (f : Nat → Nat) : Shape → Shape
  | .leaf => .leaf
  | .node l i r => .node (l.rename f) (f i) (r.rename f)

theorem Shape.root_rename (f : Nat → Nat) (T : Shape) : (T.rename f).root = T.root.map f := by cases T <;> rfl

theorem Shape.ids_rename (f : Nat → Nat) : ∀ T : Shape, (T.rename f).ids = T.ids.map f := by
  intro T
  induction T with
  | leaf => rfl
  | node l i r ih1 ih2 => simp [Shape.rename, Shape.ids, ih1, ih2]

theorem linked_rename {h h' : Cells κ δ} {f : Nat → Nat} {up : Bool} : ∀ {T : Shape} {p : Option Nat},
    (∀ i ∈ T.ids, ∀ n, h i = some n → h' (f i) = some (renumbered f n)) → Linked up h p T → Linked up h' (p.map f) (T.rename f) := by
  intro T
  induction T with
  | leaf => intros; trivial
  | node l i r ih1 ih2 =>
    rintro p hc ⟨⟨n, en, h1, h2, h3⟩, h4, h5⟩
    refine ⟨⟨_, hc i (by simp [Shape.ids]) n en, ?_, ?_, fun hu => ?_⟩, ih1 (fun j hj => hc j (by simp [Shape.ids, hj])) h4, ih2 (fun j hj => hc j (by simp [Shape.ids, hj])) h5⟩
    · rw [Shape.root_rename, ← h1]; rfl
    · rw [Shape.root_rename, ← h2]; rfl
    · rw [← h3 hu]; rfl

theorem Linked.links {h : Cells κ δ} : ∀ {T : Shape} {p : Option Nat}, Linked true h p T → ∀ i ∈ T.ids, ∀ n, h i = some n →
    ∀ j, n.left = some j ∨ n.right = some j ∨ n.parent = some j → j ∈ T.ids ∨ p = some j := by
  intro T
  induction T with
  | leaf => intro p _ i hi; simp [Shape.ids] at hi
  | node l i r ih1 ih2 =>
    rintro p ⟨⟨n, en, h1, h2, h3⟩, h4, h5⟩ i' hi' n' en' j hj
    simp only [Shape.ids, List.mem_append, List.mem_cons] at hi' ⊢
    rcases hi' with hi' | rfl | hi'
    · rcases ih1 h4 i' hi' n' en' j hj with h | h
      · exact .inl (.inl h)
      · exact .inl (.inr (.inl (Option.some.inj h).symm))
    · rw [en] at en'; cases en'
      rcases hj with hj | hj | hj
      · exact .inl (.inl (Shape.root_mem (h1 ▸ hj)))
      · exact .inl (.inr (.inr (Shape.root_mem (h2 ▸ hj))))
      · exact .inr (h3 rfl ▸ hj)
    · rcases ih2 h5 i' hi' n' en' j hj with h | h
      · exact .inl (.inr (.inr h))
      · exact .inl (.inr (.inl (Option.some.inj h).symm))

theorem count_live (t : BTree κ δ) {L : List Nat} (hn : L.Nodup) (hL : ∀ i, i ∈ L ↔ (t.at i).isSome) : t.arr.countP Option.isSome = L.length := by
  have h1 : List.Perm ((List.range t.arr.length).filter (fun i => (t.at i).isSome)) L := by
    rw [List.perm_ext_iff_of_nodup (List.nodup_range.filter _) hn]
    intro i
    rw [List.mem_filter, hL, List.mem_range]
    refine ⟨fun h => h.2, fun h => ⟨?_, h⟩⟩
    refine Decidable.by_contra fun hi => ?_
    unfold BTree.at at h
    rw [List.getElem?_eq_none (by omega)] at h
    cases h
  rw [← h1.length_eq, ← List.countP_eq_length_filter]
  have h2 : t.arr = (List.range t.arr.length).map t.at := by
    refine List.ext_getElem (by simp) fun i h1 h2 => ?_
    simp [BTree.at, List.getElem?_eq_getElem h1]
  conv => lhs; rw [h2]
  rw [List.countP_map]
  rfl

theorem Ent.inj {h : Cells κ δ} : ∀ {L : List Nat} {E : List (κ × Option δ)}, Ent h L E → (E.map (·.1)).Nodup → ∀ i ∈ L, ∀ j ∈ L, keyOf h i = keyOf h j → i = j := by
  intro L
  induction L with
  | nil => intro E _ _ i hi; cases hi
  | cons a L ih =>
    intro E H hn i hi j hj hk
    obtain ⟨e, E', rfl, he, H'⟩ := Ent.cons_iff.mp H
    simp only [List.map_cons, List.nodup_cons] at hn
    have key : ∀ j ∈ L, keyOf h a ≠ keyOf h j := by
      intro j hj hk
      have hm : ∃ e', entryAt h j = some e' ∧ e' ∈ E' := by
        have : entryAt h j ∈ E'.map some := by rw [← H']; exact List.mem_map_of_mem hj
        obtain ⟨e', h1, h2⟩ := List.mem_map.mp this
        exact ⟨e', h2.symm, h1⟩
      obtain ⟨e', h1, h2⟩ := hm
      rw [keyOf_entry he, keyOf_entry h1] at hk
      exact hn.1 (by rw [Option.some.inj hk]; exact List.mem_map_of_mem h2)
    rcases List.mem_cons.mp hi with e1 | hi' <;> rcases List.mem_cons.mp hj with e2 | hj'
    · rw [e1, e2]
    · exact absurd (e1 ▸ hk) (key j hj')
    · exact absurd (e2 ▸ hk.symm) (key i hi')
    · exact ih H' hn.2 i hi' j hj' hk

theorem Stored.compactable {t : BTree κ δ} {T : Shape} {E : List (κ × Option δ)} (h : Stored t T E) (hn : (E.map (·.1)).Nodup) : Compactable t := by
  have hin : ∀ {i n}, t.at i = some n → i ∈ T.ids := fun e => h.occ _ (by rw [e]; rfl)
  refine ⟨fun i n e => h.low i (hin e), fun i j m n e1 e2 hk => ?_, fun i n e j hj => ?_, ?_⟩
  · exact h.ent.inj hn i (hin e1) j (hin e2) (by simp [keyOf, e1, e2, hk])
  · rcases h.tree.linked.links i (hin e) n e j hj with hj | hj
    · exact h.isSome hj
    · cases hj
  · rw [count_live t h.tree.nodup fun i => ⟨fun hi => h.isSome hi, h.occ i⟩, h.num]

/-- Contracting the array keeps what is stored; the root has to be renumbered as well. -/
theorem stored_contract {t : BTree κ δ} {T : Shape} {E : List (κ × Option δ)} (st : Stored t T E) (hn : (E.map (·.1)).Nodup) (hlt : 4 * t.num < t.arr.length) :
    ∃ t' ixs, atModify t = .ok (t', some ixs) ∧ Stored { t' with rootIdx := newPos t t.rootIdx } (T.rename (newPos t)) E ∧ Contracted t t' ∧
      ∀ i n, t.at i = some n → ixs.lookup n.key = some (newPos t i) := by
  have hc := st.compactable hn
  obtain ⟨t', ixs, e, C, hix⟩ := modify_contracts hc hlt
  have hin : ∀ {i n}, t.at i = some n → i ∈ T.ids := fun e => st.occ _ (by rw [e]; rfl)
  have hat : ∀ i ∈ T.ids, ∃ n, t.at i = some n ∧ t'.at (newPos t i) = some (renumbered (newPos t) n) := by
    intro i hi
    obtain ⟨n, en⟩ := Option.isSome_iff_exists.mp (st.isSome hi)
    exact ⟨n, en, C.node i n en⟩
  have hpos : 0 < t.num := by rw [st.num]; exact List.length_pos_of_mem (Shape.root_mem st.tree.root)
  have hfront : ∀ j, j < t.num → j ∈ (T.rename (newPos t)).ids := by
    intro j hj
    obtain ⟨i, n, ei, rfl⟩ := C.front j hj
    rw [Shape.ids_rename]; exact List.mem_map_of_mem (hin ei)
  have hle : t.num ≤ t.top := by
    rw [← hc.take_eq]
    exact Nat.le_trans List.countP_le_length (by simp; omega)
  refine ⟨t', ixs, e, ⟨⟨?_, ?_, ?_⟩, ?_, ?_, ?_, ?_, ?_, ?_, ?_⟩, C, hix⟩
  · rw [Shape.root_rename, st.tree.root]; rfl
  · refine linked_rename (p := none) (h := t.at) ?_ st.tree.linked
    intro i hi n en
    exact C.node i n en
  · rw [Shape.ids_rename]
    refine List.pairwise_map.mpr (st.tree.nodup.imp_of_mem ?_)
    intro i j hi hj hne hij
    refine hne ?_
    obtain ⟨m, em, _⟩ := hat i hi
    obtain ⟨n, en, _⟩ := hat j hj
    exact newPos_inj em en hij
  · show Ent t'.at _ E
    have H := st.ent
    unfold Ent at H ⊢
    rw [Shape.ids_rename, List.map_map, ← H]
    refine List.map_congr_left fun i hi => ?_
    obtain ⟨n, en, en'⟩ := hat i hi
    simp [entryAt, en, en', renumbered]
  · intro j hj
    obtain ⟨n, en⟩ := Option.isSome_iff_exists.mp hj
    exact hfront j (C.only j n en)
  · intro j hj
    rw [Shape.ids_rename] at hj
    obtain ⟨i, hi, rfl⟩ := List.mem_map.mp hj
    obtain ⟨n, _, en'⟩ := hat i hi
    show _ < t'.top
    rw [C.top]; exact C.only _ _ en'
  · intro _
    refine hfront _ ?_
    show t'.top - 1 < _
    rw [C.top]; omega
  · show t'.top ≤ t'.size
    rw [C.top, C.rest.2.1]; exact Nat.le_trans hle st.ts
  · show t'.top ≤ t'.arr.length
    rw [C.top, C.len]; omega
  · show t'.num = _
    rw [C.rest.1, Shape.ids_rename, List.length_map, st.num]

/-! ## A leaf is deleted -/

def Frame.rename (f : Nat → Nat) : Frame → Frame
  | .inL i r => .inL (f i) (r.rename f)
  | .inR l i => .inR (l.rename f) (f i)

theorem rename_plug (f : Nat → Nat) : ∀ (c : Around) (S : Shape), (Around.plug c S).rename f = Around.plug (c.map (Frame.rename f)) (S.rename f) := by
  intro c
  induction c with
  | nil => intro S; rfl
  | cons g c ih =>
    intro S
    cases g <;> exact ih _

theorem rename_id : ∀ T : Shape, T.rename id = T := by
  intro T
  induction T with
  | leaf => rfl
  | node l i r ih1 ih2 => simp [Shape.rename, ih1, ih2]

/-- No node has been added; after a contraction the last position is not filled any more. -/
def Shrunk (t t' : BTree κ δ) : Prop := t'.size = t.size ∧ t'.top ≤ t.top ∧ (t'.arr.length = t.arr.length ∨ t'.top < t'.size)

/-- The leaf `x` below `f` is cut off and its position freed, whether the array is contracted or not; `ρ` says where the nodes are afterwards. -/
theorem leaf_cut {t : BTree κ δ} {f : Frame} {C : Around} {x : Nat} {E E0 : List (κ × Option δ)} (st : Stored t (Around.plug (f :: C) (.node .leaf x .leaf)) E0)
    (he : Ent t.at (Around.plug (f :: C) .leaf).ids E) (hn : (E.map (·.1)).Nodup) (hn0 : (E0.map (·.1)).Nodup) :
    ∃ t1 t4 ρ, relink t f.idx x none = .ok t1 ∧ delSlot t1 x f.idx = .ok (t4, some (ρ f.idx)) ∧ Stored t4 ((Around.plug (f :: C) .leaf).rename ρ) E ∧
      Shrunk t t4 ∧ t4.num + 1 = t.num ∧ t4.orderStat = t.orderStat ∧
      ∀ i ∈ (Around.plug (f :: C) .leaf).ids, (t4.at (ρ i)).map BNode.strip = (t.at i).map BNode.strip := by
  obtain ⟨t1, t2, t3, e1, e2, e3, st3, f3, i1, i2, o3, c3, d3, q3⟩ := stored_free st.tree (.inl ⟨rfl, rfl⟩) he st.occ st.low st.last st.ts st.cap st.num
  rw [relink_eq st.tree] at e1
  have e2' : (.ok t1 : PyM (BTree κ δ)) = .ok t2 := e2
  have : t2 = t1 := by cases e2'; rfl
  subst this
  have e1' : relink t f.idx x none = .ok t2 := e1
  by_cases h4 : 4 * t3.num < t3.arr.length
  · obtain ⟨t', ixs, em, st', K, hix⟩ := stored_contract st3 hn h4
    have hat : ∀ i ∈ (Around.plug (f :: C) .leaf).ids, ∃ n, t2.at i = some n ∧ t3.at i = some n := by
      intro i hi
      obtain ⟨n, en⟩ := Option.isSome_iff_exists.mp (st3.isSome hi)
      exact ⟨n, by rw [← d3 i hi, en], en⟩
    obtain ⟨p, ep, ep'⟩ := hat _ (Frame.idx_mem f C _)
    obtain ⟨r, er, er'⟩ := hat _ (Shape.root_mem st3.tree.root)
    rw [q3] at er
    refine ⟨t2, { t' with rootIdx := newPos t3 t3.rootIdx }, newPos t3, e1', ?_, st', ?_, ?_, ?_, ?_⟩
    · simp only [delSlot, getNode_ok ep, getNode_ok er, ok_bind, e3, em, atIndex, hix _ _ ep', hix _ _ er']
    · have h1 : t3.num ≤ t3.top := (st3.compactable hn).take_eq ▸ Nat.le_trans List.countP_le_length (by simp; omega)
      have h2 := f3.top
      have h3 := f3.num
      have h4 := f3.size
      have h5 := st3.ts
      have h6 : x < t.top := st.low x (by rw [mem_plug]; simp [Shape.ids])
      have h7 := st.ts
      have h8 : t.num ≤ t.top := (st.compactable hn0).take_eq ▸ Nat.le_trans List.countP_le_length (by simp; omega)
      refine ⟨by show t'.size = _; rw [K.rest.2.1, f3.size], ?_, .inr ?_⟩
      · show t'.top ≤ _; rw [K.top]; omega
      · show t'.top < t'.size; rw [K.top, K.rest.2.1]; omega
    · show t'.num + 1 = _; rw [K.rest.1]; exact f3.num
    · show t'.orderStat = _; rw [K.rest.2.2.2, o3]
    · intro i hi
      obtain ⟨n, _, en⟩ := hat i hi
      rw [← c3 i hi, en]
      show (t'.at _).map _ = _
      rw [K.node i n en]; rfl
  · have e3' : atDelete t2 x = .ok (t3, none) := by rw [e3]; unfold atModify; rw [if_neg h4]
    exact ⟨t2, t3, id, e1', delSlot_spec i1 i2 e3', by rw [rename_id]; exact st3, ⟨f3.size, by rw [f3.top]; split <;> omega, .inl f3.len⟩, f3.num, o3, c3⟩

end Props
