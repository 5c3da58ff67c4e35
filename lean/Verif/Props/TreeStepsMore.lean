import Verif.Props.TreeSteps
import Verif.Props.CppRbDelete
import Verif.Props.SplaySplit

/-! # C126: after deletions, and with the C++ back end -/
namespace Props
open Py Model Model.Cpp Spec
set_option linter.unusedSectionVars false
variable {κ δ : Type} [DecidableEq κ]

/-! ## After deletions -/

theorem AvlHas.within {lt : κ → κ → Bool} (ht : StrictTotal (ltRel lt)) {os : Bool} {t : BTree κ δ} {D : List (κ × Option δ)} (h : AvlHas lt os t D) (hne : D ≠ []) :
    AnswersWithin lt (avlRounds D.length) t (dataOf D) := by
  have hn := h.nodup_keys ht
  obtain ⟨ho, E, hp, ⟨rfl, hc⟩ | ⟨T, hT, hs⟩⟩ := h
  · exact absurd (List.nil_perm.mp hp) hne
  · have st := hT.stored
    have hcar : Carries t T (dataOf D) := st.carries fun k d => by rw [dataOf_iff hn, hp.mem_iff]
    have hlen : T.ids.length = D.length := by rw [← hp.length_eq, st.ent.length]
    have hd : T.depth + 3 ≤ avlRounds D.length := le_avlRounds (by rw [← hlen]; exact balanced_log hT.bal)
    exact answersWithin ht st.tree (st.srt hs) hcar (by omega)

/-- **C126** for AVL trees with deletions: after every history of `insert` and `delete` the array copes with (as in C85), as long as `n` entries are left, no loop of `search`, `lower_bound`
or `upper_bound` takes more than `1.5 log2 (n + 1) + 3` rounds. The bound is in the number of entries left, not of those inserted. -/
theorem C126_avl_deletes {lt : κ → κ → Bool} (ht : StrictTotal (ltRel lt)) (os : Bool) (ops : List (BstOp κ δ))
    (hc : ∃ n0, ∀ fuel, n0 ≤ fuel → CopesAvlAll lt fuel (btEmpty os) [] ops) (hne : bstContents [] ops ≠ []) :
    ∃ t, EndsWith (fun n => avlRun lt n (btEmpty os) ops) (.ok (t, ops.map avlReturn)) ∧
      AnswersWithin lt (avlRounds (bstContents [] ops).length) t (dataOf (bstContents [] ops)) := by
  obtain ⟨t, h, hr⟩ := avlHas_run ht ops _ [] (AvlHas.empty lt os) hc
  exact ⟨t, hr, h.within ht hne⟩

theorem RbHas.within {lt : κ → κ → Bool} (ht : StrictTotal (ltRel lt)) {t : BTree κ δ} {D : List (κ × Option δ)} (h : RbHas lt t D) (hn : (D.map (·.1)).Nodup) (hne : D ≠ []) :
    AnswersWithin lt (rbRounds D.length) t (dataOf D) := by
  obtain ⟨E, hp, ⟨rfl, hc⟩ | ⟨T, hT, hs⟩⟩ := h
  · exact absurd (List.nil_perm.mp hp) hne
  · have st := hT.holding hs
    have hcar : Carries t T (dataOf D) := st.carries fun k d => by rw [dataOf_iff hn, hp.mem_iff]
    have hlen : T.ids.length = D.length := by rw [← hp.length_eq, hT.ent.length]
    have hb : BlackRoot t.at T := by intro j hj; rw [hT.tree.root] at hj; cases hj; exact hT.root
    obtain ⟨N, hN⟩ := hT.black
    have hd := (redOk_depth hT.rb.cols hT.red hN).2 hb
    have hsz := blackHeight_size hN
    have : T.depth + 3 ≤ rbRounds D.length :=
      le_rbRounds (Nat.le_trans (Nat.pow_le_pow_right (by omega) (show T.depth / 2 ≤ N by omega)) (by omega))
    exact answersWithin ht hT.tree st.srt hcar (by omega)

/-- **C126** for red-black trees with deletions: after every history the array copes with (as in C84), as long as `n` entries are left, no loop of `search`, `lower_bound` or
`upper_bound` takes more than `2 log2 (n + 1) + 4` rounds. -/
theorem C126_red_black_deletes {lt : κ → κ → Bool} (ht : StrictTotal (ltRel lt)) (ops : List (BstOp κ δ))
    (hc : ∃ n0, ∀ fuel, n0 ≤ fuel → CopesRbAll lt fuel (btEmpty false) [] ops) (hne : bstContents [] ops ≠ []) :
    ∃ t, EndsWith (fun n => rbRun lt n (btEmpty false) ops) (.ok (t, bstReturns [] ops)) ∧
      AnswersWithin lt (rbRounds (bstContents [] ops).length) t (dataOf (bstContents [] ops)) := by
  obtain ⟨t, h, hr⟩ := rbHas_run ht ops _ [] (RbHas.empty lt) hc
  exact ⟨t, hr, h.within ht (h.bstHas.nodup_keys ht) hne⟩

/-! ## The C++ red-black tree -/

/-- The same for the methods of the C++ tree. -/
def CAnswersWithin (lt : κ → κ → Bool) (b : Nat) (t : BTree κ δ) (m : κ → Option (Option δ)) : Prop :=
  ∀ k, (∃ r, EndsBy b (fun n => cSearch (ofLt lt) n t k) (.ok r) ∧ Answers t k (m k) r) ∧
    (∃ r, EndsBy b (fun n => cLower (ofLt lt) n t k) (.ok r) ∧ LeastOf lt (fun a => (m a).isSome ∧ lt a k = false) r) ∧
    (∃ r, EndsBy b (fun n => cUpper (ofLt lt) n t k) (.ok r) ∧ LeastOf lt (fun a => (m a).isSome ∧ lt k a = true) r)

theorem AnswersWithin.cpp {lt : κ → κ → Bool} {b : Nat} {t : BTree κ δ} {m : κ → Option (Option δ)} (h : AnswersWithin lt b t m) : CAnswersWithin lt b t m := by
  intro k
  obtain ⟨⟨r1, a1, b1⟩, ⟨r2, a2, b2⟩, ⟨r3, a3, b3⟩⟩ := h k
  exact ⟨⟨r1, fun n hn => le_search lt n t k _ (a1 n hn), b1⟩, ⟨r2, fun n hn => le_bound lt t k false n _ _ (a2 n hn), b2⟩,
    ⟨r3, fun n hn => le_bound lt t k true n _ _ (a3 n hn), b3⟩⟩

theorem crb_within {lt : κ → κ → Bool} (ht : StrictTotal (ltRel lt)) {os : Bool} (ks : List κ) : ∀ (ops : List (κ × Option δ)) (t : BTree κ δ)
    (m : κ → Option (Option δ)), RbState lt os True t m → (∀ k, (m k).isSome → k ∈ ks) → (∀ op ∈ ops, op.1 ∈ ks) → (ops.map (·.1)).Nodup →
    (∀ op ∈ ops, m op.1 = none) → ∀ fuel, rbRounds ks.length ≤ fuel → ∀ t', rbInserts lt fuel t ops = .ok t' →
    ops.foldlM (fun c op => cRbInsert (ofLt lt) fuel c op.1 op.2) (onC t) = .ok (onC t') := by
  intro ops
  induction ops with
  | nil => intro t m h _ _ _ _ fuel _ t' e; cases e; rfl
  | cons op ops ih =>
    intro t m h hm hk hd hnew fuel hf t' e
    obtain ⟨t1, h1, n0, hn, r1⟩ := rbInsert_steps ht h op.1 op.2
    have hop := hnew op (by simp)
    simp only [hop, and_self] at h1
    simp only [List.map_cons, List.nodup_cons] at hd
    have := le_rbRounds (hn trivial ks hm)
    have e1 := r1 fuel (by omega)
    have e2 : rbInserts lt fuel t1 ops = .ok t' := by
      unfold rbInserts at e ⊢
      rw [List.foldlM_cons, e1] at e
      exact e
    rw [List.foldlM_cons, le_rbState h fuel op.1 op.2 e1]
    exact ih t1 _ h1 (by
      intro k hk'
      split at hk'
      · rename_i e; rw [e]; exact hk op (by simp)
      · exact hm k hk') (fun o ho => hk o (by simp [ho])) hd.2 (by
      intro o ho
      have hne : ¬ o.1 = op.1 := fun e => hd.1 (by rw [← e]; exact List.mem_map.mpr ⟨o, ho, rfl⟩)
      simp only [if_neg hne]
      exact hnew o (by simp [ho])) fuel hf t' e2

/-- **C126** for the C++ red-black tree: `n` different keys inserted in any order. -/
theorem C126_cpp_red_black {lt : κ → κ → Bool} (ht : StrictTotal (ltRel lt)) (os : Bool) (ops : List (κ × Option δ)) (hne : ops ≠ []) (hd : (ops.map (·.1)).Nodup) :
    ∃ c, EndsBy (rbRounds ops.length) (fun n => cRbBuild (ofLt lt) n os ops) (.ok c) ∧ CAnswersWithin lt (rbRounds ops.length) c.t (lastData ops) := by
  obtain ⟨t, hr, ha⟩ := C126_red_black ht os ops hne hd
  refine ⟨onC t, fun n hn => ?_, ha.cpp⟩
  have := crb_within ht (ops.map (·.1)) ops (btEmpty os) (fun _ => none) (.empty rfl (fun _ => rfl)) (by simp)
    (fun op ho => List.mem_map.mpr ⟨op, ho, rfl⟩) hd (fun _ _ => rfl) n (by rw [List.length_map]; exact hn) t (hr n hn)
  simp only [cRbBuild, ctNew_empty, ok_bind]
  exact this

/-- The AVL tree copes with this history. -/
example := C126_avl_deletes nat_strict true ([.insert 5 none, .insert 7 none, .insert 9 none, .delete 5, .insert 3 (some "x"), .insert 9 (some "y"), .delete 4] : List (BstOp Nat String)) (by
    refine ⟨20, fun fuel hf => ?_⟩
    obtain ⟨m, rfl⟩ : ∃ m, fuel = m + 20 := ⟨fuel - 20, by omega⟩
    refine ⟨⟨rfl, .inl rfl⟩, fun r h => ?_⟩
    cases h
    refine ⟨⟨rfl, .inr (.inr (by decide))⟩, fun r h => ?_⟩
    cases h
    refine ⟨⟨rfl, .inr (.inr (by decide))⟩, fun r h => ?_⟩
    cases h
    refine ⟨⟨by decide, .inr (.inr (by decide))⟩, fun r h => ?_⟩
    cases h
    refine ⟨⟨rfl, .inr (.inr (by decide))⟩, fun r h => ?_⟩
    cases h
    refine ⟨⟨rfl, .inr (.inl (by decide))⟩, fun r h => ?_⟩
    cases h
    exact ⟨⟨by decide, .inl (by decide)⟩, fun _ _ => trivial⟩) (by decide)

/-- Twelve keys inserted into a red-black tree, five of them deleted. -/
example := C126_red_black_deletes (δ := Nat) nat_strict (insertsOf ((List.range 12).map fun i => (7 * i % 12, some i)) ++ [3, 99, 7, 0, 5, 11, 2].map .delete)
  (copesRb_fill nat_strict ([3, 99, 7, 0, 5, 11, 2].map .delete) _ (btEmpty false) [] (RbHas.empty _) fullOf_empty (by decide +kernel) (by rintro e _ ⟨_, h⟩; cases h) (by
    rintro t' h ⟨g1, g2, g3, g4, g5⟩
    have hl : (bstContents [] (insertsOf ((List.range 12).map fun i => (7 * i % 12, some i)))).length = 12 := by decide +kernel
    exact copesRb_thin nat_strict (n := 12) _ t' _ h (by omega) (by unfold KeepsHalf; decide))) (by decide +kernel)

/-- Twelve keys. -/
example := C126_cpp_red_black (δ := Nat) nat_strict false ((List.range 12).map fun i => (7 * i % 12, some i)) (by decide) (by decide +kernel)

end Props
