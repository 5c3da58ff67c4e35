import Verif.Model.BinomialShared
import Verif.Props.BinomialRoots

/-!
# C157: the list given to a binomial heap keeps its trees
-/
namespace Props
open Py Model Spec
variable {κ δ : Type} {le : κ → κ → Bool}

/-- One call; an exception leaves everything as it is. -/
def shStep (le : κ → κ → Bool) (s : BhShared κ δ) : BhOp κ δ → BhShared κ δ × Option PyErr
  | .insert k d => match shInsert le s k d with
    | .ok s' => (s', none)
    | .error e => (s, some e)
  | .findMin => match bhFindMin le s.heap.roots with
    | .ok _ => (s, none)
    | .error e => (s, some e)
  | .deleteMin => match shDeleteMin le s with
    | .ok s' => (s', none)
    | .error e => (s, some e)
  | .merge isList roots => match shMerge le s (bhNew isList roots) with
    | .ok s' => (s', none)
    | .error e => (s, some e)

/-- The property: after every history the list contains the trees that it contained when the heap was made, each at its place. -/
def C157_full : Prop := ∀ (roots : List (BinTree Int Nat)) (ops : List (BhOp Int Nat)), (∀ t ∈ roots, BinOrdered intLe t.root) → GivenOk intLe ops →
  (final (shStep intLe) (bhShare roots) ops).caller = List.range roots.length

theorem sh_unshared (ops : List (BhOp κ δ)) : ∀ s : BhShared κ δ, s.shared = false → (final (shStep le) s ops).caller = s.caller := by
  induction ops with
  | nil => intro s _; rfl
  | cons op ops ih =>
    intro s hs
    have key : (shStep le s op).1.shared = false ∧ (shStep le s op).1.caller = s.caller := by
      cases op with
      | insert k d =>
        unfold shStep shInsert
        cases h : bhsInsert le s.heap k d <;> simp [h, hs, bind, Except.bind]
      | findMin =>
        unfold shStep
        cases h : bhFindMin le s.heap.roots <;> simp [hs]
      | deleteMin =>
        unfold shStep shDeleteMin
        cases h : bhFindMin le s.heap.roots with
        | error e => simp [hs, bind, Except.bind]
        | ok r => cases h' : bhsDeleteMin le s.heap <;> simp [hs, bind, Except.bind]
      | merge b roots =>
        unfold shStep shMerge
        cases h : bhsMerge le s.heap (bhNew b roots) <;> simp [h, hs, bind, Except.bind]
    show (final (shStep le) (shStep le s op).1 ops).caller = s.caller
    rw [ih _ key.1, key.2]

theorem bhMerge_ordered (ho : KeyOrder le) {h1 h2 : List (BinTree κ δ)} (k1 : BinForestOk le h1) (k2 : BinForestOk le h2) :
    ∃ h, bhMerge le h1 h2 = .ok h := by
  obtain ⟨h, e, _⟩ := C156_merge ho k1 k2
  exact ⟨h, e⟩

/-- **C157**, exactly: the list keeps its trees unless there are some and the least entry is deleted before anything is inserted or merged; then it has
lost one of them. -/
theorem C157_list_kept_exact (ho : KeyOrder le) (roots : List (BinTree κ δ)) (hr : ∀ t ∈ roots, BinOrdered le t.root) : ∀ (ops : List (BhOp κ δ)), GivenOk le ops →
    ((final (shStep le) (bhShare roots) ops).caller = List.range roots.length ↔ (roots = [] ∨ deletesFirst ops = false)) ∧
    (roots ≠ [] → deletesFirst ops = true → ∃ i < roots.length, (final (shStep le) (bhShare roots) ops).caller = (List.range roots.length).eraseIdx i) := by
  intro ops
  induction ops with
  | nil => intro _; exact ⟨⟨fun _ => Or.inr rfl, fun _ => rfl⟩, fun _ h => by cases h⟩
  | cons op ops ih =>
    intro hg
    cases op with
    | insert k d =>
      obtain ⟨h, e⟩ := bhMerge_ordered ho hr (h2 := [⟨.mk k d [], 0⟩]) (by
        intro t ht
        rw [List.mem_singleton.1 ht]
        exact .mk _ _ _ (fun c h => by cases h) (fun c h => by cases h))
      have e2 : shStep le (bhShare roots) (.insert k d) = (⟨⟨h, true⟩, List.range roots.length, false⟩, none) := by
        simp [shStep, shInsert, bhsInsert, bhInsert, bhShare, bhNew, e, bind, Except.bind]
      have : (final (shStep le) (bhShare roots) (.insert k d :: ops)).caller = List.range roots.length := by
        show (final (shStep le) (shStep le (bhShare roots) (.insert k d)).1 ops).caller = _
        rw [e2]
        exact sh_unshared ops _ rfl
      exact ⟨⟨fun _ => Or.inr rfl, fun _ => this⟩, fun _ h => by cases h⟩
    | merge b l =>
      obtain ⟨h, e⟩ := bhMerge_ordered ho hr hg.1
      have e2 : shStep le (bhShare roots) (.merge b l) = (⟨⟨h, true⟩, List.range roots.length, false⟩, none) := by
        simp [shStep, shMerge, bhsMerge, bhShare, bhNew, e, bind, Except.bind]
      have : (final (shStep le) (bhShare roots) (.merge b l :: ops)).caller = List.range roots.length := by
        show (final (shStep le) (shStep le (bhShare roots) (.merge b l)).1 ops).caller = _
        rw [e2]
        exact sh_unshared ops _ rfl
      exact ⟨⟨fun _ => Or.inr rfl, fun _ => this⟩, fun _ h => by cases h⟩
    | findMin =>
      have e2 : (shStep le (bhShare roots) .findMin).1 = bhShare roots := by
        unfold shStep
        cases bhFindMin le (bhShare roots).heap.roots <;> rfl
      have e3 : final (shStep le) (bhShare roots) (.findMin :: ops) = final (shStep le) (bhShare roots) ops := by
        show final (shStep le) (shStep le (bhShare roots) .findMin).1 ops = _
        rw [e2]
      rw [e3]
      exact ih hg
    | deleteMin =>
      rcases forest_min ho hr with ⟨h0, -, e⟩ | ⟨n, i, h', e, -, em, -, -, hne⟩
      · subst h0
        have e2 : (shStep le (bhShare ([] : List (BinTree κ δ))) .deleteMin).1 = bhShare [] := by
          have : bhFindMin le (bhShare ([] : List (BinTree κ δ))).heap.roots = .error .indexError := e
          unfold shStep shDeleteMin
          rw [this]
          rfl
        have e3 : final (shStep le) (bhShare ([] : List (BinTree κ δ))) (.deleteMin :: ops) = final (shStep le) (bhShare []) ops := by
          show final (shStep le) (shStep le (bhShare []) .deleteMin).1 ops = _
          rw [e2]
        rw [e3]
        exact ⟨⟨fun _ => Or.inl rfl, fun _ => (ih hg).1.2 (Or.inl rfl)⟩, fun h => absurd rfl h⟩
      · have hi : i < roots.length := by
          rcases bhFindMin_spec (le := le) ho roots with ⟨h0, _⟩ | ⟨n', i', t, e', hi, _⟩
          · exact absurd h0 hne
          · rw [e] at e'
            cases e'
            rcases Nat.lt_or_ge i roots.length with h | h
            · exact h
            · rw [List.getElem?_eq_none h] at hi; cases hi
        have ec : (final (shStep le) (bhShare roots) (.deleteMin :: ops)).caller = (List.range roots.length).eraseIdx i := by
          have e2 : shStep le (bhShare roots) .deleteMin = (⟨⟨h', true⟩, (List.range roots.length).eraseIdx i, false⟩, none) := by
            simp [shStep, shDeleteMin, bhsDeleteMin, bhShare, bhNew, e, em, bind, Except.bind]
          show (final (shStep le) (shStep le (bhShare roots) .deleteMin).1 ops).caller = _
          rw [e2]
          exact sh_unshared ops _ rfl
        refine ⟨⟨fun h => ?_, fun h => ?_⟩, fun _ _ => ⟨i, hi, ec⟩⟩
        · rw [ec] at h
          have := congrArg List.length h
          rw [List.length_eraseIdx, List.length_range, if_pos hi] at this
          omega
        · rcases h with h | h
          · exact absurd h hne
          · cases h

/-- **C157** (partial): histories in which something is inserted or merged before the first deletion. -/
theorem C157_list_kept_partial (ho : KeyOrder le) (roots : List (BinTree κ δ)) (hr : ∀ t ∈ roots, BinOrdered le t.root) (ops : List (BhOp κ δ))
    (hg : GivenOk le ops) (hd : deletesFirst ops = false) : (final (shStep le) (bhShare roots) ops).caller = List.range roots.length :=
  (C157_list_kept_exact ho roots hr ops hg).1.2 (Or.inr hd)

theorem C157_full_false : ¬ C157_full := by
  intro h
  have hr : ∀ t ∈ [(⟨.mk 1 0 [], 0⟩ : BinTree Int Nat)], BinOrdered intLe t.root := by
    intro t ht
    rw [List.mem_singleton.1 ht]
    exact .mk _ _ _ (fun c h => by cases h) (fun c h => by cases h)
  have := (C157_list_kept_exact intLe_order [⟨.mk 1 0 [], 0⟩] hr [.deleteMin] trivial).1.1 (h _ [.deleteMin] hr trivial)
  rcases this with h | h <;> cases h

example : (final (shStep intLe) (bhShare exRoots) [.findMin, .deleteMin, .insert 1 1, .deleteMin]).caller = [0, 2] := by decide +kernel
example : (final (shStep intLe) (bhShare exRoots) [.findMin, .insert 1 1, .deleteMin, .deleteMin]).caller = [0, 1, 2] := by decide +kernel

end Props
