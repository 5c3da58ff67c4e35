import Verif.Model.BinomialRoots
import Verif.Props.BinomialHeap

/-!
# C156: a binomial heap made from any heap-ordered trees serves its entries
-/
namespace Props
open Py Model Spec
variable {κ δ : Type} {le : κ → κ → Bool}

/-- No node has a larger key than its children. Nothing is said of the number of the children. -/
inductive BinOrdered (le : κ → κ → Bool) : BinNode κ δ → Prop
  | mk (k : κ) (d : δ) (cs : List (BinNode κ δ)) (h : ∀ c ∈ cs, le k c.key = true) (hs : ∀ c ∈ cs, BinOrdered le c) : BinOrdered le (.mk k d cs)

/-- The calls: insertion, the node of least key, its deletion, merging with a heap made from other trees. -/
inductive BhOp (κ δ : Type)
  | insert (k : κ) (d : δ)
  | findMin
  | deleteMin
  | merge (isList : Bool) (roots : List (BinTree κ δ))

/-- One call; an exception leaves the heap as it is. -/
def bhsStep (le : κ → κ → Bool) (s : BhState κ δ) : BhOp κ δ → BhState κ δ × Out (κ × δ)
  | .insert k d => match bhsInsert le s k d with
    | .ok s' => (s', .done)
    | .error e => (s, .raised e)
  | .findMin => match bhFindMin le s.roots with
    | .ok (n, _) => (s, .elem (n.key, n.data))
    | .error e => (s, .raised e)
  | .deleteMin => match bhsDeleteMin le s with
    | .ok s' => (s', .done)
    | .error e => (s, .raised e)
  | .merge isList roots => match bhsMerge le s (bhNew isList roots) with
    | .ok s' => (s', .done)
    | .error e => (s, .raised e)

/-- What the calls must do when the heap has the entries `l`. -/
def MinServes (le : κ → κ → Bool) : List (κ × δ) → List (BhOp κ δ) → List (Out (κ × δ)) → Prop
  | _, [], outs => outs = []
  | l, .insert k d :: ops, outs => ∃ rest, outs = .done :: rest ∧ MinServes le ((k, d) :: l) ops rest
  | l, .findMin :: ops, outs => (l = [] ∧ ∃ rest, outs = .raised .indexError :: rest ∧ MinServes le l ops rest) ∨
      ∃ e ∈ l, (∀ x ∈ l, le e.1 x.1 = true) ∧ ∃ rest, outs = .elem e :: rest ∧ MinServes le l ops rest
  | l, .deleteMin :: ops, outs => (l = [] ∧ ∃ rest, outs = .raised .indexError :: rest ∧ MinServes le l ops rest) ∨
      ∃ e l', l.Perm (e :: l') ∧ (∀ x ∈ l, le e.1 x.1 = true) ∧ ∃ rest, outs = .done :: rest ∧ MinServes le l' ops rest
  | l, .merge _ roots :: ops, outs => ∃ rest, outs = .done :: rest ∧ MinServes le (l ++ bhEntries roots) ops rest

/-- The trees given by the caller are heap-ordered. -/
def GivenOk (le : κ → κ → Bool) : List (BhOp κ δ) → Prop
  | [] => True
  | .merge _ roots :: ops => (∀ t ∈ roots, BinOrdered le t.root) ∧ GivenOk le ops
  | _ :: ops => GivenOk le ops

/-- The property: whether the trees are given as a list or as a tuple, with any orders and in any sequence. -/
def C156_full : Prop := ∀ (isList : Bool) (roots : List (BinTree Int Nat)) (ops : List (BhOp Int Nat)), (∀ t ∈ roots, BinOrdered intLe t.root) →
  GivenOk intLe ops → MinServes intLe (bhEntries roots) ops (trace (bhsStep intLe) (bhNew isList roots) ops)

/-- The least element is deleted before anything is inserted or merged. -/
def deletesFirst : List (BhOp κ δ) → Bool
  | .deleteMin :: _ => true
  | .findMin :: ops => deletesFirst ops
  | _ => false

/-! ## The heap order is kept, whatever the shapes of the trees are -/

/-- All trees are heap-ordered. -/
def BinForestOk (le : κ → κ → Bool) (h : List (BinTree κ δ)) : Prop := ∀ t ∈ h, BinOrdered le t.root

theorem BinOrdered.root_le (ho : KeyOrder le) {t : BinNode κ δ} (h : BinOrdered le t) : ∀ e ∈ nodeEntries t, le t.key e.1 = true := by
  induction h with
  | mk k d cs h hs ih =>
    intro e he
    rw [nodeEntries_mk] at he
    rcases List.mem_cons.1 he with rfl | he
    · exact ho.refl _
    · have : ∀ (l : List (BinNode κ δ)), e ∈ nodesEntries l → ∃ c ∈ l, e ∈ nodeEntries c := by
        intro l
        induction l with
        | nil => intro h; simp [nodesEntries] at h
        | cons x l ihl =>
          intro h
          rw [nodesEntries] at h
          rcases List.mem_append.1 h with h | h
          · exact ⟨x, by simp, h⟩
          · obtain ⟨c, hc, hx⟩ := ihl h
            exact ⟨c, by simp [hc], hx⟩
      obtain ⟨c, hc, hx⟩ := this cs he
      exact ho.trans _ _ _ (h c hc) (ih c hc e hx)

theorem mergeTree_any (ho : KeyOrder le) {t1 t2 : BinTree κ δ} (h1 : BinOrdered le t1.root) (h2 : BinOrdered le t2.root)
    (he : t1.order = t2.order) : ∃ t, mergeTree le t1 t2 = .ok t ∧ BinOrdered le t.root ∧ (nodeEntries t.root).Perm (nodeEntries t1.root ++ nodeEntries t2.root) := by
  obtain ⟨⟨k1, d1, c1⟩, n1⟩ := t1
  obtain ⟨⟨k2, d2, c2⟩, n2⟩ := t2
  dsimp only at he h1 h2
  subst he
  have glue : ∀ {k k' : κ} {d d' : δ} {c c' : List (BinNode κ δ)}, BinOrdered le (.mk k d c) → BinOrdered le (.mk k' d' c') → le k k' = true →
      BinOrdered le (.mk k d (c ++ [.mk k' d' c'])) := by
    intro k k' d d' c c' a b hk
    cases a with
    | mk _ _ _ ha hsa =>
      refine .mk _ _ _ ?_ ?_ <;> intro x hx <;> rcases List.mem_append.1 hx with hx | hx
      · exact ha x hx
      · rw [List.mem_singleton.1 hx]; exact hk
      · exact hsa x hx
      · rw [List.mem_singleton.1 hx]; exact b
  by_cases hk : le k1 k2 = true
  · refine ⟨⟨.mk k1 d1 (c1 ++ [.mk k2 d2 c2]), n1 + 1⟩, ?_, glue h1 h2 hk, ?_⟩
    · simp [mergeTree, addSubTree, BinNode.key, BinNode.data, BinNode.children, hk]
    · simp only [nodeEntries_mk, nodesEntries_append, nodesEntries_one, List.cons_append]
      exact .refl _
  · have hk' : le k1 k2 = false := by simpa using hk
    refine ⟨⟨.mk k2 d2 (c2 ++ [.mk k1 d1 c1]), n1 + 1⟩, ?_, glue h2 h1 (KeyOrder.not_le ho hk'), ?_⟩
    · simp [mergeTree, addSubTree, BinNode.key, BinNode.data, BinNode.children, hk']
    · simp only [nodeEntries_mk, nodesEntries_append, nodesEntries_one]
      exact List.perm_append_comm (l₁ := (k2, d2) :: nodesEntries c2) (l₂ := (k1, d1) :: nodesEntries c1)

theorem mergeLast_any (ho : KeyOrder le) {acc : List (BinTree κ δ)} {t : BinTree κ δ} (ha : BinForestOk le acc) (ht : BinOrdered le t.root) :
    ∃ acc', mergeLast le acc t = .ok acc' ∧ BinForestOk le acc' ∧ (bhEntries acc').Perm (bhEntries acc ++ nodeEntries t.root) := by
  have app : BinForestOk le (acc ++ [t]) ∧ (bhEntries (acc ++ [t])).Perm (bhEntries acc ++ nodeEntries t.root) := by
    refine ⟨fun x hx => ?_, by simp [bhEntries]⟩
    rcases List.mem_append.1 hx with hx | hx
    · exact ha x hx
    · rw [List.mem_singleton.1 hx]; exact ht
  rcases List.eq_nil_or_concat acc with rfl | ⟨a, l, rfl⟩
  · exact ⟨[t], rfl, app.1, app.2⟩
  · rw [List.concat_eq_append] at ha app ⊢
    rw [mergeLast, List.getLast?_append]
    simp only [List.getLast?_singleton, Option.some_or]
    by_cases he : l.order = t.order
    · obtain ⟨m, e, hm, hperm⟩ := mergeTree_any ho (ha l (by simp)) ht he
      rw [if_pos he, e, ok_bind]
      refine ⟨a ++ [m], by simp, ?_, ?_⟩
      · intro x hx
        rcases List.mem_append.1 hx with hx | hx
        · exact ha x (by simp [hx])
        · rw [List.mem_singleton.1 hx]; exact hm
      · rw [bhEntries_append, bhEntries_append, bhEntries_cons, bhEntries_cons, List.append_assoc]
        refine List.Perm.append_left _ ?_
        simpa [bhEntries] using hperm
    · rw [if_neg he]
      exact ⟨_, rfl, app.1, app.2⟩

theorem mergeHeaps_any (ho : KeyOrder le) : ∀ (fuel : Nat) (h1 h2 acc : List (BinTree κ δ)), h1.length + h2.length ≤ fuel →
    BinForestOk le h1 → BinForestOk le h2 → BinForestOk le acc →
    ∃ h, mergeHeaps le fuel h1 h2 acc = .ok h ∧ BinForestOk le h ∧ (bhEntries h).Perm (bhEntries acc ++ (bhEntries h1 ++ bhEntries h2)) := by
  intro fuel
  induction fuel with
  | zero =>
    intro h1 h2 acc hl _ _ ha
    have e1 : h1 = [] := List.length_eq_zero_iff.1 (by omega)
    have e2 : h2 = [] := List.length_eq_zero_iff.1 (by omega)
    subst e1; subst e2
    exact ⟨acc, by simp [mergeHeaps], ha, by simp [bhEntries]⟩
  | succ fuel ih =>
    intro h1 h2 acc hl k1 k2 ha
    have take : ∀ (t : BinTree κ δ) (h1' h2' : List (BinTree κ δ)), h1'.length + h2'.length ≤ fuel → BinOrdered le t.root → BinForestOk le h1' → BinForestOk le h2' →
        (nodeEntries t.root ++ (bhEntries h1' ++ bhEntries h2')).Perm (bhEntries h1 ++ bhEntries h2) →
        ∃ h, (mergeLast le acc t >>= fun acc => mergeHeaps le fuel h1' h2' acc) = .ok h ∧ BinForestOk le h ∧
          (bhEntries h).Perm (bhEntries acc ++ (bhEntries h1 ++ bhEntries h2)) := by
      intro t h1' h2' hl ht k1 k2 hp
      obtain ⟨acc', e, ha', hp'⟩ := mergeLast_any ho ha ht
      obtain ⟨h, e', hk, hp''⟩ := ih h1' h2' acc' hl k1 k2 ha'
      refine ⟨h, by rw [e, ok_bind]; exact e', hk, ?_⟩
      refine (hp''.trans (hp'.append_right _)).trans ?_
      rw [List.append_assoc]
      exact hp.append_left _
    cases h1 with
    | nil =>
      cases h2 with
      | nil => exact ⟨acc, by simp [mergeHeaps], ha, by simp [bhEntries]⟩
      | cons u us =>
        rw [mergeHeaps]
        refine take u [] us (by simp at hl ⊢; omega) (k2 u (by simp)) k1 (fun x hx => k2 x (by simp [hx])) ?_
        simp [bhEntries]
    | cons t ts =>
      have kts : BinForestOk le ts := fun x hx => k1 x (by simp [hx])
      cases h2 with
      | nil =>
        rw [mergeHeaps]
        refine take t ts [] (by simp at hl ⊢; omega) (k1 t (by simp)) kts k2 ?_
        simp [bhEntries]
      | cons u us =>
        have kus : BinForestOk le us := fun x hx => k2 x (by simp [hx])
        rw [mergeHeaps]
        simp only [List.length_cons] at hl
        by_cases he : t.order = u.order
        · rw [if_pos he]
          obtain ⟨m, e, hm, hp⟩ := mergeTree_any ho (k1 t (by simp)) (k2 u (by simp)) he
          rw [e, ok_bind]
          refine take m ts us (by omega) hm kts kus ?_
          refine (hp.append_right _).trans ?_
          rw [bhEntries_cons, bhEntries_cons]
          simp only [List.append_assoc]
          refine List.Perm.append_left _ ?_
          simp only [← List.append_assoc]
          exact (List.perm_append_comm).append_right _
        · rw [if_neg he]
          by_cases hlt : t.order < u.order
          · rw [if_pos hlt]
            refine take t ts (u :: us) (by simp; omega) (k1 t (by simp)) kts k2 ?_
            rw [bhEntries_cons t ts, List.append_assoc]
          · rw [if_neg hlt]
            refine take u (t :: ts) us (by simp; omega) (k2 u (by simp)) k1 kus ?_
            rw [bhEntries_cons u us]
            simp only [← List.append_assoc]
            exact (List.perm_append_comm).append_right _

/-- **C156**: merging two lists of heap-ordered trees, whatever their orders. -/
theorem C156_merge (ho : KeyOrder le) {h1 h2 : List (BinTree κ δ)} (k1 : ∀ t ∈ h1, BinOrdered le t.root) (k2 : ∀ t ∈ h2, BinOrdered le t.root) :
    ∃ h, bhMerge le h1 h2 = .ok h ∧ (∀ t ∈ h, BinOrdered le t.root) ∧ (bhEntries h).Perm (bhEntries h1 ++ bhEntries h2) := by
  obtain ⟨h, e, a, b⟩ := mergeHeaps_any ho (h1.length + h2.length) h1 h2 [] (Nat.le_refl _) k1 k2 (fun _ h => by cases h)
  exact ⟨h, e, a, by simpa [bhEntries] using b⟩

theorem childTrees_any : ∀ (cs : List (BinNode κ δ)) (k : Nat), (∀ c ∈ cs, BinOrdered le c) →
    BinForestOk le (childTrees k cs) ∧ bhEntries (childTrees k cs) = nodesEntries cs := by
  intro cs
  induction cs with
  | nil => intro k _; exact ⟨fun t h => by simp [childTrees] at h, by simp [childTrees, bhEntries, nodesEntries]⟩
  | cons c cs ih =>
    intro k h
    obtain ⟨a, e⟩ := ih (k + 1) (fun x hx => h x (by simp [hx]))
    refine ⟨?_, by rw [childTrees, bhEntries_cons, e, nodesEntries]⟩
    intro t ht
    rw [childTrees] at ht
    rcases List.mem_cons.1 ht with rfl | ht
    · exact h c (by simp)
    · exact a t ht

theorem forest_min (ho : KeyOrder le) {h : List (BinTree κ δ)} (hk : BinForestOk le h) :
    (h = [] ∧ bhEntries h = [] ∧ bhFindMin le h = .error .indexError) ∨
    ∃ n i h', bhFindMin le h = .ok (n, i) ∧ (∀ e ∈ bhEntries h, le n.key e.1 = true) ∧ bhMerge le (h.eraseIdx i) (childTrees 0 n.children) = .ok h' ∧
      BinForestOk le h' ∧ (bhEntries h).Perm ((n.key, n.data) :: bhEntries h') ∧ h ≠ [] := by
  rcases bhFindMin_spec (le := le) ho h with ⟨rfl, e⟩ | ⟨n, i, t, e, hi, ht, hmin⟩
  · left; exact ⟨rfl, by simp [bhEntries], e⟩
  · right
    have htm : t ∈ h := List.mem_of_getElem? hi
    have hord := hk t htm
    rw [ht] at hord
    have hcs : ∀ c ∈ n.children, BinOrdered le c := by
      cases hord with
      | mk k d cs h hs => exact hs
    obtain ⟨c1, c3⟩ := childTrees_any (le := le) n.children 0 hcs
    have hk' : BinForestOk le (h.eraseIdx i) := fun x hx => hk x (List.mem_of_mem_eraseIdx hx)
    obtain ⟨h', e', a, b⟩ := C156_merge ho hk' c1
    refine ⟨n, i, h', e, ?_, e', a, ?_, ?_⟩
    · intro x hx
      obtain ⟨u, hu, hxu⟩ := List.mem_flatMap.1 hx
      exact ho.trans _ _ _ (hmin u hu) ((hk u hu).root_le ho x hxu)
    · have h1 := (eraseIdx_perm h i t hi).flatMap_right (fun t => nodeEntries t.root)
      refine h1.trans ?_
      rw [List.flatMap_cons, ht]
      obtain ⟨k, d, cs⟩ := n
      rw [nodeEntries_mk]
      simp only [BinNode.key, BinNode.data, List.cons_append]
      refine List.Perm.cons _ ?_
      simp only [BinNode.children] at c3
      refine (List.perm_append_comm).trans ?_
      rw [← c3]
      exact b.symm
    · rintro rfl; simp at hi

/-- From a list, or once something has been inserted or merged, or when no deletion comes first. -/
theorem bhs_serves (ho : KeyOrder le) : ∀ (ops : List (BhOp κ δ)) (s : BhState κ δ) (l : List (κ × δ)), BinForestOk le s.roots → GivenOk le ops →
    (s.isList = true ∨ s.roots = [] ∨ deletesFirst ops = false) → l.Perm (bhEntries s.roots) → MinServes le l ops (trace (bhsStep le) s ops) := by
  intro ops
  induction ops with
  | nil => intro s l _ _ _ _; rfl
  | cons op ops ih =>
    intro s l hf hg hc hp
    have hnil : bhEntries s.roots = [] → l = [] := fun e => by rw [e] at hp; exact hp.eq_nil
    cases op with
    | insert k d =>
      obtain ⟨h, e, a, b⟩ := C156_merge ho hf (h2 := [⟨.mk k d [], 0⟩]) (by
        intro t ht
        rw [List.mem_singleton.1 ht]
        exact .mk _ _ _ (fun c h => by cases h) (fun c h => by cases h))
      have e2 : bhsInsert le s k d = .ok ⟨h, true⟩ := by rw [bhsInsert, bhInsert, e]; rfl
      have b' : ((k, d) :: l).Perm (bhEntries h) := by
        refine ((hp.cons (k, d))).trans (.symm (b.trans ?_))
        have : bhEntries [(⟨.mk k d [], 0⟩ : BinTree κ δ)] = [(k, d)] := by simp [bhEntries, nodeEntries, nodesEntries]
        rw [this]
        exact List.perm_append_comm
      exact ⟨_, by simp [trace, bhsStep, e2], ih ⟨h, true⟩ _ a hg (Or.inl rfl) b'⟩
    | findMin =>
      have hc' : s.isList = true ∨ s.roots = [] ∨ deletesFirst ops = false := hc
      rcases forest_min ho hf with ⟨h0, h0', e⟩ | ⟨n, i, h', e, hmin, -, -, hperm, -⟩
      · exact Or.inl ⟨hnil h0', _, by simp [trace, bhsStep, e], ih s l hf hg hc' hp⟩
      · refine Or.inr ⟨(n.key, n.data), hp.symm.mem_iff.1 (hperm.mem_iff.2 (by simp)), fun x hx => hmin x (hp.mem_iff.1 hx), _, by simp [trace, bhsStep, e],
          ih s l hf hg hc' hp⟩
    | deleteMin =>
      rcases forest_min ho hf with ⟨h0, h0', e⟩ | ⟨n, i, h', e, hmin, em, hf', hperm, hne⟩
      · have e2 : bhsDeleteMin le s = .error .indexError := by rw [bhsDeleteMin, e]; rfl
        exact Or.inl ⟨hnil h0', _, by simp [trace, bhsStep, e2], ih s l hf hg (Or.inr (Or.inl h0)) hp⟩
      · have hl : s.isList = true := by
          rcases hc with h | h | h
          · exact h
          · exact absurd h hne
          · simp [deletesFirst] at h
        have e2 : bhsDeleteMin le s = .ok ⟨h', true⟩ := by
          rw [bhsDeleteMin, e, ok_bind]
          simp only [hl, if_true, em, ok_bind]
        exact Or.inr ⟨(n.key, n.data), bhEntries h', hp.trans hperm, fun x hx => hmin x (hp.mem_iff.1 hx), _, by simp [trace, bhsStep, e2],
          ih ⟨h', true⟩ _ hf' hg (Or.inl rfl) (.refl _)⟩
    | merge b roots =>
      obtain ⟨h, e, a, bp⟩ := C156_merge ho hf hg.1
      have e2 : bhsMerge le s (bhNew b roots) = .ok ⟨h, true⟩ := by rw [bhsMerge, bhNew, e]; rfl
      exact ⟨_, by simp [trace, bhsStep, e2], ih ⟨h, true⟩ _ a hg.2 (Or.inl rfl) ((hp.append_right _).trans bp.symm)⟩

/-- **C156** (partial). A heap made from a list of heap-ordered trees, of any shapes, with any orders and in any sequence, serves the entries of these
trees, whatever is inserted, merged and deleted. Missing: tuples. -/
theorem C156_serves_partial (ho : KeyOrder le) (roots : List (BinTree κ δ)) (ops : List (BhOp κ δ)) (h : ∀ t ∈ roots, BinOrdered le t.root)
    (hg : GivenOk le ops) : MinServes le (bhEntries roots) ops (trace (bhsStep le) (bhNew true roots) ops) :=
  bhs_serves ho ops _ _ h hg (Or.inl rfl) (.refl _)

theorem bhs_tuple_fails (ho : KeyOrder le) : ∀ (ops : List (BhOp κ δ)) (s : BhState κ δ), BinForestOk le s.roots → s.isList = false → s.roots ≠ [] →
    deletesFirst ops = true → ∀ l, ¬ MinServes le l ops (trace (bhsStep le) s ops) := by
  intro ops
  induction ops with
  | nil => intro s _ _ _ h; cases h
  | cons op ops ih =>
    intro s hf hl hne hd l hm
    rcases forest_min ho hf with ⟨h0, -, -⟩ | ⟨n, i, h', e, -⟩
    · exact hne h0
    cases op with
    | insert k d => cases hd
    | merge b roots => cases hd
    | findMin =>
      have ht : trace (bhsStep le) s (.findMin :: ops) = .elem (n.key, n.data) :: trace (bhsStep le) s ops := by simp [trace, bhsStep, e]
      rw [ht] at hm
      rcases hm with ⟨_, rest, eo, _⟩ | ⟨x, _, _, rest, eo, hr⟩
      · cases eo
      · rw [← (List.cons.inj eo).2] at hr
        exact ih s hf hl hne hd l hr
    | deleteMin =>
      have e2 : bhsDeleteMin le s = .error .attributeError := by rw [bhsDeleteMin, e, ok_bind]; simp [hl]
      have ht : trace (bhsStep le) s (.deleteMin :: ops) = .raised .attributeError :: trace (bhsStep le) s ops := by simp [trace, bhsStep, e2]
      rw [ht] at hm
      rcases hm with ⟨_, rest, eo, _⟩ | ⟨x, _, _, _, rest, eo, hr⟩ <;> cases eo

/-- **C156**, exactly: it fails for a tuple with trees from which the least entry is deleted before anything is inserted or merged, and for
nothing else. -/
theorem C156_serves_exact (ho : KeyOrder le) (isList : Bool) (roots : List (BinTree κ δ)) (ops : List (BhOp κ δ)) (h : ∀ t ∈ roots, BinOrdered le t.root)
    (hg : GivenOk le ops) : MinServes le (bhEntries roots) ops (trace (bhsStep le) (bhNew isList roots) ops) ↔
      (isList = true ∨ roots = [] ∨ deletesFirst ops = false) := by
  constructor
  · intro hm
    cases hl : isList with
    | true => exact Or.inl rfl
    | false =>
      by_cases hr : roots = []
      · exact Or.inr (Or.inl hr)
      · cases hd : deletesFirst ops with
        | false => exact Or.inr (Or.inr rfl)
        | true => exact absurd hm (bhs_tuple_fails ho ops (bhNew isList roots) h hl hr hd _)
  · intro hc
    exact bhs_serves ho ops _ _ h hg hc (.refl _)

/-- **C156**: the failure for a tuple with trees is an AttributeError. -/
theorem C156_tuple (ho : KeyOrder le) (roots : List (BinTree κ δ)) (hr : ∀ t ∈ roots, BinOrdered le t.root) (hne : roots ≠ []) :
    bhsDeleteMin le (bhNew false roots) = .error .attributeError := by
  rcases forest_min ho hr with ⟨h0, -⟩ | ⟨n, i, h', e, -⟩
  · exact absurd h0 hne
  · have e' : bhFindMin le (bhNew false roots).roots = .ok (n, i) := e
    rw [bhsDeleteMin, e', ok_bind]
    rfl

theorem C156_full_false : ¬ C156_full := by
  intro h
  have hr : ∀ t ∈ [(⟨.mk 1 0 [], 0⟩ : BinTree Int Nat)], BinOrdered intLe t.root := by
    intro t ht
    rw [List.mem_singleton.1 ht]
    exact .mk _ _ _ (fun c h => by cases h) (fun c h => by cases h)
  have := (C156_serves_exact intLe_order false [⟨.mk 1 0 [], 0⟩] [.deleteMin] hr trivial).1 (h _ _ _ hr trivial)
  rcases this with h | h | h <;> cases h

/-- **C156**: made from a list, or after an insertion, the calls are those of C38, so that sorted lists of binomial trees stay such lists. -/
theorem C156_list_calls (h : List (BinTree κ δ)) (k : κ) (d : δ) (o : BhState κ δ) :
    bhsInsert le (bhNew true h) k d = (bhInsert le h k d).map (bhNew true) ∧
    bhsMerge le (bhNew true h) o = (bhMerge le h o.roots).map (bhNew true) ∧
    bhsDeleteMin le (bhNew true h) = (bhDeleteMin le h).map (bhNew true) := by
  refine ⟨?_, ?_, ?_⟩
  · unfold bhsInsert bhNew; cases bhInsert le h k d <;> rfl
  · unfold bhsMerge bhNew; cases bhMerge le h o.roots <;> rfl
  · unfold bhsDeleteMin bhDeleteMin bhNew
    cases bhFindMin le h with
    | error e => rfl
    | ok r =>
      simp only [ok_bind, if_true]
      cases bhMerge le (h.eraseIdx r.2) (childTrees 0 r.1.children) <;> rfl

/-- **C156**: the heap order of the given trees is needed. -/
theorem C156_order_needed : trace (bhsStep intLe) (bhNew true [⟨.mk 5 0 [.mk 1 1 []], 1⟩]) [.findMin] = [(.elem (5, 0) : Out (Int × Nat))] := rfl

/-- Two trees of one order, the second the larger, and one whose order is not that of its shape. -/
def exRoots : List (BinTree Int Nat) := [⟨.mk 4 0 [.mk 7 1 [], .mk 5 2 [], .mk 9 3 []], 2⟩, ⟨.mk 2 4 [], 0⟩, ⟨.mk 3 5 [.mk 6 6 []], 0⟩]

example : trace (bhsStep intLe) (bhNew true exRoots) [.findMin, .deleteMin, .findMin, .insert 1 9, .findMin, .deleteMin, .deleteMin, .findMin,
    .merge false [⟨.mk 0 8 [], 3⟩], .findMin] =
    [.elem (2, 4), .done, .elem (3, 5), .done, .elem (1, 9), .done, .done, .elem (4, 0), .done, .elem (0, 8)] := by decide +kernel

end Props
