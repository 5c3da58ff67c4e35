import Verif.Lemmas.CppRb
import Verif.Props.RedBlack
import Verif.Props.CppBst

/-!
# C113: the C++ red-black tree, insertions
-/
namespace Props
open Py Model Model.Cpp Spec
set_option linter.unusedSectionVars false
variable {κ δ : Type} [DecidableEq κ]

/-- A history of `insert(key, data)` calls on a new C++ red-black tree. -/
def cRbBuild (cmp : κ → κ → Int) (fuel : Nat) (os : Bool) (ops : List (κ × Option δ)) : PyM (CTree κ δ) := do
  let c ← ctNew os none none
  ops.foldlM (fun c op => cRbInsert cmp fuel c op.1 op.2) c

/-- One insertion into a tree built by insertions. -/
theorem le_rbState {lt : κ → κ → Bool} {os : Bool} {H : Prop} {t : BTree κ δ} {m : κ → Option (Option δ)} (hs : RbState lt os H t m) (fuel : Nat) (k : κ) (d : Option δ)
    {t' : BTree κ δ} (h : rbInsert lt fuel t k d = .ok t') : cRbInsert (ofLt lt) fuel (onC t) k d = .ok (onC t') := by
  have h' := h
  unfold rbInsert at h'
  obtain ⟨t1, e1, _⟩ := Py.bind_ok h'
  refine le_rbInsert e1 h (le_insert lt fuel t k d ?_ _ e1)
  cases hs with
  | empty h hm => subst h; exact .inr (.inr ⟨_, rfl, rfl⟩)
  | tree T ok _ _ _ _ => exact .inl ⟨ok.cap, ok.grown_le⟩

theorem cRbBuild_run {lt : κ → κ → Bool} (ht : StrictTotal (ltRel lt)) (os : Bool) (ops : List (κ × Option δ)) {t : BTree κ δ}
    (h : EndsWith (fun n => rbInserts lt n (btEmpty os) ops) (.ok t)) : EndsWith (fun n => cRbBuild (ofLt lt) n os ops) (.ok (onC t)) := by
  have key : ∀ (ops : List (κ × Option δ)) (H : Prop) (t0 : BTree κ δ) (m : κ → Option (Option δ)), RbState lt os H t0 m → ∃ n0, ∀ n, n0 ≤ n → ∀ t,
      rbInserts lt n t0 ops = .ok t → ops.foldlM (fun c op => cRbInsert (ofLt lt) n c op.1 op.2) (onC t0) = .ok (onC t) := by
    intro ops
    induction ops with
    | nil => intro H t0 m _; exact ⟨0, fun n _ t h => by cases h; rfl⟩
    | cons op ops ih =>
      intro H t0 m hs
      obtain ⟨t1, h1, n1, r1⟩ := rbState_insert ht hs op.1 op.2
      obtain ⟨n2, r2⟩ := ih _ t1 _ h1
      refine ⟨max n1 n2, fun n hn t h => ?_⟩
      have e := r1 n (by omega)
      simp only [rbInserts, List.foldlM_cons, e, ok_bind] at h
      rw [List.foldlM_cons, le_rbState hs n op.1 op.2 e, ok_bind]
      exact r2 n (by omega) t h
  obtain ⟨n0, hk⟩ := key ops True (btEmpty os) (fun _ => none) (.empty rfl (fun _ => rfl))
  obtain ⟨n1, h1⟩ := h
  refine ⟨max n0 n1, fun n hn => ?_⟩
  simp only [cRbBuild, ctNew_empty, ok_bind]
  exact hk n (by omega) t (h1 n (by omega))

/-- **C113** for key objects no two of which have the same value: after any history of insertions (keys may repeat), `search` finds exactly the inserted keys, each with the data
inserted last. Missing: keys of which several objects with the same value are used (false: `C113_other_object`). -/
theorem C113_search_partial {lt : κ → κ → Bool} (ht : StrictTotal (ltRel lt)) (os : Bool) (ops : List (κ × Option δ)) :
    ∃ c, EndsWith (fun n => cRbBuild (ofLt lt) n os ops) (.ok c) ∧
      ∀ k, ∃ r, EndsWith (fun n => cSearch (ofLt lt) n c.t k) (.ok r) ∧ Answers c.t k (lastData ops k) r := by
  obtain ⟨t, hrun, h⟩ := C78_search ht os ops
  refine ⟨onC t, cRbBuild_run ht os ops hrun, fun k => ?_⟩
  obtain ⟨r, h1, h2⟩ := h k
  exact ⟨r, Le.endsWith (fun n => le_search lt n t k) h1, h2⟩

/-- **C113**, under the same condition: lower and upper bounds. -/
theorem C113_bounds_partial {lt : κ → κ → Bool} (ht : StrictTotal (ltRel lt)) (os : Bool) (ops : List (κ × Option δ)) (hne : ops ≠ []) :
    ∃ c, EndsWith (fun n => cRbBuild (ofLt lt) n os ops) (.ok c) ∧ ∀ k,
      (∃ r, EndsWith (fun n => cLower (ofLt lt) n c.t k) (.ok r) ∧ LeastOf lt (fun a => a ∈ ops.map (·.1) ∧ lt a k = false) r) ∧
      (∃ r, EndsWith (fun n => cUpper (ofLt lt) n c.t k) (.ok r) ∧ LeastOf lt (fun a => a ∈ ops.map (·.1) ∧ lt k a = true) r) := by
  obtain ⟨t, hrun, h⟩ := C78_bounds ht os ops hne
  refine ⟨onC t, cRbBuild_run ht os ops hrun, fun k => ?_⟩
  obtain ⟨⟨r, h1, h2⟩, ⟨r', h3, h4⟩⟩ := h k
  exact ⟨⟨r, Le.endsWith (fun n => le_bound lt t k false n _) h1, h2⟩, ⟨r', Le.endsWith (fun n => le_bound lt t k true n _) h3, h4⟩⟩

/-- A red-black tree over the history `ops`, as the C++ traversal shows it: the array holds a binary tree whose in-order traversal lists the inserted keys in increasing order and,
under `H`: every node is black (0) or red (1), the root is black, no red node has a red child, all ways down from the root pass the same number of black nodes, and the height is
logarithmic. -/
def CRedBlackTreeOf (lt : κ → κ → Bool) (t : BTree κ δ) (ops : List (κ × Option δ)) (H : Prop) : Prop :=
  ∃ T ns, HoldsTree t t.rootIdx T ∧ EndsWith (fun n => ctDfs n t .ino none) (.ok ns) ∧ NodesAt t T.ids ns ∧ ListsKeys lt (lastData ops) ns ∧
    (H → (∀ n ∈ ns, n.color = some 0 ∨ n.color = some 1) ∧ BlackRoot t.at T ∧ RedOk t.at T ∧ (∃ N, BlackHeight t.at T N) ∧
      2 ^ (T.depth / 2) ≤ ops.length + 1)

/-- **C113**, under the same condition: the in-order traversal after any history, and the colouring when no key is inserted twice. -/
theorem C113_tree_partial {lt : κ → κ → Bool} (ht : StrictTotal (ltRel lt)) (os : Bool) (ops : List (κ × Option δ)) (hne : ops ≠ []) :
    ∃ c, EndsWith (fun n => cRbBuild (ofLt lt) n os ops) (.ok c) ∧ CRedBlackTreeOf lt c.t ops (ops.map (·.1)).Nodup := by
  obtain ⟨t, hrun, T, ns, a, b, c, d, e⟩ := C78_tree ht os ops hne
  exact ⟨onC t, cRbBuild_run ht os ops hrun, T, ns, a, Le.endsWith (fun n => le_dfs n t .ino none) b, c, d, e⟩

/-- **C113**, in full: a red-black tree after every history of insertions, and every search is answered by value. `val` gives the value of a key object. -/
def C113_full (κ ν δ : Type) [DecidableEq κ] (val : κ → ν) (lt : ν → ν → Bool) : Prop :=
  ∀ ops : List (κ × Option δ), ops ≠ [] → ∃ c, EndsWith (fun n => cRbBuild (ofLt fun a b => lt (val a) (val b)) n false ops) (.ok c) ∧
    (∃ T N, HoldsTree c.t c.t.rootIdx T ∧ BlackHeight c.t.at T N) ∧
    ∀ k, (∃ k' ∈ ops.map (·.1), val k' = val k) → ∃ i, EndsWith (fun n => cSearch (ofLt fun a b => lt (val a) (val b)) n c.t k) (.ok (some i))

/-- Inserting a present key again paints its node red: after 1, 2, 3, 4 and again 1 the two ways down from the root pass different numbers of black nodes. -/
theorem C113_full_false : ¬ C113_full Nat Nat Char id (fun a b => decide (a < b)) := by
  intro h
  obtain ⟨c, ⟨n0, hrun⟩, ⟨T, N, hH, hN⟩, _⟩ := h [(1, none), (2, none), (3, none), (4, none), (1, none)] (by simp)
  have e : ∀ m, cRbBuild (ofLt fun a b : Nat => decide (id a < id b)) (m + 30) false [(1, none), (2, none), (3, none), (4, none), (1, none)] =
      .ok (⟨⟨[some { key := some 1, data := none, parent := some 1, color := some 1 },
        some { key := some 2, data := none, left := some 0, right := some 2, color := some 0, isRoot := true },
        some { key := some 3, data := none, right := some 3, parent := some 1, color := some 0 },
        some { key := some 4, data := none, parent := some 2, color := some 1 }, none, none, none], 4, 4, 1, 4, false⟩, 7⟩ : CTree Nat Char) := fun m => rfl
  have := hrun (n0 + 30) (by omega)
  dsimp only at this
  rw [e n0] at this
  cases this
  obtain ⟨hr, hl, _⟩ := hH
  cases T with
  | leaf => cases hr
  | node l i r =>
    rw [root_node, Option.some.injEq] at hr
    subst hr
    obtain ⟨⟨n, en, n1, n2, _⟩, hl1, hl2⟩ := hl
    have en' : n = { key := some 2, data := none, left := some 0, right := some 2, color := some 0, isRoot := true } := by
      simpa [BTree.at] using en.symm
    subst en'
    obtain ⟨m, m1, m2, _⟩ := hN
    have m0 : m = 0 := by
      cases l with
      | leaf => exact m1
      | node a j b =>
        rw [root_node, Option.some.injEq] at n1
        subst n1
        obtain ⟨⟨n, en, n1, n2, _⟩, _, _⟩ := hl1
        have en' : n = { key := some 1, data := none, parent := some 1, color := some 1 } := by simpa [BTree.at] using en.symm
        subst en'
        cases a with
        | node _ _ _ => cases n1
        | leaf => obtain ⟨x, h1, _, h3⟩ := m1; cases h1; simpa [blk, colOf, BTree.at] using h3
    cases r with
    | leaf => cases n2
    | node a j b =>
      rw [root_node, Option.some.injEq] at n2
      subst n2
      obtain ⟨x, _, _, h3⟩ := m2
      simp [blk, colOf, BTree.at] at h3
      omega

/-- Two key objects with the same value (the second component tells the objects apart): the second becomes a node of its own, and a search with a third object of that value finds
nothing. -/
theorem C113_other_object : EndsWith (fun n => cRbBuild (δ := String) (ofLt fun a b : Nat × Nat => decide (a.1 < b.1)) n false [((1, 0), some "a"), ((1, 1), some "b")] >>= fun c => do
    let r ← cSearch (ofLt fun a b : Nat × Nat => decide (a.1 < b.1)) n c.t (1, 0)
    let s ← cSearch (ofLt fun a b : Nat × Nat => decide (a.1 < b.1)) n c.t (1, 2)
    .ok (r, s, c.t.num)) (.ok (some 0, none, 2)) := by
  refine ⟨30, fun n hn => ?_⟩
  obtain ⟨m, rfl⟩ : ∃ m, n = m + 30 := ⟨n - 30, by omega⟩
  rfl

/-- A concrete history with distinct keys; the tree is the one of Python (C78). -/
example : (cRbBuild (ofLt fun a b : Nat => decide (a < b)) 30 false
      [(1, some 'a'), (2, none), (3, none), (4, none), (5, none), (6, none), (7, some 'b')]).bind (fun c => do
        let l ← ctDfs 40 c.t .pre none
        .ok (c.t.rootIdx, l.map (fun n => (n.key, n.color)))) =
      .ok (1, [(some 2, some 0), (some 1, some 0), (some 4, some 1), (some 3, some 0), (some 6, some 0), (some 5, some 1), (some 7, some 1)]) := by decide +kernel

end Props
