import Verif.Lemmas.CppTree
import Verif.Props.BstDelete
import Verif.Lemmas.Lists

/-!
# C106–C109: the C++ binary search tree
-/
namespace Props
open Py Model Model.Cpp Spec
set_option linter.unusedSectionVars false
variable {κ δ : Type} [DecidableEq κ]

/-- A history of `insert(key, data)` calls on a new C++ tree. -/
def cBuild (cmp : κ → κ → Int) (fuel : Nat) (os : Bool) (ops : List (κ × Option δ)) : PyM (CTree κ δ) := do
  let c ← ctNew os none none
  ops.foldlM (fun c op => cInsert cmp fuel c op.1 op.2) c

theorem ctNew_empty (os : Bool) : ctNew os none none = .ok (onC (btEmpty os : BTree κ δ)) := by
  simp [ctNew, onC, btEmpty]

theorem le_state {lt : κ → κ → Bool} {os : Bool} {t : BTree κ δ} {m : κ → Option (Option δ)} (h : BstState lt os t m) (fuel : Nat) (k : κ) (d : Option δ) :
    LeC (bstInsert lt fuel t k d) (cInsert (ofLt lt) fuel (onC t) k d) := by
  refine le_insert lt fuel t k d ?_
  cases h with
  | empty h _ => subst h; exact .inr (.inr ⟨_, rfl, rfl⟩)
  | tree T ok _ _ _ _ => exact .inl ⟨ok.cap, ok.grown_le⟩

theorem cBuild_run {lt : κ → κ → Bool} (ht : StrictTotal (ltRel lt)) (os : Bool) (ops : List (κ × Option δ)) {t : BTree κ δ}
    (h : EndsWith (fun n => bstInserts lt n (btEmpty os) ops) (.ok t)) : EndsWith (fun n => cBuild (ofLt lt) n os ops) (.ok (onC t)) := by
  have key : ∀ (ops : List (κ × Option δ)) (t0 : BTree κ δ) (m : κ → Option (Option δ)), BstState lt os t0 m → ∃ n0, ∀ n, n0 ≤ n → ∀ t,
      bstInserts lt n t0 ops = .ok t → ops.foldlM (fun c op => cInsert (ofLt lt) n c op.1 op.2) (onC t0) = .ok (onC t) := by
    intro ops
    induction ops with
    | nil => intro t0 m _; exact ⟨0, fun n _ t h => by cases h; rfl⟩
    | cons op ops ih =>
      intro t0 m hs
      obtain ⟨t1, h1, n1, r1⟩ := bstState_insert ht hs op.1 op.2
      obtain ⟨n2, r2⟩ := ih t1 _ h1
      refine ⟨max n1 n2, fun n hn t h => ?_⟩
      have e := r1 n (by omega)
      simp only [bstInserts, List.foldlM_cons, e, ok_bind] at h
      rw [List.foldlM_cons, le_state hs n op.1 op.2 _ e, ok_bind]
      exact r2 n (by omega) t h
  obtain ⟨n0, hk⟩ := key ops (btEmpty os) (fun _ => none) (.empty rfl (fun _ => rfl))
  obtain ⟨n1, h1⟩ := h
  refine ⟨max n0 n1, fun n hn => ?_⟩
  simp only [cBuild, ctNew_empty, ok_bind]
  exact hk n (by omega) t (h1 n (by omega))

/-! ## C106 -/

/-- **C106**, in full: the tree finds keys by value, as the comparator orders them. `val` gives the value of a key object. -/
def C106_full (κ ν δ : Type) [DecidableEq κ] (val : κ → ν) (lt : ν → ν → Bool) : Prop :=
  ∀ ops : List (κ × Option δ), ∃ c, EndsWith (fun n => cBuild (ofLt fun a b => lt (val a) (val b)) n false ops) (.ok c) ∧
    ∀ k, (∃ op ∈ ops, val op.1 = val k) → ∃ i, EndsWith (fun n => cSearch (ofLt fun a b => lt (val a) (val b)) n c.t k) (.ok (some i))

/-- A key object is (its identity, its value). After inserting the number 1000, another object with the value 1000 is not found. -/
theorem C106_other_object : EndsWith (fun n => do
    let c ← cBuild (ofLt fun a b : Nat × Nat => decide (a.2 < b.2)) n false [((0, 1000), some 'x')]
    cSearch (ofLt fun a b : Nat × Nat => decide (a.2 < b.2)) n c.t (1, 1000)) (.ok none) := by
  refine ⟨9, fun n hn => ?_⟩
  obtain ⟨m, rfl⟩ : ∃ m, n = m + 9 := ⟨n - 9, by omega⟩
  rfl

/-- Inserting it again makes a second node. -/
theorem C106_twice : EndsWith (fun n => do
    let c ← cBuild (ofLt fun a b : Nat × Nat => decide (a.2 < b.2)) n false [((0, 1000), some 'x'), ((1, 1000), some 'y')]
    let ns ← ctDfs n c.t .ino none
    .ok (ns.map BNode.key)) (.ok [some (0, 1000), some (1, 1000)]) := by
  refine ⟨9, fun n hn => ?_⟩
  obtain ⟨m, rfl⟩ : ∃ m, n = m + 9 := ⟨n - 9, by omega⟩
  rfl

theorem C106_full_false : ¬ C106_full (Nat × Nat) Nat Char (·.2) (fun a b => decide (a < b)) := by
  intro h
  obtain ⟨c, ⟨n0, hc⟩, hs⟩ := h [((0, 1000), some 'x')]
  obtain ⟨i, n1, hi⟩ := hs (1, 1000) ⟨((0, 1000), some 'x'), by simp, rfl⟩
  obtain ⟨n2, h2⟩ := C106_other_object
  have e0 := hc (max n0 (max n1 n2)) (by omega)
  have e1 := hi (max n0 (max n1 n2)) (by omega)
  have e2 := h2 (max n0 (max n1 n2)) (by omega)
  simp only at e0 e1 e2
  rw [e0, ok_bind, e1] at e2
  cases e2

/-- A comparator that answers `2` where it means "before" (any true value will do in Python): `insert` takes it for yes, `search` does not, and the key is not found. -/
theorem C106_truthy_comparator : EndsWith (fun n => do
    let c ← cBuild (fun a b : Nat => if a < b then 2 else 0) n false [(2, some 'x'), (1, some 'y')]
    cSearch (fun a b : Nat => if a < b then 2 else 0) n c.t 1) (.ok none) := by
  refine ⟨9, fun n hn => ?_⟩
  obtain ⟨m, rfl⟩ : ∃ m, n = m + 9 := ⟨n - 9, by omega⟩
  rfl

/-- With the same comparator, `lower_bound(2)` of a tree with 1 and 2 is 1. -/
theorem C106_truthy_bound : EndsWith (fun n => do
    let c ← cBuild (fun a b : Nat => if a < b then 2 else 0) n false [(1, some 'x'), (2, some 'y')]
    cLower (fun a b : Nat => if a < b then 2 else 0) n c.t 2) (.ok (some 1)) := by
  refine ⟨9, fun n hn => ?_⟩
  obtain ⟨m, rfl⟩ : ∃ m, n = m + 9 := ⟨n - 9, by omega⟩
  rfl

/-- **C106** for key objects no two of which have the same value (the comparator orders distinct objects strictly): after any history of insertions, `search` finds exactly the
inserted keys, each with the data inserted last. Missing: keys of which several objects with the same value are used. -/
theorem C106_search_partial {lt : κ → κ → Bool} (ht : StrictTotal (ltRel lt)) (os : Bool) (ops : List (κ × Option δ)) :
    ∃ c, EndsWith (fun n => cBuild (ofLt lt) n os ops) (.ok c) ∧
      ∀ k, ∃ r, EndsWith (fun n => cSearch (ofLt lt) n c.t k) (.ok r) ∧ Answers c.t k (lastData ops k) r := by
  obtain ⟨t, hrun, h⟩ := C72_search ht os ops
  refine ⟨onC t, cBuild_run ht os ops hrun, fun k => ?_⟩
  obtain ⟨r, h1, h2⟩ := h k
  exact ⟨r, Le.endsWith (fun n => le_search lt n t k) h1, h2⟩

/-- **C106**, under the same condition: the in-order traversal lists the inserted keys in strictly increasing order. -/
theorem C106_in_order_partial {lt : κ → κ → Bool} (ht : StrictTotal (ltRel lt)) (os : Bool) (ops : List (κ × Option δ)) (hne : ops ≠ []) :
    ∃ c, EndsWith (fun n => cBuild (ofLt lt) n os ops) (.ok c) ∧
      ∃ ns, EndsWith (fun n => ctDfs n c.t .ino none) (.ok ns) ∧ ListsKeys lt (lastData ops) ns := by
  obtain ⟨t, hrun, ns, h1, h2⟩ := C72_in_order ht os ops hne
  exact ⟨onC t, cBuild_run ht os ops hrun, ns, Le.endsWith (fun n => le_dfs n t .ino none) h1, h2⟩

/-- **C106**, under the same condition: `lower_bound(k)` is the least inserted key that is not below `k`, `upper_bound(k)` the least inserted key above `k`, `None` if there is none. -/
theorem C106_bounds_partial {lt : κ → κ → Bool} (ht : StrictTotal (ltRel lt)) (os : Bool) (ops : List (κ × Option δ)) :
    ∃ c, EndsWith (fun n => cBuild (ofLt lt) n os ops) (.ok c) ∧ ∀ k,
      (∃ r, EndsWith (fun n => cLower (ofLt lt) n c.t k) (.ok r) ∧ LeastOf lt (fun a => a ∈ ops.map (·.1) ∧ lt a k = false) r) ∧
      (∃ r, EndsWith (fun n => cUpper (ofLt lt) n c.t k) (.ok r) ∧ LeastOf lt (fun a => a ∈ ops.map (·.1) ∧ lt k a = true) r) := by
  obtain ⟨t, hrun, h⟩ := C75_bounds ht os ops
  refine ⟨onC t, cBuild_run ht os ops hrun, fun k => ?_⟩
  obtain ⟨⟨r, h1, h2⟩, ⟨r', h3, h4⟩⟩ := h k
  exact ⟨⟨r, Le.endsWith (fun n => le_bound lt t k false n _) h1, h2⟩, ⟨r', Le.endsWith (fun n => le_bound lt t k true n _) h3, h4⟩⟩

theorem sorted_unique {lt : κ → κ → Bool} (ht : StrictTotal (ltRel lt)) : ∀ {a b : List κ}, a.Pairwise (fun x y => lt x y = true) →
    b.Pairwise (fun x y => lt x y = true) → (∀ k, k ∈ a ↔ k ∈ b) → a = b := by
  intro a
  induction a with
  | nil =>
    intro b _ _ h
    cases b with
    | nil => rfl
    | cons y b => have := (h y).mpr (by simp); simp at this
  | cons x a ih =>
    intro b ha hb h
    cases b with
    | nil => have := (h x).mp (by simp); simp at this
    | cons y b =>
      rw [List.pairwise_cons] at ha hb
      have hxy : x = y := by
        have h1 := (h x).mp (by simp)
        have h2 := (h y).mpr (by simp)
        rw [List.mem_cons] at h1 h2
        rcases h1 with h1 | h1
        · exact h1
        · rcases h2 with h2 | h2
          · exact h2.symm
          · exact absurd (ht.trans _ _ _ (ha.1 y h2) (hb.1 x h1)) (ht.irrefl _)
      subst hxy
      congr 1
      refine ih ha.2 hb.2 fun k => ?_
      constructor
      · intro hk
        rcases List.mem_cons.mp ((h k).mp (by simp [hk])) with e | e
        · subst e; exact absurd (ha.1 k hk) (ht.irrefl _)
        · exact e
      · intro hk
        rcases List.mem_cons.mp ((h k).mpr (by simp [hk])) with e | e
        · subst e; exact absurd (hb.1 k hk) (ht.irrefl _)
        · exact e

/-- Order statistics on an array that holds a search tree with sizes. -/
theorem cselect_map {lt : κ → κ → Bool} (ht : StrictTotal (ltRel lt)) {t : BTree κ δ} {T : Shape} {m : κ → Option (Option δ)} (tree : TreeAt true t T) (srt : Srt lt t.at T)
    (sz : Sized t.at T) (hn : t.num = T.ids.length) (car : Carries t T m) :
    ∃ ks, KeysInOrder lt m ks ∧
      (∀ (i : Nat), i < ks.length → ∃ n, EndsWith (fun f => cSelect (ofLt lt) f t ((i : Int) + 1)) (.ok (some n)) ∧ n.key = ks[i]? ∧
        ∃ p : Nat, t.arr[p]? = some (some n)) ∧
      (∀ i : Int, i < 1 ∨ ks.length < i → ∀ f, cSelect (ofLt lt) f t i = .error .valueError) ∧
      (∀ (i : Nat) k, ks[i]? = some k → EndsWith (fun f => cRank (ofLt lt) f t k) (.ok (some (i + 1)))) ∧
      (∀ k, m k = none → EndsWith (fun f => cRank (ofLt lt) f t k) (.ok none)) := by
  obtain ⟨ks, h1, _, _, h4, h5⟩ := select_map ht tree srt sz hn car
  obtain ⟨ks', hks', hmap⟩ := treeKeys srt car
  have hk : ks = ks' := sorted_unique ht h1.1 hks'.1 fun k => (h1.2 k).trans (hks'.2 k).symm
  subst hk
  have hlen : ks.length = T.ids.length := by simpa using (congrArg List.length hmap).symm
  refine ⟨ks, h1, ?_, ?_, ?_, ?_⟩
  · intro i hi
    obtain ⟨w, x, n, e1, e2, hr⟩ := cselect_loop ht T none i tree.linked srt sz (by omega)
    refine ⟨n, ⟨T.depth + 2, ?_⟩, ?_, x, at_some.mp e2⟩
    · intro f hf
      obtain ⟨e, he⟩ := hr f hf
      rw [tree.root] at he
      have h1 : ¬ (i : Int) < 0 := by omega
      have h2 : ¬ (i : Int) ≥ t.num := by omega
      have h3 : (i : Int) + 1 - 1 = i := by omega
      simp only [cSelect, h3, if_neg h1, if_neg h2, he, ok_bind]
    · have := congrArg (·[i]?) hmap
      simp only [List.getElem?_map, e1, Option.map_some, keyOf, e2, Option.bind_some] at this
      cases e : ks[i]? with
      | none => rw [e] at this; cases this
      | some k => rw [e] at this; simpa using this
  · intro i hi f
    unfold cSelect
    by_cases h1 : i - 1 < 0
    · rw [if_pos h1]
    · rw [if_neg h1, if_pos (by show i - 1 ≥ (t.num : Int); omega)]
  · intro i k hk
    exact Le.endsWith (fun n => le_rank lt n t k) (h4 i k hk)
  · intro k hk
    exact Le.endsWith (fun n => le_rank lt n t k) (h5 k hk)

/-- **C106**, under the same condition: in an order statistic tree `select(i)` is the node with the `i`-th smallest key, `rank(k)` the place of `k`, and both reject what does not exist. -/
theorem C106_select_rank_partial {lt : κ → κ → Bool} (ht : StrictTotal (ltRel lt)) (ops : List (κ × Option δ)) (hne : ops ≠ []) :
    ∃ c ks, EndsWith (fun n => cBuild (ofLt lt) n true ops) (.ok c) ∧ KeysInOrder lt (lastData ops) ks ∧
      (∀ (i : Nat), i < ks.length → ∃ n, EndsWith (fun f => cSelect (ofLt lt) f c.t ((i : Int) + 1)) (.ok (some n)) ∧ n.key = ks[i]? ∧
        ∃ p : Nat, c.t.arr[p]? = some (some n)) ∧
      (∀ i : Int, i < 1 ∨ ks.length < i → ∀ f, cSelect (ofLt lt) f c.t i = .error .valueError) ∧
      (∀ (i : Nat) k, ks[i]? = some k → EndsWith (fun f => cRank (ofLt lt) f c.t k) (.ok (some (i + 1)))) ∧
      (∀ k, k ∉ ops.map (·.1) → EndsWith (fun f => cRank (ofLt lt) f c.t k) (.ok none)) := by
  obtain ⟨t, hst, hrun⟩ := bst_history ht true ops
  cases hst with
  | empty h hm =>
    cases ops with
    | nil => exact absurd rfl hne
    | cons op ops =>
      have := (lastData_isSome (op :: ops) op.1).mpr (by simp)
      rw [hm] at this; simp at this
  | tree T ok car _ sz _ =>
    obtain ⟨ks, h1, h2, h3, h4, h5⟩ := cselect_map ht ok.tree ok.srt (sz rfl) (by rw [ok.num_top, ok.count]) car
    refine ⟨onC t, ks, cBuild_run ht true ops hrun, h1, h2, h3, h4, fun k hk => h5 k ?_⟩
    rw [← lastData_isSome] at hk
    simpa using hk

/-- A concrete tree with all the queries. -/
example : (cBuild (ofLt fun a b : Nat => decide (a < b)) 20 true [(5, some 'a'), (2, some 'b'), (8, none), (3, some 'c'), (2, some 'd')]).bind (fun c => do
        let i ← cSearch (ofLt fun a b : Nat => decide (a < b)) 20 c.t 2
        let l ← cLower (ofLt fun a b : Nat => decide (a < b)) 20 c.t 4
        let u ← cUpper (ofLt fun a b : Nat => decide (a < b)) 20 c.t 3
        .ok (i, l, u)) = .ok (some 1, some 5, some 5) := by decide +kernel

example : (cBuild (ofLt fun a b : Nat => decide (a < b)) 20 true [(5, some 'a'), (2, some 'b'), (8, none), (3, some 'c'), (2, some 'd')]).bind (fun c => do
        let n ← cSelect (ofLt fun a b : Nat => decide (a < b)) 20 c.t 3
        let r ← cRank (ofLt fun a b : Nat => decide (a < b)) 20 c.t 8
        let d ← cNode c.t 1
        .ok (n.bind (·.key), r, d.data)) = .ok (some 5, some 4, some 'd') := by decide +kernel

/-! ## C107: deletions -/

/-- One call. -/
def cStep (cmp : κ → κ → Int) (fuel : Nat) (c : CTree κ δ) : BstOp κ δ → PyM (CTree κ δ × Bool)
  | .insert k d => do
    let c ← cInsert cmp fuel c k d
    .ok (c, false)
  | .delete k => cBstDelete cmp fuel c k

/-- The calls of a history, with the values they return. -/
def cRun (cmp : κ → κ → Int) (fuel : Nat) : CTree κ δ → List (BstOp κ δ) → PyM (CTree κ δ × List Bool)
  | c, [] => .ok (c, [])
  | c, op :: ops => do
    let r ← cStep cmp fuel c op
    let q ← cRun cmp fuel r.1 ops
    .ok (q.1, r.2 :: q.2)

/-- The calls of a history on a new tree. -/
def cHistory (cmp : κ → κ → Int) (fuel : Nat) (ops : List (BstOp κ δ)) : PyM (CTree κ δ × List Bool) := do
  let c ← ctNew false none none
  cRun cmp fuel c ops

/-- The C++ tree serves the entries `D`: every search answers accordingly, the in-order traversal of a non-empty tree lists the keys in increasing order, and `lower_bound` and
`upper_bound` are the least key not below and the least key above. -/
def CServes (lt : κ → κ → Bool) (t : BTree κ δ) (D : List (κ × Option δ)) : Prop :=
  (∀ k, ∃ r, EndsWith (fun n => cSearch (ofLt lt) n t k) (.ok r) ∧ Answers t k (dataOf D k) r) ∧
  (D ≠ [] → ∃ ns, EndsWith (fun n => ctDfs n t .ino none) (.ok ns) ∧ ListsKeys lt (dataOf D) ns) ∧
  ∀ k, (∃ r, EndsWith (fun n => cLower (ofLt lt) n t k) (.ok r) ∧ LeastOf lt (fun a => Has D a ∧ lt a k = false) r) ∧
    ∃ r, EndsWith (fun n => cUpper (ofLt lt) n t k) (.ok r) ∧ LeastOf lt (fun a => Has D a ∧ lt k a = true) r

theorem ServesEntries.c {lt : κ → κ → Bool} {t : BTree κ δ} {D : List (κ × Option δ)} (h : ServesEntries lt t D) : CServes lt t D := by
  refine ⟨fun k => ?_, fun hne => ?_, fun k => ?_⟩
  · obtain ⟨r, h1, h2⟩ := h.1 k
    exact ⟨r, Le.endsWith (fun n => le_search lt n t k) h1, h2⟩
  · obtain ⟨ns, h1, h2⟩ := h.2.1 hne
    exact ⟨ns, Le.endsWith (fun n => le_dfs n t .ino none) h1, h2⟩
  · obtain ⟨⟨r1, a1, b1⟩, r2, a2, b2⟩ := h.2.2 k
    exact ⟨⟨r1, Le.endsWith (fun n => le_bound lt t k false n _) a1, b1⟩, r2, Le.endsWith (fun n => le_bound lt t k true n _) a2, b2⟩

/-- **C107**, in full: any history. -/
def C107_full (lt : κ → κ → Bool) (δ : Type) : Prop :=
  ∀ ops : List (BstOp κ δ), ∃ c, EndsWith (fun n => cHistory (ofLt lt) n ops) (.ok (c, bstReturns [] ops)) ∧ CServes lt c.t (bstContents [] ops)

/-- One call on a tree that copes with it. -/
theorem le_step {lt : κ → κ → Bool} (ht : StrictTotal (ltRel lt)) {t : BTree κ δ} {D : List (κ × Option δ)} (h : BstHas lt t D) (op : BstOp κ δ)
    (hc : Copes t D op) : ∃ n0, ∀ fuel, n0 ≤ fuel → ∀ r, bstStep lt fuel t op = .ok r → cStep (ofLt lt) fuel (onC t) op = .ok (onC r.1, r.2) := by
  obtain ⟨E, hp, hst⟩ := h
  cases op with
  | insert k d =>
    have key : ∃ n0, ∀ fuel, n0 ≤ fuel → t.top ≤ t.arr.length ∧ grown t ≤ 4 * (t.num + 1) ∨
        (∃ i, bstSearch lt fuel t k = .ok (some i)) ∨ ∃ n, getNode t t.rootIdx = .ok n ∧ n.key = none := by
      rcases hst with ⟨rfl, hcl⟩ | ⟨T, hT⟩
      · obtain ⟨n, e, hk, _⟩ := hcl.root
        exact ⟨0, fun _ _ => .inr (.inr ⟨n, getNode_ok e, hk⟩)⟩
      · rcases hc with rfl | hk | ⟨_, hg⟩
        · have := List.perm_nil.mp hp
          subst this
          exfalso
          have hr := Shape.root_mem hT.tree.root
          have he := hT.ent
          have := Ent.length he
          simp only [List.length_nil] at this
          have := List.length_pos_of_mem hr
          omega
        · obtain ⟨d', hd⟩ := (has_perm hp k).mp hk
          obtain ⟨c, S, hS, hF, hrun⟩ := search_spec ht hT.tree hT.srt k
          refine ⟨T.depth + 2, fun fuel hf => .inr (.inl ?_)⟩
          have := hrun fuel (by omega)
          rcases hF.here with rfl | ⟨l, i, r, rfl, hk'⟩
          · exfalso
            obtain ⟨i, hi, ei⟩ := hT.ent.mem.mp hd
            exact hF.absent ht i (by rw [hS]; exact hi) (keyOf_entry ei)
          · exact ⟨i, this⟩
        · exact ⟨0, fun _ _ => .inl ⟨hT.cap, hg⟩⟩
    obtain ⟨n0, hk⟩ := key
    refine ⟨n0, fun fuel hf r hr => ?_⟩
    obtain ⟨t1, e, hr⟩ := Py.bind_ok hr
    cases hr
    simp only [cStep, le_insert lt fuel t k d (hk fuel hf) _ e, ok_bind]
  | delete k =>
    obtain ⟨hne, hc⟩ := hc
    rcases hst with ⟨rfl, hcl⟩ | ⟨T, hT⟩
    · exact absurd (List.nil_perm.mp hp) hne
    · obtain ⟨c, S, rfl, hF, hrun⟩ := searchP_spec ht hT.tree hT.srt k
      have hlen : t.num = D.length := by rw [hT.num, ← hp.length_eq, hT.ent.length]
      refine ⟨(Around.plug c S).depth + 2, fun fuel hf r hr => le_delete lt fuel t k ?_ r hr⟩
      have h1 := hrun fuel (by omega)
      rcases hF.here with rfl | ⟨l, i, r', rfl, hki⟩
      · exact .inr (.inl (by simp only [bstSearch, h1, ok_bind]; rfl))
      · rcases hc with hc | hc | hc
        · exfalso
          obtain ⟨E1, E2, d, rfl, _⟩ := hT.entries hki
          exact hc ((has_perm hp k).mpr ⟨d, by simp⟩)
        · have hsz := hT.num
          rw [hlen, hc, Around.ids_plug] at hsz
          simp only [Shape.ids, List.length_append, List.length_cons] at hsz
          obtain ⟨⟨n, en, n1, n2, _⟩, _, _⟩ := ((linked_plug false t.at c _).mp hT.tree.linked).2
          have hl : l = .leaf := by
            cases l with
            | leaf => rfl
            | node a x b => simp only [Shape.ids, List.length_append, List.length_cons] at hsz; omega
          have hr' : r' = .leaf := by
            cases r' with
            | leaf => rfl
            | node a x b => simp only [Shape.ids, List.length_append, List.length_cons] at hsz; omega
          have hc' : c = [] := by
            cases c with
            | nil => rfl
            | cons f c => cases f <;> simp only [Around.before, Around.after, List.length_append, List.length_cons] at hsz <;> omega
          subst hl hr' hc'
          exact .inr (.inr ⟨i, n, h1, getNode_ok en, n1, n2⟩)
        · rw [← hlen] at hc
          exact .inl hc

theorem le_run {lt : κ → κ → Bool} (ht : StrictTotal (ltRel lt)) : ∀ (ops : List (BstOp κ δ)) (t : BTree κ δ) (D : List (κ × Option δ)),
    BstHas lt t D → (∃ n0, ∀ fuel, n0 ≤ fuel → CopesAll lt fuel t D ops) →
    ∃ n0, ∀ fuel, n0 ≤ fuel → ∀ r, bstRun lt fuel t ops = .ok r → cRun (ofLt lt) fuel (onC t) ops = .ok (onC r.1, r.2) := by
  intro ops
  induction ops with
  | nil => intro t D _ _; exact ⟨0, fun fuel _ r h => by cases h; rfl⟩
  | cons op ops ih =>
    rintro t D h ⟨n0, hc⟩
    have hc0 := (hc n0 (Nat.le_refl _)).1
    obtain ⟨t1, h1, _, n1, r1⟩ := bstHas_step ht h op hc0
    obtain ⟨n2, r2⟩ := le_step ht h op hc0
    obtain ⟨n3, r3⟩ := ih t1 _ h1 ⟨max n0 n1, fun fuel hf => (hc fuel (by omega)).2 _ (r1 fuel (by omega))⟩
    refine ⟨max n1 (max n2 n3), fun fuel hf r hr => ?_⟩
    have e1 := r1 fuel (by omega)
    have e2 := r2 fuel (by omega) _ e1
    simp only [bstRun, e1, ok_bind] at hr
    obtain ⟨q, e3, hr⟩ := Py.bind_ok hr
    cases hr
    have e4 := r3 fuel (by omega) _ e3
    simp only [cRun, e2, ok_bind, e4]

/-- **C107** for the histories the array copes with (as in C73: no call is a `delete` on an empty tree, no deletion makes the array contract, and a new key is inserted only
while `size` is the position at which the array appends). Missing: the other histories, for which the claim is false (`C107_full_false`). -/
theorem C107_copes_partial {lt : κ → κ → Bool} (ht : StrictTotal (ltRel lt)) (ops : List (BstOp κ δ))
    (hc : ∃ n0, ∀ fuel, n0 ≤ fuel → CopesAll lt fuel (btEmpty false) [] ops) :
    ∃ c, EndsWith (fun n => cHistory (ofLt lt) n ops) (.ok (c, bstReturns [] ops)) ∧ CServes lt c.t (bstContents [] ops) := by
  obtain ⟨t, ⟨n1, hr⟩, hs⟩ := C73_copes_partial ht ops hc
  obtain ⟨n2, h2⟩ := le_run ht ops _ [] (BstHas.empty lt) hc
  refine ⟨onC t, ⟨max n1 n2, fun n hn => ?_⟩, hs.c⟩
  simp only [cHistory, ctNew_empty, ok_bind]
  exact h2 n (by omega) _ (hr n (by omega))

theorem copes_thin {lt : κ → κ → Bool} (ht : StrictTotal (ltRel lt)) {n : Nat} : ∀ (ops : List (BstOp κ δ)) (t : BTree κ δ) (D : List (κ × Option δ)),
    BstHas lt t D → t.arr.length + 1 ≤ 2 * max n 1 → Gentle n D ops → ∃ n0, ∀ fuel, n0 ≤ fuel → CopesAll lt fuel t D ops := by
  intro ops
  induction ops with
  | nil => intro t D h _ _; exact ⟨0, fun _ _ => trivial⟩
  | cons op ops ih =>
    intro t D h hlen hg
    have hn := h.nodup_keys ht
    have key : Copes t D op ∧ (∀ t', Counts t t' D op → t'.arr.length = t.arr.length) ∧ Gentle n (bstSpec D op) ops := by
      cases op with
      | insert k d =>
        obtain ⟨g1, g2⟩ := hg
        refine ⟨.inr (.inl g1), fun t' hc => ?_, g2⟩
        exact (hc.1 (.inr g1)).len
      | delete k =>
        obtain ⟨g1, g2, g3⟩ := hg
        refine ⟨⟨g1, ?_⟩, fun t' hc => hc, g3⟩
        by_cases hk : Has D k
        · have := spec_delete_length hn hk
          by_cases h1 : D.length = 1
          · exact .inr (.inl h1)
          · have hpos : 0 < D.length := List.length_pos_iff.mpr g1
            exact .inr (.inr (by omega))
        · exact .inl hk
    obtain ⟨hc, hl, hg'⟩ := key
    obtain ⟨t1, h1, c1, n1, r1⟩ := bstHas_step ht h op hc
    obtain ⟨n2, r2⟩ := ih t1 _ h1 (by rw [hl t1 c1]; exact hlen) hg'
    refine ⟨max n1 n2, fun fuel hf => ⟨hc, fun r hr => ?_⟩⟩
    rw [r1 fuel (by omega)] at hr
    cases hr
    exact r2 fuel (by omega)

theorem copes_fill {lt : κ → κ → Bool} (ht : StrictTotal (ltRel lt)) (rest : List (BstOp κ δ)) : ∀ (ins : List (κ × Option δ)) (t : BTree κ δ)
    (D : List (κ × Option δ)), BstHas lt t D → FullOf t D.length →
    (∀ t', BstHas lt t' (bstContents D (insertsOf ins)) → FullOf t' (bstContents D (insertsOf ins)).length →
      ∃ n0, ∀ fuel, n0 ≤ fuel → CopesAll lt fuel t' (bstContents D (insertsOf ins)) rest) →
    ∃ n0, ∀ fuel, n0 ≤ fuel → CopesAll lt fuel t D (insertsOf ins ++ rest) := by
  intro ins
  induction ins with
  | nil => intro t D h hf hc; exact hc t h hf
  | cons e ins ih =>
    intro t D h hf hc
    have hco : Copes t D (.insert e.1 e.2) := by
      obtain ⟨f1, f2, f3, f4, f5⟩ := hf
      refine .inr (.inr ⟨f1, ?_⟩)
      unfold grown; split <;> omega
    obtain ⟨t1, h1, c1, n1, r1⟩ := bstHas_step ht h (.insert e.1 e.2) hco
    obtain ⟨n2, r2⟩ := ih t1 _ h1 (full_insert (h.nodup_keys ht) e.1 e.2 hf c1) hc
    refine ⟨max n1 n2, fun fuel hf => ⟨hco, fun r hr => ?_⟩⟩
    rw [r1 fuel (by omega)] at hr
    cases hr
    exact r2 fuel (by omega)

/-- **C107** for keys that are first all inserted (in any order, also repeatedly) and then deleted or given new data, as long as at least half of them remain: every `delete` returns
whether the key was there, and afterwards every search and the in-order traversal answer as the entries demand. Missing: see `C107_full_false`. -/
theorem C107_fill_and_thin_partial {lt : κ → κ → Bool} (ht : StrictTotal (ltRel lt)) (ins : List (κ × Option δ)) (ops : List (BstOp κ δ))
    (hg : Gentle (bstContents [] (insertsOf ins)).length (bstContents [] (insertsOf ins)) ops) :
    ∃ c, EndsWith (fun n => cHistory (ofLt lt) n (insertsOf ins ++ ops)) (.ok (c, bstReturns [] (insertsOf ins ++ ops))) ∧
      CServes lt c.t (bstContents [] (insertsOf ins ++ ops)) := by
  refine C107_copes_partial ht _ (copes_fill ht ops ins (btEmpty false) [] (BstHas.empty lt) fullOf_empty ?_)
  rintro t' h ⟨g1, g2, g3, g4, g5⟩
  exact copes_thin ht (n := (bstContents [] (insertsOf ins)).length) ops t' _ h (by omega) hg

/-- `delete` on an empty tree uses a null pointer. -/
theorem C107_delete_on_empty : EndsWith (fun n => cHistory (ofLt fun a b : Nat => decide (a < b)) n ([.delete 1] : List (BstOp Nat String))) (.error .undefined) :=
  ⟨0, fun _ _ => rfl⟩

/-- Inserting two keys, deleting the second and inserting another loses the new key: the next search reads a cell that holds no node. -/
theorem C107_insert_after_delete : EndsWith (fun n => do
    let r ← cHistory (ofLt fun a b : Nat => decide (a < b)) n ([.insert 1 none, .insert 2 none, .delete 2, .insert 3 none] : List (BstOp Nat String))
    cSearch (ofLt fun a b : Nat => decide (a < b)) n r.1.t 3) (.error .undefined) := by
  refine ⟨20, fun n hn => ?_⟩
  obtain ⟨m, rfl⟩ : ∃ m, n = m + 20 := ⟨n - 20, by omega⟩
  rfl

/-- Eight keys in increasing order, the four largest deleted, then a node with one child and a parent: the array contracts and the child's old position is used. -/
theorem C107_contraction : EndsWith (fun n => cHistory (ofLt fun a b : Nat => decide (a < b)) n
    (((List.range 8).map fun i => BstOp.insert i none) ++ [7, 6, 5, 4, 2].map BstOp.delete : List (BstOp Nat String))) (.error .undefined) := by
  refine ⟨40, fun n hn => ?_⟩
  obtain ⟨m, rfl⟩ : ∃ m, n = m + 40 := ⟨n - 40, by omega⟩
  rfl

/-- After a contraction the recorded size of the array is the old one: 15 for an array of 7 cells. -/
theorem C107_stale_size : EndsWith (fun n => do
    let r ← cHistory (ofLt fun a b : Nat => decide (a < b)) n
      (((List.range 8).map fun i => BstOp.insert i none) ++ [7, 6, 5, 4, 3].map BstOp.delete : List (BstOp Nat String))
    .ok (r.1.t.arr.length, r.1.oda)) (.ok (7, 15)) := by
  refine ⟨40, fun n hn => ?_⟩
  obtain ⟨m, rfl⟩ : ∃ m, n = m + 40 := ⟨n - 40, by omega⟩
  rfl

theorem C107_full_false : ¬ C107_full (fun a b : Nat => decide (a < b)) String := by
  intro h
  obtain ⟨c, ⟨n0, hr⟩, hs⟩ := h [.insert 1 none, .insert 2 none, .delete 2, .insert 3 none]
  obtain ⟨r, ⟨n1, hr1⟩, _⟩ := hs.1 3
  obtain ⟨n2, h2⟩ := C107_insert_after_delete
  have e0 := hr (max n0 (max n1 n2)) (by omega)
  have e1 := hr1 (max n0 (max n1 n2)) (by omega)
  have e2 := h2 (max n0 (max n1 n2)) (by omega)
  simp only at e0 e1 e2
  rw [e0] at e2
  simp only [ok_bind] at e2
  rw [e1] at e2
  cases e2

/-- Such a history: six keys are inserted, three of them are deleted (a root with two children, an inner node with one child, a leaf), an absent key is deleted, and a key gets
new data (it is `Gentle`, see `C73_fill_and_thin_partial`). -/
example : (cHistory (ofLt fun a b : Nat => decide (a < b)) 40
      (insertsOf [(50, some "a"), (30, none), (70, some "b"), (60, none), (20, some "c"), (80, none), (30, some "d")] ++
        [.delete 50, .delete 99, .delete 30, .insert 70 none, .delete 80])).bind (fun r => do
        let ns ← ctDfs 40 r.1.t .ino none
        .ok (r.2.drop 7, ns.filterMap (·.key))) = .ok ([true, false, true, false, true], [20, 60, 70]) := by decide +kernel

/-! ## C108: the lowest common ancestor -/

/-- **C108**, in full: both algorithms answer the deepest common ancestor of any two inserted keys. `fresh` gives the integer object that results from converting a key to
`long` and back. -/
def C108_full (fresh : Nat → Nat) : Prop :=
  ∀ ops : List (Nat × Option Nat), ops ≠ [] → ∃ c T, EndsWith (fun n => cBuild (ofLt fun a b => decide (a < b)) n false ops) (.ok c) ∧
    HoldsTree c.t c.t.rootIdx T ∧ ∀ j k, j ∈ ops.map (·.1) → k ∈ ops.map (·.1) → ∃ u v w a, KeyAt c.t u j ∧ KeyAt c.t v k ∧ IsLca T u v w ∧
      KeyAt c.t w a ∧ EndsWith (fun n => cLca1 fresh n c.t j k) (.ok (some a)) ∧
      EndsWith (fun n => cLca2 (ofLt fun a b => decide (a < b)) n c.t j k) (.ok (some a))

theorem cDiverge_some : ∀ (p q : List Nat) (l : Nat), (∀ i ∈ p, i ≤ 256) → cDiverge (some l) p q = .ok (lcaDiverge l p q) := by
  intro p
  induction p with
  | nil => intro q l _; cases q <;> rfl
  | cons a p ih =>
    intro q l h
    cases q with
    | nil => rfl
    | cons b q =>
      have ha := h a (by simp)
      by_cases e : a = b
      · subst e
        rw [cDiverge, if_pos ⟨rfl, ha⟩, ih q a (fun i hi => h i (by simp [hi]))]
        simp [lcaDiverge]
      · rw [cDiverge, if_neg (fun h => e h.1)]
        simp [lcaDiverge, e, cIdx]

theorem listLt_irrefl (p : List Nat) : listLt p p = false := by
  induction p with
  | nil => rfl
  | cons a p ih => simp [listLt, ih]

theorem pathTo_last : ∀ (T : Shape) (x : Nat), T.ids.Nodup → x ∈ T.ids → (pathTo T x).getLastD 0 = x := by
  intro T x hn hx
  obtain ⟨c, l, r, rfl⟩ := plug_of_mem T x hx
  rw [pathTo_plug c _ x hn (by simp [Shape.ids])]
  simp only [pathTo, if_true]
  rw [List.getLastD_eq_getLast?]
  simp

theorem pathTo_mem : ∀ (T : Shape) (x i : Nat), i ∈ pathTo T x → i ∈ T.ids := by
  intro T
  induction T with
  | leaf => intro x i h; simp [pathTo] at h
  | node l y r ih1 ih2 =>
    intro x i h
    unfold pathTo at h
    split at h
    · simp only [List.mem_singleton] at h; simp [Shape.ids, h]
    · split at h
      · rcases List.mem_cons.mp h with rfl | h
        · simp [Shape.ids]
        · simp [Shape.ids, ih1 x i h]
      · split at h
        · rcases List.mem_cons.mp h with rfl | h
          · simp [Shape.ids]
          · simp [Shape.ids, ih2 x i h]
        · cases h

/-- **C108**, algorithm 1, for keys that survive the conversion (integers from -5 to 256, which CPython shares) in a tree of at most 257 nodes: when both have been inserted and
the first is not a proper ancestor of the second, the answer is the key of the deepest node with both as descendants; when one has not been inserted, `ValueError` is raised.
Missing: the first key above the second (`C108_ancestor_first`), other keys (`C108_big_key`), larger trees. -/
theorem C108_lca1_partial {lt : κ → κ → Bool} (ht : StrictTotal (ltRel lt)) (os : Bool) (fresh : κ → κ) (ops : List (κ × Option δ)) (hne : ops ≠ [])
    (hsmall : ops.length ≤ 257) :
    ∃ c T, EndsWith (fun n => cBuild (ofLt lt) n os ops) (.ok c) ∧ HoldsTree c.t c.t.rootIdx T ∧ ∀ j k, fresh j = j → fresh k = k →
      (j ∈ ops.map (·.1) → k ∈ ops.map (·.1) → ∃ u v, KeyAt c.t u j ∧ KeyAt c.t v k ∧ (u = v ∨ ¬ Desc T u v → ∃ w a, IsLca T u v w ∧ KeyAt c.t w a ∧
        EndsWith (fun n => cLca1 fresh n c.t j k) (.ok (some a)))) ∧
      (j ∉ ops.map (·.1) ∨ k ∉ ops.map (·.1) → EndsWith (fun n => cLca1 fresh n c.t j k) (.error .valueError)) := by
  obtain ⟨t, T, hrun, ok, car, r0⟩ := bst_tree ht os ops hne
  refine ⟨onC t, T, cBuild_run ht os ops hrun, ⟨ok.tree.root, ok.tree.linked.weaken, ok.tree.nodup⟩, fun j k fj fk => ?_⟩
  have hcount : t.top ≤ 257 := by
    rw [← ok.count]
    obtain ⟨ks, hks, hmap⟩ := treeKeys ok.srt car
    have h1 : ks.length = T.ids.length := by simpa using (congrArg List.length hmap).symm
    have h2 : ks.Nodup := hks.1.imp fun h e => by subst e; exact ht.irrefl _ h
    have h3 := nodup_length_le h2 (b := ops.map (·.1)) fun k hk => (lastData_isSome ops k).mp ((hks.2 k).mp hk)
    rw [List.length_map] at h3
    omega
  obtain ⟨hj1, hj2⟩ := simplePath_spec ht ok.tree ok.srt r0 j
  obtain ⟨hk1, hk2⟩ := simplePath_spec ht ok.tree ok.srt r0 k
  simp only [← lastData_isSome]
  constructor
  · intro hj hk
    obtain ⟨u, hu, eu⟩ := car.pos hj
    obtain ⟨v, hv, ev⟩ := car.pos hk
    refine ⟨u, v, keyAt_iff.mpr eu, keyAt_iff.mpr ev, fun hanc => ?_⟩
    have hL := lcaPos_spec T ((pathTo T u).getLastD 0) u v ok.tree.nodup hu hv
    generalize hw : lcaPos ((pathTo T u).getLastD 0) (pathTo T u) (pathTo T v) = w at hL
    obtain ⟨a, ha⟩ := Option.isSome_iff_exists.mp (ok.srt.2 w hL.1.mem.1)
    refine ⟨w, a, hL, keyAt_iff.mpr ha, T.ids.length + 2, ?_⟩
    intro f hf
    obtain ⟨n, en, hna⟩ := keyAt_iff.mpr ha
    obtain ⟨q1, e1⟩ := pathTo_head hu
    obtain ⟨q2, e2⟩ := pathTo_head hv
    have s1 := le_simplePath ok.tree r0 f j _ (hj1 u hu eu f (by omega))
    have s2 := le_simplePath ok.tree r0 f k _ (hk1 v hv ev f (by omega))
    have ne : ¬ (pathTo T u = [] ∨ pathTo T v = []) := by rw [e1, e2]; simp
    have hd : cDiverge none (pathTo T u) (pathTo T v) = .ok (lcaDiverge ((pathTo T u).getLastD 0) (pathTo T u) (pathTo T v)) := by
      have hle : ∀ i ∈ pathTo T u, i ≤ 256 := fun i hi => by
        have := ok.lt_top i (pathTo_mem T u i hi); omega
      rw [e1] at hle
      rw [e1, e2]
      rw [cDiverge, if_pos ⟨rfl, hle _ (by simp)⟩, cDiverge_some q1 q2 _ (fun i hi => hle i (by simp [hi]))]
      simp [lcaDiverge]
    simp only [cLca1, onC, fj, fk, s1, s2, ok_bind, if_neg ne, hd]
    unfold lcaPos at hw
    cases hd' : lcaDiverge ((pathTo T u).getLastD 0) (pathTo T u) (pathTo T v) with
    | some i =>
      rw [hd'] at hw
      dsimp only at hw ⊢
      subst hw
      simp [cNode_ok (at_some.mpr en), hna]
    | none =>
      rw [hd'] at hw
      dsimp only at hw ⊢
      have : (pathTo T v).getLastD 0 = w := by
        split at hw
        · rename_i hlt
          exfalso
          rw [pathTo_last T u ok.tree.nodup hu] at hw
          subst hw
          rcases hanc with rfl | hanc
          · rw [listLt_irrefl] at hlt; cases hlt
          · exact hanc hL.2.1
        · exact hw
      rw [this]
      simp [cNode_ok (at_some.mpr en), hna]
  · intro hno
    refine ⟨T.ids.length + 2, ?_⟩
    intro f hf
    obtain ⟨p1, e1⟩ : ∃ p, cSimplePath f t j t.rootIdx = .ok p ∧ ((∀ x ∈ T.ids, keyOf t.at x ≠ some j) → p = []) := by
      by_cases hx : ∃ x ∈ T.ids, keyOf t.at x = some j
      · obtain ⟨x, hx, e⟩ := hx; exact ⟨_, le_simplePath ok.tree r0 f j _ (hj1 x hx e f (by omega)), fun h => absurd e (h x hx)⟩
      · exact ⟨_, le_simplePath ok.tree r0 f j _ (hj2 (fun x hx' e => hx ⟨x, hx', e⟩) f (by omega)), fun _ => rfl⟩
    obtain ⟨p2, e2⟩ : ∃ p, cSimplePath f t k t.rootIdx = .ok p ∧ ((∀ x ∈ T.ids, keyOf t.at x ≠ some k) → p = []) := by
      by_cases hx : ∃ x ∈ T.ids, keyOf t.at x = some k
      · obtain ⟨x, hx, e⟩ := hx; exact ⟨_, le_simplePath ok.tree r0 f k _ (hk1 x hx e f (by omega)), fun h => absurd e (h x hx)⟩
      · exact ⟨_, le_simplePath ok.tree r0 f k _ (hk2 (fun x hx' e => hx ⟨x, hx', e⟩) f (by omega)), fun _ => rfl⟩
    have : p1 = [] ∨ p2 = [] := hno.imp (fun h => e1.2 (car.absent h)) (fun h => e2.2 (car.absent h))
    simp only [cLca1, onC, fj, fk, e1.1, e2.1, ok_bind, if_pos this]

/-- **C108**, algorithm 2, when neither key is the root's or one is below the root's key. Missing: the other pairs (`C76_lca2_full_false` for the Python code). -/
theorem C108_lca2_partial {lt : κ → κ → Bool} (ht : StrictTotal (ltRel lt)) (os : Bool) (ops : List (κ × Option δ)) (hne : ops ≠ []) :
    ∃ c T a0, EndsWith (fun n => cBuild (ofLt lt) n os ops) (.ok c) ∧ HoldsTree c.t c.t.rootIdx T ∧ KeyAt c.t c.t.rootIdx a0 ∧ ∀ j k,
      j ∈ ops.map (·.1) → k ∈ ops.map (·.1) → (j ≠ a0 ∧ k ≠ a0) ∨ lt j a0 = true ∨ lt k a0 = true →
      ∃ u v w a, KeyAt c.t u j ∧ KeyAt c.t v k ∧ IsLca T u v w ∧ KeyAt c.t w a ∧ EndsWith (fun n => cLca2 (ofLt lt) n c.t j k) (.ok (some a)) := by
  obtain ⟨t, T, a0, hrun, h1, h2, h3⟩ := C76_lca2_partial ht os ops hne
  refine ⟨onC t, T, a0, cBuild_run ht os ops hrun, h1, h2, fun j k hj hk hc => ?_⟩
  obtain ⟨u, v, w, a, b1, b2, b3, b4, b5⟩ := h3 j k hj hk hc
  exact ⟨u, v, w, a, b1, b2, b3, b4, Le.endsWith (fun n => le_lca2 lt n t j k) b5⟩

/-- **C108**, algorithm 2: a key that has not been inserted raises `ValueError`. -/
theorem C108_lca2_absent {lt : κ → κ → Bool} (ht : StrictTotal (ltRel lt)) (os : Bool) (ops : List (κ × Option δ)) :
    ∃ c, EndsWith (fun n => cBuild (ofLt lt) n os ops) (.ok c) ∧ ∀ j k, j ∉ ops.map (·.1) ∨ k ∉ ops.map (·.1) →
      EndsWith (fun n => cLca2 (ofLt lt) n c.t j k) (.error .valueError) := by
  obtain ⟨c, h1, h2⟩ := C106_search_partial ht os ops
  refine ⟨c, h1, fun j k hjk => ?_⟩
  obtain ⟨r1, ⟨n1, e1⟩, a1⟩ := h2 j
  obtain ⟨r2, ⟨n2, e2⟩, a2⟩ := h2 k
  have hnone : ∀ x, x ∉ ops.map (·.1) → lastData ops x = none := by
    intro x hx
    cases e : lastData ops x with
    | none => rfl
    | some d => exact absurd ((lastData_isSome ops x).mp (by rw [e]; rfl)) hx
  refine ⟨max n1 n2, fun n hn => ?_⟩
  have f1 := e1 n (by omega)
  have f2 := e2 n (by omega)
  simp only at f1 f2
  simp only [cLca2, f1, f2, ok_bind]
  rcases hjk with h | h
  · rw [hnone j h] at a1
    have : r1 = none := a1
    subst this
    rfl
  · rw [hnone k h] at a2
    have : r2 = none := a2
    subst this
    cases r1 <;> rfl

/-- After inserting 1 and 2, algorithm 1 answers 2 as the ancestor of 1 and 2. -/
theorem C108_ancestor_first : EndsWith (fun n => do
    let c ← cBuild (ofLt fun a b : Nat => decide (a < b)) n false [(1, none), (2, (none : Option Nat))]
    cLca1 id n c.t 1 2) (.ok (some 2)) := by
  refine ⟨20, fun n hn => ?_⟩
  obtain ⟨m, rfl⟩ : ∃ m, n = m + 20 := ⟨n - 20, by omega⟩
  rfl

/-- An inserted key whose conversion is another object is not found. A key object is (its identity, its value). -/
theorem C108_big_key : EndsWith (fun n => do
    let c ← cBuild (ofLt fun a b : Nat × Nat => decide (a.2 < b.2)) n false [((0, 1000), (none : Option Nat))]
    cLca1 (fun a => (7, a.2)) n c.t (0, 1000) (0, 1000)) (.error .valueError) := by
  refine ⟨20, fun n hn => ?_⟩
  obtain ⟨m, rfl⟩ : ∃ m, n = m + 20 := ⟨n - 20, by omega⟩
  rfl

/-- One such key is enough, whether it comes first or second. -/
theorem C108_big_key_either : EndsWith (fun n => do
      let c ← cBuild (ofLt fun a b : Nat × Nat => decide (a.2 < b.2)) n false [((0, 1000), (none : Option Nat)), ((1, 5), none)]
      cLca1 (fun a : Nat × Nat => if a.2 ≤ 256 then a else (7, a.2)) n c.t (0, 1000) (1, 5)) (.error .valueError) ∧
    EndsWith (fun n => do
      let c ← cBuild (ofLt fun a b : Nat × Nat => decide (a.2 < b.2)) n false [((0, 1000), (none : Option Nat)), ((1, 5), none)]
      cLca1 (fun a : Nat × Nat => if a.2 ≤ 256 then a else (7, a.2)) n c.t (1, 5) (0, 1000)) (.error .valueError) := by
  constructor
  · refine ⟨20, fun n hn => ?_⟩
    obtain ⟨m, rfl⟩ : ∃ m, n = m + 20 := ⟨n - 20, by omega⟩
    rfl
  · refine ⟨20, fun n hn => ?_⟩
    obtain ⟨m, rfl⟩ : ∃ m, n = m + 20 := ⟨n - 20, by omega⟩
    rfl

theorem C108_full_false : ¬ C108_full id := by
  intro h
  obtain ⟨c, T, ⟨n0, h1⟩, hT, h2⟩ := h [(1, none), (2, none)] (by simp)
  have e : ∀ m, cBuild (ofLt fun a b : Nat => decide (a < b)) (m + 20) false [(1, none), (2, none)] = .ok (onC lcaTree) := fun m => rfl
  have : c = onC lcaTree := by
    have a := h1 (n0 + 20) (by omega)
    have b := e n0
    simp only at a
    rw [a] at b
    exact Except.ok.inj b
  subst this
  obtain ⟨u, v, w, a, hu, hv, hL, ha, ⟨n1, h3⟩, _⟩ := h2 1 2 (by simp) (by simp)
  have ea : ∀ m, cLca1 id (m + 20) lcaTree 1 2 = .ok (some 2) := fun m => rfl
  have ha2 : a = 2 := by
    have x := h3 (n1 + 20) (by omega)
    have y := ea n1
    simp only at x
    rw [show (onC lcaTree).t = lcaTree from rfl, y] at x
    cases x; rfl
  subst ha2
  have pos : ∀ x k, KeyAt lcaTree x k → (x = 0 ∧ k = 1) ∨ (x = 1 ∧ k = 2) := by
    rintro x k ⟨n, hn, hk⟩
    match x, hn with
    | 0, hn => simp [lcaTree] at hn; subst hn; cases hk; exact .inl ⟨rfl, rfl⟩
    | 1, hn => simp [lcaTree] at hn; subst hn; cases hk; exact .inr ⟨rfl, rfl⟩
    | 2, hn => simp [lcaTree] at hn
    | x + 3, hn => simp [lcaTree] at hn
  have hu0 : u = 0 := by rcases pos _ _ hu with h | h; exact h.1; exact absurd h.2 (by decide)
  have hv1 : v = 1 := by rcases pos _ _ hv with h | h; exact absurd h.2 (by decide); exact h.1
  have hw1 : w = 1 := by rcases pos _ _ ha with h | h; exact absurd h.2 (by decide); exact h.1
  subst hu0; subst hv1; subst hw1
  have hr : ∀ x ∈ T.ids, Desc T 0 x := by
    intro x hx
    cases T with
    | leaf => simp [Shape.ids] at hx
    | node l i r =>
      have : i = 0 := by have := hT.root; exact Option.some.inj this
      subst this
      exact .inl ⟨rfl, hx⟩
  have := Desc.antisymm hT.nodup hL.1 (hr 1 hL.1.mem.1)
  cases this

/-! ## C109: the traversals -/

/-- The C++ pre-order traversal from a node visits the nodes of its subtree, each before its left and then its right subtree. -/
theorem C109_pre_order {t : BTree κ δ} {i : Nat} {T : Shape} (h : HoldsTree t i T) :
    ∃ ns, NodesAt t T.pre ns ∧ EndsWith (fun n => ctDfs n t .pre (some i)) (.ok ns) := by
  obtain ⟨ns, h1, h2⟩ := C74_pre_order h
  exact ⟨ns, h1, Le.endsWith (fun n => le_dfs n t .pre (some i)) h2⟩

/-- The C++ in-order traversal visits each node between its left and its right subtree. -/
theorem C109_in_order {t : BTree κ δ} {i : Nat} {T : Shape} (h : HoldsTree t i T) :
    ∃ ns, NodesAt t T.ids ns ∧ EndsWith (fun n => ctDfs n t .ino (some i)) (.ok ns) := by
  obtain ⟨ns, h1, h2⟩ := C74_in_order h
  exact ⟨ns, h1, Le.endsWith (fun n => le_dfs n t .ino (some i)) h2⟩

/-- The C++ out-order traversal is the in-order traversal backwards. -/
theorem C109_out_order {t : BTree κ δ} {i : Nat} {T : Shape} (h : HoldsTree t i T) :
    ∃ ns, NodesAt t T.ids.reverse ns ∧ EndsWith (fun n => ctDfs n t .out (some i)) (.ok ns) := by
  obtain ⟨ns, h1, h2⟩ := C74_out_order h
  exact ⟨ns, h1, Le.endsWith (fun n => le_dfs n t .out (some i)) h2⟩

/-- The C++ post-order traversal visits each node after both subtrees, if the positions are below `size`. -/
theorem C109_post_order {t : BTree κ δ} {i : Nat} {T : Shape} (h : HoldsTree t i T) (hs : ∀ j ∈ T.ids, j < t.size) :
    ∃ ns, NodesAt t T.post ns ∧ EndsWith (fun n => ctDfs n t .post (some i)) (.ok ns) := by
  obtain ⟨ns, h1, h2⟩ := C74_post_order h hs
  exact ⟨ns, h1, Le.endsWith (fun n => le_dfs n t .post (some i)) h2⟩

/-- The C++ breadth first traversal visits the nodes level by level, each level from the left. -/
theorem C109_level_order {t : BTree κ δ} {i : Nat} {T : Shape} (h : HoldsTree t i T) :
    ∃ ns, NodesAt t T.levels ns ∧ EndsWith (fun n => ctBfs n t (some i)) (.ok ns) := by
  obtain ⟨ns, h1, h2⟩ := C74_level_order h
  exact ⟨ns, h1, Le.endsWith (fun n => le_bfs n t (some i)) h2⟩

/-- After any non-empty history of insertions all five C++ traversals from the root succeed and visit the same nodes: the orders are the ones of one binary tree `T`, each is a
rearrangement of the in-order one, and no node is visited twice. -/
theorem C109_inserted {lt : κ → κ → Bool} (ht : StrictTotal (ltRel lt)) (os : Bool) (ops : List (κ × Option δ)) (hne : ops ≠ []) :
    ∃ c T, EndsWith (fun n => cBuild (ofLt lt) n os ops) (.ok c) ∧ HoldsTree c.t c.t.rootIdx T ∧
      (T.pre.Perm T.ids ∧ T.post.Perm T.ids ∧ T.levels.Perm T.ids ∧ T.ids.Nodup) ∧
      (∃ ns, NodesAt c.t T.pre ns ∧ EndsWith (fun n => ctDfs n c.t .pre none) (.ok ns)) ∧
      (∃ ns, NodesAt c.t T.ids ns ∧ EndsWith (fun n => ctDfs n c.t .ino none) (.ok ns)) ∧
      (∃ ns, NodesAt c.t T.ids.reverse ns ∧ EndsWith (fun n => ctDfs n c.t .out none) (.ok ns)) ∧
      (∃ ns, NodesAt c.t T.post ns ∧ EndsWith (fun n => ctDfs n c.t .post none) (.ok ns)) ∧
      (∃ ns, NodesAt c.t T.levels ns ∧ EndsWith (fun n => ctBfs n c.t none) (.ok ns)) := by
  obtain ⟨t, T, hrun, ok, car, r0⟩ := bst_tree ht os ops hne
  have hT : HoldsTree t t.rootIdx T := ⟨ok.tree.root, ok.tree.linked.weaken, ok.tree.nodup⟩
  refine ⟨onC t, T, cBuild_run ht os ops hrun, hT, C74_every_node_once hT, C109_pre_order hT, C109_in_order hT, C109_out_order hT, C109_post_order hT ?_, C109_level_order hT⟩
  intro j hj
  show j < t.size
  rw [ok.size_top]
  exact ok.lt_top j hj

/-- A concrete tree in four orders. -/
example : (cBuild (ofLt fun a b : Nat => decide (a < b)) 20 true [(5, some 'a'), (2, some 'b'), (8, none), (3, some 'c'), (2, some 'd')]).bind (fun c => do
        let a ← ctDfs 30 c.t .pre none
        let b ← ctDfs 30 c.t .post none
        let d ← ctBfs 30 c.t none
        let j ← cLca1 id 30 c.t 3 8
        .ok (a.filterMap (·.key), b.filterMap (·.key), d.filterMap (·.key), j)) = .ok ([5, 2, 3, 8], [3, 2, 8, 5], [5, 2, 8, 3], some 5) := by decide +kernel

end Props
