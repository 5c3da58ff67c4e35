import Verif.Lemmas.AvlDelete
import Verif.Props.RedBlackDelete

/-!
# C85: AVL trees under insertions and deletions
-/
namespace Props
open Py Model Spec
set_option linter.unusedSectionVars false
variable {κ δ : Type} [DecidableEq κ]

/-! ## Specification -/

/-- One call on an AVL tree. -/
def avlStep (lt : κ → κ → Bool) (fuel : Nat) (t : BTree κ δ) : BstOp κ δ → PyM (BTree κ δ × Bool)
  | .insert k d => do
    let t ← avlInsert lt fuel t k d
    .ok (t, false)
  | .delete k => avlDelete lt fuel t k

/-- The calls of a history, with the values they return. -/
def avlRun (lt : κ → κ → Bool) (fuel : Nat) : BTree κ δ → List (BstOp κ δ) → PyM (BTree κ δ × List Bool)
  | t, [] => .ok (t, [])
  | t, op :: ops => do
    let r ← avlStep lt fuel t op
    let q ← avlRun lt fuel r.1 ops
    .ok (q.1, r.2 :: q.2)

/-- The tree of `n` keys is an AVL tree: sibling subtrees differ in height by at most one, and the height is logarithmic. -/
def AvlShape (t : BTree κ δ) (n : Nat) : Prop :=
  ∃ T, HoldsTree t t.rootIdx T ∧ T.ids.length = n ∧ Balanced T ∧ 2 ^ (T.depth / 2) ≤ n + 1

/-- Every node of the tree stores its height. -/
def StoresHeights (t : BTree κ δ) : Prop := ∃ T, HoldsTree t t.rootIdx T ∧ Heighted t.at T

/-- `select` and `rank` answer as the entries demand: `ks` are the keys in increasing order. -/
def RanksEntries (lt : κ → κ → Bool) (t : BTree κ δ) (D : List (κ × Option δ)) : Prop :=
  ∃ ks, KeysInOrder lt (dataOf D) ks ∧
    (∀ (i : Nat), i < ks.length → ∃ n, EndsWith (fun f => bstSelect lt f t ((i : Int) + 1)) (.ok (some n)) ∧ n.key = ks[i]? ∧
      ∃ p : Nat, t.arr[p]? = some (some n)) ∧
    (∀ i : Int, i < 1 ∨ ks.length < i → ∀ f, bstSelect lt f t i = .error .valueError) ∧
    (∀ (i : Nat) k, ks[i]? = some k → EndsWith (fun f => bstRank lt f t k) (.ok (some (i + 1)))) ∧
    (∀ k, ¬ Has D k → EndsWith (fun f => bstRank lt f t k) (.ok none))

/-- The tree serves the entries `D` and is an AVL tree; it stores its heights and, if it keeps order statistics, answers `select` and
`rank`. -/
def ServesAvl (lt : κ → κ → Bool) (os : Bool) (t : BTree κ δ) (D : List (κ × Option δ)) : Prop :=
  ServesEntries lt t D ∧ (D ≠ [] → AvlShape t D.length ∧ StoresHeights t ∧ (os = true → RanksEntries lt t D))

/-- **C85**, in full: any history, starting with the empty tree. -/
def C85_full (lt : κ → κ → Bool) (δ : Type) : Prop :=
  ∀ (os : Bool) (ops : List (BstOp κ δ)), ∃ t, EndsWith (fun n => avlRun lt n (btEmpty os) ops) (.ok (t, bstReturns [] ops)) ∧
    ServesAvl lt os t (bstContents [] ops)

/-- What is proved of the tree: a tree of one key may store a wrong height. -/
def ServesAvlMost (lt : κ → κ → Bool) (os : Bool) (t : BTree κ δ) (D : List (κ × Option δ)) : Prop :=
  ServesEntries lt t D ∧ (D ≠ [] → AvlShape t D.length) ∧ (2 ≤ D.length → StoresHeights t ∧ (os = true → RanksEntries lt t D))

/-- What `delete` returns: `True`, even if the key is not there. -/
def avlReturn : BstOp κ δ → Bool
  | .insert _ _ => false
  | .delete _ => true

/-! ## The state -/

/-- The AVL tree has the entries `D`. -/
def AvlHas (lt : κ → κ → Bool) (os : Bool) (t : BTree κ δ) (D : List (κ × Option δ)) : Prop :=
  t.orderStat = os ∧ ∃ E, E.Perm D ∧ (E = [] ∧ AvlCleared t ∨ ∃ T, AvlTree t T E ∧ E.Pairwise fun a b => lt a.1 b.1 = true)

theorem AvlHas.nodup_keys {lt : κ → κ → Bool} (ht : StrictTotal (ltRel lt)) {os : Bool} {t : BTree κ δ} {D : List (κ × Option δ)} (h : AvlHas lt os t D) :
    (D.map (·.1)).Nodup := by
  obtain ⟨_, E, hp, ⟨rfl, _⟩ | ⟨T, hT, hs⟩⟩ := h
  · rw [List.nil_perm.mp hp]; simp
  · refine (hp.map (·.1)).nodup_iff.mp ?_
    rw [List.Nodup, List.pairwise_map]
    refine hs.imp ?_
    intro a b hab he
    rw [he] at hab
    exact ht.irrefl _ hab

theorem AvlHas.serves {lt : κ → κ → Bool} (ht : StrictTotal (ltRel lt)) {os : Bool} {t : BTree κ δ} {D : List (κ × Option δ)} (h : AvlHas lt os t D) :
    ServesAvlMost lt os t D := by
  have hn := h.nodup_keys ht
  obtain ⟨ho, E, hp, ⟨rfl, hc⟩ | ⟨T, hT, hs⟩⟩ := h
  · have := List.nil_perm.mp hp
    subst this
    obtain ⟨r, er, hk, _⟩ := hc.root
    refine ⟨⟨fun k => ⟨none, ⟨0, fun n _ => ?_⟩, rfl⟩, fun h => absurd rfl h, bounds_cleared er hk⟩, fun h => absurd rfl h, fun h => absurd h (by simp)⟩
    simp only [bstSearch, bstSearchP, getNode_ok er, hk, ok_bind]; rfl
  · have st := hT.stored
    have hcar : Carries t T (dataOf D) := st.carries fun k d => by rw [dataOf_iff hn, hp.mem_iff]
    have hsrt := st.srt hs
    have hlen : T.ids.length = D.length := by rw [← hp.length_eq, st.ent.length]
    have hH : HoldsTree t t.rootIdx T := ⟨st.tree.root, st.tree.linked.weaken, st.tree.nodup⟩
    refine ⟨⟨search_map ht st.tree hsrt hcar, fun _ => inorder_map st.tree.root st.tree.linked.weaken st.tree.nodup hsrt hcar, bounds_entries ht hn st.tree hsrt hcar⟩,
      fun _ => ⟨T, hH, hlen, hT.bal, by rw [← hlen]; exact balanced_size _ T rfl hT.bal⟩, fun h2 => ?_⟩
    have ann := hT.ann.resolve_left (by omega)
    refine ⟨⟨T, hH, ann.1⟩, fun hos => ?_⟩
    obtain ⟨ks, h1, h2, h3, h4, h5⟩ := select_map ht st.tree hsrt (ann.2 (by rw [ho, hos])) st.num hcar
    refine ⟨ks, h1, h2, h3, h4, fun k hk => h5 k ?_⟩
    cases e : dataOf D k with
    | none => rfl
    | some d => exact absurd ⟨d, (dataOf_iff hn k d).mp e⟩ hk

/-! ## One call -/

/-- The array copes with the call: `insert` finds the last position filled, the array does not contract, and something is left to
delete from. -/
def CopesAvl (t : BTree κ δ) (D : List (κ × Option δ)) : BstOp κ δ → Prop
  | .insert k _ => t.size = t.top ∧ (D = [] ∨ Has D k ∨ grown t ≤ 4 * (t.num + 1))
  | .delete k => D ≠ [] ∧ (¬ Has D k ∨ D.length = 1 ∨ t.arr.length ≤ 4 * (D.length - 1))

/-- One call on an AVL tree whose array copes with it. -/
theorem avlHas_step {lt : κ → κ → Bool} (ht : StrictTotal (ltRel lt)) {os : Bool} {t : BTree κ δ} {D : List (κ × Option δ)} (h : AvlHas lt os t D) (op : BstOp κ δ)
    (hc : CopesAvl t D op) : ∃ t', AvlHas lt os t' (bstSpec D op) ∧ Counts t t' D op ∧
      ∃ n0, ∀ fuel, n0 ≤ fuel → avlStep lt fuel t op = .ok (t', avlReturn op) := by
  obtain ⟨ho, E, hp, hst⟩ := h
  have hTne : ∀ {T : Shape}, AvlTree t T E → D ≠ [] := by
    rintro T hT rfl
    have := hp.length_eq
    have h2 := hT.stored.ent.length
    have h3 := Shape.root_mem hT.stored.tree.root
    have h4 := List.length_pos_of_mem h3
    simp at this; rw [this] at h2; simp at h2; omega
  cases op with
  | insert k d =>
    obtain ⟨hsz, hc⟩ := hc
    rcases hst with ⟨rfl, hcl⟩ | ⟨T, hT, hs⟩
    · have := List.nil_perm.mp hp
      subst this
      obtain ⟨t', T', h1, h2, n0, h3⟩ := avlInsert_cleared (lt := lt) hcl k d hsz
      exact ⟨t', ⟨by rw [h2.orderStat, ho], [(k, d)], by simp [bstSpec], .inr ⟨T', h1, by simp⟩⟩, ⟨fun _ => h2, fun h => absurd (.inl rfl) h⟩, n0,
        fun fuel hf => by simp only [avlStep, h3 fuel hf, ok_bind]; rfl⟩
    · have hne := hTne hT
      by_cases hk : Has D k
      · obtain ⟨d0, hd0⟩ := (has_perm hp k).mp hk
        obtain ⟨t', E', h1, hs', h2, h3, n0, h4⟩ := avlInsert_present ht hT hs hd0 d hsz
        exact ⟨t', ⟨by rw [h3.orderStat, ho], E', h2.trans ((hp.filter _).cons _), .inr ⟨T, h1, hs'⟩⟩, ⟨fun _ => h3, fun h => absurd (.inr hk) h⟩, n0,
          fun fuel hf => by simp only [avlStep, h4 fuel hf, ok_bind]; rfl⟩
      · have h6 := (hc.resolve_left hne).resolve_left hk
        have hk' : ∀ d, (k, d) ∉ E := fun d hd => hk ((has_perm hp k).mpr ⟨d, hd⟩)
        obtain ⟨t', T', E', h1, hs', h2, o', c1, c2, c3, c4, n0, h4⟩ := avlInsert_absent ht hT hs hk' d hsz h6
        refine ⟨t', ⟨by rw [o', ho], E', ?_, .inr ⟨T', h1, hs'⟩⟩, ?_, n0, fun fuel hf => by simp only [avlStep, h4 fuel hf, ok_bind]; rfl⟩
        · simp only [bstSpec, filter_absent hk]
          exact h2.trans (hp.cons _)
        · exact ⟨fun h => absurd (h.resolve_left hne) hk, fun _ => ⟨c1, c2, c3, c4⟩⟩
  | delete k =>
    obtain ⟨hne, hc⟩ := hc
    rcases hst with ⟨rfl, hcl⟩ | ⟨T, hT, hs⟩
    · exact absurd (List.nil_perm.mp hp) hne
    by_cases hk : Has D k
    · obtain ⟨d0, hd0⟩ := (has_perm hp k).mp hk
      have h4 := hc.resolve_left (fun h => h hk)
      rw [← hp.length_eq] at h4
      obtain ⟨t', hor, n0, hrun⟩ := avlDelete_present ht hT hs hd0 h4
      rcases hor with ⟨h1, hcl, hs'⟩ | ⟨_, T', x, h1, h2, o'⟩
      · have he : (E.filter fun e => e.1 ≠ k) = [] := by
          obtain ⟨e, rfl⟩ := List.length_eq_one_iff.mp h1
          have : e = (k, d0) := (List.mem_singleton.mp hd0).symm
          subst this; simp
        exact ⟨t', ⟨by rw [hs'.orderStat, ho], _, hp.filter _, .inl ⟨he, hcl⟩⟩, hs'.len, n0, hrun⟩
      · exact ⟨t', ⟨by rw [o', ho], _, hp.filter _, .inr ⟨T', h1, hs.sublist (List.filter_sublist)⟩⟩, h2.len, n0, hrun⟩
    · have hk' : ∀ d, (k, d) ∉ E := fun d hd => hk ((has_perm hp k).mpr ⟨d, hd⟩)
      obtain ⟨n0, hrun⟩ := avlDelete_absent ht hT hs hk'
      refine ⟨t, ⟨ho, E, ?_, .inr ⟨T, hT, hs⟩⟩, rfl, n0, hrun⟩
      simp only [bstSpec, filter_absent hk]; exact hp

/-! ## Histories -/

/-- The array copes with every call of the history. -/
def CopesAvlAll (lt : κ → κ → Bool) (fuel : Nat) : BTree κ δ → List (κ × Option δ) → List (BstOp κ δ) → Prop
  | _, _, [] => True
  | t, D, op :: ops => CopesAvl t D op ∧ ∀ r, avlStep lt fuel t op = .ok r → CopesAvlAll lt fuel r.1 (bstSpec D op) ops

theorem avlHas_run {lt : κ → κ → Bool} (ht : StrictTotal (ltRel lt)) {os : Bool} : ∀ (ops : List (BstOp κ δ)) (t : BTree κ δ) (D : List (κ × Option δ)),
    AvlHas lt os t D → (∃ n0, ∀ fuel, n0 ≤ fuel → CopesAvlAll lt fuel t D ops) →
    ∃ t', AvlHas lt os t' (bstContents D ops) ∧ EndsWith (fun n => avlRun lt n t ops) (.ok (t', ops.map avlReturn)) := by
  intro ops
  induction ops with
  | nil => intro t D h _; exact ⟨t, h, 0, fun _ _ => rfl⟩
  | cons op ops ih =>
    rintro t D h ⟨n0, hc⟩
    obtain ⟨t1, h1, _, n1, r1⟩ := avlHas_step ht h op (hc n0 (Nat.le_refl _)).1
    obtain ⟨t2, h2, n2, r2⟩ := ih t1 _ h1 ⟨max n0 n1, fun fuel hf => (hc fuel (by omega)).2 _ (r1 fuel (by omega))⟩
    refine ⟨t2, h2, max n1 n2, fun fuel hf => ?_⟩
    have e1 := r1 fuel (by omega)
    have e2 := r2 fuel (by omega)
    simp only at e2
    simp only [avlRun, e1, e2, ok_bind, List.map_cons]

theorem AvlHas.empty (lt : κ → κ → Bool) (os : Bool) : AvlHas lt os (btEmpty os : BTree κ δ) [] := ⟨rfl, [], .refl _, .inl ⟨rfl, AvlCleared.empty os⟩⟩

/-- **C85** for the histories the array copes with: insertions only while the last position is filled, no deletion that makes the array
contract or from an empty tree. Every `delete` returns `True`, also for absent keys. Missing: the other histories, for which the claim is false
(`C85_full_false`), the returned value for absent keys (`C85_absent`) and the height stored in a tree of one key
(`C85_stale_height`). -/
theorem C85_copes_partial {lt : κ → κ → Bool} (ht : StrictTotal (ltRel lt)) (os : Bool) (ops : List (BstOp κ δ))
    (hc : ∃ n0, ∀ fuel, n0 ≤ fuel → CopesAvlAll lt fuel (btEmpty os) [] ops) :
    ∃ t, EndsWith (fun n => avlRun lt n (btEmpty os) ops) (.ok (t, ops.map avlReturn)) ∧ ServesAvlMost lt os t (bstContents [] ops) := by
  obtain ⟨t, h, hr⟩ := avlHas_run ht ops _ [] (AvlHas.empty lt os) hc
  exact ⟨t, hr, h.serves ht⟩

/-! ### Insertions followed by deletions -/

theorem avlRun_append (lt : κ → κ → Bool) (fuel : Nat) : ∀ (a b : List (BstOp κ δ)) (t : BTree κ δ),
    avlRun lt fuel t (a ++ b) = (do let r ← avlRun lt fuel t a; let q ← avlRun lt fuel r.1 b; .ok (q.1, r.2 ++ q.2)) := by
  intro a
  induction a with
  | nil => intro b t; cases h : avlRun lt fuel t b with
    | error e => simp [avlRun, h]
    | ok q => simp [avlRun, h]
  | cons op a ih =>
    intro b t
    simp only [List.cons_append, avlRun]
    cases h : avlStep lt fuel t op with
    | error e => rfl
    | ok r =>
      simp only [ok_bind, ih]
      cases h2 : avlRun lt fuel r.1 a with
      | error e => rfl
      | ok q =>
        simp only [ok_bind]
        cases h3 : avlRun lt fuel q.1 b with
        | error e => rfl
        | ok q' => rfl

theorem avl_fill {lt : κ → κ → Bool} (ht : StrictTotal (ltRel lt)) {os : Bool} : ∀ (ins : List (κ × Option δ)) (t : BTree κ δ) (D : List (κ × Option δ)),
    AvlHas lt os t D → FullOf t D.length →
    ∃ t', AvlHas lt os t' (bstContents D (insertsOf ins)) ∧ FullOf t' (bstContents D (insertsOf ins)).length ∧
      EndsWith (fun n => avlRun lt n t (insertsOf ins)) (.ok (t', (insertsOf ins).map avlReturn)) := by
  intro ins
  induction ins with
  | nil => intro t D h hf; exact ⟨t, h, hf, 0, fun _ _ => rfl⟩
  | cons e ins ih =>
    intro t D h hf
    obtain ⟨t1, h1, c1, n1, r1⟩ := avlHas_step ht h (.insert e.1 e.2) (by
      obtain ⟨f1, f2, f3, f4, f5⟩ := hf
      refine ⟨f1, .inr (.inr ?_)⟩
      unfold grown; split <;> omega)
    obtain ⟨t2, h2, f2, n2, r2⟩ := ih t1 _ h1 (full_insert (h.nodup_keys ht) e.1 e.2 hf c1)
    refine ⟨t2, h2, f2, max n1 n2, fun fuel hfu => ?_⟩
    have e1 := r1 fuel (by omega)
    have e2 := r2 fuel (by omega)
    simp only at e2
    simp only [insertsOf, List.map_cons, avlRun, e1, ok_bind] at e2 ⊢
    rw [e2]; rfl

theorem avl_thin {lt : κ → κ → Bool} (ht : StrictTotal (ltRel lt)) {os : Bool} {n : Nat} (hn1 : 1 ≤ n) : ∀ (ks : List κ) (t : BTree κ δ) (D : List (κ × Option δ)),
    AvlHas lt os t D → t.arr.length + 1 ≤ 2 * n → KeepsHalf n D ks →
    ∃ t', AvlHas lt os t' (bstContents D (ks.map .delete)) ∧ EndsWith (fun n => avlRun lt n t (ks.map .delete)) (.ok (t', ks.map fun _ => true)) := by
  intro ks
  induction ks with
  | nil => intro t D h _ _; exact ⟨t, h, 0, fun _ _ => rfl⟩
  | cons k ks ih =>
    intro t D h hlen hg
    have hn := h.nodup_keys ht
    have hle := (delete_sublist (bstSpec D (.delete k)) ks).length_le
    have hle' : (bstSpec D (.delete k)).length ≤ D.length := List.length_filter_le _ _
    have hg' : KeepsHalf n (bstSpec D (.delete k)) ks := hg
    have hc : CopesAvl t D (.delete k) := by
      refine ⟨?_, ?_⟩
      · rintro rfl
        unfold KeepsHalf at hg'
        simp only [List.length_nil] at hle'
        omega
      · by_cases hk : Has D k
        · have := spec_delete_length hn hk
          by_cases h1 : D.length = 1
          · exact .inr (.inl h1)
          · have hpos : 0 < D.length := by obtain ⟨d, hd⟩ := hk; exact List.length_pos_of_mem hd
            unfold KeepsHalf at hg'
            exact .inr (.inr (by omega))
        · exact .inl hk
    obtain ⟨t1, h1, c1, n1, r1⟩ := avlHas_step ht h (.delete k) hc
    have c1' : t1.arr.length = t.arr.length := c1
    obtain ⟨t2, h2, n2, r2⟩ := ih t1 _ h1 (by rw [c1']; exact hlen) hg'
    refine ⟨t2, h2, max n1 n2, fun fuel hf => ?_⟩
    have e1 := r1 fuel (by omega)
    have e2 := r2 fuel (by omega)
    simp only at e2
    simp only [List.map_cons, avlRun, e1, e2, ok_bind]
    rfl

theorem contents_pos (ins : List (κ × Option δ)) (hne : ins ≠ []) : 1 ≤ (bstContents [] (insertsOf ins)).length := by
  have mono : ∀ (ins D : List (κ × Option δ)), 1 ≤ D.length → 1 ≤ (bstContents D (insertsOf ins)).length := by
    intro ins
    induction ins with
    | nil => intro D h; exact h
    | cons e ins ih =>
      intro D _
      exact ih (bstSpec D (.insert e.1 e.2)) (by simp [bstSpec])
  cases ins with
  | nil => exact absurd rfl hne
  | cons e ins => exact mono ins (bstSpec [] (.insert e.1 e.2)) (by simp [bstSpec])

/-- **C85** for keys that are first inserted, in any order and also repeatedly, and then deleted in any order as long as at least half of them
remain: searches, in-order traversal, and (with order statistics) `select` and `rank` answer as the entries demand, and the tree is an AVL tree.
Missing: see `C85_full_false`, `C85_absent` and `C85_stale_height`. -/
theorem C85_fill_and_thin_partial {lt : κ → κ → Bool} (ht : StrictTotal (ltRel lt)) (os : Bool) (ins : List (κ × Option δ)) (hne : ins ≠ []) (ks : List κ)
    (hg : KeepsHalf (bstContents [] (insertsOf ins)).length (bstContents [] (insertsOf ins)) ks) :
    ∃ t, EndsWith (fun n => avlRun lt n (btEmpty os) (insertsOf ins ++ ks.map .delete)) (.ok (t, ins.map (fun _ => false) ++ ks.map fun _ => true)) ∧
      ServesAvlMost lt os t (bstContents [] (insertsOf ins ++ ks.map .delete)) := by
  have hfe : FullOf (btEmpty os : BTree κ δ) 0 := by refine ⟨rfl, rfl, rfl, ?_, ?_⟩ <;> simp [btEmpty]
  obtain ⟨t1, h1, f1, n1, r1⟩ := avl_fill ht ins (btEmpty os) [] (AvlHas.empty lt os) hfe
  have hpos := contents_pos ins hne
  obtain ⟨g1, g2, g3, g4, g5⟩ := f1
  obtain ⟨t2, h2, n2, r2⟩ := avl_thin ht hpos ks t1 _ h1 (by omega) hg
  refine ⟨t2, ⟨max n1 n2, fun n hn => ?_⟩, ?_⟩
  · have e1 := r1 n (by omega)
    have e2 := r2 n (by omega)
    simp only at e1 e2 ⊢
    rw [avlRun_append, e1]
    simp only [ok_bind, e2, insertsOf, List.map_map]
    rfl
  · unfold bstContents at h2 ⊢
    rw [List.foldl_append]
    exact h2.serves ht

/-- Such a history: thirteen keys, six of them deleted (leaves, nodes with one and two children, single and double rotations), and an
absent key. -/
example : KeepsHalf (bstContents [] (insertsOf ((List.range 13).map fun i => (7 * i % 13, some i)))).length
    (bstContents [] (insertsOf ((List.range 13).map fun i => (7 * i % 13, some i)))) [3, 99, 7, 0, 5, 1, 2] := by unfold KeepsHalf; decide

example : ((avlRun (fun a b : Nat => decide (a < b)) 60 (btEmpty true) (insertsOf ((List.range 13).map fun i => (7 * i % 13, some i)) ++ [3, 99, 7, 0, 5, 1, 2].map .delete)).bind fun r => do
      let l ← treeDfs 60 r.1 .pre none
      let s ← bstSelect (fun a b : Nat => decide (a < b)) 60 r.1 4
      let q ← bstRank (fun a b : Nat => decide (a < b)) 60 r.1 11
      .ok (l.map (fun n => (n.key, n.height, n.size)), s.bind (·.key), q, r.2.drop 13)) =
    .ok ([(some 8, 3, 7), (some 4, 1, 2), (some 6, 0, 1), (some 11, 2, 4), (some 9, 1, 2), (some 10, 0, 1), (some 12, 0, 1)], some 9, some 6,
      [true, true, true, true, true, true, true]) := by decide +kernel

/-- A history the array copes with although keys are inserted after a deletion. -/
example : ∃ n0, ∀ fuel, n0 ≤ fuel → CopesAvlAll (fun a b : Nat => decide (a < b)) fuel (btEmpty true : BTree Nat String) []
    [.insert 5 none, .insert 7 none, .insert 9 none, .delete 5, .insert 3 (some "x"), .insert 9 (some "y"), .delete 4] := by
  refine ⟨20, fun fuel hf => ?_⟩
  obtain ⟨m, rfl⟩ : ∃ m, fuel = m + 20 := ⟨fuel - 20, by omega⟩
  refine ⟨⟨rfl, .inl rfl⟩, fun r h => ?_⟩
  cases h
  refine ⟨⟨rfl, .inr (.inr (by decide))⟩, fun r h => ?_⟩
  cases h
  refine ⟨⟨rfl, .inr (.inr (by decide))⟩, fun r h => ?_⟩
  cases h
  refine ⟨⟨by decide, .inr (.inr (by decide))⟩, fun r h => ?_⟩
  cases h
  refine ⟨⟨rfl, .inr (.inr (by decide))⟩, fun r h => ?_⟩
  cases h
  refine ⟨⟨rfl, .inr (.inl (by decide))⟩, fun r h => ?_⟩
  cases h
  exact ⟨⟨by decide, .inl (by decide)⟩, fun _ _ => trivial⟩

/-! ## The claim fails in general -/

/-- Deleting a key that is not in the tree returns `True`. -/
theorem C85_absent : EndsWith (fun n => (avlRun (fun a b : Nat => decide (a < b)) n (btEmpty false : BTree Nat String) [.insert 1 none, .delete 2]).bind fun r => .ok r.2) (.ok [false, true]) := by
  refine ⟨20, fun n hn => ?_⟩
  obtain ⟨m, rfl⟩ : ∃ m, n = m + 20 := ⟨n - 20, by omega⟩
  rfl

/-- Deleting from an empty tree raises. -/
theorem C85_delete_empty (lt : κ → κ → Bool) (os : Bool) (k : κ) (n : Nat) : avlRun lt n (btEmpty os : BTree κ δ) [.delete k] = .error .typeError := rfl

/-- Inserting two keys, deleting the second and inserting another raises: the new node is not where the tree looks for it. -/
theorem C85_insert_after_delete : EndsWith (fun n => avlRun (fun a b : Nat => decide (a < b)) n (btEmpty false : BTree Nat String)
    [.insert 1 none, .insert 2 none, .delete 2, .insert 3 none]) (.error .attributeError) := by
  refine ⟨20, fun n hn => ?_⟩
  obtain ⟨m, rfl⟩ : ∃ m, n = m + 20 := ⟨n - 20, by omega⟩
  rfl

/-- Deleting the root of a tree of two keys leaves a node that claims to have height 1. -/
theorem C85_stale_height : ((avlRun (fun a b : Nat => decide (a < b)) 20 (btEmpty false : BTree Nat String) [.insert 1 none, .insert 2 none, .delete 1]).bind fun r => do
    let n ← getNode r.1 r.1.rootIdx
    .ok (n.key, n.left, n.right, n.height)) = .ok (some 2, none, none, 1) := by decide +kernel

theorem C85_full_false : ¬ C85_full (fun a b : Nat => decide (a < b)) String := by
  intro h
  obtain ⟨t, ⟨n0, hr⟩, _⟩ := h false [.insert 1 none, .insert 2 none, .delete 2, .insert 3 none]
  obtain ⟨n2, h2⟩ := C85_insert_after_delete
  have e0 := hr (max n0 n2) (by omega)
  have e2 := h2 (max n0 n2) (by omega)
  simp only at e0 e2
  rw [e0] at e2
  cases e2

end Props
