import Verif.Lemmas.RedBlackDelete
import Verif.Props.RedBlack
import Verif.Props.BstDelete

/-!
# C84: red-black trees under insertions and deletions
-/
namespace Props
open Py Model Spec
set_option linter.unusedSectionVars false
variable {κ δ : Type} [DecidableEq κ]

/-! ## Specification -/

/-- One call on a red-black tree. -/
def rbStep (lt : κ → κ → Bool) (fuel : Nat) (t : BTree κ δ) : BstOp κ δ → PyM (BTree κ δ × Bool)
  | .insert k d => do
    let t ← rbInsert lt fuel t k d
    .ok (t, false)
  | .delete k => rbDelete lt fuel t k

/-- The calls of a history, with the values they return. -/
def rbRun (lt : κ → κ → Bool) (fuel : Nat) : BTree κ δ → List (BstOp κ δ) → PyM (BTree κ δ × List Bool)
  | t, [] => .ok (t, [])
  | t, op :: ops => do
    let r ← rbStep lt fuel t op
    let q ← rbRun lt fuel r.1 ops
    .ok (q.1, r.2 :: q.2)

/-- The tree of `n` keys is a red-black tree: every node is black (0) or red (1), the root is black, no red node has a red child, all ways
down from the root pass the same number of black nodes, and the height is logarithmic. -/
def RedBlackShape (t : BTree κ δ) (n : Nat) : Prop :=
  ∃ T, HoldsTree t t.rootIdx T ∧ T.ids.length = n ∧ (∀ j ∈ T.ids, colOf t.at j = some 0 ∨ colOf t.at j = some 1) ∧ BlackRoot t.at T ∧ RedOk t.at T ∧
    (∃ N, BlackHeight t.at T N) ∧ 2 ^ (T.depth / 2) ≤ n + 1

/-- The tree serves the entries `D` and is a red-black tree. -/
def ServesRb (lt : κ → κ → Bool) (t : BTree κ δ) (D : List (κ × Option δ)) : Prop :=
  ServesEntries lt t D ∧ (D ≠ [] → RedBlackShape t D.length)

/-- **C84**, in full: any history, starting with the empty tree. -/
def C84_full (lt : κ → κ → Bool) (δ : Type) : Prop :=
  ∀ ops : List (BstOp κ δ), ∃ t, EndsWith (fun n => rbRun lt n (btEmpty false) ops) (.ok (t, bstReturns [] ops)) ∧
    ServesRb lt t (bstContents [] ops)

/-! ## The state -/

/-- The red-black tree has the entries `D`. -/
def RbHas (lt : κ → κ → Bool) (t : BTree κ δ) (D : List (κ × Option δ)) : Prop :=
  ∃ E, E.Perm D ∧ (E = [] ∧ RbCleared t ∨ ∃ T, RbTree t T E ∧ E.Pairwise fun a b => lt a.1 b.1 = true)

theorem RbHas.bstHas {lt : κ → κ → Bool} {t : BTree κ δ} {D : List (κ × Option δ)} (h : RbHas lt t D) : BstHas lt t D := by
  obtain ⟨E, hp, ⟨rfl, hc⟩ | ⟨T, hT, hs⟩⟩ := h
  · exact ⟨[], hp, .inl ⟨rfl, hc.cleared⟩⟩
  · exact ⟨E, hp, .inr ⟨T, hT.holding hs⟩⟩

theorem RbHas.serves {lt : κ → κ → Bool} (ht : StrictTotal (ltRel lt)) {t : BTree κ δ} {D : List (κ × Option δ)} (h : RbHas lt t D) : ServesRb lt t D := by
  refine ⟨h.bstHas.serves ht, fun hne => ?_⟩
  obtain ⟨E, hp, ⟨rfl, hc⟩ | ⟨T, hT, hs⟩⟩ := h
  · exact absurd (List.nil_perm.mp hp) hne
  · have hlen : T.ids.length = D.length := by rw [← hp.length_eq, hT.ent.length]
    have hb : BlackRoot t.at T := by intro j hj; rw [hT.tree.root] at hj; cases hj; exact hT.root
    obtain ⟨N, hN⟩ := hT.black
    refine ⟨T, ⟨hT.tree.root, hT.tree.linked.weaken, hT.tree.nodup⟩, hlen, hT.rb.cols, hb, hT.red, ⟨N, hN⟩, ?_⟩
    have hd := (redOk_depth hT.rb.cols hT.red hN).2 hb
    have hs := blackHeight_size hN
    have : 2 ^ (T.depth / 2) ≤ 2 ^ N := Nat.pow_le_pow_right (by omega) (by omega)
    omega

/-! ## One call -/

theorem search_held {lt : κ → κ → Bool} (ht : StrictTotal (ltRel lt)) {t : BTree κ δ} {T : Shape} {E : List (κ × Option δ)} (h : Holding lt t T E) {i : Nat} {k : κ}
    (hi : i ∈ T.ids) (hk : keyOf t.at i = some k) : ∀ fuel > T.ids.length + 1, bstSearch lt fuel t k = .ok (some i) := by
  obtain ⟨c, S, rfl, hF, hrun⟩ := search_spec ht h.tree h.srt k
  have hdep := Shape.depth_le (Around.plug c S)
  intro fuel hf
  rcases hF.here with rfl | ⟨l, i', r, rfl, hi'⟩
  · exact absurd hk (hF.absent ht i hi)
  · have : i' = i := h.srt.inj ht (by rw [Around.ids_plug]; simp [Shape.ids]) hi hi' hk
    subst this
    exact hrun fuel (by omega)

theorem rbMade_tree {t t' : BTree κ δ} {T T' : Shape} {E : List (κ × Option δ)} (M : RbMade t t' T T' True) (he : Ent t.at T.ids E)
    (low : ∀ i, (t.at i).isSome → i < t.top) (cap : t.top ≤ t.arr.length) (num : t.num = T.ids.length) (os : t.orderStat = false) : RbTree t' T' E := by
  obtain ⟨c1, c2⟩ := M.colour trivial
  refine ⟨M.tree, ?_, ?_, ?_, ?_, ?_, M.rb, M.black, c1, c2⟩
  · rw [M.ids]; exact he.congr fun i _ => M.ent.entry i
  · intro i hi; rw [M.ent.isSome] at hi; rw [M.ent.rest.top]; exact low i hi
  · rw [M.ent.rest.top, M.ent.rest.len]; exact cap
  · rw [M.ent.rest.num, M.ids]; exact num
  · rw [M.ent.rest.orderStat]; exact os

theorem rbInsert_cleared {lt : κ → κ → Bool} (ht : StrictTotal (ltRel lt)) {t : BTree κ δ} (h : RbCleared t) (k : κ) (d : Option δ) :
    ∃ t' T', RbTree t' T' [(k, d)] ∧ SameRest t t' ∧ ∃ n0, ∀ fuel, n0 ≤ fuel → rbInsert lt fuel t k d = .ok t' := by
  obtain ⟨n, en, hk, h1, h2, h3, h4⟩ := h.root
  obtain ⟨t1, e1, a1, r1, q1⟩ := modNode_spec (t := t) (i := t.rootIdx) (fun n => { n with key := some k, data := d }) (by rw [en]; rfl)
  have en1 : t1.at t.rootIdx = some { n with key := some k, data := d } := by rw [a1]; exact mapAt_same en
  have hins : ∀ fuel, bstInsert lt fuel t k d = .ok t1 := by
    intro fuel
    have hs : bstSearch lt fuel t k = .ok none := by simp only [bstSearch, bstSearchP, getNode_ok en, hk, ok_bind]; rfl
    simp only [bstInsert, hs, ok_bind, bstInsertNew, getNode_ok en, hk, if_true]
    exact e1
  have hT : TreeAt true t1 (Around.plug [] (.node .leaf t.rootIdx .leaf)) :=
    ⟨by rw [q1]; rfl, ⟨⟨_, en1, h1, h2, fun _ => h3⟩, trivial, trivial⟩, by simp [Around.plug, Shape.ids]⟩
  have hent : Ent t1.at [t.rootIdx] [(k, d)] := Ent.cons_iff.mpr ⟨_, _, rfl, entryAt_some.mpr ⟨_, en1, rfl, rfl⟩, Ent.nil _⟩
  have low1 : ∀ i, (t1.at i).isSome → i < t1.top := by
    intro j hj
    rw [r1.top]
    apply h.low
    rw [a1] at hj
    simp only [mapAt] at hj
    split at hj
    · simpa using hj
    · exact hj
  have hold : Holding lt t1 (.node .leaf t.rootIdx .leaf) [(k, d)] :=
    ⟨⟨hT.root, hT.linked.weaken, hT.nodup⟩, hent, by simp, low1, by rw [r1.top, r1.len]; exact h.cap, by rw [r1.num, h.num]; rfl, by rw [r1.orderStat]; exact h.os⟩
  obtain ⟨t2, T2, M, hrun⟩ := rb_finish_core (H := True) hT en1 rfl rfl
    (by
      intro j hj; simp [Around.plug, Shape.ids] at hj; subst hj
      unfold flagOf; rw [en1, q1]; simp [h4])
    (by intro j hj hji; simp [Around.plug, Shape.ids] at hj; exact absurd hj hji) (fun h => absurd q1 h)
    (fun _ => ⟨rfl, rfl, trivial, 0, rfl⟩)
  refine ⟨t2, T2, rbMade_tree M hent low1 hold.cap hold.num hold.os, r1.trans M.ent.rest, 4, fun fuel hf => ?_⟩
  exact rbInsert_eq (hins fuel) (search_held ht hold (i := t.rootIdx) (by simp [Shape.ids]) (by simp [keyOf, en1]) fuel (by simp [Shape.ids]; omega))
    (hrun fuel (by simp [Around.plug, Shape.ids]; omega))

theorem rbInsert_absent {lt : κ → κ → Bool} (ht : StrictTotal (ltRel lt)) {t : BTree κ δ} {T : Shape} {E : List (κ × Option δ)} {k : κ}
    (H : RbTree t T E) (hs : E.Pairwise fun a b => lt a.1 b.1 = true) (hk : ∀ d, (k, d) ∉ E) (d : Option δ) (hsz : t.size = t.top) (hg : grown t ≤ 4 * (t.num + 1)) :
    ∃ t' T' E', RbTree t' T' E' ∧ (E'.Pairwise fun a b => lt a.1 b.1 = true) ∧ E'.Perm ((k, d) :: E) ∧ t'.top = t.top + 1 ∧ t'.size = t.size + 1 ∧ t'.num = t.num + 1 ∧
      t'.arr.length = grown t ∧ ∃ n0, ∀ fuel, n0 ≤ fuel → rbInsert lt fuel t k d = .ok t' := by
  obtain ⟨f, c, t1, E1, E2, rfl, rfl, h1, hH, n0, hrun⟩ := bstInsert_hung ht (H.holding hs) hk d hsz hg
  have hT := hung_tree H.tree H.lt_top hH
  have hft : t.top ≠ f.idx := fun e => absurd (H.lt_top f.idx (Frame.idx_mem f c _)) (by omega)
  have en : t1.at t.top = some { key := some k, data := d, parent := some f.idx } := by rw [hH.cells]; simp [hung, mapAt, hft]
  have hold : ∀ j, j ≠ t.top → colOf t1.at j = colOf t.at j ∧ flagOf t1.at j = flagOf t.at j := by
    intro j hj
    unfold colOf flagOf
    rw [hH.cells]
    by_cases e : j = f.idx
    · subst e
      simp only [hung, mapAt, if_neg hj, if_true]
      cases t.at f.idx with
      | none => exact ⟨rfl, rfl⟩
      | some n => cases f <;> exact ⟨rfl, rfl⟩
    · simp [hung, mapAt, if_neg hj, if_neg e]
  have hmem : ∀ j ∈ (Around.plug (f :: c) (.node .leaf t.top .leaf)).ids, j ≠ t.top → j ∈ (Around.plug (f :: c) .leaf).ids := by
    intro j hj hne
    rw [mem_plug] at hj ⊢
    rcases hj with hj | hj
    · simp [Shape.ids] at hj; exact absurd hj hne
    · exact .inr hj
  have hrt : t.rootIdx ≠ t.top := Nat.ne_of_lt (H.lt_top _ (Shape.root_mem H.tree.root))
  have ce : ∀ j ∈ (Around.plug (f :: c) .leaf).ids, colOf t1.at j = colOf t.at j := fun j hj => (hold j (Nat.ne_of_lt (H.lt_top j hj))).1
  obtain ⟨t2, T2, M, hfin⟩ := rb_finish_core (H := True) hT en rfl rfl
    (by
      intro j hj
      rw [hH.rootIdx]
      by_cases hji : j = t.top
      · subst hji; rw [decide_eq_false hrt.symm]; unfold flagOf; rw [en]; rfl
      · rw [(hold j hji).2]; exact H.rb.flags j (hmem j hj hji))
    (by intro j hj hji; rw [(hold j hji).1]; exact H.rb.cols j (hmem j hj hji))
    (by intro _; rw [hH.rootIdx, (hold _ hrt).1]; exact H.root)
    (by
      obtain ⟨N, hN⟩ := H.black
      exact fun _ => ⟨rfl, rfl, redOk_congr ce H.red, N, blackHeight_congr ce hN⟩)
  refine ⟨t2, T2, _, rbMade_tree M h1.ent h1.low h1.cap h1.num h1.os, h1.sorted, List.perm_middle, by rw [M.ent.rest.top, hH.top], by rw [M.ent.rest.size, hH.size],
    by rw [M.ent.rest.num, hH.num], by rw [M.ent.rest.len, hH.len], n0 + ((Around.plug (f :: c) (.node .leaf t.top .leaf)).ids.length + 2), fun fuel hf => ?_⟩
  exact rbInsert_eq (hrun fuel (by omega)) (search_held ht h1 (i := t.top) (by rw [mem_plug]; simp [Shape.ids]) (by simp [keyOf, en]) fuel (by omega)) (hfin fuel (by omega))

/-- The array copes with the call: a key that is inserted is new and goes where the tree expects it, and the array does not contract. -/
def CopesRb (t : BTree κ δ) (D : List (κ × Option δ)) : BstOp κ δ → Prop
  | .insert k _ => ¬ Has D k ∧ (D = [] ∨ t.size = t.top ∧ grown t ≤ 4 * (t.num + 1))
  | .delete k => ¬ Has D k ∨ D.length = 1 ∨ t.arr.length ≤ 4 * (D.length - 1)

/-- One call on a red-black tree whose array copes with it. -/
theorem rbHas_step {lt : κ → κ → Bool} (ht : StrictTotal (ltRel lt)) {t : BTree κ δ} {D : List (κ × Option δ)} (h : RbHas lt t D) (op : BstOp κ δ)
    (hc : CopesRb t D op) : ∃ t', RbHas lt t' (bstSpec D op) ∧ Counts t t' D op ∧
      ∃ n0, ∀ fuel, n0 ≤ fuel → rbStep lt fuel t op = .ok (t', bstReturn D op) := by
  obtain ⟨E, hp, hst⟩ := h
  cases op with
  | insert k d =>
    obtain ⟨hk, hc⟩ := hc
    rcases hst with ⟨rfl, hcl⟩ | ⟨T, hT, hs⟩
    · have := List.nil_perm.mp hp
      subst this
      obtain ⟨t', T', h1, h2, n0, h3⟩ := rbInsert_cleared ht hcl k d
      exact ⟨t', ⟨[(k, d)], by simp [bstSpec], .inr ⟨T', h1, by simp⟩⟩, ⟨fun _ => h2, fun h => absurd (.inl rfl) h⟩, n0, fun fuel hf => by simp only [rbStep, h3 fuel hf, ok_bind]; rfl⟩
    · have hne : D ≠ [] := by
        rintro rfl
        have := hp.length_eq
        have h2 := hT.ent.length
        have h3 := Shape.root_mem hT.tree.root
        have h4 := List.length_pos_of_mem h3
        simp at this; rw [this] at h2; simp at h2; omega
      obtain ⟨h5, h6⟩ := hc.resolve_left hne
      have hk' : ∀ d, (k, d) ∉ E := fun d hd => hk ((has_perm hp k).mpr ⟨d, hd⟩)
      obtain ⟨t', T', E', h1, hs', h2, c1, c2, c3, c4, n0, h4⟩ := rbInsert_absent ht hT hs hk' d h5 h6
      refine ⟨t', ⟨E', ?_, .inr ⟨T', h1, hs'⟩⟩, ?_, n0, fun fuel hf => by simp only [rbStep, h4 fuel hf, ok_bind]; rfl⟩
      · simp only [bstSpec, filter_absent hk]
        exact h2.trans (hp.cons _)
      · exact ⟨fun h => absurd (h.resolve_left hne) hk, fun _ => ⟨c1, c2, c3, c4⟩⟩
  | delete k =>
    by_cases hk : Has D k
    · have hret : bstReturn D (.delete k) = true := has_iff.mpr hk
      obtain ⟨d0, hd0⟩ := (has_perm hp k).mp hk
      rcases hst with ⟨rfl, hcl⟩ | ⟨T, hT, hs⟩
      · cases hd0
      have h4 := hc.resolve_left (fun h => h hk)
      rw [← hp.length_eq] at h4
      obtain ⟨t', hor, n0, hrun⟩ := rbDelete_present ht hT hs hd0 h4
      rcases hor with ⟨h1, hcl, hs', he⟩ | ⟨_, T', x, h1, h2⟩
      · exact ⟨t', ⟨_, hp.filter _, .inl ⟨he, hcl⟩⟩, hs'.len, n0, fun fuel hf => by rw [hret]; exact hrun fuel hf⟩
      · exact ⟨t', ⟨_, hp.filter _, .inr ⟨T', h1, hs.sublist (List.filter_sublist)⟩⟩, h2.len, n0, fun fuel hf => by rw [hret]; exact hrun fuel hf⟩
    · have hret : bstReturn D (.delete k) = false := by
        have := mt (has_iff (D := D) (k := k)).mp hk
        exact Bool.eq_false_iff.mpr this
      have hk' : ∀ d, (k, d) ∉ E := fun d hd => hk ((has_perm hp k).mpr ⟨d, hd⟩)
      have hrun : ∃ n0, ∀ fuel, n0 ≤ fuel → rbDelete lt fuel t k = .ok (t, false) := by
        rcases hst with ⟨_, hcl⟩ | ⟨T, hT, hs⟩
        · exact ⟨0, fun fuel _ => rbDelete_cleared hcl k fuel⟩
        · exact rbDelete_absent ht (hT.holding hs) hk'
      obtain ⟨n0, hrun⟩ := hrun
      refine ⟨t, ⟨E, ?_, hst⟩, rfl, n0, fun fuel hf => by rw [hret]; exact hrun fuel hf⟩
      simp only [bstSpec, filter_absent hk]; exact hp

/-! ## Histories -/

/-- The array copes with every call of the history. -/
def CopesRbAll (lt : κ → κ → Bool) (fuel : Nat) : BTree κ δ → List (κ × Option δ) → List (BstOp κ δ) → Prop
  | _, _, [] => True
  | t, D, op :: ops => CopesRb t D op ∧ ∀ r, rbStep lt fuel t op = .ok r → CopesRbAll lt fuel r.1 (bstSpec D op) ops

theorem rbHas_run {lt : κ → κ → Bool} (ht : StrictTotal (ltRel lt)) : ∀ (ops : List (BstOp κ δ)) (t : BTree κ δ) (D : List (κ × Option δ)),
    RbHas lt t D → (∃ n0, ∀ fuel, n0 ≤ fuel → CopesRbAll lt fuel t D ops) →
    ∃ t', RbHas lt t' (bstContents D ops) ∧ EndsWith (fun n => rbRun lt n t ops) (.ok (t', bstReturns D ops)) := by
  intro ops
  induction ops with
  | nil => intro t D h _; exact ⟨t, h, 0, fun _ _ => rfl⟩
  | cons op ops ih =>
    rintro t D h ⟨n0, hc⟩
    obtain ⟨t1, h1, _, n1, r1⟩ := rbHas_step ht h op (hc n0 (Nat.le_refl _)).1
    obtain ⟨t2, h2, n2, r2⟩ := ih t1 _ h1 ⟨max n0 n1, fun fuel hf => (hc fuel (by omega)).2 _ (r1 fuel (by omega))⟩
    refine ⟨t2, h2, max n1 n2, fun fuel hf => ?_⟩
    have e1 := r1 fuel (by omega)
    have e2 := r2 fuel (by omega)
    simp only at e2
    simp only [rbRun, e1, e2, ok_bind, bstReturns]

theorem RbHas.empty (lt : κ → κ → Bool) : RbHas lt (btEmpty false : BTree κ δ) [] := ⟨[], .refl _, .inl ⟨rfl, RbCleared.empty⟩⟩

/-- **C84** for the histories the array copes with: only keys that are not present are inserted, and only while `size` is the position at
which the array appends, and no deletion makes the array contract. Missing: the other histories, for which the claim is
false (`C84_full_false`). -/
theorem C84_copes_partial {lt : κ → κ → Bool} (ht : StrictTotal (ltRel lt)) (ops : List (BstOp κ δ))
    (hc : ∃ n0, ∀ fuel, n0 ≤ fuel → CopesRbAll lt fuel (btEmpty false) [] ops) :
    ∃ t, EndsWith (fun n => rbRun lt n (btEmpty false) ops) (.ok (t, bstReturns [] ops)) ∧ ServesRb lt t (bstContents [] ops) := by
  obtain ⟨t, h, hr⟩ := rbHas_run ht ops _ [] (RbHas.empty lt) hc
  exact ⟨t, hr, h.serves ht⟩

/-! ### Insertions followed by deletions -/

theorem rbRun_append (lt : κ → κ → Bool) (fuel : Nat) : ∀ (a b : List (BstOp κ δ)) (t : BTree κ δ),
    rbRun lt fuel t (a ++ b) = (do let r ← rbRun lt fuel t a; let q ← rbRun lt fuel r.1 b; .ok (q.1, r.2 ++ q.2)) := by
  intro a
  induction a with
  | nil => intro b t; cases h : rbRun lt fuel t b with
    | error e => simp [rbRun, h]
    | ok q => simp [rbRun, h]
  | cons op a ih =>
    intro b t
    simp only [List.cons_append, rbRun]
    cases h : rbStep lt fuel t op with
    | error e => rfl
    | ok r =>
      simp only [ok_bind, ih]
      cases h2 : rbRun lt fuel r.1 a with
      | error e => rfl
      | ok q =>
        simp only [ok_bind]
        cases h3 : rbRun lt fuel q.1 b with
        | error e => rfl
        | ok q' => rfl

theorem has_spec_insert {D : List (κ × Option δ)} {k k' : κ} {d : Option δ} (h : Has (bstSpec D (.insert k d)) k') : k' = k ∨ Has D k' := by
  obtain ⟨d', hd⟩ := h
  simp only [bstSpec, List.mem_cons, List.mem_filter] at hd
  rcases hd with h | h
  · cases h; exact .inl rfl
  · exact .inr ⟨d', h.1⟩

theorem rb_fill {lt : κ → κ → Bool} (ht : StrictTotal (ltRel lt)) : ∀ (ins : List (κ × Option δ)) (t : BTree κ δ) (D : List (κ × Option δ)),
    RbHas lt t D → FullOf t D.length → (ins.map (·.1)).Nodup → (∀ e ∈ ins, ¬ Has D e.1) →
    ∃ t', RbHas lt t' (bstContents D (insertsOf ins)) ∧ FullOf t' (bstContents D (insertsOf ins)).length ∧
      EndsWith (fun n => rbRun lt n t (insertsOf ins)) (.ok (t', bstReturns D (insertsOf ins))) := by
  intro ins
  induction ins with
  | nil => intro t D h hf _ _; exact ⟨t, h, hf, 0, fun _ _ => rfl⟩
  | cons e ins ih =>
    intro t D h hf hnd hab
    simp only [List.map_cons, List.nodup_cons] at hnd
    obtain ⟨t1, h1, c1, n1, r1⟩ := rbHas_step ht h (.insert e.1 e.2) (by
      obtain ⟨f1, f2, f3, f4, f5⟩ := hf
      refine ⟨hab e (by simp), .inr ⟨f1, ?_⟩⟩
      unfold grown; split <;> omega)
    obtain ⟨t2, h2, f2, n2, r2⟩ := ih t1 _ h1 (full_insert (h.bstHas.nodup_keys ht) e.1 e.2 hf c1) hnd.2 (by
      intro e' he' hh
      rcases has_spec_insert hh with heq | hh
      · exact hnd.1 (by rw [← heq]; exact List.mem_map_of_mem he')
      · exact hab e' (by simp [he']) hh)
    refine ⟨t2, h2, f2, max n1 n2, fun fuel hfu => ?_⟩
    have e1 := r1 fuel (by omega)
    have e2 := r2 fuel (by omega)
    simp only at e2
    simp only [insertsOf, List.map_cons, rbRun, e1, ok_bind, bstReturns] at e2 ⊢
    rw [e2]; rfl

/-- Deletions, of present or absent keys, as long as at least half of the `n` keys remain. -/
def KeepsHalf (n : Nat) (D : List (κ × Option δ)) (ks : List κ) : Prop := n ≤ 2 * (bstContents D (ks.map .delete)).length

theorem delete_sublist (D : List (κ × Option δ)) (ks : List κ) : (bstContents D (ks.map .delete)).Sublist D := by
  induction ks generalizing D with
  | nil => exact .refl _
  | cons k ks ih => exact (ih _).trans List.filter_sublist

theorem rb_thin {lt : κ → κ → Bool} (ht : StrictTotal (ltRel lt)) {n : Nat} : ∀ (ks : List κ) (t : BTree κ δ) (D : List (κ × Option δ)),
    RbHas lt t D → t.arr.length + 1 ≤ 2 * max n 1 → KeepsHalf n D ks →
    ∃ t', RbHas lt t' (bstContents D (ks.map .delete)) ∧ EndsWith (fun n => rbRun lt n t (ks.map .delete)) (.ok (t', bstReturns D (ks.map .delete))) := by
  intro ks
  induction ks with
  | nil => intro t D h _ _; exact ⟨t, h, 0, fun _ _ => rfl⟩
  | cons k ks ih =>
    intro t D h hlen hg
    have hn := h.bstHas.nodup_keys ht
    have hle := (delete_sublist (bstSpec D (.delete k)) ks).length_le
    have hg' : KeepsHalf n (bstSpec D (.delete k)) ks := hg
    have hc : CopesRb t D (.delete k) := by
      by_cases hk : Has D k
      · have := spec_delete_length hn hk
        by_cases h1 : D.length = 1
        · exact .inr (.inl h1)
        · have hpos : 0 < D.length := by obtain ⟨d, hd⟩ := hk; exact List.length_pos_of_mem hd
          unfold KeepsHalf at hg'
          exact .inr (.inr (by omega))
      · exact .inl hk
    obtain ⟨t1, h1, c1, n1, r1⟩ := rbHas_step ht h (.delete k) hc
    have c1' : t1.arr.length = t.arr.length := c1
    obtain ⟨t2, h2, n2, r2⟩ := ih t1 _ h1 (by rw [c1']; exact hlen) hg'
    refine ⟨t2, h2, max n1 n2, fun fuel hf => ?_⟩
    have e1 := r1 fuel (by omega)
    have e2 := r2 fuel (by omega)
    simp only at e2
    simp only [List.map_cons, rbRun, e1, e2, ok_bind, bstReturns]

/-- **C84** for distinct keys that are first all inserted, in any order, and then deleted in any order as long as at least half of them remain:
every `delete` returns whether the key was there, and afterwards searches and in-order traversal answer as the entries
demand and the tree is a red-black tree. Missing: see `C84_full_false`. -/
theorem C84_fill_and_thin_partial {lt : κ → κ → Bool} (ht : StrictTotal (ltRel lt)) (ins : List (κ × Option δ)) (hd : (ins.map (·.1)).Nodup) (ks : List κ)
    (hg : KeepsHalf ins.length (bstContents [] (insertsOf ins)) ks) :
    ∃ t, EndsWith (fun n => rbRun lt n (btEmpty false) (insertsOf ins ++ ks.map .delete)) (.ok (t, bstReturns [] (insertsOf ins ++ ks.map .delete))) ∧
      ServesRb lt t (bstContents [] (insertsOf ins ++ ks.map .delete)) := by
  obtain ⟨t1, h1, f1, n1, r1⟩ := rb_fill ht ins (btEmpty false) [] (RbHas.empty lt) fullOf_empty hd (by rintro e _ ⟨_, h⟩; cases h)
  have hlen : (bstContents [] (insertsOf ins)).length ≤ ins.length := by
    have key : ∀ (ins D : List (κ × Option δ)), (bstContents D (insertsOf ins)).length ≤ D.length + ins.length := by
      intro ins
      induction ins with
      | nil => intro D; exact Nat.le_refl _
      | cons e ins ih =>
        intro D
        have a := ih (bstSpec D (.insert e.1 e.2))
        have b : (bstSpec D (.insert e.1 e.2)).length ≤ D.length + 1 := Nat.succ_le_succ (List.length_filter_le _ _)
        simp only [List.length_cons]
        have c : bstContents D (insertsOf (e :: ins)) = bstContents (bstSpec D (.insert e.1 e.2)) (insertsOf ins) := rfl
        rw [c]; omega
    have := key ins []; simpa using this
  obtain ⟨g1, g2, g3, g4, g5⟩ := f1
  obtain ⟨t2, h2, n2, r2⟩ := rb_thin ht (n := ins.length) ks t1 _ h1 (by omega) hg
  refine ⟨t2, ⟨max n1 n2, fun n hn => ?_⟩, ?_⟩
  · have e1 := r1 n (by omega)
    have e2 := r2 n (by omega)
    simp only at e1 e2 ⊢
    rw [rbRun_append, e1, bstReturns_append]
    simp only [ok_bind, e2]
  · unfold bstContents at h2 ⊢
    rw [List.foldl_append]
    exact h2.serves ht

/-- Such a history: twelve keys, six of them deleted (a red leaf, black leaves with red and black siblings, nodes with one and two children), and
an absent key. -/
example : KeepsHalf 12 (bstContents [] (insertsOf ((List.range 12).map fun i => (7 * i % 12, some i)))) [3, 99, 7, 0, 5, 11, 2] := by unfold KeepsHalf; decide

example : (((List.range 12).map fun i => (7 * i % 12, some i)).map (·.1)).Nodup := by decide

example : ((rbRun (fun a b : Nat => decide (a < b)) 60 (btEmpty false) (insertsOf ((List.range 12).map fun i => (7 * i % 12, some i)) ++ [3, 99, 7, 0, 5, 11, 2].map .delete)).bind fun r => do
      let l ← treeDfs 60 r.1 .pre none
      .ok (l.map (fun n => (n.key, n.color)), r.2.drop 12)) =
    .ok ([(some 6, some 0), (some 1, some 0), (some 4, some 1), (some 9, some 1), (some 8, some 0), (some 10, some 0)], [true, false, true, true, true, true, true]) := by decide +kernel

/-- A history the array copes with although a new key is inserted after a deletion, and although the last key is deleted. -/
example : ∃ n0, ∀ fuel, n0 ≤ fuel → CopesRbAll (fun a b : Nat => decide (a < b)) fuel (btEmpty false : BTree Nat String) []
    [.insert 5 none, .insert 7 none, .insert 9 none, .delete 5, .insert 3 (some "x"), .delete 4] := by
  refine ⟨20, fun fuel hf => ?_⟩
  obtain ⟨m, rfl⟩ : ∃ m, fuel = m + 20 := ⟨fuel - 20, by omega⟩
  refine ⟨⟨by decide, .inl rfl⟩, fun r h => ?_⟩
  cases h
  refine ⟨⟨by decide, .inr ⟨rfl, by decide⟩⟩, fun r h => ?_⟩
  cases h
  refine ⟨⟨by decide, .inr ⟨rfl, by decide⟩⟩, fun r h => ?_⟩
  cases h
  refine ⟨.inr (.inr (by decide)), fun r h => ?_⟩
  cases h
  refine ⟨⟨by decide, .inr ⟨rfl, by decide⟩⟩, fun r h => ?_⟩
  cases h
  exact ⟨.inl (by decide), fun _ _ => trivial⟩

/-! ## The claim fails in general -/

/-- Inserting two keys, deleting the second and inserting another raises: the new node is not where the tree looks for it. -/
theorem C84_insert_after_delete : EndsWith (fun n => rbRun (fun a b : Nat => decide (a < b)) n (btEmpty false : BTree Nat String)
    [.insert 1 none, .insert 2 none, .delete 2, .insert 3 none]) (.error .attributeError) := by
  refine ⟨20, fun n hn => ?_⟩
  obtain ⟨m, rfl⟩ : ∃ m, n = m + 20 := ⟨n - 20, by omega⟩
  rfl

/-- Eight keys, of which five are deleted: the array contracts while a node with one child is removed, and the repair goes on with
the position the child had before. -/
theorem C84_contraction : EndsWith (fun n => rbRun (fun a b : Nat => decide (a < b)) n (btEmpty false : BTree Nat String)
    ((List.range 8).map (fun i => .insert i none) ++ [4, 3, 2, 1, 0].map .delete)) (.error .attributeError) := by
  refine ⟨40, fun n hn => ?_⟩
  obtain ⟨m, rfl⟩ : ∃ m, n = m + 40 := ⟨n - 40, by omega⟩
  rfl

theorem C84_full_false : ¬ C84_full (fun a b : Nat => decide (a < b)) String := by
  intro h
  obtain ⟨t, ⟨n0, hr⟩, _⟩ := h [.insert 1 none, .insert 2 none, .delete 2, .insert 3 none]
  obtain ⟨n2, h2⟩ := C84_insert_after_delete
  have e0 := hr (max n0 n2) (by omega)
  have e2 := h2 (max n0 n2) (by omega)
  simp only at e0 e2
  rw [e0] at e2
  cases e2

end Props
