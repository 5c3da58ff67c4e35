import Verif.Lemmas.BstDelete

/-!
# C73: deletion from a binary search tree
-/
namespace Props
open Py Model Spec
set_option linter.unusedSectionVars false
variable {κ δ : Type} [DecidableEq κ]

/-! ## Specification -/

/-- A call on a search tree. -/
inductive BstOp (κ δ : Type) where
  | insert (k : κ) (d : Option δ)
  | delete (k : κ)

/-- What a call does to the entries. -/
def bstSpec (D : List (κ × Option δ)) : BstOp κ δ → List (κ × Option δ)
  | .insert k d => (k, d) :: D.filter fun e => e.1 ≠ k
  | .delete k => D.filter fun e => e.1 ≠ k

/-- The key is in the tree. -/
def Has (D : List (κ × Option δ)) (k : κ) : Prop := ∃ d, (k, d) ∈ D

theorem has_iff {D : List (κ × Option δ)} {k : κ} : D.any (fun e => e.1 = k) = true ↔ Has D k := by
  simp only [List.any_eq_true, decide_eq_true_eq, Has]
  constructor
  · rintro ⟨e, he, rfl⟩; exact ⟨e.2, he⟩
  · rintro ⟨d, hd⟩; exact ⟨_, hd, rfl⟩

instance (D : List (κ × Option δ)) (k : κ) : Decidable (Has D k) := decidable_of_iff _ has_iff

/-- Whether the call returns `True` (a successful `delete`) or `None`. -/
def bstReturn (D : List (κ × Option δ)) : BstOp κ δ → Bool
  | .insert _ _ => false
  | .delete k => D.any fun e => e.1 = k

/-- The entries after a history. -/
def bstContents (D : List (κ × Option δ)) (ops : List (BstOp κ δ)) : List (κ × Option δ) := ops.foldl bstSpec D

/-- The values returned by the calls of a history. -/
def bstReturns : List (κ × Option δ) → List (BstOp κ δ) → List Bool
  | _, [] => []
  | D, op :: ops => bstReturn D op :: bstReturns (bstSpec D op) ops

/-- The data of a key. -/
def dataOf (D : List (κ × Option δ)) (k : κ) : Option (Option δ) := (D.find? fun e => e.1 = k).map (·.2)

/-! ## Running a history -/

/-- One call. -/
def bstStep (lt : κ → κ → Bool) (fuel : Nat) (t : BTree κ δ) : BstOp κ δ → PyM (BTree κ δ × Bool)
  | .insert k d => do
    let t ← bstInsert lt fuel t k d
    .ok (t, false)
  | .delete k => bstDelete lt fuel t k

/-- The calls of a history, with the values they return. -/
def bstRun (lt : κ → κ → Bool) (fuel : Nat) : BTree κ δ → List (BstOp κ δ) → PyM (BTree κ δ × List Bool)
  | t, [] => .ok (t, [])
  | t, op :: ops => do
    let r ← bstStep lt fuel t op
    let q ← bstRun lt fuel r.1 ops
    .ok (q.1, r.2 :: q.2)

/-- `lower_bound` is the least key not below `k`, `upper_bound` the least key above `k`, and `None` if there is no such key. -/
def BoundsEntries (lt : κ → κ → Bool) (t : BTree κ δ) (D : List (κ × Option δ)) : Prop :=
  ∀ k, (∃ r, EndsWith (fun n => bstLower lt n t k) (.ok r) ∧ LeastOf lt (fun a => Has D a ∧ lt a k = false) r) ∧
    ∃ r, EndsWith (fun n => bstUpper lt n t k) (.ok r) ∧ LeastOf lt (fun a => Has D a ∧ lt k a = true) r

/-- The tree serves the entries `D`: every search answers accordingly, the in-order traversal of a non-empty tree lists
the keys in increasing order, and both bounds are right. -/
def ServesEntries (lt : κ → κ → Bool) (t : BTree κ δ) (D : List (κ × Option δ)) : Prop :=
  (∀ k, ∃ r, EndsWith (fun n => bstSearch lt n t k) (.ok r) ∧ Answers t k (dataOf D k) r) ∧
  (D ≠ [] → ∃ ns, EndsWith (fun n => treeDfs n t .ino none) (.ok ns) ∧ ListsKeys lt (dataOf D) ns) ∧
  BoundsEntries lt t D

/-- **C73**, in full: any history, starting with the empty tree. -/
def C73_full (lt : κ → κ → Bool) (δ : Type) : Prop :=
  ∀ ops : List (BstOp κ δ), ∃ t, EndsWith (fun n => bstRun lt n (btEmpty false) ops) (.ok (t, bstReturns [] ops)) ∧
    ServesEntries lt t (bstContents [] ops)

/-! ## The state -/

/-- The tree has the entries `D`. -/
def BstHas (lt : κ → κ → Bool) (t : BTree κ δ) (D : List (κ × Option δ)) : Prop :=
  ∃ E, E.Perm D ∧ (E = [] ∧ Cleared t ∨ ∃ T, Holding lt t T E)

theorem dataOf_iff {D : List (κ × Option δ)} (hn : (D.map (·.1)).Nodup) (k : κ) (d : Option δ) : dataOf D k = some d ↔ (k, d) ∈ D := by
  unfold dataOf
  induction D with
  | nil => simp
  | cons e D ih =>
    simp only [List.map_cons, List.nodup_cons] at hn
    by_cases h : e.1 = k
    · subst h
      simp only [List.find?_cons, decide_true, Option.map_some, Option.some.injEq, List.mem_cons]
      constructor
      · rintro rfl; exact .inl rfl
      · rintro (h | h)
        · rw [← h]
        · exact absurd (List.mem_map_of_mem (f := (·.1)) h) hn.1
    · rw [List.find?_cons_of_neg (by simpa using h), ih hn.2, List.mem_cons]
      constructor
      · exact .inr
      · rintro (h' | h')
        · rw [← h'] at h; exact absurd rfl h
        · exact h'

theorem Holding.nodup_keys {lt : κ → κ → Bool} (ht : StrictTotal (ltRel lt)) {t : BTree κ δ} {T : Shape} {E : List (κ × Option δ)} (h : Holding lt t T E) :
    (E.map (·.1)).Nodup := by
  have := h.sorted
  rw [List.Nodup, List.pairwise_map]
  refine this.imp ?_
  intro a b hab he
  rw [he] at hab
  exact ht.irrefl _ hab

theorem BstHas.nodup_keys {lt : κ → κ → Bool} (ht : StrictTotal (ltRel lt)) {t : BTree κ δ} {D : List (κ × Option δ)} (h : BstHas lt t D) : (D.map (·.1)).Nodup := by
  obtain ⟨E, hp, ⟨rfl, _⟩ | ⟨T, hT⟩⟩ := h
  · rw [List.nil_perm.mp hp]; simp
  · exact (hp.map (·.1)).nodup_iff.mp (hT.nodup_keys ht)

/-- The bounds of a search tree with the entries `D`. -/
theorem bounds_entries {lt : κ → κ → Bool} (ht : StrictTotal (ltRel lt)) {up : Bool} {t : BTree κ δ} {T : Shape} {D : List (κ × Option δ)}
    (hn : (D.map (·.1)).Nodup) (h : TreeAt up t T) (hs : Srt lt t.at T) (hc : Carries t T (dataOf D)) : BoundsEntries lt t D := by
  have hiff : ∀ a, (dataOf D a).isSome ↔ Has D a := fun a => by
    rw [Option.isSome_iff_exists]; unfold Has; simp only [dataOf_iff hn]
  intro k
  obtain ⟨r1, e1, h1⟩ := bound_map ht h hs hc false k
  obtain ⟨r2, e2, h2⟩ := bound_map ht h hs hc true k
  simp only [hiff, Beyond, Bool.false_eq_true, if_false, if_true] at h1 h2
  exact ⟨⟨r1, e1, h1⟩, r2, e2, h2⟩

/-- The bounds of a tree whose root holds no key. -/
theorem bounds_cleared {lt : κ → κ → Bool} {t : BTree κ δ} {n : BNode κ δ} (e : t.at t.rootIdx = some n) (hk : n.key = none) :
    BoundsEntries lt t [] := by
  have hb : ∀ k up, EndsWith (fun n => boundHelper lt t k up n (some t.rootIdx)) (.ok none) := by
    intro k up
    refine ⟨1, fun m hm => ?_⟩
    obtain ⟨f, rfl⟩ : ∃ f, m = f + 1 := ⟨m - 1, by omega⟩
    simp only [boundHelper, getNode_ok e, ok_bind, hk, if_true]
  intro k
  exact ⟨⟨none, hb k false, by rintro a ⟨⟨_, h⟩, _⟩; cases h⟩, none, hb k true, by rintro a ⟨⟨_, h⟩, _⟩; cases h⟩

theorem BstHas.serves {lt : κ → κ → Bool} (ht : StrictTotal (ltRel lt)) {t : BTree κ δ} {D : List (κ × Option δ)} (h : BstHas lt t D) : ServesEntries lt t D := by
  have hn := h.nodup_keys ht
  obtain ⟨E, hp, ⟨rfl, hc⟩ | ⟨T, hT⟩⟩ := h
  · have := List.nil_perm.mp hp
    subst this
    obtain ⟨r, er, hk, _⟩ := hc.root
    refine ⟨fun k => ⟨none, ⟨0, fun n _ => ?_⟩, rfl⟩, fun h => absurd rfl h, bounds_cleared er hk⟩
    simp only [bstSearch, bstSearchP, getNode_ok er, hk, ok_bind]; rfl
  · have hcar : Carries t T (dataOf D) := hT.carries fun k d => by rw [dataOf_iff hn, hp.mem_iff]
    exact ⟨search_map ht hT.tree hT.srt hcar, fun _ => inorder_map hT.tree.root hT.tree.linked hT.tree.nodup hT.srt hcar,
      bounds_entries ht hn hT.tree hT.srt hcar⟩

/-! ## One call -/

/-- The array copes with the call: a new key goes where the tree expects it, the array does not contract, and something is left to
delete from. -/
def Copes (t : BTree κ δ) (D : List (κ × Option δ)) : BstOp κ δ → Prop
  | .insert k _ => D = [] ∨ Has D k ∨ t.size = t.top ∧ grown t ≤ 4 * (t.num + 1)
  | .delete k => D ≠ [] ∧ (¬ Has D k ∨ D.length = 1 ∨ t.arr.length ≤ 4 * (D.length - 1))

/-- What a call does to the counters. -/
def Counts (t t' : BTree κ δ) (D : List (κ × Option δ)) : BstOp κ δ → Prop
  | .insert k _ => (D = [] ∨ Has D k → SameRest t t') ∧ (¬ (D = [] ∨ Has D k) → t'.top = t.top + 1 ∧ t'.size = t.size + 1 ∧ t'.num = t.num + 1 ∧ t'.arr.length = grown t)
  | .delete _ => t'.arr.length = t.arr.length

theorem has_perm {E D : List (κ × Option δ)} (h : E.Perm D) (k : κ) : Has D k ↔ Has E k := by
  unfold Has; simp only [h.mem_iff]

theorem filter_absent {D : List (κ × Option δ)} {k : κ} (h : ¬ Has D k) : D.filter (fun e => e.1 ≠ k) = D := by
  refine List.filter_eq_self.mpr fun a ha => ?_
  simp only [ne_eq, decide_eq_true_eq]
  rintro rfl
  exact h ⟨a.2, ha⟩

/-- One call on a tree whose array copes with it. -/
theorem bstHas_step {lt : κ → κ → Bool} (ht : StrictTotal (ltRel lt)) {t : BTree κ δ} {D : List (κ × Option δ)} (h : BstHas lt t D) (op : BstOp κ δ)
    (hc : Copes t D op) : ∃ t', BstHas lt t' (bstSpec D op) ∧ Counts t t' D op ∧
      ∃ n0, ∀ fuel, n0 ≤ fuel → bstStep lt fuel t op = .ok (t', bstReturn D op) := by
  obtain ⟨E, hp, hst⟩ := h
  cases op with
  | insert k d =>
    rcases hst with ⟨rfl, hcl⟩ | ⟨T, hT⟩
    · have := List.nil_perm.mp hp
      subst this
      obtain ⟨t', T', h1, h2, h3⟩ := bstInsert_cleared (lt := lt) hcl k d
      exact ⟨t', ⟨[(k, d)], by simp [bstSpec], .inr ⟨T', h1⟩⟩, ⟨fun _ => h2, fun h => absurd (.inl rfl) h⟩, 0, fun fuel _ => by simp only [bstStep, h3, ok_bind]; rfl⟩
    · have hne : D ≠ [] := by
        rintro rfl
        have := hp.length_eq
        have h2 := hT.ent.length
        have h3 := Shape.root_mem hT.tree.root
        have h4 := List.length_pos_of_mem h3
        simp at this; rw [this] at h2; simp at h2; omega
      by_cases hk : Has D k
      · obtain ⟨d0, hd0⟩ := (has_perm hp k).mp hk
        obtain ⟨t', E', h1, h2, h3, n0, h4⟩ := bstInsert_present ht hT hd0 d
        exact ⟨t', ⟨E', h2.trans ((hp.filter _).cons _), .inr ⟨T, h1⟩⟩, ⟨fun _ => h3, fun h => absurd (.inr hk) h⟩, n0, fun fuel hf => by simp only [bstStep, h4 fuel hf, ok_bind]; rfl⟩
      · obtain ⟨h5, h6⟩ := (hc.resolve_left hne).resolve_left hk
        have hk' : ∀ d, (k, d) ∉ E := fun d hd => hk ((has_perm hp k).mpr ⟨d, hd⟩)
        obtain ⟨t', T', E', h1, h2, c1, c2, c3, c4, n0, h4⟩ := bstInsert_absent ht hT hk' d h5 h6
        refine ⟨t', ⟨E', ?_, .inr ⟨T', h1⟩⟩, ?_, n0, fun fuel hf => by simp only [bstStep, h4 fuel hf, ok_bind]; rfl⟩
        · simp only [bstSpec, filter_absent hk]
          exact h2.trans (hp.cons _)
        · exact ⟨fun h => absurd (h.resolve_left hne) hk, fun _ => ⟨c1, c2, c3, c4⟩⟩
  | delete k =>
    rcases hst with ⟨rfl, hcl⟩ | ⟨T, hT⟩
    · exact absurd (List.nil_perm.mp hp) hc.1
    by_cases hk : Has D k
    · obtain ⟨d0, hd0⟩ := (has_perm hp k).mp hk
      have h4 := hc.2.resolve_left (fun h => h hk)
      rw [← hp.length_eq] at h4
      obtain ⟨t', hor, n0, hrun⟩ := bstDelete_present ht hT hd0 h4
      have hret : bstReturn D (.delete k) = true := has_iff.mpr hk
      rcases hor with ⟨h1, hcl, hs⟩ | ⟨_, T', x, h1, h2⟩
      · refine ⟨t', ⟨[], ?_, .inl ⟨rfl, hcl⟩⟩, hs.len, n0, fun fuel hf => by rw [hret]; exact hrun fuel hf⟩
        refine List.Perm.trans ?_ (hp.filter _)
        match E, h1, hd0 with
        | [e], _, hd0 =>
          simp only [List.mem_singleton] at hd0
          subst hd0
          simp
      · exact ⟨t', ⟨_, hp.filter _, .inr ⟨T', h1⟩⟩, h2.len, n0, fun fuel hf => by rw [hret]; exact hrun fuel hf⟩
    · have hk' : ∀ d, (k, d) ∉ E := fun d hd => hk ((has_perm hp k).mpr ⟨d, hd⟩)
      obtain ⟨n0, hrun⟩ := bstDelete_absent ht hT hk'
      have hret : bstReturn D (.delete k) = false := by
        have := mt (has_iff (D := D) (k := k)).mp hk
        exact Bool.eq_false_iff.mpr this
      refine ⟨t, ⟨E, ?_, .inr ⟨T, hT⟩⟩, rfl, n0, fun fuel hf => by rw [hret]; exact hrun fuel hf⟩
      simp only [bstSpec, filter_absent hk]; exact hp

/-! ## Histories -/

/-- The array copes with every call of the history. -/
def CopesAll (lt : κ → κ → Bool) (fuel : Nat) : BTree κ δ → List (κ × Option δ) → List (BstOp κ δ) → Prop
  | _, _, [] => True
  | t, D, op :: ops => Copes t D op ∧ ∀ r, bstStep lt fuel t op = .ok r → CopesAll lt fuel r.1 (bstSpec D op) ops

theorem bstHas_run {lt : κ → κ → Bool} (ht : StrictTotal (ltRel lt)) : ∀ (ops : List (BstOp κ δ)) (t : BTree κ δ) (D : List (κ × Option δ)),
    BstHas lt t D → (∃ n0, ∀ fuel, n0 ≤ fuel → CopesAll lt fuel t D ops) →
    ∃ t', BstHas lt t' (bstContents D ops) ∧ EndsWith (fun n => bstRun lt n t ops) (.ok (t', bstReturns D ops)) := by
  intro ops
  induction ops with
  | nil => intro t D h _; exact ⟨t, h, 0, fun _ _ => rfl⟩
  | cons op ops ih =>
    rintro t D h ⟨n0, hc⟩
    obtain ⟨t1, h1, _, n1, r1⟩ := bstHas_step ht h op (hc n0 (Nat.le_refl _)).1
    obtain ⟨t2, h2, n2, r2⟩ := ih t1 _ h1 ⟨max n0 n1, fun fuel hf => (hc fuel (by omega)).2 _ (r1 fuel (by omega))⟩
    refine ⟨t2, h2, max n1 n2, fun fuel hf => ?_⟩
    have e1 := r1 fuel (by omega)
    have e2 := r2 fuel (by omega)
    simp only at e2
    simp only [bstRun, e1, e2, ok_bind, bstReturns]

theorem BstHas.empty (lt : κ → κ → Bool) : BstHas lt (btEmpty false : BTree κ δ) [] := ⟨[], .refl _, .inl ⟨rfl, Cleared.empty⟩⟩

/-- **C73** for the histories the array copes with: no call is a `delete` on an empty tree, no deletion makes the array contract, and a new
key is inserted only while `size` is the position at which the array appends. Missing: the other histories, for which the
claim is false (`C73_full_false`). -/
theorem C73_copes_partial {lt : κ → κ → Bool} (ht : StrictTotal (ltRel lt)) (ops : List (BstOp κ δ))
    (hc : ∃ n0, ∀ fuel, n0 ≤ fuel → CopesAll lt fuel (btEmpty false) [] ops) :
    ∃ t, EndsWith (fun n => bstRun lt n (btEmpty false) ops) (.ok (t, bstReturns [] ops)) ∧ ServesEntries lt t (bstContents [] ops) := by
  obtain ⟨t, h, hr⟩ := bstHas_run ht ops _ [] (BstHas.empty lt) hc
  exact ⟨t, hr, h.serves ht⟩

/-! ### Insertions followed by deletions -/

/-- The counters after insertions only, with `n` keys. -/
def FullOf (t : BTree κ δ) (n : Nat) : Prop := t.size = t.top ∧ t.num = t.top ∧ t.top = max n 1 ∧ t.arr.length + 1 ≤ 2 * t.top ∧ t.top ≤ t.arr.length

theorem bstRun_append (lt : κ → κ → Bool) (fuel : Nat) : ∀ (a b : List (BstOp κ δ)) (t : BTree κ δ),
    bstRun lt fuel t (a ++ b) = (do let r ← bstRun lt fuel t a; let q ← bstRun lt fuel r.1 b; .ok (q.1, r.2 ++ q.2)) := by
  intro a
  induction a with
  | nil => intro b t; cases h : bstRun lt fuel t b with
    | error e => simp [bstRun, h]
    | ok q => simp [bstRun, h]
  | cons op a ih =>
    intro b t
    simp only [List.cons_append, bstRun]
    cases h : bstStep lt fuel t op with
    | error e => rfl
    | ok r =>
      simp only [ok_bind, ih]
      cases h2 : bstRun lt fuel r.1 a with
      | error e => rfl
      | ok q =>
        simp only [ok_bind]
        cases h3 : bstRun lt fuel q.1 b with
        | error e => rfl
        | ok q' => rfl

theorem bstReturns_append : ∀ (a b : List (BstOp κ δ)) (D : List (κ × Option δ)),
    bstReturns D (a ++ b) = bstReturns D a ++ bstReturns (bstContents D a) b := by
  intro a
  induction a with
  | nil => intro b D; rfl
  | cons op a ih => intro b D; simp only [List.cons_append, bstReturns, ih]; rfl

theorem spec_insert_length {D : List (κ × Option δ)} (hn : (D.map (·.1)).Nodup) (k : κ) (d : Option δ) :
    (bstSpec D (.insert k d)).length = if Has D k then D.length else D.length + 1 := by
  split
  · rename_i h
    obtain ⟨d0, hd⟩ := h
    obtain ⟨A, B, rfl⟩ := List.append_of_mem hd
    have hf : (A ++ (k, d0) :: B).filter (fun e => e.1 ≠ k) = A ++ B := by
      rw [List.filter_append, List.filter_cons_of_neg (by simp)]
      congr 1 <;> refine List.filter_eq_self.mpr fun a ha => ?_ <;> simp only [ne_eq, decide_eq_true_eq] <;> rintro rfl
      · have h1 : a.1 ∈ A.map (·.1) := List.mem_map_of_mem ha
        simp only [List.map_append, List.map_cons] at hn
        grind
      · have h1 : a.1 ∈ B.map (·.1) := List.mem_map_of_mem ha
        simp only [List.map_append, List.map_cons] at hn
        grind
    simp only [bstSpec, hf, List.length_cons, List.length_append]; omega
  · rename_i h
    simp only [bstSpec, filter_absent h, List.length_cons]

theorem full_insert {t t' : BTree κ δ} {D : List (κ × Option δ)} (hn : (D.map (·.1)).Nodup) (k : κ) (d : Option δ) (h : FullOf t D.length) (hc : Counts t t' D (.insert k d)) :
    FullOf t' (bstSpec D (.insert k d)).length := by
  obtain ⟨h1, h2, h3, h4, h5⟩ := h
  rw [spec_insert_length hn]
  unfold Counts at hc
  by_cases he : D = []
  · subst he
    have hc := hc.1 (.inl rfl)
    have hno : ¬ Has ([] : List (κ × Option δ)) k := by rintro ⟨_, h⟩; cases h
    simp only [hno, if_false]
    exact ⟨by rw [hc.size, hc.top, h1], by rw [hc.num, hc.top, h2], by rw [hc.top, h3]; simp, by rw [hc.len, hc.top]; exact h4, by rw [hc.len, hc.top]; exact h5⟩
  · have hpos : 0 < D.length := List.length_pos_iff.mpr he
    by_cases hk : Has D k
    · have hc := hc.1 (.inr hk)
      simp only [hk, if_true]
      exact ⟨by rw [hc.size, hc.top, h1], by rw [hc.num, hc.top, h2], by rw [hc.top, h3], by rw [hc.len, hc.top]; exact h4, by rw [hc.len, hc.top]; exact h5⟩
    · have hc := hc.2 (by rintro (h | h); exact he h; exact hk h)
      simp only [hk, if_false]
      obtain ⟨c1, c2, c3, c4⟩ := hc
      refine ⟨by omega, by omega, by omega, ?_, ?_⟩ <;> rw [c4, c1] <;> unfold grown <;> split <;> omega

/-- The calls that insert the given keys with their data. -/
def insertsOf (ins : List (κ × Option δ)) : List (BstOp κ δ) := ins.map fun e => .insert e.1 e.2

theorem bst_fill {lt : κ → κ → Bool} (ht : StrictTotal (ltRel lt)) : ∀ (ins : List (κ × Option δ)) (t : BTree κ δ) (D : List (κ × Option δ)),
    BstHas lt t D → FullOf t D.length →
    ∃ t', BstHas lt t' (bstContents D (insertsOf ins)) ∧ FullOf t' (bstContents D (insertsOf ins)).length ∧
      EndsWith (fun n => bstRun lt n t (insertsOf ins)) (.ok (t', bstReturns D (insertsOf ins))) := by
  intro ins
  induction ins with
  | nil => intro t D h hf; exact ⟨t, h, hf, 0, fun _ _ => rfl⟩
  | cons e ins ih =>
    intro t D h hf
    obtain ⟨t1, h1, c1, n1, r1⟩ := bstHas_step ht h (.insert e.1 e.2) (by
      obtain ⟨f1, f2, f3, f4, f5⟩ := hf
      refine .inr (.inr ⟨f1, ?_⟩)
      unfold grown; split <;> omega)
    obtain ⟨t2, h2, f2, n2, r2⟩ := ih t1 _ h1 (full_insert (h.nodup_keys ht) e.1 e.2 hf c1)
    refine ⟨t2, h2, f2, max n1 n2, fun fuel hfu => ?_⟩
    have e1 := r1 fuel (by omega)
    have e2 := r2 fuel (by omega)
    simp only at e2
    simp only [insertsOf, List.map_cons, bstRun, e1, ok_bind, bstReturns] at e2 ⊢
    rw [e2]; rfl

/-- Deletions, and insertions of keys that are present, as long as at least half of the `n` keys remain. -/
def Gentle (n : Nat) : List (κ × Option δ) → List (BstOp κ δ) → Prop
  | _, [] => True
  | D, .insert k d :: ops => Has D k ∧ Gentle n (bstSpec D (.insert k d)) ops
  | D, .delete k :: ops => D ≠ [] ∧ n ≤ 2 * (bstSpec D (.delete k)).length ∧ Gentle n (bstSpec D (.delete k)) ops

theorem spec_delete_length {D : List (κ × Option δ)} (hn : (D.map (·.1)).Nodup) {k : κ} (h : Has D k) : (bstSpec D (.delete k)).length + 1 = D.length := by
  have := spec_insert_length hn k none
  rw [if_pos h] at this
  simpa [bstSpec] using this

theorem bst_thin {lt : κ → κ → Bool} (ht : StrictTotal (ltRel lt)) {n : Nat} : ∀ (ops : List (BstOp κ δ)) (t : BTree κ δ) (D : List (κ × Option δ)),
    BstHas lt t D → t.arr.length + 1 ≤ 2 * max n 1 → Gentle n D ops →
    ∃ t', BstHas lt t' (bstContents D ops) ∧ EndsWith (fun n => bstRun lt n t ops) (.ok (t', bstReturns D ops)) := by
  intro ops
  induction ops with
  | nil => intro t D h _ _; exact ⟨t, h, 0, fun _ _ => rfl⟩
  | cons op ops ih =>
    intro t D h hlen hg
    have hn := h.nodup_keys ht
    have key : Copes t D op ∧ (∀ t', Counts t t' D op → t'.arr.length = t.arr.length) ∧ Gentle n (bstSpec D op) ops := by
      cases op with
      | insert k d =>
        obtain ⟨g1, g2⟩ := hg
        refine ⟨.inr (.inl g1), fun t' hc => ?_, g2⟩
        exact (hc.1 (.inr g1)).len
      | delete k =>
        obtain ⟨g1, g2, g3⟩ := hg
        refine ⟨⟨g1, ?_⟩, fun t' hc => hc, g3⟩
        by_cases hk : Has D k
        · have := spec_delete_length hn hk
          by_cases h1 : D.length = 1
          · exact .inr (.inl h1)
          · have hpos : 0 < D.length := List.length_pos_iff.mpr g1
            exact .inr (.inr (by omega))
        · exact .inl hk
    obtain ⟨hc, hl, hg'⟩ := key
    obtain ⟨t1, h1, c1, n1, r1⟩ := bstHas_step ht h op hc
    obtain ⟨t2, h2, n2, r2⟩ := ih t1 _ h1 (by rw [hl t1 c1]; exact hlen) hg'
    refine ⟨t2, h2, max n1 n2, fun fuel hf => ?_⟩
    have e1 := r1 fuel (by omega)
    have e2 := r2 fuel (by omega)
    simp only at e2
    simp only [bstRun, e1, e2, ok_bind, bstReturns]

theorem fullOf_empty : FullOf (btEmpty false : BTree κ δ) 0 := by
  refine ⟨rfl, rfl, rfl, ?_, ?_⟩ <;> simp [btEmpty]

/-- **C73** for keys that are first all inserted (in any order, also repeatedly) and then deleted or given new data, as long as at
least half of them remain: every `delete` returns whether the key was there, and afterwards every search and the
in-order traversal answer as the entries demand. Missing: see `C73_full_false`. -/
theorem C73_fill_and_thin_partial {lt : κ → κ → Bool} (ht : StrictTotal (ltRel lt)) (ins : List (κ × Option δ)) (ops : List (BstOp κ δ))
    (hg : Gentle (bstContents [] (insertsOf ins)).length (bstContents [] (insertsOf ins)) ops) :
    ∃ t, EndsWith (fun n => bstRun lt n (btEmpty false) (insertsOf ins ++ ops)) (.ok (t, bstReturns [] (insertsOf ins ++ ops))) ∧
      ServesEntries lt t (bstContents [] (insertsOf ins ++ ops)) := by
  obtain ⟨t1, h1, f1, n1, r1⟩ := bst_fill ht ins (btEmpty false) [] (BstHas.empty lt) fullOf_empty
  obtain ⟨g1, g2, g3, g4, g5⟩ := f1
  obtain ⟨t2, h2, n2, r2⟩ := bst_thin ht (n := (bstContents [] (insertsOf ins)).length) ops t1 _ h1 (by omega) hg
  refine ⟨t2, ⟨max n1 n2, fun n hn => ?_⟩, ?_⟩
  · have e1 := r1 n (by omega)
    have e2 := r2 n (by omega)
    simp only at e1 e2 ⊢
    rw [bstRun_append, e1, bstReturns_append]
    simp only [ok_bind, e2]
  · unfold bstContents at h2 ⊢
    rw [List.foldl_append]
    exact h2.serves ht

/-- Such a history: six keys are inserted, three of them are deleted (a root with two children, an inner node with one child, a leaf),
an absent key is deleted, and a key gets new data. -/
example : Gentle 6 (bstContents [] (insertsOf [(50, some "a"), (30, none), (70, some "b"), (60, none), (20, some "c"), (80, none), (30, some "d")]))
    [.delete 50, .delete 99, .delete 30, .insert 70 none, .delete 80] := by
  refine ⟨by decide, by decide, ⟨by decide, by decide, ⟨by decide, by decide, ⟨⟨some "b", by decide⟩, ⟨by decide, by decide, trivial⟩⟩⟩⟩⟩

/-- A history the array copes with although a new key is inserted after a deletion, and although the last key is deleted. -/
example : ∃ n0, ∀ fuel, n0 ≤ fuel → CopesAll (fun a b : Nat => decide (a < b)) fuel (btEmpty false : BTree Nat String) []
    [.insert 5 none, .insert 7 none, .delete 5, .insert 7 (some "x"), .delete 7, .insert 3 none] := by
  refine ⟨20, fun fuel hf => ?_⟩
  obtain ⟨m, rfl⟩ : ∃ m, fuel = m + 20 := ⟨fuel - 20, by omega⟩
  refine ⟨.inl rfl, fun r h => ?_⟩
  cases h
  refine ⟨.inr (.inr ⟨rfl, by decide⟩), fun r h => ?_⟩
  cases h
  refine ⟨⟨by decide, .inr (.inr (by decide))⟩, fun r h => ?_⟩
  cases h
  refine ⟨.inr (.inl ⟨none, by decide⟩), fun r h => ?_⟩
  cases h
  refine ⟨⟨by decide, .inr (.inl (by decide))⟩, fun r h => ?_⟩
  cases h
  exact ⟨.inl rfl, fun _ _ => trivial⟩

/-! ## The claim fails in general -/

/-- `delete` on an empty tree raises. -/
theorem C73_delete_on_empty : EndsWith (fun n => bstDelete (fun a b : Nat => decide (a < b)) n (btEmpty false : BTree Nat String) 1) (.error .typeError) :=
  ⟨0, fun _ _ => rfl⟩

/-- Inserting two keys, deleting the second and inserting another loses the new key: the next search raises. -/
theorem C73_insert_after_delete : EndsWith (fun n => do
    let r ← bstRun (fun a b : Nat => decide (a < b)) n (btEmpty false : BTree Nat String) [.insert 1 none, .insert 2 none, .delete 2, .insert 3 none]
    bstSearch (fun a b : Nat => decide (a < b)) n r.1 3) (.error .attributeError) := by
  refine ⟨20, fun n hn => ?_⟩
  obtain ⟨m, rfl⟩ : ∃ m, n = m + 20 := ⟨n - 20, by omega⟩
  rfl

/-- Eight keys in increasing order, then the five smallest deleted: at the fifth deletion the array contracts and meets a parent link that
the earlier deletions of the root have left pointing at a freed position. -/
theorem C73_contraction : EndsWith (fun n => bstRun (fun a b : Nat => decide (a < b)) n (btEmpty false : BTree Nat String)
    ((List.range 8).map (fun i => .insert i none) ++ (List.range 5).map .delete)) (.error .attributeError) := by
  refine ⟨40, fun n hn => ?_⟩
  obtain ⟨m, rfl⟩ : ∃ m, n = m + 40 := ⟨n - 40, by omega⟩
  rfl

theorem C73_full_false : ¬ C73_full (fun a b : Nat => decide (a < b)) String := by
  intro h
  obtain ⟨t, ⟨n0, hr⟩, hs⟩ := h [.insert 1 none, .insert 2 none, .delete 2, .insert 3 none]
  obtain ⟨r, ⟨n1, hr1⟩, _⟩ := hs.1 3
  obtain ⟨n2, h2⟩ := C73_insert_after_delete
  have e0 := hr (max n0 (max n1 n2)) (by omega)
  have e1 := hr1 (max n0 (max n1 n2)) (by omega)
  have e2 := h2 (max n0 (max n1 n2)) (by omega)
  simp only at e0 e1 e2
  rw [e0] at e2
  simp only [ok_bind] at e2
  rw [e1] at e2
  cases e2

end Props
