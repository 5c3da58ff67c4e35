import Verif.Props.Traversal

/-!
# C72, C75: binary search trees built by insertions
-/
namespace Props
open Py Model Spec
set_option linter.unusedSectionVars false
variable {κ δ : Type} [DecidableEq κ]

/-- A history of `insert(key, data)` calls. -/
def bstInserts (lt : κ → κ → Bool) (fuel : Nat) (t : BTree κ δ) (ops : List (κ × Option δ)) : PyM (BTree κ δ) :=
  ops.foldlM (fun t op => bstInsert lt fuel t op.1 op.2) t

/-- The data of the last insertion of `k`; `none` if `k` has not been inserted. -/
def lastData : List (κ × Option δ) → κ → Option (Option δ)
  | [], _ => none
  | op :: ops, k => (lastData ops k).or (if op.1 = k then some op.2 else none)

theorem lastData_append (a b : List (κ × Option δ)) (k : κ) : lastData (a ++ b) k = (lastData b k).or (lastData a k) := by
  induction a with
  | nil => simp [lastData]
  | cons op a ih => simp [lastData, ih, Option.or_assoc]

/-- The contents of the tree are those of a finite map. -/
def Carries (t : BTree κ δ) (T : Shape) (m : κ → Option (Option δ)) : Prop :=
  ∀ k d, m k = some d ↔ ∃ i ∈ T.ids, ∃ n, t.at i = some n ∧ n.key = some k ∧ n.data = d

/-- The state after a history of insertions: the empty tree, or a search tree with the contents `m`. -/
inductive BstState (lt : κ → κ → Bool) (os : Bool) (t : BTree κ δ) (m : κ → Option (Option δ)) : Prop where
  | empty (h : t = btEmpty os) (hm : ∀ k, m k = none)
  | tree (T : Shape) (ok : BstOk lt t T) (car : Carries t T m) (hos : t.orderStat = os) (sized : os = true → Sized t.at T)
      (root0 : t.rootIdx = 0)

theorem Replaced.sameLinks {t t' : BTree κ δ} {i : Nat} {d : Option δ} (h : Replaced t t' i d) (j : Nat) : linksOf t'.at j = linksOf t.at j := by
  simp only [linksOf, h.cells, mapAt]
  split
  · simp only [Option.map_map]; congr 1
  · rfl

theorem Replaced.sameKey {t t' : BTree κ δ} {i : Nat} {d : Option δ} (h : Replaced t t' i d) (j : Nat) : keyOf t'.at j = keyOf t.at j := by
  simp only [keyOf, h.cells, mapAt]
  split
  · cases t.at j <;> rfl
  · rfl

theorem Replaced.bstOk {lt : κ → κ → Bool} {t t' : BTree κ δ} {T : Shape} {i : Nat} {d : Option δ} (h : BstOk lt t T) (hr : Replaced t t' i d) :
    BstOk lt t' T := by
  refine ⟨⟨by rw [hr.rootIdx]; exact h.tree.root, linked_congr (fun j _ => hr.sameLinks j) h.tree.linked, h.tree.nodup⟩,
    srt_congr (fun j _ => hr.sameKey j) h.srt, ?_, ?_, ?_, ?_, ?_, ?_⟩
  · intro j hj
    rw [hr.rest.top]
    apply h.low
    rw [hr.cells] at hj
    simp only [mapAt] at hj
    split at hj
    · simpa using hj
    · exact hj
  · rw [hr.rest.size, hr.rest.top]; exact h.size_top
  · rw [hr.rest.num, hr.rest.top]; exact h.num_top
  · rw [hr.rest.top]; exact h.count
  · rw [hr.rest.top, hr.rest.len]; exact h.cap
  · rw [hr.rest.top, hr.rest.len]; exact h.dense

/-- Distinct positions of a search tree hold distinct keys. -/
theorem Srt.inj {lt : κ → κ → Bool} (ht : StrictTotal (ltRel lt)) {h : Cells κ δ} {T : Shape} (hs : Srt lt h T) {i j : Nat} (hi : i ∈ T.ids)
    (hj : j ∈ T.ids) {k : κ} (ei : keyOf h i = some k) (ej : keyOf h j = some k) : i = j := by
  have key : ∀ L : List Nat, L.Pairwise (KLt lt h) → i ∈ L → j ∈ L → i = j := by
    intro L
    induction L with
    | nil => intro _ h; simp at h
    | cons a L ih =>
      intro hp h1 h2
      rw [List.pairwise_cons] at hp
      simp only [List.mem_cons] at h1 h2
      rcases h1 with rfl | h1 <;> rcases h2 with rfl | h2
      · rfl
      · obtain ⟨x, y, hx, hy, hxy⟩ := hp.1 j h2
        rw [ei] at hx; rw [ej] at hy; cases hx; cases hy
        exact absurd hxy (ht.irrefl _)
      · obtain ⟨x, y, hx, hy, hxy⟩ := hp.1 i h1
        rw [ej] at hx; rw [ei] at hy; cases hx; cases hy
        exact absurd hxy (ht.irrefl _)
      · exact ih hp.2 h1 h2
  exact key T.ids hs.1 hi hj

theorem Replaced.carries {lt : κ → κ → Bool} (ht : StrictTotal (ltRel lt)) {t t' : BTree κ δ} {T : Shape} {i : Nat} {d : Option δ} {m : κ → Option (Option δ)} {k : κ}
    (h : BstOk lt t T) (hr : Replaced t t' i d) (hi : i ∈ T.ids) (hk : keyOf t.at i = some k) (hc : Carries t T m) :
    Carries t' T (fun k' => if k' = k then some d else m k') := by
  intro k' d'
  dsimp only
  have hcell : ∀ j, t'.at j = if j = i then (t.at j).map (fun n => { n with data := d }) else t.at j := by
    intro j; rw [hr.cells]; rfl
  obtain ⟨ni, eni⟩ := Option.isSome_iff_exists.mp (linked_isSome h.tree.linked i hi)
  have hnk : ni.key = some k := by simpa [keyOf, eni] using hk
  by_cases hkk : k' = k
  · subst hkk
    rw [if_pos rfl]
    constructor
    · intro e; cases e
      exact ⟨i, hi, { ni with data := d }, by rw [hcell]; simp [eni], hnk, rfl⟩
    · rintro ⟨j, hj, n, en, hnk', hnd⟩
      have hji : j = i := by
        refine h.srt.inj ht hj hi ?_ hk
        rw [← hr.sameKey j]; simp [keyOf, en, hnk']
      subst hji
      rw [hcell] at en
      simp [eni] at en
      rw [← hnd, ← en]
  · rw [if_neg hkk, hc k' d']
    constructor
    · rintro ⟨j, hj, n, en, hnk', hnd⟩
      have hji : j ≠ i := by rintro rfl; rw [eni] at en; cases en; rw [hnk] at hnk'; cases hnk'; exact hkk rfl
      exact ⟨j, hj, n, by rw [hcell, if_neg hji, en], hnk', hnd⟩
    · rintro ⟨j, hj, n, en, hnk', hnd⟩
      have hji : j ≠ i := by
        rintro rfl
        rw [hcell] at en
        simp [eni] at en
        rw [← en] at hnk'
        rw [hnk] at hnk'; cases hnk'; exact hkk rfl
      rw [hcell, if_neg hji] at en
      exact ⟨j, hj, n, en, hnk', hnd⟩

theorem Inserted.carries {lt : κ → κ → Bool} {t t' : BTree κ δ} {f : Frame} {c : Around} {d : Option δ} {m : κ → Option (Option δ)} {k : κ}
    (h : BstOk lt t (Around.plug (f :: c) .leaf)) (hi : Inserted lt t t' f c k d)
    (habs : ∀ i ∈ (Around.plug (f :: c) .leaf).ids, keyOf t.at i ≠ some k) (hc : Carries t (Around.plug (f :: c) .leaf) m) :
    Carries t' (Around.plug (f :: c) (.node .leaf t.top .leaf)) (fun k' => if k' = k then some d else m k') := by
  intro k' d'
  dsimp only
  obtain ⟨s, hs⟩ := hi.new
  have hold : ∀ i ∈ (Around.plug (f :: c) .leaf).ids, ∀ n', t'.at i = some n' → ∃ n, t.at i = some n ∧ n.key = n'.key ∧ n.data = n'.data := by
    intro i hm n' e'
    have := hi.old i (Nat.ne_of_lt (h.lt_top i hm))
    rw [e'] at this
    cases e : t.at i with
    | none => rw [e] at this; simp at this
    | some n =>
      rw [e] at this
      simp only [Option.map_some, Option.some.injEq, BNode.core, BNode.mk.injEq] at this
      exact ⟨n, rfl, this.1.symm, this.2.1.symm⟩
  have hold' : ∀ i ∈ (Around.plug (f :: c) .leaf).ids, ∀ n, t.at i = some n → ∃ n', t'.at i = some n' ∧ n'.key = n.key ∧ n'.data = n.data := by
    intro i hm n e
    have := hi.old i (Nat.ne_of_lt (h.lt_top i hm))
    rw [e] at this
    cases e' : t'.at i with
    | none => rw [e'] at this; simp at this
    | some n' =>
      rw [e'] at this
      simp only [Option.map_some, Option.some.injEq, BNode.core, BNode.mk.injEq] at this
      exact ⟨n', rfl, this.1, this.2.1⟩
  have hmem : ∀ i, i ∈ (Around.plug (f :: c) (.node .leaf t.top .leaf)).ids ↔ i = t.top ∨ i ∈ (Around.plug (f :: c) .leaf).ids := by
    intro i
    rw [Around.ids_plug, Around.ids_plug]
    simp only [Shape.ids, List.append_nil, List.nil_append, List.mem_append, List.mem_singleton]
    constructor
    · rintro ((h | h) | h) <;> simp [h]
    · rintro (h | h | h) <;> simp [h]
  by_cases hkk : k' = k
  · subst hkk
    rw [if_pos rfl]
    constructor
    · intro e; cases e
      exact ⟨t.top, (hmem _).mpr (.inl rfl), _, hs, rfl, rfl⟩
    · rintro ⟨j, hj, n, en, hnk', hnd⟩
      rcases (hmem j).mp hj with rfl | hj
      · rw [hs] at en; cases en; rw [← hnd]
      · obtain ⟨n0, e0, k0, _⟩ := hold j hj n en
        exact absurd (by simp [keyOf, e0, k0, hnk']) (habs j hj)
  · rw [if_neg hkk, hc k' d']
    constructor
    · rintro ⟨j, hj, n, en, hnk', hnd⟩
      obtain ⟨n', e', k1, d1⟩ := hold' j hj n en
      exact ⟨j, (hmem j).mpr (.inr hj), n', e', by rw [k1, hnk'], by rw [d1, hnd]⟩
    · rintro ⟨j, hj, n, en, hnk', hnd⟩
      rcases (hmem j).mp hj with rfl | hj
      · rw [hs] at en; cases en; cases hnk'; exact absurd rfl hkk
      · obtain ⟨n0, e0, k0, d0⟩ := hold j hj n en
        exact ⟨j, hj, n0, e0, by rw [k0, hnk'], by rw [d0, hnd]⟩

/-- The tree after the first insertion into the empty tree. -/
def btFirst (os : Bool) (k : κ) (d : Option δ) : BTree κ δ :=
  ⟨[some { key := some k, data := d, isRoot := true }], 1, 1, 0, 1, os⟩

theorem btFirst_at (os : Bool) (k : κ) (d : Option δ) (i : Nat) :
    (btFirst os k d).at i = if i = 0 then some { key := some k, data := d, isRoot := true } else none := by
  cases i with
  | zero => rfl
  | succ i => simp [btFirst, BTree.at]

theorem btFirst_ok (lt : κ → κ → Bool) (os : Bool) (k : κ) (d : Option δ) : BstOk lt (btFirst os k d) (.node .leaf 0 .leaf) := by
  have h0 : (btFirst os k d).at 0 = some { key := some k, data := d, isRoot := true } := rfl
  refine ⟨⟨rfl, ⟨⟨_, h0, rfl, rfl, fun _ => rfl⟩, trivial, trivial⟩, by simp [Shape.ids]⟩, ⟨by simp [Shape.ids], ?_⟩, ?_, rfl, rfl, rfl,
    by simp [btFirst], by simp [btFirst]⟩
  · intro i hi
    simp [Shape.ids] at hi; subst hi
    simp [keyOf, h0]
  · intro i hi
    rw [btFirst_at] at hi
    split at hi
    · subst i; simp [btFirst]
    · simp at hi

theorem bstInsert_first {lt : κ → κ → Bool} {fuel : Nat} (os : Bool) (k : κ) (d : Option δ) :
    bstInsert lt fuel (btEmpty os) k d = .ok (btFirst os k d) := rfl

theorem btRooted_eq (os : Bool) (k : κ) (d : δ) : btRooted os k d = btFirst os k (some d) := rfl

theorem bstState_insert {lt : κ → κ → Bool} (ht : StrictTotal (ltRel lt)) {os : Bool} {t : BTree κ δ} {m : κ → Option (Option δ)}
    (h : BstState lt os t m) (k : κ) (d : Option δ) :
    ∃ t', BstState lt os t' (fun k' => if k' = k then some d else m k') ∧ ∃ n0, ∀ fuel, n0 ≤ fuel → bstInsert lt fuel t k d = .ok t' := by
  cases h with
  | empty h hm =>
    subst h
    refine ⟨btFirst os k d, .tree (.node .leaf 0 .leaf) (btFirst_ok lt os k d) ?_ rfl ?_ rfl, 0, fun fuel _ => bstInsert_first os k d⟩
    · intro k' d'
      dsimp only
      simp only [hm, Shape.ids, List.nil_append, List.mem_singleton, exists_eq_left, btFirst_at, if_true, Option.some.injEq, exists_eq_left']
      by_cases hk : k' = k
      · subst hk; simp
      · simp only [if_neg hk, reduceCtorEq, false_iff]
        rintro ⟨e, _⟩; exact hk e.symm
    · intro _
      exact ⟨⟨_, rfl, rfl⟩, trivial, trivial⟩
  | tree T ok car hos sized root0 =>
    rcases bstInsert_spec ht ok k d with ⟨i, t', hi, hk, hr, hrun⟩ | ⟨f, c, t', rfl, habs, hI, hrun⟩
    · refine ⟨t', .tree T (hr.bstOk ok) (hr.carries ht ok hi hk car) (by rw [hr.rest.orderStat, hos]) ?_ (by rw [hr.rootIdx, root0]), T.ids.length + 2,
        fun fuel hf => hrun fuel (by omega)⟩
      intro ho
      refine sized_congr ?_ (sized ho)
      intro j _
      simp only [hr.cells, mapAt]
      split
      · simp only [Option.map_map]; congr 1
      · rfl
    · refine ⟨t', .tree _ hI.ok (hI.carries ok habs car) (by rw [hI.orderStat, hos]) ?_ (by rw [hI.rootIdx, root0]),
        (Around.plug (f :: c) .leaf).ids.length + 2,
        fun fuel hf => hrun fuel (by omega)⟩
      intro ho
      exact hI.sized (by rw [hos, ho]) (sized ho)

theorem bstState_history {lt : κ → κ → Bool} (ht : StrictTotal (ltRel lt)) {os : Bool} : ∀ (ops : List (κ × Option δ)) (t : BTree κ δ)
    (m : κ → Option (Option δ)), BstState lt os t m →
    ∃ t', BstState lt os t' (fun k => (lastData ops k).or (m k)) ∧ ∃ n0, ∀ fuel, n0 ≤ fuel → bstInserts lt fuel t ops = .ok t' := by
  intro ops
  induction ops with
  | nil => intro t m h; exact ⟨t, by simpa [lastData] using h, 0, fun _ _ => rfl⟩
  | cons op ops ih =>
    intro t m h
    obtain ⟨t1, h1, n1, r1⟩ := bstState_insert ht h op.1 op.2
    obtain ⟨t2, h2, n2, r2⟩ := ih t1 _ h1
    refine ⟨t2, ?_, max n1 n2, ?_⟩
    · have e : (fun k => (lastData (op :: ops) k).or (m k)) = fun k => (lastData ops k).or (if k = op.1 then some op.2 else m k) := by
        funext k
        simp only [lastData, Option.or_assoc]
        congr 1
        by_cases hk : op.1 = k
        · simp [hk]
        · rw [if_neg hk, if_neg (fun e => hk e.symm), Option.none_or]
      rw [e]; exact h2
    · intro fuel hf
      have := r1 fuel (by omega)
      have h2 := r2 fuel (by omega)
      unfold bstInserts at h2 ⊢
      rw [List.foldlM_cons, this]
      exact h2

/-- The state after any history of insertions into an empty tree. -/
theorem bst_history {lt : κ → κ → Bool} (ht : StrictTotal (ltRel lt)) (os : Bool) (ops : List (κ × Option δ)) :
    ∃ t, BstState lt os t (lastData ops) ∧ EndsWith (fun n => bstInserts lt n (btEmpty os) ops) (.ok t) := by
  obtain ⟨t, h, n0, hr⟩ := bstState_history ht ops (btEmpty os) (fun _ => none) (.empty rfl (fun _ => rfl))
  exact ⟨t, by simpa using h, n0, hr⟩

/-- What `search(k)` must answer: nothing if the key is absent, otherwise a position whose node has this key and data. -/
def Answers (t : BTree κ δ) (k : κ) : Option (Option δ) → Option Nat → Prop
  | none, r => r = none
  | some d, r => ∃ i n, r = some i ∧ t.arr[i]? = some (some n) ∧ n.key = some k ∧ n.data = d

/-- What the in-order traversal must list: the keys of the map in increasing order. -/
def ListsKeys (lt : κ → κ → Bool) (m : κ → Option (Option δ)) (ns : List (BNode κ δ)) : Prop :=
  ∃ ks : List κ, ns.map (·.key) = ks.map some ∧ ks.Pairwise (fun a b => lt a b = true) ∧ ∀ k, k ∈ ks ↔ (m k).isSome

theorem search_map {lt : κ → κ → Bool} (ht : StrictTotal (ltRel lt)) {up : Bool} {t : BTree κ δ} {T : Shape} {m : κ → Option (Option δ)}
    (h : TreeAt up t T) (hs : Srt lt t.at T) (hc : Carries t T m) (k : κ) :
    ∃ r, EndsWith (fun n => bstSearch lt n t k) (.ok r) ∧ Answers t k (m k) r := by
  obtain ⟨c, S, rfl, hF, hrun⟩ := search_spec ht h hs k
  refine ⟨S.root, ⟨_, fun n hn => hrun n hn⟩, ?_⟩
  rcases hF.here with rfl | ⟨l, i, r, rfl, hk⟩
  · cases e : m k with
    | none => rfl
    | some d =>
      obtain ⟨i, hi, n, en, hnk, _⟩ := (hc k d).mp e
      exact absurd (by simp [keyOf, en, hnk]) (hF.absent ht i hi)
  · cases e : t.at i with
    | none => simp [keyOf, e] at hk
    | some n =>
      have hnk : n.key = some k := by simpa [keyOf, e] using hk
      have : m k = some n.data := (hc k n.data).mpr ⟨i, by rw [Around.ids_plug]; simp [Shape.ids], n, e, hnk, rfl⟩
      rw [this]
      exact ⟨i, n, rfl, at_some.mp e, hnk, rfl⟩

theorem Linked.weaken {h : Cells κ δ} : ∀ {T : Shape} {p : Option Nat}, Linked true h p T → Linked false h none T := by
  intro T
  have : ∀ (T : Shape) (up : Bool) (p q : Option Nat), Linked up h p T → Linked false h q T := by
    intro T
    induction T with
    | leaf => intros; trivial
    | node l i r ih1 ih2 =>
      rintro up p q ⟨⟨n, en, n1, n2, _⟩, h1, h2⟩
      exact ⟨⟨n, en, n1, n2, nofun⟩, ih1 _ _ _ h1, ih2 _ _ _ h2⟩
  exact fun {_} H => this T _ _ _ H

theorem inorder_map {lt : κ → κ → Bool} {t : BTree κ δ} {T : Shape} {m : κ → Option (Option δ)}
    (hr : T.root = some t.rootIdx) (hl : Linked false t.at none T) (hn : T.ids.Nodup) (hs : Srt lt t.at T) (hc : Carries t T m) :
    ∃ ns, EndsWith (fun n => treeDfs n t .ino none) (.ok ns) ∧ ListsKeys lt m ns := by
  obtain ⟨ns, hns, n0, hrun⟩ := C74_in_order (t := t) (i := t.rootIdx) ⟨hr, hl, hn⟩
  refine ⟨ns, ⟨n0, fun n hn => by have := hrun n hn; simpa [treeDfs] using this⟩, T.ids.filterMap (keyOf t.at), ?_, ?_, ?_⟩
  · have key : ∀ (L : List Nat) (ns : List (BNode κ δ)), (∀ i ∈ L, (keyOf t.at i).isSome) → L.map t.at = ns.map some →
        ns.map (·.key) = (L.filterMap (keyOf t.at)).map some := by
      intro L
      induction L with
      | nil => intro ns _ e; cases ns with
        | nil => rfl
        | cons a as => simp at e
      | cons i L ih =>
        intro ns hk e
        cases ns with
        | nil => simp at e
        | cons a as =>
          simp only [List.map_cons, List.cons.injEq] at e
          obtain ⟨k, ek⟩ := Option.isSome_iff_exists.mp (hk i (by simp))
          have : a.key = some k := by simpa [keyOf, e.1] using ek
          rw [List.filterMap_cons_some ek]
          simp only [List.map_cons, this]
          rw [ih as (fun j hj => hk j (by simp [hj])) e.2]
    exact key _ _ hs.2 hns
  · rw [List.pairwise_filterMap]
    refine hs.1.imp ?_
    rintro i j ⟨a, b, ha, hb, hab⟩ x hx y hy
    rw [ha] at hx; rw [hb] at hy; cases hx; cases hy; exact hab
  · intro k
    simp only [List.mem_filterMap, Option.isSome_iff_exists]
    constructor
    · rintro ⟨i, hi, hk⟩
      cases e : t.at i with
      | none => simp [keyOf, e] at hk
      | some n => exact ⟨n.data, (hc k _).mpr ⟨i, hi, n, e, by simpa [keyOf, e] using hk, rfl⟩⟩
    · rintro ⟨d, hd⟩
      obtain ⟨i, hi, n, en, hk, _⟩ := (hc k d).mp hd
      exact ⟨i, hi, by simp [keyOf, en, hk]⟩

theorem lastData_isSome (ops : List (κ × Option δ)) (k : κ) : (lastData ops k).isSome ↔ k ∈ ops.map (·.1) := by
  induction ops with
  | nil => simp [lastData]
  | cons op ops ih =>
    simp only [lastData, Option.isSome_or, Bool.or_eq_true, ih, List.map_cons, List.mem_cons]
    constructor
    · rintro (h | h)
      · exact .inr h
      · split at h
        · next e => exact .inl e.symm
        · simp at h
    · rintro (h | h)
      · right; simp [h]
      · exact .inl h

/-- After any history of insertions, `search` finds exactly the inserted keys, each with the data inserted last. -/
theorem C72_search {lt : κ → κ → Bool} (ht : StrictTotal (ltRel lt)) (os : Bool) (ops : List (κ × Option δ)) :
    ∃ t, EndsWith (fun n => bstInserts lt n (btEmpty os) ops) (.ok t) ∧
      ∀ k, ∃ r, EndsWith (fun n => bstSearch lt n t k) (.ok r) ∧ Answers t k (lastData ops k) r := by
  obtain ⟨t, hst, hrun⟩ := bst_history ht os ops
  refine ⟨t, hrun, fun k => ?_⟩
  cases hst with
  | empty h hm =>
    subst h
    exact ⟨none, ⟨0, fun n _ => rfl⟩, by rw [hm]; rfl⟩
  | tree T ok car _ _ _ => exact search_map ht ok.tree ok.srt car k

/-- After any history of insertions, the in-order traversal lists the inserted keys in strictly increasing order. -/
theorem C72_in_order {lt : κ → κ → Bool} (ht : StrictTotal (ltRel lt)) (os : Bool) (ops : List (κ × Option δ)) (hne : ops ≠ []) :
    ∃ t, EndsWith (fun n => bstInserts lt n (btEmpty os) ops) (.ok t) ∧
      ∃ ns, EndsWith (fun n => treeDfs n t .ino none) (.ok ns) ∧ ListsKeys lt (lastData ops) ns := by
  obtain ⟨t, hst, hrun⟩ := bst_history ht os ops
  refine ⟨t, hrun, ?_⟩
  cases hst with
  | empty h hm =>
    cases ops with
    | nil => exact absurd rfl hne
    | cons op ops =>
      have := (lastData_isSome (op :: ops) op.1).mpr (by simp)
      rw [hm] at this; simp at this
  | tree T ok car _ _ _ => exact inorder_map ok.tree.root ok.tree.linked.weaken ok.tree.nodup ok.srt car

/-- A concrete history with a repeated key, its search results and its in-order traversal. -/
example : (bstInserts (fun a b : Nat => decide (a < b)) 20 (btEmpty false)
      [(5, some 'a'), (2, some 'b'), (8, none), (2, some 'c')]).bind (fun t => do
        let i ← bstSearch (fun a b : Nat => decide (a < b)) 20 t 2
        let j ← bstSearch (fun a b : Nat => decide (a < b)) 20 t 7
        let n ← getNode? t i
        let l ← treeDfs 20 t .ino none
        .ok (i, j, n.data, l.map (·.key))) = .ok (some 1, none, some 'c', [some 2, some 5, some 8]) := by decide +kernel

/-! ## C75 -/

/-- `r` is the least key satisfying `P`; `none` if there is none. -/
def LeastOf (lt : κ → κ → Bool) (P : κ → Prop) : Option κ → Prop
  | none => ∀ a, ¬ P a
  | some a => P a ∧ ∀ b, P b → lt b a = false

/-- The key at a position of the tree is at least `k` (above `k` for the upper bound). -/
def Beyond (lt : κ → κ → Bool) (upper : Bool) (k a : κ) : Prop := if upper then lt k a = true else lt a k = false

theorem bound_spec {lt : κ → κ → Bool} (ht : StrictTotal (ltRel lt)) {up upper : Bool} {t : BTree κ δ} {k : κ} : ∀ (S : Shape) (p : Option Nat),
    Linked up t.at p S → Srt lt t.at S →
    ∃ r, LeastOf lt (fun a => (∃ i ∈ S.ids, keyOf t.at i = some a) ∧ Beyond lt upper k a) r ∧
      ∀ fuel > S.depth, boundHelper lt t k upper fuel S.root = .ok r := by
  have hirr : ∀ a, lt a a = false := fun a => by simpa using ht.irrefl a
  have hasym : ∀ a b, lt a b = true → lt b a = false := by
    intro a b h
    cases h' : lt b a with
    | false => rfl
    | true => exact absurd (ht.trans _ _ _ h h') (ht.irrefl _)
  intro S
  induction S with
  | leaf =>
    intro p _ _
    refine ⟨none, fun a h => by simp [Shape.ids] at h, ?_⟩
    intro fuel hf
    obtain ⟨f, rfl⟩ : ∃ f, fuel = f + 1 := ⟨fuel - 1, by omega⟩
    rfl
  | node l i r ih1 ih2 =>
    intro p hl hs
    obtain ⟨⟨n, en, n1, n2, _⟩, hl1, hl2⟩ := hl
    obtain ⟨a, ha⟩ := Option.isSome_iff_exists.mp (hs.2 i (by simp [Shape.ids]))
    have hna : n.key = some a := by simpa [keyOf, en] using ha
    obtain ⟨rl, hrl, runl⟩ := ih1 _ hl1 hs.left
    obtain ⟨rr, hrr, runr⟩ := ih2 _ hl2 hs.right
    have hp := hs.1
    simp only [Shape.ids, List.pairwise_append, List.pairwise_cons] at hp
    have hlow : ∀ j ∈ l.ids, ∀ b, keyOf t.at j = some b → lt b a = true := by
      intro j hj b hb
      obtain ⟨x, y, hx, hy, hxy⟩ := hp.2.2 j hj i (by simp)
      rw [hb] at hx; rw [ha] at hy; cases hx; cases hy; exact hxy
    have hhigh : ∀ j ∈ r.ids, ∀ b, keyOf t.at j = some b → lt a b = true := by
      intro j hj b hb
      obtain ⟨x, y, hx, hy, hxy⟩ := hp.2.1.1 j hj
      rw [ha] at hx; rw [hb] at hy; cases hx; cases hy; exact hxy
    have hkey : ∀ b, (∃ j ∈ (Shape.node l i r).ids, keyOf t.at j = some b) ↔
        (∃ j ∈ l.ids, keyOf t.at j = some b) ∨ b = a ∨ (∃ j ∈ r.ids, keyOf t.at j = some b) := by
      intro b
      simp only [Shape.ids, List.mem_append, List.mem_cons]
      constructor
      · rintro ⟨j, h | rfl | h, hb⟩
        · exact .inl ⟨j, h, hb⟩
        · rw [ha] at hb; cases hb; exact .inr (.inl rfl)
        · exact .inr (.inr ⟨j, h, hb⟩)
      · rintro (⟨j, h, hb⟩ | rfl | ⟨j, h, hb⟩)
        · exact ⟨j, .inl h, hb⟩
        · exact ⟨i, .inr (.inl rfl), ha⟩
        · exact ⟨j, .inr (.inr h), hb⟩
    -- the answer lies in the right subtree when neither the node nor its left subtree qualifies
    have goR : ¬ Beyond lt upper k a → (∀ b, lt b a = true → ¬ Beyond lt upper k b) →
        LeastOf lt (fun b => (∃ j ∈ (Shape.node l i r).ids, keyOf t.at j = some b) ∧ Beyond lt upper k b) rr := by
      intro h1 h2
      have heq : ∀ b, ((∃ j ∈ (Shape.node l i r).ids, keyOf t.at j = some b) ∧ Beyond lt upper k b) ↔
          ((∃ j ∈ r.ids, keyOf t.at j = some b) ∧ Beyond lt upper k b) := by
        intro b
        rw [hkey]
        constructor
        · rintro ⟨⟨j, hj, hb⟩ | rfl | h, hB⟩
          · exact absurd hB (h2 b (hlow j hj b hb))
          · exact absurd hB h1
          · exact ⟨h, hB⟩
        · rintro ⟨h, hB⟩; exact ⟨.inr (.inr h), hB⟩
      cases rr with
      | none => intro b hb; exact hrr b ((heq b).mp hb)
      | some x => exact ⟨(heq x).mpr hrr.1, fun b hb => hrr.2 b ((heq b).mp hb)⟩
    -- otherwise it lies in the left subtree or is the node itself
    have goL : Beyond lt upper k a →
        LeastOf lt (fun b => (∃ j ∈ (Shape.node l i r).ids, keyOf t.at j = some b) ∧ Beyond lt upper k b)
          (if rl.isSome then rl else some a) := by
      intro h1
      cases rl with
      | none =>
        simp only [Option.isSome_none, Bool.false_eq_true, if_false]
        refine ⟨⟨(hkey a).mpr (.inr (.inl rfl)), h1⟩, ?_⟩
        rintro b ⟨hb, hB⟩
        rcases (hkey b).mp hb with h | rfl | ⟨j, hj, hb⟩
        · exact absurd ⟨h, hB⟩ (hrl b)
        · exact hirr _
        · exact hasym _ _ (hhigh j hj b hb)
      | some x =>
        simp only [Option.isSome_some, if_true]
        obtain ⟨⟨⟨jx, hjx, hx⟩, hBx⟩, hmin⟩ := hrl
        refine ⟨⟨(hkey x).mpr (.inl ⟨jx, hjx, hx⟩), hBx⟩, ?_⟩
        rintro b ⟨hb, hB⟩
        have hxa := hlow jx hjx x hx
        rcases (hkey b).mp hb with h | rfl | ⟨j, hj, hb⟩
        · exact hmin b ⟨h, hB⟩
        · exact hasym _ _ hxa
        · exact hasym _ _ (ht.trans _ _ _ hxa (hhigh j hj b hb))
    have hrunL : ∀ f, f > l.depth → boundHelper lt t k upper f l.root = .ok rl := runl
    by_cases hk : a = k
    · subst hk
      cases upper with
      | true =>
        refine ⟨rr, goR (by simp [Beyond, hirr]) (fun b hb => by simp [Beyond, hasym _ _ hb]), ?_⟩
        intro fuel hf
        obtain ⟨f, rfl⟩ : ∃ f, fuel = f + 1 := ⟨fuel - 1, by omega⟩
        have := runr f (by simp only [Shape.depth] at hf; omega)
        simp only [boundHelper, Shape.root, getNode_ok en, ok_bind, hna, reduceCtorEq, if_false, if_true, n2]
        exact this
      | false =>
        refine ⟨some a, ⟨⟨⟨i, by simp [Shape.ids], ha⟩, by simp [Beyond, hirr]⟩, ?_⟩, ?_⟩
        · rintro b ⟨_, hB⟩
          simpa [Beyond] using hB
        · intro fuel hf
          obtain ⟨f, rfl⟩ : ∃ f, fuel = f + 1 := ⟨fuel - 1, by omega⟩
          simp [boundHelper, Shape.root, getNode_ok en, hna]
    · by_cases hlt : lt a k = true
      · have hnb : ∀ b, (b = a ∨ lt b a = true) → ¬ Beyond lt upper k b := by
          intro b hb hB
          have hbk : lt b k = true := by
            rcases hb with rfl | hb
            · exact hlt
            · exact ht.trans _ _ _ hb hlt
          cases upper with
          | true => simp [Beyond, hasym _ _ hbk] at hB
          | false => simp [Beyond, hbk] at hB
        refine ⟨rr, goR (hnb a (.inl rfl)) (fun b hb => hnb b (.inr hb)), ?_⟩
        intro fuel hf
        obtain ⟨f, rfl⟩ : ∃ f, fuel = f + 1 := ⟨fuel - 1, by omega⟩
        have := runr f (by simp only [Shape.depth] at hf; omega)
        simp only [boundHelper, Shape.root, getNode_ok en, ok_bind, hna, reduceCtorEq, if_false, Option.some.injEq, hk, cmpKey, hlt, if_true, n2]
        exact this
      · have hka : lt k a = true := by
          rcases ht.tri a k with h | h | h
          · exact absurd h hlt
          · exact absurd h hk
          · exact h
        refine ⟨if rl.isSome then rl else some a, goL (by cases upper <;> simp [Beyond, hka, hlt]), ?_⟩
        intro fuel hf
        obtain ⟨f, rfl⟩ : ∃ f, fuel = f + 1 := ⟨fuel - 1, by omega⟩
        have := runl f (by simp only [Shape.depth] at hf; omega)
        show boundHelper lt t k upper (f + 1) (some i) = _
        simp only [boundHelper, getNode_ok en, ok_bind, hna, reduceCtorEq, if_false, Option.some.injEq, hk, cmpKey, Bool.eq_false_iff.mpr hlt, n1,
          Bool.false_eq_true, this]

/-- `lower_bound` and `upper_bound` on any search tree. -/
theorem bound_map {lt : κ → κ → Bool} (ht : StrictTotal (ltRel lt)) {up : Bool} {t : BTree κ δ} {T : Shape} {m : κ → Option (Option δ)}
    (h : TreeAt up t T) (hs : Srt lt t.at T) (hc : Carries t T m) (upper : Bool) (k : κ) :
    ∃ r, EndsWith (fun n => boundHelper lt t k upper n (some t.rootIdx)) (.ok r) ∧
      LeastOf lt (fun a => (m a).isSome ∧ Beyond lt upper k a) r := by
  obtain ⟨r, hr, hrun⟩ := bound_spec ht (k := k) (upper := upper) T none h.linked hs
  refine ⟨r, ⟨T.depth + 1, fun n hn => by rw [← h.root]; exact hrun n hn⟩, ?_⟩
  have heq : ∀ a, (∃ i ∈ T.ids, keyOf t.at i = some a) ↔ (m a).isSome := by
    intro a
    rw [Option.isSome_iff_exists]
    constructor
    · rintro ⟨i, hi, hk⟩
      cases e : t.at i with
      | none => simp [keyOf, e] at hk
      | some n => exact ⟨n.data, (hc a _).mpr ⟨i, hi, n, e, by simpa [keyOf, e] using hk, rfl⟩⟩
    · rintro ⟨d, hd⟩
      obtain ⟨i, hi, n, en, hk, _⟩ := (hc a d).mp hd
      exact ⟨i, hi, by simp [keyOf, en, hk]⟩
  cases r with
  | none => intro a ⟨h1, h2⟩; exact hr a ⟨(heq a).mpr h1, h2⟩
  | some x => exact ⟨⟨(heq x).mp hr.1.1, hr.1.2⟩, fun b hb => hr.2 b ⟨(heq b).mpr hb.1, hb.2⟩⟩

/-! ### select and rank -/

theorem select_loop {lt : κ → κ → Bool} (ht : StrictTotal (ltRel lt)) {up : Bool} {t : BTree κ δ} : ∀ (S : Shape) (p : Option Nat) (j : Nat),
    Linked up t.at p S → Srt lt t.at S → Sized t.at S → j < S.ids.length →
    ∃ w i n, S.ids[j]? = some i ∧ t.at i = some n ∧ ∀ fuel > S.depth + 1,
      ∃ e, whileLoop fuel selectCond (selectBody lt t) ⟨S.root, (j : Int), none⟩ = .ok ⟨w, e, some n⟩ := by
  have hasym : ∀ a b, lt a b = true → lt b a = false := by
    intro a b h
    cases h' : lt b a with
    | false => rfl
    | true => exact absurd (ht.trans _ _ _ h h') (ht.irrefl _)
  intro S
  induction S with
  | leaf => intro p j _ _ _ hj; simp [Shape.ids] at hj
  | node l i r ih1 ih2 =>
    intro p j hl hs hz hj
    obtain ⟨⟨n, en, n1, n2, _⟩, hl1, hl2⟩ := hl
    obtain ⟨_, hz1, hz2⟩ := hz
    have hls := leftSize_ok hz1 n1
    obtain ⟨a, ha⟩ := Option.isSome_iff_exists.mp (hs.2 i (by simp [Shape.ids]))
    have hna : n.key = some a := by simpa [keyOf, en] using ha
    have hp := hs.1
    simp only [Shape.ids, List.pairwise_append, List.pairwise_cons] at hp
    simp only [Shape.ids, List.length_append, List.length_cons] at hj
    rcases Nat.lt_trichotomy j l.ids.length with hc | hc | hc
    · obtain ⟨w, x, m, e1, e2, hrun⟩ := ih1 _ j hl1 hs.left hz1 hc
      refine ⟨w, x, m, by rw [Shape.ids, List.getElem?_append_left hc, e1], e2, ?_⟩
      intro fuel hf
      obtain ⟨f, rfl⟩ : ∃ f, fuel = f + 1 := ⟨fuel - 1, by omega⟩
      obtain ⟨e, he⟩ := hrun f (by simp only [Shape.depth] at hf; omega)
      refine ⟨e, ?_⟩
      obtain ⟨li, hli⟩ : ∃ li, l.root = some li := by
        cases l with
        | leaf => simp [Shape.ids] at hc
        | node l' x' r' => exact ⟨x', rfl⟩
      obtain ⟨b, c, hb, hc', hbc⟩ := hp.2.2 li (Shape.root_mem hli) i (by simp)
      rw [ha] at hc'; cases hc'
      obtain ⟨m', em'⟩ := Option.isSome_iff_exists.mp (linked_isSome hl1 li (Shape.root_mem hli))
      have hm' : m'.key = some b := by simpa [keyOf, em'] using hb
      rw [while_step f (s' := ⟨l.root, (j : Int), none⟩) (by rfl)]
      · exact he
      · have hne : ¬ (j : Int) = l.ids.length := by omega
        have hlt : (j : Int) < l.ids.length := by omega
        have hsl : selectLeft lt t n = .ok l.root := by simp [selectLeft, n1, hli, getNode_ok em', hm', hna, cmpKey, hbc]
        have hnn : ¬ (n.left = none ∧ n.right = none) := by rw [n1, hli]; simp
        show selectBody lt t ⟨some i, (j : Int), none⟩ = _
        simp only [selectBody, asIdx, ok_bind, getNode_ok en, hls, if_neg hne, if_neg hnn, if_pos hlt, hsl]
    · subst hc
      refine ⟨some i, i, n, by simp [Shape.ids], en, ?_⟩
      intro fuel hf
      obtain ⟨f, rfl⟩ : ∃ f, fuel = f + 2 := ⟨fuel - 2, by omega⟩
      refine ⟨(l.ids.length : Int), ?_⟩
      rw [while_step (f + 1) (s' := ⟨some i, (l.ids.length : Int), some n⟩) (by rfl), while_stop _ (by rfl)]
      simp [selectBody, Shape.root, asIdx, getNode_ok en, hls]
    · obtain ⟨w, x, m, e1, e2, hrun⟩ := ih2 _ (j - (l.ids.length + 1)) hl2 hs.right hz2 (by omega)
      refine ⟨w, x, m, ?_, e2, ?_⟩
      · rw [Shape.ids, List.getElem?_append_right (by omega), List.getElem?_cons, if_neg (by omega), ← e1]
        congr 1
      intro fuel hf
      obtain ⟨f, rfl⟩ : ∃ f, fuel = f + 1 := ⟨fuel - 1, by omega⟩
      obtain ⟨e, he⟩ := hrun f (by simp only [Shape.depth] at hf; omega)
      refine ⟨e, ?_⟩
      obtain ⟨ri, hri⟩ : ∃ ri, r.root = some ri := by
        cases r with
        | leaf => simp [Shape.ids] at hj; omega
        | node l' x' r' => exact ⟨x', rfl⟩
      obtain ⟨b, c, hb, hc', hbc⟩ := hp.2.1.1 ri (Shape.root_mem hri)
      rw [ha] at hb; cases hb
      obtain ⟨m', em'⟩ := Option.isSome_iff_exists.mp (linked_isSome hl2 ri (Shape.root_mem hri))
      have hm' : m'.key = some c := by simpa [keyOf, em'] using hc'
      rw [while_step f (s' := ⟨r.root, ((j - (l.ids.length + 1) : Nat) : Int), none⟩) (by rfl)]
      · exact he
      · have hne : ¬ (j : Int) = l.ids.length := by omega
        have hlt : ¬ (j : Int) < l.ids.length := by omega
        have hj' : (j : Int) - (l.ids.length + 1) = ((j - (l.ids.length + 1) : Nat) : Int) := by omega
        have hsl : selectRight lt t n = .ok r.root := by simp [selectRight, n2, hri, getNode_ok em', hm', hna, cmpKey, hasym _ _ hbc]
        have hnn : ¬ (n.left = none ∧ n.right = none) := by rw [n2, hri]; simp
        show selectBody lt t ⟨some i, (j : Int), none⟩ = _
        simp only [selectBody, asIdx, ok_bind, getNode_ok en, hls, if_neg hne, if_neg hnn, if_neg hlt, hsl, hj']

theorem rank_loop {lt : κ → κ → Bool} (ht : StrictTotal (ltRel lt)) {t : BTree κ δ} : ∀ (c : Around) (S : Shape) (x acc : Nat),
    TreeAt true t (Around.plug c S) → Srt lt t.at (Around.plug c S) → Sized t.at (Around.plug c S) → S.root = some x →
    ∀ fuel > c.length, whileLoop fuel (rankCond t) (rankBody t) (x, acc) = .ok (t.rootIdx, acc + (Around.before c).length) := by
  intro c
  induction c with
  | nil =>
    intro S x acc h hs _ hx fuel hf
    obtain ⟨f, rfl⟩ : ∃ f, fuel = f + 1 := ⟨fuel - 1, by omega⟩
    have : x = t.rootIdx := by have := h.root; simp only [Around.plug] at this; rw [hx] at this; exact Option.some.inj this
    subst this
    obtain ⟨n, a, en, hk⟩ := root_key h hs
    rw [while_stop _ (by simp [rankCond, getNode_ok en])]
    simp [Around.before]
  | cons fr c ih =>
    intro S x acc h hs hz hx fuel hf
    obtain ⟨f, rfl⟩ : ∃ f, fuel = f + 1 := ⟨fuel - 1, by omega⟩
    have hl := (linked_plug true t.at (fr :: c) S).mp h.linked
    have hxm : x ∈ (Around.plug (fr :: c) S).ids := by rw [Around.ids_plug]; simp [Shape.root_mem hx]
    have hnd := h.nodup
    rw [Around.ids_plug] at hnd
    obtain ⟨nr, a, er, hka⟩ := root_key h hs
    -- the node at `x` and its parent
    obtain ⟨nx, ex, px⟩ : ∃ nx, t.at x = some nx ∧ nx.parent = some fr.idx := by
      cases S with
      | leaf => cases hx
      | node l y r =>
        simp only [Shape.root, Option.some.injEq] at hx; subst hx
        obtain ⟨⟨n, e, _, _, hpar⟩, _⟩ := hl.2
        exact ⟨n, e, hpar rfl⟩
    have hxr : x ≠ t.rootIdx := by
      intro e
      have h1 : (Around.plug (fr :: c) S).root = (Around.plug (fr :: c) Shape.leaf).root := Around.root_plug_cons fr c _ _
      have h2 := h.root
      rw [h1] at h2
      have h3 := Shape.root_mem h2
      rw [Around.ids_plug] at h3
      simp only [Shape.ids, List.append_nil, List.mem_append] at h3
      rw [← e] at h3
      have hxS := Shape.root_mem hx
      simp only [List.nodup_append, List.mem_append] at hnd
      rcases h3 with h3 | h3
      · exact hnd.1.2.2 x h3 x hxS rfl
      · exact hnd.2.2 x (.inr hxS) x h3 rfl
    obtain ⟨b, hb⟩ := Option.isSome_iff_exists.mp (hs.2 x hxm)
    have hkx : nx.key = some b := by simpa [keyOf, ex] using hb
    have hne : nx.key ≠ nr.key := by
      intro e
      refine hxr (hs.inj ht hxm (Shape.root_mem h.root) hb ?_)
      simp [keyOf, er, ← e, hkx]
    have hcond : rankCond t (x, acc) = .ok true := by simp [rankCond, getNode_ok ex, getNode_ok er, hne]
    cases fr with
    | inL i r =>
      obtain ⟨⟨⟨m, em, m1, m2, _⟩, _, _⟩, _⟩ := hl
      have hnr : some x ≠ m.right := by
        rw [m2]
        intro e
        have h3 := Shape.root_mem e.symm
        have hxS := Shape.root_mem hx
        simp only [Around.before, Around.after, List.nodup_append, List.mem_append, List.mem_cons] at hnd
        exact hnd.2.2 x (.inr hxS) x (.inl (.inr h3)) rfl
      rw [while_step f hcond (s' := (i, acc)) (by simp [rankBody, getNode_ok ex, px, asIdx, Frame.idx, getNode_ok em, hnr])]
      exact ih (.node S i r) i acc h hs hz rfl f (by simp at hf; omega)
    | inR l i =>
      obtain ⟨⟨⟨m, em, m1, m2, _⟩, _, _⟩, _⟩ := hl
      have hzl : Sized t.at l := by
        have := (sizedAround_of_plug (c := c) (T := .node l i S) hz).2
        exact this.2.1
      rw [while_step f hcond (s' := (i, acc + (l.ids.length + 1))) (by
        simp [rankBody, getNode_ok ex, px, asIdx, Frame.idx, getNode_ok em, m2, hx, leftSize_ok hzl m1])]
      rw [ih (.node l i S) i _ h hs hz rfl f (by simp at hf; omega)]
      simp only [Around.before, List.length_append, List.length_cons, List.length_nil]
      congr 2
      omega

/-- `ks` lists the keys of the map in increasing order. -/
def KeysInOrder (lt : κ → κ → Bool) (m : κ → Option (Option δ)) (ks : List κ) : Prop :=
  ks.Pairwise (fun a b => lt a b = true) ∧ ∀ k, k ∈ ks ↔ (m k).isSome

theorem treeKeys {lt : κ → κ → Bool} {t : BTree κ δ} {T : Shape} {m : κ → Option (Option δ)} (hs : Srt lt t.at T) (hc : Carries t T m) :
    ∃ ks, KeysInOrder lt m ks ∧ T.ids.map (keyOf t.at) = ks.map some := by
  refine ⟨T.ids.filterMap (keyOf t.at), ⟨?_, ?_⟩, ?_⟩
  · rw [List.pairwise_filterMap]
    refine hs.1.imp ?_
    rintro i j ⟨a, b, ha, hb, hab⟩ x hx y hy
    rw [ha] at hx; rw [hb] at hy; cases hx; cases hy; exact hab
  · intro k
    simp only [List.mem_filterMap, Option.isSome_iff_exists]
    constructor
    · rintro ⟨i, hi, hk⟩
      cases e : t.at i with
      | none => simp [keyOf, e] at hk
      | some n => exact ⟨n.data, (hc k _).mpr ⟨i, hi, n, e, by simpa [keyOf, e] using hk, rfl⟩⟩
    · rintro ⟨d, hd⟩
      obtain ⟨i, hi, n, en, hk, _⟩ := (hc k d).mp hd
      exact ⟨i, hi, by simp [keyOf, en, hk]⟩
  · have key : ∀ (L : List Nat), (∀ i ∈ L, (keyOf t.at i).isSome) → L.map (keyOf t.at) = (L.filterMap (keyOf t.at)).map some := by
      intro L
      induction L with
      | nil => intro _; rfl
      | cons i L ih =>
        intro hk
        obtain ⟨k, ek⟩ := Option.isSome_iff_exists.mp (hk i (by simp))
        rw [List.filterMap_cons_some ek, List.map_cons, List.map_cons, ek, ih (fun j hj => hk j (by simp [hj]))]
    exact key _ hs.2

/-- With `k` rounds or more for each loop the result is `r`. -/
def EndsBy {β : Type} (k : Nat) (f : Nat → PyM β) (r : PyM β) : Prop := ∀ n, k ≤ n → f n = r

theorem EndsBy.ends {β : Type} {k : Nat} {f : Nat → PyM β} {r : PyM β} (h : EndsBy k f r) : EndsWith f r := ⟨k, h⟩

theorem EndsBy.mono {β : Type} {k k' : Nat} {f : Nat → PyM β} {r : PyM β} (h : EndsBy k f r) (hk : k ≤ k') : EndsBy k' f r := fun n hn => h n (by omega)

theorem select_steps {lt : κ → κ → Bool} (ht : StrictTotal (ltRel lt)) {t : BTree κ δ} {T : Shape} {m : κ → Option (Option δ)}
    (h : TreeAt true t T) (hs : Srt lt t.at T) (hz : Sized t.at T) (hn : t.num = T.ids.length) (hc : Carries t T m) :
    ∃ ks, KeysInOrder lt m ks ∧
      (∀ (i : Nat), i < ks.length → ∃ n, EndsBy (T.depth + 2) (fun f => bstSelect lt f t ((i : Int) + 1)) (.ok (some n)) ∧ n.key = ks[i]? ∧
        ∃ p : Nat, t.arr[p]? = some (some n)) ∧
      (∀ i : Int, i < 1 ∨ ks.length < i → ∀ f, bstSelect lt f t i = .error .valueError) ∧
      (∀ (i : Nat) k, ks[i]? = some k → EndsBy (T.depth + 2) (fun f => bstRank lt f t k) (.ok (some (i + 1)))) ∧
      (∀ k, m k = none → EndsBy (T.depth + 2) (fun f => bstRank lt f t k) (.ok none)) := by
  obtain ⟨ks, hks, hmap⟩ := treeKeys hs hc
  have hlen : ks.length = T.ids.length := by simpa using (congrArg List.length hmap).symm
  refine ⟨ks, hks, ?_, ?_, ?_, ?_⟩
  · intro i hi
    obtain ⟨w, x, n, e1, e2, hrun⟩ := select_loop ht T none i h.linked hs hz (by omega)
    refine ⟨n, ?_, ?_, x, at_some.mp e2⟩
    · intro f hf
      obtain ⟨e, he⟩ := hrun f hf
      rw [h.root] at he
      have h1 : ¬ (i : Int) < 0 := by omega
      have h2 : ¬ (i : Int) ≥ t.num := by omega
      have h3 : (i : Int) + 1 - 1 = i := by omega
      simp only [bstSelect, h3, if_neg h1, if_neg h2, he, ok_bind]
    · have := congrArg (·[i]?) hmap
      simp only [List.getElem?_map, e1, Option.map_some, keyOf, e2, Option.bind_some] at this
      cases e : ks[i]? with
      | none => rw [e] at this; cases this
      | some k => rw [e] at this; simpa using this
  · intro i hi f
    unfold bstSelect
    by_cases h1 : i - 1 < 0
    · rw [if_pos h1]
    · rw [if_neg h1, if_pos (by omega)]
  · intro i k hk
    obtain ⟨c, S, hT, hF, hrun⟩ := search_spec ht h hs k
    have hi : T.ids[i]?.map (keyOf t.at) = some (some k) := by
      have := congrArg (·[i]?) hmap
      simpa [hk] using this
    obtain ⟨x, ex, hx⟩ : ∃ x, T.ids[i]? = some x ∧ keyOf t.at x = some k := by
      cases e : T.ids[i]? with
      | none => rw [e] at hi; cases hi
      | some x => rw [e] at hi; exact ⟨x, rfl, by simpa using hi⟩
    rcases hF.here with rfl | ⟨l, y, r, rfl, hy⟩
    · exact absurd hx (hF.absent ht x (by rw [hT]; exact List.mem_of_getElem? ex))
    · subst hT
      have hym : y ∈ (Around.plug c (.node l y r)).ids := by rw [Around.ids_plug]; simp [Shape.ids]
      have hxy : x = y := hs.inj ht (List.mem_of_getElem? ex) hym hx hy
      subst hxy
      have hpos : (Around.before c).length + l.ids.length = i := by
        have h1 : (Around.plug c (.node l x r)).ids[(Around.before c).length + l.ids.length]? = some x := by
          rw [Around.ids_plug]
          simp [Shape.ids]
        have hnd := h.nodup
        have hlt : (Around.before c).length + l.ids.length < (Around.plug c (.node l x r)).ids.length := by
          rw [Around.ids_plug]; simp [Shape.ids]
        exact (List.getElem?_inj hlt hnd).mp (h1.trans ex.symm)
      obtain ⟨hla, ⟨n, en, n1, n2, _⟩, hl1, hl2⟩ := (linked_plug true t.at c _).mp h.linked
      have hzS := (sizedAround_of_plug hz).2
      intro f hf
      have hcl := around_depth (c := c) (S := .node l x r) rfl
      have e1 := hrun f (by omega)
      have e2 := rank_loop ht c (.node l x r) x (l.ids.length + 1) h hs hz rfl f (by omega)
      simp only [bstRank, e1, ok_bind, Shape.root, getNode_ok en, leftSize_ok hzS.2.1 n1, e2]
      congr 2
      omega
  · intro k hk
    obtain ⟨c, S, rfl, hF, hrun⟩ := search_spec ht h hs k
    rcases hF.here with rfl | ⟨l, y, r, rfl, hy⟩
    · exact fun f hf => by simp [bstRank, hrun f hf, Shape.root]
    · exfalso
      cases e : t.at y with
      | none => simp [keyOf, e] at hy
      | some n =>
        have : m k = some n.data := (hc k n.data).mpr ⟨y, by rw [Around.ids_plug]; simp [Shape.ids], n, e, by simpa [keyOf, e] using hy, rfl⟩
        rw [hk] at this; cases this

theorem select_map {lt : κ → κ → Bool} (ht : StrictTotal (ltRel lt)) {t : BTree κ δ} {T : Shape} {m : κ → Option (Option δ)}
    (h : TreeAt true t T) (hs : Srt lt t.at T) (hz : Sized t.at T) (hn : t.num = T.ids.length) (hc : Carries t T m) :
    ∃ ks, KeysInOrder lt m ks ∧
      (∀ (i : Nat), i < ks.length → ∃ n, EndsWith (fun f => bstSelect lt f t ((i : Int) + 1)) (.ok (some n)) ∧ n.key = ks[i]? ∧
        ∃ p : Nat, t.arr[p]? = some (some n)) ∧
      (∀ i : Int, i < 1 ∨ ks.length < i → ∀ f, bstSelect lt f t i = .error .valueError) ∧
      (∀ (i : Nat) k, ks[i]? = some k → EndsWith (fun f => bstRank lt f t k) (.ok (some (i + 1)))) ∧
      (∀ k, m k = none → EndsWith (fun f => bstRank lt f t k) (.ok none)) := by
  obtain ⟨ks, h1, h2, h3, h4, h5⟩ := select_steps ht h hs hz hn hc
  refine ⟨ks, h1, fun i hi => ?_, h3, fun i k hk => (h4 i k hk).ends, fun k hk => (h5 k hk).ends⟩
  obtain ⟨n, a, b⟩ := h2 i hi
  exact ⟨n, a.ends, b⟩

/-- After any history of insertions, `lower_bound(k)` is the least inserted key that is not below `k` and `upper_bound(k)` the least
inserted key above `k` (`None` if there is none). -/
theorem C75_bounds {lt : κ → κ → Bool} (ht : StrictTotal (ltRel lt)) (os : Bool) (ops : List (κ × Option δ)) :
    ∃ t, EndsWith (fun n => bstInserts lt n (btEmpty os) ops) (.ok t) ∧ ∀ k,
      (∃ r, EndsWith (fun n => bstLower lt n t k) (.ok r) ∧ LeastOf lt (fun a => a ∈ ops.map (·.1) ∧ lt a k = false) r) ∧
      (∃ r, EndsWith (fun n => bstUpper lt n t k) (.ok r) ∧ LeastOf lt (fun a => a ∈ ops.map (·.1) ∧ lt k a = true) r) := by
  obtain ⟨t, hst, hrun⟩ := bst_history ht os ops
  refine ⟨t, hrun, fun k => ?_⟩
  cases hst with
  | empty h hm =>
    subst h
    have hno : ∀ a, ¬ a ∈ ops.map (·.1) := by
      intro a ha
      have := (lastData_isSome ops a).mpr ha
      rw [hm] at this; simp at this
    exact ⟨⟨none, ⟨1, fun n hn => by obtain ⟨f, rfl⟩ : ∃ f, n = f + 1 := ⟨n - 1, by omega⟩
                                     rfl⟩, fun a h => hno a h.1⟩,
      ⟨none, ⟨1, fun n hn => by obtain ⟨f, rfl⟩ : ∃ f, n = f + 1 := ⟨n - 1, by omega⟩
                                rfl⟩, fun a h => hno a h.1⟩⟩
  | tree T ok car _ _ _ =>
    have h1 := bound_map ht ok.tree ok.srt car false k
    have h2 := bound_map ht ok.tree ok.srt car true k
    simp only [lastData_isSome, Beyond, if_true, Bool.false_eq_true, if_false] at h1 h2
    exact ⟨h1, h2⟩

/-- After any history of insertions into an order statistic tree, `select(i)` is the node with the `i`-th smallest key, `rank(k)` the
place of `k`, and both reject what does not exist. -/
theorem C75_select_rank {lt : κ → κ → Bool} (ht : StrictTotal (ltRel lt)) (ops : List (κ × Option δ)) (hne : ops ≠ []) :
    ∃ t ks, EndsWith (fun n => bstInserts lt n (btEmpty true) ops) (.ok t) ∧ KeysInOrder lt (lastData ops) ks ∧
      (∀ (i : Nat), i < ks.length → ∃ n, EndsWith (fun f => bstSelect lt f t ((i : Int) + 1)) (.ok (some n)) ∧ n.key = ks[i]? ∧
        ∃ p : Nat, t.arr[p]? = some (some n)) ∧
      (∀ i : Int, i < 1 ∨ ks.length < i → ∀ f, bstSelect lt f t i = .error .valueError) ∧
      (∀ (i : Nat) k, ks[i]? = some k → EndsWith (fun f => bstRank lt f t k) (.ok (some (i + 1)))) ∧
      (∀ k, k ∉ ops.map (·.1) → EndsWith (fun f => bstRank lt f t k) (.ok none)) := by
  obtain ⟨t, hst, hrun⟩ := bst_history ht true ops
  cases hst with
  | empty h hm =>
    cases ops with
    | nil => exact absurd rfl hne
    | cons op ops =>
      have := (lastData_isSome (op :: ops) op.1).mpr (by simp)
      rw [hm] at this; simp at this
  | tree T ok car _ sz _ =>
    obtain ⟨ks, h1, h2, h3, h4, h5⟩ := select_map ht ok.tree ok.srt (sz rfl) (by rw [ok.num_top, ok.count]) car
    refine ⟨t, ks, hrun, h1, h2, h3, h4, fun k hk => h5 k ?_⟩
    rw [← lastData_isSome] at hk
    simpa using hk

/-- A concrete order statistic tree. -/
example : (bstInserts (fun a b : Nat => decide (a < b)) 20 (btEmpty true)
      [(5, some 'a'), (2, some 'b'), (8, none), (3, some 'c')]).bind (fun t => do
        let l ← bstLower (fun a b : Nat => decide (a < b)) 20 t 3
        let u ← bstUpper (fun a b : Nat => decide (a < b)) 20 t 3
        let n ← bstSelect (fun a b : Nat => decide (a < b)) 20 t 3
        let r ← bstRank (fun a b : Nat => decide (a < b)) 20 t 8
        .ok (l, u, n.bind (·.key), r)) = .ok (some 3, some 5, some 5, some 4) := by decide +kernel

/-- A tree has no more nodes than there are keys. -/
theorem keys_count {lt : κ → κ → Bool} (ht : StrictTotal (ltRel lt)) {t : BTree κ δ} {T : Shape} {m : κ → Option (Option δ)} (hs : Srt lt t.at T)
    (hn : T.ids.Nodup) (hc : Carries t T m) {ks : List κ} (hk : ∀ k, (m k).isSome → k ∈ ks) : T.ids.length ≤ ks.length := by
  have key : ∀ (L : List Nat), L.Nodup → (∀ i ∈ L, i ∈ T.ids) → ∀ ks : List κ, (∀ i ∈ L, ∀ k, keyOf t.at i = some k → k ∈ ks) → L.length ≤ ks.length := by
    intro L
    induction L with
    | nil => intros; simp
    | cons i L ih =>
      intro hn hL ks hks
      obtain ⟨k, ek⟩ := Option.isSome_iff_exists.mp (hs.2 i (hL i (by simp)))
      have hik := hks i (by simp) k ek
      have := ih (List.nodup_cons.mp hn).2 (fun j hj => hL j (by simp [hj])) (ks.erase k) (by
        intro j hj k' ek'
        refine (List.mem_erase_of_ne ?_).mpr (hks j (by simp [hj]) k' ek')
        rintro rfl
        exact (List.nodup_cons.mp hn).1 (hs.inj ht (hL i (by simp)) (hL j (by simp [hj])) ek ek' ▸ hj))
      rw [List.length_erase_of_mem hik] at this
      have := List.length_pos_of_mem hik
      simp only [List.length_cons]; omega
  refine key T.ids hn (fun _ h => h) ks fun i hi k ek => ?_
  cases en : t.at i with
  | none => simp [keyOf, en] at ek
  | some n => exact hk k (by rw [(hc k n.data).mpr ⟨i, hi, n, en, by simpa [keyOf, en] using ek, rfl⟩]; rfl)

end Props
