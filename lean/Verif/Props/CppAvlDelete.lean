import Verif.Props.CppAvl
import Verif.Props.AvlDelete

/-!
# C112: the C++ AVL tree under insertions and deletions
-/
namespace Props
open Py Model Model.Cpp Spec
set_option linter.unusedSectionVars false
variable {κ δ : Type} [DecidableEq κ]

/-! ## Specification -/

/-- One call on a C++ AVL tree. -/
def cAvlStep (cmp : κ → κ → Int) (fuel : Nat) (c : CTree κ δ) : BstOp κ δ → PyM (CTree κ δ × Bool)
  | .insert k d => do
    let c ← cAvlInsert cmp fuel c k d
    .ok (c, false)
  | .delete k => cAvlDelete cmp fuel c k

/-- The calls of a history, with the values they return. -/
def cAvlRun (cmp : κ → κ → Int) (fuel : Nat) : CTree κ δ → List (BstOp κ δ) → PyM (CTree κ δ × List Bool)
  | c, [] => .ok (c, [])
  | c, op :: ops => do
    let r ← cAvlStep cmp fuel c op
    let q ← cAvlRun cmp fuel r.1 ops
    .ok (q.1, r.2 :: q.2)

/-- The calls of a history on a new tree. -/
def cAvlHistory (cmp : κ → κ → Int) (fuel : Nat) (os : Bool) (ops : List (BstOp κ δ)) : PyM (CTree κ δ × List Bool) := do
  let c ← ctNew os none none
  cAvlRun cmp fuel c ops

/-- `select` and `rank` of the C++ tree answer as the entries demand: `ks` are the keys in increasing order. -/
def CRanksEntries (lt : κ → κ → Bool) (t : BTree κ δ) (D : List (κ × Option δ)) : Prop :=
  ∃ ks, KeysInOrder lt (dataOf D) ks ∧
    (∀ (i : Nat), i < ks.length → ∃ n, EndsWith (fun f => cSelect (ofLt lt) f t ((i : Int) + 1)) (.ok (some n)) ∧ n.key = ks[i]? ∧
      ∃ p : Nat, t.arr[p]? = some (some n)) ∧
    (∀ i : Int, i < 1 ∨ ks.length < i → ∀ f, cSelect (ofLt lt) f t i = .error .valueError) ∧
    (∀ (i : Nat) k, ks[i]? = some k → EndsWith (fun f => cRank (ofLt lt) f t k) (.ok (some (i + 1)))) ∧
    (∀ k, ¬ Has D k → EndsWith (fun f => cRank (ofLt lt) f t k) (.ok none))

/-- The tree serves the entries `D` and is an AVL tree; it stores its heights and, if it keeps order statistics, answers `select` and `rank`. -/
def CServesAvl (lt : κ → κ → Bool) (os : Bool) (t : BTree κ δ) (D : List (κ × Option δ)) : Prop :=
  CServes lt t D ∧ (D ≠ [] → AvlShape t D.length ∧ StoresHeights t ∧ (os = true → CRanksEntries lt t D))

/-- **C112**, in full: any history, starting with a new tree. -/
def C112_full (lt : κ → κ → Bool) (δ : Type) : Prop :=
  ∀ (os : Bool) (ops : List (BstOp κ δ)), ∃ c, EndsWith (fun n => cAvlHistory (ofLt lt) n os ops) (.ok (c, bstReturns [] ops)) ∧
    CServesAvl lt os c.t (bstContents [] ops)

/-- What is proved of the tree: a tree of one key may store a wrong height. -/
def CServesAvlMost (lt : κ → κ → Bool) (os : Bool) (t : BTree κ δ) (D : List (κ × Option δ)) : Prop :=
  CServes lt t D ∧ (D ≠ [] → AvlShape t D.length) ∧ (2 ≤ D.length → StoresHeights t ∧ (os = true → CRanksEntries lt t D))

/-! ## The state -/

theorem AvlHas.cserves {lt : κ → κ → Bool} (ht : StrictTotal (ltRel lt)) {os : Bool} {t : BTree κ δ} {D : List (κ × Option δ)} (h : AvlHas lt os t D) :
    CServesAvlMost lt os t D := by
  have hn := h.nodup_keys ht
  obtain ⟨h1, h2, h3⟩ := h.serves ht
  refine ⟨h1.c, h2, fun hl => ⟨(h3 hl).1, fun hos => ?_⟩⟩
  obtain ⟨ho, E, hp, ⟨rfl, hc⟩ | ⟨T, hT, hs⟩⟩ := h
  · have := List.nil_perm.mp hp
    subst this
    simp at hl
  · have st := hT.stored
    have hcar : Carries t T (dataOf D) := st.carries fun k d => by rw [dataOf_iff hn, hp.mem_iff]
    have hlen : T.ids.length = D.length := by rw [← hp.length_eq, st.ent.length]
    have ann := hT.ann.resolve_left (by omega)
    obtain ⟨ks, h1, h2, h3, h4, h5⟩ := cselect_map ht st.tree (st.srt hs) (ann.2 (by rw [ho, hos])) st.num hcar
    refine ⟨ks, h1, h2, h3, h4, fun k hk => h5 k ?_⟩
    cases e : dataOf D k with
    | none => rfl
    | some d => exact absurd ⟨d, (dataOf_iff hn k d).mp e⟩ hk

/-! ## One call -/

/-- A deletion that does not contract the array. -/
theorem delete_safe {lt : κ → κ → Bool} (ht : StrictTotal (ltRel lt)) {t : BTree κ δ} {T : Shape} {E D : List (κ × Option δ)} (tree : TreeAt true t T) (srt : Srt lt t.at T)
    (ent : Ent t.at T.ids E) (num : t.num = T.ids.length) (hp : E.Perm D) {k : κ} (hc : ¬ Has D k ∨ D.length = 1 ∨ t.arr.length ≤ 4 * (D.length - 1)) :
    ∃ n0, ∀ fuel, n0 ≤ fuel → t.arr.length ≤ 4 * (t.num - 1) ∨ bstSearch lt fuel t k = .ok none ∨
      ∃ w n, bstSearchP lt fuel t k = .ok (some (some w, none)) ∧ getNode t w = .ok n ∧ n.left = none ∧ n.right = none := by
  obtain ⟨c, S, rfl, hF, hrun⟩ := searchP_spec ht tree srt k
  have hlen : t.num = D.length := by rw [num, ← hp.length_eq, ent.length]
  refine ⟨(Around.plug c S).depth + 2, fun fuel hf => ?_⟩
  have h1 := hrun fuel (by omega)
  rcases hF.here with rfl | ⟨l, i, r', rfl, hki⟩
  · exact .inr (.inl (by simp only [bstSearch, h1, ok_bind]; rfl))
  · rcases hc with hc | hc | hc
    · exfalso
      have hi : i ∈ (Around.plug c (.node l i r')).ids := by rw [Around.ids_plug]; simp [Shape.ids]
      obtain ⟨n, en⟩ := Option.isSome_iff_exists.mp (linked_isSome tree.linked i hi)
      have hk : n.key = some k := by simpa [keyOf, en] using hki
      exact hc ((has_perm hp k).mpr ⟨n.data, ent.mem.mpr ⟨i, hi, by simp [entryAt, en, hk]⟩⟩)
    · have hsz := num
      rw [hlen, hc, Around.ids_plug] at hsz
      simp only [Shape.ids, List.length_append, List.length_cons] at hsz
      obtain ⟨⟨n, en, n1, n2, _⟩, _, _⟩ := ((linked_plug true t.at c _).mp tree.linked).2
      have hl : l = .leaf := by
        cases l with
        | leaf => rfl
        | node a x b => simp only [Shape.ids, List.length_append, List.length_cons] at hsz; omega
      have hr' : r' = .leaf := by
        cases r' with
        | leaf => rfl
        | node a x b => simp only [Shape.ids, List.length_append, List.length_cons] at hsz; omega
      have hc' : c = [] := by
        cases c with
        | nil => rfl
        | cons f c => cases f <;> simp only [Around.before, Around.after, List.length_append, List.length_cons] at hsz <;> omega
      subst hl hr' hc'
      exact .inr (.inr ⟨i, n, h1, getNode_ok en, n1, n2⟩)
    · rw [← hlen] at hc
      exact .inl hc

/-- An insertion that does not contract the array. -/
theorem insert_safe {lt : κ → κ → Bool} (ht : StrictTotal (ltRel lt)) {t : BTree κ δ} {T : Shape} {E D : List (κ × Option δ)} (tree : TreeAt true t T) (srt : Srt lt t.at T)
    (ent : Ent t.at T.ids E) (cap : t.top ≤ t.arr.length) (hp : E.Perm D) {k : κ} (hc : Has D k ∨ grown t ≤ 4 * (t.num + 1)) :
    ∃ n0, ∀ fuel, n0 ≤ fuel → t.top ≤ t.arr.length ∧ grown t ≤ 4 * (t.num + 1) ∨
        (∃ i, bstSearch lt fuel t k = .ok (some i)) ∨ ∃ n, getNode t t.rootIdx = .ok n ∧ n.key = none := by
  rcases hc with hk | hg
  · obtain ⟨d', hd⟩ := (has_perm hp k).mp hk
    obtain ⟨c, S, hS, hF, hrun⟩ := search_spec ht tree srt k
    refine ⟨T.depth + 2, fun fuel hf => .inr (.inl ?_)⟩
    have := hrun fuel (by omega)
    rcases hF.here with rfl | ⟨l, i, r, rfl, hk'⟩
    · exfalso
      obtain ⟨i, hi, ei⟩ := ent.mem.mp hd
      exact hF.absent ht i (by rw [hS]; exact hi) (keyOf_entry ei)
    · exact ⟨i, this⟩
  · exact ⟨0, fun _ _ => .inl ⟨cap, hg⟩⟩

/-- After an insertion the tree has at most 257 positions. -/
def SmallAfter (t : BTree κ δ) : BstOp κ δ → Prop
  | .insert _ _ => t.size ≤ 257
  | .delete _ => True

/-- One call on a tree that copes with it. -/
theorem le_avlStep {lt : κ → κ → Bool} (ht : StrictTotal (ltRel lt)) {os : Bool} {t : BTree κ δ} {D : List (κ × Option δ)} (h : AvlHas lt os t D) (op : BstOp κ δ)
    (hc : CopesAvl t D op) : ∃ n0, ∀ fuel, n0 ≤ fuel → ∀ r, avlStep lt fuel t op = .ok r → SmallAfter r.1 op →
      cAvlStep (ofLt lt) fuel (onC t) op = .ok (onC r.1, r.2) := by
  obtain ⟨ho, E, hp, hst⟩ := h
  cases op with
  | insert k d =>
    have key : ∃ n0, ∀ fuel, n0 ≤ fuel → t.top ≤ t.arr.length ∧ grown t ≤ 4 * (t.num + 1) ∨
        (∃ i, bstSearch lt fuel t k = .ok (some i)) ∨ ∃ n, getNode t t.rootIdx = .ok n ∧ n.key = none := by
      rcases hst with ⟨rfl, hcl⟩ | ⟨T, hT, hs⟩
      · obtain ⟨n, e, hk, _⟩ := hcl.root
        exact ⟨0, fun _ _ => .inr (.inr ⟨n, getNode_ok e, hk⟩)⟩
      · have st := hT.stored
        refine insert_safe ht st.tree (st.srt hs) st.ent st.cap hp (hc.2.resolve_left ?_)
        rintro rfl
        have := hp.length_eq
        have h2 := st.ent.length
        have h4 := List.length_pos_of_mem (Shape.root_mem st.tree.root)
        simp at this; rw [this] at h2; simp at h2; omega
    obtain ⟨n0, hk⟩ := key
    refine ⟨n0, fun fuel hf r hr hsz => ?_⟩
    obtain ⟨t2, e, hr⟩ := Py.bind_ok hr
    cases hr
    have e' := e
    unfold avlInsert at e'
    obtain ⟨t1, e1, e'⟩ := Py.bind_ok e'
    obtain ⟨n, e2, e'⟩ := Py.bind_ok e'
    have hs := (steady_avlBalance _ _ _ _ _ e').2.2.2
    have hsz : t2.size ≤ 257 := hsz
    simp only [cAvlStep, le_avlInsert e1 e (by omega) (le_insert lt fuel t k d (hk fuel hf) _ e1), ok_bind]
  | delete k =>
    obtain ⟨hne, hc⟩ := hc
    rcases hst with ⟨rfl, hcl⟩ | ⟨T, hT, hs⟩
    · exact absurd (List.nil_perm.mp hp) hne
    · have st := hT.stored
      obtain ⟨n0, h0⟩ := delete_safe ht st.tree (st.srt hs) st.ent st.num hp hc
      exact ⟨n0, fun fuel hf r hr _ => le_avlDelete lt fuel t k (h0 fuel hf) r hr⟩

/-! ## Histories -/

/-- The array copes with every call of the history (as in C85), and after an insertion the tree never has more than 257 positions. -/
def CopesCAvl (lt : κ → κ → Bool) (fuel : Nat) : BTree κ δ → List (κ × Option δ) → List (BstOp κ δ) → Prop
  | _, _, [] => True
  | t, D, op :: ops => CopesAvl t D op ∧ ∀ r, avlStep lt fuel t op = .ok r → SmallAfter r.1 op ∧ CopesCAvl lt fuel r.1 (bstSpec D op) ops

theorem cavlHas_run {lt : κ → κ → Bool} (ht : StrictTotal (ltRel lt)) {os : Bool} : ∀ (ops : List (BstOp κ δ)) (t : BTree κ δ) (D : List (κ × Option δ)),
    AvlHas lt os t D → (∃ n0, ∀ fuel, n0 ≤ fuel → CopesCAvl lt fuel t D ops) →
    ∃ t', AvlHas lt os t' (bstContents D ops) ∧ EndsWith (fun n => cAvlRun (ofLt lt) n (onC t) ops) (.ok (onC t', ops.map avlReturn)) := by
  intro ops
  induction ops with
  | nil => intro t D h _; exact ⟨t, h, 0, fun _ _ => rfl⟩
  | cons op ops ih =>
    rintro t D h ⟨n0, hc⟩
    have hc0 := (hc n0 (Nat.le_refl _)).1
    obtain ⟨t1, h1, _, n1, r1⟩ := avlHas_step ht h op hc0
    obtain ⟨n3, r3⟩ := le_avlStep ht h op hc0
    obtain ⟨t2, h2, n2, r2⟩ := ih t1 _ h1 ⟨max n0 n1, fun fuel hf => ((hc fuel (by omega)).2 _ (r1 fuel (by omega))).2⟩
    have hs : SmallAfter t1 op := ((hc (max n0 n1) (by omega)).2 _ (r1 (max n0 n1) (by omega))).1
    refine ⟨t2, h2, max n1 (max n2 n3), fun fuel hf => ?_⟩
    have e1 := r3 fuel (by omega) _ (r1 fuel (by omega)) hs
    have e2 := r2 fuel (by omega)
    simp only at e2
    simp only [cAvlRun, e1, e2, ok_bind, List.map_cons]

/-- **C112** for the histories the array copes with (as in C85) and in which the tree never has more than 257 positions. Every `delete` returns `True`, also for absent keys.
Missing: the other histories, for which the claim is false (`C112_full_false`), the returned value for absent keys (`C112_absent`) and the height stored in a tree of one key
(`C112_stale_height`). -/
theorem C112_copes_partial {lt : κ → κ → Bool} (ht : StrictTotal (ltRel lt)) (os : Bool) (ops : List (BstOp κ δ))
    (hc : ∃ n0, ∀ fuel, n0 ≤ fuel → CopesCAvl lt fuel (btEmpty os) [] ops) :
    ∃ c, EndsWith (fun n => cAvlHistory (ofLt lt) n os ops) (.ok (c, ops.map avlReturn)) ∧ CServesAvlMost lt os c.t (bstContents [] ops) := by
  obtain ⟨t, h, n0, hr⟩ := cavlHas_run ht ops _ [] (AvlHas.empty lt os) hc
  refine ⟨onC t, ⟨n0, fun n hn => ?_⟩, h.cserves ht⟩
  simp only [cAvlHistory, ctNew_empty, ok_bind]
  exact hr n hn

theorem cavl_fill {lt : κ → κ → Bool} (ht : StrictTotal (ltRel lt)) {os : Bool} (rest : List (BstOp κ δ)) : ∀ (ins : List (κ × Option δ)) (t : BTree κ δ)
    (D : List (κ × Option δ)), AvlHas lt os t D → FullOf t D.length → (bstContents D (insertsOf ins)).length ≤ 257 →
    (∀ t', AvlHas lt os t' (bstContents D (insertsOf ins)) → FullOf t' (bstContents D (insertsOf ins)).length →
      ∃ n0, ∀ fuel, n0 ≤ fuel → CopesCAvl lt fuel t' (bstContents D (insertsOf ins)) rest) →
    ∃ n0, ∀ fuel, n0 ≤ fuel → CopesCAvl lt fuel t D (insertsOf ins ++ rest) := by
  intro ins
  induction ins with
  | nil => intro t D h hf _ hc; exact hc t h hf
  | cons e ins ih =>
    intro t D h hf hb hc
    have hco : CopesAvl t D (.insert e.1 e.2) := by
      obtain ⟨f1, f2, f3, f4, f5⟩ := hf
      refine ⟨f1, .inr (.inr ?_)⟩
      unfold grown; split <;> omega
    obtain ⟨t1, h1, c1, n1, r1⟩ := avlHas_step ht h (.insert e.1 e.2) hco
    have hf1 := full_insert (h.nodup_keys ht) e.1 e.2 hf c1
    obtain ⟨n2, r2⟩ := ih t1 _ h1 hf1 hb hc
    have hmono : (bstSpec D (.insert e.1 e.2)).length ≤ 257 := by
      have grow : ∀ (ins D : List (κ × Option δ)), (D.map (·.1)).Nodup → D.length ≤ (bstContents D (insertsOf ins)).length := by
        intro ins
        induction ins with
        | nil => intro D _; exact Nat.le_refl _
        | cons x ins ih2 =>
          intro D hn
          have h3 : D.length ≤ (bstSpec D (.insert x.1 x.2)).length := by
            by_cases hk : Has D x.1
            · have := spec_delete_length hn hk
              simp only [bstSpec, List.length_cons] at this ⊢
              omega
            · simp only [bstSpec, filter_absent hk, List.length_cons]; omega
          refine Nat.le_trans h3 (ih2 _ ?_)
          have : ((D.filter fun e => e.1 ≠ x.1).map (·.1)).Nodup := hn.sublist (List.filter_sublist.map _)
          simp only [bstSpec, List.map_cons, List.nodup_cons]
          refine ⟨?_, this⟩
          simp
      exact Nat.le_trans (grow ins _ (h1.nodup_keys ht)) hb
    obtain ⟨g1, g2, g3, g4, g5⟩ := hf1
    refine ⟨max n1 n2, fun fuel hf => ⟨hco, fun r hr => ?_⟩⟩
    rw [r1 fuel (by omega)] at hr
    cases hr
    exact ⟨show t1.size ≤ 257 by omega, r2 fuel (by omega)⟩

theorem cavl_thin {lt : κ → κ → Bool} (ht : StrictTotal (ltRel lt)) {os : Bool} {n : Nat} (hn1 : 1 ≤ n) : ∀ (ks : List κ) (t : BTree κ δ) (D : List (κ × Option δ)),
    AvlHas lt os t D → t.arr.length + 1 ≤ 2 * n → KeepsHalf n D ks →
    ∃ n0, ∀ fuel, n0 ≤ fuel → CopesCAvl lt fuel t D (ks.map .delete) := by
  intro ks
  induction ks with
  | nil => intro t D h _ _; exact ⟨0, fun _ _ => trivial⟩
  | cons k ks ih =>
    intro t D h hlen hg
    have hn := h.nodup_keys ht
    have hle := (delete_sublist (bstSpec D (.delete k)) ks).length_le
    have hle' : (bstSpec D (.delete k)).length ≤ D.length := List.length_filter_le _ _
    have hg' : KeepsHalf n (bstSpec D (.delete k)) ks := hg
    have hc : CopesAvl t D (.delete k) := by
      refine ⟨?_, ?_⟩
      · rintro rfl
        unfold KeepsHalf at hg'
        simp only [List.length_nil] at hle'
        omega
      · by_cases hk : Has D k
        · have := spec_delete_length hn hk
          by_cases h1 : D.length = 1
          · exact .inr (.inl h1)
          · have hpos : 0 < D.length := by obtain ⟨d, hd⟩ := hk; exact List.length_pos_of_mem hd
            unfold KeepsHalf at hg'
            exact .inr (.inr (by omega))
        · exact .inl hk
    obtain ⟨t1, h1, c1, n1, r1⟩ := avlHas_step ht h (.delete k) hc
    have c1' : t1.arr.length = t.arr.length := c1
    obtain ⟨n2, r2⟩ := ih t1 _ h1 (by rw [c1']; exact hlen) hg'
    refine ⟨max n1 n2, fun fuel hf => ⟨hc, fun r hr => ?_⟩⟩
    rw [r1 fuel (by omega)] at hr
    cases hr
    exact ⟨trivial, r2 fuel (by omega)⟩

/-- **C112** for keys that are first inserted, in any order and also repeatedly, at most 257 different ones, and then deleted in any order as long as at least half of them remain:
searches, in-order traversal, and (with order statistics) `select` and `rank` answer as the entries demand, and the tree is an AVL tree. Missing: see `C112_copes_partial`. -/
theorem C112_fill_and_thin_partial {lt : κ → κ → Bool} (ht : StrictTotal (ltRel lt)) (os : Bool) (ins : List (κ × Option δ)) (hne : ins ≠ []) (ks : List κ)
    (hsmall : (bstContents [] (insertsOf ins)).length ≤ 257)
    (hg : KeepsHalf (bstContents [] (insertsOf ins)).length (bstContents [] (insertsOf ins)) ks) :
    ∃ c, EndsWith (fun n => cAvlHistory (ofLt lt) n os (insertsOf ins ++ ks.map .delete)) (.ok (c, ins.map (fun _ => false) ++ ks.map fun _ => true)) ∧
      CServesAvlMost lt os c.t (bstContents [] (insertsOf ins ++ ks.map .delete)) := by
  have hfe : FullOf (btEmpty os : BTree κ δ) 0 := by refine ⟨rfl, rfl, rfl, ?_, ?_⟩ <;> simp [btEmpty]
  have hpos := contents_pos ins hne
  obtain ⟨c, h1, h2⟩ := C112_copes_partial ht os (insertsOf ins ++ ks.map .delete)
    (cavl_fill ht (ks.map .delete) ins (btEmpty os) [] (AvlHas.empty lt os) hfe hsmall (fun t' ht' hf' => by
      obtain ⟨g1, g2, g3, g4, g5⟩ := hf'
      exact cavl_thin ht hpos ks t' _ ht' (by omega) hg))
  refine ⟨c, ?_, h2⟩
  have e : (insertsOf ins ++ ks.map BstOp.delete).map avlReturn = ins.map (fun _ => false) ++ ks.map fun _ => true := by
    simp only [List.map_append, insertsOf, List.map_map]
    rfl
  rw [← e]
  exact h1

/-- Such a history: thirteen keys, six of them deleted, and an absent key. The tree is the one of Python (C85). -/
example : ((cAvlHistory (ofLt fun a b : Nat => decide (a < b)) 60 true (insertsOf ((List.range 13).map fun i => (7 * i % 13, some i)) ++ [3, 99, 7, 0, 5, 1, 2].map .delete)).bind fun r => do
      let l ← ctDfs 60 r.1.t .pre none
      let s ← cSelect (ofLt fun a b : Nat => decide (a < b)) 60 r.1.t 4
      let q ← cRank (ofLt fun a b : Nat => decide (a < b)) 60 r.1.t 11
      .ok (l.map (fun n => (n.key, n.height, n.size)), s.bind (·.key), q, r.2.drop 13)) =
    .ok ([(some 8, 3, 7), (some 4, 1, 2), (some 6, 0, 1), (some 11, 2, 4), (some 9, 1, 2), (some 10, 0, 1), (some 12, 0, 1)], some 9, some 6,
      [true, true, true, true, true, true, true]) := by decide +kernel

/-- A history the array copes with although keys are inserted after a deletion. -/
example : ∃ n0, ∀ fuel, n0 ≤ fuel → CopesCAvl (fun a b : Nat => decide (a < b)) fuel (btEmpty true : BTree Nat String) []
    [.insert 5 none, .insert 7 none, .insert 9 none, .delete 5, .insert 3 (some "x"), .insert 9 (some "y"), .delete 4] := by
  refine ⟨20, fun fuel hf => ?_⟩
  obtain ⟨m, rfl⟩ : ∃ m, fuel = m + 20 := ⟨fuel - 20, by omega⟩
  refine ⟨⟨rfl, .inl rfl⟩, fun r h => ⟨by cases h; exact Nat.le_of_ble_eq_true rfl, ?_⟩⟩
  cases h
  refine ⟨⟨rfl, .inr (.inr (by decide))⟩, fun r h => ⟨by cases h; exact Nat.le_of_ble_eq_true rfl, ?_⟩⟩
  cases h
  refine ⟨⟨rfl, .inr (.inr (by decide))⟩, fun r h => ⟨by cases h; exact Nat.le_of_ble_eq_true rfl, ?_⟩⟩
  cases h
  refine ⟨⟨by decide, .inr (.inr (by decide))⟩, fun r h => ⟨trivial, ?_⟩⟩
  cases h
  refine ⟨⟨rfl, .inr (.inr (by decide))⟩, fun r h => ⟨by cases h; exact Nat.le_of_ble_eq_true rfl, ?_⟩⟩
  cases h
  refine ⟨⟨rfl, .inr (.inl (by decide))⟩, fun r h => ⟨by cases h; exact Nat.le_of_ble_eq_true rfl, ?_⟩⟩
  cases h
  exact ⟨⟨by decide, .inl (by decide)⟩, fun _ _ => ⟨trivial, trivial⟩⟩

/-! ## The claim fails in general -/

/-- Deleting a key that is not in the tree returns `True`. -/
theorem C112_absent : EndsWith (fun n => (cAvlHistory (ofLt fun a b : Nat => decide (a < b)) n false [.insert 1 (some "x"), .delete 2]).bind fun r => .ok r.2)
    (.ok [false, true]) := by
  refine ⟨20, fun n hn => ?_⟩
  obtain ⟨m, rfl⟩ : ∃ m, n = m + 20 := ⟨n - 20, by omega⟩
  rfl

/-- Inserting two keys, deleting the second and inserting another: the method takes an empty slot for a node, which is undefined behaviour. -/
theorem C112_insert_after_delete : EndsWith (fun n => cAvlHistory (ofLt fun a b : Nat => decide (a < b)) n false
    [.insert 1 (some "x"), .insert 2 none, .delete 2, .insert 3 none]) (.error .undefined) := by
  refine ⟨20, fun n hn => ?_⟩
  obtain ⟨m, rfl⟩ : ∃ m, n = m + 20 := ⟨n - 20, by omega⟩
  rfl

/-- Deleting the root of a tree of two keys leaves a node that claims to have height 1. -/
theorem C112_stale_height : ((cAvlHistory (ofLt fun a b : Nat => decide (a < b)) 20 false [.insert 1 (some "x"), .insert 2 none, .delete 1]).bind fun r => do
    let n ← cNode r.1.t r.1.t.rootIdx
    .ok (n.key, n.left, n.right, n.height)) = .ok (some 2, none, none, 1) := by decide +kernel

theorem C112_full_false : ¬ C112_full (fun a b : Nat => decide (a < b)) String := by
  intro h
  obtain ⟨t, ⟨n0, hr⟩, _⟩ := h false [.insert 1 (some "x"), .insert 2 none, .delete 2, .insert 3 none]
  obtain ⟨n2, h2⟩ := C112_insert_after_delete
  have e0 := hr (max n0 n2) (by omega)
  have e2 := h2 (max n0 n2) (by omega)
  simp only at e0 e2
  rw [e0] at e2
  cases e2

end Props
