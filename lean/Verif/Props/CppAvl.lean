import Verif.Lemmas.CppAvlAny
import Verif.Lemmas.CppLen
import Verif.Props.Avl
import Verif.Props.CppBst

/-!
# C111: the C++ AVL tree, insertions
-/
namespace Props
open Py Model Model.Cpp Spec
set_option linter.unusedSectionVars false
variable {κ δ : Type} [DecidableEq κ]

/-- A history of `insert(key, data)` calls on a new C++ AVL tree. -/
def cAvlBuild (cmp : κ → κ → Int) (fuel : Nat) (os : Bool) (ops : List (κ × Option δ)) : PyM (CTree κ δ) := do
  let c ← ctNew os none none
  ops.foldlM (fun c op => cAvlInsert cmp fuel c op.1 op.2) c

/-- The walk as `insert` starts it. -/
theorem cavl_start {t : BTree κ δ} {c : Around} {S : Shape} (a : PosObj) (h : TreeAt true t (Around.plug c S)) (hS : Ann t.orderStat t.at S)
    (hc : AnnAround t.orderStat t.at c) :
    ∃ T' t', T'.ids = (Around.plug c S).ids ∧ TreeAt true t' T' ∧ Ann t'.orderStat t'.at T' ∧ Kept t t' ∧
      ∀ fuel > 2 * c.length, cAvlBalance fuel t a (Around.up c) = .ok t' := by
  cases c with
  | nil =>
    refine ⟨_, t, rfl, h, hS, .refl t, fun fuel hf => ?_⟩
    obtain ⟨f, rfl⟩ : ∃ f, fuel = f + 1 := ⟨fuel - 1, by omega⟩
    simp only [cAvlBalance]
    rw [while_stop _ (by rfl)]
    rfl
  | cons f c =>
    obtain ⟨T', t', h1, h2, h3, h4, q, hr⟩ := cavl_any (f :: c) t S a (linkObj f.idx) h hS hc
    refine ⟨T', t', h1, h2, h3, h4, fun fuel hf => ?_⟩
    have := hr fuel hf
    simp only [cAvlBalance]
    rw [show (Option.map linkObj (Around.up (f :: c))) = some (linkObj f.idx) from rfl, this]
    rfl

theorem cAvlInsert_eq {lt : κ → κ → Bool} {fuel : Nat} {t t1 t2 : BTree κ δ} {k : κ} {d : Option δ} {n : BNode κ δ}
    (h1 : cInsert (ofLt lt) fuel (onC t) k d = .ok (onC t1)) (hn : t1.at (t1.size - 1) = some n)
    (h2 : cAvlBalance fuel t1 ⟨t1.size - 1, true⟩ n.parent = .ok t2) (hl : t2.arr.length = t1.arr.length) :
    cAvlInsert (ofLt lt) fuel (onC t) k d = .ok (onC t2) := by
  simp only [cAvlInsert, h1, ok_bind, show (onC t1).t = t1 from rfl, cNode_ok hn, h2]
  simp only [onC, hl]

/-- The state after a history of insertions. -/
inductive CAvlState (lt : κ → κ → Bool) (os : Bool) (t : BTree κ δ) (m : κ → Option (Option δ)) : Prop where
  | empty (h : t = btEmpty os) (hm : ∀ k, m k = none)
  | tree (T : Shape) (ok : BstOk lt t T) (car : Carries t T m) (hos : t.orderStat = os) (ann : Ann os t.at T) (bal : T.ids.length ≤ 257 → Balanced T)

theorem Replaced.ann {t t' : BTree κ δ} {i : Nat} {d : Option δ} {T : Shape} (hr : Replaced t t' i d) (ann : Ann t.orderStat t.at T) :
    Ann t'.orderStat t'.at T := by
  rw [hr.rest.orderStat]
  refine ann_congr (fun j _ => ?_) (fun j _ => ?_) ann <;>
  · simp only [hr.cells, mapAt]
    split
    · simp only [Option.map_map]; congr 1
    · rfl

theorem Inserted.ann {lt : κ → κ → Bool} {t t' : BTree κ δ} {f : Frame} {c : Around} {k : κ} {d : Option δ} (hI : Inserted lt t t' f c k d)
    (ok : BstOk lt t (Around.plug (f :: c) .leaf)) (ann : Ann t.orderStat t.at (Around.plug (f :: c) .leaf)) :
    Ann t'.orderStat t'.at (.node .leaf t.top .leaf) ∧ AnnAround t'.orderStat t'.at (f :: c) := by
  obtain ⟨s, hs⟩ := hI.new
  have hh : ∀ i, i ≠ t.top → (t'.at i).map BNode.height = (t.at i).map BNode.height := by
    intro i hi
    have := hI.old i hi
    cases e : t'.at i <;> cases e' : t.at i <;> simp_all [BNode.core]
  have hlow : ∀ i ∈ Around.before (f :: c) ++ Around.after (f :: c), i ≠ t.top := by
    intro i hi
    refine Nat.ne_of_lt (ok.lt_top i ?_)
    rw [Around.ids_plug]; simpa [Shape.ids] using hi
  have a0 : AnnAround false t.at (f :: c) := (annAround_of_plug (os := false) (T := .leaf) ⟨ann.1, nofun⟩).1
  constructor
  · refine ⟨⟨⟨_, hs, rfl⟩, trivial, trivial⟩, fun ho => ?_⟩
    rw [hI.orderStat] at ho
    exact (sizedAround_of_plug (hI.sized ho (ann.2 ho))).2
  · refine annAround_join ?_ ?_
    · have : ∀ (c : Around), AnnAround false t.at c → (∀ i ∈ Around.before c ++ Around.after c, i ≠ t.top) → AnnAround false t'.at c := by
        intro c
        induction c with
        | nil => intros; trivial
        | cons f c ih =>
          intro H hl
          refine ⟨⟨heighted_congr (fun i hi => hh i (hl i ?_)) H.1.1, nofun⟩, ih H.2 (fun i hi => hl i ?_)⟩
          · cases f <;> simp only [Frame.other] at hi <;> simp [Around.before, Around.after, hi]
          · simp only [List.mem_append] at hi
            cases f <;> rcases hi with hi | hi <;> simp [Around.before, Around.after, hi]
      exact this _ a0 hlow
    · intro ho
      rw [hI.orderStat] at ho
      exact (sizedAround_of_plug (hI.sized ho (ann.2 ho))).1

/-- One insertion by the way of the Python tree. -/
theorem cavl_python {lt : κ → κ → Bool} (ht : StrictTotal (ltRel lt)) {os : Bool} {t t1 : BTree κ δ} {m : κ → Option (Option δ)} (h : AvlState lt os t m)
    (k : κ) (d : Option δ) {n1 : Nat} (h1 : ∀ fuel, n1 ≤ fuel → bstInsert lt fuel t k d = .ok t1 ∧ cInsert (ofLt lt) fuel (onC t) k d = .ok (onC t1))
    (hs : t1.size - 1 ≤ 256) :
    ∃ t', CAvlState lt os t' (fun k' => if k' = k then some d else m k') ∧ ∃ n0, ∀ fuel, n0 ≤ fuel → cAvlInsert (ofLt lt) fuel (onC t) k d = .ok (onC t') := by
  obtain ⟨t1', t2, hst, n0, hrun⟩ := avlState_insert' ht h k d
  have e : t1' = t1 := by
    have a := (hrun (max n0 n1) (by omega)).1
    rw [(h1 (max n0 n1) (by omega)).1] at a
    cases a; rfl
  subst e
  refine ⟨t2, ?_, max n0 n1, fun fuel hf => ?_⟩
  · cases hst with
    | empty h hm => exact .empty h hm
    | tree T ok car hos ann bal => exact .tree T ok car hos ann (fun _ => bal)
  · exact le_avlInsert (hrun fuel (by omega)).1 (hrun fuel (by omega)).2 hs (h1 fuel (by omega)).2

theorem cavlState_insert {lt : κ → κ → Bool} (ht : StrictTotal (ltRel lt)) {os : Bool} {t : BTree κ δ} {m : κ → Option (Option δ)}
    (h : CAvlState lt os t m) (k : κ) (d : Option δ) :
    ∃ t', CAvlState lt os t' (fun k' => if k' = k then some d else m k') ∧ ∃ n0, ∀ fuel, n0 ≤ fuel → cAvlInsert (ofLt lt) fuel (onC t) k d = .ok (onC t') := by
  cases h with
  | empty h hm =>
    subst h
    exact cavl_python ht (.empty rfl hm) k d (n1 := 0) (fun fuel _ => ⟨bstInsert_first os k d, le_insert lt fuel _ k d (.inr (.inr ⟨_, rfl, rfl⟩)) _ (bstInsert_first os k d)⟩) (Nat.zero_le _)
  | tree T ok car hos ann bal =>
    subst hos
    have hC : ∀ fuel t1, bstInsert lt fuel t k d = .ok t1 → cInsert (ofLt lt) fuel (onC t) k d = .ok (onC t1) :=
      fun fuel t1 e => le_insert lt fuel t k d (.inl ⟨ok.cap, ok.grown_le⟩) _ e
    rcases bstInsert_spec ht ok k d with ⟨i, t', hi, hk, hr, hrun⟩ | ⟨f, c, t', rfl, habs, hI, hrun⟩
    · have ok' := hr.bstOk ok
      have hcount := ok'.count
      have hsz := ok'.size_top
      by_cases hb : T.ids.length ≤ 257
      · exact cavl_python ht (.tree T ok car rfl ann (bal hb)) k d (n1 := T.ids.length + 2)
          (fun fuel hf => ⟨hrun fuel (by omega), hC fuel _ (hrun fuel (by omega))⟩) (by omega)
      · have hpos : 0 < t.top := by
          have := ok.lt_top i hi; omega
        have hx : t'.size - 1 < t'.top := by rw [ok'.size_top, hr.rest.top]; omega
        obtain ⟨c, l, r, eT⟩ := plug_of_mem T _ (ok'.mem hx)
        have ann' := hr.ann ann
        have ht' := ok'.tree
        rw [eT] at ht' ann'
        obtain ⟨n, en, _, _, np⟩ := ht'.node
        obtain ⟨aa, as⟩ := annAround_of_plug ann'
        obtain ⟨T2, t2, e2, h2, a2, k2, hloop⟩ := cavl_start ⟨t'.size - 1, true⟩ ht' as aa
        rw [← eT] at e2
        refine ⟨t2, .tree T2 (k2.entries.bstOk ok' h2 e2) (k2.entries.carries e2 (hr.carries ht ok hi hk car)) ?_ ?_ ?_, T.ids.length + 2 * c.length + 2, fun fuel hf => ?_⟩
        · rw [k2.rest.orderStat, hr.rest.orderStat]
        · rw [← hr.rest.orderStat, ← k2.rest.orderStat]; exact a2
        · intro hle; rw [e2] at hle; omega
        · exact cAvlInsert_eq (hC fuel _ (hrun fuel (by omega))) en (by rw [np]; exact hloop fuel (by omega)) k2.rest.len
    · obtain ⟨s, hs⟩ := hI.new
      have hsz : t'.size - 1 = t.top := by rw [hI.ok.size_top, hI.top]; omega
      have hcount := ok.count
      by_cases hb : (Around.plug (f :: c) .leaf).ids.length ≤ 256
      · exact cavl_python ht (.tree _ ok car rfl ann (bal (by omega))) k d (n1 := (Around.plug (f :: c) .leaf).ids.length + 2)
          (fun fuel hf => ⟨hrun fuel (by omega), hC fuel _ (hrun fuel (by omega))⟩) (by omega)
      · obtain ⟨hS, ha⟩ := hI.ann ok ann
        obtain ⟨T', t2, eids, h2, a2, k2, hloop⟩ := cavl_start ⟨t.top, true⟩ hI.ok.tree hS ha
        refine ⟨t2, .tree T' (k2.entries.bstOk hI.ok h2 eids) (k2.entries.carries eids (hI.carries ok habs car)) ?_ ?_ ?_,
          (Around.plug (f :: c) .leaf).ids.length + 2 * (f :: c).length + 3, fun fuel hf => ?_⟩
        · rw [k2.rest.orderStat, hI.orderStat]
        · rw [← hI.orderStat, ← k2.rest.orderStat]; exact a2
        · intro hle
          rw [eids, Around.ids_plug] at hle
          rw [Around.ids_plug] at hb
          simp only [Shape.ids, List.length_append, List.length_cons, List.length_nil] at hle hb
          omega
        · exact cAvlInsert_eq (hC fuel _ (hrun fuel (by omega))) (by rw [hsz]; exact hs) (by rw [hsz]; exact hloop fuel (by omega)) k2.rest.len

theorem cavl_history {lt : κ → κ → Bool} (ht : StrictTotal (ltRel lt)) (os : Bool) (ops : List (κ × Option δ)) :
    ∃ t, CAvlState lt os t (lastData ops) ∧ EndsWith (fun n => cAvlBuild (ofLt lt) n os ops) (.ok (onC t)) := by
  obtain ⟨c, ⟨t, rfl, h⟩, n0, hr⟩ := history_lift (Q := fun c m => ∃ t, c = onC t ∧ CAvlState (δ := δ) lt os t m) (step := cAvlInsert (ofLt lt))
    (by
      rintro _ m ⟨t, rfl, h⟩ k d
      obtain ⟨t', h', n0, hr⟩ := cavlState_insert ht h k d
      exact ⟨onC t', ⟨t', rfl, h'⟩, n0, hr⟩) ops (onC (btEmpty os)) (fun _ => none) ⟨_, rfl, .empty rfl (fun _ => rfl)⟩
  refine ⟨t, by simpa using h, n0, fun n hn => ?_⟩
  simp only [cAvlBuild, ctNew_empty, ok_bind]
  exact hr n hn

/-- **C111** for key objects no two of which have the same value: after any history of insertions, whatever its length, `search` finds exactly the inserted keys, each with the
data inserted last. Missing: keys of which several objects with the same value are used (false, as in C106: `C111_other_object`). -/
theorem C111_search_partial {lt : κ → κ → Bool} (ht : StrictTotal (ltRel lt)) (os : Bool) (ops : List (κ × Option δ)) :
    ∃ c, EndsWith (fun n => cAvlBuild (ofLt lt) n os ops) (.ok c) ∧
      ∀ k, ∃ r, EndsWith (fun n => cSearch (ofLt lt) n c.t k) (.ok r) ∧ Answers c.t k (lastData ops k) r := by
  obtain ⟨t, hst, hrun⟩ := cavl_history ht os ops
  refine ⟨onC t, hrun, fun k => ?_⟩
  cases hst with
  | empty h hm =>
    subst h
    exact ⟨none, ⟨0, fun n _ => rfl⟩, by rw [hm]; rfl⟩
  | tree T ok car _ _ _ =>
    obtain ⟨r, h1, h2⟩ := search_map ht ok.tree ok.srt car k
    exact ⟨r, Le.endsWith (fun n => le_search lt n t k) h1, h2⟩

/-- **C111**, under the same condition and for any length: the array holds a binary tree whose in-order traversal lists the inserted keys in strictly increasing order and in which
every node stores its height. -/
theorem C111_in_order_partial {lt : κ → κ → Bool} (ht : StrictTotal (ltRel lt)) (os : Bool) (ops : List (κ × Option δ)) (hne : ops ≠ []) :
    ∃ c T, EndsWith (fun n => cAvlBuild (ofLt lt) n os ops) (.ok c) ∧ HoldsTree c.t c.t.rootIdx T ∧
      (∃ ns, EndsWith (fun n => ctDfs n c.t .ino none) (.ok ns) ∧ ListsKeys lt (lastData ops) ns) ∧ Heighted c.t.at T := by
  obtain ⟨t, hst, hrun⟩ := cavl_history ht os ops
  cases hst with
  | empty h hm => exact absurd (ops_none hm) hne
  | tree T ok car _ ann _ =>
    obtain ⟨ns, h1, h2⟩ := inorder_map ok.tree.root ok.tree.linked.weaken ok.tree.nodup ok.srt car
    exact ⟨onC t, T, hrun, ⟨ok.tree.root, ok.tree.linked.weaken, ok.tree.nodup⟩, ⟨ns, Le.endsWith (fun n => le_dfs n t .ino none) h1, h2⟩, ann.1⟩

/-- **C111**, under the same condition, for histories with at most 257 different keys: sibling subtrees differ in height by at most one, and the height is logarithmic. Missing:
longer histories, for which balance is lost (`C111_full_false`). -/
theorem C111_balanced_partial {lt : κ → κ → Bool} (ht : StrictTotal (ltRel lt)) (os : Bool) (ops : List (κ × Option δ)) (hne : ops ≠ [])
    (hsmall : ∀ ks : List κ, ks.Nodup → (∀ k ∈ ks, k ∈ ops.map (·.1)) → ks.length ≤ 257) :
    ∃ c T, EndsWith (fun n => cAvlBuild (ofLt lt) n os ops) (.ok c) ∧ HoldsTree c.t c.t.rootIdx T ∧
      (∃ ns, EndsWith (fun n => ctDfs n c.t .ino none) (.ok ns) ∧ ListsKeys lt (lastData ops) ns) ∧
      Balanced T ∧ Heighted c.t.at T ∧ 2 ^ (T.depth / 2) ≤ ops.length + 1 := by
  obtain ⟨t, hst, hrun⟩ := cavl_history ht os ops
  cases hst with
  | empty h hm => exact absurd (ops_none hm) hne
  | tree T ok car _ ann bal =>
    obtain ⟨ks, ⟨hp, hk⟩, hmap⟩ := treeKeys ok.srt car
    have hlen : ks.length = T.ids.length := by simpa using (congrArg List.length hmap).symm
    have hn : ks.Nodup := hp.imp (fun {a b} h => by rintro rfl; exact ht.irrefl _ h)
    have hb := bal (by rw [← hlen]; exact hsmall ks hn (fun x hx => (lastData_isSome ops x).mp ((hk x).mp hx)))
    obtain ⟨ns, h1, h2⟩ := inorder_map ok.tree.root ok.tree.linked.weaken ok.tree.nodup ok.srt car
    refine ⟨onC t, T, hrun, ⟨ok.tree.root, ok.tree.linked.weaken, ok.tree.nodup⟩, ⟨ns, Le.endsWith (fun n => le_dfs n t .ino none) h1, h2⟩, hb, ann.1, ?_⟩
    exact Nat.le_trans (balanced_size _ T rfl hb) (by have := carries_count ht ok.srt car; omega)

/-- **C111**, under the same condition and for any length: the bounds. -/
theorem C111_bounds_partial {lt : κ → κ → Bool} (ht : StrictTotal (ltRel lt)) (os : Bool) (ops : List (κ × Option δ)) (hne : ops ≠ []) :
    ∃ c, EndsWith (fun n => cAvlBuild (ofLt lt) n os ops) (.ok c) ∧ ∀ k,
      (∃ r, EndsWith (fun n => cLower (ofLt lt) n c.t k) (.ok r) ∧ LeastOf lt (fun a => a ∈ ops.map (·.1) ∧ lt a k = false) r) ∧
      (∃ r, EndsWith (fun n => cUpper (ofLt lt) n c.t k) (.ok r) ∧ LeastOf lt (fun a => a ∈ ops.map (·.1) ∧ lt k a = true) r) := by
  obtain ⟨t, hst, hrun⟩ := cavl_history ht os ops
  refine ⟨onC t, hrun, fun k => ?_⟩
  cases hst with
  | empty h hm => exact absurd (ops_none hm) hne
  | tree T ok car _ _ _ =>
    obtain ⟨r1, e1, h1⟩ := bound_map ht ok.tree ok.srt car false k
    obtain ⟨r2, e2, h2⟩ := bound_map ht ok.tree ok.srt car true k
    refine ⟨⟨r1, Le.endsWith (fun n => le_bound lt t k false n _) e1, ?_⟩, ⟨r2, Le.endsWith (fun n => le_bound lt t k true n _) e2, ?_⟩⟩
    · simpa only [lastData_isSome, Beyond, Bool.false_eq_true, if_false] using h1
    · simpa only [lastData_isSome, Beyond, if_true] using h2

/-- **C111**, under the same condition and for any length: `select` and `rank` with order statistics. -/
theorem C111_select_rank_partial {lt : κ → κ → Bool} (ht : StrictTotal (ltRel lt)) (ops : List (κ × Option δ)) (hne : ops ≠ []) :
    ∃ c ks, EndsWith (fun n => cAvlBuild (ofLt lt) n true ops) (.ok c) ∧ KeysInOrder lt (lastData ops) ks ∧
      (∀ (i : Nat), i < ks.length → ∃ n, EndsWith (fun f => cSelect (ofLt lt) f c.t ((i : Int) + 1)) (.ok (some n)) ∧ n.key = ks[i]? ∧
        ∃ p : Nat, c.t.arr[p]? = some (some n)) ∧
      (∀ i : Int, i < 1 ∨ ks.length < i → ∀ f, cSelect (ofLt lt) f c.t i = .error .valueError) ∧
      (∀ (i : Nat) k, ks[i]? = some k → EndsWith (fun f => cRank (ofLt lt) f c.t k) (.ok (some (i + 1)))) ∧
      (∀ k, k ∉ ops.map (·.1) → EndsWith (fun f => cRank (ofLt lt) f c.t k) (.ok none)) := by
  obtain ⟨t, hst, hrun⟩ := cavl_history ht true ops
  cases hst with
  | empty h hm => exact absurd (ops_none hm) hne
  | tree T ok car _ ann _ =>
    obtain ⟨ks, h1, h2, h3, h4, h5⟩ := cselect_map ht ok.tree ok.srt (ann.2 rfl) (by rw [ok.num_top, ok.count]) car
    refine ⟨onC t, ks, hrun, h1, h2, h3, h4, fun k hk => h5 k ?_⟩
    rw [← lastData_isSome] at hk
    simpa using hk

/-- A key object is (its identity, its value). Another object with an inserted value is not found, and inserting it makes a second node. -/
theorem C111_other_object : EndsWith (fun n => do
    let c ← cAvlBuild (ofLt fun a b : Nat × Nat => decide (a.2 < b.2)) n false [((0, 1000), some 'x'), ((1, 2000), some 'y')]
    cSearch (ofLt fun a b : Nat × Nat => decide (a.2 < b.2)) n c.t (2, 1000)) (.ok none) := by
  refine ⟨9, fun n hn => ?_⟩
  obtain ⟨m, rfl⟩ : ∃ m, n = m + 9 := ⟨n - 9, by omega⟩
  rfl

/-- Increasing insertions: the same tree as in Python. -/
example : (cAvlBuild (ofLt fun a b : Nat => decide (a < b)) 30 true
      [(1, some 'a'), (2, some 'b'), (3, none), (4, some 'c'), (5, none), (6, none), (7, some 'z'), (5, some 'q')]).bind (fun c => do
        let l ← ctDfs 40 c.t .pre none
        let r ← cNode c.t c.t.rootIdx
        .ok (c.t.rootIdx, r.height, r.size, l.map (·.key))) =
      .ok (3, 2, 7, [some 4, some 2, some 1, some 3, some 6, some 5, some 7]) := by decide +kernel

/-! ## Beyond 257 nodes -/

theorem cSearch_mono (cmp : κ → κ → Int) (t : BTree κ δ) (k : κ) : FuelMono (fun n => cSearch cmp n t k) := by
  refine .bind (f := fun n => cSearchP cmp n t k) (k := fun _ r => .ok (r.bind (·.1))) ?_ fun _ => .const _
  refine .bind (f := fun _ => cNode t t.rootIdx)
    (k := fun n r => if r.key = none then .ok none else do
      let s ← whileLoop n bstSearchCond (cSearchBody cmp t k) ⟨some t.rootIdx, none, false⟩
      .ok (some (s.walk, s.parent))) (.const _) fun r => ?_
  exact .ite (.const _) (.bind (.whileC _) fun _ => .const _)

theorem cUpdateSize_mono (t : BTree κ δ) (o : Option Nat) : FuelMono (fun n => cUpdateSize n t o) := by
  unfold cUpdateSize
  exact .ite (.bind (.whileC _) fun _ => .const _) (.const _)

theorem cInsert_mono (cmp : κ → κ → Int) (c : CTree κ δ) (k : κ) (d : Option δ) : FuelMono (fun n => cInsert cmp n c k d) := by
  unfold cInsert
  refine .bind (cSearch_mono cmp c.t k) fun r => ?_
  cases r with
  | some i => exact .const _
  | none =>
    refine .bind (.const _) fun r => ?_
    refine .ite (.const _) ?_
    refine .bind (.whileC _) fun s => ?_
    exact .bind (cUpdateSize_mono _ _) fun _ => .const _

theorem cAvlInsert_mono (cmp : κ → κ → Int) (c : CTree κ δ) (k : κ) (d : Option δ) : FuelMono (fun n => cAvlInsert cmp n c k d) := by
  unfold cAvlInsert
  refine .bind (cInsert_mono cmp c k d) fun c => ?_
  refine .bind (.const _) fun r => ?_
  unfold cAvlBalance
  exact .bind (.bind (.whileC _) fun _ => .const _) fun _ => .const _

theorem cAvlBuild_mono (cmp : κ → κ → Int) (os : Bool) (ops : List (κ × Option δ)) : FuelMono (fun n => cAvlBuild cmp n os ops) := by
  unfold cAvlBuild
  refine .bind (.const _) fun c => ?_
  induction ops generalizing c with
  | nil => exact .const _
  | cons op ops ih =>
    simp only [List.foldlM_cons]
    exact .bind (cAvlInsert_mono cmp c op.1 op.2) fun c => ih c

/-- The tree below a link, to depth `n`. -/
def shapeAt : Nat → BTree κ δ → Option Nat → Shape
  | 0, _, _ => .leaf
  | _ + 1, _, none => .leaf
  | n + 1, t, some i =>
    match t.at i with
    | none => .leaf
    | some nd => .node (shapeAt n t nd.left) i (shapeAt n t nd.right)

theorem shapeAt_eq {t : BTree κ δ} : ∀ (n : Nat) (T : Shape) (p : Option Nat), Linked false t.at p T → T.depth ≤ n → shapeAt n t T.root = T := by
  intro n
  induction n with
  | zero =>
    intro T p _ hd
    cases T with
    | leaf => rfl
    | node l i r => simp [Shape.depth] at hd
  | succ n ih =>
    intro T p h hd
    cases T with
    | leaf => rfl
    | node l i r =>
      obtain ⟨⟨nd, en, n1, n2, _⟩, hl, hr⟩ := h
      simp only [Shape.depth] at hd
      simp only [root_node, shapeAt, en, n1, n2, ih l _ hl (by omega), ih r _ hr (by omega)]

/-- `Balanced`, computed. -/
def balancedB : Shape → Bool
  | .leaf => true
  | .node l _ r => decide (l.depth ≤ r.depth + 1) && decide (r.depth ≤ l.depth + 1) && balancedB l && balancedB r

theorem balancedB_iff (T : Shape) : balancedB T = true ↔ Balanced T := by
  induction T with
  | leaf => simp [balancedB, Balanced]
  | node l i r ih1 ih2 => simp [balancedB, Balanced, ih1, ih2, and_assoc]

/-- **C111**, in full, for the balance: after any history of insertions sibling subtrees differ in height by at most one. -/
def C111_full (lt : κ → κ → Bool) (δ : Type) : Prop :=
  ∀ ops : List (κ × Option δ), ops ≠ [] → ∃ c T, EndsWith (fun n => cAvlBuild (ofLt lt) n false ops) (.ok c) ∧ HoldsTree c.t c.t.rootIdx T ∧ Balanced T

end Props
