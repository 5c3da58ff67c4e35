import Verif.Props.CppCart
import Verif.Props.CppAvlDelete
import Verif.Props.CartDelete

/-!
# C120: the C++ Cartesian tree and treap under insertions and deletions
-/
namespace Props
open Py Model Model.Cpp Spec
set_option linter.unusedSectionVars false
variable {κ δ : Type} [DecidableEq κ]

/-! ## Specification -/

/-- One call on a C++ Cartesian tree. -/
def cCartStep (cmp : κ → κ → Int) (fuel : Nat) (c : CTree κ δ) : CartOp κ δ → PyM (CTree κ δ × Bool)
  | .insert k p d => do
    let c ← cCartInsert cmp fuel c k p d
    .ok (c, false)
  | .delete k => cCartDelete cmp fuel c k

/-- The calls of a history, with the values they return. -/
def cCartRun (cmp : κ → κ → Int) (fuel : Nat) : CTree κ δ → List (CartOp κ δ) → PyM (CTree κ δ × List Bool)
  | c, [] => .ok (c, [])
  | c, op :: ops => do
    let r ← cCartStep cmp fuel c op
    let q ← cCartRun cmp fuel r.1 ops
    .ok (q.1, r.2 :: q.2)

/-- The calls of a history on a new tree. -/
def cCartHistory (cmp : κ → κ → Int) (fuel : Nat) (os : Bool) (ops : List (CartOp κ δ)) : PyM (CTree κ δ × List Bool) := do
  let c ← ctNew os none none
  cCartRun cmp fuel c ops

/-- The tree serves the entries `D` and is a heap for the priorities `pr`. -/
def CServesCart (lt : κ → κ → Bool) (t : BTree κ δ) (D : List (κ × Option δ)) (pr : κ → Option Int) : Prop :=
  CServes lt t D ∧ (D ≠ [] → HeapShape t pr)

/-- The priority of an insertion is at most 2^53 in absolute value, so that a double holds it exactly. -/
def SmallPrio : CartOp κ δ → Prop
  | .insert _ p _ => p.natAbs ≤ 2 ^ 53
  | .delete _ => True

/-- **C120**, in full: any history with such priorities, starting with a new tree. -/
def C120_full (lt : κ → κ → Bool) (δ : Type) : Prop :=
  ∀ (os : Bool) (ops : List (CartOp κ δ)), (∀ op ∈ ops, SmallPrio op) → ∃ c, EndsWith (fun n => cCartHistory (ofLt lt) n os ops) (.ok (c, bstReturns [] (ops.map CartOp.plain))) ∧
    CServesCart lt c.t (bstContents [] (ops.map CartOp.plain)) (lastPrio ops)

/-! ## One call -/

/-- The recorded size of the array is right, or no node can be added any more. -/
def SizeKnown (t : BTree κ δ) (o : Nat) : Prop := o = t.arr.length ∨ t.top < t.size

theorem le_cartStep {lt : κ → κ → Bool} (ht : StrictTotal (ltRel lt)) {t : BTree κ δ} {D : List (κ × Option δ)} {pr : κ → Option Int} (h : CartHas lt t D pr) (op : CartOp κ δ)
    (hsm : SmallPrio op) (hc : CopesCart t D op) {o : Nat} (ho : SizeKnown t o) {t' : BTree κ δ} (hct : CartCounts t t' D op) :
    ∃ o', SizeKnown t' o' ∧ ∃ n0, ∀ fuel, n0 ≤ fuel → ∀ b, cartStep lt fuel t op = .ok (t', b) → cCartStep (ofLt lt) fuel ⟨t, o⟩ op = .ok (⟨t', o'⟩, b) := by
  obtain ⟨E, hp, hst⟩ := h
  cases op with
  | insert k p d =>
    rcases hst with ⟨rfl, hcl⟩ | ⟨T, hT, hs⟩
    · obtain ⟨n, e, hk, _⟩ := hcl.root
      refine ⟨o, ?_, 0, fun fuel _ b hr => ?_⟩
      · have hs := hct.1 (.inl (List.nil_perm.mp hp))
        unfold SizeKnown; rw [hs.len, hs.top, hs.size]; exact ho
      · obtain ⟨t2, e2, hr⟩ := Py.bind_ok hr
        cases hr
        have e' := e2
        unfold cartInsert at e'
        obtain ⟨t1, e1, e'⟩ := Py.bind_ok e'
        have hi : cInsert (ofLt lt) fuel ⟨t, o⟩ k d = .ok ⟨t1, o⟩ := by
          have hS : bstSearch lt fuel t k = .ok none := by simp only [bstSearch, bstSearchP, getNode_ok e, hk, ok_bind]; rfl
          simp only [bstInsert, hS, ok_bind, bstInsertNew, getNode_ok e, hk, if_true] at e1
          simp only [cInsert, le_search _ _ _ _ _ hS, ok_bind, cInsertNew, le_node _ _ _ (getNode_ok e), hk, if_true, le_mod _ _ _ _ e1]
        simp only [cCartStep, cCartInsert, asDouble_small hsm, (le_cartPut_at e1 e2 hi).1, ok_bind]
    · have st := hT.stored
      have hne : D ≠ [] := by
        rintro rfl
        have := hp.length_eq
        have h2 := st.ent.length
        have h4 := List.length_pos_of_mem (Shape.root_mem st.tree.root)
        simp at this; rw [this] at h2; simp at h2; omega
      obtain ⟨hz, hg⟩ := hc.2.2.resolve_left hne
      have ho' : o = t.arr.length := ho.resolve_right (by omega)
      subst ho'
      obtain ⟨n0, hk⟩ := insert_safe ht st.tree (st.srt hs) st.ent st.cap hp (.inr hg) (k := k)
      refine ⟨t'.arr.length, .inl rfl, n0, fun fuel hf b hr => ?_⟩
      obtain ⟨t2, e, hr⟩ := Py.bind_ok hr
      cases hr
      have e' := e
      unfold cartInsert at e'
      obtain ⟨t1, e1, e'⟩ := Py.bind_ok e'
      have := (le_cartPut e1 e (le_insert lt fuel t k d (hk fuel hf) _ e1)).1
      unfold onC at this
      simp only [cCartStep, cCartInsert, asDouble_small hsm, this, ok_bind]
  | delete k =>
    have hk : SizeKnown t' o := by
      obtain ⟨h1, h2, h3⟩ := hct
      rcases ho with ho | ho
      · rcases h3 with h3 | h3
        · exact .inl (by rw [h3]; exact ho)
        · exact .inr h3
      · exact .inr (by omega)
    rcases hst with ⟨rfl, hcl⟩ | ⟨T, hT, hs⟩
    · obtain ⟨n, er, hk', _⟩ := hcl.root
      refine ⟨o, hk, 0, fun fuel _ b hr => le_cartDelete (fun i t2 e1 e2 => ?_) _ hr⟩
      have : bstSearch lt fuel t k = .ok none := by simp only [bstSearch, bstSearchP, getNode_ok er, hk', ok_bind]; rfl
      rw [this] at e1
      cases e1
    by_cases hh : ∃ d, (k, d) ∈ E
    · obtain ⟨d, hd⟩ := hh
      obtain ⟨i, t1, q, n, h1, h2, h3, n0, hrun⟩ := cart_trickled ht hT hs hd
      refine ⟨o, hk, n0, fun fuel hf b hr => le_cartDelete (fun i' t2 e1 e2 => ?_) _ hr⟩
      obtain ⟨a1, a2, a3⟩ := hrun fuel hf
      rw [a1] at e1
      cases e1
      rw [a2] at e2
      cases e2
      exact le_deleteLeaf a3 h1 h2 h3
    · obtain ⟨c, S, rfl, hF, hrun⟩ := search_spec ht hT.stored.tree (hT.stored.srt hs) k
      rcases hF.here with rfl | ⟨l, i, r, rfl, hki⟩
      · refine ⟨o, hk, (Around.plug c .leaf).depth + 2, fun fuel hf b hr => le_cartDelete (fun i t2 e1 e2 => ?_) _ hr⟩
        rw [hrun fuel (by omega)] at e1
        cases e1
      · refine absurd ?_ hh
        have hi : i ∈ (Around.plug c (.node l i r)).ids := by rw [mem_plug]; simp [Shape.ids]
        have hm : entryAt t.at i ∈ E.map some := by rw [← hT.stored.ent]; exact List.mem_map_of_mem hi
        obtain ⟨e', h1, h2⟩ := List.mem_map.mp hm
        have h3 := keyOf_entry h2.symm
        rw [hki] at h3
        cases h3
        exact ⟨e'.2, h1⟩

/-! ## Histories -/

theorem le_cartRun {lt : κ → κ → Bool} (ht : StrictTotal (ltRel lt)) : ∀ (ops : List (CartOp κ δ)) (t : BTree κ δ) (D : List (κ × Option δ)) (pr : κ → Option Int),
    CartHas lt t D pr → (∀ op ∈ ops, SmallPrio op) → (∃ n0, ∀ fuel, n0 ≤ fuel → CopesCartAll lt fuel t D ops) → ∀ {t' : BTree κ δ} {l : List Bool} {o : Nat}, SizeKnown t o →
    EndsWith (fun n => cartRun lt n t ops) (.ok (t', l)) → ∃ o', EndsWith (fun n => cCartRun (ofLt lt) n ⟨t, o⟩ ops) (.ok (⟨t', o'⟩, l)) := by
  intro ops
  induction ops with
  | nil =>
    rintro t D pr h _ _ t' l o _ ⟨n, hr⟩
    have := hr n (Nat.le_refl _)
    cases this
    exact ⟨o, 0, fun _ _ => rfl⟩
  | cons op ops ih =>
    rintro t D pr h hsm ⟨n0, hc⟩ t' l o ho ⟨n4, h4⟩
    have hc0 := (hc n0 (Nat.le_refl _)).1
    obtain ⟨t1, h1, hct, n1, r1⟩ := cartHas_step ht h op hc0
    obtain ⟨o1, ho1, n3, r3⟩ := le_cartStep ht h op (hsm op (by simp)) hc0 ho hct
    have key : ∀ fuel, max n1 n4 ≤ fuel → ∃ q, cartRun lt fuel t1 ops = .ok q ∧ (q.1, bstReturn D op.plain :: q.2) = (t', l) := by
      intro fuel hf
      have e4 := h4 fuel (by omega)
      simp only [cartRun, r1 fuel (by omega), ok_bind] at e4
      obtain ⟨q, e5, e4⟩ := Py.bind_ok e4
      cases e4
      exact ⟨q, e5, rfl⟩
    obtain ⟨q, _, hq⟩ := key _ (Nat.le_refl _)
    have hrest : EndsWith (fun n => cartRun lt n t1 ops) (.ok (t', q.2)) := by
      refine ⟨max n1 n4, fun fuel hf => ?_⟩
      obtain ⟨q', e, hq'⟩ := key fuel hf
      rw [← hq] at hq'
      injection hq' with a b
      injection b with _ b
      injection hq with c _
      rw [← b, ← c, ← a]
      exact e
    obtain ⟨o2, n2, r2⟩ := ih t1 _ _ h1 (fun o ho => hsm o (by simp [ho])) ⟨max n0 n1, fun fuel hf => (hc fuel (by omega)).2 _ (r1 fuel (by omega))⟩ ho1 hrest
    refine ⟨o2, max n1 (max n2 n3), fun fuel hf => ?_⟩
    have e1 := r3 fuel (by omega) _ (r1 fuel (by omega))
    have e2 := r2 fuel (by omega)
    simp only at e2
    simp only [cCartRun, e1, e2, ok_bind]
    injection hq with _ b
    rw [← b]

/-- **C120** for the histories the array copes with: only absent keys are inserted, a new key only while the last position is filled,
and an emptied tree is filled again only if its root is still marked. Missing: the other histories, for which the claim is
false (`C120_full_false`, `C120_unmarked_root`, `C119_again`). -/
theorem C120_copes_partial {lt : κ → κ → Bool} (ht : StrictTotal (ltRel lt)) (os : Bool) (ops : List (CartOp κ δ)) (hsm : ∀ op ∈ ops, SmallPrio op)
    (hc : ∃ n0, ∀ fuel, n0 ≤ fuel → CopesCartAll lt fuel (btEmpty os) [] ops) :
    ∃ c, EndsWith (fun n => cCartHistory (ofLt lt) n os ops) (.ok (c, bstReturns [] (ops.map CartOp.plain))) ∧
      CServesCart lt c.t (bstContents [] (ops.map CartOp.plain)) (lastPrio ops) := by
  obtain ⟨t, h1, h2, h3⟩ := C86_copes_partial ht os ops hc
  obtain ⟨o', n0, hr⟩ := le_cartRun ht ops _ [] _ (CartHas.empty lt os fun _ => none) hsm hc (.inl rfl) h1
  refine ⟨⟨t, o'⟩, ?_, h2.c, h3⟩
  refine ⟨n0, fun n hn => ?_⟩
  simp only [cCartHistory, ctNew_empty, ok_bind]
  exact hr n hn

/-- **C120** for distinct keys that are first all inserted, in any order and with any priorities, and then any keys deleted in any order, down to the empty
tree: every `delete` returns whether the key was there, and afterwards searches and in-order traversal answer as the entries demand and the
tree is a heap for the priorities. For treaps this holds whatever numbers are drawn. Missing: see `C120_full_false` and `C120_unmarked_root`. -/
theorem C120_fill_and_delete_partial {lt : κ → κ → Bool} (ht : StrictTotal (ltRel lt)) (os : Bool) (ins : List (κ × Int × Option δ)) (hd : (ins.map (·.1)).Nodup)
    (hsm : ∀ e ∈ ins, e.2.1.natAbs ≤ 2 ^ 53) (ks : List κ) :
    ∃ c, EndsWith (fun n => cCartHistory (ofLt lt) n os (cartInsertsOf ins ++ cartDeletesOf ks))
        (.ok (c, bstReturns [] (insertsOf (ins.map fun e => (e.1, e.2.2)) ++ ks.map .delete))) ∧
      CServesCart lt c.t (bstContents [] (insertsOf (ins.map fun e => (e.1, e.2.2)) ++ ks.map .delete)) (lastPrio (cartInsertsOf ins : List (CartOp κ δ))) := by
  have ePl : ∀ ins : List (κ × Int × Option δ), (cartInsertsOf ins).map CartOp.plain = insertsOf (ins.map fun e => (e.1, e.2.2)) := by
    intro ins; simp [cartInsertsOf, insertsOf, CartOp.plain]
  have ePd : (cartDeletesOf ks : List (CartOp κ δ)).map CartOp.plain = ks.map .delete := by simp [cartDeletesOf, CartOp.plain]
  have hfe : FullOf (btEmpty os : BTree κ δ) 0 := by refine ⟨rfl, rfl, rfl, ?_, ?_⟩ <;> simp [btEmpty]
  obtain ⟨n1, h1⟩ := cart_fill ht ins (btEmpty os) [] (fun _ => none) (CartHas.empty lt os _) hfe (fun _ => ⟨_, rfl, rfl⟩) hd (by rintro e _ ⟨_, h⟩; cases h)
  obtain ⟨t, hr, hs⟩ := C120_copes_partial ht os (cartInsertsOf ins ++ cartDeletesOf ks : List (CartOp κ δ)) (by
    intro op ho
    simp only [cartInsertsOf, cartDeletesOf, List.mem_append, List.mem_map] at ho
    rcases ho with ⟨e, he, rfl⟩ | ⟨k, _, rfl⟩
    · exact hsm e he
    · trivial) ⟨n1, fun fuel hf => copesCart_append _ _ _ _ (h1 fuel hf).1 fun r _ => cart_deletes _ _ _⟩
  rw [List.map_append, ePl, ePd] at hr hs
  refine ⟨t, hr, ?_⟩
  have : lastPrio (cartInsertsOf ins ++ cartDeletesOf ks : List (CartOp κ δ)) = lastPrio (cartInsertsOf ins : List (CartOp κ δ)) := by
    have hdel : ∀ ks : List κ, lastPrio (cartDeletesOf ks : List (CartOp κ δ)) = fun _ => none := by
      intro ks
      induction ks with
      | nil => rfl
      | cons k ks ih => funext x; simp only [cartDeletesOf, List.map_cons, lastPrio]; exact congrFun ih x
    funext x
    have key : ∀ ins : List (κ × Int × Option δ), lastPrio (cartInsertsOf ins ++ cartDeletesOf ks) x = lastPrio (cartInsertsOf ins) x := by
      intro ins
      induction ins with
      | nil => exact congrFun (hdel ks) x
      | cons e ins ih =>
        simp only [cartInsertsOf, List.map_cons, List.cons_append, lastPrio] at ih ⊢
        rw [ih]
    exact key ins
  rw [this] at hs
  exact hs

/-- Such a history: ten keys; eight of them are deleted, among them the root, inner nodes and leaves, and an absent key; the array contracts. -/
example : (((List.range 10).map fun i => (7 * i % 10, ((3 * i % 11 : Nat) : Int), some i)).map (·.1)).Nodup := by decide

example : ((cCartHistory (ofLt fun a b : Nat => decide (a < b)) 60 true (cartInsertsOf ((List.range 10).map fun i => (7 * i % 10, ((3 * i % 11 : Nat) : Int), some i)) ++ cartDeletesOf [0, 99, 7, 3, 5, 1])).bind fun r => do
      let l ← ctDfs 60 r.1.t .pre none
      .ok (l.map (fun n => (n.key, n.prio)), r.2.drop 10)) =
    .ok ([(some 8, some 1), (some 6, some 2), (some 4, some 6), (some 2, some 7), (some 9, some 10)], [true, false, true, true, true, true]) := by decide +kernel

example : ((cCartHistory (ofLt fun a b : Nat => decide (a < b)) 60 true (cartInsertsOf ((List.range 10).map fun i => (7 * i % 10, ((3 * i % 11 : Nat) : Int), some i)) ++ cartDeletesOf [0, 99, 7, 3, 5, 1, 8, 2, 6])).bind fun r => do
      let l ← ctDfs 60 r.1.t .pre none
      .ok (l.map (fun n => (n.key, n.prio)), r.2.drop 16, r.1.t.arr.length, r.1.oda)) =
    .ok ([(some 4, some 6), (some 9, some 10)], [true, true, true], 7, 15) := by decide +kernel

/-! ## The claim fails in general -/

/-- Inserting two keys, deleting the newer and inserting another reads a cell that holds no node: the new node is not where the tree looks for it. -/
theorem C120_insert_after_delete : EndsWith (fun n => cCartHistory (δ := String) (ofLt fun a b : Nat => decide (a < b)) n false
    [.insert 1 1 none, .insert 2 2 none, .delete 2, .insert 3 3 none]) (.error .undefined) := by
  refine ⟨20, fun n hn => ?_⟩
  obtain ⟨m, rfl⟩ : ∃ m, n = m + 20 := ⟨n - 20, by omega⟩
  simp only [cCartHistory, cCartRun, cCartStep, cCartInsert, asDouble_small (p := 1) (by decide), asDouble_small (p := 2) (by decide), asDouble_small (p := 3) (by decide), ok_bind]
  rfl

/-- Deleting the root leaves a root that is not marked as such; once the tree has been emptied, inserting a key takes the parent `None` of the root for a position. -/
theorem C120_unmarked_root : EndsWith (fun n => cCartHistory (δ := String) (ofLt fun a b : Nat => decide (a < b)) n false
    [.insert 1 1 none, .insert 2 2 none, .delete 1, .delete 2, .insert 3 3 none]) (.error .undefined) := by
  refine ⟨20, fun n hn => ?_⟩
  obtain ⟨m, rfl⟩ : ∃ m, n = m + 20 := ⟨n - 20, by omega⟩
  simp only [cCartHistory, cCartRun, cCartStep, cCartInsert, asDouble_small (p := 1) (by decide), asDouble_small (p := 2) (by decide), asDouble_small (p := 3) (by decide), ok_bind]
  rfl

theorem C120_full_false : ¬ C120_full (fun a b : Nat => decide (a < b)) String := by
  intro h
  obtain ⟨t, ⟨n0, hr⟩, _⟩ := h false [.insert 1 1 none, .insert 2 2 none, .delete 1, .delete 2, .insert 3 3 none] (by
    intro op ho
    simp only [List.mem_cons, List.not_mem_nil, or_false] at ho
    rcases ho with rfl | rfl | rfl | rfl | rfl <;> simp [SmallPrio])
  obtain ⟨n2, h2⟩ := C120_unmarked_root
  have e0 := hr (max n0 n2) (by omega)
  have e2 := h2 (max n0 n2) (by omega)
  simp only at e0 e2
  rw [e0] at e2
  cases e2

end Props
