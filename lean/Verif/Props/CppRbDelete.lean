import Verif.Lemmas.CppRbDelete
import Verif.Props.CppRb
import Verif.Props.CppAvlDelete
import Verif.Props.RedBlackDelete

/-!
# C114: the C++ red-black tree under insertions and deletions
-/
namespace Props
open Py Model Model.Cpp Spec
set_option linter.unusedSectionVars false
variable {κ δ : Type} [DecidableEq κ]

/-! ## Specification -/

/-- One call on a C++ red-black tree. -/
def cRbStep (cmp : κ → κ → Int) (fuel : Nat) (c : CTree κ δ) : BstOp κ δ → PyM (CTree κ δ × Bool)
  | .insert k d => do
    let c ← cRbInsert cmp fuel c k d
    .ok (c, false)
  | .delete k => cRbDelete cmp fuel c k

/-- The calls of a history, with the values they return. -/
def cRbRun (cmp : κ → κ → Int) (fuel : Nat) : CTree κ δ → List (BstOp κ δ) → PyM (CTree κ δ × List Bool)
  | c, [] => .ok (c, [])
  | c, op :: ops => do
    let r ← cRbStep cmp fuel c op
    let q ← cRbRun cmp fuel r.1 ops
    .ok (q.1, r.2 :: q.2)

/-- The calls of a history on a new tree. -/
def cRbHistory (cmp : κ → κ → Int) (fuel : Nat) (ops : List (BstOp κ δ)) : PyM (CTree κ δ × List Bool) := do
  let c ← ctNew false none none
  cRbRun cmp fuel c ops

/-- The tree serves the entries `D` and is a red-black tree. -/
def CServesRb (lt : κ → κ → Bool) (t : BTree κ δ) (D : List (κ × Option δ)) : Prop :=
  CServes lt t D ∧ (D ≠ [] → RedBlackShape t D.length)

/-- **C114**, in full: any history, starting with a new tree. -/
def C114_full (lt : κ → κ → Bool) (δ : Type) : Prop :=
  ∀ ops : List (BstOp κ δ), ∃ c, EndsWith (fun n => cRbHistory (ofLt lt) n ops) (.ok (c, bstReturns [] ops)) ∧ CServesRb lt c.t (bstContents [] ops)

/-! ## One call -/

theorem le_rbStep {lt : κ → κ → Bool} (ht : StrictTotal (ltRel lt)) {t : BTree κ δ} {D : List (κ × Option δ)} (h : RbHas lt t D) (op : BstOp κ δ)
    (hc : CopesRb t D op) : ∃ n0, ∀ fuel, n0 ≤ fuel → ∀ r, rbStep lt fuel t op = .ok r → cRbStep (ofLt lt) fuel (onC t) op = .ok (onC r.1, r.2) := by
  obtain ⟨t', _, cnt, n1, h1⟩ := rbHas_step ht h op hc
  cases op with
  | insert k d =>
    have key : ∃ n0, ∀ fuel, n0 ≤ fuel → t.top ≤ t.arr.length ∧ grown t ≤ 4 * (t.num + 1) ∨
        (∃ i, bstSearch lt fuel t k = .ok (some i)) ∨ ∃ n, getNode t t.rootIdx = .ok n ∧ n.key = none := by
      obtain ⟨E, hp, hst⟩ := h
      rcases hst with ⟨rfl, hcl⟩ | ⟨T, hT, hs⟩
      · obtain ⟨n, e, hk, _⟩ := hcl.root
        exact ⟨0, fun _ _ => .inr (.inr ⟨n, getNode_ok e, hk⟩)⟩
      · have st := hT.holding hs
        refine insert_safe ht hT.tree st.srt st.ent st.cap hp (.inr (hc.2.resolve_left ?_).2)
        rintro rfl
        have := hp.length_eq
        have h2 := st.ent.length
        have h4 := List.length_pos_of_mem (Shape.root_mem hT.tree.root)
        simp at this; rw [this] at h2; simp at h2; omega
    obtain ⟨n0, hk⟩ := key
    refine ⟨n0, fun fuel hf r hr => ?_⟩
    obtain ⟨t2, e, hr⟩ := Py.bind_ok hr
    cases hr
    have e' := e
    unfold rbInsert at e'
    obtain ⟨t1, e1, e'⟩ := Py.bind_ok e'
    simp only [cRbStep, le_rbInsert e1 e (le_insert lt fuel t k d (hk fuel hf) _ e1), ok_bind]
  | delete k =>
    refine ⟨n1, fun fuel hf r hr => ?_⟩
    have e := h1 fuel hf
    rw [hr] at e
    cases e
    have hl : t'.arr.length = t.arr.length := cnt
    have := le_rbDelete lt fuel t t.arr.length k _ hr
    simp only [cRbStep, onC, this, hl]

/-! ## Histories -/

theorem le_rbRun {lt : κ → κ → Bool} (ht : StrictTotal (ltRel lt)) : ∀ (ops : List (BstOp κ δ)) (t : BTree κ δ) (D : List (κ × Option δ)),
    RbHas lt t D → (∃ n0, ∀ fuel, n0 ≤ fuel → CopesRbAll lt fuel t D ops) →
    ∃ t', RbHas lt t' (bstContents D ops) ∧ EndsWith (fun n => cRbRun (ofLt lt) n (onC t) ops) (.ok (onC t', bstReturns D ops)) := by
  intro ops
  induction ops with
  | nil => intro t D h _; exact ⟨t, h, 0, fun _ _ => rfl⟩
  | cons op ops ih =>
    rintro t D h ⟨n0, hc⟩
    have hc0 := (hc n0 (Nat.le_refl _)).1
    obtain ⟨t1, h1, _, n1, r1⟩ := rbHas_step ht h op hc0
    obtain ⟨n3, r3⟩ := le_rbStep ht h op hc0
    obtain ⟨t2, h2, n2, r2⟩ := ih t1 _ h1 ⟨max n0 n1, fun fuel hf => (hc fuel (by omega)).2 _ (r1 fuel (by omega))⟩
    refine ⟨t2, h2, max n1 (max n2 n3), fun fuel hf => ?_⟩
    have e1 := r3 fuel (by omega) _ (r1 fuel (by omega))
    have e2 := r2 fuel (by omega)
    simp only at e2
    simp only [cRbRun, e1, e2, ok_bind, bstReturns]

/-- **C114** for the histories the array copes with, as in C84: only keys that are not present are inserted, and only while the size is the position at which the array appends, and no
deletion makes the array contract. Missing: the other histories, for which the claim is false (`C114_full_false`, `C114_contraction`). -/
theorem C114_copes_partial {lt : κ → κ → Bool} (ht : StrictTotal (ltRel lt)) (ops : List (BstOp κ δ))
    (hc : ∃ n0, ∀ fuel, n0 ≤ fuel → CopesRbAll lt fuel (btEmpty false) [] ops) :
    ∃ c, EndsWith (fun n => cRbHistory (ofLt lt) n ops) (.ok (c, bstReturns [] ops)) ∧ CServesRb lt c.t (bstContents [] ops) := by
  obtain ⟨t, h, n0, hr⟩ := le_rbRun ht ops _ [] (RbHas.empty lt) hc
  refine ⟨onC t, ⟨n0, fun n hn => ?_⟩, (h.serves ht).1.c, (h.serves ht).2⟩
  simp only [cRbHistory, ctNew_empty, ok_bind]
  exact hr n hn

theorem copesRb_fill {lt : κ → κ → Bool} (ht : StrictTotal (ltRel lt)) (rest : List (BstOp κ δ)) : ∀ (ins : List (κ × Option δ)) (t : BTree κ δ) (D : List (κ × Option δ)),
    RbHas lt t D → FullOf t D.length → (ins.map (·.1)).Nodup → (∀ e ∈ ins, ¬ Has D e.1) →
    (∀ t', RbHas lt t' (bstContents D (insertsOf ins)) → FullOf t' (bstContents D (insertsOf ins)).length →
      ∃ n0, ∀ fuel, n0 ≤ fuel → CopesRbAll lt fuel t' (bstContents D (insertsOf ins)) rest) →
    ∃ n0, ∀ fuel, n0 ≤ fuel → CopesRbAll lt fuel t D (insertsOf ins ++ rest) := by
  intro ins
  induction ins with
  | nil => intro t D h hf _ _ hc; exact hc t h hf
  | cons e ins ih =>
    intro t D h hf hnd hab hc
    simp only [List.map_cons, List.nodup_cons] at hnd
    have hco : CopesRb t D (.insert e.1 e.2) := by
      obtain ⟨f1, f2, f3, f4, f5⟩ := hf
      refine ⟨hab e (by simp), .inr ⟨f1, ?_⟩⟩
      unfold grown; split <;> omega
    obtain ⟨t1, h1, c1, n1, r1⟩ := rbHas_step ht h (.insert e.1 e.2) hco
    obtain ⟨n2, r2⟩ := ih t1 _ h1 (full_insert (h.bstHas.nodup_keys ht) e.1 e.2 hf c1) hnd.2 (by
      intro e' he' hh
      rcases has_spec_insert hh with heq | hh
      · exact hnd.1 (by rw [← heq]; exact List.mem_map_of_mem he')
      · exact hab e' (by simp [he']) hh) hc
    refine ⟨max n1 n2, fun fuel hf => ⟨hco, fun r hr => ?_⟩⟩
    rw [r1 fuel (by omega)] at hr
    cases hr
    exact r2 fuel (by omega)

theorem copesRb_thin {lt : κ → κ → Bool} (ht : StrictTotal (ltRel lt)) {n : Nat} : ∀ (ks : List κ) (t : BTree κ δ) (D : List (κ × Option δ)),
    RbHas lt t D → t.arr.length + 1 ≤ 2 * max n 1 → KeepsHalf n D ks → ∃ n0, ∀ fuel, n0 ≤ fuel → CopesRbAll lt fuel t D (ks.map .delete) := by
  intro ks
  induction ks with
  | nil => intro t D h _ _; exact ⟨0, fun _ _ => trivial⟩
  | cons k ks ih =>
    intro t D h hlen hg
    have hn := h.bstHas.nodup_keys ht
    have hle := (delete_sublist (bstSpec D (.delete k)) ks).length_le
    have hg' : KeepsHalf n (bstSpec D (.delete k)) ks := hg
    have hc : CopesRb t D (.delete k) := by
      by_cases hk : Has D k
      · have := spec_delete_length hn hk
        by_cases h1 : D.length = 1
        · exact .inr (.inl h1)
        · have hpos : 0 < D.length := by obtain ⟨d, hd⟩ := hk; exact List.length_pos_of_mem hd
          unfold KeepsHalf at hg'
          exact .inr (.inr (by omega))
      · exact .inl hk
    obtain ⟨t1, h1, c1, n1, r1⟩ := rbHas_step ht h (.delete k) hc
    have c1' : t1.arr.length = t.arr.length := c1
    obtain ⟨n2, r2⟩ := ih t1 _ h1 (by rw [c1']; exact hlen) hg'
    refine ⟨max n1 n2, fun fuel hf => ⟨hc, fun r hr => ?_⟩⟩
    rw [r1 fuel (by omega)] at hr
    cases hr
    exact r2 fuel (by omega)

/-- **C114** for distinct keys that are first all inserted, in any order, and then deleted in any order as long as at least half of them remain: every `delete` returns whether the key
was there, and afterwards searches and in-order traversal answer as the entries demand and the tree is a red-black tree. Missing: see `C114_copes_partial`. -/
theorem C114_fill_and_thin_partial {lt : κ → κ → Bool} (ht : StrictTotal (ltRel lt)) (ins : List (κ × Option δ)) (hd : (ins.map (·.1)).Nodup) (ks : List κ)
    (hg : KeepsHalf (bstContents [] (insertsOf ins)).length (bstContents [] (insertsOf ins)) ks) :
    ∃ c, EndsWith (fun n => cRbHistory (ofLt lt) n (insertsOf ins ++ ks.map .delete)) (.ok (c, bstReturns [] (insertsOf ins ++ ks.map .delete))) ∧
      CServesRb lt c.t (bstContents [] (insertsOf ins ++ ks.map .delete)) := by
  refine C114_copes_partial ht _ (copesRb_fill ht (ks.map .delete) ins (btEmpty false) [] (RbHas.empty lt) fullOf_empty hd (by rintro e _ ⟨_, h⟩; cases h) ?_)
  rintro t' h ⟨g1, g2, g3, g4, g5⟩
  exact copesRb_thin ht (n := (bstContents [] (insertsOf ins)).length) ks t' _ h (by omega) hg

/-- Such a history: twelve keys, six of them deleted (a red leaf, black leaves with red and black siblings, nodes with one and two children), and an absent key. The tree is the one of
Python (C84). -/
example : KeepsHalf (bstContents [] (insertsOf ((List.range 12).map fun i => (7 * i % 12, some i)))).length
    (bstContents [] (insertsOf ((List.range 12).map fun i => (7 * i % 12, some i)))) [3, 99, 7, 0, 5, 11, 2] := by unfold KeepsHalf; decide

example : ((cRbHistory (ofLt fun a b : Nat => decide (a < b)) 60 (insertsOf ((List.range 12).map fun i => (7 * i % 12, some i)) ++ [3, 99, 7, 0, 5, 11, 2].map .delete)).bind fun r => do
      let l ← ctDfs 60 r.1.t .pre none
      .ok (l.map (fun n => (n.key, n.color)), r.2.drop 12)) =
    .ok ([(some 6, some 0), (some 1, some 0), (some 4, some 1), (some 9, some 1), (some 8, some 0), (some 10, some 0)], [true, false, true, true, true, true, true]) := by decide +kernel

/-! ## The claim fails in general -/

/-- Inserting two keys, deleting the second and inserting another: the method takes an empty slot for a node, which is undefined behaviour. -/
theorem C114_insert_after_delete : EndsWith (fun n => cRbHistory (ofLt fun a b : Nat => decide (a < b)) n ([.insert 1 none, .insert 2 none, .delete 2, .insert 3 none] : List (BstOp Nat String)))
    (.error .undefined) := by
  refine ⟨20, fun n hn => ?_⟩
  obtain ⟨m, rfl⟩ : ∃ m, n = m + 20 := ⟨n - 20, by omega⟩
  rfl

/-- Eight keys, of which five are deleted: the array contracts while a node with one child is removed, and the repair goes on with the position the child had before. -/
theorem C114_contraction : EndsWith (fun n => cRbHistory (ofLt fun a b : Nat => decide (a < b)) n
    ((List.range 8).map (fun i => (.insert i none : BstOp Nat String)) ++ [4, 3, 2, 1, 0].map .delete)) (.error .undefined) := by
  refine ⟨40, fun n hn => ?_⟩
  obtain ⟨m, rfl⟩ : ∃ m, n = m + 40 := ⟨n - 40, by omega⟩
  rfl

theorem C114_full_false : ¬ C114_full (fun a b : Nat => decide (a < b)) String := by
  intro h
  obtain ⟨t, ⟨n0, hr⟩, _⟩ := h [.insert 1 none, .insert 2 none, .delete 2, .insert 3 none]
  obtain ⟨n2, h2⟩ := C114_insert_after_delete
  have e0 := hr (max n0 n2) (by omega)
  have e2 := h2 (max n0 n2) (by omega)
  simp only at e0 e2
  rw [e0] at e2
  cases e2

end Props
