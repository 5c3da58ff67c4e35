import Verif.Props.CppSplay
import Verif.Props.CppAvlDelete
import Verif.Props.SplayDelete

/-!
# C116: the C++ splay tree under insertions and deletions
-/
namespace Props
open Py Model Model.Cpp Spec
set_option linter.unusedSectionVars false
variable {κ δ : Type} [DecidableEq κ]

/-! ## Specification -/

/-- One call on a C++ splay tree. -/
def cSplayStep (cmp : κ → κ → Int) (fuel : Nat) (c : CTree κ δ) : BstOp κ δ → PyM (CTree κ δ × Bool)
  | .insert k d => do
    let c ← cSplayInsert cmp fuel c k d
    .ok (c, false)
  | .delete k => cSplayDelete cmp fuel c k

/-- The calls of a history, with the values they return. -/
def cSplayRun (cmp : κ → κ → Int) (fuel : Nat) : CTree κ δ → List (BstOp κ δ) → PyM (CTree κ δ × List Bool)
  | c, [] => .ok (c, [])
  | c, op :: ops => do
    let r ← cSplayStep cmp fuel c op
    let q ← cSplayRun cmp fuel r.1 ops
    .ok (q.1, r.2 :: q.2)

/-- The calls of a history on a new tree. -/
def cSplayHistory (cmp : κ → κ → Int) (fuel : Nat) (os : Bool) (ops : List (BstOp κ δ)) : PyM (CTree κ δ × List Bool) := do
  let c ← ctNew os none none
  cSplayRun cmp fuel c ops

/-- The tree serves the entries `D`, and if the last call was an `insert`, its key is at the root. -/
def CServesSplay (lt : κ → κ → Bool) (t : BTree κ δ) (D : List (κ × Option δ)) (ops : List (BstOp κ δ)) : Prop :=
  CServes lt t D ∧ ∀ k d, ops.getLast? = some (.insert k d) → rootKey t = some k

/-- **C116**, in full: any history, starting with a new tree. -/
def C116_full (lt : κ → κ → Bool) (δ : Type) : Prop :=
  ∀ (os : Bool) (ops : List (BstOp κ δ)), ∃ c, EndsWith (fun n => cSplayHistory (ofLt lt) n os ops) (.ok (c, bstReturns [] ops)) ∧
    CServesSplay lt c.t (bstContents [] ops) ops

/-! ## One call -/

theorem splay_root {fuel : Nat} {t t2 : BTree κ δ} {w : Nat} {n : BNode κ δ} {p : Option Nat} (hn : getNode t w = .ok n) (hp : n.parent = none) (h : splay fuel t w p = .ok t2) : t2 = t := by
  obtain ⟨s, e, h⟩ := Py.bind_ok h
  cases h
  cases fuel with
  | zero => cases e
  | succ f =>
    have : splayCond w (t, p) = .ok false := by simp only [splayCond, hn, ok_bind, hp]; rfl
    rw [while_stop f this] at e
    cases e; rfl

theorem le_splayStep {lt : κ → κ → Bool} (ht : StrictTotal (ltRel lt)) {t : BTree κ δ} {D : List (κ × Option δ)} (h : SplayHas lt t D) (op : BstOp κ δ)
    (hc : CopesSplay lt t D op) : ∃ n0, ∀ fuel, n0 ≤ fuel → ∀ r, splayStep lt fuel t op = .ok r → cSplayStep (ofLt lt) fuel (onC t) op = .ok (onC r.1, r.2) := by
  obtain ⟨E, hp, hst⟩ := h
  have hne : ∀ {T : Shape}, Stored t T E → D ≠ [] := by
    rintro T hT rfl
    have := hp.length_eq
    have h2 := hT.ent.length
    have h4 := List.length_pos_of_mem (Shape.root_mem hT.tree.root)
    simp at this; rw [this] at h2; simp at h2; omega
  cases op with
  | insert k d =>
    have key : ∃ n0, ∀ fuel, n0 ≤ fuel → t.top ≤ t.arr.length ∧ grown t ≤ 4 * (t.num + 1) ∨
        (∃ i, bstSearch lt fuel t k = .ok (some i)) ∨ ∃ n, getNode t t.rootIdx = .ok n ∧ n.key = none := by
      rcases hst with ⟨rfl, hcl⟩ | ⟨T, hT, hs⟩
      · obtain ⟨n, e, hk, _⟩ := hcl.root
        exact ⟨0, fun _ _ => .inr (.inr ⟨n, getNode_ok e, hk⟩)⟩
      · exact insert_safe ht hT.tree (hT.srt hs) hT.ent hT.cap hp (.inr (hc.2.2.resolve_left (hne hT)))
    obtain ⟨n0, hk⟩ := key
    refine ⟨n0, fun fuel hf r hr => ?_⟩
    obtain ⟨t2, e, hr⟩ := Py.bind_ok hr
    cases hr
    have e' := e
    unfold splayInsert at e'
    obtain ⟨t1, e1, e'⟩ := Py.bind_ok e'
    simp only [cSplayStep, le_splayInsert e1 e (le_insert lt fuel t k d (hk fuel hf) _ e1), ok_bind]
  | delete k =>
    obtain ⟨hD, hc⟩ := hc
    rcases hst with ⟨rfl, hcl⟩ | ⟨T, hT, hs⟩
    · exact absurd (List.nil_perm.mp hp) hD
    obtain ⟨n0, hk⟩ := delete_safe ht hT.tree (hT.srt hs) hT.ent hT.num hp (k := k) (hc.imp id (Or.imp id And.right))
    obtain ⟨c, S, hS, hF, hrun⟩ := searchP_spec ht hT.tree (hT.srt hs) k
    refine ⟨max n0 (T.depth + 2), fun fuel hf r hr => le_splayDelete (fun e p t2 e1 e2 => le_delete lt fuel t2 k ?_) r hr⟩
    rcases hk fuel (by omega) with h | h | ⟨w, n, h1, h2, h3, h4⟩
    · obtain ⟨s1, s2, s3, _⟩ := steady_splay _ _ _ _ _ e2
      exact .inl (by rw [s1, s2]; exact h)
    · simp only [bstSearch, e1, ok_bind] at h
      cases h
    · rw [e1] at h1
      cases h1
      have e3 := hrun fuel (by omega)
      rw [e1] at e3
      injection e3 with e3
      injection e3 with e3
      injection e3 with e3 e4
      obtain ⟨l, r', rfl⟩ : ∃ l r', S = .node l e r' := by
        cases S with
        | leaf => cases e3
        | node l i r' => rw [root_node] at e3; cases e3; exact ⟨l, r', rfl⟩
      subst hS
      obtain ⟨m, em, _, _, m3⟩ := hT.tree.node
      rw [getNode_ok em] at h2
      cases h2
      rw [← e4] at m3
      have := splay_root (getNode_ok em) m3 e2
      subst this
      exact .inr (.inr ⟨e, _, e1, getNode_ok em, h3, h4⟩)

/-! ## Histories -/

theorem le_splayRun {lt : κ → κ → Bool} (ht : StrictTotal (ltRel lt)) : ∀ (ops : List (BstOp κ δ)) (t : BTree κ δ) (D : List (κ × Option δ)),
    SplayHas lt t D → (∃ n0, ∀ fuel, n0 ≤ fuel → CopesSplayAll lt fuel t D ops) → ∀ {t' : BTree κ δ} {l : List Bool}, EndsWith (fun n => splayRun lt n t ops) (.ok (t', l)) →
    EndsWith (fun n => cSplayRun (ofLt lt) n (onC t) ops) (.ok (onC t', l)) := by
  intro ops
  induction ops with
  | nil =>
    rintro t D h _ t' l ⟨n, hr⟩
    have := hr n (Nat.le_refl _)
    cases this
    exact ⟨0, fun _ _ => rfl⟩
  | cons op ops ih =>
    rintro t D h ⟨n0, hc⟩ t' l ⟨n4, h4⟩
    have hc0 := (hc n0 (Nat.le_refl _)).1
    obtain ⟨t1, h1, _, _, n1, r1⟩ := splayHas_step ht h op hc0
    obtain ⟨n3, r3⟩ := le_splayStep ht h op hc0
    have key : ∀ fuel, max n1 n4 ≤ fuel → ∃ q, splayRun lt fuel t1 ops = .ok q ∧ (q.1, bstReturn D op :: q.2) = (t', l) := by
      intro fuel hf
      have e4 := h4 fuel (by omega)
      simp only [splayRun, r1 fuel (by omega), ok_bind] at e4
      obtain ⟨q, e5, e4⟩ := Py.bind_ok e4
      cases e4
      exact ⟨q, e5, rfl⟩
    obtain ⟨q, _, hq⟩ := key _ (Nat.le_refl _)
    have hrest : EndsWith (fun n => splayRun lt n t1 ops) (.ok (t', q.2)) := by
      refine ⟨max n1 n4, fun fuel hf => ?_⟩
      obtain ⟨q', e, hq'⟩ := key fuel hf
      rw [← hq] at hq'
      injection hq' with a b
      injection b with _ b
      injection hq with c _
      rw [← b, ← c, ← a]
      exact e
    obtain ⟨n2, r2⟩ := ih t1 _ h1 ⟨max n0 n1, fun fuel hf => (hc fuel (by omega)).2 _ (r1 fuel (by omega))⟩ hrest
    refine ⟨max n1 (max n2 n3), fun fuel hf => ?_⟩
    have e1 := r3 fuel (by omega) _ (r1 fuel (by omega))
    have e2 := r2 fuel (by omega)
    simp only at e2
    simp only [cSplayRun, e1, e2, ok_bind]
    injection hq with _ b
    rw [← b]

theorem cSplayHistory_run {lt : κ → κ → Bool} (ht : StrictTotal (ltRel lt)) (os : Bool) (ops : List (BstOp κ δ))
    (hc : ∃ n0, ∀ fuel, n0 ≤ fuel → CopesSplayAll lt fuel (btEmpty os) [] ops) {t : BTree κ δ} {l : List Bool} (h : EndsWith (fun n => splayRun lt n (btEmpty os) ops) (.ok (t, l))) :
    EndsWith (fun n => cSplayHistory (ofLt lt) n os ops) (.ok (onC t, l)) := by
  obtain ⟨n0, hr⟩ := le_splayRun ht ops _ [] (SplayHas.empty lt os) hc h
  refine ⟨n0, fun n hn => ?_⟩
  simp only [cSplayHistory, ctNew_empty, ok_bind]
  exact hr n hn

/-- **C116** for the histories the splay tree copes with, as in C88: only absent keys are inserted, and only while the last position is filled; deletions ask a tree that is not empty, and
remove a key between two others (or one of the last two) without making the array contract. Missing: the other histories, for which the claim is false (`C116_full_false`,
`C116_stale_parent`, `C116_delete_empty`, `C115_again`). -/
theorem C116_copes_partial {lt : κ → κ → Bool} (ht : StrictTotal (ltRel lt)) (os : Bool) (ops : List (BstOp κ δ))
    (hc : ∃ n0, ∀ fuel, n0 ≤ fuel → CopesSplayAll lt fuel (btEmpty os) [] ops) :
    ∃ c, EndsWith (fun n => cSplayHistory (ofLt lt) n os ops) (.ok (c, bstReturns [] ops)) ∧ CServesSplay lt c.t (bstContents [] ops) ops := by
  obtain ⟨t, h1, h2, h3⟩ := C88_copes_partial ht os ops hc
  exact ⟨onC t, cSplayHistory_run ht os ops hc h1, h2.c, h3⟩

theorem copesSplay_fill {lt : κ → κ → Bool} (ht : StrictTotal (ltRel lt)) (rest : List (BstOp κ δ)) : ∀ (ins : List (κ × Option δ)) (t : BTree κ δ) (D : List (κ × Option δ)),
    SplayHas lt t D → FullOf t D.length → (ins.map (·.1)).Nodup → (∀ e ∈ ins, ¬ Has D e.1) →
    (∀ t', SplayHas lt t' (bstContents D (insertsOf ins)) → FullOf t' (bstContents D (insertsOf ins)).length →
      ∃ n0, ∀ fuel, n0 ≤ fuel → CopesSplayAll lt fuel t' (bstContents D (insertsOf ins)) rest) →
    ∃ n0, ∀ fuel, n0 ≤ fuel → CopesSplayAll lt fuel t D (insertsOf ins ++ rest) := by
  intro ins
  induction ins with
  | nil => intro t D h hf _ _ hc; exact hc t h hf
  | cons e ins ih =>
    intro t D h hf hnd hab hc
    simp only [List.map_cons, List.nodup_cons] at hnd
    have hco : CopesSplay lt t D (.insert e.1 e.2) := by
      obtain ⟨f1, f2, f3, f4, f5⟩ := hf
      refine ⟨hab e (by simp), f1, .inr ?_⟩
      unfold grown; split <;> omega
    obtain ⟨t1, h1, c1, _, n1, r1⟩ := splayHas_step ht h (.insert e.1 e.2) hco
    obtain ⟨n2, r2⟩ := ih t1 _ h1 (full_insert (h.nodup_keys ht) e.1 e.2 hf c1) hnd.2 (by
      intro e' he' hh
      rcases has_spec_insert hh with heq | hh
      · exact hnd.1 (by rw [← heq]; exact List.mem_map_of_mem he')
      · exact hab e' (by simp [he']) hh) hc
    refine ⟨max n1 n2, fun fuel hf => ⟨hco, fun r hr => ?_⟩⟩
    rw [r1 fuel (by omega)] at hr
    cases hr
    exact r2 fuel (by omega)

theorem copesSplay_thin {lt : κ → κ → Bool} (ht : StrictTotal (ltRel lt)) {n : Nat} (hn0 : 1 ≤ n) : ∀ (ks : List κ) (t : BTree κ δ) (D : List (κ × Option δ)),
    SplayHas lt t D → t.arr.length + 1 ≤ 2 * n → KeepsHalf n D ks → SparesEnds lt D ks → ∃ n0, ∀ fuel, n0 ≤ fuel → CopesSplayAll lt fuel t D (ks.map .delete) := by
  intro ks
  induction ks with
  | nil => intro t D h _ _ _; exact ⟨0, fun _ _ => trivial⟩
  | cons k ks ih =>
    intro t D h hlen hg hb
    have hn := h.nodup_keys ht
    have hle := (delete_sublist (bstSpec D (.delete k)) ks).length_le
    have hle' := (delete_sublist D (k :: ks)).length_le
    have hg' : KeepsHalf n (bstSpec D (.delete k)) ks := hg
    have hc : CopesSplay lt t D (.delete k) := by
      unfold KeepsHalf at hg hg'
      refine ⟨by rintro rfl; simp only [List.length_nil] at hle'; omega, ?_⟩
      rcases hb.1 with hk | hb1
      · exact .inl hk
      · by_cases hk : Has D k
        · have := spec_delete_length hn hk
          refine .inr (.inr ⟨.inr hb1, ?_⟩)
          have hpos : 0 < D.length := by obtain ⟨d, hd⟩ := hk; exact List.length_pos_of_mem hd
          omega
        · exact .inl hk
    obtain ⟨t1, h1, c1, _, n1, r1⟩ := splayHas_step ht h (.delete k) hc
    have c1' : t1.arr.length = t.arr.length := c1
    obtain ⟨n2, r2⟩ := ih t1 _ h1 (by rw [c1']; exact hlen) hg' hb.2
    refine ⟨max n1 n2, fun fuel hf => ⟨hc, fun r hr => ?_⟩⟩
    rw [r1 fuel (by omega)] at hr
    cases hr
    exact r2 fuel (by omega)

/-- Inserting distinct keys is a history the splay tree copes with. -/
theorem copesSplay_inserts {lt : κ → κ → Bool} (ht : StrictTotal (ltRel lt)) (os : Bool) (ins : List (κ × Option δ)) (hd : (ins.map (·.1)).Nodup) :
    ∃ n0, ∀ fuel, n0 ≤ fuel → CopesSplayAll lt fuel (btEmpty os) [] (insertsOf ins) := by
  have hfe : FullOf (btEmpty os : BTree κ δ) ([] : List (κ × Option δ)).length := by refine ⟨rfl, rfl, rfl, ?_, ?_⟩ <;> simp [btEmpty]
  have := copesSplay_fill ht [] ins (btEmpty os) [] (SplayHas.empty lt os) hfe hd (by rintro e _ ⟨_, h⟩; cases h) (fun _ _ _ => ⟨0, fun _ _ => trivial⟩)
  simpa using this

/-- **C116** for distinct keys that are first all inserted, in any order, and then deleted in any order, sparing the smallest and the greatest, as long as at least half of them remain:
every `delete` returns whether the key was there, and afterwards searches and in-order traversal answer as the entries demand. Missing: see `C116_copes_partial`. -/
theorem C116_fill_and_thin_partial {lt : κ → κ → Bool} (ht : StrictTotal (ltRel lt)) (os : Bool) (ins : List (κ × Option δ)) (hne : ins ≠ []) (hd : (ins.map (·.1)).Nodup) (ks : List κ)
    (hg : KeepsHalf ins.length (bstContents [] (insertsOf ins)) ks) (hb : SparesEnds lt (bstContents [] (insertsOf ins)) ks) :
    ∃ c, EndsWith (fun n => cSplayHistory (ofLt lt) n os (insertsOf ins ++ ks.map .delete)) (.ok (c, bstReturns [] (insertsOf ins ++ ks.map .delete))) ∧
      CServes lt c.t (bstContents [] (insertsOf ins ++ ks.map .delete)) := by
  have hfe : FullOf (btEmpty os : BTree κ δ) ([] : List (κ × Option δ)).length := by refine ⟨rfl, rfl, rfl, ?_, ?_⟩ <;> simp [btEmpty]
  have hpos : 1 ≤ ins.length := by cases ins with | nil => exact absurd rfl hne | cons _ _ => simp
  obtain ⟨c, h1, h2, _⟩ := C116_copes_partial ht os (insertsOf ins ++ ks.map .delete)
    (copesSplay_fill ht (ks.map .delete) ins (btEmpty os) [] (SplayHas.empty lt os) hfe hd (by rintro e _ ⟨_, h⟩; cases h) (by
      rintro t' h ⟨g1, g2, g3, g4, g5⟩
      have hlen : (bstContents [] (insertsOf ins)).length ≤ ins.length := by
        have key : ∀ (ins D : List (κ × Option δ)), (bstContents D (insertsOf ins)).length ≤ D.length + ins.length := by
          intro ins
          induction ins with
          | nil => intro D; exact Nat.le_refl _
          | cons e ins ih =>
            intro D
            have a := ih (bstSpec D (.insert e.1 e.2))
            have b : (bstSpec D (.insert e.1 e.2)).length ≤ D.length + 1 := Nat.succ_le_succ (List.length_filter_le _ _)
            simp only [List.length_cons]
            have c : bstContents D (insertsOf (e :: ins)) = bstContents (bstSpec D (.insert e.1 e.2)) (insertsOf ins) := rfl
            rw [c]; omega
        have := key ins []; simpa using this
      exact copesSplay_thin ht hpos ks t' _ h (by omega) hg hb))
  exact ⟨c, h1, h2⟩

/-- Such a history: ten keys, five of them deleted, and an absent key; the hypotheses are shown in C88. -/
example : ((cSplayHistory (ofLt fun a b : Nat => decide (a < b)) 60 true (insertsOf ((List.range 10).map fun i => (7 * i % 10, some i)) ++ [1, 99, 7, 3, 5, 8].map .delete)).bind fun r => do
      let l ← ctDfs 60 r.1.t .ino none
      .ok (l.map (fun n => (n.key, n.data)), r.2.drop 10)) =
    .ok ([(some 0, some 0), (some 2, some 6), (some 4, some 2), (some 6, some 8), (some 9, some 7)], [true, false, true, true, true, true]) := by decide +kernel

example : KeepsHalf 10 (bstContents [] (insertsOf ((List.range 10).map fun i => (7 * i % 10, some i)))) [1, 99, 7, 3, 5, 8] := by unfold KeepsHalf; decide

/-! ## The claim fails in general -/

/-- Deleting the greatest key leaves a node whose `parent` is a position that has been freed; the next deletion reads it. -/
theorem C116_stale_parent : EndsWith (fun n => cSplayHistory (ofLt fun a b : Nat => decide (a < b)) n false
    ([.insert 1 none, .insert 2 none, .insert 3 none, .insert 4 none, .insert 5 none, .delete 5, .delete 1] : List (BstOp Nat String))) (.error .undefined) := by
  refine ⟨20, fun n hn => ?_⟩
  obtain ⟨m, rfl⟩ : ∃ m, n = m + 20 := ⟨n - 20, by omega⟩
  rfl

/-- `delete` on an empty tree takes the items of a tuple that is `None`. -/
theorem C116_delete_empty (lt : κ → κ → Bool) (os : Bool) (k : κ) : EndsWith (fun n => cSplayHistory (δ := δ) (ofLt lt) n os [.delete k]) (.error .undefined) :=
  ⟨0, fun _ _ => by simp only [cSplayHistory, ctNew_empty, ok_bind]; rfl⟩

theorem C116_full_false : ¬ C116_full (fun a b : Nat => decide (a < b)) String := by
  intro h
  obtain ⟨t, ⟨n0, hr⟩, _⟩ := h false [.insert 1 none, .insert 2 none, .insert 3 none, .insert 4 none, .insert 5 none, .delete 5, .delete 1]
  obtain ⟨n2, h2⟩ := C116_stale_parent
  have e0 := hr (max n0 n2) (by omega)
  have e2 := h2 (max n0 n2) (by omega)
  simp only at e0 e2
  rw [e0] at e2
  cases e2

end Props
