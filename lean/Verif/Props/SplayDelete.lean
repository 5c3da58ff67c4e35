import Verif.Lemmas.SplayDelete
import Verif.Props.RedBlackDelete

/-!
# C88: splay trees under insertions and deletions
-/
namespace Props
open Py Model Spec
set_option linter.unusedSectionVars false
variable {κ δ : Type} [DecidableEq κ]

/-! ## Specification -/

/-- One call on a splay tree. -/
def splayStep (lt : κ → κ → Bool) (fuel : Nat) (t : BTree κ δ) : BstOp κ δ → PyM (BTree κ δ × Bool)
  | .insert k d => do
    let t ← splayInsert lt fuel t k d
    .ok (t, false)
  | .delete k => splayDelete lt fuel t k

/-- The calls of a history, with the values they return. -/
def splayRun (lt : κ → κ → Bool) (fuel : Nat) : BTree κ δ → List (BstOp κ δ) → PyM (BTree κ δ × List Bool)
  | t, [] => .ok (t, [])
  | t, op :: ops => do
    let r ← splayStep lt fuel t op
    let q ← splayRun lt fuel r.1 ops
    .ok (q.1, r.2 :: q.2)

/-- The key of the root. -/
def rootKey (t : BTree κ δ) : Option κ := keyOf t.at t.rootIdx

/-- The tree serves the entries `D`, and if the last call was an `insert`, its key is at the root. -/
def ServesSplay (lt : κ → κ → Bool) (t : BTree κ δ) (D : List (κ × Option δ)) (ops : List (BstOp κ δ)) : Prop :=
  ServesEntries lt t D ∧ ∀ k d, ops.getLast? = some (.insert k d) → rootKey t = some k

/-- **C88**, in full: any history, starting with the empty tree. -/
def C88_full (lt : κ → κ → Bool) (δ : Type) : Prop :=
  ∀ (os : Bool) (ops : List (BstOp κ δ)), ∃ t, EndsWith (fun n => splayRun lt n (btEmpty os) ops) (.ok (t, bstReturns [] ops)) ∧
    ServesSplay lt t (bstContents [] ops) ops

/-! ## The state -/

/-- The splay tree has the entries `D`. -/
def SplayHas (lt : κ → κ → Bool) (t : BTree κ δ) (D : List (κ × Option δ)) : Prop :=
  ∃ E, E.Perm D ∧ (E = [] ∧ AvlCleared t ∨ ∃ T, Stored t T E ∧ E.Pairwise fun a b => lt a.1 b.1 = true)

theorem SplayHas.empty (lt : κ → κ → Bool) (os : Bool) : SplayHas lt (btEmpty os : BTree κ δ) [] := ⟨[], .refl _, .inl ⟨rfl, AvlCleared.empty os⟩⟩

theorem SplayHas.nodup_keys {lt : κ → κ → Bool} (ht : StrictTotal (ltRel lt)) {t : BTree κ δ} {D : List (κ × Option δ)} (h : SplayHas lt t D) : (D.map (·.1)).Nodup := by
  obtain ⟨E, hp, ⟨rfl, _⟩ | ⟨T, hT, hs⟩⟩ := h
  · rw [List.nil_perm.mp hp]; simp
  · refine (hp.map (·.1)).nodup_iff.mp ?_
    rw [List.Nodup, List.pairwise_map]
    refine hs.imp ?_
    intro a b hab he
    rw [he] at hab
    exact ht.irrefl _ hab

theorem SplayHas.serves {lt : κ → κ → Bool} (ht : StrictTotal (ltRel lt)) {t : BTree κ δ} {D : List (κ × Option δ)} (h : SplayHas lt t D) : ServesEntries lt t D := by
  have hn := h.nodup_keys ht
  obtain ⟨E, hp, ⟨rfl, hc⟩ | ⟨T, st, hs⟩⟩ := h
  · have := List.nil_perm.mp hp
    subst this
    obtain ⟨r, er, hk, _⟩ := hc.root
    refine ⟨fun k => ⟨none, ⟨0, fun n _ => ?_⟩, rfl⟩, fun h => absurd rfl h, bounds_cleared er hk⟩
    simp only [bstSearch, bstSearchP, getNode_ok er, hk, ok_bind]; rfl
  · have hcar : Carries t T (dataOf D) := st.carries fun k d => by rw [dataOf_iff hn, hp.mem_iff]
    have hsrt := st.srt hs
    exact ⟨search_map ht st.tree hsrt hcar, fun _ => inorder_map st.tree.root st.tree.linked.weaken st.tree.nodup hsrt hcar, bounds_entries ht hn st.tree hsrt hcar⟩

/-! ## One call -/

/-- The key lies strictly between two keys of the tree. -/
def Between (lt : κ → κ → Bool) (D : List (κ × Option δ)) (k : κ) : Prop := (∃ e ∈ D, lt e.1 k = true) ∧ ∃ e ∈ D, lt k e.1 = true

/-- The splay tree copes with the call: `insert` brings a new key and finds the last position filled; `delete` finds a tree that is not empty and
does not remove the smallest or greatest of three keys or more, nor make the array contract. -/
def CopesSplay (lt : κ → κ → Bool) (t : BTree κ δ) (D : List (κ × Option δ)) : BstOp κ δ → Prop
  | .insert k _ => ¬ Has D k ∧ t.size = t.top ∧ (D = [] ∨ grown t ≤ 4 * (t.num + 1))
  | .delete k => D ≠ [] ∧ (¬ Has D k ∨ D.length = 1 ∨ (D.length = 2 ∨ Between lt D k) ∧ t.arr.length ≤ 4 * (D.length - 1))

/-- One call on a splay tree that copes with it. -/
theorem splayHas_step {lt : κ → κ → Bool} (ht : StrictTotal (ltRel lt)) {t : BTree κ δ} {D : List (κ × Option δ)} (h : SplayHas lt t D) (op : BstOp κ δ)
    (hc : CopesSplay lt t D op) : ∃ t', SplayHas lt t' (bstSpec D op) ∧ Counts t t' D op ∧ (∀ k d, op = .insert k d → rootKey t' = some k) ∧
      ∃ n0, ∀ fuel, n0 ≤ fuel → splayStep lt fuel t op = .ok (t', bstReturn D op) := by
  obtain ⟨E, hp, hst⟩ := h
  have hTne : ∀ {T : Shape}, Stored t T E → D ≠ [] := by
    rintro T hT rfl
    have := hp.length_eq
    have h2 := hT.ent.length
    have h3 := Shape.root_mem hT.tree.root
    have h4 := List.length_pos_of_mem h3
    simp at this; rw [this] at h2; simp at h2; omega
  cases op with
  | insert k d =>
    obtain ⟨hk, hsz, hc⟩ := hc
    rcases hst with ⟨rfl, hcl⟩ | ⟨T, hT, hs⟩
    · have := List.nil_perm.mp hp
      subst this
      obtain ⟨t', T', h1, hr, h2, n0, h3⟩ := splayInsert_cleared (lt := lt) ht hcl k d hsz
      exact ⟨t', ⟨[(k, d)], by simp [bstSpec], .inr ⟨T', h1, by simp⟩⟩, ⟨fun _ => h2, fun h => absurd (.inl rfl) h⟩, by rintro _ _ ⟨⟩; exact hr, n0,
        fun fuel hf => by simp only [splayStep, h3 fuel hf, ok_bind]; rfl⟩
    · have hne := hTne hT
      have hg := hc.resolve_left hne
      have hk' : ∀ d, (k, d) ∉ E := fun d hd => hk ((has_perm hp k).mpr ⟨d, hd⟩)
      obtain ⟨t', T', E', h1, hs', h2, hr, o', c1, c2, c3, c4, n0, h4⟩ := splayInsert_absent ht hT hs hk' d hsz hg
      refine ⟨t', ⟨E', ?_, .inr ⟨T', h1, hs'⟩⟩, ?_, by rintro _ _ ⟨⟩; exact hr, n0, fun fuel hf => by simp only [splayStep, h4 fuel hf, ok_bind]; rfl⟩
      · simp only [bstSpec, filter_absent hk]
        exact h2.trans (hp.cons _)
      · exact ⟨fun h => absurd (h.resolve_left hne) hk, fun _ => ⟨c1, c2, c3, c4⟩⟩
  | delete k =>
    obtain ⟨hne, hc⟩ := hc
    rcases hst with ⟨rfl, hcl⟩ | ⟨T, hT, hs⟩
    · exact absurd (List.nil_perm.mp hp) hne
    by_cases hk : Has D k
    · have hret : bstReturn D (.delete k) = true := has_iff.mpr hk
      rw [hret]
      obtain ⟨d0, hd0⟩ := (has_perm hp k).mp hk
      have h4 := hc.resolve_left (fun h => h hk)
      rw [← hp.length_eq] at h4
      have hmid : E.length ≤ 2 ∨ (∃ e ∈ E, lt e.1 k = true) ∧ ∃ e ∈ E, lt k e.1 = true := by
        rcases h4 with h | ⟨h | ⟨⟨a, ha, h1⟩, ⟨b, hb, h2⟩⟩, _⟩
        · left; omega
        · left; omega
        · exact .inr ⟨⟨a, hp.mem_iff.mpr ha, h1⟩, ⟨b, hp.mem_iff.mpr hb, h2⟩⟩
      obtain ⟨t', hor, n0, hrun⟩ := splayDelete_present ht hT hs hd0 hmid (h4.imp id And.right)
      rcases hor with ⟨h1, hcl, hs'⟩ | ⟨_, T', x, h1, h2, o'⟩
      · have he : (E.filter fun e => e.1 ≠ k) = [] := by
          obtain ⟨e, rfl⟩ := List.length_eq_one_iff.mp h1
          have : e = (k, d0) := (List.mem_singleton.mp hd0).symm
          subst this; simp
        exact ⟨t', ⟨_, hp.filter _, .inl ⟨he, hcl⟩⟩, hs'.len, nofun, n0, hrun⟩
      · exact ⟨t', ⟨_, hp.filter _, .inr ⟨T', h1, hs.sublist (List.filter_sublist)⟩⟩, h2.len, nofun, n0, hrun⟩
    · have hret : bstReturn D (.delete k) = false := by
        cases e : bstReturn D (.delete k) with
        | false => rfl
        | true => exact absurd (has_iff.mp e) hk
      rw [hret]
      have hsp : bstSpec D (.delete k) = D := filter_absent hk
      rw [hsp]
      have hk' : ∀ d, (k, d) ∉ E := fun d hd => hk ((has_perm hp k).mpr ⟨d, hd⟩)
      obtain ⟨n0, hrun⟩ := splayDelete_absent ht hT hs hk'
      exact ⟨t, ⟨E, hp, .inr ⟨T, hT, hs⟩⟩, rfl, nofun, n0, hrun⟩

/-! ## Histories -/

/-- The splay tree copes with every call of the history. -/
def CopesSplayAll (lt : κ → κ → Bool) (fuel : Nat) : BTree κ δ → List (κ × Option δ) → List (BstOp κ δ) → Prop
  | _, _, [] => True
  | t, D, op :: ops => CopesSplay lt t D op ∧ ∀ r, splayStep lt fuel t op = .ok r → CopesSplayAll lt fuel r.1 (bstSpec D op) ops

theorem splayHas_run {lt : κ → κ → Bool} (ht : StrictTotal (ltRel lt)) : ∀ (ops : List (BstOp κ δ)) (t : BTree κ δ) (D : List (κ × Option δ)),
    SplayHas lt t D → (∃ n0, ∀ fuel, n0 ≤ fuel → CopesSplayAll lt fuel t D ops) →
    ∃ t', SplayHas lt t' (bstContents D ops) ∧ (∀ k d, ops.getLast? = some (.insert k d) → rootKey t' = some k) ∧
      EndsWith (fun n => splayRun lt n t ops) (.ok (t', bstReturns D ops)) := by
  intro ops
  induction ops with
  | nil => intro t D h _; exact ⟨t, h, nofun, 0, fun _ _ => rfl⟩
  | cons op ops ih =>
    rintro t D h ⟨n0, hc⟩
    obtain ⟨t1, h1, _, k1, n1, r1⟩ := splayHas_step ht h op (hc n0 (Nat.le_refl _)).1
    obtain ⟨t2, h2, k2, n2, r2⟩ := ih t1 _ h1 ⟨max n0 n1, fun fuel hf => (hc fuel (by omega)).2 _ (r1 fuel (by omega))⟩
    refine ⟨t2, h2, fun k d hl => ?_, max n1 n2, fun fuel hf => ?_⟩
    · cases ops with
      | nil =>
        have := r2 (max n1 n2) (by omega)
        cases this
        simp only [List.getLast?_singleton, Option.some.injEq] at hl
        exact k1 k d hl
      | cons op' ops => exact k2 k d (by rw [← hl]; simp [List.getLast?_cons_cons])
    · have e1 := r1 fuel (by omega)
      have e2 := r2 fuel (by omega)
      simp only at e2
      simp only [splayRun, e1, e2, ok_bind, bstReturns]

/-- **C88** for the histories the splay tree copes with: only absent keys are inserted, and only while the last position is filled; deletions ask a tree
that is not empty, and remove a key between two others (or one of the last two) without making the array contract. Missing: the other histories, for
which the claim is false (`C88_full_false`, `C88_stale_parent`, `C88_delete_empty`, `C79_exact`). -/
theorem C88_copes_partial {lt : κ → κ → Bool} (ht : StrictTotal (ltRel lt)) (os : Bool) (ops : List (BstOp κ δ))
    (hc : ∃ n0, ∀ fuel, n0 ≤ fuel → CopesSplayAll lt fuel (btEmpty os) [] ops) :
    ∃ t, EndsWith (fun n => splayRun lt n (btEmpty os) ops) (.ok (t, bstReturns [] ops)) ∧ ServesSplay lt t (bstContents [] ops) ops := by
  obtain ⟨t, h, hk, hr⟩ := splayHas_run ht ops _ [] (SplayHas.empty lt os) hc
  exact ⟨t, hr, h.serves ht, hk⟩

/-! ### Insertions followed by deletions -/

theorem splay_fill {lt : κ → κ → Bool} (ht : StrictTotal (ltRel lt)) : ∀ (ins : List (κ × Option δ)) (t : BTree κ δ) (D : List (κ × Option δ)),
    SplayHas lt t D → FullOf t D.length → (ins.map (·.1)).Nodup → (∀ e ∈ ins, ¬ Has D e.1) →
    ∃ t', SplayHas lt t' (bstContents D (insertsOf ins)) ∧ FullOf t' (bstContents D (insertsOf ins)).length ∧
      EndsWith (fun n => splayRun lt n t (insertsOf ins)) (.ok (t', bstReturns D (insertsOf ins))) := by
  intro ins
  induction ins with
  | nil => intro t D h hf _ _; exact ⟨t, h, hf, 0, fun _ _ => rfl⟩
  | cons e ins ih =>
    intro t D h hf hnd hab
    simp only [List.map_cons, List.nodup_cons] at hnd
    have hcop : CopesSplay lt t D (.insert e.1 e.2) := by
      obtain ⟨f1, f2, f3, f4, f5⟩ := hf
      refine ⟨hab e (by simp), f1, .inr ?_⟩
      unfold grown; split <;> omega
    obtain ⟨t1, h1, c1, _, n1, r1⟩ := splayHas_step ht h (.insert e.1 e.2) hcop
    obtain ⟨t2, h2, f2, n2, r2⟩ := ih t1 _ h1 (full_insert (h.nodup_keys ht) e.1 e.2 hf c1) hnd.2 (by
      intro e' he' hh
      rcases has_spec_insert hh with heq | hh
      · exact hnd.1 (by rw [← heq]; exact List.mem_map_of_mem he')
      · exact hab e' (by simp [he']) hh)
    refine ⟨t2, h2, f2, max n1 n2, fun fuel hfu => ?_⟩
    have e1 := r1 fuel (by omega)
    have e2 := r2 fuel (by omega)
    simp only at e2
    simp only [insertsOf, List.map_cons, splayRun, e1, ok_bind, bstReturns] at e2 ⊢
    rw [e2]; rfl

/-- None of the deletions removes the smallest or greatest key of the tree. -/
def SparesEnds (lt : κ → κ → Bool) : List (κ × Option δ) → List κ → Prop
  | _, [] => True
  | D, k :: ks => (¬ Has D k ∨ Between lt D k) ∧ SparesEnds lt (bstSpec D (.delete k)) ks

theorem splay_thin {lt : κ → κ → Bool} (ht : StrictTotal (ltRel lt)) {n : Nat} (hn0 : 1 ≤ n) : ∀ (ks : List κ) (t : BTree κ δ) (D : List (κ × Option δ)),
    SplayHas lt t D → t.arr.length + 1 ≤ 2 * n → KeepsHalf n D ks → SparesEnds lt D ks →
    ∃ t', SplayHas lt t' (bstContents D (ks.map .delete)) ∧ EndsWith (fun n => splayRun lt n t (ks.map .delete)) (.ok (t', bstReturns D (ks.map .delete))) := by
  intro ks
  induction ks with
  | nil => intro t D h _ _ _; exact ⟨t, h, 0, fun _ _ => rfl⟩
  | cons k ks ih =>
    intro t D h hlen hg hb
    have hn := h.nodup_keys ht
    have hle := (delete_sublist (bstSpec D (.delete k)) ks).length_le
    have hle' := (delete_sublist D (k :: ks)).length_le
    have hg' : KeepsHalf n (bstSpec D (.delete k)) ks := hg
    have hc : CopesSplay lt t D (.delete k) := by
      unfold KeepsHalf at hg hg'
      refine ⟨by rintro rfl; simp only [List.length_nil] at hle'; omega, ?_⟩
      rcases hb.1 with hk | hb1
      · exact .inl hk
      · by_cases hk : Has D k
        · have := spec_delete_length hn hk
          refine .inr (.inr ⟨.inr hb1, ?_⟩)
          have hpos : 0 < D.length := by obtain ⟨d, hd⟩ := hk; exact List.length_pos_of_mem hd
          omega
        · exact .inl hk
    obtain ⟨t1, h1, c1, _, n1, r1⟩ := splayHas_step ht h (.delete k) hc
    have c1' : t1.arr.length = t.arr.length := c1
    obtain ⟨t2, h2, n2, r2⟩ := ih t1 _ h1 (by rw [c1']; exact hlen) hg' hb.2
    refine ⟨t2, h2, max n1 n2, fun fuel hf => ?_⟩
    have e1 := r1 fuel (by omega)
    have e2 := r2 fuel (by omega)
    simp only at e2
    simp only [List.map_cons, splayRun, e1, e2, ok_bind, bstReturns]

theorem splayRun_append (lt : κ → κ → Bool) (fuel : Nat) : ∀ (a b : List (BstOp κ δ)) (t : BTree κ δ),
    splayRun lt fuel t (a ++ b) = (do let r ← splayRun lt fuel t a; let q ← splayRun lt fuel r.1 b; .ok (q.1, r.2 ++ q.2)) := by
  intro a
  induction a with
  | nil => intro b t; cases h : splayRun lt fuel t b with
    | error e => simp [splayRun, h]
    | ok r => simp [splayRun, h]
  | cons op a ih =>
    intro b t
    simp only [List.cons_append, splayRun]
    cases h : splayStep lt fuel t op with
    | error e => rfl
    | ok r =>
      simp only [ok_bind, ih]
      cases h2 : splayRun lt fuel r.1 a with
      | error e => rfl
      | ok q =>
        simp only [ok_bind]
        cases h3 : splayRun lt fuel q.1 b with
        | error e => rfl
        | ok p => rfl

/-- **C88** for distinct keys that are first all inserted, in any order, and then deleted in any order, sparing the smallest and the greatest, as long
as at least half of them remain: every `delete` returns whether the key was there, and afterwards searches and in-order traversal answer as the entries
demand. Missing: see `C88_full_false`. -/
theorem C88_fill_and_thin_partial {lt : κ → κ → Bool} (ht : StrictTotal (ltRel lt)) (os : Bool) (ins : List (κ × Option δ)) (hne : ins ≠ []) (hd : (ins.map (·.1)).Nodup) (ks : List κ)
    (hg : KeepsHalf ins.length (bstContents [] (insertsOf ins)) ks) (hb : SparesEnds lt (bstContents [] (insertsOf ins)) ks) :
    ∃ t, EndsWith (fun n => splayRun lt n (btEmpty os) (insertsOf ins ++ ks.map .delete)) (.ok (t, bstReturns [] (insertsOf ins ++ ks.map .delete))) ∧
      ServesEntries lt t (bstContents [] (insertsOf ins ++ ks.map .delete)) := by
  have hfe : FullOf (btEmpty os : BTree κ δ) 0 := by refine ⟨rfl, rfl, rfl, ?_, ?_⟩ <;> simp [btEmpty]
  obtain ⟨t1, h1, f1, n1, r1⟩ := splay_fill ht ins (btEmpty os) [] (SplayHas.empty lt os) hfe hd (by rintro e _ ⟨_, h⟩; cases h)
  have hlen : (bstContents [] (insertsOf ins)).length ≤ ins.length := by
    have key : ∀ (ins D : List (κ × Option δ)), (bstContents D (insertsOf ins)).length ≤ D.length + ins.length := by
      intro ins
      induction ins with
      | nil => intro D; exact Nat.le_refl _
      | cons e ins ih =>
        intro D
        have a := ih (bstSpec D (.insert e.1 e.2))
        have b : (bstSpec D (.insert e.1 e.2)).length ≤ D.length + 1 := Nat.succ_le_succ (List.length_filter_le _ _)
        simp only [List.length_cons]
        have c : bstContents D (insertsOf (e :: ins)) = bstContents (bstSpec D (.insert e.1 e.2)) (insertsOf ins) := rfl
        rw [c]; omega
    have := key ins []; simpa using this
  have hpos : 1 ≤ ins.length := by cases ins with | nil => exact absurd rfl hne | cons _ _ => simp
  obtain ⟨g1, g2, g3, g4, g5⟩ := f1
  obtain ⟨t2, h2, n2, r2⟩ := splay_thin ht hpos ks t1 _ h1 (by omega) hg hb
  have hc : bstContents [] (insertsOf ins ++ ks.map .delete) = bstContents (bstContents [] (insertsOf ins)) (ks.map .delete) := by simp [bstContents]
  refine ⟨t2, ⟨max n1 n2, fun fuel hf => ?_⟩, by rw [hc]; exact h2.serves ht⟩
  have e1 := r1 fuel (by omega)
  have e2 := r2 fuel (by omega)
  simp only at e1 e2
  simp only [splayRun_append, e1, e2, ok_bind, bstReturns_append]

/-- Such a history: ten keys, five of them deleted, and an absent key. -/
example : KeepsHalf 10 (bstContents [] (insertsOf ((List.range 10).map fun i => (7 * i % 10, some i)))) [1, 99, 7, 3, 5, 8] := by unfold KeepsHalf; decide

example : SparesEnds (fun a b : Nat => decide (a < b)) (bstContents [] (insertsOf ((List.range 10).map fun i => (7 * i % 10, some i)))) [1, 99, 7, 3, 5, 8] := by
  refine ⟨.inr ⟨⟨(0, some 0), by decide, by decide⟩, ⟨(9, some 7), by decide, by decide⟩⟩, .inl (by decide), .inr ⟨⟨(0, some 0), by decide, by decide⟩, ⟨(9, some 7), by decide, by decide⟩⟩,
    .inr ⟨⟨(0, some 0), by decide, by decide⟩, ⟨(9, some 7), by decide, by decide⟩⟩, .inr ⟨⟨(0, some 0), by decide, by decide⟩, ⟨(9, some 7), by decide, by decide⟩⟩,
    .inr ⟨⟨(0, some 0), by decide, by decide⟩, ⟨(9, some 7), by decide, by decide⟩⟩, trivial⟩

example : ((splayRun (fun a b : Nat => decide (a < b)) 60 (btEmpty true) (insertsOf ((List.range 10).map fun i => (7 * i % 10, some i)) ++ [1, 99, 7, 3, 5, 8].map .delete)).bind fun r => do
      let l ← treeDfs 60 r.1 .ino none
      .ok (l.map (fun n => (n.key, n.data)), r.2.drop 10)) =
    .ok ([(some 0, some 0), (some 2, some 6), (some 4, some 2), (some 6, some 8), (some 9, some 7)], [true, false, true, true, true, true]) := by decide +kernel

/-- A history the tree copes with although a new key is inserted after deletions, and all keys are deleted in the end. -/
example : ∃ n0, ∀ fuel, n0 ≤ fuel → CopesSplayAll (fun a b : Nat => decide (a < b)) fuel (btEmpty true : BTree Nat String) []
    [.insert 5 none, .insert 9 none, .insert 7 none, .delete 7, .delete 8, .insert 3 (some "x")] := by
  refine ⟨20, fun fuel hf => ?_⟩
  obtain ⟨m, rfl⟩ : ∃ m, fuel = m + 20 := ⟨fuel - 20, by omega⟩
  refine ⟨⟨by decide, rfl, .inl rfl⟩, fun r h => ?_⟩
  cases h
  refine ⟨⟨by decide, rfl, .inr (by decide)⟩, fun r h => ?_⟩
  cases h
  refine ⟨⟨by decide, rfl, .inr (by decide)⟩, fun r h => ?_⟩
  cases h
  refine ⟨⟨by simp [bstSpec], .inr (.inr ⟨.inr ⟨⟨(5, none), by decide, by decide⟩, ⟨(9, none), by decide, by decide⟩⟩, by decide⟩)⟩, fun r h => ?_⟩
  cases h
  refine ⟨⟨by simp [bstSpec], .inl (by decide)⟩, fun r h => ?_⟩
  cases h
  exact ⟨⟨by decide, rfl, .inr (by decide)⟩, fun _ _ => trivial⟩

/-! ## The claim fails in general -/

/-- Deleting the greatest key leaves a node whose `parent` is a position that has been freed; the next deletion raises. -/
theorem C88_stale_parent : EndsWith (fun n => splayRun (fun a b : Nat => decide (a < b)) n (btEmpty false : BTree Nat String)
    [.insert 1 none, .insert 2 none, .insert 3 none, .insert 4 none, .insert 5 none, .delete 5, .delete 1]) (.error .attributeError) := by
  refine ⟨20, fun n hn => ?_⟩
  obtain ⟨m, rfl⟩ : ∃ m, n = m + 20 := ⟨n - 20, by omega⟩
  rfl

/-- `delete` on an empty tree raises. -/
theorem C88_delete_empty (lt : κ → κ → Bool) (os : Bool) (k : κ) : EndsWith (fun n => splayRun lt n (btEmpty os : BTree κ δ) [.delete k]) (.error .typeError) :=
  ⟨0, fun _ _ => rfl⟩

theorem C88_full_false : ¬ C88_full (fun a b : Nat => decide (a < b)) String := by
  intro h
  obtain ⟨t, ⟨n0, hr⟩, _⟩ := h false [.insert 1 none, .insert 2 none, .insert 3 none, .insert 4 none, .insert 5 none, .delete 5, .delete 1]
  obtain ⟨n2, h2⟩ := C88_stale_parent
  have e0 := hr (max n0 n2) (by omega)
  have e2 := h2 (max n0 n2) (by omega)
  simp only at e0 e2
  rw [e0] at e2
  cases e2

end Props
