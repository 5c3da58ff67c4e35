import Verif.Model.Multiset
import Verif.Props.RedBlack
import Verif.Lemmas.Bind

/-!
# C49: multisets
-/
namespace Props
open Py Model Spec
set_option linter.unusedSectionVars false
variable {α : Type} [DecidableEq α]

/-! ## Specification: a bag of elements -/

/-- A call that changes a multiset. -/
inductive MsOp (α : Type) where
  | add (e : α)
  | remove (e : α)

/-- What a call does to the bag: `remove` takes one copy, if there is one. -/
def bagStep (l : List α) : MsOp α → List α
  | .add e => e :: l
  | .remove e => l.erase e

/-- The bag after a history. -/
def bagOf (ops : List (MsOp α)) : List α := ops.foldl bagStep []

/-! ## Running a history -/

def msStep (lt : α → α → Bool) (fuel : Nat) (s : MSet α) : MsOp α → PyM (MSet α)
  | .add e => msAdd lt fuel s e
  | .remove e => msRemove lt fuel s e

def msRun (lt : α → α → Bool) (fuel : Nat) (s : MSet α) (ops : List (MsOp α)) : PyM (MSet α) := ops.foldlM (msStep lt fuel) s

/-- What the multiset reports is what the bag says. -/
structure Reports (s : MSet α) (l : List α) : Prop where
  count : ∀ e, msCount s e = l.count e
  contains : ∀ e, msContains s e = decide (e ∈ l)
  len : msLen s = l.length

/-- The multiset reports the bag, and the two bounds are the least element not below, and the least above. -/
structure Serves49 (lt : α → α → Bool) (s : MSet α) (l : List α) : Prop where
  reports : Reports s l
  lower : ∀ e, ∃ r, EndsWith (fun n => msLower lt n s e) (.ok r) ∧ LeastOf lt (fun a => a ∈ l ∧ lt a e = false) r
  upper : ∀ e, ∃ r, EndsWith (fun n => msUpper lt n s e) (.ok r) ∧ LeastOf lt (fun a => a ∈ l ∧ lt e a = true) r

/-- The element of the call was added before. -/
def Known (added : List α) : MsOp α → Prop
  | .add _ => True
  | .remove e => e ∈ added

/-- Every `remove` is of an element added before (another one is a `KeyError`, as for the built-in types). -/
def AllKnown : List α → List (MsOp α) → Prop
  | _, [] => True
  | added, op :: ops => Known added op ∧ AllKnown (match op with | .add e => e :: added | .remove _ => added) ops

/-- **C49**, in full: every such history runs without exception, after it the multiset reports what the bag says, and the bounds are right. -/
def C49_full (lt : α → α → Bool) : Prop :=
  ∀ ops : List (MsOp α), AllKnown [] ops → ∃ s, EndsWith (fun n => msRun lt n msEmpty ops) (.ok s) ∧ Serves49 lt s (bagOf ops)

/-! ## The counts are right after every history without exception -/

/-- The counter agrees with the bag. -/
structure CounterOf (s : MSet α) (l : List α) : Prop where
  get : ∀ e, msGet s e = l.count e
  n : s.n = l.length

theorem CounterOf.reports {s : MSet α} {l : List α} (h : CounterOf s l) : Reports s l := by
  refine ⟨h.get, fun e => ?_, h.n⟩
  have : msContains s e = decide (0 < l.count e) := by
    unfold msContains
    rw [h.get]
    exact decide_eq_decide.mpr (by omega)
  rw [this]
  exact decide_eq_decide.mpr List.count_pos_iff

theorem counterOf_empty : CounterOf (msEmpty (α := α)) [] := ⟨fun _ => rfl, rfl⟩

theorem counterOf_added {s : MSet α} {l : List α} (h : CounterOf s l) (e : α) (t : BTree α Unit) :
    CounterOf ⟨s.counter.set e (msGet s e + 1), t, s.n + 1⟩ (e :: l) := by
  refine ⟨fun x => ?_, by simp [h.n]⟩
  show ((s.counter.set e (msGet s e + 1)).val x).getD 0 = _
  by_cases hx : x = e
  · subst hx
    simp [PyDict.set, h.get]
  · have hx' : ¬ e = x := fun he => hx he.symm
    simp only [PyDict.set, if_neg hx, List.count_cons, beq_iff_eq, if_neg hx', Nat.add_zero]
    exact h.get x

theorem counterOf_removed {s : MSet α} {l : List α} (h : CounterOf s l) {e : α} {c : Int} (hc : msGet s e = c) (hp : 0 < c) (t : BTree α Unit) :
    CounterOf ⟨s.counter.set e (c - 1), t, s.n - 1⟩ (l.erase e) := by
  have h0 : 0 < l.count e := by have := h.get e; omega
  have hm := List.count_pos_iff.mp h0
  refine ⟨fun x => ?_, ?_⟩
  · show ((s.counter.set e (c - 1)).val x).getD 0 = _
    by_cases hx : x = e
    · subst hx
      have := h.get x
      simp only [PyDict.set, if_true, Option.getD_some, List.count_erase_self]
      omega
    · simp only [PyDict.set, if_neg hx]
      rw [List.count_erase_of_ne hx]
      exact h.get x
  · show s.n - 1 = _
    rw [h.n, List.length_erase_of_mem hm]
    have := List.length_pos_of_mem hm
    omega

theorem counterOf_kept {s : MSet α} {l : List α} (h : CounterOf s l) {e : α} (hp : ¬ msGet s e > 0) (t : BTree α Unit) :
    CounterOf ⟨s.counter, t, s.n⟩ (l.erase e) := by
  have h0 : l.count e = 0 := by have := h.get e; omega
  rw [List.erase_of_not_mem (fun hm => by have := List.count_pos_iff.mpr hm; omega)]
  exact ⟨h.get, h.n⟩

theorem get_getD {s : MSet α} {e : α} {c : Int} (h : s.counter.get e = .ok c) : msGet s e = c := by
  unfold PyDict.get at h
  unfold msGet
  cases hv : s.counter.val e with
  | none => rw [hv] at h; cases h
  | some v => rw [hv] at h; cases h; rfl

theorem counterOf_step {lt : α → α → Bool} {fuel : Nat} {s s' : MSet α} {l : List α} (h : CounterOf s l) (op : MsOp α) (hr : msStep lt fuel s op = .ok s') :
    CounterOf s' (bagStep l op) := by
  cases op with
  | add e =>
    obtain ⟨c, _, hr⟩ := bind_ok hr
    split at hr
    · obtain ⟨t, _, hr⟩ := bind_ok hr
      cases hr
      exact counterOf_added h e t
    · cases hr
      exact counterOf_added h e s.tree
  | remove e =>
    obtain ⟨c, hc, hr⟩ := bind_ok hr
    obtain ⟨t, _, hr⟩ := bind_ok hr
    split at hr
    · rename_i hp
      obtain ⟨c', hc', hr⟩ := bind_ok hr
      cases hr
      have hg := get_getD hc'
      exact counterOf_removed h hg (by omega) t
    · rename_i hp
      cases hr
      exact counterOf_kept h hp t

theorem counterOf_run {lt : α → α → Bool} {fuel : Nat} : ∀ (ops : List (MsOp α)) {s s' : MSet α} {l : List α}, CounterOf s l → msRun lt fuel s ops = .ok s' →
    CounterOf s' (ops.foldl bagStep l) := by
  intro ops
  induction ops with
  | nil => intro s s' l h hr; cases hr; exact h
  | cons op ops ih =>
    intro s s' l h hr
    unfold msRun at hr
    rw [List.foldlM_cons] at hr
    obtain ⟨s1, h1, hr⟩ := bind_ok hr
    exact ih (counterOf_step h op h1) hr

/-- **C49, counts.** After every history in which no call raises, `count`, `in` and `len` report exactly the bag: the adds minus the
removes that found a copy. -/
theorem C49_counts_partial {lt : α → α → Bool} {fuel : Nat} {ops : List (MsOp α)} {s : MSet α} (h : msRun lt fuel msEmpty ops = .ok s) : Reports s (bagOf ops) :=
  (counterOf_run ops counterOf_empty h).reports

/-! ## No exception while every element keeps a copy -/

/-- The call leaves a copy of the element it removes. -/
def LeavesCopy (l : List α) : MsOp α → Prop
  | .add _ => True
  | .remove e => 2 ≤ l.count e

/-- Every call of the history leaves a copy of the element it removes. -/
def AllLeaveCopy : List α → List (MsOp α) → Prop
  | _, [] => True
  | l, op :: ops => LeavesCopy l op ∧ AllLeaveCopy (bagStep l op) ops

/-- The tree holds the elements of the bag. -/
def TreeOf (lt : α → α → Bool) (t : BTree α Unit) (l : List α) : Prop := RbState lt false True t (fun k => if k ∈ l then some none else none)

theorem treeOf_congr {lt : α → α → Bool} {t : BTree α Unit} {l l' : List α} (h : TreeOf lt t l) (hm : ∀ e, e ∈ l ↔ e ∈ l') : TreeOf lt t l' := by
  have : (fun k => if k ∈ l' then some none else none) = (fun k => if k ∈ l then some (none : Option Unit) else none) := by
    funext k; simp only [hm]
  unfold TreeOf; rw [this]; exact h

theorem treeOf_insert {lt : α → α → Bool} (ht : StrictTotal (ltRel lt)) {t : BTree α Unit} {l : List α} (h : TreeOf lt t l) {e : α} (he : e ∉ l) :
    ∃ t', TreeOf lt t' (e :: l) ∧ ∃ n0, ∀ fuel, n0 ≤ fuel → rbInsert lt fuel t e none = .ok t' := by
  obtain ⟨t', h', hr⟩ := rbState_insert ht h e none
  refine ⟨t', ?_, hr⟩
  have : (fun k => if k ∈ e :: l then some none else none) = (fun k => if k = e then some (none : Option Unit) else if k ∈ l then some none else none) := by
    funext k; by_cases hk : k = e <;> simp [hk]
  unfold TreeOf; rw [this]
  cases h' with
  | empty a b => exact .empty a b
  | tree T a b c d f => exact .tree T a b c d (fun _ => f ⟨trivial, by simp [he]⟩)

theorem TreeOf.bounds {lt : α → α → Bool} (ht : StrictTotal (ltRel lt)) {t : BTree α Unit} {l : List α} (h : TreeOf lt t l) (upper : Bool) (e : α) :
    ∃ r, EndsWith (fun n => boundHelper lt t e upper n (some t.rootIdx)) (.ok r) ∧ LeastOf lt (fun a => a ∈ l ∧ Beyond lt upper e a) r := by
  cases h with
  | empty h hm =>
    subst h
    refine ⟨none, ⟨1, fun n hn => ?_⟩, fun a ha => ?_⟩
    · obtain ⟨f, rfl⟩ : ∃ f, n = f + 1 := ⟨n - 1, by omega⟩
      rfl
    · have := hm a
      rw [if_pos ha.1] at this
      cases this
  | tree T ok car _ _ _ =>
    obtain ⟨r, hr, hl⟩ := bound_map ht ok.tree ok.srt car upper e
    refine ⟨r, hr, ?_⟩
    have : (fun a => a ∈ l ∧ Beyond lt upper e a) = (fun a => ((if a ∈ l then some (none : Option Unit) else none).isSome = true) ∧ Beyond lt upper e a) := by
      funext a; by_cases ha : a ∈ l <;> simp [ha]
    rw [this]; exact hl

theorem count_some {s : MSet α} {l : List α} (h : CounterOf s l) {e : α} (he : 0 < l.count e) : s.counter.get e = .ok (l.count e : Int) := by
  have := h.get e
  unfold msGet at this
  unfold PyDict.get
  cases hv : s.counter.val e with
  | none => rw [hv] at this; simp at this; omega
  | some v => rw [hv] at this; simp at this; simp [this]

theorem add_run {lt : α → α → Bool} (ht : StrictTotal (ltRel lt)) {s : MSet α} {l : List α} (hc : CounterOf s l) (htr : TreeOf lt s.tree l) (e : α) :
    ∃ s', CounterOf s' (e :: l) ∧ TreeOf lt s'.tree (e :: l) ∧ ∃ n0, ∀ fuel, n0 ≤ fuel → msAdd lt fuel s e = .ok s' := by
  have hg : (s.counter.set e (msGet s e + 1)).get e = .ok (msGet s e + 1) := by simp [PyDict.get, PyDict.set]
  by_cases he : e ∈ l
  · refine ⟨_, counterOf_added hc e s.tree, treeOf_congr htr fun x => ?_, 0, fun fuel _ => ?_⟩
    · simp only [List.mem_cons]
      exact ⟨.inr, fun h => h.elim (fun h => h ▸ he) id⟩
    · have := hc.get e
      have := List.count_pos_iff.mpr he
      simp only [msAdd, hg, ok_bind]
      rw [if_neg (by omega)]
  · obtain ⟨t', h', n0, hr⟩ := treeOf_insert ht htr he
    refine ⟨_, counterOf_added hc e t', h', n0, fun fuel hf => ?_⟩
    have := hc.get e
    have := List.count_eq_zero.mpr he
    simp only [msAdd, hg, ok_bind]
    rw [if_pos (by omega), hr fuel hf]
    rfl

theorem leave_run {lt : α → α → Bool} {s : MSet α} {l : List α} (hc : CounterOf s l) (htr : TreeOf lt s.tree l) {e : α} (he : 2 ≤ l.count e) :
    ∃ s', CounterOf s' (l.erase e) ∧ TreeOf lt s'.tree (l.erase e) ∧ ∀ fuel, msRemove lt fuel s e = .ok s' := by
  have hg := count_some hc (e := e) (by omega)
  have hgd := hc.get e
  refine ⟨_, counterOf_removed hc hgd (by omega) s.tree, treeOf_congr htr fun x => ?_, fun fuel => ?_⟩
  · by_cases hx : x = e
    · subst hx
      refine ⟨fun _ => List.count_pos_iff.mp ?_, fun _ => List.count_pos_iff.mp (by omega)⟩
      rw [List.count_erase_self]; omega
    · exact (List.mem_erase_of_ne hx).symm
  · simp only [msRemove, hg, ok_bind, msDrop]
    rw [if_neg (by omega)]
    simp only [ok_bind]
    rw [if_pos (by omega)]

theorem leave_history {lt : α → α → Bool} (ht : StrictTotal (ltRel lt)) : ∀ (ops : List (MsOp α)) (s : MSet α) (l : List α), CounterOf s l → TreeOf lt s.tree l →
    AllLeaveCopy l ops → ∃ s', CounterOf s' (ops.foldl bagStep l) ∧ TreeOf lt s'.tree (ops.foldl bagStep l) ∧ ∃ n0, ∀ fuel, n0 ≤ fuel → msRun lt fuel s ops = .ok s' := by
  intro ops
  induction ops with
  | nil => intro s l h1 h2 _; exact ⟨s, h1, h2, 0, fun _ _ => rfl⟩
  | cons op ops ih =>
    intro s l h1 h2 ⟨hl, hall⟩
    have hstep : ∃ s', CounterOf s' (bagStep l op) ∧ TreeOf lt s'.tree (bagStep l op) ∧ ∃ n0, ∀ fuel, n0 ≤ fuel → msStep lt fuel s op = .ok s' := by
      cases op with
      | add e => exact add_run ht h1 h2 e
      | remove e =>
        obtain ⟨s', a, b, c⟩ := leave_run h1 h2 hl
        exact ⟨s', a, b, 0, fun fuel _ => c fuel⟩
    obtain ⟨s1, a1, b1, n1, r1⟩ := hstep
    obtain ⟨s2, a2, b2, n2, r2⟩ := ih s1 _ a1 b1 hall
    refine ⟨s2, a2, b2, max n1 n2, fun fuel hf => ?_⟩
    have e2 := r2 fuel (by omega)
    unfold msRun at e2 ⊢
    rw [List.foldlM_cons, r1 fuel (by omega)]
    exact e2

/-- **C49** for the histories in which no `remove` takes the last copy of an element: no exception, the multiset reports the bag, and both
bounds are right. -/
theorem C49_copies_partial {lt : α → α → Bool} (ht : StrictTotal (ltRel lt)) (ops : List (MsOp α)) (h : AllLeaveCopy [] ops) :
    ∃ s, EndsWith (fun n => msRun lt n msEmpty ops) (.ok s) ∧ Serves49 lt s (bagOf ops) := by
  have h0 : TreeOf lt (msEmpty (α := α)).tree [] := .empty rfl (fun _ => by simp)
  obtain ⟨s, a, b, n0, r⟩ := leave_history ht ops msEmpty [] counterOf_empty h0 h
  refine ⟨s, ⟨n0, r⟩, a.reports, fun e => ?_, fun e => ?_⟩
  · simpa only [Beyond, Bool.false_eq_true, if_false, msLower, bstLower, bagOf] using b.bounds ht false e
  · simpa only [Beyond, if_true, msUpper, bstUpper, bagOf] using b.bounds ht true e

/-- The hypothesis of `C49_copies_partial` holds of this history. -/
example : AllLeaveCopy [] [MsOp.add 3, .add 5, .add 3, .remove 3, .add 5, .remove 5, .add 1] := by
  simp [AllLeaveCopy, LeavesCopy, bagStep]

/-! ## The full statement is false -/

/-- Adding 1 and 2, removing 2 and adding 3 is an `AttributeError`: the new node is put where the tree does not expect it. -/
theorem C49_full_false : ¬ C49_full (fun a b : Nat => decide (a < b)) := by
  intro h
  obtain ⟨s, ⟨n0, hr⟩, _⟩ := h [.add 1, .add 2, .remove 2, .add 3] (by simp [AllKnown, Known])
  have e : ∀ m, msRun (fun a b : Nat => decide (a < b)) (m + 30) msEmpty [.add 1, .add 2, .remove 2, .add 3] = .error .attributeError := fun m => rfl
  have := hr (n0 + 30) (by omega)
  dsimp only at this
  rw [e n0] at this
  cases this

theorem never_added {lt : α → α → Bool} {fuel : Nat} {e : α} : ∀ (ops : List (MsOp α)) {s s' : MSet α}, .add e ∉ ops → s.counter.val e = none →
    msRun lt fuel s ops = .ok s' → s'.counter.val e = none := by
  intro ops
  induction ops with
  | nil => intro s s' _ h hr; cases hr; exact h
  | cons op ops ih =>
    intro s s' hn h hr
    unfold msRun at hr
    rw [List.foldlM_cons] at hr
    obtain ⟨s1, h1, hr⟩ := bind_ok hr
    simp only [List.mem_cons, not_or] at hn
    refine ih hn.2 ?_ hr
    cases op with
    | add x =>
      have hx : e ≠ x := by rintro rfl; exact hn.1 rfl
      obtain ⟨c, _, h1⟩ := bind_ok h1
      split at h1
      · obtain ⟨t, _, h1⟩ := bind_ok h1
        cases h1
        simpa [PyDict.set, hx] using h
      · cases h1
        simpa [PyDict.set, hx] using h
    | remove x =>
      obtain ⟨c, hc, h1⟩ := bind_ok h1
      have hx : e ≠ x := by rintro rfl; simp [PyDict.get, h] at hc
      obtain ⟨t, _, h1⟩ := bind_ok h1
      split at h1
      · obtain ⟨c', _, h1⟩ := bind_ok h1
        cases h1
        simpa [PyDict.set, hx] using h
      · cases h1
        exact h

/-- Removing an element that was never added is a `KeyError`, after every history. -/
theorem C49_unknown {lt : α → α → Bool} {fuel : Nat} {ops : List (MsOp α)} {s : MSet α} (h : msRun lt fuel msEmpty ops = .ok s) {e : α} (he : .add e ∉ ops) :
    msRemove lt fuel s e = .error .keyError := by
  simp only [msRemove, PyDict.get, never_added ops he rfl h, error_bind]

example : (msRun (fun a b : Nat => decide (a < b)) 40 msEmpty [.add 3, .add 5, .add 3, .remove 3, .remove 5, .add 3, .remove 5]).bind (fun s => do
    let lo ← msLower (fun a b => decide (a < b)) 40 s 4
    let up ← msUpper (fun a b => decide (a < b)) 40 s 2
    .ok (msCount s 3, msCount s 5, msLen s, msContains s 5, lo, up)) = .ok (2, 0, 2, false, none, some 3) := rfl
end Props
