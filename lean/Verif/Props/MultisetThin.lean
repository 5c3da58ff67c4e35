import Verif.Props.Multiset
import Verif.Props.RedBlackDelete
/-!
# C49: multisets from which last copies are removed
-/
namespace Props
open Py Model Spec
set_option linter.unusedSectionVars false
variable {α : Type} [DecidableEq α]

/-- How many different elements a bag has. -/
def distinct : List α → Nat
  | [] => 0
  | x :: l => distinct l + if x ∈ l then 0 else 1

/-- A call that fits a bag in which `n` different elements were put and `added` lists the elements added: no new element is added, an
element that is removed was added, and if its last copy goes, then at least half of the different elements remain, or nothing. -/
def ThinStep (n : Nat) (added l : List α) : MsOp α → Prop
  | .add e => e ∈ l
  | .remove e => e ∈ added ∧ (l.count e = 1 → n ≤ 2 * distinct (l.erase e) ∨ l = [e])

/-- All calls of the history do. -/
def Thins (n : Nat) (added : List α) : List α → List (MsOp α) → Prop
  | _, [] => True
  | l, op :: ops => ThinStep n added l op ∧ Thins n added (bagStep l op) ops

/-- The elements that a history adds. -/
def addedBy : List (MsOp α) → List α
  | [] => []
  | .add e :: ops => e :: addedBy ops
  | .remove _ :: ops => addedBy ops

theorem distinct_eq {D : List (α × Option Unit)} {l : List α} (hn : (D.map (·.1)).Nodup) (h : ∀ e, Has D e ↔ e ∈ l) : D.length = distinct l := by
  have key : ∀ l : List α, ∃ d : List α, d.Nodup ∧ (∀ e, e ∈ d ↔ e ∈ l) ∧ d.length = distinct l := by
    intro l
    induction l with
    | nil => exact ⟨[], by simp, by simp, rfl⟩
    | cons x l ih =>
      obtain ⟨d, h1, h2, h3⟩ := ih
      by_cases hx : x ∈ l
      · refine ⟨d, h1, fun e => ?_, by simp [distinct, hx, h3]⟩
        rw [h2, List.mem_cons]
        exact ⟨.inr, fun h => h.elim (fun h => h ▸ hx) id⟩
      · refine ⟨x :: d, List.nodup_cons.2 ⟨fun h => hx ((h2 x).1 h), h1⟩, fun e => ?_, by simp [distinct, hx, h3]⟩
        rw [List.mem_cons, List.mem_cons, h2]
  obtain ⟨d, h1, h2, h3⟩ := key l
  have : (D.map (·.1)).Perm d := by
    rw [List.perm_ext_iff_of_nodup hn h1]
    intro e
    rw [h2, ← h e, List.mem_map]
    constructor
    · rintro ⟨⟨a, b⟩, hm, rfl⟩; exact ⟨b, hm⟩
    · rintro ⟨b, hm⟩; exact ⟨(e, b), hm, rfl⟩
  rw [← h3, ← this.length_eq, List.length_map]

/-- The tree has the different elements of the bag. -/
def ThinTree (lt : α → α → Bool) (t : BTree α Unit) (l : List α) (D : List (α × Option Unit)) : Prop :=
  RbHas lt t D ∧ ∀ e, Has D e ↔ e ∈ l

/-- The counter has an entry for every element added. -/
def Entered (s : MSet α) (added : List α) : Prop := ∀ e ∈ added, s.counter.val e ≠ none

theorem entered_set {s : MSet α} {added : List α} (h : Entered s added) (e : α) (c : Int) {t : BTree α Unit} {n : Int} :
    Entered ⟨s.counter.set e c, t, n⟩ (e :: added) := by
  intro x hx
  by_cases hxe : x = e
  · simp [PyDict.set, hxe]
  · simp only [PyDict.set, if_neg hxe]
    exact h x (by simpa [hxe] using hx)

theorem entered_mono {s : MSet α} {a b : List α} (h : Entered s a) (hs : ∀ e ∈ b, e ∈ a) : Entered s b := fun e he => h e (hs e he)

/-- Adding an element. -/
theorem thin_add {lt : α → α → Bool} (ht : StrictTotal (ltRel lt)) {s : MSet α} {l : List α} {D : List (α × Option Unit)} (hc : CounterOf s l)
    (htr : ThinTree lt s.tree l D) {added : List α} (hent : Entered s added) (e : α) (hnew : e ∉ l → FullOf s.tree D.length) :
    ∃ s' D', CounterOf s' (e :: l) ∧ ThinTree lt s'.tree (e :: l) D' ∧ Entered s' (e :: added) ∧
      (FullOf s.tree D.length → FullOf s'.tree D'.length) ∧ (e ∈ l → s'.tree = s.tree ∧ D' = D) ∧ ∃ n0, ∀ fuel, n0 ≤ fuel → msAdd lt fuel s e = .ok s' := by
  have hg : (s.counter.set e (msGet s e + 1)).get e = .ok (msGet s e + 1) := by simp [PyDict.get, PyDict.set]
  have hge := hc.get e
  by_cases he : e ∈ l
  · refine ⟨_, D, counterOf_added hc e s.tree, ⟨htr.1, fun x => ?_⟩, entered_set hent e _, id, fun _ => ⟨rfl, rfl⟩, 0, fun fuel _ => ?_⟩
    · rw [htr.2, List.mem_cons]
      exact ⟨.inr, fun h => h.elim (fun h => h ▸ he) id⟩
    · have := List.count_pos_iff.mpr he
      simp only [msAdd, hg, ok_bind]
      rw [if_neg (by omega)]
  · have hf := hnew he
    have hno : ¬ Has D e := fun h => he ((htr.2 e).1 h)
    obtain ⟨t1, h1, c1, n1, r1⟩ := rbHas_step ht htr.1 (.insert e none) (by
      obtain ⟨f1, f2, f3, f4, f5⟩ := hf
      refine ⟨hno, .inr ⟨f1, ?_⟩⟩
      unfold grown; split <;> omega)
    refine ⟨_, _, counterOf_added hc e t1, ⟨h1, fun x => ?_⟩, entered_set hent e _, fun _ => full_insert (htr.1.bstHas.nodup_keys ht) e none hf c1, fun h => absurd h he, n1, fun fuel hfu => ?_⟩
    · simp only [bstSpec, filter_absent hno, List.mem_cons, ← htr.2 x]
      constructor
      · rintro ⟨d, hd⟩
        rcases List.mem_cons.1 hd with hd | hd
        · cases hd; exact .inl rfl
        · exact .inr ⟨d, hd⟩
      · rintro (rfl | ⟨d, hd⟩)
        · exact ⟨none, by simp⟩
        · exact ⟨d, by simp [hd]⟩
    · have hz := List.count_eq_zero.mpr he
      have e1 := r1 fuel hfu
      simp only [rbStep] at e1
      obtain ⟨t2, q1, q2⟩ := bind_ok e1
      cases q2
      simp only [msAdd, hg, ok_bind]
      rw [if_pos (by omega), q1]
      rfl

/-- Removing an element. -/
theorem thin_remove {lt : α → α → Bool} (ht : StrictTotal (ltRel lt)) {s : MSet α} {l : List α} {D : List (α × Option Unit)} (hc : CounterOf s l)
    (htr : ThinTree lt s.tree l D) {added : List α} (hent : Entered s added) (e : α) (he : e ∈ added)
    (hlast : l.count e = 1 → D.length = 1 ∨ s.tree.arr.length ≤ 4 * (D.length - 1)) :
    ∃ s' D', CounterOf s' (l.erase e) ∧ ThinTree lt s'.tree (l.erase e) D' ∧ Entered s' added ∧ s'.tree.arr.length = s.tree.arr.length ∧
      (2 ≤ l.count e → s'.tree = s.tree ∧ D' = D) ∧ ∃ n0, ∀ fuel, n0 ≤ fuel → msRemove lt fuel s e = .ok s' := by
  have hge := hc.get e
  have hg : s.counter.get e = .ok (l.count e : Int) := by
    have h0 := hent e he
    unfold msGet at hge
    unfold PyDict.get
    cases hv : s.counter.val e with
    | none => exact absurd hv h0
    | some v => rw [hv] at hge; simp at hge; simp [hge]
  have hset : ∀ c (t : BTree α Unit) n, Entered ⟨s.counter.set e c, t, n⟩ added := fun c t n => entered_mono (entered_set hent e c) fun x hx => List.mem_cons_of_mem _ hx
  by_cases h0 : l.count e = 0
  · have hnm : e ∉ l := List.count_eq_zero.mp h0
    refine ⟨s, D, by rw [List.erase_of_not_mem hnm]; exact hc, by rw [List.erase_of_not_mem hnm]; exact htr, hent, rfl, by omega, 0, fun fuel _ => ?_⟩
    simp only [msRemove, hg, ok_bind, msDrop]
    rw [if_neg (by omega)]
    simp only [ok_bind]
    rw [if_neg (by omega)]
  by_cases h1 : l.count e = 1
  · have hm : e ∈ l := List.count_pos_iff.mp (by omega)
    have hD : Has D e := (htr.2 e).2 hm
    obtain ⟨t1, k1, c1, n1, r1⟩ := rbHas_step ht htr.1 (.delete e) (.inr (hlast h1))
    refine ⟨_, _, counterOf_removed hc hge (by omega) t1, ⟨k1, fun x => ?_⟩, hset _ _ _, c1, by omega, n1, fun fuel hf => ?_⟩
    · have hx : Has (bstSpec D (.delete e)) x ↔ x ≠ e ∧ Has D x := by
        simp only [bstSpec, Has, List.mem_filter, decide_eq_true_eq]
        exact ⟨fun ⟨d, h⟩ => ⟨h.2, d, h.1⟩, fun ⟨h, d, hd⟩ => ⟨d, hd, h⟩⟩
      rw [hx, htr.2]
      by_cases hxe : x = e
      · subst hxe
        refine ⟨fun h => absurd rfl h.1, fun h => ?_⟩
        have := List.count_pos_iff.mpr h
        rw [List.count_erase_self] at this
        omega
      · rw [List.mem_erase_of_ne hxe]
        exact ⟨fun h => h.2, fun h => ⟨hxe, h⟩⟩
    · have e1 := r1 fuel hf
      simp only [rbStep] at e1
      simp only [msRemove, hg, ok_bind, msDrop]
      rw [if_pos (by omega), e1]
      simp only [ok_bind]
      rw [if_pos (by omega)]
  · refine ⟨_, D, counterOf_removed hc hge (by omega) s.tree, ⟨htr.1, fun x => ?_⟩, hset _ _ _, rfl, fun _ => ⟨rfl, rfl⟩, 0, fun fuel _ => ?_⟩
    · rw [htr.2]
      by_cases hx : x = e
      · subst hx
        refine ⟨fun _ => List.count_pos_iff.mp ?_, fun _ => List.count_pos_iff.mp (by omega)⟩
        rw [List.count_erase_self]; omega
      · exact (List.mem_erase_of_ne hx).symm
    · simp only [msRemove, hg, ok_bind, msDrop]
      rw [if_neg (by omega)]
      simp only [ok_bind]
      rw [if_pos (by omega)]

theorem msRun_cons {lt : α → α → Bool} {fuel : Nat} {s s1 s2 : MSet α} {op : MsOp α} {ops : List (MsOp α)} (h1 : msStep lt fuel s op = .ok s1)
    (h2 : msRun lt fuel s1 ops = .ok s2) : msRun lt fuel s (op :: ops) = .ok s2 := by
  unfold msRun at h2 ⊢
  rw [List.foldlM_cons, h1]
  exact h2

/-- The first part: elements are added, and removed if a copy is left. -/
theorem thin_fill {lt : α → α → Bool} (ht : StrictTotal (ltRel lt)) : ∀ (ops : List (MsOp α)) (s : MSet α) (l : List α) (D : List (α × Option Unit)) (added : List α), CounterOf s l →
    ThinTree lt s.tree l D → Entered s added → FullOf s.tree D.length → (∀ e ∈ l, e ∈ added) → AllLeaveCopy l ops →
    ∃ s' D' added', CounterOf s' (ops.foldl bagStep l) ∧ ThinTree lt s'.tree (ops.foldl bagStep l) D' ∧ Entered s' added' ∧ FullOf s'.tree D'.length ∧
      (∀ e, e ∈ added ∨ e ∈ addedBy ops → e ∈ added') ∧ ∃ n0, ∀ fuel, n0 ≤ fuel → msRun lt fuel s ops = .ok s' := by
  intro ops
  induction ops with
  | nil => intro s l D added h1 h2 h3 h4 _ _; exact ⟨s, D, added, h1, h2, h3, h4, by simp [addedBy], 0, fun _ _ => rfl⟩
  | cons op ops ih =>
    intro s l D added h1 h2 h3 h4 h5 ⟨hl, hall⟩
    cases op with
    | add e =>
      obtain ⟨s1, D1, a1, a2, a3, a4, -, n1, r1⟩ := thin_add ht h1 h2 h3 e (fun _ => h4)
      obtain ⟨s2, D2, ad2, b1, b2, b3, b4, b5, n2, r2⟩ := ih s1 _ D1 _ a1 a2 a3 (a4 h4) (by
        intro x hx
        rcases List.mem_cons.1 hx with rfl | hx
        · simp
        · simp [h5 x hx]) hall
      refine ⟨s2, D2, ad2, b1, b2, b3, b4, fun x hx => b5 x ?_, max n1 n2, fun fuel hf => msRun_cons (r1 fuel (by omega)) (r2 fuel (by omega))⟩
      simp only [addedBy, List.mem_cons] at hx ⊢
      rcases hx with h | h | h
      · exact .inl (.inr h)
      · exact .inl (.inl h)
      · exact .inr h
    | remove e =>
      have hl' : 2 ≤ l.count e := hl
      obtain ⟨s1, D1, a1, a2, a3, a4, a5, n1, r1⟩ := thin_remove ht h1 h2 h3 e (h5 e (List.count_pos_iff.mp (by omega))) (by omega)
      obtain ⟨k1, k2⟩ := a5 hl'
      obtain ⟨s2, D2, ad2, b1, b2, b3, b4, b5, n2, r2⟩ := ih s1 _ D1 _ a1 a2 a3 (by rw [k1, k2]; exact h4) (fun x hx => h5 x (List.mem_of_mem_erase hx)) hall
      exact ⟨s2, D2, ad2, b1, b2, b3, b4, fun x hx => b5 x hx, max n1 n2, fun fuel hf => msRun_cons (r1 fuel (by omega)) (r2 fuel (by omega))⟩

/-- The second part: elements are removed. -/
theorem thin_drop {lt : α → α → Bool} (ht : StrictTotal (ltRel lt)) {n : Nat} {added : List α} : ∀ (ops : List (MsOp α)) (s : MSet α) (l : List α) (D : List (α × Option Unit)), CounterOf s l →
    ThinTree lt s.tree l D → Entered s added → s.tree.arr.length + 1 ≤ 2 * max n 1 → Thins n added l ops →
    ∃ s' D', CounterOf s' (ops.foldl bagStep l) ∧ ThinTree lt s'.tree (ops.foldl bagStep l) D' ∧ ∃ n0, ∀ fuel, n0 ≤ fuel → msRun lt fuel s ops = .ok s' := by
  intro ops
  induction ops with
  | nil => intro s l D h1 h2 h3 h4 _; exact ⟨s, D, h1, h2, 0, fun _ _ => rfl⟩
  | cons op ops ih =>
    intro s l D h1 h2 h3 h4 ⟨hl, hall⟩
    have hn := h2.1.bstHas.nodup_keys ht
    cases op with
    | add e =>
      have hm : e ∈ l := hl
      obtain ⟨s1, D1, a1, a2, a3, -, a5, n1, r1⟩ := thin_add ht h1 h2 h3 e (fun h => absurd hm h)
      obtain ⟨s2, D2, b1, b2, n2, r2⟩ := ih s1 _ D1 a1 a2 (entered_mono a3 fun x hx => List.mem_cons_of_mem _ hx) (by rw [(a5 hm).1]; exact h4) hall
      exact ⟨s2, D2, b1, b2, max n1 n2, fun fuel hf => msRun_cons (r1 fuel (by omega)) (r2 fuel (by omega))⟩
    | remove e =>
      obtain ⟨q1, q2⟩ := hl
      have hlast : l.count e = 1 → D.length = 1 ∨ s.tree.arr.length ≤ 4 * (D.length - 1) := by
        intro h1'
        have hm : e ∈ l := List.count_pos_iff.mp (by omega)
        have hD : Has D e := (h2.2 e).2 hm
        have hlen := spec_delete_length hn hD
        have hd : (bstSpec D (.delete e)).length = distinct (l.erase e) := by
          refine distinct_eq (hn.sublist (List.filter_sublist.map _)) fun x => ?_
          have hx : Has (bstSpec D (.delete e)) x ↔ x ≠ e ∧ Has D x := by
            simp only [bstSpec, Has, List.mem_filter, decide_eq_true_eq]
            exact ⟨fun ⟨d, h⟩ => ⟨h.2, d, h.1⟩, fun ⟨h, d, hd⟩ => ⟨d, hd, h⟩⟩
          rw [hx, h2.2]
          by_cases hxe : x = e
          · subst hxe
            refine ⟨fun h => absurd rfl h.1, fun h => ?_⟩
            have := List.count_pos_iff.mpr h
            rw [List.count_erase_self] at this
            omega
          · rw [List.mem_erase_of_ne hxe]
            exact ⟨fun h => h.2, fun h => ⟨hxe, h⟩⟩
        have h5 := distinct_eq hn h2.2
        rcases q2 h1' with h | h
        · by_cases hd1 : D.length = 1
          · exact .inl hd1
          · right; omega
        · left; rw [h5, h]; rfl
      obtain ⟨s1, D1, a1, a2, a3, a4, -, n1, r1⟩ := thin_remove ht h1 h2 h3 e q1 hlast
      obtain ⟨s2, D2, b1, b2, n2, r2⟩ := ih s1 _ D1 a1 a2 a3 (by rw [a4]; exact h4) hall
      exact ⟨s2, D2, b1, b2, max n1 n2, fun fuel hf => msRun_cons (r1 fuel (by omega)) (r2 fuel (by omega))⟩

/-- **C49** for the histories that first add elements, with repetitions, in any order (and remove copies of which others are left), and then remove, as long as at least
half of the different elements remain (or none): no exception, the multiset reports the bag, and both bounds are right. Missing: see `C49_full_false`. -/
theorem C49_fill_and_thin_partial {lt : α → α → Bool} (ht : StrictTotal (ltRel lt)) (first second : List (MsOp α)) (h1 : AllLeaveCopy [] first)
    (h2 : Thins (distinct (bagOf first)) (addedBy first) (bagOf first) second) :
    ∃ s, EndsWith (fun n => msRun lt n msEmpty (first ++ second)) (.ok s) ∧ Serves49 lt s (bagOf (first ++ second)) := by
  obtain ⟨s1, D1, ad, a1, a2, a3, a4, a5, n1, r1⟩ := thin_fill ht first msEmpty [] [] [] counterOf_empty
    ⟨RbHas.empty lt, fun e => ⟨fun ⟨_, h⟩ => (nomatch h), fun h => (nomatch h)⟩⟩ (fun e h => (nomatch h)) fullOf_empty (fun e h => (nomatch h)) h1
  have hd := distinct_eq (a2.1.bstHas.nodup_keys ht) a2.2
  obtain ⟨f1, f2, f3, f4, f5⟩ := a4
  obtain ⟨s2, D2, b1, b2, n2, r2⟩ := thin_drop ht (n := distinct (bagOf first)) second s1 _ D1 a1 a2 (entered_mono a3 fun x hx => a5 x (.inr hx))
    (by unfold bagOf; rw [← hd]; omega) h2
  have hb : bagOf (first ++ second) = second.foldl bagStep (first.foldl bagStep []) := by unfold bagOf; rw [List.foldl_append]
  refine ⟨s2, ⟨max n1 n2, fun n hn => ?_⟩, ?_⟩
  · have e1 := r1 n (by omega)
    have e2 := r2 n (by omega)
    unfold msRun at e1 e2 ⊢
    dsimp only at e1 e2 ⊢
    rw [List.foldlM_append, e1]
    exact e2
  · rw [hb]
    have hs := (b2.1.bstHas.serves ht).2.2
    refine ⟨b1.reports, fun e => ?_, fun e => ?_⟩
    · obtain ⟨r, q1, q2⟩ := (hs e).1
      simp only [b2.2] at q2
      exact ⟨r, q1, q2⟩
    · obtain ⟨r, q1, q2⟩ := (hs e).2
      simp only [b2.2] at q2
      exact ⟨r, q1, q2⟩

/-- Such a history. -/
example : AllLeaveCopy [] [MsOp.add 3, .add 5, .add 3, .remove 3, .add 8, .add 1] ∧
    Thins (distinct (bagOf [MsOp.add 3, .add 5, .add 3, .remove 3, .add 8, .add 1])) (addedBy [MsOp.add 3, .add 5, .add 3, .remove 3, .add 8, .add 1])
      (bagOf [MsOp.add 3, .add 5, .add 3, .remove 3, .add 8, .add 1]) [.remove 5, .add 8, .remove 8, .remove 5, .remove 1, .add 3] := by
  simp [AllLeaveCopy, LeavesCopy, bagStep, Thins, ThinStep, bagOf, addedBy, distinct]

end Props
