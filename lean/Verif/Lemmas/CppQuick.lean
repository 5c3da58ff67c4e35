import Verif.Lemmas.CppSort
/-!
# The C++ quick sort: equal to the Python one until a split point 0, endless from then on
-/
namespace Model.Cpp
open Py Spec Model
variable {α : Type _}

/-- The loop condition of both quick sorts. -/
abbrev more {σ : Type _} (s : σ × List (Nat × Nat)) : PyM Bool := .ok (!s.2.isEmpty)

theorem partLoop_grows {β : Type _} {f : β → Bool} : ∀ n j k (a a' : List β) k',
    Py.loop (fun j (s : List β × Nat) => do
      let y ← rd s.1 j
      if f y = true then
        let a ← swp s.1 s.2 j
        .ok (a, s.2 + 1)
      else .ok (s.1, s.2)) n j (a, k) = .ok (a', k') → k ≤ k' ∧ a'.length = a.length := by
  intro n
  induction n with
  | zero => intro j k a a' k' e; cases e; exact ⟨Nat.le_refl _, rfl⟩
  | succ n ih =>
    intro j k a a' k' e
    simp only [Py.loop] at e
    obtain ⟨⟨b, m⟩, hq, e⟩ := bind_ok e
    obtain ⟨y, hy, hq⟩ := bind_ok hq
    have := ih _ _ _ _ _ e
    split at hq
    · obtain ⟨c, hc, hq⟩ := bind_ok hq
      cases hq
      exact ⟨by omega, by rw [this.2, swp_length hc]⟩
    · cases hq; exact this

theorem partition_bounds {β : Type _} {c : β → β → Bool} {low high p : Nat} {a a' : List β}
    (e : qsPartition c lastCell low high a = .ok (a', p)) : low ≤ p ∧ p < a.length ∧ high < a.length ∧ a'.length = a.length := by
  unfold qsPartition at e
  obtain ⟨x, hx, e⟩ := bind_ok e
  obtain ⟨⟨b, k⟩, hk, e⟩ := bind_ok e
  obtain ⟨d, hd, e⟩ := bind_ok e
  cases e
  obtain ⟨h1, h2⟩ := partLoop_grows (f := fun y => c y x) _ _ _ _ _ _ hk
  have hlen : p < b.length := by
    unfold swp at hd
    obtain ⟨y, hy, hd⟩ := bind_ok hd
    obtain ⟨z, hz, hd⟩ := bind_ok hd
    simp only [rd] at hz
    cases e : b[p]? with
    | none => rw [e] at hz; cases hz
    | some _ => exact (List.getElem?_eq_some_iff.1 e).1
  refine ⟨h1, by omega, ?_, by rw [swp_length hd, h2]⟩
  simp only [lastCell, rd] at hx
  cases e : a[high]? with
  | none => rw [e] at hx; cases hx
  | some _ => exact (List.getElem?_eq_some_iff.1 e).1

theorem setItem_length (i : Nat) (v : Option (Option α)) (s : St α) : (setItem i v s).2.cells.length = s.cells.length := by
  unfold setItem
  cases v with
  | none => rfl
  | some x => dsimp only; split; rfl; split <;> simp
theorem getItem_cells (i : Nat) (s : St α) : (getItem i s).2.cells = s.cells := by
  unfold getItem; split; rfl; split <;> rfl
theorem comp_cells (t : α → α → Bool) (u v : Option (Option α)) (s : St α) : (comp t u v s).2.cells = s.cells := by
  rcases u with _ | _ | _ <;> rcases v with _ | _ | _ <;> rfl
theorem swap_length (i j : Nat) (s : St α) : (Cpp.swap i j s).2.cells.length = s.cells.length := by
  simp only [Cpp.swap, bind_apply, setItem_length, getItem_cells]

theorem partLoop_length (t : α → α → Bool) (x : Option (Option α)) : ∀ n j k (s : St α),
    (partLoop t x n j k s).2.cells.length = s.cells.length := by
  intro n
  induction n with
  | zero => intro j k s; rfl
  | succ n ih =>
    intro j k s
    simp only [partLoop, bind_apply]
    split
    · simp only [bind_apply, ih, swap_length, comp_cells, getItem_cells]
    · simp only [ih, comp_cells, getItem_cells]

theorem partition_length (t : α → α → Bool) (low high : Nat) (s : St α) :
    (quickPartition t low high s).2.cells.length = s.cells.length := by
  simp only [quickPartition, bind_apply, pure_apply, swap_length, partLoop_length, getItem_cells]

/-- The pair `(0, SIZE_MAX)` never leaves the stack. -/
theorem quickStep_bad (t : α → α → Bool) (s : St α) (st : List (Nat × Nat)) (hb : (0, 2 ^ 64 - 1) ∈ st) (hl : s.cells.length < 2 ^ 64) :
    ∃ s' st', quickStep t (s, st) = .ok (s', st') ∧ (0, 2 ^ 64 - 1) ∈ st' ∧ s'.cells.length < 2 ^ 64 := by
  match st with
  | [] => cases hb
  | (low, high) :: st =>
    refine ⟨_, _, rfl, ?_, ?_⟩
    · have key : (0, 2 ^ 64 - 1) ∈ (if low < sz (((quickPartition t low high s).1 : Int) - 1) then
          (low, sz (((quickPartition t low high s).1 : Int) - 1)) :: st else st) := by
        rcases List.mem_cons.1 hb with e | hb
        · cases e
          obtain ⟨hp, -, -⟩ := partition_err t 0 (2 ^ 64 - 1) s (.inr (by omega))
          rw [hp]
          have : sz ((0 : Nat) - 1 : Int) = 2 ^ 64 - 1 := by decide
          rw [this]; simp
        · split
          · exact List.mem_cons_of_mem _ hb
          · exact hb
      split
      · exact List.mem_cons_of_mem _ key
      · exact key
    · show (quickPartition t low high s).2.cells.length < _
      rw [partition_length]; exact hl

theorem quick_never (t : α → α → Bool) : ∀ fuel (s : St α) (st : List (Nat × Nat)), (0, 2 ^ 64 - 1) ∈ st → s.cells.length < 2 ^ 64 →
    whileLoop fuel more (quickStep t) (s, st) = .error .outOfFuel := by
  intro fuel
  induction fuel with
  | zero => intros; rfl
  | succ fuel ih =>
    intro s st hb hl
    obtain ⟨s', st', e, hb', hl'⟩ := quickStep_bad t s st hb hl
    have hne : st.isEmpty = false := by cases st with
      | nil => cases hb
      | cons _ _ => rfl
    simp only [whileLoop, more, hne, e]
    exact ih s' st' hb' hl'

/-- One round of both programs from the same state. -/
theorem quickStep_sim (t : α → α → Bool) {a a' : List (Option α)} {low high p : Nat} {st : List (Nat × Nat)} (hl : a.length < 2 ^ 63)
    (e : qsPartition (pyComp t) lastCell low high a = .ok (a', p)) :
    (p ≠ 0 → quickStep t (⟨a, false⟩, (low, high) :: st) = (do
        let r ← quickBody (pyComp t) lastCell (a, (low, high) :: st)
        .ok (⟨r.1, false⟩, r.2))) ∧
    (p = 0 → ∃ st', quickStep t (⟨a, false⟩, (low, high) :: st) = .ok (⟨a', false⟩, st') ∧ (0, 2 ^ 64 - 1) ∈ st') := by
  obtain ⟨h1, h2, h3, h4⟩ := partition_bounds e
  constructor
  · intro hp
    simp only [quickStep, partition_sim t low high a a' p e, quickBody, e, ok_bind, sz_pred (show p < 2 ^ 64 by omega) (by omega),
      sz_succ (show p + 1 < 2 ^ 64 by omega), show (low < p - 1) = (low + 1 < p) by simp; omega]
  · rintro rfl
    have hlow : low = 0 := by omega
    subst hlow
    refine ⟨_, by simp only [quickStep, partition_sim t 0 high a a' 0 e]; rfl, ?_⟩
    have : sz (((0 : Nat) : Int) - 1) = 2 ^ 64 - 1 := by decide
    have key : (0, 2 ^ 64 - 1) ∈ (if 0 < sz (((0 : Nat) : Int) - 1) then (0, sz (((0 : Nat) : Int) - 1)) :: st else st) := by
      rw [this, if_pos (by decide)]; exact List.mem_cons_self
    split
    · exact List.mem_cons_of_mem _ key
    · exact key

/-- Both programs, when the Python one ends: the same end or none. -/
theorem quick_same_or_never (t : α → α → Bool) : ∀ n (a b : List (Option α)) (st st' : List (Nat × Nat)), a.length < 2 ^ 63 →
    whileLoop n more (quickBody (pyComp t) lastCell) (a, st) = .ok (b, st') →
    whileLoop n more (quickStep t) (⟨a, false⟩, st) = .ok (⟨b, false⟩, st') ∨
      ∀ fuel, whileLoop fuel more (quickStep t) (⟨a, false⟩, st) = .error .outOfFuel := by
  intro n
  induction n with
  | zero => intro a b st st' _ e; cases e
  | succ n ih =>
    intro a b st st' hl e
    match st with
    | [] => left; cases e; rfl
    | (low, high) :: st =>
      simp only [whileLoop, more, List.isEmpty_cons, Bool.not_false, ok_bind, if_true] at e ⊢
      obtain ⟨⟨a1, st1⟩, hb, e⟩ := bind_ok e
      have hb' := hb
      simp only [quickBody] at hb
      obtain ⟨⟨a2, p⟩, hp, hb⟩ := bind_ok hb
      have ha : a2 = a1 := by cases hb; rfl
      subst ha
      obtain ⟨g1, g2⟩ := quickStep_sim (st := st) t hl hp
      by_cases h0 : p = 0
      · right
        obtain ⟨st2, e2, hm⟩ := g2 h0
        intro fuel
        cases fuel with
        | zero => rfl
        | succ fuel =>
          simp only [whileLoop, more, List.isEmpty_cons, Bool.not_false, ok_bind, if_true, e2]
          exact quick_never t fuel _ _ hm (by show a2.length < _; rw [(partition_bounds hp).2.2.2]; omega)
      · have e2 := g1 h0
        rw [hb'] at e2
        rw [e2]
        rcases ih a2 b st1 st' (by rw [(partition_bounds hp).2.2.2]; exact hl) e with h | h
        · exact .inl h
        · right
          intro fuel
          cases fuel with
          | zero => rfl
          | succ fuel =>
            simp only [whileLoop, more, List.isEmpty_cons, Bool.not_false, ok_bind, if_true, e2]
            exact h fuel

/-- The same end, if no split point is 0 in any state that the Python program reaches. -/
theorem quick_same (t : α → α → Bool) {J : List (Option α) → List (Nat × Nat) → Prop}
    (hJ : ∀ a a' low high p st, J a ((low, high) :: st) → qsPartition (pyComp t) lastCell low high a = .ok (a', p) →
      p ≠ 0 ∧ (∀ r, quickBody (pyComp t) lastCell (a, (low, high) :: st) = .ok r → J r.1 r.2)) :
    ∀ n (a b : List (Option α)) (st st' : List (Nat × Nat)), a.length < 2 ^ 63 → J a st →
      whileLoop n more (quickBody (pyComp t) lastCell) (a, st) = .ok (b, st') →
      whileLoop n more (quickStep t) (⟨a, false⟩, st) = .ok (⟨b, false⟩, st') := by
  intro n
  induction n with
  | zero => intro a b st st' _ _ e; cases e
  | succ n ih =>
    intro a b st st' hl hj e
    match st with
    | [] => cases e; rfl
    | (low, high) :: st =>
      simp only [whileLoop, more, List.isEmpty_cons, Bool.not_false, ok_bind, if_true] at e ⊢
      obtain ⟨⟨a1, st1⟩, hb, e⟩ := bind_ok e
      have hb' := hb
      simp only [quickBody] at hb
      obtain ⟨⟨a2, p⟩, hp, hb⟩ := bind_ok hb
      have ha : a2 = a1 := by cases hb; rfl
      subst ha
      obtain ⟨h0, hn⟩ := hJ a a2 low high p st hj hp
      have e2 := (quickStep_sim (st := st) t hl hp).1 h0
      rw [hb'] at e2
      rw [e2]
      exact ih a2 b st1 st' (by rw [(partition_bounds hp).2.2.2]; exact hl) (hn _ hb') e

/-! ## When the first cell may precede all others -/

/-- Cell 0 holds `v`, which may precede what the other cells of the range hold. -/
def Leads (c : Option α → Option α → Bool) (v : Option α) (stop : Nat) (a : List (Option α)) : Prop :=
  a[0]? = some v ∧ ∀ (j : Nat) x, 1 ≤ j → j ≤ stop → a[j]? = some x → c v x = true

theorem Leads.swp {c : Option α → Option α → Bool} {v : Option α} {stop : Nat} {a b : List (Option α)} (h : Leads c v stop a) {i j : Nat}
    (hi : 1 ≤ i ∧ i ≤ stop) (hj : 1 ≤ j ∧ j ≤ stop) (e : swp a i j = .ok b) : Leads c v stop b := by
  have : i < a.length ∧ j < a.length := by
    unfold Py.swp at e
    obtain ⟨y, hy, e⟩ := bind_ok e
    obtain ⟨x, hx, e⟩ := bind_ok e
    simp only [rd] at hx hy
    constructor
    · cases e : a[i]? with
      | none => rw [e] at hx; cases hx
      | some _ => exact (List.getElem?_eq_some_iff.1 e).1
    · cases e : a[j]? with
      | none => rw [e] at hy; cases hy
      | some _ => exact (List.getElem?_eq_some_iff.1 e).1
  rw [swp_of_lt this.1 this.2] at e
  cases e
  refine ⟨?_, fun k x h1 h2 hk => ?_⟩
  · rw [List.getElem?_set_ne (by omega), List.getElem?_set_ne (by omega)]; exact h.1
  · rw [List.getElem?_set] at hk
    split at hk
    · split at hk
      · cases hk; exact h.2 i _ hi.1 hi.2 (List.getElem?_eq_getElem this.1)
      · cases hk
    · rw [List.getElem?_set] at hk
      split at hk
      · split at hk
        · cases hk; exact h.2 j _ hj.1 hj.2 (List.getElem?_eq_getElem this.2)
        · cases hk
      · exact h.2 k x h1 h2 hk

theorem partLoop_leads {c : Option α → Option α → Bool} {v : Option α} {stop : Nat} {f : Option α → Bool} : ∀ n j k a a' k',
    Py.loop (fun j (s : List (Option α) × Nat) => do
      let y ← rd s.1 j
      if f y = true then
        let a ← swp s.1 s.2 j
        .ok (a, s.2 + 1)
      else .ok (s.1, s.2)) n j (a, k) = .ok (a', k') → 1 ≤ k → k ≤ j → j + n ≤ stop → Leads c v stop a → Leads c v stop a' ∧ k' ≤ j + n := by
  intro n
  induction n with
  | zero => intro j k a a' k' e _ h2 _ h; cases e; exact ⟨h, by omega⟩
  | succ n ih =>
    intro j k a a' k' e h1 h2 h3 h
    simp only [Py.loop] at e
    obtain ⟨⟨b, m⟩, hq, e⟩ := bind_ok e
    obtain ⟨y, hy, hq⟩ := bind_ok hq
    split at hq
    · obtain ⟨d, hd, hq⟩ := bind_ok hq
      cases hq
      have := ih _ _ _ _ _ e (by omega) (by omega) (by omega) (h.swp ⟨h1, by omega⟩ ⟨by omega, by omega⟩ hd)
      exact ⟨this.1, by omega⟩
    · cases hq
      have := ih _ _ _ _ _ e (by omega) (by omega) (by omega) h
      exact ⟨this.1, by omega⟩

theorem partition_leads {c : Option α → Option α → Bool} {v : Option α} {stop low high p : Nat} {a a' : List (Option α)}
    (e : qsPartition c lastCell low high a = .ok (a', p)) (h : Leads c v stop a) (hs : high ≤ stop) (hlh : low ≤ high) (h0 : low = 0 → 1 ≤ high) :
    Leads c v stop a' ∧ p ≠ 0 ∧ p ≤ high := by
  unfold qsPartition at e
  obtain ⟨x, hx, e⟩ := bind_ok e
  obtain ⟨⟨b, k⟩, hk, e⟩ := bind_ok e
  obtain ⟨d, hd, e⟩ := bind_ok e
  cases e
  have hx' : a[high]? = some x := by
    simp only [lastCell, rd] at hx
    cases e : a[high]? with
    | none => rw [e] at hx; cases hx
    | some _ => rw [e] at hx; cases hx; rfl
  have key : Leads c v stop b ∧ 1 ≤ p ∧ p ≤ high := by
    by_cases hl : low = 0
    · subst hl
      have hh := h0 rfl
      unfold forRange at hk
      obtain ⟨m, hm⟩ : ∃ m, high - 0 = m + 1 := ⟨high - 1, by omega⟩
      rw [hm] at hk
      simp only [Py.loop] at hk
      obtain ⟨⟨b1, k1⟩, hq, hk⟩ := bind_ok hk
      have hlen : 0 < a.length := (List.getElem?_eq_some_iff.1 h.1).1
      have h00 : rd a 0 = .ok v := by simp [rd, h.1]
      rw [h00, ok_bind, if_pos (h.2 high x hh hs hx'), swp_of_lt hlen hlen, ok_bind] at hq
      have : (a.set 0 a[0]).set 0 a[0] = a := by simp
      rw [this] at hq
      cases hq
      have g := partLoop_leads (c := c) (v := v) (stop := stop) (f := fun y => c y x) _ _ _ _ _ _ hk (by omega) (by omega) (by omega) h
      have g2 := partLoop_grows (f := fun y => c y x) _ _ _ _ _ _ hk
      exact ⟨g.1, by omega, by omega⟩
    · have g := partLoop_leads (c := c) (v := v) (stop := stop) (f := fun y => c y x) _ _ _ _ _ _ hk (by omega) (by omega) (by omega) h
      have g2 := partLoop_grows (f := fun y => c y x) _ _ _ _ _ _ hk
      exact ⟨g.1, by omega, by omega⟩
  obtain ⟨k1, k2, k3⟩ := key
  exact ⟨k1.swp ⟨k2, by omega⟩ ⟨by omega, hs⟩ hd, by omega, k3⟩

end Model.Cpp
