import Verif.Lemmas.Merge
import Verif.Lemmas.Bind

/-! Sorting by exchanges of neighbours does not let equivalent elements overtake each other. -/
namespace Model
open Py Spec
variable {β : Type} {σ : Type}

theorem loop_keeps {body : Nat → σ → PyM σ} (P : σ → Prop) (hb : ∀ i s s', P s → body i s = .ok s' → P s') :
    ∀ n i s s', P s → loop body n i s = .ok s' → P s' := by
  intro n
  induction n with
  | zero => intro i s s' h e; cases e; exact h
  | succ n ih =>
    intro i s s' h e
    obtain ⟨t, e1, e2⟩ := bind_ok e
    exact ih _ _ _ (hb _ _ _ h e1) e2

theorem forRange_keeps {body : Nat → σ → PyM σ} (P : σ → Prop) (hb : ∀ i s s', P s → body i s = .ok s' → P s')
    {lo hi : Nat} {s s' : σ} (h : P s) (e : forRange lo hi s body = .ok s') : P s' :=
  loop_keeps P hb _ _ _ _ h e

theorem loopDown_keeps {body : Nat → σ → PyM σ} (P : σ → Prop) (hb : ∀ i s s', P s → body i s = .ok s' → P s') :
    ∀ n i s s', P s → loopDown body n i s = .ok s' → P s' := by
  intro n
  induction n with
  | zero => intro i s s' h e; cases e; exact h
  | succ n ih =>
    intro i s s' h e
    obtain ⟨t, e1, e2⟩ := bind_ok e
    exact ih _ _ _ (hb _ _ _ h e1) e2

theorem forDown_keeps {body : Nat → σ → PyM σ} (P : σ → Prop) {lo hi : Nat}
    (hb : ∀ i s s', lo ≤ i → P s → body i s = .ok s' → P s')
    {s s' : σ} (h : P s) (e : forDown lo hi s body = .ok s') : P s' := by
  unfold forDown at e
  generalize hi - lo = n at e
  induction n generalizing s with
  | zero => cases e; exact h
  | succ n ih =>
    obtain ⟨t, e1, e2⟩ := bind_ok e
    exact ih (hb _ _ _ (by omega) h e1) e2

theorem forList_keeps {α : Type} {body : α → σ → PyM σ} (P : σ → Prop) (hb : ∀ i s s', P s → body i s = .ok s' → P s') :
    ∀ (xs : List α) (s s' : σ), P s → forList xs s body = .ok s' → P s' := by
  intro xs
  induction xs with
  | nil => intro s s' h e; cases e; exact h
  | cons x xs ih =>
    intro s s' h e
    obtain ⟨t, e1, e2⟩ := bind_ok e
    exact ih _ _ (hb _ _ _ h e1) e2

theorem whileLoop_keeps {cond : σ → PyM Bool} {body : σ → PyM σ} (P : σ → Prop)
    (hb : ∀ s s', P s → body s = .ok s' → P s') :
    ∀ fuel s s', P s → whileLoop fuel cond body s = .ok s' → P s' := by
  intro fuel
  induction fuel with
  | zero => intro s s' h e; cases e
  | succ n ih =>
    intro s s' h e
    rw [whileLoop] at e
    obtain ⟨b, e1, e2⟩ := bind_ok e
    cases b with
    | false => simp at e2; subst e2; exact h
    | true =>
      simp only [if_true] at e2
      obtain ⟨t, e3, e4⟩ := bind_ok e2
      exact ih _ _ (hb _ _ h e3) e4

/-- exchanging two neighbours that do not both satisfy `p` -/
theorem filter_swap (p : β → Bool) (a : List β) (j : Nat) (h : j + 1 < a.length)
    (hp : ¬ (p a[j] = true ∧ p a[j+1] = true)) :
    ((a.set j a[j+1]).set (j+1) a[j]).filter p = a.filter p := by
  induction a generalizing j with
  | nil => simp at h
  | cons x a ih =>
    cases j with
    | zero =>
      cases a with
      | nil => simp at h
      | cons y a =>
        simp only [List.getElem_cons_zero, Nat.zero_add, List.getElem_cons_succ, List.set_cons_zero,
          List.set_cons_succ] at hp ⊢
        simp only [List.filter_cons]
        cases hx : p x <;> cases hy : p y <;> simp_all
    | succ j =>
      simp only [List.getElem_cons_succ, List.set_cons_succ, List.filter_cons] at hp ⊢
      have := ih j (by simpa using h) hp
      simp only [this]

theorem rd_some {l : List β} {i : Nat} {x : β} (e : rd l i = .ok x) : ∃ h : i < l.length, l[i] = x := by
  rw [rd_eq_ok] at e
  exact List.getElem?_eq_some_iff.1 e

theorem swp_some {l l' : List β} {i j : Nat} (e : swp l i j = .ok l') :
    ∃ (hi : i < l.length) (hj : j < l.length), l' = (l.set i l[j]).set j l[i] := by
  unfold swp at e
  obtain ⟨y, e1, e⟩ := bind_ok e
  obtain ⟨x, e2, e⟩ := bind_ok e
  obtain ⟨hj, rfl⟩ := rd_some e1
  obtain ⟨hi, rfl⟩ := rd_some e2
  refine ⟨hi, hj, ?_⟩
  rw [wr_of_lt _ hi, ok_bind, wr_of_lt _ (by simpa using hj)] at e
  exact (Except.ok.inj e).symm

/-- no exchange of `x` with a later `y` is asked for when both satisfy `p` -/
def Never (c : β → β → Bool) (p : β → Bool) : Prop := ∀ x y, c x y = false → ¬ (p x = true ∧ p y = true)

theorem swp_next {l l' : List β} {j : Nat} (p : β → Bool) {x y : β} (e1 : rd l j = .ok x) (e2 : rd l (j + 1) = .ok y)
    (hp : ¬ (p x = true ∧ p y = true)) (e : swp l j (j + 1) = .ok l' ∨ swp l (j + 1) j = .ok l') :
    l'.filter p = l.filter p := by
  obtain ⟨hj, rfl⟩ := rd_some e1
  obtain ⟨hj1, rfl⟩ := rd_some e2
  rcases e with e | e
  · obtain ⟨_, _, rfl⟩ := swp_some e
    exact filter_swap p l j hj1 hp
  · obtain ⟨_, _, rfl⟩ := swp_some e
    rw [List.set_comm _ _ (by omega)]
    exact filter_swap p l j hj1 hp

theorem bubbleSortC_keeps {c : β → β → Bool} {p : β → Bool} (h : Never c p) {a b : List β} {start stop : Nat}
    (e : bubbleSortC c a start stop = .ok b) : b.filter p = a.filter p := by
  refine forRange_keeps (fun s => s.filter p = a.filter p) (fun i s s' hs e => ?_) rfl e
  refine forRange_keeps (fun s => s.filter p = a.filter p) (fun j s s' hs e => ?_) hs e
  obtain ⟨x, e1, e⟩ := bind_ok e
  obtain ⟨y, e2, e⟩ := bind_ok e
  cases hc : c x y with
  | true => simp [hc] at e; subst e; exact hs
  | false => simp [hc] at e; exact (swp_next p e1 e2 (h _ _ hc) (.inl e)).trans hs

theorem cocktailSortC_keeps {c : β → β → Bool} {p : β → Bool} (h : Never c p) {a b : List β} {start stop fuel : Nat}
    (e : cocktailSortC c fuel a start stop = .ok b) : b.filter p = a.filter p := by
  unfold cocktailSortC at e
  obtain ⟨s, e1, e⟩ := bind_ok e
  have := whileLoop_keeps (fun s => s.1.filter p = a.filter p) (fun s s' hs e => ?_) _ _ _ rfl e1
  · cases e; exact this
  · clear e1
    obtain ⟨b, lo, hi, f⟩ := s
    obtain ⟨t, e1, e⟩ := bind_ok e
    have : t.1.filter p = a.filter p := by
      unfold cocktailRound at e1
      obtain ⟨u, e3, e4⟩ := bind_ok e1
      refine forDown_keeps (fun s => s.1.filter p = a.filter p) (fun j s s' hj hs e => ?_) (s := u) ?_ e4
      · obtain ⟨b, f⟩ := s
        obtain ⟨x, e1, e⟩ := bind_ok e
        obtain ⟨y, e2, e⟩ := bind_ok e
        obtain ⟨k, rfl⟩ : ∃ k, j = k + 1 := ⟨j - 1, by omega⟩
        cases hc : c x y with
        | true => simp [hc] at e; subst e; exact hs
        | false =>
          simp only [hc, if_true] at e
          obtain ⟨l, e5, e⟩ := bind_ok e
          cases e
          exact (swp_next p e1 e2 (h _ _ hc) (.inr e5)).trans hs
      · refine forRange_keeps (fun s => s.1.filter p = a.filter p) (fun j s s' hs e => ?_) (s := (b, true)) hs e3
        obtain ⟨b, f⟩ := s
        obtain ⟨x, e1, e⟩ := bind_ok e
        obtain ⟨y, e2, e⟩ := bind_ok e
        cases hc : c x y with
        | true => simp [hc] at e; subst e; exact hs
        | false =>
          simp only [hc, if_true] at e
          obtain ⟨l, e5, e⟩ := bind_ok e
          cases e
          exact (swp_next p e1 e2 (h _ _ hc) (.inr e5)).trans hs
    cases e; exact this

theorem shiftDown_keeps {c : β → β → Bool} {p : β → Bool} (h : Never c p) (start : Nat) (temp : β) :
    ∀ (fuel : Nat) (a a' : List β) (j j' : Nat), j < a.length → shiftDown c start 1 temp fuel a j = .ok (a', j') →
      (a'.set j' temp).filter p = (a.set j temp).filter p := by
  intro fuel
  induction fuel with
  | zero => intro a a' j j' _ e; cases e
  | succ n ih =>
    intro a a' j j' hj e
    rw [shiftDown] at e
    split at e
    · rename_i hs
      obtain ⟨x, e1, e⟩ := bind_ok e
      cases hc : c x temp with
      | true => simp [hc] at e; obtain ⟨rfl, rfl⟩ := e; rfl
      | false =>
        simp only [hc, Bool.not_false, if_true] at e
        obtain ⟨b, e2, e⟩ := bind_ok e
        rw [wr_of_lt _ hj] at e2
        cases e2
        rw [ih _ _ _ _ (by simp; omega) e]
        obtain ⟨k, rfl⟩ : ∃ k, j = k + 1 := ⟨j - 1, by omega⟩
        obtain ⟨hk, rfl⟩ := rd_some e1
        simp only [Nat.add_sub_cancel] at hk hc ⊢
        have := filter_swap p (a.set (k + 1) temp) k (by simpa using hj) (by
          rw [List.getElem_set_self, List.getElem_set_ne (by omega)]
          exact h _ _ hc)
        rw [← this, List.getElem_set_self, List.getElem_set_ne (by omega)]
        rw [List.set_comm (i := k) _ _ (by omega : k ≠ k + 1), List.set_set]
    · cases e; rfl

theorem insertionSortC_keeps {c : β → β → Bool} {p : β → Bool} (h : Never c p) {a b : List β} {start stop : Nat}
    (e : insertionSortC c a start stop = .ok b) : b.filter p = a.filter p := by
  refine forRange_keeps (fun s => s.filter p = a.filter p) (fun i s s' hs e => ?_) rfl e
  obtain ⟨x, e1, e⟩ := bind_ok e
  obtain ⟨t, e2, e⟩ := bind_ok e
  obtain ⟨hi, rfl⟩ := rd_some e1
  obtain ⟨b, j⟩ := t
  have := shiftDown_keeps h start _ _ _ _ _ _ hi e2
  rw [List.set_getElem_self] at this
  have hl : j < b.length := by
    by_cases hl : j < b.length
    · exact hl
    · simp [wr, hl] at e
  replace e : wr b j s[i] = .ok s' := e
  rw [wr_of_lt _ hl] at e
  cases e
  exact this.trans hs

theorem brickSwap_keeps {c : β → β → Bool} {p : β → Bool} (h : ∀ x y, c y x = true → ¬ (p x = true ∧ p y = true))
    {i : Nat} {s s' : List β × Bool} (e : brickSwap c i s = .ok s') : s'.1.filter p = s.1.filter p := by
  obtain ⟨a, f⟩ := s
  obtain ⟨y, e1, e⟩ := bind_ok e
  obtain ⟨x, e2, e⟩ := bind_ok e
  cases hc : c y x with
  | false => simp [hc] at e; subst e; rfl
  | true =>
    simp only [hc, if_true] at e
    obtain ⟨l, e5, e⟩ := bind_ok e
    cases e
    exact swp_next p e2 e1 (h _ _ hc) (.inl e5)

theorem brickSortParC_keeps {c : β → β → Bool} {p : β → Bool} (h : ∀ x y, c y x = true → ¬ (p x = true ∧ p y = true))
    (sched : Nat → List Nat → List Nat) {a b : List β} {start stop fuel : Nat}
    (e : brickSortParC c sched fuel a start stop = .ok b) : b.filter p = a.filter p := by
  unfold brickSortParC at e
  obtain ⟨s, e1, e⟩ := bind_ok e
  have := whileLoop_keeps (fun s => s.1.1.filter p = a.filter p) (fun s s' hs e => ?_) _ _ _ rfl e1
  · cases e; exact this
  · obtain ⟨t, e1, e⟩ := bind_ok e
    obtain ⟨u, e2, e⟩ := bind_ok e
    have h1 := forList_keeps (fun s => s.1.filter p = a.filter p)
      (fun i s s' hs e => (brickSwap_keeps h e).trans hs) _ (_, true) _ hs e1
    have h2 := forList_keeps (fun s => s.1.filter p = a.filter p)
      (fun i s s' hs e => (brickSwap_keeps h e).trans hs) _ _ _ h1 e2
    cases e; exact h2

end Model
