import Verif.Lemmas.Sort
import Verif.Model.Sort

namespace Model
open Py Spec
variable {β : Type _}

theorem pyComp_compat {α : Type _} {comp : α → α → Bool} {le : α → α → Prop} (h : Compat comp le) :
    Compat (pyComp comp) (noneLast le) where
  yes a b := by cases a <;> cases b <;> simp [pyComp, noneLast]; exact h.yes _ _
  no a b := by cases a <;> cases b <;> simp [pyComp, noneLast]; exact h.no _ _

/-- cell `j'` dominates the cells before it in the range -/
private def Dom (le : β → β → Prop) (a : List β) (start j : Nat) : Prop :=
  ∀ i x y, start ≤ i → i < j → a[i]? = some x → a[j]? = some y → le x y

private theorem bubble_step {c : β → β → Bool} {le : β → β → Prop} (ho : TotalPreorder le) (hc : Compat c le)
    {a : List β} {start j : Nat} (hs : start ≤ j) (hj : j + 1 < a.length)
    (hd : Dom le a start j) :
    ∃ a', (do let x ← rd a j; let y ← rd a (j + 1); if !(c x y) then swp a j (j + 1) else .ok a) = .ok a'
      ∧ (a' = a ∨ a' = (a.set j a[j+1]).set (j+1) a[j])
      ∧ Dom le a' start (j + 1)
      ∧ (∀ k, j + 1 < k → Dom le a start k → Dom le a' start k)
      ∧ (∀ k, k < j → Dom le a start k → Dom le a' start k)
      ∧ (Dom le a start (j+1) → Dom le a' start j) := by
  rw [rd_of_lt (by omega : j < a.length), rd_of_lt hj]
  have ht := ho.trans
  simp only [ok_bind]
  cases h : c a[j] a[j+1] with
  | true =>
    have := hc.yes _ _ h
    refine ⟨a, by simp, .inl rfl, ?_, fun _ _ h => h, fun _ _ h => h, fun _ => hd⟩
    intro i x y h1 h2 hx hy
    by_cases e : i = j
    · grind
    · have := hd i x a[j] h1 (by omega) hx (by grind)
      grind
  | false =>
    have := hc.no _ _ h
    have hr := ho.refl
    refine ⟨_, by simp [swp_of_lt (by omega : j < a.length) hj], .inr rfl, ?_, ?_, ?_, ?_⟩
    · intro i x y h1 h2 hx hy
      by_cases e : i = j
      · grind
      · have := hd i x a[j] h1 (by omega) (by grind) (by grind)
        grind
    · intro k hk hdk i x y h1 h2 hx hy
      have := hdk i
      have h3 := hdk j
      have h4 := hdk (j+1)
      grind
    · intro k hk hdk i x y h1 h2 hx hy
      have := hdk i
      grind
    · intro hdk i x y h1 h2 hx hy
      have := hdk i
      grind

theorem bubbleSortC_spec {c : β → β → Bool} {le : β → β → Prop} (ho : TotalPreorder le) (hc : Compat c le)
    (a : List β) (start stop : Nat) (hstop : stop ≤ a.length) :
    ∃ b, bubbleSortC c a start stop = .ok b ∧ SortsTo le a b start stop := by
  by_cases hss : start < stop
  case neg =>
    refine ⟨a, ?_, .refl _ _ _, ?_⟩
    · have : ∀ n i, loop (fun (_ : Nat) (a : List β) => forRange start (stop - 1) a fun j a => do
          let x ← rd a j
          let y ← rd a (j + 1)
          if !(c x y) then swp a j (j + 1) else .ok a) n i a = .ok a := by
        intro n
        induction n with
        | zero => intro i; rfl
        | succ n ih =>
          intro i; rw [loop, forRange_empty (by omega)]; exact ih _
      exact this _ _
    · intro i j x y; omega
  have key := forRange_spec (s := a) (lo := 0) (hi := a.length - 1)
    (body := fun _ a => forRange start (stop - 1) a fun j a => do
      let x ← rd a j
      let y ← rd a (j + 1)
      if !(c x y) then swp a j (j + 1) else .ok a)
    (fun k b => Rearranged a b start stop ∧ ∀ j, stop - k ≤ j → j < stop → Dom le b start j)
    (Nat.zero_le _) ⟨.refl _ _ _, fun j h1 h2 => by omega⟩ ?_
  · obtain ⟨b, e, hr, hd⟩ := key
    refine ⟨b, e, hr, ?_⟩
    intro i j x y h1 h2 h3 hx hy
    exact hd j (by omega) h3 i x y h1 h2 hx hy
  · rintro k b - hk ⟨hr, hd⟩
    have inner := forRange_spec (s := b) (lo := start) (hi := stop - 1)
      (body := fun j a => do
        let x ← rd a j
        let y ← rd a (j + 1)
        if !(c x y) then swp a j (j + 1) else .ok a)
      (fun J b => Rearranged a b start stop ∧
        ∀ j, (stop - k ≤ j ∧ j < stop ∨ j = J ∨ stop - k - 1 ≤ j ∧ j ≤ J) → Dom le b start j)
      (by omega) ⟨hr, ?_⟩ ?_
    · obtain ⟨b', e, hr', hd'⟩ := inner
      refine ⟨b', e, hr', fun j h1 h2 => hd' j (by omega)⟩
    · intro j hj
      by_cases h : j = start
      · subst h; intro i; omega
      · by_cases h' : j < start
        · intro i; omega
        · exact hd j (by omega) (by omega)
    · rintro J b1 hJ1 hJ2 ⟨hr1, hd1⟩
      have hl := hr1.length_eq
      obtain ⟨b2, e2, hcase, h1, h2, h3, h4⟩ :=
        bubble_step ho hc (a := b1) hJ1 (by omega) (hd1 J (by omega))
      refine ⟨b2, e2, ?_, ?_⟩
      · rcases hcase with rfl | rfl
        · exact hr1
        · exact hr1.trans (rearranged_swap hJ1 (by omega) (by omega) (by omega) _ _)
      · intro j hj
        by_cases e1 : j = J + 1
        · subst e1; exact h1
        by_cases e2 : j = J
        · subst e2; exact h4 (hd1 _ (by omega))
        by_cases e3 : j < J
        · exact h3 j e3 (hd1 _ (by omega))
        · exact h2 j (by omega) (hd1 _ (by omega))

theorem selectionSortC_spec {c : β → β → Bool} {le : β → β → Prop} (ho : TotalPreorder le) (hc : Compat c le)
    (a : List β) (start stop : Nat) (hstop : stop ≤ a.length) :
    ∃ b, selectionSortC c a start stop = .ok b ∧ SortsTo le a b start stop := by
  by_cases hss : start ≤ stop
  case neg =>
    refine ⟨a, forRange_empty (by omega), .refl _ _ _, ?_⟩
    intro i j x y; omega
  have ht := ho.trans
  have hrf := ho.refl
  have key := forRange_spec (s := a) (lo := start) (hi := stop)
    (body := fun i a => do
      let jMin ← forRange (i + 1) stop i fun j jMin => do
        let x ← rd a jMin
        let y ← rd a j
        if !(c x y) then .ok j else .ok jMin
      if jMin ≠ i then swp a i jMin else .ok a)
    (fun k b => Rearranged a b start stop ∧
      ∀ i j x y, start ≤ i → i < k → i < j → j < stop → b[i]? = some x → b[j]? = some y → le x y)
    hss ⟨.refl _ _ _, fun i j x y h1 h2 => by omega⟩ ?_
  · obtain ⟨b, e, hr, hd⟩ := key
    exact ⟨b, e, hr, fun i j x y h1 h2 h3 => hd i j x y h1 (by omega) h2 h3⟩
  · rintro k b hk1 hk2 ⟨hr, hd⟩
    have hl := hr.length_eq
    have inner := forRange_spec (s := k) (lo := k + 1) (hi := stop)
      (body := fun j jMin => do
        let x ← rd b jMin
        let y ← rd b j
        if !(c x y) then .ok j else .ok jMin)
      (fun J m => k ≤ m ∧ m < stop ∧
        ∀ j x y, k ≤ j → j < J → b[m]? = some x → b[j]? = some y → le x y)
      (by omega) ⟨by omega, by omega, by grind⟩ ?_
    · obtain ⟨m, e, hm1, hm2, hm⟩ := inner
      by_cases hmk : m = k
      · subst hmk
        refine ⟨b, by rw [e]; simp, hr, ?_⟩
        intro i j x y h1 h2 h3 h4 hx hy
        by_cases h : i = m
        · subst h; exact hm j x y (by omega) h4 hx hy
        · exact hd i j x y h1 (by omega) h3 h4 hx hy
      · refine ⟨_, by simp only [e, ok_bind]; rw [if_pos hmk, swp_of_lt (by omega) (by omega)],
          hr.trans (rearranged_swap (by omega) (by omega) (by omega) (by omega) _ _), ?_⟩
        intro i j x y h1 h2 h3 h4 hx hy
        have A := hd i j
        have B := hd i k
        have C := hd i m
        have D := hm j
        have E := hm k
        clear hd hm hr
        grind
    · rintro J m hJ1 hJ2 ⟨hm1, hm2, hm⟩
      rw [rd_of_lt (by omega : m < b.length), rd_of_lt (by omega : J < b.length)]
      simp only [ok_bind]
      cases h : c b[m] b[J] with
      | true =>
        have := hc.yes _ _ h
        refine ⟨m, by simp, hm1, hm2, ?_⟩
        intro j x y h1 h2 hx hy
        have := hm j
        clear hd hm hr
        grind
      | false =>
        have := hc.no _ _ h
        refine ⟨J, by simp, by omega, by omega, ?_⟩
        intro j x y h1 h2 hx hy
        have := hm j
        clear hd hm hr
        grind

end Model
