import Verif.Lemmas.Bubble

namespace Model
open Py Spec
variable {β : Type _}

/-- while the element `temp` is on its way down: the cells other than the hole `j` are sorted and those after
the hole are not smaller than `temp` -/
private def HoleInv (le : β → β → Prop) (temp : β) (a : List β) (start i j : Nat) : Prop :=
  (∀ p q x y, start ≤ p → p < q → q ≤ i → p ≠ j → q ≠ j → a[p]? = some x → a[q]? = some y → le x y) ∧
  (∀ q y, j < q → q ≤ i → a[q]? = some y → le temp y)

private theorem shiftDown_spec {c : β → β → Bool} {le : β → β → Prop} (ho : TotalPreorder le) (hc : Compat c le)
    (start gap i : Nat) (temp : β) (hg : 0 < gap) :
    ∀ (fuel : Nat) (a : List β) (j : Nat), j < fuel → start ≤ j → j ≤ i → i < a.length →
      ∃ a' j', shiftDown c start gap temp fuel a j = .ok (a', j') ∧ j' < a'.length ∧
        Rearranged (a.set j temp) (a'.set j' temp) start (i + 1) ∧
        (gap = 1 → HoleInv le temp a start i j → SortedRange le (a'.set j' temp) start (i + 1)) := by
  intro fuel
  induction fuel with
  | zero => intro a j h; omega
  | succ fuel ih =>
    intro a j hf hs hji hi
    have ht := ho.trans
    by_cases hcond : start + gap ≤ j
    · rw [shiftDown, if_pos hcond, rd_of_lt (by omega : j - gap < a.length)]
      simp only [ok_bind]
      cases h : c a[j - gap] temp with
      | true =>
        have hy := hc.yes _ _ h
        refine ⟨a, j, by simp, by omega, .refl _ _ _, ?_⟩
        rintro rfl ⟨h1, h2⟩ p q x y hp hpq hq hx hyy
        have A := h1 p q x y
        have B := h2 q
        have C := h1 p (j - 1) x a[j-1]
        clear h1 h2 ih
        grind
      | false =>
        have hn := hc.no _ _ h
        simp only [Bool.not_false, if_true]
        rw [wr_of_lt _ (by omega : j < a.length)]
        simp only [ok_bind]
        obtain ⟨a', j', e, hl, hr, hsort⟩ := ih (a.set j a[j - gap]) (j - gap) (by omega) (by omega) (by omega)
          (by simpa using hi)
        refine ⟨a', j', e, hl, ?_, ?_⟩
        · refine Rearranged.trans ?_ hr
          have hsw := rearranged_swap (a := a.set j temp) (lo := start) (hi := i + 1) (i := j) (j := j - gap)
            hs (by omega) (by omega) (by omega) (by simp; omega) (by simp; omega)
          have e2 : ((a.set j temp).set j ((a.set j temp)[j - gap]'(by simp; omega))).set (j - gap)
                ((a.set j temp)[j]'(by simp; omega))
              = (a.set j a[j - gap]).set (j - gap) temp := by
            rw [List.getElem_set_self, List.getElem_set_ne (by omega), List.set_set]
          rw [e2] at hsw
          exact hsw
        · rintro rfl ⟨h1, h2⟩
          refine hsort rfl ⟨?_, ?_⟩
          · intro p q x y hp hpq hq hpj hqj hx hy
            have A := h1 p q x y
            have B := h1 p (j - 1) x y
            have C := h1 (j - 1) q x y
            clear h1 h2 ih hsort hr
            grind
          · intro q y hq hqi hy
            have A := h2 q y
            clear h1 h2 ih hsort hr
            grind
    · rw [shiftDown, if_neg hcond]
      refine ⟨a, j, rfl, by omega, .refl _ _ _, ?_⟩
      rintro rfl ⟨h1, h2⟩ p q x y hp hpq hq hx hyy
      have A := h1 p q x y
      have B := h2 q
      clear h1 h2 ih
      grind

private theorem insertStep {c : β → β → Bool} {le : β → β → Prop} (ho : TotalPreorder le) (hc : Compat c le)
    (start gap i : Nat) (hg : 0 < gap) (hsi : start ≤ i) (a : List β) (hi : i < a.length) :
    ∃ b, (do
      let temp ← rd a i
      let (a, j) ← shiftDown c start gap temp (i + 1) a i
      wr a j temp) = .ok b ∧ Rearranged a b start (i + 1) ∧
      (gap = 1 → SortedRange le a start i → SortedRange le b start (i + 1)) := by
  obtain ⟨a', j', e, hl, hr, hs⟩ := shiftDown_spec ho hc start gap i a[i] hg (i + 1) a i (by omega) hsi
    (by omega) hi
  refine ⟨a'.set j' a[i], ?_, ?_, ?_⟩
  · simp [rd_of_lt hi, e, wr_of_lt _ hl]
  · simpa using hr
  · rintro hg1 hsr
    refine hs hg1 ⟨?_, ?_⟩
    · intro p q x y hp hpq hq hpj hqj hx hy
      exact hsr p q x y hp hpq (by omega) hx hy
    · intro q y h1 h2; omega

theorem insertionSortC_spec {c : β → β → Bool} {le : β → β → Prop} (ho : TotalPreorder le) (hc : Compat c le)
    (a : List β) (start stop : Nat) (hstop : stop ≤ a.length) :
    ∃ b, insertionSortC c a start stop = .ok b ∧ SortsTo le a b start stop := by
  by_cases hss : start + 1 ≤ stop
  case neg =>
    refine ⟨a, forRange_empty (by omega), .refl _ _ _, ?_⟩
    intro i j x y; omega
  refine forRange_spec (fun k b => SortsTo le a b start k ) hss ⟨.refl _ _ _, fun i j x y h1 h2 => by omega⟩ ?_
  rintro k b h1 h2 ⟨hr, hs⟩
  have hl := hr.length_eq
  obtain ⟨b', e, hr', hs'⟩ := insertStep ho hc start 1 k (by omega) (by omega) b (by omega)
  exact ⟨b', e, (hr.mono (by omega) (by omega)).trans hr', hs' rfl hs⟩

private theorem shellRound_spec {c : β → β → Bool} {le : β → β → Prop} (ho : TotalPreorder le) (hc : Compat c le)
    (a : List β) (start stop gap : Nat) (hg : 0 < gap) (hgap : start + gap ≤ stop) (hstop : stop ≤ a.length) :
    ∃ b, shellRound c start stop gap a = .ok b ∧ Rearranged a b start stop ∧
      (gap = 1 → SortedRange le b start stop) := by
  refine forRange_spec (fun k b => Rearranged a b start stop ∧ (gap = 1 → SortedRange le b start k)) hgap
    ⟨.refl _ _ _, ?_⟩ ?_
  · rintro rfl i j x y; omega
  rintro k b h1 h2 ⟨hr, hs⟩
  have hl := hr.length_eq
  obtain ⟨b', e, hr', hs'⟩ := insertStep ho hc start gap k hg (by omega) b (by omega)
  exact ⟨b', e, hr.trans (hr'.mono (by omega) (by omega)), fun e => hs' e (hs e)⟩

theorem shellSortC_spec {c : β → β → Bool} {le : β → β → Prop} (ho : TotalPreorder le) (hc : Compat c le)
    (a : List β) (start stop : Nat) (hstop : stop ≤ a.length) (fuel : Nat) (hf : stop - start < fuel) :
    ∃ b, shellSortC c fuel a start stop = .ok b ∧ SortsTo le a b start stop := by
  obtain ⟨⟨b, g⟩, e, ⟨hr, h1, h2⟩, hg⟩ := whileLoop_spec
    (I := fun s : List β × Nat => Rearranged a s.1 start stop ∧ (s.2 = 0 → SortedRange le s.1 start stop) ∧
      (0 < s.2 → start + s.2 ≤ stop)) (m := fun s => s.2)
    (cond := fun (s : List β × Nat) => .ok (decide (0 < s.2)))
    (body := fun s => do
      let a ← shellRound c start stop s.2 s.1
      .ok (a, s.2 / 2)) (fun s _ => ⟨_, rfl⟩) (by
      rintro ⟨b, g⟩ ⟨hr, hs, hgap⟩ hcd
      have hg : 0 < g := by simpa using hcd
      dsimp only at hr hs hgap
      have hl := hr.length_eq
      obtain ⟨b', e, hr', hs'⟩ := shellRound_spec ho hc b start stop g hg (hgap hg) (by omega)
      refine ⟨(b', g / 2), by simp [e], ⟨hr.trans hr', ?_, ?_⟩, by simp; omega⟩
      · intro h; exact hs' (by simp at h; omega)
      · intro h; have := hgap hg; simp at h ⊢; omega) fuel (a, (stop - start) / 2)
      ⟨.refl _ _ _, by intro h i j x y; replace h : (stop - start) / 2 = 0 := h; omega, by
        intro h; replace h : 0 < (stop - start) / 2 := h; show start + (stop - start) / 2 ≤ stop; omega⟩
        (by simp; omega)
  refine ⟨b, by simp [shellSortC, e], hr, h1 (by simpa using hg)⟩

end Model
