import Verif.Lemmas.Bubble

namespace Model
open Py Spec
variable {β : Type _}

private theorem cocktailRound_spec {c : β → β → Bool} {le : β → β → Prop} (ho : TotalPreorder le)
    (hc : Compat c le) (a : List β) (lower stop : Nat) (hw : lower + 2 ≤ stop) (hstop : stop ≤ a.length) :
    ∃ b sw, cocktailRound c lower stop a = .ok (b, sw) ∧ Rearranged a b lower stop ∧
      (∀ i x y, lower ≤ i → i < stop - 1 → b[i]? = some x → b[stop - 1]? = some y → le x y) ∧
      (∀ i x y, lower < i → i < stop → b[lower]? = some x → b[i]? = some y → le x y) ∧
      (sw = true → SortedRange le b lower stop) := by
  have ht := ho.trans
  have hrf := ho.refl
  obtain ⟨⟨b, sw⟩, e1, hr, hmax, hsrt⟩ := forRange_spec (lo := lower) (hi := stop - 1) (s := (a, true))
    (body := fun j (a, sw) => do
    let x ← rd a j
    let y ← rd a (j + 1)
    if c x y = false then
      let a ← swp a (j + 1) j
      .ok (a, false)
    else .ok (a, sw))
    (fun J (s : List β × Bool) => Rearranged a s.1 lower stop ∧
      (∀ i x y, lower ≤ i → i < J → s.1[i]? = some x → s.1[J]? = some y → le x y) ∧
      (s.2 = true → SortedRange le s.1 lower (J + 1)))
    (by omega) ⟨.refl _ _ _, by omega, by intro _ i j x y; omega⟩ (by
      rintro J ⟨b, sw⟩ h1 h2 ⟨hr, hd, hs⟩
      dsimp only at hr hd hs ⊢
      have hl := hr.length_eq
      rw [rd_of_lt (by omega : J < b.length), rd_of_lt (by omega : J + 1 < b.length)]
      simp only [ok_bind]
      cases h : c b[J] b[J + 1] with
      | true =>
        have hy := hc.yes _ _ h
        refine ⟨(b, sw), by simp, hr, ?_, ?_⟩
        · intro i x y g1 g2 hx hyy
          have := hd i x b[J]
          clear hd hs hr
          grind
        · intro hsw i j x y g1 g2 g3 hx hyy
          have := hd i x b[J]
          have := hs hsw i j x y
          clear hd hs hr
          grind
      | false =>
        have hn := hc.no _ _ h
        refine ⟨_, by simp only [if_true]; rw [swp_of_lt (by omega) (by omega)]; rfl,
          hr.trans (rearranged_swap (a := b) (lo := lower) (hi := stop) (i := J + 1) (j := J)
            (by omega) (by omega) (by omega) (by omega) (by omega) (by omega)), ?_, by simp⟩
        intro i x y g1 g2 hx hyy
        have := hd i x b[J]
        clear hd hs hr
        grind)
  dsimp only at hr hmax hsrt
  obtain ⟨⟨b', sw'⟩, e2, hr', hmax', hmin', hsrt'⟩ := forDown_spec (lo := lower + 1) (hi := stop - 1) (s := (b, sw))
    (body := fun j (a, sw) => do
    let x ← rd a (j - 1)
    let y ← rd a j
    if c x y = false then
      let a ← swp a j (j - 1)
      .ok (a, false)
    else .ok (a, sw))
    (fun K (s : List β × Bool) => Rearranged a s.1 lower stop ∧
      (∀ i x y, lower ≤ i → i < stop - 1 → s.1[i]? = some x → s.1[stop - 1]? = some y → le x y) ∧
      (∀ i x y, K - 1 < i → i < stop - 1 → s.1[K - 1]? = some x → s.1[i]? = some y → le x y) ∧
      (s.2 = true → SortedRange le s.1 lower stop))
    (by omega) ⟨hr, hmax, by omega, by
      intro h; have := hsrt h; rwa [show stop - 1 + 1 = stop by omega] at this⟩ (by
      rintro K ⟨b, sw⟩ h1 h2 ⟨hr, hd, hm, hs⟩
      dsimp only at hr hd hs hm ⊢
      have hl := hr.length_eq
      rw [rd_of_lt (by omega : K < b.length), rd_of_lt (by omega : K - 1 < b.length)]
      simp only [ok_bind]
      cases h : c b[K - 1] b[K] with
      | true =>
        have hy := hc.yes _ _ h
        refine ⟨(b, sw), by simp, hr, hd, ?_, hs⟩
        intro i x y g1 g2 hx hyy
        have := hm i b[K] y
        clear hd hs hr hm
        grind
      | false =>
        have hn := hc.no _ _ h
        refine ⟨_, by simp only [if_true]; rw [swp_of_lt (by omega) (by omega)]; rfl,
          hr.trans (rearranged_swap (a := b) (lo := lower) (hi := stop) (i := K) (j := K - 1)
            (by omega) (by omega) (by omega) (by omega) (by omega) (by omega)), ?_, ?_, by simp⟩
        · intro i x y g1 g2 hx hyy
          have := hd i x y
          have := hd (K - 1) x y
          have := hd K x y
          clear hd hs hr hm
          grind
        · intro i x y g1 g2 hx hyy
          have := hm i b[K] y
          clear hd hs hr hm
          grind)
  dsimp only at hr' hmax' hmin' hsrt'
  refine ⟨b', sw', by simp [cocktailRound, e1, e2], hr', hmax', ?_, hsrt'⟩
  intro i x y h1 h2 hx hy
  by_cases hi : i = stop - 1
  · subst hi; exact hmax' lower x y (by omega) (by omega) hx hy
  · exact hmin' i x y (by omega) (by omega) (by simpa using hx) hy

theorem cocktailSortC_spec {c : β → β → Bool} {le : β → β → Prop} (ho : TotalPreorder le) (hc : Compat c le)
    (a : List β) (start stop : Nat) (hstop : stop ≤ a.length) (fuel : Nat) (hf : stop - start + 1 < fuel) :
    ∃ b, cocktailSortC c fuel a start stop = .ok b ∧ SortsTo le a b start stop := by
  have ht := ho.trans
  obtain ⟨⟨b, lo, st, sw⟩, e, ⟨h1, h2, hr, hpl, hsort⟩, hg⟩ := whileLoop_spec
    (I := fun s : List β × Nat × Nat × Bool => start ≤ s.2.1 ∧ s.2.2.1 ≤ stop ∧
      Rearranged a s.1 start stop ∧
      (∀ i j x y, start ≤ i → i < j → j < stop → (i < s.2.1 ∨ s.2.2.1 ≤ j) →
        s.1[i]? = some x → s.1[j]? = some y → le x y) ∧
      (s.2.2.2 = true → SortedRange le s.1 start stop))
    (m := fun s => (s.2.2.1 - s.2.1) + if s.2.2.2 then 0 else 1)
    (cond := fun (s : List β × Nat × Nat × Bool) => .ok (!s.2.2.2 && decide (s.2.1 + 2 ≤ s.2.2.1)))
    (body := fun (a, lower, stop, _) => do
      let (a, sw) ← cocktailRound c lower stop a
      .ok (a, lower + 1, stop - 1, sw)) (fun s _ => ⟨_, rfl⟩) (by
      rintro ⟨b, lo, st, sw⟩ ⟨h1, h2, hr, hpl, hsort⟩ hcd
      dsimp only at h1 h2 hr hpl hsort hcd ⊢
      have hcd' : sw = false ∧ lo + 2 ≤ st := by simpa using hcd
      obtain ⟨rfl, hw⟩ := hcd'
      have hl := hr.length_eq
      obtain ⟨b', sw', e, hr', hmax, hmin, hs'⟩ := cocktailRound_spec ho hc b lo st hw (by omega)
      have hpl' : ∀ i j x y, start ≤ i → i < j → j < stop → (i < lo ∨ st ≤ j) →
          b'[i]? = some x → b'[j]? = some y → le x y := by
        intro i j x y g1 g2 g3 g4 hx hy
        have hi : ∃ i', start ≤ i' ∧ (i < lo → i' = i) ∧ (st ≤ i → i' = i) ∧ (lo ≤ i → i < st → i' < st ∧ lo ≤ i')
            ∧ b[i']? = some x := by
          by_cases hh : lo ≤ i ∧ i < st
          · obtain ⟨i', p1, p2, p3⟩ := hr'.mem hh.1 hh.2 hx
            exact ⟨i', by omega, by omega, by omega, by omega, p3⟩
          · exact ⟨i, by omega, by omega, by omega, by omega, by rw [← hr'.2 i (by omega)]; exact hx⟩
        have hj : ∃ j', j' < stop ∧ (j < lo → j' = j) ∧ (st ≤ j → j' = j) ∧ (lo ≤ j → j < st → j' < st ∧ lo ≤ j')
            ∧ b[j']? = some y := by
          by_cases hh : lo ≤ j ∧ j < st
          · obtain ⟨j', p1, p2, p3⟩ := hr'.mem hh.1 hh.2 hy
            exact ⟨j', by omega, by omega, by omega, by omega, p3⟩
          · exact ⟨j, by omega, by omega, by omega, by omega, by rw [← hr'.2 j (by omega)]; exact hy⟩
        obtain ⟨i', a1, a2, a3, a4, a5⟩ := hi
        obtain ⟨j', b1, b2, b3, b4, b5⟩ := hj
        exact hpl i' j' x y a1 (by omega) b1 (by omega) a5 b5
      refine ⟨(b', lo + 1, st - 1, sw'), by simp [e], ⟨by simp; omega, by simp; omega, ?_, ?_, ?_⟩, ?_⟩
      · exact hr.trans (hr'.mono h1 h2)
      · dsimp only
        intro i j x y g1 g2 g3 g4 hx hy
        by_cases q1 : i < lo ∨ st ≤ j
        · exact hpl' i j x y g1 g2 g3 q1 hx hy
        · rcases g4 with g4 | g4
          · have : i = lo := by omega
            subst this
            exact hmin j x y g2 (by omega) hx hy
          · have : j = st - 1 := by omega
            subst this
            exact hmax i x y (by omega) g2 hx hy
      · dsimp only
        intro hsw i j x y g1 g2 g3 hx hy
        by_cases q1 : i < lo ∨ st ≤ j
        · exact hpl' i j x y g1 g2 g3 q1 hx hy
        · exact hs' hsw i j x y (by omega) g2 (by omega) hx hy
      · simp only [Bool.false_eq_true, if_false]
        split <;> omega) fuel (a, start, stop, false)
      ⟨by simp, by simp, .refl _ _ _, by dsimp only; omega, by simp⟩ (by simp; omega)
  refine ⟨b, by simp [cocktailSortC, e], hr, ?_⟩
  dsimp only at hg hsort hpl
  by_cases hsw : sw = true
  · exact hsort hsw
  · have : ¬ (lo + 2 ≤ st) := by simpa [hsw] using hg
    intro i j x y g1 g2 g3 hx hy
    exact hpl i j x y g1 g2 g3 (by omega) hx hy

end Model
