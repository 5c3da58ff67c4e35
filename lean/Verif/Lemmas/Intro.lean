import Verif.Model.Intro
import Verif.Props.Heap
import Verif.Lemmas.Bubble
import Verif.Lemmas.Insertion

namespace Model
open Py Spec
variable {α β : Type}

theorem ipLeft_spec {c : β → β → Bool} {le : β → β → Prop} (hc : Compat c le) (a : List β) (pivot : β) (right : Nat)
    (hr : right < a.length) : ∀ (fuel left : Nat), right + 1 < fuel + left → 0 < fuel →
    ∃ left', ipLeft c a pivot right fuel left = .ok left' ∧ left ≤ left' ∧ (left' ≤ right + 1 ∨ left' = left) ∧
      (∀ i x, left ≤ i → i < left' → a[i]? = some x → le x pivot) ∧
      (∀ x, left' ≤ right → a[left']? = some x → le pivot x) := by
  intro fuel
  induction fuel with
  | zero =>
    intro left hf h0
    omega
  | succ fuel ih =>
    intro left hf _
    rw [ipLeft]
    by_cases h : left ≤ right
    · rw [if_pos h, rd_of_lt (by omega), ok_bind]
      by_cases hx : c a[left] pivot = true
      · rw [if_pos hx]
        obtain ⟨l', e, h1, h2, h3, h4⟩ := ih (left + 1) (by omega) (by omega)
        refine ⟨l', e, by omega, by omega, ?_, h4⟩
        intro i x hi1 hi2 hxi
        by_cases hil : i = left
        · subst hil
          rw [List.getElem?_eq_getElem (by omega)] at hxi
          cases hxi
          exact hc.yes _ _ hx
        · exact h3 i x (by omega) hi2 hxi
      · rw [if_neg hx]
        refine ⟨left, rfl, by omega, by omega, by intro i x h1 h2; omega, ?_⟩
        intro x _ hxi
        rw [List.getElem?_eq_getElem (by omega)] at hxi
        cases hxi
        exact hc.no _ _ (by simpa using hx)
    · rw [if_neg h]
      exact ⟨left, rfl, by omega, by omega, by intro i x h1 h2; omega, by intro x h1; omega⟩

theorem ipRight_spec {c : β → β → Bool} {le : β → β → Prop} (hc : Compat c le) (a : List β) (pivot : β) (left : Nat)
    (hl : 0 < left) : ∀ (fuel right : Nat), right < a.length → right + 1 < fuel + left → 0 < fuel →
    ∃ right', ipRight c a pivot left fuel right = .ok right' ∧ right' ≤ right ∧ (left ≤ right' + 1 ∨ right' = right) ∧
      (∀ i x, right' < i → i ≤ right → a[i]? = some x → le pivot x) ∧
      (∀ x, left ≤ right' → a[right']? = some x → le x pivot) := by
  intro fuel
  induction fuel with
  | zero => intro right hr hf h0; omega
  | succ fuel ih =>
    intro right hr hf _
    rw [ipRight, rd_of_lt (by omega), ok_bind]
    by_cases hx : c pivot a[right] = true
    · by_cases h : left ≤ right
      · rw [if_pos (by simp [hx, h])]
        obtain ⟨r', e, h1, h2, h3, h4⟩ := ih (right - 1) (by omega) (by omega) (by omega)
        refine ⟨r', e, by omega, by omega, ?_, h4⟩
        intro i x hi1 hi2 hxi
        by_cases hil : i = right
        · subst hil
          rw [List.getElem?_eq_getElem (by omega)] at hxi
          cases hxi
          exact hc.yes _ _ hx
        · exact h3 i x (by omega) (by omega) hxi
      · rw [if_neg (by simp [h])]
        exact ⟨right, rfl, by omega, by omega, by intro i x h1 h2; omega, by intro x h1; omega⟩
    · rw [if_neg (by simp [hx])]
      refine ⟨right, rfl, by omega, by omega, by intro i x h1 h2; omega, ?_⟩
      intro x _ hxi
      rw [List.getElem?_eq_getElem (by omega)] at hxi
      cases hxi
      exact hc.no _ _ (by simpa using hx)

theorem ipLoop_spec {c : β → β → Bool} {le : β → β → Prop} (hc : Compat c le) (pivot : β) (inner lower upper : Nat) (a₀ : List β)
    (hu : upper < a₀.length) (hin : upper + 1 < inner + lower) : ∀ (fuel : Nat) (a : List β) (left right : Nat),
    Rearranged a₀ a (lower + 1) (upper + 1) → lower < left → lower ≤ right → right ≤ upper → right + 1 < fuel + left → 0 < fuel →
    (∀ i x, lower < i → i < left → a[i]? = some x → le x pivot) →
    (∀ i x, right < i → i ≤ upper → a[i]? = some x → le pivot x) →
    ∃ b p, ipLoop c pivot inner fuel a left right = .ok (b, p) ∧ Rearranged a₀ b (lower + 1) (upper + 1) ∧ lower ≤ p ∧ p ≤ upper ∧
      (∀ i x, lower < i → i ≤ p → b[i]? = some x → le x pivot) ∧
      (∀ i x, p < i → i ≤ upper → b[i]? = some x → le pivot x) := by
  intro fuel
  induction fuel with
  | zero => intros; omega
  | succ fuel ih =>
    intro a left right hr h1 h2 h3 hf _ hL hR
    have hlen := hr.length_eq
    obtain ⟨l', el, g1, g2, g3, g4⟩ := ipLeft_spec hc a pivot right (by omega) inner left (by omega) (by omega)
    obtain ⟨r', er, k1, k2, k3, k4⟩ := ipRight_spec hc a pivot l' (by omega) inner right (by omega) (by omega) (by omega)
    rw [ipLoop, el, ok_bind, er, ok_bind]
    by_cases hlt : r' < l'
    · rw [if_pos hlt]
      refine ⟨a, r', rfl, hr, by omega, by omega, ?_, ?_⟩
      · intro i x hi1 hi2 hx
        by_cases h : i < left
        · exact hL i x hi1 h hx
        · exact g3 i x (by omega) (by omega) hx
      · intro i x hi1 hi2 hx
        by_cases h : right < i
        · exact hR i x h hi2 hx
        · exact k3 i x hi1 (by omega) hx
    · rw [if_neg hlt]
      have hl' : l' < a.length := by omega
      have hr' : r' < a.length := by omega
      rw [swp_of_lt (l := a) (i := l') (j := r') hl' hr', ok_bind]
      have ga := g4 _ (by omega) (List.getElem?_eq_getElem hl')
      have ka := k4 _ (by omega) (List.getElem?_eq_getElem hr')
      have get : ∀ k, ((a.set l' a[r']).set r' a[l'])[k]? = if k = r' then some a[l'] else if k = l' then some a[r'] else a[k]? := by
        intro k
        by_cases h1 : k = r'
        · subst h1; rw [if_pos rfl, List.getElem?_set_self (by simpa using hr')]
        · rw [if_neg h1, List.getElem?_set_ne (by omega)]
          by_cases h2 : k = l'
          · subst h2; rw [if_pos rfl, List.getElem?_set_self hl']
          · rw [if_neg h2, List.getElem?_set_ne (by omega)]
      refine ih _ (l' + 1) (r' - 1) (hr.trans (rearranged_swap (a := a) (lo := lower + 1) (hi := upper + 1) (i := l') (j := r')
            (by omega) (by omega) (by omega) (by omega) hl' hr')) (by omega) (by omega) (by omega) (by omega) (by omega) ?_ ?_
      · intro i x hi1 hi2 hx
        rw [get] at hx
        by_cases h : i = l'
        · by_cases h' : i = r'
          · rw [if_pos h'] at hx
            cases hx
            have : l' = r' := by omega
            subst this
            exact ka
          · rw [if_neg h', if_pos h] at hx
            cases hx; exact ka
        · rw [if_neg (by omega), if_neg h] at hx
          by_cases h' : i < left
          · exact hL i x hi1 h' hx
          · exact g3 i x (by omega) (by omega) hx
      · intro i x hi1 hi2 hx
        rw [get] at hx
        by_cases h : i = r'
        · rw [if_pos h] at hx
          cases hx; exact ga
        · rw [if_neg h, if_neg (by omega)] at hx
          by_cases h' : right < i
          · exact hR i x h' hi2 hx
          · exact k3 i x (by omega) (by omega) hx

theorem introPartition_spec {c : β → β → Bool} {le : β → β → Prop} (hc : Compat c le) (a : List β) (lower upper : Nat)
    (hlu : lower ≤ upper) (hu : upper < a.length) :
    ∃ b p, introPartition c a lower upper = .ok (b, p) ∧ Rearranged a b lower (upper + 1) ∧ lower ≤ p ∧ p ≤ upper ∧
      (∀ i x y, lower ≤ i → i < p → b[i]? = some x → b[p]? = some y → le x y) ∧
      (∀ i x y, p < i → i ≤ upper → b[p]? = some x → b[i]? = some y → le x y) := by
  obtain ⟨b, p, e, hr, h1, h2, hL, hR⟩ := ipLoop_spec hc a[lower] (upper - lower + 2) lower upper a hu (by omega)
    (upper - lower + 2) a (lower + 1) upper (.refl _ _ _) (by omega) hlu (by omega) (by omega) (by omega)
    (by intro i x h1 h2; omega) (by intro i x h1 h2; omega)
  have hlen := hr.length_eq
  have hlo : lower < b.length := by omega
  have hp : p < b.length := by omega
  have hbl : b[lower]? = some a[lower] := by
    rw [hr.2 lower (by omega)]; exact List.getElem?_eq_getElem _
  have hbl' : b[lower] = a[lower] := by
    rw [List.getElem?_eq_getElem hlo] at hbl; simpa using hbl
  have get : ∀ k, ((b.set lower b[p]).set p b[lower])[k]? = if k = p then some b[lower] else if k = lower then some b[p] else b[k]? := by
    intro k
    by_cases h1 : k = p
    · subst h1; rw [if_pos rfl, List.getElem?_set_self (by simpa using hp)]
    · rw [if_neg h1, List.getElem?_set_ne (by omega)]
      by_cases h2 : k = lower
      · subst h2; rw [if_pos rfl, List.getElem?_set_self hlo]
      · rw [if_neg h2, List.getElem?_set_ne (by omega)]
  refine ⟨(b.set lower b[p]).set p b[lower], p, ?_, (hr.mono (by omega) (Nat.le_refl _)).trans
    (rearranged_swap (a := b) (i := lower) (j := p) (by omega) (by omega) (by omega) (by omega) hlo hp), h1, h2, ?_, ?_⟩
  · rw [introPartition, rd_of_lt (by omega), ok_bind, e, ok_bind]
    dsimp only
    rw [swp_of_lt hlo hp, ok_bind]
  · intro i x y hi1 hi2 hx hy
    rw [get, if_pos rfl] at hy
    cases hy
    rw [get, if_neg (by omega)] at hx
    rw [hbl']
    by_cases h : i = lower
    · rw [if_pos h] at hx
      cases hx
      exact hL p _ (by omega) (Nat.le_refl _) (List.getElem?_eq_getElem hp)
    · rw [if_neg h] at hx
      exact hL i x (by omega) (by omega) hx
  · intro i x y hi1 hi2 hx hy
    rw [get, if_pos rfl] at hx
    cases hx
    rw [get, if_neg (by omega), if_neg (by omega)] at hy
    rw [hbl']
    exact hR i y hi1 hi2 hy

theorem introSort_spec {comp : α → α → Bool} {le : α → α → Prop} (ho : TotalPreorder le) (hc : Compat comp le) (threshold : Int) :
    ∀ (fuel : Nat) (a : List (Option α)) (lower stop : Nat) (depth : Int), stop ≤ a.length → stop < fuel + lower → 0 < fuel →
    ∃ b, introSort comp threshold fuel a lower stop depth = .ok b ∧ SortsTo (noneLast le) a b lower stop := by
  intro fuel
  induction fuel with
  | zero => intros; omega
  | succ fuel ih =>
    intro a lower stop depth hs hf _
    rw [introSort]
    dsimp only
    by_cases h1 : (stop : Int) - lower < threshold
    · rw [if_pos h1]
      exact insertionSortC_spec ho.noneLast (pyComp_compat hc) a lower stop hs
    · rw [if_neg h1]
      by_cases h2 : (if (stop : Int) - lower ≤ 0 then 0 else depth) = 0
      · rw [if_pos h2]
        exact Props.C06_heapsort comp le ho hc a lower stop hs
      · rw [if_neg h2]
        have hlt : lower < stop := by
          by_cases h : (stop : Int) - lower ≤ 0
          · rw [if_pos h] at h2; exact absurd rfl h2
          · omega
        have ht := ho.noneLast.trans
        obtain ⟨b, p, e, hr, hp1, hp2, hL, hR⟩ := introPartition_spec (pyComp_compat hc) a lower (stop - 1) (by omega) (by omega)
        have hlen := hr.length_eq
        rw [show stop - 1 + 1 = stop by omega] at hr
        generalize (if (stop : Int) - lower ≤ 0 then 0 else depth) - 1 = d'
        obtain ⟨b1, e1, hr1, hs1⟩ := ih b lower p d' (by omega) (by omega) (by omega)
        have hlen1 := hr1.length_eq
        obtain ⟨b2, e2, hr2, hs2⟩ := ih b1 (p + 1) stop d' (by omega) (by omega) (by omega)
        have hlen2 := hr2.length_eq
        refine ⟨b2, ?_, (hr.trans (hr1.mono (by omega) (by omega))).trans (hr2.mono (by omega) (by omega)), ?_⟩
        · rw [e, ok_bind]
          dsimp only
          rw [e1, ok_bind, e2]
        · have hpl : p < b.length := by omega
          have hpiv : b[p]? = some b[p] := List.getElem?_eq_getElem hpl
          have hp2' : b2[p]? = some b[p] := by
            rw [hr2.2 p (by omega), hr1.2 p (by omega), hpiv]
          have hleft : ∀ i x, lower ≤ i → i < p → b2[i]? = some x → noneLast le x b[p] := by
            intro i x g1 g2 hx
            rw [hr2.2 i (by omega)] at hx
            obtain ⟨j, k1, k2, hj⟩ := hr1.mem g1 g2 hx
            exact hL j x _ k1 k2 hj hpiv
          have hright : ∀ i x, p < i → i < stop → b2[i]? = some x → noneLast le b[p] x := by
            intro i x g1 g2 hx
            obtain ⟨j, k1, k2, hj⟩ := hr2.mem (by omega) g2 hx
            rw [hr1.2 j (by omega)] at hj
            exact hR j _ x (by omega) (by omega) hpiv hj
          intro i j x y g1 g2 g3 hx hy
          rcases Nat.lt_trichotomy i p with hi | hi | hi
          · rcases Nat.lt_trichotomy j p with hj | hj | hj
            · rw [hr2.2 i (by omega)] at hx
              rw [hr2.2 j (by omega)] at hy
              exact hs1 i j x y g1 g2 hj hx hy
            · subst hj
              rw [hp2'] at hy; cases hy
              exact hleft i x g1 hi hx
            · exact ht _ _ _ (hleft i x g1 hi hx) (hright j y hj g3 hy)
          · subst hi
            rw [hp2'] at hx; cases hx
            exact hright j y g2 g3 hy
          · exact hs2 i j x y (by omega) g2 g3 hx hy

end Model
