import Verif.Model.Search
import Verif.Lemmas.Brick
import Verif.Props.Sort

/-!
# C15 – C20: searching
-/
namespace Props
open Py Spec Model
variable {α : Type}

/-! ## C15 linear_search -/

private theorem linearSearchLoop_spec [DecidableEq α] (a : List α) (value : α) : ∀ (n i : Nat), i + n ≤ a.length →
    (∃ k, linearSearchLoop a value n i = .ok (some k) ∧ i ≤ k ∧ k < i + n ∧ a[k]? = some value ∧
      ∀ j, i ≤ j → j < k → a[j]? ≠ some value) ∨
    (linearSearchLoop a value n i = .ok none ∧ ∀ j, i ≤ j → j < i + n → a[j]? ≠ some value) := by
  intro n
  induction n with
  | zero => intro i h; exact .inr ⟨rfl, by omega⟩
  | succ n ih =>
    intro i h
    rw [linearSearchLoop, rd_of_lt (by omega)]
    simp only [ok_bind]
    by_cases he : a[i] = value
    · rw [if_pos he]
      exact .inl ⟨i, rfl, by omega, by omega, by rw [← he]; simp, by omega⟩
    · rw [if_neg he]
      have hne : a[i]? ≠ some value := by
        rw [List.getElem?_eq_getElem (by omega)]
        intro e; exact he (Option.some.inj e)
      rcases ih (i + 1) (by omega) with ⟨k, e, h1, h2, h3, h4⟩ | ⟨e, h1⟩
      · refine .inl ⟨k, e, by omega, by omega, h3, ?_⟩
        intro j g1 g2
        by_cases hj : j = i
        · subst hj; exact hne
        · exact h4 j (by omega) g2
      · refine .inr ⟨e, ?_⟩
        intro j g1 g2
        by_cases hj : j = i
        · subst hj; exact hne
        · exact h1 j (by omega) (by omega)

/-- linear_search returns the least position of the range holding the value; `None` exactly when there is none. -/
theorem C15_linear_search [DecidableEq α] (a : List α) (value : α) (start stop : Nat) (h : stop ≤ a.length) :
    (∃ k, linearSearch a value start stop = .ok (some k) ∧ start ≤ k ∧ k < stop ∧ a[k]? = some value ∧
      ∀ j, start ≤ j → j < k → a[j]? ≠ some value) ∨
    (linearSearch a value start stop = .ok none ∧ ∀ j, start ≤ j → j < stop → a[j]? ≠ some value) := by
  by_cases hs : start ≤ stop
  · have := linearSearchLoop_spec a value (stop - start) start (by omega)
    rwa [show start + (stop - start) = stop by omega] at this
  · right
    refine ⟨?_, by omega⟩
    rw [linearSearch, show stop - start = 0 by omega]; rfl

example : linearSearch [3, 7, 1, 7, 2] 7 2 5 = .ok (some 3) := by decide
example : linearSearch [3, 7, 1, 7, 2] 9 0 5 = .ok none := by decide

/-! ## C16 binary_search -/

private theorem mid_bounds (l r : Nat) (h : l ≤ r) :
    l ≤ l / 2 + r / 2 + l % 2 * r % 2 ∧ l / 2 + r / 2 + l % 2 * r % 2 ≤ r := by
  have hm : l % 2 * r % 2 = if l % 2 = 1 ∧ r % 2 = 1 then 1 else 0 := by
    rcases Nat.mod_two_eq_zero_or_one l with e | e
    · simp [e]
    · rw [e, Nat.one_mul]; rcases Nat.mod_two_eq_zero_or_one r with e' | e' <;> simp [e']
  rw [hm]
  split <;> omega

private theorem binarySearchLoop_spec [DecidableEq α] {comp : α → α → Bool} {le : α → α → Prop}
    (anti : ∀ x y, le x y → le y x → x = y) (hc : Compat comp le) (a : List α) (value : α) :
    ∀ (fuel left stop : Nat), stop - left < fuel → stop ≤ a.length → SortedRange le a left stop →
    (∃ k, binarySearchLoop comp a value fuel left stop = .ok (some k) ∧ left ≤ k ∧ k < stop ∧ a[k]? = some value) ∨
    (binarySearchLoop comp a value fuel left stop = .ok none ∧ ∀ j, left ≤ j → j < stop → a[j]? ≠ some value) := by
  intro fuel
  induction fuel with
  | zero => intro l s h; omega
  | succ fuel ih =>
    intro left stop hf hs hso
    rw [binarySearchLoop]
    by_cases hlt : left < stop
    · rw [if_pos hlt]
      have hb := mid_bounds left (stop - 1) (by omega)
      simp only
      generalize left / 2 + (stop - 1) / 2 + left % 2 * (stop - 1) % 2 = mid at hb ⊢
      rw [rd_of_lt (by omega)]
      simp only [ok_bind]
      by_cases he : a[mid] = value
      · rw [if_pos he]
        exact .inl ⟨mid, rfl, by omega, by omega, by rw [← he]; simp⟩
      · rw [if_neg he]
        cases hcv : comp a[mid] value with
        | true =>
          have hle := hc.yes _ _ hcv
          simp only [if_true]
          rcases ih (mid + 1) stop (by omega) hs (fun i j x y h1 => hso i j x y (by omega)) with
            ⟨k, e, h1, h2, h3⟩ | ⟨e, h1⟩
          · exact .inl ⟨k, e, by omega, h2, h3⟩
          · refine .inr ⟨e, ?_⟩
            intro j g1 g2 hj
            by_cases hjm : j ≤ mid
            · by_cases hje : j = mid
              · subst hje; rw [List.getElem?_eq_getElem (by omega)] at hj; exact he (Option.some.inj hj)
              · have := hso j mid value a[mid] g1 (by omega) (by omega) hj (by simp)
                exact he (anti _ _ hle this)
            · exact h1 j (by omega) g2 hj
        | false =>
          have hle := hc.no _ _ hcv
          simp only [Bool.false_eq_true, if_false]
          rcases ih left mid (by omega) (by omega) (fun i j x y h1 h2 h3 => hso i j x y h1 h2 (by omega)) with
            ⟨k, e, h1, h2, h3⟩ | ⟨e, h1⟩
          · exact .inl ⟨k, e, by omega, by omega, h3⟩
          · refine .inr ⟨e, ?_⟩
            intro j g1 g2 hj
            by_cases hjm : j < mid
            · exact h1 j g1 hjm hj
            · by_cases hje : j = mid
              · subst hje; rw [List.getElem?_eq_getElem (by omega)] at hj; exact he (Option.some.inj hj)
              · have := hso mid j a[mid] value (by omega) (by omega) g2 (by simp) hj
                exact he (anti _ _ this hle)
    · rw [if_neg hlt]
      exact .inr ⟨rfl, by omega⟩

/-- binary_search on a sorted range: sound and complete, for every comparator compatible with the (total) order. -/
theorem C16_binary_search [DecidableEq α] (comp : α → α → Bool) (le : α → α → Prop)
    (anti : ∀ x y, le x y → le y x → x = y) (hc : Compat comp le) (a : List α) (value : α) (start stop : Nat)
    (h : stop ≤ a.length) (hs : SortedRange le a start stop) :
    ∃ r, EndsWith (fun fuel => binarySearch comp fuel a value start stop) (.ok r) ∧
      (∀ k, r = some k → start ≤ k ∧ k < stop ∧ a[k]? = some value) ∧
      (r = none ↔ ∀ j, start ≤ j → j < stop → a[j]? ≠ some value) := by
  have mono : FuelMono (fun fuel => binarySearch comp fuel a value start stop) := by
    intro n
    induction n generalizing start stop with
    | zero => intro r h; cases h
    | succ n ih =>
      intro r hr m hm
      obtain ⟨m, rfl⟩ : ∃ k, m = k + 1 := ⟨m - 1, by omega⟩
      simp only [binarySearch, binarySearchLoop] at hr ⊢
      split at hr
      · rename_i hlt
        rw [if_pos hlt]
        have hb := mid_bounds start (stop - 1) (by omega)
        generalize start / 2 + (stop - 1) / 2 + start % 2 * (stop - 1) % 2 = mid at *
        cases hrd : rd a mid with
        | error e => rw [hrd] at hr; simp at hr
        | ok x =>
          rw [hrd] at hr
          simp only [ok_bind] at hr ⊢
          split at hr
          · rw [if_pos ‹_›]; exact hr
          · rw [if_neg ‹_›]
            split at hr
            · rw [if_pos ‹_›]
              exact ih (mid + 1) stop h (fun i j x y h1 => hs i j x y (by omega)) r hr m (by omega)
            · rw [if_neg ‹_›]
              exact ih start mid (by omega) (fun i j x y h1 h2 h3 => hs i j x y h1 h2 (by omega)) r hr m (by omega)
      · rw [if_neg ‹_›]; exact hr
  rcases binarySearchLoop_spec anti hc a value (stop - start + 1) start stop (by omega) h hs with
    ⟨k, e, h1, h2, h3⟩ | ⟨e, h1⟩
  · refine ⟨some k, mono.endsWith e, ?_, ?_⟩
    · rintro k' hk; cases hk; exact ⟨h1, h2, h3⟩
    · constructor
      · intro h; cases h
      · intro hn; exact absurd h3 (hn k h1 h2)
  · exact ⟨none, mono.endsWith e, by simp, by simpa using h1⟩

example : ∃ r, EndsWith (fun fuel => binarySearch (fun u v : Int => decide (u ≤ v)) fuel [1, 3, 3, 8, 9] 3 1 5) (.ok r) ∧
      (∀ k, r = some k → 1 ≤ k ∧ k < 5 ∧ ([1, 3, 3, 8, 9] : List Int)[k]? = some 3) ∧
      (r = none ↔ ∀ j, 1 ≤ j → j < 5 → ([1, 3, 3, 8, 9] : List Int)[j]? ≠ some 3) :=
  C16_binary_search _ _ (fun x y h1 h2 => Int.le_antisymm h1 h2) intLe_compat _ _ _ _ (by decide) (by
    intro i j x y h1 h2 h3 hx hy
    have : i < 5 := by omega
    rcases i with _ | _ | _ | _ | _ | i <;> rcases j with _ | _ | _ | _ | _ | j <;> simp at hx hy <;> omega)

/-! ## C17 jump_search -/

private theorem isqrtFrom_pos (n : Nat) (hn : 0 < n) : ∀ r, 0 < r → 0 < isqrtFrom n r := by
  intro r
  induction r with
  | zero => omega
  | succ r ih =>
    intro _
    rw [isqrtFrom]
    split
    · omega
    · rename_i h
      by_cases hr : r = 0
      · subst hr; simp at h; omega
      · exact ih (by omega)

/-- What a search in `start..end` (inclusive) must return. -/
def SearchResult (a : List α) (value : α) (start end_ : Nat) (r : Option Nat) : Prop :=
  (∀ k, r = some k → start ≤ k ∧ k ≤ end_ ∧ a[k]? = some value) ∧
  (r = none ↔ ∀ j, start ≤ j → j ≤ end_ → a[j]? ≠ some value)

/-- The statement of C17 for the default comparator `<` on integers; it is false for `start > 0`. -/
def C17_full : Prop := ∀ (a : List Int) (value : Int) (start end_ : Nat), start ≤ end_ → end_ < a.length →
  SortedRange (fun x y => x ≤ y) a start (end_ + 1) →
  EndsIn (fun fuel => jumpSearch (fun u v => decide (u < v)) fuel a value start end_) (SearchResult a value start end_)

theorem C17_full_false : ¬ C17_full := by
  intro h
  obtain ⟨n, e⟩ := h [1, 2, 3, 4, 5, 6, 7, 8, 9] 4 5 8 (by decide) (by decide) (by
    intro i j x y h1 h2 h3 hx hy
    have : i < 9 := by omega
    rcases i with _ | _ | _ | _ | _ | _ | _ | _ | _ | i <;> rcases j with _ | _ | _ | _ | _ | _ | _ | _ | _ | j <;>
      simp at hx hy <;> omega)
  have e2 : jumpSearch (fun u v : Int => decide (u < v)) (n + 10) [1, 2, 3, 4, 5, 6, 7, 8, 9] 4 5 8 = .ok (some 3) := by
    rfl
  obtain ⟨r, e3, h1, -⟩ := e (n + 10) (by omega)
  have e3 := e2.symm.trans e3
  cases e3
  have := h1 3 rfl
  omega

private theorem jumpLoop1_spec {comp : α → α → Bool} {le : α → α → Prop}
    (hstrict : ∀ x y, comp x y = true ↔ ¬ le y x) (a : List α) (value : α) (step end_ lo : Nat)
    (hstep : 0 < step) (he : end_ < a.length) :
    ∀ (fuel prev cur : Nat), end_ + 1 - cur < fuel → lo ≤ prev → prev ≤ cur →
      (∀ j x, lo ≤ j → j < prev → j ≤ end_ → a[j]? = some x → comp x value = true) → prev ≤ end_ →
      SortedRange le a lo (end_ + 1) → TotalPreorder le →
      (jumpLoop1 comp a value step end_ fuel prev cur = .ok none ∧ ∀ j x, lo ≤ j → j ≤ end_ → a[j]? = some x → comp x value = true) ∨
      ∃ p c, jumpLoop1 comp a value step end_ fuel prev cur = .ok (some (p, c)) ∧ lo ≤ p ∧ p ≤ end_ ∧ p ≤ c ∧
        (∀ j x, lo ≤ j → j < p → a[j]? = some x → comp x value = true) ∧
        (∀ x, a[min c end_]? = some x → comp x value = false) := by
  intro fuel
  induction fuel with
  | zero => intro _ _ h; omega
  | succ fuel ih =>
    intro prev cur hf hlo hcp hpre hpe hso ho
    rw [jumpLoop1, rd_of_lt (by omega : min cur end_ < a.length)]
    simp only [ok_bind]
    have hsm : ∀ q, q < a.length → q ≤ end_ → (∀ x, a[q]? = some x → comp x value = true) →
        ∀ j x, lo ≤ j → j ≤ q → a[j]? = some x → comp x value = true := by
      intro q hq hqe hx j x hl hj hjx
      by_cases e : j = q
      · subst e; exact hx x hjx
      · have h1 := hso j q x a[q] (by omega) (by omega) (by omega) hjx (by simp)
        have h2 := (hstrict _ _).1 (hx a[q] (by simp))
        rw [hstrict]
        intro h3
        exact h2 (ho.trans _ _ _ h3 h1)
    cases hc : comp a[min cur end_] value with
    | true =>
      simp only [if_true]
      by_cases hgt : cur > end_
      · rw [if_pos hgt]
        left
        refine ⟨rfl, fun j x hl hj hx => hsm end_ he (Nat.le_refl _) ?_ j x hl hj hx⟩
        intro x hx
        simp only [show min cur end_ = end_ by omega] at hc
        rw [List.getElem?_eq_getElem he] at hx
        rw [← Option.some.inj hx]; exact hc
      · rw [if_neg hgt]
        have hm : min cur end_ = cur := by omega
        refine ih cur (cur + step) (by omega) (by omega) (by omega) ?_ (by omega) hso ho
        intro j x hl hj _ hx
        refine hsm cur (by omega) (by omega) ?_ j x hl (by omega) hx
        intro x hx
        simp only [hm] at hc
        rw [List.getElem?_eq_getElem (by omega)] at hx
        rw [← Option.some.inj hx]; exact hc
    | false =>
      right
      refine ⟨prev, cur, by simp, hlo, hpe, hcp, fun j x hl hj hx => hpre j x hl hj (by omega) hx, ?_⟩
      intro x hx
      rw [List.getElem?_eq_getElem (by omega)] at hx
      rw [← Option.some.inj hx]; exact hc

private theorem jumpLoop2_spec [DecidableEq α] (a : List α) (value : α) (last : Nat) (hl : last < a.length) :
    ∀ (fuel prev : Nat), last + 1 - prev < fuel →
      (∃ k, jumpLoop2 a value last fuel prev = .ok (some k) ∧ prev ≤ k ∧ k ≤ last ∧ a[k]? = some value) ∨
      (jumpLoop2 a value last fuel prev = .ok none ∧ ∀ j, prev ≤ j → j ≤ last → a[j]? ≠ some value) := by
  intro fuel
  induction fuel with
  | zero => intro _ h; omega
  | succ fuel ih =>
    intro prev hf
    rw [jumpLoop2]
    by_cases hp : prev ≤ last
    · rw [if_pos hp, rd_of_lt (by omega)]
      simp only [ok_bind]
      by_cases he : a[prev] = value
      · rw [if_pos he]
        exact .inl ⟨prev, rfl, by omega, hp, by rw [← he]; simp⟩
      · rw [if_neg he]
        rcases ih (prev + 1) (by omega) with ⟨k, e, h1, h2, h3⟩ | ⟨e, h1⟩
        · exact .inl ⟨k, e, by omega, h2, h3⟩
        · refine .inr ⟨e, ?_⟩
          intro j g1 g2 hj
          by_cases hje : j = prev
          · subst hje
            rw [List.getElem?_eq_getElem (by omega)] at hj
            exact he (Option.some.inj hj)
          · exact h1 j (by omega) g2 hj
    · rw [if_neg hp]
      exact .inr ⟨rfl, by omega⟩

private theorem jumpLoop2_more [DecidableEq α] {a : List α} {value : α} {last : Nat} : ∀ {fuel prev : Nat} {r : Option Nat},
    jumpLoop2 a value last fuel prev = .ok r → jumpLoop2 a value last (fuel + 1) prev = .ok r := by
  intro fuel
  induction fuel with
  | zero => intro prev r h; cases h
  | succ fuel ih =>
    intro prev r h
    rw [jumpLoop2] at h ⊢
    split
    · rename_i hp
      rw [if_pos hp] at h
      cases hr : rd a prev with
      | error e => rw [hr] at h; cases h
      | ok x =>
        rw [hr, ok_bind] at h
        rw [ok_bind]
        split
        · rename_i hv; rw [if_pos hv] at h; exact h
        · rename_i hv; rw [if_neg hv] at h; exact ih h
    · rename_i hp; rw [if_neg hp] at h; exact h

private theorem jump_from [DecidableEq α] {comp : α → α → Bool} {le : α → α → Prop} (ho : TotalPreorder le)
    (anti : ∀ x y, le x y → le y x → x = y) (hstrict : ∀ x y, comp x y = true ↔ ¬ le y x) (a : List α) (value : α)
    (step lo end_ : Nat) (hstep : 0 < step) (he : end_ < a.length) (hs : SortedRange le a lo (end_ + 1))
    (fuel prev cur : Nat) (hf : end_ + 1 < fuel) (hlo : lo ≤ prev) (hpc : prev ≤ cur) (hpe : prev ≤ end_)
    (hpre : ∀ j x, lo ≤ j → j < prev → j ≤ end_ → a[j]? = some x → comp x value = true) :
    (jumpLoop1 comp a value step end_ fuel prev cur = .ok none ∧ SearchResult a value lo end_ none) ∨
    ∃ p c r, jumpLoop1 comp a value step end_ fuel prev cur = .ok (some (p, c)) ∧
      jumpLoop2 a value (min c end_) fuel p = .ok r ∧ SearchResult a value lo end_ r := by
  have hrefl : comp value value = false := by
    cases h : comp value value with
    | false => rfl
    | true => exact absurd (ho.refl value) ((hstrict _ _).1 h)
  rcases jumpLoop1_spec hstrict a value step end_ lo hstep he fuel prev cur (by omega) hlo hpc hpre hpe hs ho with
    ⟨e, h1⟩ | ⟨p, c, e, h0, h1, h2, h3, h4⟩
  · refine .inl ⟨e, by simp, ?_⟩
    simp only [true_iff]
    intro j hl hj hx
    have := h1 j _ hl hj hx
    rw [hrefl] at this; cases this
  · have hbefore : ∀ j, lo ≤ j → j < p → a[j]? ≠ some value := by
      intro j hl hj hx
      have := h3 j _ hl hj hx
      rw [hrefl] at this; cases this
    rcases jumpLoop2_spec a value (min c end_) (by omega) fuel p (by omega) with ⟨k, e2, g1, g2, g3⟩ | ⟨e2, g1⟩
    · refine .inr ⟨p, c, some k, e, e2, ?_, ?_⟩
      · rintro k' hk; cases hk; exact ⟨by omega, by omega, g3⟩
      · constructor
        · intro h; cases h
        · intro h; exact absurd g3 (h k (by omega) (by omega))
    · refine .inr ⟨p, c, none, e, e2, by simp, ?_⟩
      simp only [true_iff]
      intro j hl hj hx
      by_cases q1 : j < p
      · exact hbefore j hl q1 hx
      · by_cases q2 : j ≤ min c end_
        · exact g1 j (by omega) q2 hx
        · have hm : min c end_ = c := by omega
          rw [hm] at h4 g1
          have h5 := h4 a[c] (by simp)
          have h6 : le value a[c] := by
            apply Classical.byContradiction
            intro h7
            rw [(hstrict _ _).2 h7] at h5; cases h5
          have h7 := hs c j a[c] value (by omega) (by omega) (by omega) (by simp) hx
          exact g1 c h2 (Nat.le_refl _) (by rw [anti _ _ h6 h7]; simp)

/-- The integer square root, specified: what `int(sqrt(n))` is. -/
def IsSqrt (n r : Nat) : Prop := r * r ≤ n ∧ n < (r + 1) * (r + 1)

theorem isqrtFrom_spec (n : Nat) : ∀ r, n < (r + 1) * (r + 1) → IsSqrt n (isqrtFrom n r) := by
  intro r
  induction r with
  | zero => intro h; exact ⟨by simp [isqrtFrom], by simpa [isqrtFrom] using h⟩
  | succ r ih =>
    intro h
    rw [isqrtFrom]
    split
    · rename_i h1; exact ⟨h1, h⟩
    · exact ih (by omega)

theorem IsSqrt.unique {n r s : Nat} (h1 : IsSqrt n r) (h2 : IsSqrt n s) : r = s := by
  have lt : ∀ {r s}, IsSqrt n r → IsSqrt n s → ¬ r < s := by
    intro r s h1 h2 hlt
    have := Nat.mul_le_mul (show r + 1 ≤ s from hlt) (show r + 1 ≤ s from hlt)
    have := h1.2
    have := h2.1
    omega
  have := lt h1 h2
  have := lt h2 h1
  omega

theorem jump_step {n step : Nat} (h : IsSqrt n step) : isqrtFrom n n = step :=
  (isqrtFrom_spec n n (by rw [Nat.add_mul]; have := Nat.le_mul_of_pos_right n (show 0 < n + 1 by omega); omega)).unique h

theorem IsSqrt.pos {n step : Nat} (h : IsSqrt n step) (hn : 0 < n) : 0 < step := by
  rcases Nat.eq_zero_or_pos step with h0 | h0
  · subst h0; have := h.2; omega
  · exact h0

/-- jump_search with a strict comparator is sound and complete on a sorted range if the first probe is not before the range, that is if
`start` is at most the step `⌊√(end - start + 1)⌋`; in particular for the default `start = 0`. Missing from the full property: greater
values of `start` (`C17_full_false`: it may return an index before `start`); for them see `C17_exact`. -/
theorem C17_early_start_partial [DecidableEq α] (comp : α → α → Bool) (le : α → α → Prop) (ho : TotalPreorder le)
    (anti : ∀ x y, le x y → le y x → x = y) (hstrict : ∀ x y, comp x y = true ↔ ¬ le y x) (a : List α) (value : α)
    (start end_ step : Nat) (hse : start ≤ end_) (he : end_ < a.length) (hstep : IsSqrt (end_ + 1 - start) step) (hearly : start ≤ step)
    (hs : SortedRange le a start (end_ + 1)) :
    EndsIn (fun fuel => jumpSearch comp fuel a value start end_) (SearchResult a value start end_) := by
  refine ⟨end_ + 2, fun fuel hf => ?_⟩
  simp only [jumpSearch]
  rw [jump_step hstep]
  rcases jump_from ho anti hstrict a value step start end_ (hstep.pos (by omega)) he hs fuel start step (by omega) (Nat.le_refl _) hearly hse
    (by intro j x h1 h2; omega) with ⟨e, h⟩ | ⟨p, c, r, e, e2, h⟩
  · exact ⟨none, by rw [e]; rfl, h⟩
  · exact ⟨r, by rw [e]; exact e2, h⟩

/-- The default `start = 0`. -/
theorem C17_jump_search_partial [DecidableEq α] (comp : α → α → Bool) (le : α → α → Prop) (ho : TotalPreorder le)
    (anti : ∀ x y, le x y → le y x → x = y) (hstrict : ∀ x y, comp x y = true ↔ ¬ le y x) (a : List α) (value : α)
    (end_ : Nat) (he : end_ < a.length)
    (hs : SortedRange le a 0 (end_ + 1)) :
    EndsIn (fun fuel => jumpSearch comp fuel a value 0 end_) (SearchResult a value 0 end_) :=
  C17_early_start_partial comp le ho anti hstrict a value 0 end_ _ (Nat.zero_le _) he
    (isqrtFrom_spec _ (end_ + 1 - 0) (by rw [Nat.add_mul]; have := Nat.le_mul_of_pos_right (end_ + 1 - 0) (show 0 < end_ + 1 - 0 + 1 by omega); omega))
    (Nat.zero_le _) hs

/-- **What jump_search does when `start` is greater than the step** (the array sorted from its beginning): if the cell at index `step`
precedes the value, `start` is ignored and the whole array up to `end` is searched; otherwise the answer is `None`, even if the value
is in the range. -/
theorem C17_exact [DecidableEq α] (comp : α → α → Bool) (le : α → α → Prop) (ho : TotalPreorder le)
    (anti : ∀ x y, le x y → le y x → x = y) (hstrict : ∀ x y, comp x y = true ↔ ¬ le y x) (a : List α) (value x : α)
    (start end_ step : Nat) (hse : start ≤ end_) (he : end_ < a.length) (hstep : IsSqrt (end_ + 1 - start) step) (hlate : step < start)
    (hx : a[step]? = some x) (hs : SortedRange le a 0 (end_ + 1)) :
    (¬ le value x → EndsIn (fun fuel => jumpSearch comp fuel a value start end_) (SearchResult a value 0 end_)) ∧
    (le value x → EndsWith (fun fuel => jumpSearch comp fuel a value start end_) (.ok none)) := by
  have hpos := hstep.pos (by omega)
  have hm : min step end_ = step := by omega
  constructor
  · intro hn
    have hc := (hstrict x value).2 hn
    refine ⟨end_ + 3, fun fuel hf => ?_⟩
    obtain ⟨fuel, rfl⟩ : ∃ k, fuel = k + 1 := ⟨fuel - 1, by omega⟩
    have h1 : jumpLoop1 comp a value step end_ (fuel + 1) start step = jumpLoop1 comp a value step end_ fuel step (step + step) := by
      rw [jumpLoop1, hm, rd_of_some hx, ok_bind, if_pos hc, if_neg (by omega)]
    simp only [jumpSearch]
    rw [jump_step hstep, h1]
    have hpre : ∀ j y, 0 ≤ j → j < step → j ≤ end_ → a[j]? = some y → comp y value = true := by
      intro j y _ h2 h3 hy
      rw [hstrict]
      intro h4
      exact hn (ho.trans _ _ _ h4 (hs j step y x (by omega) h2 (by omega) hy hx))
    rcases jump_from ho anti hstrict a value step 0 end_ hpos he hs fuel step (step + step) (by omega) (by omega) (by omega) (by omega)
      hpre with ⟨e, h⟩ | ⟨p, c, r, e, e2, h⟩
    · exact ⟨none, by rw [e]; rfl, h⟩
    · refine ⟨r, ?_, h⟩
      rw [e]
      show jumpLoop2 a value (min c end_) (fuel + 1) p = .ok r
      exact jumpLoop2_more e2
  · intro hle
    have hc : comp x value = false := by
      cases h : comp x value with
      | false => rfl
      | true => exact absurd hle ((hstrict _ _).1 h)
    refine ⟨1, fun fuel hf => ?_⟩
    obtain ⟨fuel, rfl⟩ : ∃ k, fuel = k + 1 := ⟨fuel - 1, by omega⟩
    have h1 : jumpLoop1 comp a value step end_ (fuel + 1) start step = .ok (some (start, step)) := by
      rw [jumpLoop1, hm, rd_of_some hx, ok_bind, hc]
      simp
    simp only [jumpSearch]
    rw [jump_step hstep, h1]
    show jumpLoop2 a value (min step end_) (fuel + 1) start = .ok none
    rw [hm, jumpLoop2, if_neg (by omega)]

-- `start = 4`, step 2: index 3, before the range, is answered for 4; with equal cells the value 5 of the range is missed.
example : IsSqrt (8 + 1 - 4) 2 ∧ jumpSearch (fun u v : Int => decide (u < v)) 20 [1, 2, 3, 4, 5, 6, 7, 8, 9] 4 4 8 = .ok (some 3) ∧
    jumpSearch (fun u v : Int => decide (u < v)) 20 [5, 5, 5, 5, 5, 6, 7, 8, 9] 5 4 8 = .ok none := by
  refine ⟨by unfold IsSqrt; decide, ?_, ?_⟩ <;> decide

example : EndsIn (fun fuel => jumpSearch (fun u v : Int => decide (u < v)) fuel [1, 3, 3, 8, 9] 8 0 4)
    (SearchResult ([1, 3, 3, 8, 9] : List Int) 8 0 4) :=
  C17_jump_search_partial (fun u v : Int => decide (u < v)) (fun x y => x ≤ y) intLe_total (fun x y h1 h2 => Int.le_antisymm h1 h2) (by simp) [1, 3, 3, 8, 9] 8 4
    (by decide) (by
    intro i j x y h1 h2 h3 hx hy
    have : i < 5 := by omega
    rcases i with _ | _ | _ | _ | _ | i <;> rcases j with _ | _ | _ | _ | _ | j <;> simp at hx hy <;> omega)

/-! ## C18, C19 lower_bound and upper_bound -/

private theorem boundLoop_spec (go : α → Bool) (a : List α) (s0 end_ : Nat) (he : end_ ≤ a.length)
    (hmono : ∀ i j x y, s0 ≤ i → i < j → j < end_ → a[i]? = some x → a[j]? = some y → go y = true → go x = true) :
    ∀ (fuel start stop index : Nat), stop - start < fuel → s0 ≤ start → start ≤ stop → stop ≤ end_ →
      (∀ j x, s0 ≤ j → j < start → a[j]? = some x → go x = true) →
      (∀ j x, stop ≤ j → j < end_ → a[j]? = some x → go x = false) →
      (index = stop ∨ index = s0 ∧ start = s0 ∧ s0 < stop ∧ ∀ x, a[s0]? = some x → go x = false) →
      ∃ r, boundLoop go a fuel start stop index = .ok r ∧ s0 ≤ r ∧ r ≤ end_ ∧
        (∀ j x, s0 ≤ j → j < r → a[j]? = some x → go x = true) ∧
        (∀ j x, r ≤ j → j < end_ → a[j]? = some x → go x = false) := by
  intro fuel
  induction fuel with
  | zero => intro _ _ _ h; omega
  | succ fuel ih =>
    intro start stop index hf h1 h2 h3 hlo hhi hidx
    rw [boundLoop]
    by_cases hlt : start < stop
    · rw [if_pos hlt]
      simp only
      have hm1 : start ≤ (start + (stop - 1)) / 2 := by omega
      have hm2 : (start + (stop - 1)) / 2 < stop := by omega
      generalize (start + (stop - 1)) / 2 = mid at hm1 hm2
      rw [rd_of_lt (by omega)]
      simp only [ok_bind]
      cases hg : go a[mid] with
      | true =>
        simp only [if_true]
        have hdown : ∀ j x, s0 ≤ j → j ≤ mid → a[j]? = some x → go x = true := by
          intro j x g1 g2 hx
          by_cases hjm : j = mid
          · subst hjm; rw [List.getElem?_eq_getElem (by omega)] at hx; rw [← Option.some.inj hx]; exact hg
          · exact hmono j mid x a[mid] g1 (by omega) (by omega) hx (by simp) hg
        refine ih (mid + 1) stop index (by omega) (by omega) (by omega) h3
          (fun j x g1 g2 hx => hdown j x g1 (by omega) hx) hhi ?_
        rcases hidx with h | ⟨_, _, h5, h6⟩
        · exact .inl h
        · exfalso
          have e1 := h6 a[s0] (by simp)
          have e2 := hdown s0 a[s0] (by omega) (by omega) (by simp)
          rw [e1] at e2; cases e2
      | false =>
        simp only [Bool.false_eq_true, if_false]
        refine ih start mid mid (by omega) h1 hm1 (by omega) hlo ?_ (.inl rfl)
        intro j x g1 g2 hx
        cases hgx : go x with
        | false => rfl
        | true =>
          by_cases hjm : j = mid
          · subst hjm
            rw [List.getElem?_eq_getElem (by omega)] at hx
            rw [← Option.some.inj hx, hg] at hgx; cases hgx
          · have := hmono mid j a[mid] x (by omega) (by omega) g2 (by simp) hx hgx
            rw [hg] at this; cases this
    · rw [if_neg hlt]
      have : start = stop := by omega
      subst this
      rcases hidx with rfl | ⟨_, h5, h6, _⟩
      · exact ⟨index, rfl, h1, h3, hlo, hhi⟩
      · omega

theorem lowerBound_of_fuel (comp : α → α → Bool) (le : α → α → Prop) (ho : TotalPreorder le)
    (hstrict : ∀ x y, comp x y = true ↔ ¬ le y x) (a : List α) (value : α) (start end_ : Nat)
    (hne : start < end_) (he : end_ ≤ a.length) (hs : SortedRange le a start end_)
    (fuel : Nat) (hf : end_ - start + 1 ≤ fuel) : ∃ r, lowerBound comp fuel a value start end_ = .ok r ∧
      start ≤ r ∧ r ≤ end_ ∧
      (∀ j x, start ≤ j → j < r → a[j]? = some x → ¬ le value x) ∧
      (∀ j x, r ≤ j → j < end_ → a[j]? = some x → le value x) := by
  simp only [lowerBound, rd_of_lt (show start < a.length by omega), ok_bind]
  obtain ⟨r, e, h1, h2, h3, h4⟩ := boundLoop_spec (fun y => comp y value) a start end_ he (by
    intro i j x y g1 g2 g3 hx hy hgo
    have h1 := hs i j x y g1 g2 g3 hx hy
    rw [hstrict] at hgo ⊢
    intro h2
    exact hgo (ho.trans _ _ _ h2 h1)) fuel start end_ (if !(comp a[start] value) then start else end_) (by omega)
    (by omega) (by omega) (by omega) (by omega) (by omega) (by
      cases hc : comp a[start] value with
      | true => simp
      | false =>
        right
        refine ⟨by simp, rfl, hne, ?_⟩
        intro x hx
        rw [List.getElem?_eq_getElem (by omega)] at hx
        rw [← Option.some.inj hx]; exact hc)
  refine ⟨r, e, h1, h2, fun j x g1 g2 hx => (hstrict _ _).1 (h3 j x g1 g2 hx), fun j x g1 g2 hx => ?_⟩
  have := h4 j x g1 g2 hx
  apply Classical.byContradiction
  intro hn
  rw [(hstrict _ _).2 hn] at this; cases this

/-- lower_bound (with the code's exclusive `end`): the least position of `start..end` whose element is not less than the
value; all elements before it are less. `comp` is the strict part of the order by which the range is sorted. -/
theorem C18_lower_bound (comp : α → α → Bool) (le : α → α → Prop) (ho : TotalPreorder le)
    (hstrict : ∀ x y, comp x y = true ↔ ¬ le y x) (a : List α) (value : α) (start end_ : Nat)
    (hne : start < end_) (he : end_ ≤ a.length) (hs : SortedRange le a start end_) :
    EndsIn (fun fuel => lowerBound comp fuel a value start end_) fun r =>
      start ≤ r ∧ r ≤ end_ ∧
      (∀ j x, start ≤ j → j < r → a[j]? = some x → ¬ le value x) ∧
      (∀ j x, r ≤ j → j < end_ → a[j]? = some x → le value x) :=
  ⟨end_ - start + 1, fun fuel hf => lowerBound_of_fuel comp le ho hstrict a value start end_ hne he hs fuel hf⟩

/-- upper_bound: the least position whose element is greater than the value. -/
theorem C19_upper_bound (comp : α → α → Bool) (le : α → α → Prop) (ho : TotalPreorder le)
    (hstrict : ∀ x y, comp x y = true ↔ ¬ le y x) (a : List α) (value : α) (start end_ : Nat)
    (hne : start < end_) (he : end_ ≤ a.length) (hs : SortedRange le a start end_) :
    EndsIn (fun fuel => upperBound comp fuel a value start end_) fun r =>
      start ≤ r ∧ r ≤ end_ ∧
      (∀ j x, start ≤ j → j < r → a[j]? = some x → le x value) ∧
      (∀ j x, r ≤ j → j < end_ → a[j]? = some x → ¬ le x value) := by
  refine ⟨end_ - start + 1, fun fuel hf => ?_⟩
  simp only [upperBound, rd_of_lt (show start < a.length by omega), ok_bind]
  have hno : ∀ x, (!(comp value x)) = true ↔ le x value := by
    intro x
    rw [Bool.not_eq_true', ← Bool.not_eq_true, hstrict]
    exact Classical.not_not
  obtain ⟨r, e, h1, h2, h3, h4⟩ := boundLoop_spec (fun y => !(comp value y)) a start end_ he (by
    intro i j x y g1 g2 g3 hx hy hgo
    have h1 := hs i j x y g1 g2 g3 hx hy
    rw [hno] at hgo ⊢
    exact ho.trans _ _ _ h1 hgo) fuel start end_ (if comp value a[start] then start else end_) (by omega)
    (by omega) (by omega) (by omega) (by omega) (by omega) (by
      cases hc : comp value a[start] with
      | false => simp
      | true =>
        right
        refine ⟨by simp, rfl, hne, ?_⟩
        intro x hx
        rw [List.getElem?_eq_getElem (by omega)] at hx
        rw [← Option.some.inj hx, hc]; rfl)
  refine ⟨r, e, h1, h2, fun j x g1 g2 hx => (hno x).1 (h3 j x g1 g2 hx), fun j x g1 g2 hx hl => ?_⟩
  have := h4 j x g1 g2 hx
  rw [(hno x).2 hl] at this; cases this

/-- Both raise `IndexError` on an empty array (they read `array[start]` first). -/
theorem C18_C19_empty (comp : α → α → Bool) (fuel : Nat) (value : α) :
    lowerBound comp fuel [] value 0 0 = .error .indexError ∧ upperBound comp fuel [] value 0 0 = .error .indexError :=
  ⟨rfl, rfl⟩

theorem sorted_small (l : List Int) (h : l.Pairwise (fun x y => x ≤ y)) (lo hi : Nat) :
    SortedRange (fun x y => x ≤ y) l lo hi := by
  intro i j x y _ h2 _ hx hy
  obtain ⟨hi, rfl⟩ := List.getElem?_eq_some_iff.1 hx
  obtain ⟨hj, rfl⟩ := List.getElem?_eq_some_iff.1 hy
  exact List.pairwise_iff_getElem.1 h i j _ _ h2

example : EndsIn (fun fuel => lowerBound (fun u v : Int => decide (u < v)) fuel [1, 3, 3, 8, 9] 3 0 5) fun r =>
      0 ≤ r ∧ r ≤ 5 ∧
      (∀ j x, 0 ≤ j → j < r → ([1, 3, 3, 8, 9] : List Int)[j]? = some x → ¬ (3 ≤ x)) ∧
      (∀ j x, r ≤ j → j < 5 → ([1, 3, 3, 8, 9] : List Int)[j]? = some x → 3 ≤ x) :=
  C18_lower_bound _ (fun x y => x ≤ y) intLe_total (by simp) _ _ _ _ (by decide) (by decide)
    (sorted_small _ (by decide) _ _)
example : lowerBound (fun u v : Int => decide (u < v)) 9 [1, 3, 3, 8, 9] 3 0 5 = .ok 1 := by decide
example : upperBound (fun u v : Int => decide (u < v)) 9 [1, 3, 3, 8, 9] 3 0 5 = .ok 3 := by decide

/-! ## C20 is_ordered -/

/-- Full statement of C20 for the default comparator `<=` on arrays of integers (with holes): `True` exactly when the
non-`None` elements of the range are in non-decreasing order. -/
def C20_full : Prop := ∀ (a : List (Option Int)) (start stop : Nat), stop ≤ a.length →
  ∃ b, isOrdered (fun u v => decide (u ≤ v)) a start stop = .ok b ∧
    (b = true ↔ (((a.drop start).take (stop - start)).filterMap id).Pairwise (fun x y => x ≤ y))

/-- `[1, 1]` is reported as not ordered, and `[2, None, 1]` as ordered. -/
theorem C20_full_false : ¬ C20_full := by
  intro h
  obtain ⟨b, e, hb⟩ := h [some 1, some 1] 0 2 (by decide)
  have e2 : isOrdered (fun u v : Int => decide (u ≤ v)) [some 1, some 1] 0 2 = .ok false := rfl
  rw [e2] at e; cases e
  exact absurd (hb.2 (by decide)) (by decide)

theorem C20_none_hides_disorder (comp : Int → Int → Bool) :
    isOrdered comp [some 2, none, some 1] 0 3 = .ok true := rfl

private theorem isOrderedLoop_spec {comp : α → α → Bool} {le : α → α → Prop}
    (hstrict : ∀ x y, comp x y = true ↔ ¬ le y x) (a : List α) : ∀ (n i : Nat), 0 < i → i + n ≤ a.length →
    ∃ b, isOrderedLoop comp (a.map some) n i = .ok b ∧
      (b = true ↔ ∀ k x y, i ≤ k + 1 → k + 1 < i + n → a[k]? = some x → a[k+1]? = some y → le x y) := by
  intro n
  induction n with
  | zero => intro i _ _; exact ⟨true, rfl, by simp; omega⟩
  | succ n ih =>
    intro i hi hlen
    obtain ⟨b, e, hb⟩ := ih (i + 1) (by omega) (by omega)
    have r1 : rd (a.map some) i = .ok (some a[i]) := by rw [rd_of_lt (by simp; omega)]; simp
    have r2 : rd (a.map some) (i - 1) = .ok (some a[i-1]) := by rw [rd_of_lt (by simp; omega)]; simp
    simp only [isOrderedLoop, r1, r2, ok_bind]
    cases hc : comp a[i] a[i-1] with
    | true =>
      refine ⟨false, by simp, ?_⟩
      simp only [Bool.false_eq_true, false_iff]
      intro h
      exact (hstrict _ _).1 hc (h (i - 1) a[i-1] a[i] (by omega) (by omega) (by simp)
        (by rw [show i - 1 + 1 = i by omega]; simp))
    | false =>
      refine ⟨b, by simpa using e, ?_⟩
      rw [hb]
      have hle : le a[i-1] a[i] := by
        apply Classical.byContradiction
        intro hn
        rw [(hstrict _ _).2 hn] at hc; cases hc
      constructor
      · intro h k x y g1 g2 hx hy
        by_cases hk : k + 1 = i
        · subst hk
          rw [List.getElem?_eq_getElem (by omega)] at hx hy
          rw [← Option.some.inj hx, ← Option.some.inj hy]
          exact hle
        · exact h k x y (by omega) (by omega) hx hy
      · intro h k x y g1 g2 hx hy
        exact h k x y (by omega) (by omega) hx hy

private theorem isOrderedLoop_exact (comp : α → α → Bool) (a : List (Option α)) : ∀ (n i : Nat), 0 < i → i + n ≤ a.length →
    ∃ b, isOrderedLoop comp a n i = .ok b ∧
      (b = true ↔ ∀ k x y, i ≤ k + 1 → k + 1 < i + n → a[k]? = some (some x) → a[k+1]? = some (some y) → comp y x = false) := by
  intro n
  induction n with
  | zero => intro i _ _; exact ⟨true, rfl, by simp; omega⟩
  | succ n ih =>
    intro i hi hlen
    obtain ⟨b, e, hb⟩ := ih (i + 1) (by omega) (by omega)
    have r1 : rd a i = .ok a[i] := rd_of_lt (by omega)
    have r2 : rd a (i - 1) = .ok a[i-1] := rd_of_lt (by omega)
    have g1 : a[i]? = some a[i] := List.getElem?_eq_getElem (by omega)
    have g2 : a[i-1]? = some a[i-1] := List.getElem?_eq_getElem (by omega)
    have skip : (∀ x y, a[i-1]? = some (some x) → a[i]? = some (some y) → comp y x = false) →
        (b = true ↔ ∀ k x y, i ≤ k + 1 → k + 1 < i + (n + 1) → a[k]? = some (some x) → a[k+1]? = some (some y) → comp y x = false) := by
      intro h0
      rw [hb]
      constructor
      · intro h k x y h1 h2 hx hy
        by_cases hk : k + 1 = i
        · exact h0 x y (by rw [show i - 1 = k by omega]; exact hx) (by rw [← hk]; exact hy)
        · exact h k x y (by omega) (by omega) hx hy
      · intro h k x y h1 h2 hx hy
        exact h k x y (by omega) (by omega) hx hy
    rw [isOrderedLoop, r1, ok_bind]
    cases hu : a[i] with
    | none => exact ⟨b, e, skip (by intro x y _ hy; rw [g1, hu] at hy; cases hy)⟩
    | some u =>
      dsimp only
      rw [r2, ok_bind]
      cases hv : a[i-1] with
      | none => exact ⟨b, e, skip (by intro x y hx _; rw [g2, hv] at hx; cases hx)⟩
      | some v =>
        dsimp only
        cases hc : comp u v with
        | false =>
          refine ⟨b, by simpa using e, skip ?_⟩
          intro x y hx hy
          rw [g2, hv] at hx; rw [g1, hu] at hy
          cases hx; cases hy; exact hc
        | true =>
          refine ⟨false, by simp, ?_⟩
          simp only [Bool.false_eq_true, false_iff]
          intro h
          have := h (i - 1) v u (by omega) (by omega) (by rw [g2, hv]) (by rw [show i - 1 + 1 = i by omega, g1, hu])
          rw [hc] at this; cases this

/-- **C20 exactly**, for every comparator and every array: the answer is `True` exactly if the comparator refuses to put the second before
the first, for all neighbouring cells of the range neither of which is `None`. -/
theorem C20_exact (comp : α → α → Bool) (a : List (Option α)) (start stop : Nat) (h : stop ≤ a.length) :
    ∃ b, isOrdered comp a start stop = .ok b ∧
      (b = true ↔ ∀ k x y, start ≤ k → k + 1 < stop → a[k]? = some (some x) → a[k+1]? = some (some y) → comp y x = false) := by
  by_cases hss : start < stop
  · obtain ⟨b, e, hb⟩ := isOrderedLoop_exact comp a (stop - (start + 1)) (start + 1) (by omega) (by omega)
    refine ⟨b, e, hb.trans ⟨fun g k x y h1 h2 => g k x y (by omega) (by omega), fun g k x y h1 h2 => g k x y (by omega) (by omega)⟩⟩
  · refine ⟨true, by rw [isOrdered, show stop - (start + 1) = 0 by omega]; rfl, ?_⟩
    simp only [true_iff]
    intro k x y h1 h2; omega

/-- With the default comparator `<=`: `True` exactly if neighbouring numbers increase strictly. -/
theorem C20_default (a : List (Option Int)) (start stop : Nat) (h : stop ≤ a.length) :
    ∃ b, isOrdered (fun u v => decide (u ≤ v)) a start stop = .ok b ∧
      (b = true ↔ ∀ k x y, start ≤ k → k + 1 < stop → a[k]? = some (some x) → a[k+1]? = some (some y) → x < y) := by
  obtain ⟨b, e, hb⟩ := C20_exact (fun u v : Int => decide (u ≤ v)) a start stop h
  refine ⟨b, e, ?_⟩
  rw [hb]
  simp

/-- is_ordered with a strict comparator on an array without `None` decides sortedness of the range. Missing from the full
property: the default (non-strict) comparator and `None` cells, see `C20_full_false` and `C20_none_hides_disorder`. -/
theorem C20_is_ordered_partial (comp : α → α → Bool) (le : α → α → Prop) (ho : TotalPreorder le)
    (hstrict : ∀ x y, comp x y = true ↔ ¬ le y x) (a : List α) (start stop : Nat) (h : stop ≤ a.length) :
    ∃ b, isOrdered comp (a.map some) start stop = .ok b ∧ (b = true ↔ SortedRange le a start stop) := by
  by_cases hss : start < stop
  · obtain ⟨b, e, hb⟩ := isOrderedLoop_spec hstrict a (stop - (start + 1)) (start + 1) (by omega) (by omega)
    refine ⟨b, e, ?_⟩
    rw [hb]
    constructor
    · intro h1
      exact Model.adj_sorted ho a start stop (fun i x y g1 g2 => h1 i x y (by omega) (by omega))
    · intro h1 k x y g1 g2 hx hy
      exact h1 k (k + 1) x y (by omega) (by omega) (by omega) hx hy
  · refine ⟨true, ?_, ?_⟩
    · rw [isOrdered, show stop - (start + 1) = 0 by omega]; rfl
    · simp only [true_iff]; intro i j x y; omega

example : isOrdered (fun u v : Int => decide (u < v)) ([1, 1, 3, 2].map some) 0 3 = .ok true := by decide
example : isOrdered (fun u v : Int => decide (u < v)) ([1, 1, 3, 2].map some) 0 4 = .ok false := by decide
example : ∀ x y : Int, decide (x < y) = true ↔ ¬ y ≤ x := by simp

end Props
