import Verif.Lemmas.Bubble

namespace Py
theorem mem_rangeStep {lo hi step i : Nat} (hs : 0 < step) :
    i ∈ rangeStep lo hi step ↔ lo ≤ i ∧ i < hi ∧ step ∣ i - lo := by
  simp only [rangeStep, List.mem_map, List.mem_range]
  constructor
  · rintro ⟨t, ht, rfl⟩
    refine ⟨by omega, ?_, by rw [Nat.add_sub_cancel_left]; exact Nat.dvd_mul_right _ _⟩
    have h1 : t + 1 ≤ (hi - lo + step - 1) / step := ht
    have h2 := (Nat.le_div_iff_mul_le hs).1 h1
    rw [Nat.add_mul, Nat.mul_comm] at h2
    omega
  · rintro ⟨h1, h2, ⟨t, ht⟩⟩
    refine ⟨t, ?_, by omega⟩
    apply (Nat.le_div_iff_mul_le hs).2
    rw [Nat.succ_mul, Nat.mul_comm]
    omega
end Py

namespace Model
open Py Spec
variable {β : Type}

/-- number of pairs of positions that `c` wants to exchange -/
private def inv (c : β → β → Bool) : List β → Nat
  | [] => 0
  | x :: l => l.countP (fun y => c y x) + inv c l

private theorem inv_swap (c : β → β → Bool) (x y : β) (post : List β) (h : c y x = true) (h' : c x y = false) :
    ∀ pre : List β, inv c (pre ++ y :: x :: post) + 1 = inv c (pre ++ x :: y :: post) := by
  intro pre
  induction pre with
  | nil => simp [inv, h, h']; omega
  | cons z pre ih =>
    simp only [List.cons_append, inv]
    rw [← ih]
    have : List.countP (fun y => c y z) (pre ++ y :: x :: post) = List.countP (fun y => c y z) (pre ++ x :: y :: post) := by
      apply List.Perm.countP_eq
      exact List.Perm.append_left _ (List.Perm.swap _ _ _)
    omega

private theorem split_adj (a : List β) (i : Nat) (h : i + 1 < a.length) :
    ∃ pre post, a = pre ++ a[i] :: a[i+1] :: post ∧
      (a.set i a[i+1]).set (i+1) a[i] = pre ++ a[i+1] :: a[i] :: post := by
  have e1 : a = a.take i ++ a[i] :: a[i+1] :: a.drop (i + 2) := by
    rw [List.getElem_cons_drop, List.getElem_cons_drop, List.take_append_drop]
  refine ⟨a.take i, a.drop (i + 2), e1, ?_⟩
  have hl : (a.take i).length = i := by rw [List.length_take]; omega
  have key : ∀ (pre post : List β) (x y x' y' : β),
      ((pre ++ x :: y :: post).set pre.length y').set (pre.length + 1) x' = pre ++ y' :: x' :: post := by
    intro pre post x y x' y'
    simp
  have := key (a.take i) (a.drop (i + 2)) a[i] a[i+1] a[i] a[i+1]
  rw [hl] at this
  rw [← this]
  exact congrArg (fun l => (l.set i a[i+1]).set (i+1) a[i]) e1

/-- `AdjOk`: no exchange is wanted at position `i` -/
private def AdjOk (c : β → β → Bool) (a : List β) (i : Nat) : Prop :=
  ∀ x y, a[i]? = some x → a[i+1]? = some y → c y x = false

private def Asym (c : β → β → Bool) (start stop : Nat) (a : List β) : Prop :=
  ((a.drop start).take (stop - start)).Pairwise fun x y => ¬ (c x y = true ∧ c y x = true)

private theorem Asym.perm {c : β → β → Bool} {start stop : Nat} {a b : List β} (h : Asym c start stop a)
    (hr : Rearranged a b start stop) : Asym c start stop b := by
  by_cases hss : stop ≤ start
  · unfold Asym
    rw [show stop - start = 0 by omega]
    simp
  have hp := hr.slice (by omega)
  unfold Asym
  rw [hp.pairwise_iff]
  · exact h
  · intro x y h; rwa [and_comm] at h

private theorem brickSwap_spec (c : β → β → Bool) (a : List β) (srt : Bool) (start stop i : Nat)
    (h1 : start ≤ i) (h2 : i + 1 < stop) (hs : stop ≤ a.length) :
    ∃ b srt', brickSwap c i (a, srt) = .ok (b, srt') ∧ Rearranged a b start stop ∧
      (srt' = true → srt = true ∧ b = a ∧ AdjOk c a i) ∧
      (srt' = false → b = a ∧ srt = false ∨ (Asym c start stop a → inv c b < inv c a)) ∧
      (Asym c start stop a → inv c b ≤ inv c a) := by
  rw [brickSwap, rd_of_lt (by omega : i < a.length), rd_of_lt (by omega : i + 1 < a.length)]
  simp only [ok_bind]
  cases h : c a[i+1] a[i] with
  | true =>
    have hr := rearranged_swap (a := a) (lo := start) (hi := stop) (i := i) (j := i + 1) (by omega) (by omega)
      (by omega) (by omega) (by omega) (by omega)
    have hinv : Asym c start stop a → inv c ((a.set i a[i+1]).set (i+1) a[i]) < inv c a := by
      intro has
      obtain ⟨pre, post, e1, e2⟩ := split_adj a i (by omega)
      have h' : c a[i] a[i+1] = false := by
        have := List.pairwise_iff_getElem.1 has (i - start) (i + 1 - start) (by simp; omega) (by simp; omega) (by omega)
        simp only [List.getElem_take, List.getElem_drop, show start + (i - start) = i by omega,
          show start + (i + 1 - start) = i + 1 by omega] at this
        cases hq : c a[i] a[i+1] with
        | true => exact absurd ⟨hq, h⟩ this
        | false => rfl
      have := inv_swap c a[i] a[i+1] post h h' pre
      rw [e2]
      generalize inv c (pre ++ a[i+1] :: a[i] :: post) = X at *
      rw [← e1] at this
      omega
    refine ⟨_, false, by simp only [if_true]; rw [swp_of_lt (l := a) (i := i) (j := i + 1) (by omega) (by omega), ok_bind],
      hr, by simp, fun _ => .inr hinv, fun h => Nat.le_of_lt (hinv h)⟩
  | false =>
    refine ⟨a, srt, by simp, .refl _ _ _, fun e => ⟨e, rfl, ?_⟩, fun e => .inl ⟨rfl, e⟩, fun _ => Nat.le_refl _⟩
    intro x y hx hy
    rw [List.getElem?_eq_getElem (by omega)] at hx hy
    cases hx; cases hy; exact h

/-- what a sequence of `brickSwap`s at positions `js` guarantees -/
private theorem brickPass_spec (c : β → β → Bool) (start stop : Nat) : ∀ (js : List Nat) (a : List β) (srt : Bool),
    (∀ i ∈ js, start ≤ i ∧ i + 1 < stop) → stop ≤ a.length →
    ∃ b srt', forList js (a, srt) (brickSwap c) = .ok (b, srt') ∧ Rearranged a b start stop ∧
      (srt' = true → srt = true ∧ b = a ∧ ∀ i ∈ js, AdjOk c a i) ∧
      (srt' = false → b = a ∧ srt = false ∨ (Asym c start stop a → inv c b < inv c a)) ∧
      (Asym c start stop a → inv c b ≤ inv c a) := by
  intro js
  induction js with
  | nil =>
    intro a srt _ _
    exact ⟨a, srt, rfl, .refl _ _ _, fun e => ⟨e, rfl, by simp⟩, fun e => .inl ⟨rfl, e⟩, fun _ => Nat.le_refl _⟩
  | cons i js ih =>
    intro a srt hjs hstop
    obtain ⟨b, s1, e1, hr1, ht1, hf1, hi1⟩ := brickSwap_spec c a srt start stop i (hjs i (by simp)).1
      (hjs i (by simp)).2 hstop
    have hl := hr1.length_eq
    obtain ⟨b', s2, e2, hr2, ht2, hf2, hi2⟩ := ih b s1 (fun i h => hjs i (by simp [h])) (by omega)
    refine ⟨b', s2, by simp [forList, e1, e2], hr1.trans hr2, ?_, ?_, ?_⟩
    · intro e
      obtain ⟨a1, a2, a3⟩ := ht2 e
      obtain ⟨b1, b2, b3⟩ := ht1 a1
      subst b2
      refine ⟨b1, a2, ?_⟩
      intro k hk
      rw [List.mem_cons] at hk
      rcases hk with rfl | hk
      · exact b3
      · exact a3 k hk
    · intro e
      rcases hf2 e with ⟨rfl, g⟩ | g
      · rcases hf1 g with ⟨rfl, g'⟩ | g'
        · exact .inl ⟨rfl, g'⟩
        · exact .inr g'
      · right
        intro has
        have := hi1 has
        have := g (has.perm hr1)
        omega
    · intro has
      have := hi1 has
      have := hi2 (has.perm hr1)
      omega

private theorem brickParBody_spec (c : β → β → Bool) (sched : Nat → List Nat → List Nat)
    (hsch : ∀ n l, (sched n l).Perm l) (start stop : Nat) (a : List β) (n : Nat) (srt : Bool) (hstop : stop ≤ a.length) :
    ∃ b srt', brickParBody c sched start stop ((a, srt), n) = .ok ((b, srt'), n + 1) ∧ Rearranged a b start stop ∧
      (srt' = true → ∀ i, start ≤ i → i + 1 < stop → AdjOk c b i) ∧
      (srt' = false → Asym c start stop a → inv c b < inv c a) := by
  obtain ⟨b, s1, e1, hr1, ht1, hf1, hi1⟩ := brickPass_spec c start stop
    (sched (2 * n) (rangeStep (start + 1) (stop - 1) 2)) a true
    (by intro i hi; rw [(hsch _ _).mem_iff, mem_rangeStep (by omega)] at hi; omega) hstop
  have hl := hr1.length_eq
  obtain ⟨b', s2, e2, hr2, ht2, hf2, hi2⟩ := brickPass_spec c start stop
    (sched (2 * n + 1) (rangeStep start (stop - 1) 2)) b s1
    (by intro i hi; rw [(hsch _ _).mem_iff, mem_rangeStep (by omega)] at hi; omega) (by omega)
  refine ⟨b', s2, by simp only [brickParBody, e1, e2, ok_bind], hr1.trans hr2, ?_, ?_⟩
  · intro e i h1 h2
    obtain ⟨a1, a2, a3⟩ := ht2 e
    obtain ⟨b1, b2, b3⟩ := ht1 a1
    subst a2
    by_cases hp : 2 ∣ i - start
    · exact a3 i (by rw [(hsch _ _).mem_iff, mem_rangeStep (by omega)]; exact ⟨h1, by omega, hp⟩)
    · have : AdjOk c a i := b3 i (by rw [(hsch _ _).mem_iff, mem_rangeStep (by omega)]; omega)
      rw [b2]; exact this
  · intro e has
    rcases hf2 e with ⟨rfl, g⟩ | g
    · rcases hf1 g with ⟨rfl, g'⟩ | g'
      · cases g'
      · exact g' has
    · have := hi1 has
      have := g (has.perm hr1)
      omega

theorem adj_sorted {le : β → β → Prop} (ho : TotalPreorder le) (a : List β) (start stop : Nat)
    (h : ∀ i x y, start ≤ i → i + 1 < stop → a[i]? = some x → a[i+1]? = some y → le x y) :
    SortedRange le a start stop := by
  intro i j x y h1 h2 h3 hx hy
  obtain ⟨d, rfl⟩ : ∃ d, j = i + 1 + d := ⟨j - i - 1, by omega⟩
  induction d generalizing y with
  | zero => exact h i x y h1 h3 hx hy
  | succ d ih =>
    have hlt : i + 1 + d < a.length := by
      have := (List.getElem?_eq_some_iff.1 hy).1
      omega
    have := ih a[i + 1 + d] (by omega) (by omega) (by simp [hlt])
    exact ho.trans _ _ _ this (h (i + 1 + d) _ _ (by omega) (by omega) (by simp [hlt]) hy)

/-- Sorting and termination, for every order of the jobs of a phase. -/
theorem brickSortParC_spec {c : β → β → Bool} {le : β → β → Prop} (ho : TotalPreorder le) (hc : Compat c le)
    (sched : Nat → List Nat → List Nat) (hsch : ∀ n l, (sched n l).Perm l)
    (a : List β) (start stop : Nat) (hstop : stop ≤ a.length)
    (hasym : ((a.drop start).take (stop - start)).Pairwise fun x y => ¬ (c x y = true ∧ c y x = true)) :
    ∃ fuel b, brickSortParC c sched fuel a start stop = .ok b ∧ SortsTo le a b start stop := by
  obtain ⟨⟨⟨b, srt⟩, k⟩, e, ⟨hr, hs⟩, hg⟩ := whileLoop_spec
    (I := fun s : (List β × Bool) × Nat => Rearranged a s.1.1 start stop ∧
      (s.1.2 = true → ∀ i, start ≤ i → i + 1 < stop → AdjOk c s.1.1 i))
    (m := fun s => 2 * inv c s.1.1 + if s.1.2 then 0 else 1)
    (cond := fun (s : (List β × Bool) × Nat) => .ok (!s.1.2))
    (body := brickParBody c sched start stop) (fun s _ => ⟨_, rfl⟩) (by
      rintro ⟨⟨b, srt⟩, n⟩ ⟨hr, hs⟩ hcd
      dsimp only at hr hs
      have hl := hr.length_eq
      have : srt = false := by simpa using hcd
      subst this
      obtain ⟨b', srt', e, hr', ht, hf⟩ := brickParBody_spec c sched hsch start stop b n false (by omega)
      refine ⟨_, e, ⟨hr.trans hr', ht⟩, ?_⟩
      have has : Asym c start stop b := Asym.perm hasym hr
      cases srt' with
      | true =>
        have : inv c b' ≤ inv c b := by
          obtain ⟨b1, s1, e1, hr1, ht1, hf1, hi1⟩ := brickPass_spec c start stop
            (sched (2 * n) (rangeStep (start + 1) (stop - 1) 2)) b true
            (by intro i hi; rw [(hsch _ _).mem_iff, mem_rangeStep (by omega)] at hi; omega) (by omega)
          have hl := hr1.length_eq
          obtain ⟨b2, s2, e2, hr2, ht2, hf2, hi2⟩ := brickPass_spec c start stop
            (sched (2 * n + 1) (rangeStep start (stop - 1) 2)) b1 s1
            (by intro i hi; rw [(hsch _ _).mem_iff, mem_rangeStep (by omega)] at hi; omega) (by omega)
          have heq : b' = b2 := by
            simp only [brickParBody, e1, e2, ok_bind] at e
            cases e; rfl
          rw [heq]
          exact Nat.le_trans (hi2 (has.perm hr1)) (hi1 has)
        simp; omega
      | false => have := hf rfl has; simp; omega) _ ((a, false), 0) ⟨.refl _ _ _, by simp⟩ (Nat.lt_succ_self _)
  refine ⟨_, b, by rw [brickSortParC, e]; rfl, hr, ?_⟩
  apply adj_sorted ho
  intro i x y h1 h2 hx hy
  exact hc.no _ _ (hs (by simpa using hg) i h1 h2 x y hx hy)

theorem brickBody_eq (c : β → β → Bool) (start stop : Nat) (s : List β × Bool) (n : Nat) :
    brickParBody c (fun _ l => l) start stop (s, n) = (brickBody c start stop s).bind fun t => .ok (t, n + 1) := by
  simp only [brickParBody, brickBody]
  cases h : forList (rangeStep (start + 1) (stop - 1) 2) (s.1, true) (brickSwap c) with
  | error e => rfl
  | ok t =>
    simp only [ok_bind]
    cases h2 : forList (rangeStep start (stop - 1) 2) t (brickSwap c) <;> rfl

theorem brickSort_eq_par (c : β → β → Bool) (fuel : Nat) (a : List β) (start stop : Nat) :
    brickSortC c fuel a start stop = brickSortParC c (fun _ l => l) fuel a start stop := by
  have : ∀ fuel (s : List β × Bool) (n : Nat),
      (whileLoop fuel (fun (s : List β × Bool) => .ok (!s.2)) (brickBody c start stop) s >>= fun s => .ok s.1) =
      (whileLoop fuel (fun (s : (List β × Bool) × Nat) => .ok (!s.1.2))
        (brickParBody c (fun _ l => l) start stop) (s, n) >>= fun s => .ok s.1.1) := by
    intro fuel
    induction fuel with
    | zero => intro s n; rfl
    | succ fuel ih =>
      intro s n
      rw [whileLoop, whileLoop]
      simp only [ok_bind]
      split
      · rw [brickBody_eq]
        cases h : brickBody c start stop s with
        | error e => rfl
        | ok t => exact ih t (n + 1)
      · rfl
  exact this fuel (a, false) 0

/-- Divergence: two elements of the range that `c` wants to exchange in both directions. -/
theorem brickSortParC_diverges (c : β → β → Bool) (sched : Nat → List Nat → List Nat)
    (hsch : ∀ n l, (sched n l).Perm l)
    (a : List β) (start stop : Nat) (hstop : stop ≤ a.length)
    (hdiv : ∀ b, Rearranged a b start stop → ∃ i, start ≤ i ∧ i + 1 < stop ∧ ¬ AdjOk c b i) (fuel : Nat) :
    brickSortParC c sched fuel a start stop = .error .outOfFuel := by
  have key : ∀ fuel (b : List β) (n : Nat), Rearranged a b start stop →
      whileLoop fuel (fun (s : (List β × Bool) × Nat) => .ok (!s.1.2))
        (brickParBody c sched start stop) ((b, false), n) = .error .outOfFuel := by
    intro fuel
    induction fuel with
    | zero => intros; rfl
    | succ fuel ih =>
      intro b n hr
      have hl := hr.length_eq
      obtain ⟨b', srt', e, hr', ht, hf⟩ := brickParBody_spec c sched hsch start stop b n false (by omega)
      rw [whileLoop]
      simp only [ok_bind, Bool.not_false, if_true, e]
      cases srt' with
      | true =>
        obtain ⟨i, h1, h2, h3⟩ := hdiv b' (hr.trans hr')
        exact absurd (ht rfl i h1 h2) h3
      | false => exact ih b' _ (hr.trans hr')
  rw [brickSortParC, key fuel a 0 (.refl _ _ _)]
  rfl

/-- With a comparator that holds between equal elements, a range with two equal elements is never finished. -/
theorem brick_dup_diverges {c : β → β → Bool} {lt : β → β → Prop}
    (htr : ∀ x y z, lt x y → lt y z → lt x z) (x : β) (hirr : ¬ lt x x) (hc : ∀ x y, c y x = false → lt x y)
    (a : List β) (start stop i j : Nat) (h1 : start ≤ i) (h2 : i < j) (h3 : j < stop)
    (hx : a[i]? = some x) (hy : a[j]? = some x) :
    ∀ b, Rearranged a b start stop → ∃ i, start ≤ i ∧ i + 1 < stop ∧ ¬ AdjOk c b i := by
  intro b hr
  apply Classical.byContradiction
  intro hno
  have hadj : ∀ i, start ≤ i → i + 1 < stop → AdjOk c b i := by
    intro i h1 h2
    apply Classical.byContradiction
    intro h; exact hno ⟨i, h1, h2, h⟩
  have hlt : ∀ d i x y, start ≤ i → i + 1 + d < stop → b[i]? = some x → b[i + 1 + d]? = some y → lt x y := by
    intro d
    induction d with
    | zero => intro i x y h1 h2 hx hy; exact hc _ _ (hadj i h1 h2 x y hx hy)
    | succ d ih =>
      intro i x y h1 h2 hx hy
      have hl : i + 1 + d < b.length := by
        have := (List.getElem?_eq_some_iff.1 hy).1
        omega
      exact htr _ _ _ (ih i x b[i + 1 + d] h1 (by omega) hx (by simp [hl]))
        (hc _ _ (hadj (i + 1 + d) (by omega) (by omega) _ _ (by simp [hl]) hy))
  have hp := hr.slice (by omega)
  have hnd : ((b.drop start).take (stop - start)).Pairwise (fun u v => ¬ (u = x ∧ v = x)) := by
    rw [List.pairwise_iff_getElem]
    intro p q hp' hq hpq
    simp only [List.length_take, List.length_drop] at hp' hq
    have := hlt (q - p - 1) (start + p) (((b.drop start).take (stop - start))[p]'(by simp; omega))
      (((b.drop start).take (stop - start))[q]'(by simp; omega)) (by omega) (by omega)
      (by simp) (by
        simp [show start + p + 1 + (q - p - 1) = start + q by omega])
    rintro ⟨e1, e2⟩
    rw [e1, e2] at this
    exact hirr this
  have hnd' : ((a.drop start).take (stop - start)).Pairwise (fun u v => ¬ (u = x ∧ v = x)) := by
    rwa [hp.pairwise_iff (fun h => by rwa [and_comm])] at hnd
  rw [List.pairwise_iff_getElem] at hnd'
  have hla : j < a.length := (List.getElem?_eq_some_iff.1 hy).1
  have := hnd' (i - start) (j - start) (by simp; omega) (by simp; omega) (by omega)
  apply this
  simp only [List.getElem_take, List.getElem_drop]
  rw [List.getElem?_eq_getElem (by omega)] at hx hy
  simp only [show start + (i - start) = i by omega, show start + (j - start) = j by omega]
  exact ⟨Option.some.inj hx, Option.some.inj hy⟩

end Model
