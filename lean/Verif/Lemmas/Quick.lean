import Verif.Lemmas.Bubble

namespace Model
open Py Spec
variable {β : Type _}

/-- the pivot that is picked is equivalent to the last cell of the partition -/
def PicksLast (le : β → β → Prop) (pick : Nat → Nat → List β → PyM β) : Prop :=
  ∀ low high a, low ≤ high → high < a.length → ∃ x, pick low high a = .ok x ∧ ∀ z, a[high]? = some z → le x z ∧ le z x

theorem qsPartition_spec {c : β → β → Bool} {le : β → β → Prop} {pick : Nat → Nat → List β → PyM β} (ho : TotalPreorder le)
    (hc : Compat c le) (hpick : PicksLast le pick) (a : List β) (low high : Nat) (hlh : low ≤ high) (hh : high < a.length) :
    ∃ b p, qsPartition c pick low high a = .ok (b, p) ∧ Rearranged a b low (high + 1) ∧ low ≤ p ∧ p ≤ high ∧
      (∀ i x y, low ≤ i → i < p → b[i]? = some x → b[p]? = some y → le x y) ∧
      (∀ i x y, p < i → i ≤ high → b[p]? = some x → b[i]? = some y → le x y) := by
  obtain ⟨v, ev, hv⟩ := hpick low high a hlh hh
  obtain ⟨hv1, hv2⟩ := hv a[high] (List.getElem?_eq_getElem hh)
  have ht := ho.trans
  obtain ⟨⟨b, k⟩, e, hr, h1, h2, hpv, hL, hR⟩ := forRange_spec (lo := low) (hi := high) (s := (a, low))
    (body := fun j (b, k) => do
    let y ← rd b j
    if c y v = true then
      let b ← swp b k j
      .ok (b, k + 1)
    else .ok (b, k))
    (fun J (s : List β × Nat) => Rearranged a s.1 low (high + 1) ∧ low ≤ s.2 ∧ s.2 ≤ J ∧
      s.1[high]? = some a[high] ∧
      (∀ i x, low ≤ i → i < s.2 → s.1[i]? = some x → le x v) ∧
      (∀ i x, s.2 ≤ i → i < J → s.1[i]? = some x → le v x))
    hlh ⟨.refl _ _ _, by simp, by simp, by simp [hh], by dsimp only; omega, by dsimp only; omega⟩ (by
      rintro J ⟨b, k⟩ hJ1 hJ2 ⟨hr, h1, h2, hp, hL, hR⟩
      dsimp only at hr h1 h2 hp hL hR ⊢
      have hl := hr.length_eq
      rw [rd_of_lt (by omega : J < b.length)]
      simp only [ok_bind]
      cases h : c b[J] v with
      | true =>
        have hy := hc.yes _ _ h
        refine ⟨_, by simp only [if_true]; rw [swp_of_lt (l := b) (i := k) (j := J) (by omega) (by omega), ok_bind],
          hr.trans (rearranged_swap (a := b) (lo := low) (hi := high + 1) (i := k) (j := J)
            (by omega) (by omega) (by omega) (by omega) (by omega) (by omega)),
            by simp; omega, by simp; omega, ?_, ?_, ?_⟩
        · dsimp only; grind
        · intro i x g1 g2 hx
          have := hL i x
          clear hL hR hr
          grind
        · intro i x g1 g2 hx
          have := hR i x
          have := hR k x
          clear hL hR hr
          grind
      | false =>
        have hy := hc.no _ _ h
        refine ⟨(b, k), by simp, hr, h1, by dsimp only; omega, hp, hL, ?_⟩
        intro i x g1 g2 hx
        have := hR i x
        clear hL hR hr
        grind)
  dsimp only at hr h1 h2 hpv hL hR
  have hl := hr.length_eq
  refine ⟨_, k, ?_, hr.trans (rearranged_swap (a := b) (i := k) (j := high) (by omega) (by omega) (by omega)
      (by omega) (by omega) (by omega)), h1, h2, ?_, ?_⟩
  · simp only [qsPartition, ev, ok_bind, e]
    rw [swp_of_lt (by omega) (by omega)]; rfl
  · intro i x y g1 g2 hx hy
    have := hL i x
    clear hL hR hr
    grind
  · intro i x y g1 g2 hx hy
    have := hR i y
    have := hR k y
    clear hL hR hr
    grind

/-- number of cells in the pending ranges -/
def stackSize : List (Nat × Nat) → Nat
  | [] => 0
  | (l, h) :: s => (h - l + 1) + stackSize s

/-- The invariant of quick sort: a rearrangement, disjoint pending ranges, and order between all cells of no common pending range. -/
def QuickInv (le : β → β → Prop) (a : List β) (start stop : Nat) (b : List β) (stack : List (Nat × Nat)) : Prop :=
  Rearranged a b start stop ∧
  (∀ r ∈ stack, start ≤ r.1 ∧ r.1 ≤ r.2 ∧ r.2 < stop) ∧
  stack.Pairwise (fun r s => r.2 < s.1 ∨ s.2 < r.1) ∧
  (∀ i j x y, start ≤ i → i < j → j < stop → b[i]? = some x → b[j]? = some y →
    le x y ∨ ∃ r ∈ stack, r.1 ≤ i ∧ j ≤ r.2)

/-- One partition that puts a cell between those that are not larger and those that are not smaller keeps the invariant. -/
theorem quickInv_next {le : β → β → Prop} (ho : TotalPreorder le)
    {a b b' : List β} {start stop low high p : Nat} {stack : List (Nat × Nat)}
    (hstop : stop ≤ a.length) (hI : QuickInv le a start stop b ((low, high) :: stack))
    (hr' : Rearranged b b' low (high + 1)) (hp1 : low ≤ p) (hp2 : p ≤ high)
    (hL : ∀ i x y, low ≤ i → i < p → b'[i]? = some x → b'[p]? = some y → le x y)
    (hR : ∀ i x y, p < i → i ≤ high → b'[p]? = some x → b'[i]? = some y → le x y) :
      QuickInv le a start stop b'
        (let stack := if low + 1 < p then (low, p - 1) :: stack else stack
         if p + 1 < high then (p + 1, high) :: stack else stack) := by
  obtain ⟨hr, hb, hd, hs⟩ := hI
  have hl := hr.length_eq
  have hb0 := hb (low, high) (by simp)
  dsimp only at hb0
  rw [List.pairwise_cons] at hd
  obtain ⟨hd0, hd⟩ := hd
  have ht := ho.trans
  have hl' := hr'.length_eq
  refine ⟨hr.trans (hr'.mono (by omega) (by omega)), ?_, ?_, ?_⟩
  · intro r hmem
    have hb1 : ∀ r ∈ stack, start ≤ r.1 ∧ r.1 ≤ r.2 ∧ r.2 < stop := fun r h => hb r (by simp [h])
    dsimp only at hmem
    split at hmem <;> split at hmem <;> (try simp only [List.mem_cons] at hmem)
    · rcases hmem with rfl | rfl | h
      · simp only; omega
      · simp only; omega
      · exact hb1 r h
    · rcases hmem with rfl | h
      · simp only; omega
      · exact hb1 r h
    · rcases hmem with rfl | h
      · simp only; omega
      · exact hb1 r h
    · exact hb1 r hmem
  · have hd1 : ∀ l' h', low ≤ l' → h' ≤ high → ∀ s ∈ stack, h' < s.1 ∨ s.2 < l' := by
      intro l' h' g1 g2 s hs'
      have := hd0 s hs'
      dsimp only at this
      omega
    dsimp only
    split <;> split
    · refine List.Pairwise.cons ?_ (List.Pairwise.cons (hd1 _ _ (by omega) (by omega)) hd)
      intro s hs'
      rw [List.mem_cons] at hs'
      rcases hs' with rfl | h
      · simp only; omega
      · exact hd1 _ _ (by omega) (by omega) s h
    · exact List.Pairwise.cons (hd1 _ _ (by omega) (by omega)) hd
    · exact List.Pairwise.cons (hd1 _ _ (by omega) (by omega)) hd
    · exact hd
  · intro i j x y g1 g2 g3 hx hy
    have hstack : ∀ r ∈ stack, r ∈ (let stack := if low + 1 < p then (low, p - 1) :: stack else stack
         if p + 1 < high then (p + 1, high) :: stack else stack) := by
      intro r h
      dsimp only
      split <;> split <;> simp [h]
    by_cases hi : low ≤ i ∧ i ≤ high
    · by_cases hj : low ≤ j ∧ j ≤ high
      · -- both inside
        by_cases q1 : j < p
        · right
          refine ⟨(low, p - 1), ?_, hi.1, by simp only; omega⟩
          dsimp only
          rw [if_pos (by omega : low + 1 < p)]
          split <;> simp
        by_cases q2 : p < i
        · right
          refine ⟨(p + 1, high), ?_, by simp only; omega, hj.2⟩
          dsimp only
          rw [if_pos (by omega : p + 1 < high)]
          simp
        left
        have A := hL i x b'[p] hi.1
        have B := hR j b'[p] y
        clear hL hR hr hr' hs hb hd hd0
        grind
      · obtain ⟨i', k1, k2, k3⟩ := hr'.mem hi.1 (by omega) hx
        have hy' : b[j]? = some y := by rw [← hr'.2 j (by omega)]; exact hy
        rcases hs i' j x y (by omega) (by omega) g3 k3 hy' with h | ⟨r, hm, m1, m2⟩
        · exact .inl h
        · rw [List.mem_cons] at hm
          rcases hm with rfl | hm
          · dsimp only at m1 m2; omega
          · have := hd0 r hm
            dsimp only at this; omega
    · have hx' : b[i]? = some x := by rw [← hr'.2 i (by omega)]; exact hx
      by_cases hj : low ≤ j ∧ j ≤ high
      · obtain ⟨j', k1, k2, k3⟩ := hr'.mem hj.1 (by omega) hy
        rcases hs i j' x y (by omega) (by omega) (by omega) hx' k3 with h | ⟨r, hm, m1, m2⟩
        · exact .inl h
        · rw [List.mem_cons] at hm
          rcases hm with rfl | hm
          · dsimp only at m1 m2; omega
          · have := hd0 r hm
            dsimp only at this; omega
      · have hy' : b[j]? = some y := by rw [← hr'.2 j (by omega)]; exact hy
        rcases hs i j x y g1 g2 g3 hx' hy' with h | ⟨r, hm, m1, m2⟩
        · exact .inl h
        · rw [List.mem_cons] at hm
          rcases hm with rfl | hm
          · dsimp only at m1 m2; omega
          · exact .inr ⟨r, hstack r hm, m1, m2⟩

theorem quick_step {c : β → β → Bool} {le : β → β → Prop} {pick : Nat → Nat → List β → PyM β} (ho : TotalPreorder le)
    (hc : Compat c le) (hpick : PicksLast le pick)
    {a b : List β} {start stop low high : Nat} {stack : List (Nat × Nat)}
    (hstop : stop ≤ a.length) (hI : QuickInv le a start stop b ((low, high) :: stack)) :
    ∃ b' p, qsPartition c pick low high b = .ok (b', p) ∧ low ≤ p ∧ p ≤ high ∧
      QuickInv le a start stop b'
        (let stack := if low + 1 < p then (low, p - 1) :: stack else stack
         if p + 1 < high then (p + 1, high) :: stack else stack) := by
  have hl := hI.1.length_eq
  have hb0 := hI.2.1 (low, high) (by simp)
  dsimp only at hb0
  obtain ⟨b', p, e, hr', hp1, hp2, hL, hR⟩ := qsPartition_spec ho hc hpick b low high hb0.2.1 (by omega)
  exact ⟨b', p, e, hp1, hp2, quickInv_next ho hstop hI hr' hp1 hp2 hL hR⟩

theorem quickSortC_spec {c : β → β → Bool} {le : β → β → Prop} {pick : Nat → Nat → List β → PyM β} (ho : TotalPreorder le)
    (hc : Compat c le) (hpick : PicksLast le pick)
    (a : List β) (low high : Nat) (hlh : low ≤ high) (hh : high < a.length) (fuel : Nat)
    (hf : high - low + 1 < fuel) :
    ∃ b, quickSortC c pick fuel a low high = .ok b ∧ SortsTo le a b low (high + 1) := by
  obtain ⟨⟨b, st⟩, e, hI, hg⟩ := whileLoop_spec
    (I := fun s : List β × List (Nat × Nat) => QuickInv le a low (high + 1) s.1 s.2)
    (m := fun s => stackSize s.2)
    (cond := fun (s : List β × List (Nat × Nat)) => .ok (!s.2.isEmpty))
    (body := quickBody c pick) (fun s _ => ⟨_, rfl⟩) (by
      rintro ⟨b, st⟩ hI hcd
      match st with
      | [] => simp at hcd
      | (l, h) :: st =>
        obtain ⟨b', p, e, hp1, hp2, hI'⟩ := quick_step ho hc hpick (by omega) hI
        refine ⟨_, by simp only [quickBody, e, ok_bind]; rfl, hI', ?_⟩
        have := hI.2.1 (l, h) (by simp)
        dsimp only at this ⊢
        split <;> split <;> simp only [stackSize] <;> omega) fuel (a, [(low, high)])
      ⟨.refl _ _ _, by simp; omega, by simp, by
        intro i j x y g1 g2 g3 _ _
        exact .inr ⟨(low, high), by simp, g1, by simp only; omega⟩⟩ (by simp [stackSize]; omega)
  have : st = [] := by simpa using hg
  subst this
  refine ⟨b, by rw [quickSortC, e]; rfl, hI.1, ?_⟩
  intro i j x y g1 g2 g3 hx hy
  rcases hI.2.2.2 i j x y g1 g2 g3 hx hy with h | ⟨r, hm, _⟩
  · exact h
  · simp at hm

theorem lastCell_picks {le : β → β → Prop} (ho : TotalPreorder le) : PicksLast le (lastCell (β := β)) := by
  intro low high a _ h
  refine ⟨a[high], rd_of_lt h, fun z hz => ?_⟩
  rw [List.getElem?_eq_getElem h] at hz
  cases hz
  exact ⟨ho.refl _, ho.refl _⟩

end Model
