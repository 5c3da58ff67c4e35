import Verif.Props.QuickPivot
import Verif.Props.Traversal
/-!
# Exactly when quick_sort with a pivot chosen by the caller sorts (C92)
-/
namespace Props
open Py Spec Model
variable {α : Type} {β : Type}

/-- Comparing with `x` separates the cells `low ≤ i < high` as `array[high]` does: those found before `x` are not larger than
`array[high]`, the others not smaller. -/
def SeparatesLikeLast (c : β → β → Bool) (le : β → β → Prop) (low high : Nat) (a : List β) (x : β) : Prop :=
  ∀ i y z, low ≤ i → i < high → a[i]? = some y → a[high]? = some z → (c y x = true → le y z) ∧ (c y x = false → le z y)

open Classical in
/-- The same pivot function, except that it raises `ValueError` where its pivot does not separate the cells as the last one does. -/
noncomputable def checkedPick (c : β → β → Bool) (le : β → β → Prop) (pick : Nat → Nat → List β → PyM β) (low high : Nat) (a : List β) :
    PyM β := do
  let x ← pick low high a
  if SeparatesLikeLast c le low high a x then .ok x else .error .valueError

/-- What a partition does, whatever the pivot. -/
private theorem partition_any {c : β → β → Bool} {pick : Nat → Nat → List β → PyM β} (a : List β) (low high : Nat) {v : β}
    (hlh : low ≤ high) (hh : high < a.length) (ev : pick low high a = .ok v) :
    ∃ b p, qsPartition c pick low high a = .ok (b, p) ∧ Rearranged a b low (high + 1) ∧ low ≤ p ∧ p ≤ high ∧ b[p]? = a[high]? ∧
      (∀ i, low ≤ i → i < p → ∃ x, b[i]? = some x ∧ c x v = true ∧ ∃ j, low ≤ j ∧ j < high ∧ a[j]? = some x) ∧
      (∀ i, p < i → i ≤ high → ∃ x, b[i]? = some x ∧ c x v = false ∧ ∃ j, low ≤ j ∧ j < high ∧ a[j]? = some x) := by
  obtain ⟨⟨b, k⟩, e, hr, h1, h2, hL, hR⟩ := forRange_spec (lo := low) (hi := high) (s := (a, low))
    (body := fun j (b, k) => do
    let y ← rd b j
    if c y v = true then
      let b ← swp b k j
      .ok (b, k + 1)
    else .ok (b, k))
    (fun J (s : List β × Nat) => Rearranged a s.1 low high ∧ low ≤ s.2 ∧ s.2 ≤ J ∧
      (∀ i x, low ≤ i → i < s.2 → s.1[i]? = some x → c x v = true) ∧
      (∀ i x, s.2 ≤ i → i < J → s.1[i]? = some x → c x v = false))
    hlh ⟨.refl _ _ _, by simp, by simp, by dsimp only; omega, by dsimp only; omega⟩ (by
      rintro J ⟨b, k⟩ hJ1 hJ2 ⟨hr, h1, h2, hL, hR⟩
      dsimp only at hr h1 h2 hL hR ⊢
      have hl := hr.length_eq
      rw [rd_of_lt (by omega : J < b.length)]
      simp only [ok_bind]
      cases h : c b[J] v with
      | true =>
        refine ⟨_, by simp only [if_true]; rw [swp_of_lt (l := b) (i := k) (j := J) (by omega) (by omega), ok_bind],
          hr.trans (rearranged_swap (a := b) (lo := low) (hi := high) (i := k) (j := J)
            (by omega) (by omega) (by omega) (by omega) (by omega) (by omega)),
            by simp; omega, by simp; omega, ?_, ?_⟩
        · intro i x g1 g2 hx
          have := hL i x
          clear hL hR hr
          grind
        · intro i x g1 g2 hx
          have := hR i x
          have := hR k x
          clear hL hR hr
          grind
      | false =>
        refine ⟨(b, k), by simp, hr, h1, by dsimp only; omega, hL, ?_⟩
        intro i x g1 g2 hx
        have := hR i x
        clear hL hR hr
        grind)
  dsimp only at hr h1 h2 hL hR
  have hl := hr.length_eq
  have hlast : b[high]? = a[high]? := hr.2 high (by omega)
  have hmem : ∀ i, low ≤ i → i < high → ∃ x, b[i]? = some x ∧ ∃ j, low ≤ j ∧ j < high ∧ a[j]? = some x := by
    intro i g1 g2
    obtain ⟨j, k1, k2, k3⟩ := hr.mem g1 g2 (List.getElem?_eq_getElem (by omega : i < b.length))
    exact ⟨_, List.getElem?_eq_getElem (by omega), j, k1, k2, k3⟩
  refine ⟨_, k, ?_, (hr.mono (Nat.le_refl _) (by omega)).trans (rearranged_swap (a := b) (i := k) (j := high) (by omega) (by omega) (by omega)
      (by omega) (by omega) (by omega)), h1, h2, ?_, ?_, ?_⟩
  · simp only [qsPartition, ev, ok_bind, e]
    rw [swp_of_lt (by omega) (by omega)]; rfl
  · rw [← hlast]
    clear hL hR hr hmem
    grind
  · intro i g1 g2
    obtain ⟨x, hx, m⟩ := hmem i g1 (by omega)
    refine ⟨x, ?_, hL i x g1 g2 hx, m⟩
    clear hL hR hr hmem m
    grind
  · intro i g1 g2
    by_cases hi : i = high
    · subst hi
      obtain ⟨x, hx, m⟩ := hmem k h1 (by omega)
      refine ⟨x, ?_, hR k x (Nat.le_refl _) (by omega) hx, m⟩
      clear hL hR hr hmem m
      grind
    · obtain ⟨x, hx, m⟩ := hmem i (by omega) (by omega)
      refine ⟨x, ?_, hR i x (by omega) (by omega) hx, m⟩
      clear hL hR hr hmem m
      grind

private abbrev nextStack (low high p : Nat) (stack : List (Nat × Nat)) : List (Nat × Nat) :=
  let stack := if low + 1 < p then (low, p - 1) :: stack else stack
  if p + 1 < high then (p + 1, high) :: stack else stack

private theorem mem_nextStack {low high p : Nat} {stack : List (Nat × Nat)} {r : Nat × Nat} (h : r ∈ nextStack low high p stack) :
    r ∈ stack ∨ (r = (low, p - 1) ∧ low + 1 < p) ∨ (r = (p + 1, high) ∧ p + 1 < high) := by
  dsimp only [nextStack] at h
  split at h <;> split at h <;> (try simp only [List.mem_cons] at h) <;> grind

private theorem trivialOrder : TotalPreorder (fun _ _ : β => True) := ⟨fun _ _ => .inl trivial, fun _ _ _ _ _ => trivial⟩

/-- The ranges that are pending, without what is known about the order. -/
private abbrev Pending (a : List β) (start stop : Nat) (b : List β) (stack : List (Nat × Nat)) : Prop :=
  QuickInv (fun _ _ => True) a start stop b stack

private theorem QuickInv.shape {le : β → β → Prop} {a b : List β} {start stop : Nat} {stack : List (Nat × Nat)}
    (h : QuickInv le a start stop b stack) : Pending a start stop b stack :=
  ⟨h.1, h.2.1, h.2.2.1, fun _ _ _ _ _ _ _ _ _ => .inl trivial⟩

private theorem stackSize_next {low high p : Nat} {stack : List (Nat × Nat)} (h1 : low ≤ p) (h2 : p ≤ high) :
    stackSize (nextStack low high p stack) < stackSize ((low, high) :: stack) := by
  dsimp only [nextStack]
  split <;> split <;> simp only [stackSize] <;> omega

/-- Two cells in the wrong order that no pending range has in common. -/
private def Stuck (le : β → β → Prop) (start stop : Nat) (b : List β) (stack : List (Nat × Nat)) : Prop :=
  ∃ i j x y, start ≤ i ∧ i < j ∧ j < stop ∧ b[i]? = some x ∧ b[j]? = some y ∧ ¬ le x y ∧ ∀ r ∈ stack, ¬ (r.1 ≤ i ∧ j ≤ r.2)

private theorem mem_new {a b : List β} {lo hi i : Nat} {x : β} (h : Rearranged a b lo hi) (h1 : lo ≤ i) (h2 : i < hi)
    (hx : a[i]? = some x) : ∃ j, lo ≤ j ∧ j < hi ∧ b[j]? = some x := by
  have h' : Rearranged b a lo hi := ⟨h.1.symm, fun i hi => (h.2 i hi).symm⟩
  exact h'.mem h1 h2 hx

private theorem Stuck.next {le : β → β → Prop} {start stop low high p : Nat} {a b b' : List β} {stack : List (Nat × Nat)}
    (hI : Pending a start stop b ((low, high) :: stack)) (h : Stuck le start stop b ((low, high) :: stack))
    (hr : Rearranged b b' low (high + 1)) (h1 : low ≤ p) (h2 : p ≤ high) : Stuck le start stop b' (nextStack low high p stack) := by
  obtain ⟨i, j, x, y, g1, g2, g3, hx, hy, hn, hs⟩ := h
  have h0 := hI.2.1 (low, high) List.mem_cons_self
  have hs0 := hs (low, high) List.mem_cons_self
  have hd := (List.pairwise_cons.1 hI.2.2.1).1
  dsimp only at h0 hs0 hd
  have hs1 : ∀ r ∈ stack, ¬ (r.1 ≤ i ∧ j ≤ r.2) := fun r hr => hs r (List.mem_cons_of_mem _ hr)
  have key : ∃ i' j', start ≤ i' ∧ i' < j' ∧ j' < stop ∧ b'[i']? = some x ∧ b'[j']? = some y ∧
      ¬ (low ≤ i' ∧ j' ≤ high) ∧ ∀ r ∈ stack, ¬ (r.1 ≤ i' ∧ j' ≤ r.2) := by
    by_cases hi : low ≤ i ∧ i ≤ high
    · obtain ⟨i', k1, k2, k3⟩ := mem_new hr hi.1 (by omega) hx
      refine ⟨i', j, by omega, by omega, g3, k3, by rw [hr.2 j (by omega)]; exact hy, by omega, fun r hr' => ?_⟩
      have := hd r hr'
      omega
    · have hx' : b'[i]? = some x := by rw [hr.2 i (by omega)]; exact hx
      by_cases hj : low ≤ j ∧ j ≤ high
      · obtain ⟨j', k1, k2, k3⟩ := mem_new hr hj.1 (by omega) hy
        refine ⟨i, j', by omega, by omega, by omega, hx', k3, by omega, fun r hr' => ?_⟩
        have := hd r hr'
        omega
      · exact ⟨i, j, g1, g2, g3, hx', by rw [hr.2 j (by omega)]; exact hy, hs0, hs1⟩
  obtain ⟨i', j', k1, k2, k3, k4, k5, k6, k7⟩ := key
  refine ⟨i', j', x, y, k1, k2, k3, k4, k5, hn, fun r hr' => ?_⟩
  rcases mem_nextStack hr' with h' | ⟨rfl, _⟩ | ⟨rfl, _⟩
  · exact k7 r h'
  · dsimp only; omega
  · dsimp only; omega

private abbrev more : List β × List (Nat × Nat) → PyM Bool := fun s => .ok (!s.2.isEmpty)

private theorem body_next {c : β → β → Bool} {pick : Nat → Nat → List β → PyM β} {b b' : List β} {low high p : Nat}
    {stack : List (Nat × Nat)} (e : qsPartition c pick low high b = .ok (b', p)) :
    quickBody c pick (b, (low, high) :: stack) = .ok (b', nextStack low high p stack) := by
  simp only [quickBody, e, ok_bind]

/-- Once two cells are stuck in the wrong order they stay so. -/
private theorem stuck_run {c : β → β → Bool} {le : β → β → Prop} {pick : Nat → Nat → List β → PyM β}
    (hp : ∀ low high a, low ≤ high → high < a.length → ∃ x, pick low high a = .ok x) {a : List β} {start stop : Nat}
    (hstop : stop ≤ a.length) : ∀ fuel b stack, stackSize stack < fuel → Pending a start stop b stack → Stuck le start stop b stack →
      ∃ b', whileLoop fuel more (quickBody c pick) (b, stack) = .ok (b', []) ∧ Rearranged a b' start stop ∧
        ¬ SortedRange le b' start stop := by
  intro fuel
  induction fuel with
  | zero => intro b stack h; omega
  | succ fuel ih =>
    intro b stack hf hI hS
    match stack, hf, hI, hS with
    | [], _, hI, ⟨i, j, x, y, g1, g2, g3, hx, hy, hn, _⟩ =>
      exact ⟨b, while_stop (cond := more) _ rfl, hI.1, fun h => hn (h i j x y g1 g2 g3 hx hy)⟩
    | (low, high) :: stack, hf, hI, hS =>
      have hl := hI.1.length_eq
      have h0 := hI.2.1 (low, high) List.mem_cons_self
      dsimp only at h0
      obtain ⟨v, ev⟩ := hp low high b h0.2.1 (by omega)
      obtain ⟨b', p, e, hr, h1, h2, -⟩ := partition_any (c := c) b low high h0.2.1 (by omega) ev
      have := stackSize_next (stack := stack) h1 h2
      obtain ⟨bf, e', h⟩ := ih b' (nextStack low high p stack) (by omega)
        (quickInv_next trivialOrder hstop hI hr h1 h2 (fun _ _ _ _ _ _ _ => trivial) (fun _ _ _ _ _ _ _ => trivial))
        (hS.next hI hr h1 h2)
      exact ⟨bf, (while_step (cond := more) fuel rfl (body_next e)).trans e', h⟩

private theorem run_exact {c : β → β → Bool} {le : β → β → Prop} (ho : TotalPreorder le) {pick : Nat → Nat → List β → PyM β}
    (hp : ∀ low high a, low ≤ high → high < a.length → ∃ x, pick low high a = .ok x) {a : List β} {start stop : Nat}
    (hstop : stop ≤ a.length) : ∀ fuel b stack, stackSize stack < fuel → QuickInv le a start stop b stack →
      ∃ b', whileLoop fuel more (quickBody c pick) (b, stack) = .ok (b', []) ∧ Rearranged a b' start stop ∧
        ((SortedRange le b' start stop ∧ whileLoop fuel more (quickBody c (checkedPick c le pick)) (b, stack) = .ok (b', [])) ∨
         (¬ SortedRange le b' start stop ∧
            whileLoop fuel more (quickBody c (checkedPick c le pick)) (b, stack) = .error .valueError)) := by
  intro fuel
  induction fuel with
  | zero => intro b stack h; omega
  | succ fuel ih =>
    intro b stack hf hI
    match stack, hf, hI with
    | [], _, hI =>
      refine ⟨b, while_stop (cond := more) _ rfl, hI.1, .inl ⟨fun i j x y g1 g2 g3 hx hy => ?_, while_stop (cond := more) _ rfl⟩⟩
      rcases hI.2.2.2 i j x y g1 g2 g3 hx hy with h | ⟨r, hm, _⟩
      · exact h
      · simp at hm
    | (low, high) :: stack, hf, hI =>
      have hl := hI.1.length_eq
      have h0 := hI.2.1 (low, high) List.mem_cons_self
      have hd := (List.pairwise_cons.1 hI.2.2.1).1
      dsimp only at h0 hd
      have hh : high < b.length := by omega
      obtain ⟨v, ev⟩ := hp low high b h0.2.1 hh
      obtain ⟨b', p, e, hr, h1, h2, hpv, hL, hR⟩ := partition_any (c := c) b low high h0.2.1 hh ev
      have hsz := stackSize_next (stack := stack) h1 h2
      by_cases hg : SeparatesLikeLast c le low high b v
      · have ev' : checkedPick c le pick low high b = .ok v := by simp only [checkedPick, ev, ok_bind, if_pos hg]
        have e3 : qsPartition c (checkedPick c le pick) low high b = qsPartition c pick low high b := by
          simp only [qsPartition, ev, ev']
        obtain ⟨bf, e', hrr, h⟩ := ih b' (nextStack low high p stack) (by omega)
          (quickInv_next ho hstop hI hr h1 h2
            (fun i x z g1 g2 hx hz => by
              obtain ⟨x', hx', hc, j, k1, k2, k3⟩ := hL i g1 g2
              rw [hx] at hx'; cases hx'
              exact (hg j x z k1 k2 k3 (by rw [← hpv]; exact hz)).1 hc)
            (fun i z x g1 g2 hz hx => by
              obtain ⟨x', hx', hc, j, k1, k2, k3⟩ := hR i g1 g2
              rw [hx] at hx'; cases hx'
              exact (hg j x z k1 k2 k3 (by rw [← hpv]; exact hz)).2 hc))
        refine ⟨bf, (while_step (cond := more) fuel rfl (body_next e)).trans e', hrr, ?_⟩
        rw [while_step (cond := more) fuel rfl (body_next (e3.trans e))]
        exact h
      · have ev' : checkedPick c le pick low high b = .error .valueError := by simp only [checkedPick, ev, ok_bind, if_neg hg]
        have eb : whileLoop (fuel + 1) more (quickBody c (checkedPick c le pick)) (b, (low, high) :: stack) = .error .valueError := by
          simp [whileLoop, quickBody, qsPartition, ev']
        have hS : Stuck le start stop b' (nextStack low high p stack) := by
          have hz : b'[p]? = some b[high] := hpv.trans (List.getElem?_eq_getElem hh)
          have hno : ∀ r ∈ nextStack low high p stack, ¬ (r.1 ≤ p ∧ p ≤ r.2) := by
            intro r hr'
            rcases mem_nextStack hr' with h' | ⟨rfl, _⟩ | ⟨rfl, _⟩
            · have := hd r h'; omega
            · dsimp only; omega
            · dsimp only; omega
          have : ∃ i y z, low ≤ i ∧ i < high ∧ b[i]? = some y ∧ b[high]? = some z ∧
              ((c y v = true ∧ ¬ le y z) ∨ (c y v = false ∧ ¬ le z y)) := by
            apply Classical.byContradiction
            intro hno
            refine hg fun i y z g1 g2 hy hz => ⟨fun hc => ?_, fun hc => ?_⟩
            · exact Classical.byContradiction fun hn => hno ⟨i, y, z, g1, g2, hy, hz, .inl ⟨hc, hn⟩⟩
            · exact Classical.byContradiction fun hn => hno ⟨i, y, z, g1, g2, hy, hz, .inr ⟨hc, hn⟩⟩
          obtain ⟨i, y, z, g1, g2, hy, hz', hbad⟩ := this
          rw [List.getElem?_eq_getElem hh] at hz'
          cases hz'
          obtain ⟨k, k1, k2, k3⟩ := mem_new hr g1 (by omega) hy
          rcases Nat.lt_trichotomy k p with q | q | q
          · obtain ⟨x, hx, hc, -⟩ := hL k k1 q
            rw [k3] at hx; cases hx
            rcases hbad with ⟨-, hn⟩ | ⟨hc', -⟩
            · exact ⟨k, p, y, b[high], by omega, q, by omega, k3, hz, hn, fun r hr' => by have := hno r hr'; omega⟩
            · rw [hc] at hc'; cases hc'
          · subst q
            rw [k3] at hz; cases hz
            rcases hbad with ⟨-, hn⟩ | ⟨-, hn⟩ <;> exact absurd (ho.refl _) hn
          · obtain ⟨x, hx, hc, -⟩ := hR k q (by omega)
            rw [k3] at hx; cases hx
            rcases hbad with ⟨hc', -⟩ | ⟨-, hn⟩
            · rw [hc] at hc'; cases hc'
            · exact ⟨p, k, b[high], y, by omega, q, by omega, hz, k3, hn, fun r hr' => by have := hno r hr'; omega⟩
        obtain ⟨bf, e', hrr, hns⟩ := stuck_run hp hstop fuel b' (nextStack low high p stack) (by omega)
          (quickInv_next trivialOrder hstop (QuickInv.shape hI) hr h1 h2 (fun _ _ _ _ _ _ _ => trivial) (fun _ _ _ _ _ _ _ => trivial)) hS
        exact ⟨bf, (while_step (cond := more) fuel rfl (body_next e)).trans e', hrr, .inr ⟨hns, eb⟩⟩

/-- **C92**, exactly: with any comparator and any pivot function that does not raise, quick_sort ends and rearranges the range; the range
is sorted exactly if no pivot picked on the way separates the cells of its range otherwise than the last cell does, that is if the same
call with the pivot function that raises `ValueError` there ends without exception (and then it ends with the same array). -/
theorem C92_exact (comp : α → α → Bool) (le : α → α → Prop) (ho : TotalPreorder le)
    (pick : Nat → Nat → List (Option α) → PyM (Option α))
    (hp : ∀ low high a, low ≤ high → high < a.length → ∃ x, pick low high a = .ok x)
    (a : List (Option α)) (start end_ : Nat) (h1 : start ≤ end_) (h2 : end_ < a.length) :
    ∃ b, EndsWith (fun fuel => quickSortPick comp pick fuel a start end_) (.ok b) ∧ Rearranged a b start (end_ + 1) ∧
      (SortsTo (noneLast le) a b start (end_ + 1) →
        EndsWith (fun fuel => quickSortPick comp (checkedPick (pyComp comp) (noneLast le) pick) fuel a start end_) (.ok b)) ∧
      (¬ SortsTo (noneLast le) a b start (end_ + 1) →
        EndsWith (fun fuel => quickSortPick comp (checkedPick (pyComp comp) (noneLast le) pick) fuel a start end_) (.error .valueError)) := by
  have hI : QuickInv (noneLast le) a start (end_ + 1) a [(start, end_)] :=
    ⟨.refl _ _ _, by simp; omega, by simp, by
        intro i j x y g1 g2 g3 _ _
        exact .inr ⟨(start, end_), by simp, g1, by simp only; omega⟩⟩
  obtain ⟨b, e, hr, h⟩ := run_exact (c := pyComp comp) ho.noneLast hp (by omega) (end_ - start + 2) a [(start, end_)]
    (by simp [stackSize]) hI
  have conv : ∀ pk fuel, quickSortPick comp pk fuel a start end_ =
      (whileLoop fuel more (quickBody (pyComp comp) pk) (a, [(start, end_)]) >>= fun s => .ok s.1) := fun pk fuel => rfl
  refine ⟨b, FuelMono.endsWith (f := fun fuel => quickSortPick comp pick fuel a start end_) (n := end_ - start + 2)
    (.bind (.whileC _) (fun _ => .const _)) (by rw [conv, e]; rfl), hr, fun hs => ?_, fun hs => ?_⟩
  · rcases h with ⟨-, h⟩ | ⟨hn, -⟩
    · exact FuelMono.endsWith (f := fun fuel => quickSortPick comp (checkedPick (pyComp comp) (noneLast le) pick) fuel a start end_)
        (n := end_ - start + 2) (.bind (.whileC _) (fun _ => .const _)) (by rw [conv, h]; rfl)
    · exact absurd hs.2 hn
  · rcases h with ⟨hn, -⟩ | ⟨-, h⟩
    · exact absurd ⟨hr, hn⟩ hs
    · exact ⟨end_ - start + 2, fun m hm => by
        dsimp only
        rw [conv, whileLoop_mono _ _ _ h (by simp) m hm]; rfl⟩

/-- A weaker sufficient condition than that of `C92_last_pivot_partial`: if every pivot separates the other cells as the last one does, the
range gets sorted. Missing: the other pivots, for which `C92_exact` says when. -/
theorem C92_separating_pivot_partial (comp : α → α → Bool) (le : α → α → Prop) (ho : TotalPreorder le)
    (pick : Nat → Nat → List (Option α) → PyM (Option α))
    (hp : ∀ low high a, low ≤ high → high < a.length →
      ∃ x, pick low high a = .ok x ∧ SeparatesLikeLast (pyComp comp) (noneLast le) low high a x)
    (a : List (Option α)) (start end_ : Nat) (h1 : start ≤ end_) (h2 : end_ < a.length) :
    ∃ b, EndsWith (fun fuel => quickSortPick comp pick fuel a start end_) (.ok b) ∧ SortsTo (noneLast le) a b start (end_ + 1) := by
  obtain ⟨b, e, hr, -, hn⟩ := C92_exact comp le ho pick (fun low high a g1 g2 => (hp low high a g1 g2).imp fun _ h => h.1) a start end_ h1 h2
  refine ⟨b, e, Classical.byContradiction fun hs => ?_⟩
  obtain ⟨n, h⟩ := hn hs
  obtain ⟨⟨b', st⟩, e', -, -⟩ := whileLoop_spec
    (I := fun s : List (Option α) × List (Nat × Nat) => Pending a start (end_ + 1) s.1 s.2)
    (m := fun s => stackSize s.2) (cond := more)
    (body := quickBody (pyComp comp) (checkedPick (pyComp comp) (noneLast le) pick)) (fun s _ => ⟨_, rfl⟩) (by
      rintro ⟨b, st⟩ hI hcd
      match st with
      | [] => simp [more] at hcd
      | (low, high) :: st =>
        have hl := hI.1.length_eq
        have h0 := hI.2.1 (low, high) List.mem_cons_self
        dsimp only at h0 hl
        obtain ⟨v, ev, hg⟩ := hp low high b h0.2.1 (by omega)
        have ev' : checkedPick (pyComp comp) (noneLast le) pick low high b = .ok v := by simp only [checkedPick, ev, ok_bind, if_pos hg]
        obtain ⟨b', p, e, hr, g1, g2, -⟩ := partition_any (c := pyComp comp) b low high h0.2.1 (by omega) ev'
        exact ⟨_, body_next e, quickInv_next trivialOrder (by omega) hI hr g1 g2 (fun _ _ _ _ _ _ _ => trivial) (fun _ _ _ _ _ _ _ => trivial),
          stackSize_next g1 g2⟩) (end_ - start + 2 + n) (a, [(start, end_)])
      ⟨.refl _ _ _, by simp; omega, by simp, fun _ _ _ _ _ _ _ _ _ => .inl trivial⟩ (by simp [stackSize]; omega)
  have h' := h (end_ - start + 2 + n) (by omega)
  have conv : quickSortPick comp (checkedPick (pyComp comp) (noneLast le) pick) (end_ - start + 2 + n) a start end_ =
      (whileLoop (end_ - start + 2 + n) more (quickBody (pyComp comp) (checkedPick (pyComp comp) (noneLast le) pick)) (a, [(start, end_)]) >>=
        fun s => .ok s.1) := rfl
  dsimp only at h'
  rw [conv, e'] at h'
  cases h'

/-! The hypotheses are met: picking the first or the middle cell never raises, and sorts some arrays. -/

example := C92_exact (fun u v : Int => decide (u ≤ v)) (fun a b : Int => a ≤ b) ⟨Int.le_total, fun _ _ _ => Int.le_trans⟩ middleCell
  (fun low high a h1 h2 => ⟨_, rd_of_lt (by omega)⟩) exArr 1 4 (by decide) (by decide)

/-- a record with the last record's key that need not be in the array -/
def capKey (_low high : Nat) (a : List (Option (Nat × Nat))) : PyM (Option (Nat × Nat)) := do
  let x ← rd a high
  .ok (x.map fun r => (r.1, 7))

example : ∃ b, EndsWith (fun fuel => quickSortPick keyComp capKey fuel exRec 0 3) (.ok b) ∧ SortsTo (noneLast keyLe) exRec b 0 4 :=
  C92_separating_pivot_partial _ _ keyLe_total _ (fun low high a h1 h2 =>
    ⟨a[high].map fun r => (r.1, 7), by simp [capKey, rd_of_lt h2], fun i y z g1 g2 hy hz => by
      rw [List.getElem?_eq_getElem h2] at hz
      cases hz
      cases y <;> cases a[high] <;> simp [noneLast, keyLe, pyComp, keyComp] <;> omega⟩) _ _ _ (by decide) (by decide)

end Props
