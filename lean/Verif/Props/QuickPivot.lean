import Verif.Props.Stable

/-!
# C92: quick_sort with a pivot chosen by the caller

`pick low high array` is the result of the caller's `pick_pivot_element`. The code moves the cell at `high` between the two
parts, whatever pivot was picked, and never looks at that cell again.
-/
namespace Props
open Py Spec Model
variable {α : Type}

/-- The caller's function picks one of the cells `low ≤ i ≤ high`. -/
def PicksCell (pick : Nat → Nat → List (Option α) → PyM (Option α)) : Prop :=
  ∀ low high a, low ≤ high → high < a.length →
    ∃ i x, low ≤ i ∧ i ≤ high ∧ a[i]? = some x ∧ pick low high a = .ok x

/-- Full statement of C92 for the default comparator: it is false (`C92_full_false`). -/
def C92_full : Prop := ∀ pick : Nat → Nat → List (Option Int) → PyM (Option Int), PicksCell pick →
  ∀ (a : List (Option Int)) (start end_ : Nat), start ≤ end_ → end_ < a.length →
    ∃ b, EndsWith (fun fuel => quickSortPick (fun u v => decide (u ≤ v)) pick fuel a start end_) (.ok b) ∧
      SortsTo (noneLast fun a b : Int => a ≤ b) a b start (end_ + 1)

/-- Whatever pivots are picked, quick_sort ends without exception and only rearranges the cells of the range. Missing: that
they end up in order, which needs the pivots of `C92_last_pivot_partial`. -/
theorem C92_any_pivot_partial (comp : α → α → Bool) (pick : Nat → Nat → List (Option α) → PyM (Option α))
    (hp : ∀ low high a, low ≤ high → high < a.length → ∃ x, pick low high a = .ok x)
    (a : List (Option α)) (start end_ : Nat) (h1 : start ≤ end_) (h2 : end_ < a.length) :
    ∃ b, EndsWith (fun fuel => quickSortPick comp pick fuel a start end_) (.ok b) ∧ Rearranged a b start (end_ + 1) := by
  obtain ⟨b, e, hs⟩ := quickSortC_spec (c := pyComp comp) (le := fun _ _ => True) (pick := pick)
    ⟨fun _ _ => .inl trivial, fun _ _ _ _ _ => trivial⟩ ⟨fun _ _ _ => trivial, fun _ _ _ => trivial⟩
    (fun low high a g1 g2 => (hp low high a g1 g2).imp fun x hx => ⟨hx, fun _ _ => ⟨trivial, trivial⟩⟩)
    a start end_ h1 h2 (end_ - start + 2) (by omega)
  exact ⟨b, FuelMono.endsWith (f := fun fuel => quickSortPick comp pick fuel a start end_)
    (.bind (.whileC _) (fun _ => .const _)) e, hs.1⟩

/-- If every pivot is equivalent to the cell at `high` (but need not be that cell), the range gets sorted. Missing: all other
pivots. -/
theorem C92_last_pivot_partial (comp : α → α → Bool) (le : α → α → Prop) (ho : TotalPreorder le) (hc : Compat comp le)
    (pick : Nat → Nat → List (Option α) → PyM (Option α))
    (hp : ∀ low high a, low ≤ high → high < a.length →
      ∃ x, pick low high a = .ok x ∧ ∀ z, a[high]? = some z → noneLast le x z ∧ noneLast le z x)
    (a : List (Option α)) (start end_ : Nat) (h1 : start ≤ end_) (h2 : end_ < a.length) :
    ∃ b, EndsWith (fun fuel => quickSortPick comp pick fuel a start end_) (.ok b) ∧
      SortsTo (noneLast le) a b start (end_ + 1) := by
  obtain ⟨b, e, hs⟩ := quickSortC_spec ho.noneLast (pyComp_compat hc) hp a start end_ h1 h2 (end_ - start + 2) (by omega)
  exact ⟨b, FuelMono.endsWith (f := fun fuel => quickSortPick comp pick fuel a start end_)
    (.bind (.whileC _) (fun _ => .const _)) e, hs⟩

/-- `pick_pivot_element = lambda low, high, array: array[low]` -/
def firstCell {β : Type} (low _high : Nat) (a : List β) : PyM β := rd a low
/-- `pick_pivot_element = lambda low, high, array: array[(low + high) // 2]` -/
def middleCell {β : Type} (low high : Nat) (a : List β) : PyM β := rd a ((low + high) / 2)

theorem firstCell_picks : PicksCell (firstCell (β := Option α)) := fun low high a h1 h2 =>
  ⟨low, a[low], Nat.le_refl _, h1, List.getElem?_eq_getElem (by omega), rd_of_lt (by omega)⟩
theorem middleCell_picks : PicksCell (middleCell (β := Option α)) := fun low high a h1 h2 =>
  ⟨(low + high) / 2, a[(low + high) / 2]'(by omega), by omega, by omega, List.getElem?_eq_getElem (by omega), rd_of_lt (by omega)⟩

/-- Picking the first cell leaves [2, 1] as it is; picking the middle cell leaves [1, 3, 2] as it is. -/
theorem C92_unsorted :
    EndsWith (fun fuel => quickSortPick (fun u v : Int => decide (u ≤ v)) firstCell fuel [some 2, some 1] 0 1)
      (.ok [some 2, some 1]) ∧
    EndsWith (fun fuel => quickSortPick (fun u v : Int => decide (u ≤ v)) middleCell fuel [some 1, some 3, some 2] 0 2)
      (.ok [some 1, some 3, some 2]) := by
  refine ⟨⟨9, fun n hn => ?_⟩, ⟨9, fun n hn => ?_⟩⟩ <;> obtain ⟨m, rfl⟩ : ∃ m, n = m + 9 := ⟨n - 9, by omega⟩
  · rfl
  · rfl

theorem C92_full_false : ¬ C92_full := by
  intro h
  obtain ⟨b, ⟨n, e⟩, -, hs⟩ := h firstCell firstCell_picks [some 2, some 1] 0 1 (by decide) (by decide)
  obtain ⟨m, e'⟩ := C92_unsorted.1
  have e1 := e (n + m) (by omega)
  have e2 := e' (n + m) (by omega)
  dsimp only at e1 e2
  rw [e2] at e1
  cases e1
  have := hs 0 1 (some 2) (some 1) (by decide) (by decide) (by decide) rfl rfl
  simp [noneLast] at this

/-! The hypotheses are met: picking the middle cell never raises; a function that returns the value at `high` through a copy
of it, and one that compares by key only, are equivalent to the last cell. -/

example : ∃ b, EndsWith (fun fuel => quickSortPick (fun u v : Int => decide (u ≤ v)) middleCell fuel exArr 1 4) (.ok b) ∧
    Rearranged exArr b 1 5 :=
  C92_any_pivot_partial _ _ (fun low high a h1 h2 => ⟨_, rd_of_lt (by omega)⟩) _ _ _ (by decide) (by decide)

/-- the pivot is the record (k, 0) made from the last record (k, _), which is not an element of the array -/
def keyOnly (_low high : Nat) (a : List (Option (Nat × Nat))) : PyM (Option (Nat × Nat)) := do
  let x ← rd a high
  .ok (x.map fun r => (r.1, 0))

example : ∃ b, EndsWith (fun fuel => quickSortPick keyComp keyOnly fuel exRec 0 3) (.ok b) ∧
    SortsTo (noneLast keyLe) exRec b 0 4 :=
  C92_last_pivot_partial _ _ keyLe_total (keyComp_weak.compat keyLe_total) _ (fun low high a h1 h2 =>
    ⟨a[high].map fun r => (r.1, 0), by simp [keyOnly, rd_of_lt h2], fun z hz => by
      rw [List.getElem?_eq_getElem h2] at hz
      cases hz
      cases a[high] <;> simp [noneLast, keyLe]⟩) _ _ _ (by decide) (by decide)

end Props
