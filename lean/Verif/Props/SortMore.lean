import Verif.Lemmas.Brick
import Verif.Lemmas.Merge
import Verif.Props.Sort

/-!
# C04, C10, C11: merge_sort_parallel, brick_sort, brick_sort_parallel
-/
namespace Props
open Py Spec Model
variable {α : Type}

/-- C04 for an arbitrary number of rounds that covers the range (`n ≤ 2 ^ rounds`): the floating-point value of
`floor(log(n, 2)) + 1` needs only to satisfy this inequality. -/
theorem C04_merge_sort_rounds (comp : α → α → Bool) (le : α → α → Prop) (ho : TotalPreorder le)
    (hc : Compat comp le) (a : List (Option α)) (start stop rounds : Nat) (h : stop ≤ a.length)
    (hr : stop - start ≤ 2 ^ rounds) :
    ∃ b, EndsWith (fun fuel => mergeRounds comp fuel rounds a start stop) (.ok b) ∧
      SortsTo (noneLast le) a b start stop := by
  obtain ⟨b, e, hs, -⟩ := mergeRounds_spec ho hc a start stop rounds h hr (stop - start + 1) (by omega)
  exact ⟨b, FuelMono.endsWith (f := fun fuel => mergeRounds comp fuel rounds a start stop)
    (FuelMono.forRange (body := fun fuel size a => mergeRound comp fuel a start stop (2 ^ size))
      (fun i s => .bind (.whileC _) (fun _ => .const _)) _ _ _) e, hs⟩

theorem C04_merge_sort (comp : α → α → Bool) (le : α → α → Prop) (ho : TotalPreorder le)
    (hc : Compat comp le) (a : List (Option α)) (start stop : Nat) (h1 : start < stop) (h : stop ≤ a.length) :
    ∃ b, EndsWith (fun fuel => mergeSort comp fuel a start stop) (.ok b) ∧
      SortsTo (noneLast le) a b start stop := by
  obtain ⟨b, ⟨n, e⟩, hs⟩ := C04_merge_sort_rounds comp le ho hc a start stop (Nat.log2 (stop - start) + 1) h
    (Nat.le_of_lt Nat.lt_log2_self)
  refine ⟨b, ⟨n, fun m hm => ?_⟩, hs⟩
  show mergeSort comp m a start stop = _
  rw [mergeSort, if_neg (by omega)]
  exact e m hm

/-- An empty range raises (`math.log(0, 2)`). -/
theorem C04_merge_sort_empty (comp : α → α → Bool) (fuel : Nat) :
    mergeSort comp fuel ([] : List (Option α)) 0 0 = .error .valueError := rfl

example : mergeSort (fun u v : Int => decide (u ≤ v)) 9 exArr 1 6
    = .ok [some 9, some (-2), some 0, some 3, some 3, none] := by decide +kernel

/-- Full statement of C10 for the default comparator: it is false (`C10_brick_sort_diverges`). -/
def C10_full : Prop := ∀ (a : List (Option Int)) (start stop : Nat), stop ≤ a.length →
  ∃ b, EndsWith (fun fuel => brickSort (fun u v => decide (u ≤ v)) fuel a start stop) (.ok b) ∧
    SortsTo (noneLast fun a b : Int => a ≤ b) a b start stop

private theorem ends_par {comp : α → α → Bool} {sched : Nat → List Nat → List Nat} {a b : List (Option α)}
    {start stop fuel : Nat} (h : brickSortPar comp sched fuel a start stop = .ok b) :
    EndsWith (fun fuel => brickSortPar comp sched fuel a start stop) (.ok b) :=
  FuelMono.endsWith (f := fun fuel => brickSortPar comp sched fuel a start stop)
    (.bind (.whileC _) (fun _ => .const _)) h

private theorem par_eq (comp : α → α → Bool) (fuel : Nat) (a : List (Option α)) (start stop : Nat) :
    brickSort comp fuel a start stop = brickSortPar comp (fun _ l => l) fuel a start stop :=
  brickSort_eq_par _ _ _ _ _

/-- brick_sort_parallel, strict comparator: it terminates and sorts for every order of the jobs within a phase. Missing
from the full property: comparators that hold between equal elements, such as the default one. -/
theorem C11_brick_sort_parallel_strict_partial (comp : α → α → Bool) (le : α → α → Prop) (ho : TotalPreorder le)
    (hc : Compat comp le) (hstrict : ∀ u v, comp u v = true → comp v u = false)
    (sched : Nat → List Nat → List Nat) (hsched : ∀ n jobs, (sched n jobs).Perm jobs)
    (a : List (Option α)) (start stop : Nat) (h : stop ≤ a.length) :
    ∃ b, EndsWith (fun fuel => brickSortPar comp sched fuel a start stop) (.ok b) ∧
      SortsTo (noneLast le) a b start stop := by
  obtain ⟨fuel, b, e, hs⟩ := brickSortParC_spec ho.noneLast (pyComp_compat hc) sched hsched a start stop h (by
    apply List.pairwise_of_forall
    rintro (_ | x) (_ | y) <;> simp only [pyComp] <;> simp
    intro h1; simp [hstrict x y h1])
  exact ⟨b, ends_par e, hs⟩

/-- brick_sort_parallel with the default comparator on an array without repeated values: same conclusion. -/
theorem C11_brick_sort_parallel_distinct_partial (sched : Nat → List Nat → List Nat)
    (hsched : ∀ n jobs, (sched n jobs).Perm jobs) (a : List (Option Int)) (start stop : Nat)
    (hd : ((a.drop start).take (stop - start)).Pairwise fun x y => x = y → x = none) (h : stop ≤ a.length) :
    ∃ b, EndsWith (fun fuel => brickSortPar (fun u v => decide (u ≤ v)) sched fuel a start stop) (.ok b) ∧
      SortsTo (noneLast fun a b : Int => a ≤ b) a b start stop := by
  obtain ⟨fuel, b, e, hs⟩ := brickSortParC_spec intLe_total.noneLast (pyComp_compat intLe_compat) sched hsched
    a start stop h (by
    refine hd.imp ?_
    rintro (_ | x) (_ | y) h <;> simp only [pyComp] <;> simp
    intro h1
    have : x ≠ y := by intro e; subst e; simp at h
    omega)
  exact ⟨b, ends_par e, hs⟩

/-- Parallel brick sort with the default comparator never ends on a range holding two equal values, whatever the
schedule. -/
theorem C11_brick_sort_parallel_diverges (sched : Nat → List Nat → List Nat)
    (hsched : ∀ n jobs, (sched n jobs).Perm jobs) (a : List (Option Int)) (start stop i j : Nat) (v : Int)
    (h : stop ≤ a.length) (h1 : start ≤ i) (h2 : i < j) (h3 : j < stop)
    (hi : a[i]? = some (some v)) (hj : a[j]? = some (some v)) (fuel : Nat) :
    brickSortPar (fun u v => decide (u ≤ v)) sched fuel a start stop = .error .outOfFuel := by
  refine brickSortParC_diverges _ sched hsched a start stop h ?_ fuel
  refine brick_dup_diverges (lt := fun x y => match x, y with
    | some a, some b => a < b | _, none => True | none, some _ => False) ?_ (some v) ?_ ?_ a start stop i j h1 h2 h3 hi hj
  · rintro (_ | x) (_ | y) (_ | z) <;> simp; omega
  · simp
  · rintro (_ | x) (_ | y) <;> simp [pyComp]

/-- brick_sort with a strict comparator terminates and sorts. Missing from the full property: comparators that hold
between equal elements (the default one does), for which `C10_brick_sort_diverges` shows divergence. -/
theorem C10_brick_sort_strict_partial (comp : α → α → Bool) (le : α → α → Prop) (ho : TotalPreorder le)
    (hc : Compat comp le) (hstrict : ∀ u v, comp u v = true → comp v u = false)
    (a : List (Option α)) (start stop : Nat) (h : stop ≤ a.length) :
    ∃ b, EndsWith (fun fuel => brickSort comp fuel a start stop) (.ok b) ∧
      SortsTo (noneLast le) a b start stop := by
  simp only [par_eq]
  exact C11_brick_sort_parallel_strict_partial comp le ho hc hstrict _ (fun _ _ => .refl _) a start stop h

/-- brick_sort with the default comparator on an array without repeated values. -/
theorem C10_brick_sort_distinct_partial (a : List (Option Int)) (start stop : Nat)
    (hd : ((a.drop start).take (stop - start)).Pairwise fun x y => x = y → x = none) (h : stop ≤ a.length) :
    ∃ b, EndsWith (fun fuel => brickSort (fun u v => decide (u ≤ v)) fuel a start stop) (.ok b) ∧
      SortsTo (noneLast fun a b : Int => a ≤ b) a b start stop := by
  simp only [par_eq]
  exact C11_brick_sort_parallel_distinct_partial _ (fun _ _ => .refl _) a start stop hd h

/-- brick_sort with the default comparator never ends on a range holding two equal values. -/
theorem C10_brick_sort_diverges (a : List (Option Int)) (start stop i j : Nat) (v : Int)
    (h : stop ≤ a.length) (h1 : start ≤ i) (h2 : i < j) (h3 : j < stop)
    (hi : a[i]? = some (some v)) (hj : a[j]? = some (some v)) (fuel : Nat) :
    brickSort (fun u v => decide (u ≤ v)) fuel a start stop = .error .outOfFuel := by
  rw [par_eq]
  exact C11_brick_sort_parallel_diverges _ (fun _ _ => .refl _) a start stop i j v h h1 h2 h3 hi hj fuel

/-- **C11 exactly**, default comparator: parallel brick sort ends, for a given order of the jobs, exactly if no value occurs twice in the
range (`None` may), and then the range is sorted. -/
theorem C11_exact (sched : Nat → List Nat → List Nat) (hsched : ∀ n jobs, (sched n jobs).Perm jobs) (a : List (Option Int))
    (start stop : Nat) (h : stop ≤ a.length) :
    (((a.drop start).take (stop - start)).Pairwise (fun x y => x = y → x = none) ∧
      ∃ b, EndsWith (fun fuel => brickSortPar (fun u v => decide (u ≤ v)) sched fuel a start stop) (.ok b) ∧
        SortsTo (noneLast fun a b : Int => a ≤ b) a b start stop) ∨
    (¬ ((a.drop start).take (stop - start)).Pairwise (fun x y => x = y → x = none) ∧
      ∀ fuel, brickSortPar (fun u v => decide (u ≤ v)) sched fuel a start stop = .error .outOfFuel) := by
  by_cases hd : ((a.drop start).take (stop - start)).Pairwise (fun x y => x = y → x = none)
  · exact .inl ⟨hd, C11_brick_sort_parallel_distinct_partial sched hsched a start stop hd h⟩
  · refine .inr ⟨hd, fun fuel => ?_⟩
    rw [List.pairwise_iff_getElem] at hd
    simp only [Classical.not_forall] at hd
    obtain ⟨i, j, hi, hj, hij, e, hn⟩ := hd
    simp only [List.length_take, List.length_drop] at hi hj
    simp only [List.getElem_take, List.getElem_drop] at e hn
    cases hv : a[start + i] with
    | none => exact absurd hv hn
    | some v =>
      rw [hv] at e
      exact C11_brick_sort_parallel_diverges sched hsched a start stop (start + i) (start + j) v h (by omega) (by omega) (by omega)
        (by rw [List.getElem?_eq_getElem (by omega), hv]) (by rw [List.getElem?_eq_getElem (by omega), ← e]) fuel

/-- **C10 exactly**, default comparator: brick sort ends exactly if no value occurs twice in the range, and then the range is sorted. -/
theorem C10_exact (a : List (Option Int)) (start stop : Nat) (h : stop ≤ a.length) :
    (((a.drop start).take (stop - start)).Pairwise (fun x y => x = y → x = none) ∧
      ∃ b, EndsWith (fun fuel => brickSort (fun u v => decide (u ≤ v)) fuel a start stop) (.ok b) ∧
        SortsTo (noneLast fun a b : Int => a ≤ b) a b start stop) ∨
    (¬ ((a.drop start).take (stop - start)).Pairwise (fun x y => x = y → x = none) ∧
      ∀ fuel, brickSort (fun u v => decide (u ≤ v)) fuel a start stop = .error .outOfFuel) := by
  simp only [par_eq]
  exact C11_exact _ (fun _ _ => .refl _) a start stop h

theorem C10_full_false : ¬ C10_full := by
  intro h
  obtain ⟨b, ⟨n, e⟩, -⟩ := h [some 1, some 1] 0 2 (by decide)
  have := C10_brick_sort_diverges [some 1, some 1] 0 2 0 1 1 (by decide) (by decide) (by decide) (by decide) rfl rfl n
  rw [show brickSort (fun u v => decide (u ≤ v)) n [some (1 : Int), some 1] 0 2 = .ok b from e n (Nat.le_refl n)] at this
  cases this

example : brickSort (fun u v : Int => decide (u < v)) 9 exArr 1 5
    = .ok [some 9, some (-2), some 3, some 3, none, some 0] := by decide
example : ∀ u v : Int, decide (u < v) = true → decide (v < u) = false := by intro u v; simp; omega
example : ([some 5, none, some 2, none, some (-1)] : List (Option Int)).Pairwise fun x y => x = y → x = none := by decide
/-- a schedule that runs the jobs of every phase backwards -/
example : brickSortPar (fun u v : Int => decide (u < v)) (fun _ l => l.reverse) 9 exArr 1 5
    = .ok [some 9, some (-2), some 3, some 3, none, some 0] := by decide
example : ∀ (n : Nat) (jobs : List Nat), ((fun _ (l : List Nat) => l.reverse) n jobs).Perm jobs := fun _ l => l.reverse_perm

end Props
