import Verif.Lemmas.Bubble
import Verif.Lemmas.Insertion
import Verif.Lemmas.Cocktail
import Verif.Lemmas.Quick

/-!
# C01, C02, C03, C05, C07, C09: in-place comparison sorts

`start` and `stop = end + 1` delimit the sorted range; `stop ≤ a.length` says that `end` is a valid index (or the
default for an empty array). The comparator is any one compatible with a total preorder; `None` cells sort last.
`.ok` in the conclusion says that no exception is raised.
-/
namespace Props
open Py Spec Model
variable {α : Type}

theorem C01_bubble_sort (comp : α → α → Bool) (le : α → α → Prop) (ho : TotalPreorder le) (hc : Compat comp le)
    (a : List (Option α)) (start stop : Nat) (h : stop ≤ a.length) :
    ∃ b, bubbleSort comp a start stop = .ok b ∧ SortsTo (noneLast le) a b start stop :=
  bubbleSortC_spec ho.noneLast (pyComp_compat hc) a start stop h

theorem C02_selection_sort (comp : α → α → Bool) (le : α → α → Prop) (ho : TotalPreorder le)
    (hc : Compat comp le) (a : List (Option α)) (start stop : Nat) (h : stop ≤ a.length) :
    ∃ b, selectionSort comp a start stop = .ok b ∧ SortsTo (noneLast le) a b start stop :=
  selectionSortC_spec ho.noneLast (pyComp_compat hc) a start stop h

theorem C03_insertion_sort (comp : α → α → Bool) (le : α → α → Prop) (ho : TotalPreorder le)
    (hc : Compat comp le) (a : List (Option α)) (start stop : Nat) (h : stop ≤ a.length) :
    ∃ b, insertionSort comp a start stop = .ok b ∧ SortsTo (noneLast le) a b start stop :=
  insertionSortC_spec ho.noneLast (pyComp_compat hc) a start stop h

/-- The number of `while` iterations needed is at most the length of the range plus one (so any larger fuel gives the
same, non-`outOfFuel`, result: the loop ends). `end` is inclusive; the range must not be empty (the code reads
`array[end]`; see `C05_quick_sort_empty`). -/
theorem C05_quick_sort (comp : α → α → Bool) (le : α → α → Prop) (ho : TotalPreorder le)
    (hc : Compat comp le) (a : List (Option α)) (start end_ : Nat) (h1 : start ≤ end_) (h2 : end_ < a.length) :
    ∃ b, EndsWith (fun fuel => quickSort comp fuel a start end_) (.ok b) ∧
      SortsTo (noneLast le) a b start (end_ + 1) := by
  obtain ⟨b, e, hs⟩ := quickSortC_spec ho.noneLast (pyComp_compat hc)
    (lastCell_picks ho.noneLast) a start end_ h1 h2 (end_ - start + 2) (by omega)
  exact ⟨b, FuelMono.endsWith (f := fun fuel => quickSort comp fuel a start end_)
    (.bind (.whileC _) (fun _ => .const _)) e, hs⟩

/-- Sorting an empty array raises `IndexError` (the pivot read `array[end]` is out of range). -/
theorem C05_quick_sort_empty (comp : α → α → Bool) (fuel : Nat) :
    quickSort comp (fuel + 1) ([] : List (Option α)) 0 0 = .error .indexError := rfl

theorem C07_shell_sort (comp : α → α → Bool) (le : α → α → Prop) (ho : TotalPreorder le)
    (hc : Compat comp le) (a : List (Option α)) (start stop : Nat) (h : stop ≤ a.length) :
    ∃ b, EndsWith (fun fuel => shellSort comp fuel a start stop) (.ok b) ∧
      SortsTo (noneLast le) a b start stop := by
  obtain ⟨b, e, hs⟩ := shellSortC_spec ho.noneLast (pyComp_compat hc) a start stop h (stop - start + 1) (by omega)
  exact ⟨b, FuelMono.endsWith (f := fun fuel => shellSort comp fuel a start stop)
    (.bind (.whileC _) (fun _ => .const _)) e, hs⟩

theorem C09_cocktail_shaker_sort (comp : α → α → Bool) (le : α → α → Prop) (ho : TotalPreorder le)
    (hc : Compat comp le) (a : List (Option α)) (start stop : Nat) (h : stop ≤ a.length) :
    ∃ b, EndsWith (fun fuel => cocktailSort comp fuel a start stop) (.ok b) ∧
      SortsTo (noneLast le) a b start stop := by
  obtain ⟨b, e, hs⟩ := cocktailSortC_spec ho.noneLast (pyComp_compat hc) a start stop h (stop - start + 2) (by omega)
  exact ⟨b, FuelMono.endsWith (f := fun fuel => cocktailSort comp fuel a start stop)
    (.bind (.whileC _) (fun _ => .const _)) e, hs⟩

/-! ## The hypotheses are met: the default comparator and a strict, descending one on `Int` -/

theorem intLe_total : TotalPreorder (fun a b : Int => a ≤ b) :=
  ⟨fun a b => by omega, fun a b c => by omega⟩
theorem intGe_total : TotalPreorder (fun a b : Int => b ≤ a) :=
  ⟨fun a b => by omega, fun a b c => by omega⟩
/-- the default `lambda u, v: u <= v` -/
theorem intLe_compat : Compat (fun u v : Int => decide (u ≤ v)) (fun a b => a ≤ b) :=
  ⟨fun a b h => by simpa using h, fun a b h => by simp at h; omega⟩
/-- `lambda u, v: u > v`, used in the doctests -/
theorem intGt_compat : Compat (fun u v : Int => decide (u > v)) (fun a b => b ≤ a) :=
  ⟨fun a b h => by simp at h; omega, fun a b h => by simpa using h⟩

/-- an array with a hole, of which a proper sub-range is sorted -/
def exArr : List (Option Int) := [some 9, some 3, none, some (-2), some 3, some 0]

example : ∃ b, bubbleSort (fun u v => decide (u ≤ v)) exArr 1 5 = .ok b ∧
    SortsTo (noneLast fun a b : Int => a ≤ b) exArr b 1 5 :=
  C01_bubble_sort _ _ intLe_total intLe_compat _ _ _ (by decide)
example : bubbleSort (fun u v : Int => decide (u ≤ v)) exArr 1 5
    = .ok [some 9, some (-2), some 3, some 3, none, some 0] := by decide
example : selectionSort (fun u v : Int => decide (u > v)) exArr 1 5
    = .ok [some 9, some 3, some 3, some (-2), none, some 0] := by decide
example : insertionSort (fun u v : Int => decide (u ≤ v)) exArr 1 5
    = .ok [some 9, some (-2), some 3, some 3, none, some 0] := by decide
example : quickSort (fun u v : Int => decide (u ≤ v)) 9 exArr 1 4
    = .ok [some 9, some (-2), some 3, some 3, none, some 0] := by decide
example : shellSort (fun u v : Int => decide (u ≤ v)) 9 exArr 0 6
    = .ok [some (-2), some 0, some 3, some 3, some 9, none] := by decide
example : cocktailSort (fun u v : Int => decide (u > v)) 9 exArr 0 6
    = .ok [some 9, some 3, some 3, some 0, some (-2), none] := by decide
example : ∃ b, EndsWith (fun fuel => quickSort (fun u v => decide (u > v)) fuel exArr 1 4) (.ok b) ∧
    SortsTo (noneLast fun a b : Int => b ≤ a) exArr b 1 5 :=
  C05_quick_sort _ _ intGe_total intGt_compat _ _ _ (by decide) (by decide)

end Props
