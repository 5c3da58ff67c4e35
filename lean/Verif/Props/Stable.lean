import Verif.Lemmas.Stable
import Verif.Props.SortMore
import Verif.Model.Intro

/-!
# C91: which sorts are stable

A sort is stable when elements that the order does not separate come out in the order in which they were put in. The
elements may carry data that the comparator does not look at (records sorted by one field), so this is observable.
-/
namespace Spec
variable {α : Type}

/-- Equivalent elements keep their relative order: whatever set `p` of mutually equivalent elements is singled out, its
members appear in `b` (an array whose cells may be `None`) in the same sequence as in `a`. -/
def KeepsTies (le : α → α → Prop) (a b : List (Option α)) : Prop :=
  ∀ p : α → Bool, (∀ x y, p x = true → p y = true → le x y) → (b.filterMap id).filter p = (a.filterMap id).filter p

/-- The comparator holds exactly when the first argument may come first: `lambda u, v: u <= v`. -/
def Weak (comp : α → α → Bool) (le : α → α → Prop) : Prop := ∀ x y, comp x y = true ↔ le x y

/-- The comparator holds exactly when the first argument must come first: `lambda u, v: u < v`. -/
def Strict (comp : α → α → Bool) (le : α → α → Prop) : Prop := ∀ x y, comp x y = true ↔ ¬ le y x

theorem Weak.compat {comp : α → α → Bool} {le : α → α → Prop} (h : Weak comp le) (ho : TotalPreorder le) : Compat comp le :=
  ⟨fun a b e => (h a b).1 e, fun a b e => (ho.total b a).elim id fun hl => by rw [(h a b).2 hl] at e; cases e⟩

theorem Strict.compat {comp : α → α → Bool} {le : α → α → Prop} (h : Strict comp le) (ho : TotalPreorder le) :
    Compat comp le :=
  ⟨fun a b e => (ho.total a b).elim id fun hl => absurd hl ((h a b).1 e),
   fun a b e => Classical.byContradiction fun hn => by rw [(h a b).2 hn] at e; cases e⟩

end Spec

namespace Props
open Py Spec Model
variable {α : Type}

/-- a set of elements, seen as a set of cells -/
def onCells (p : α → Bool) : Option α → Bool
  | none => false
  | some x => p x

theorem filter_cells (p : α → Bool) (a : List (Option α)) :
    (a.filter (onCells p)).filterMap id = (a.filterMap id).filter p := by
  induction a with
  | nil => rfl
  | cons x a ih =>
    cases x with
    | none => simpa [onCells, List.filter_cons] using ih
    | some x =>
      have hx : onCells p (some x) = p x := rfl
      have hm : ∀ l : List (Option α), (some x :: l).filterMap id = x :: l.filterMap id := fun _ => rfl
      cases h : p x with
      | true => rw [List.filter_cons_of_pos (by rw [hx, h]), hm, hm, ih, List.filter_cons_of_pos h]
      | false => rw [List.filter_cons_of_neg (by rw [hx, h]; decide), hm, ih, List.filter_cons_of_neg (by rw [h]; decide)]

theorem keepsTies_of {le : α → α → Prop} {a b : List (Option α)}
    (h : ∀ p : α → Bool, (∀ x y, p x = true → p y = true → le x y) → b.filter (onCells p) = a.filter (onCells p)) :
    KeepsTies le a b := by
  intro p hp
  rw [← filter_cells, ← filter_cells, h p hp]

theorem never_weak {comp : α → α → Bool} {le : α → α → Prop} (hw : Weak comp le) {p : α → Bool}
    (hp : ∀ x y, p x = true → p y = true → le x y) : Never (pyComp comp) (onCells p) := by
  rintro (_ | x) (_ | y) hc ⟨h1, h2⟩ <;> simp only [onCells, pyComp] at h1 h2 hc <;> try cases h1
  · cases h2
  · rw [(hw x y).2 (hp x y h1 h2)] at hc; cases hc

theorem alike_weak {comp : α → α → Bool} {le : α → α → Prop} (ho : TotalPreorder le) (hw : Weak comp le) {p : α → Bool}
    (hp : ∀ x y, p x = true → p y = true → le x y) : Alike (pyComp comp) (noneLast le) (onCells p) := by
  rintro (_ | x) (_ | y) (_ | z) hc hz h1 h2 <;> simp only [onCells, pyComp, noneLast] at h1 h2 hc hz <;>
    first | cases h1 | cases h2 | skip
  · simp at hz
  · have : le x y := by
      rcases hz with hz | hz
      · cases hz; exact hp x y h2 h1
      · exact ho.trans _ _ _ hz (hp z y h2 h1)
    rw [(hw x y).2 this] at hc; cases hc

/-- bubble_sort with a non-strict comparator, such as the default one, is stable. -/
theorem C91_bubble_sort (comp : α → α → Bool) (le : α → α → Prop) (ho : TotalPreorder le) (hw : Weak comp le)
    (a : List (Option α)) (start stop : Nat) (h : stop ≤ a.length) :
    ∃ b, bubbleSort comp a start stop = .ok b ∧ SortsTo (noneLast le) a b start stop ∧ KeepsTies le a b := by
  obtain ⟨b, e, hs⟩ := C01_bubble_sort comp le ho (hw.compat ho) a start stop h
  exact ⟨b, e, hs, keepsTies_of fun p hp => bubbleSortC_keeps (never_weak hw hp) e⟩

/-- insertion_sort with a non-strict comparator is stable. -/
theorem C91_insertion_sort (comp : α → α → Bool) (le : α → α → Prop) (ho : TotalPreorder le) (hw : Weak comp le)
    (a : List (Option α)) (start stop : Nat) (h : stop ≤ a.length) :
    ∃ b, insertionSort comp a start stop = .ok b ∧ SortsTo (noneLast le) a b start stop ∧ KeepsTies le a b := by
  obtain ⟨b, e, hs⟩ := C03_insertion_sort comp le ho (hw.compat ho) a start stop h
  exact ⟨b, e, hs, keepsTies_of fun p hp => insertionSortC_keeps (never_weak hw hp) e⟩

/-- cocktail_shaker_sort with a non-strict comparator is stable. -/
theorem C91_cocktail_shaker_sort (comp : α → α → Bool) (le : α → α → Prop) (ho : TotalPreorder le) (hw : Weak comp le)
    (a : List (Option α)) (start stop : Nat) (h : stop ≤ a.length) :
    ∃ b, EndsWith (fun fuel => cocktailSort comp fuel a start stop) (.ok b) ∧ SortsTo (noneLast le) a b start stop ∧
      KeepsTies le a b := by
  obtain ⟨b, e, hs⟩ := C09_cocktail_shaker_sort comp le ho (hw.compat ho) a start stop h
  refine ⟨b, e, hs, keepsTies_of fun p hp => ?_⟩
  obtain ⟨n, hn⟩ := e
  exact cocktailSortC_keeps (never_weak hw hp) (hn n (Nat.le_refl n))

/-- merge_sort_parallel with a non-strict comparator is stable. -/
theorem C91_merge_sort (comp : α → α → Bool) (le : α → α → Prop) (ho : TotalPreorder le) (hw : Weak comp le)
    (a : List (Option α)) (start stop : Nat) (h1 : start < stop) (h : stop ≤ a.length) :
    ∃ b, EndsWith (fun fuel => mergeSort comp fuel a start stop) (.ok b) ∧ SortsTo (noneLast le) a b start stop ∧
      KeepsTies le a b := by
  obtain ⟨b, e, hs⟩ := C04_merge_sort comp le ho (hw.compat ho) a start stop h1 h
  refine ⟨b, e, hs, keepsTies_of fun p hp => ?_⟩
  obtain ⟨n, hn⟩ := e
  obtain ⟨b', e', -, hf⟩ := mergeRounds_spec ho (hw.compat ho) a start stop (Nat.log2 (stop - start) + 1) h
    (Nat.le_of_lt Nat.lt_log2_self) (n + (stop - start) + 1) (by omega)
  have e2 := hn (n + (stop - start) + 1) (by omega)
  simp only [mergeSort] at e2
  rw [if_neg (by omega), e'] at e2
  cases e2
  exact hf _ (alike_weak ho hw hp)

/-- brick_sort_parallel (under every order of the jobs within a phase) with a strict comparator is stable. -/
theorem C91_brick_sort_parallel (comp : α → α → Bool) (le : α → α → Prop) (ho : TotalPreorder le) (hst : Strict comp le)
    (sched : Nat → List Nat → List Nat) (hsched : ∀ n jobs, (sched n jobs).Perm jobs)
    (a : List (Option α)) (start stop : Nat) (h : stop ≤ a.length) :
    ∃ b, EndsWith (fun fuel => brickSortPar comp sched fuel a start stop) (.ok b) ∧
      SortsTo (noneLast le) a b start stop ∧ KeepsTies le a b := by
  obtain ⟨b, e, hs⟩ := C11_brick_sort_parallel_strict_partial comp le ho (hst.compat ho) (fun u v huv => by
    cases hvu : comp v u with
    | false => rfl
    | true =>
      have h1 := (hst u v).1 huv
      have h2 := (hst v u).1 hvu
      exact absurd ((ho.total u v).resolve_right h1) h2) sched hsched a start stop h
  refine ⟨b, e, hs, keepsTies_of fun p hp => ?_⟩
  obtain ⟨n, hn⟩ := e
  refine brickSortParC_keeps ?_ sched (hn n (Nat.le_refl n))
  rintro (_ | x) (_ | y) hc ⟨h1, h2⟩ <;> simp only [onCells, pyComp] at h1 h2 hc <;> first | cases h1 | cases h2 | skip
  exact (hst y x).1 hc (hp x y h1 h2)

/-- brick_sort with a strict comparator is stable. -/
theorem C91_brick_sort (comp : α → α → Bool) (le : α → α → Prop) (ho : TotalPreorder le) (hst : Strict comp le)
    (a : List (Option α)) (start stop : Nat) (h : stop ≤ a.length) :
    ∃ b, EndsWith (fun fuel => brickSort comp fuel a start stop) (.ok b) ∧ SortsTo (noneLast le) a b start stop ∧
      KeepsTies le a b := by
  obtain ⟨b, e, hs⟩ := C91_brick_sort_parallel comp le ho hst (fun _ l => l) (fun _ _ => .refl _) a start stop h
  exact ⟨b, by simpa only [brickSort, brickSortPar, brickSort_eq_par] using e, hs⟩

/-! ## The hypotheses are met, and the limits: records (key, tag) compared by key -/

/-- records ordered by their first component -/
def keyLe (x y : Nat × Nat) : Prop := x.1 ≤ y.1
/-- `lambda u, v: u.key <= v.key` -/
def keyComp (x y : Nat × Nat) : Bool := decide (x.1 ≤ y.1)
/-- `lambda u, v: u.key < v.key` -/
def keyLtComp (x y : Nat × Nat) : Bool := decide (x.1 < y.1)

theorem keyLe_total : TotalPreorder keyLe :=
  ⟨fun a b => by simp only [keyLe]; omega, fun a b c => by simp only [keyLe]; omega⟩
theorem keyComp_weak : Weak keyComp keyLe := fun x y => by simp [keyComp, keyLe]
theorem keyLt_strict : Strict keyLtComp keyLe := fun x y => by simp [keyLtComp, keyLe]

/-- two records with key 2 and one with key 1 -/
def exRec : List (Option (Nat × Nat)) := [some (2, 0), none, some (2, 1), some (1, 2)]

example : ∃ b, bubbleSort keyComp exRec 0 4 = .ok b ∧ SortsTo (noneLast keyLe) exRec b 0 4 ∧ KeepsTies keyLe exRec b :=
  C91_bubble_sort _ _ keyLe_total keyComp_weak _ _ _ (by decide)
example : bubbleSort keyComp exRec 0 4 = .ok [some (1, 2), some (2, 0), some (2, 1), none] := by decide
example : insertionSort keyComp exRec 0 4 = .ok [some (1, 2), some (2, 0), some (2, 1), none] := by decide
example : cocktailSort keyComp 9 exRec 0 4 = .ok [some (1, 2), some (2, 0), some (2, 1), none] := by decide
example : mergeSort keyComp 9 exRec 0 4 = .ok [some (1, 2), some (2, 0), some (2, 1), none] := by decide +kernel
example : brickSort keyLtComp 9 exRec 0 4 = .ok [some (1, 2), some (2, 0), some (2, 1), none] := by decide

/-- the same two records followed by smaller and larger ones -/
def exRec4 : List (Option (Nat × Nat)) := [some (2, 0), some (2, 1), some (1, 2), some (3, 3)]
/-- two records with the same key -/
def exRec2 : List (Option (Nat × Nat)) := [some (2, 0), some (2, 1)]

/-- the records with key 2 are mutually equivalent -/
theorem key2_ties : ∀ x y : Nat × Nat, decide (x.1 = 2) = true → decide (y.1 = 2) = true → keyLe x y := by
  intro x y h1 h2; simp only [keyLe, decide_eq_true_eq] at *; omega

theorem not_stable {a b : List (Option (Nat × Nat))}
    (h : (b.filterMap id).filter (fun x => decide (x.1 = 2)) ≠ (a.filterMap id).filter (fun x => decide (x.1 = 2))) :
    ¬ KeepsTies keyLe a b := fun hk => h (hk _ key2_ties)

/-- selection_sort is not stable with the default kind of comparator. -/
theorem C91_selection_unstable : ∃ b, selectionSort keyComp exRec 0 4 = .ok b ∧ ¬ KeepsTies keyLe exRec b :=
  ⟨[some (1, 2), some (2, 1), some (2, 0), none], by decide, not_stable (by decide)⟩

/-- quick_sort is not stable. -/
theorem C91_quick_unstable : ∃ b, EndsWith (fun fuel => quickSort keyComp fuel exRec 0 3) (.ok b) ∧
    ¬ KeepsTies keyLe exRec b :=
  ⟨[some (1, 2), some (2, 1), some (2, 0), none], ⟨9, fun n hn => by
    obtain ⟨m, rfl⟩ : ∃ m, n = m + 9 := ⟨n - 9, by omega⟩
    rfl⟩, not_stable (by decide)⟩

/-- shell_sort is not stable. -/
theorem C91_shell_unstable : ∃ b, EndsWith (fun fuel => shellSort keyComp fuel exRec4 0 4) (.ok b) ∧
    ¬ KeepsTies keyLe exRec4 b :=
  ⟨[some (1, 2), some (2, 1), some (2, 0), some (3, 3)], ⟨9, fun n hn => by
    obtain ⟨m, rfl⟩ : ∃ m, n = m + 9 := ⟨n - 9, by omega⟩
    rfl⟩, not_stable (by decide)⟩

/-- With a strict comparator bubble_sort, insertion_sort, cocktail_shaker_sort and merge_sort_parallel exchange equal
neighbours: they are not stable. -/
theorem C91_strict_unstable : (∃ b, bubbleSort keyLtComp exRec2 0 2 = .ok b ∧ ¬ KeepsTies keyLe exRec2 b) ∧
    (∃ b, insertionSort keyLtComp exRec2 0 2 = .ok b ∧ ¬ KeepsTies keyLe exRec2 b) ∧
    (∃ b, EndsWith (fun fuel => cocktailSort keyLtComp fuel exRec2 0 2) (.ok b) ∧ ¬ KeepsTies keyLe exRec2 b) ∧
    (∃ b, EndsWith (fun fuel => mergeSort keyLtComp fuel exRec2 0 2) (.ok b) ∧ ¬ KeepsTies keyLe exRec2 b) := by
  refine ⟨⟨[some (2, 1), some (2, 0)], by decide, not_stable (by decide)⟩,
    ⟨[some (2, 1), some (2, 0)], by decide, not_stable (by decide)⟩,
    ⟨[some (2, 1), some (2, 0)], ⟨9, fun n hn => ?_⟩, not_stable (by decide)⟩, ?_⟩
  · obtain ⟨m, rfl⟩ : ∃ m, n = m + 9 := ⟨n - 9, by omega⟩
    rfl
  · obtain ⟨b, e, -⟩ := C04_merge_sort keyLtComp keyLe keyLe_total (keyLt_strict.compat keyLe_total) exRec2 0 2
      (by decide) (by decide)
    have e9 : mergeSort keyLtComp 9 exRec2 0 2 = .ok [some (2, 1), some (2, 0)] := by decide +kernel
    refine ⟨[some (2, 1), some (2, 0)], ?_, not_stable (by decide)⟩
    exact FuelMono.endsWith (f := fun fuel => mergeSort keyLtComp fuel exRec2 0 2) (by
      have : FuelMono (fun fuel => mergeRounds keyLtComp fuel (Nat.log2 2 + 1) exRec2 0 2) :=
        FuelMono.forRange (body := fun fuel size a => mergeRound keyLtComp fuel a 0 2 (2 ^ size))
          (fun i s => .bind (.whileC _) (fun _ => .const _)) _ _ _
      exact this) e9

end Props
