import Verif.Props.DodaSort
import Verif.Props.CppSort
import Verif.Props.Llvm
/-!
# Exactly when the sorts of C93, C95 and C96 sort
-/
namespace Props
open Py Spec Model Model.Llvm
variable {α : Type}

/-- **C93**, exactly: on a dynamic array with a history, sorting the whole array leaves the live elements in order at positions 0, 1, … if there are any,
and raises `IndexError` if there are none. -/
theorem C93_exact (low : Nat → Nat → Bool) (le : α → α → Prop)
    (srt : Nat → List (Option α) → Nat → Nat → PyM (List (Option α))) (hs : SortsCells le srt)
    (d : Doda α) (h : DodaHistory low le d) (hsz : 0 < d.size) :
    (d.data.filterMap id ≠ [] ∧ ∃ d' l, EndsWith (fun fuel => d.sortWith low (srt fuel) 0 d.size) (.ok d') ∧ DodaHistory low le d' ∧
      d'.Dense l ∧ l.Perm (d.data.filterMap id) ∧ l.Pairwise le) ∨
    (d.data.filterMap id = [] ∧ EndsWith (fun fuel => d.sortWith low (srt fuel) 0 d.size) (.error .indexError)) := by
  by_cases hl : d.data.filterMap id = []
  · obtain ⟨b, ⟨n, hn⟩, hr, -⟩ := hs d.data 0 d.size hsz (Nat.le_refl _)
    exact .inr ⟨hl, n, fun m hm => C93_nothing_alive low d hl _ _ _ b (hn m hm) hr.1⟩
  · exact .inl ⟨hl, C93_sort_all_partial low le srt hs d h hl⟩

/-- **C96**, exactly: the C++ bubble sort of a whole array sorts if the array has a cell, and raises `SystemError` if it has none. -/
theorem C96_exact (comp : α → α → Bool) (le : α → α → Prop) (ho : TotalPreorder le) (hc : Compat comp le)
    (a : List (Option α)) (hl : a.length < 2 ^ 63) :
    (a ≠ [] ∧ ∃ b, Cpp.bubbleSort comp a none none = .ok b ∧ SortsTo (noneLast le) a b 0 a.length) ∨
    (a = [] ∧ Cpp.bubbleSort comp a none none = .error .systemError) := by
  by_cases h0 : a = []
  · subst h0; exact .inr ⟨rfl, C96_bubble_empty comp⟩
  · obtain ⟨b, e, h⟩ := C96_bubble_sort_partial comp le ho hc a h0 hl none none (fun _ h => nomatch h)
    have hp := List.length_pos_iff.2 h0
    refine .inl ⟨h0, b, e, ?_⟩
    have : (none : Option Nat).getD (a.length - 1) + 1 = a.length := by rw [Option.getD_none]; omega
    rwa [this] at h

/-- **C95**, exactly: after any calls in the same process, `selection_sort` with the LLVM back end on a range with a number in it sorts the range if one of
these calls compiled a function for the same element type, and raises `RuntimeError` otherwise. -/
theorem C95_exact (calls : List LlvmCall) (a : List (Option Int)) (start stop : Nat) (hs : start ≤ stop) (he : stop < a.length)
    (hlen : a.length < 2 ^ 31) (d : Option Dtype) (i : Nat) (x : Int) (h1 : start ≤ i) (h2 : i ≤ stop) (hx : a[i]? = some (some x))
    (hf : ∀ i x, start ≤ i → i ≤ stop → a[i]? = some (some x) → FitsIn (d.getD .int64) x) :
    (cacheAfter calls (d.getD .int64) ≠ none ∧
      ∃ b, EndsWith (fun fuel => (sortLlvm .selection fuel (cacheAfter calls) a (some start) (some stop) false d).1) (.ok b) ∧
        SortsTo (noneLast (· ≤ ·)) a b start (stop + 1)) ∨
    (cacheAfter calls (d.getD .int64) = none ∧
      EndsWith (fun fuel => (sortLlvm .selection fuel (cacheAfter calls) a (some start) (some stop) false d).1) (.error .runtimeError)) := by
  by_cases hc : cacheAfter calls (d.getD .int64) = none
  · exact .inr ⟨hc, 0, fun m _ => by dsimp only; rw [C95_raises (cacheAfter calls) a start stop hs he hlen d i x h1 h2 hx hc]⟩
  · exact .inl ⟨hc, C95_selection_sort_partial calls a (some start) (some stop) hs he hlen d hf hc⟩

/-! The hypotheses are met: a dynamic array in which something was deleted, one in which nothing was ever stored, an array of four cells, and a range of two numbers. -/

example := C93_exact quarter (fun x y : Int => x ≤ y) _
  (sortsCells_bubble ⟨Int.le_total, fun _ _ _ => Int.le_trans⟩ (comp := fun u v => decide (u ≤ v)) ⟨by simp, by simp; omega⟩) (Doda.ofSize 2) (.size 2) (by decide)

example := C96_exact (fun u v : Int => decide (u ≤ v)) (fun a b => a ≤ b) ⟨Int.le_total, fun _ _ _ => Int.le_trans⟩ ⟨by simp, by simp; omega⟩
  [some 3, none, some 1, some 2] (by decide)

example := C95_exact [] [some 2, some 1] 0 1 (by decide) (by decide) (by decide) none 0 2 (by decide) (by decide) rfl (by
  intro i x _ h hx
  have : x = 2 ∨ x = 1 := by
    rcases i with _ | _ | i
    · cases hx; exact .inl rfl
    · cases hx; exact .inr rfl
    · omega
  rcases this with rfl | rfl <;> decide)

end Props
