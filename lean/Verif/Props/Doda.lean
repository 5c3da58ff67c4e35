import Verif.Spec
import Verif.Model.Array
import Verif.Lemmas.Doda

/-!
# C27: DynamicOneDimensionalArray
-/
namespace Props
open Py Model Spec
variable {α : Type}

/-- The dynamic arrays a user can hold: built from a size or from a list, then changed by `append` and `delete`. -/
inductive DodaReachable (low : Nat → Nat → Bool) : Doda α → Prop
  | size (n : Nat) : DodaReachable low (Doda.ofSize n)
  | list (l : List α) : DodaReachable low (Doda.ofList l)
  | append {d d' : Doda α} (x : α) : DodaReachable low d → d.append low x = .ok d' → DodaReachable low d'
  | delete {d d' : Doda α} (i : Int) : DodaReachable low d → d.delete low i = .ok d' → DodaReachable low d'

theorem DodaReachable.inv {low : Nat → Nat → Bool} {d : Doda α} (h : DodaReachable low d) : d.Inv := by
  induction h with
  | size n => exact (Doda.ofSize_dense n).inv.1
  | list l => exact (Doda.ofList_dense l).inv.1
  | append x _ e ih =>
    obtain ⟨d', e', h1, -⟩ := Doda.append_spec low ih x
    rw [e] at e'; cases e'; exact h1
  | @delete d d1 i _ e ih =>
    by_cases hd : ∃ x, 0 ≤ i ∧ d.data[i.toNat]? = some (some x)
    · obtain ⟨x, h0, hx⟩ := hd
      obtain ⟨d', e', h1, -⟩ := Doda.delete_live low ih i.toNat x hx
      rw [show ((i.toNat : Nat) : Int) = i by omega] at e'
      rw [e] at e'; cases e'; exact h1
    · have := Doda.delete_dead low ih i (by intro x hx; exact hd ⟨x, hx⟩)
      rw [e] at this; cases this; exact ih

/-- What the bookkeeping invariant means for the caller. -/
theorem doda_facts (low : Nat → Nat → Bool) (d : Doda α) (hinv : d.Inv) :
    d.num = (d.data.filterMap id).length ∧
    (∀ i x, d.data[i]? = some (some x) → i < d.cnt) ∧
    (∀ x, ∃ d', d.append low x = .ok d' ∧ d'.data.filterMap id = d.data.filterMap id ++ [x]) ∧
    (∀ i : Int, (∀ x, d.get i ≠ .ok (some x)) → d.delete low i = .ok d) ∧
    (∀ (i : Int) x, d.get i = .ok (some x) → ∃ d', d.delete low i = .ok d' ∧
      d.data.filterMap id = (d.data.take i.toNat).filterMap id ++ x :: (d.data.drop (i.toNat + 1)).filterMap id ∧
      d'.data.filterMap id = (d.data.take i.toNat).filterMap id ++ (d.data.drop (i.toNat + 1)).filterMap id) := by
  refine ⟨hinv.num, ?_, ?_, ?_, ?_⟩
  · intro i x hx
    apply Classical.byContradiction
    intro hge
    have := hinv.tail i (by omega) (List.getElem?_eq_some_iff.1 hx).1
    rw [hx] at this; cases this
  · intro x
    obtain ⟨d', e, -, h2⟩ := Doda.append_spec low hinv x
    exact ⟨d', e, h2⟩
  · intro i hd
    apply Doda.delete_dead low hinv
    rintro x ⟨h0, hx⟩
    apply hd x
    have := (List.getElem?_eq_some_iff.1 hx).1
    rw [Doda.get, if_neg (by simp only [Doda.size]; omega)]
    exact rd_of_some hx
  · intro i x hx
    have h0 : 0 ≤ i := by
      apply Classical.byContradiction
      intro hneg
      rw [Doda.get, if_pos (by omega)] at hx; cases hx
    have hx' : d.data[i.toNat]? = some (some x) := by
      rw [Doda.get] at hx
      split at hx
      · cases hx
      · exact rd_eq_ok.1 hx
    obtain ⟨d', e, -, h2, h3⟩ := Doda.delete_live low hinv i.toNat x hx'
    rw [show ((i.toNat : Nat) : Int) = i by omega] at e
    exact ⟨d', e, h2, h3⟩

/-- C27. For every history and every load factor (`low` is the test `_num/_size < _load_factor`, any predicate):
* the counter is the number of live (non-`None`) cells, and no cell after the last filled position is live;
* `append x` does not raise and puts `x` after the live elements, whose order is kept;
* `delete i` does not raise; it does nothing when cell `i` is not live, and otherwise removes just that element;
whether or not the array is grown or contracted on the way. -/
theorem C27_dynamic_array (low : Nat → Nat → Bool) (d : Doda α) (h : DodaReachable low d) :
    d.num = (d.data.filterMap id).length ∧
    (∀ i x, d.data[i]? = some (some x) → i < d.cnt) ∧
    (∀ x, ∃ d', d.append low x = .ok d' ∧ d'.data.filterMap id = d.data.filterMap id ++ [x]) ∧
    (∀ i : Int, (∀ x, d.get i ≠ .ok (some x)) → d.delete low i = .ok d) ∧
    (∀ (i : Int) x, d.get i = .ok (some x) → ∃ d', d.delete low i = .ok d' ∧
      d.data.filterMap id = (d.data.take i.toNat).filterMap id ++ x :: (d.data.drop (i.toNat + 1)).filterMap id ∧
      d'.data.filterMap id = (d.data.take i.toNat).filterMap id ++ (d.data.drop (i.toNat + 1)).filterMap id) :=
  doda_facts low d h.inv

/-- C27, random access: while only the last element is ever deleted, index `i` holds the `i`-th element of the sequence,
across every growth and contraction. -/
theorem C27_indexing (low : Nat → Nat → Bool) :
    (∀ n, (Doda.ofSize n : Doda α).Dense []) ∧
    (∀ (d : Doda α) l x, d.Dense l → ∃ d', d.append low x = .ok d' ∧ d'.Dense (l ++ [x])) ∧
    (∀ (d : Doda α) l x, d.Dense (l ++ [x]) → ∃ d', d.delete low ((d.cnt : Int) - 1) = .ok d' ∧ d'.Dense l) ∧
    (∀ (d : Doda α) l, d.Dense l → ∀ i x, l[i]? = some x → d.get (i : Nat) = .ok (some x)) := by
  refine ⟨Doda.ofSize_dense, fun d l x h => Doda.append_dense low h x, ?_, ?_⟩
  · intro d l x h
    have := h.cnt
    simp only [List.length_append, List.length_singleton] at this
    rw [show (d.cnt : Int) - 1 = (l.length : Nat) by omega]
    exact Doda.delete_last_dense low h
  · intro d l h i x hx
    obtain ⟨hi, rfl⟩ := List.getElem?_eq_some_iff.1 hx
    exact h.get hi

/-- The last filled position is only an upper bound: after `append` 1..5 and `delete` of positions 3 and 4 it is 3, a dead
cell (`cnt = 4`), so the next `append` leaves a hole at 3. -/
theorem C27_last_position_not_exact :
    (do
      let d ← (Doda.ofSize 0 : Doda Nat).append quarter 1
      let d ← d.append quarter 2
      let d ← d.append quarter 3
      let d ← d.append quarter 4
      let d ← d.append quarter 5
      let d ← d.delete quarter 3
      let d ← d.delete quarter 4
      d.append quarter 6) =
    (.ok ⟨[some 1, some 2, some 3, none, some 6, none, none], 4, 5⟩ : PyM (Doda Nat)) := by decide

/-- A history with a growth and a contraction meets the hypotheses. -/
example : ∃ d : Doda Nat, DodaReachable quarter d ∧ d = ⟨[none, some 6, none], 1, 2⟩ :=
  ⟨_, .delete 0 (.append 6 (.append 5 (.size 5) rfl) rfl) rfl, rfl⟩

end Props
