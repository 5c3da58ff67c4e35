import Verif.Spec
import Verif.Model.Dp
import Verif.Lemmas.Perm

/-!
# C23, C24: next_permutation and prev_permutation

`List.Lex lt` is the lexicographic order of the Lean core library.
-/
namespace Props
open Py Model Spec
variable {α : Type}

/-- C23. For a comparator that decides a strict total order, `next_permutation` returns `(True, q)` with `q` the
lexicographically least permutation of the range greater than the range, or `(False, q)` with `q` the sorted range when the
range is the greatest of its permutations. -/
theorem C23_next_permutation {lt : α → α → Prop} (h : StrictTotal lt) (comp : α → α → Bool)
    (hcomp : ∀ x y, comp x y = true ↔ lt x y) (a : List α) (start stop : Nat) (p : List α)
    (hp : p = (a.drop start).take (stop - start)) :
    EndsIn (fun fuel => nextPermutation comp fuel a start stop) fun (b, q) => q.Perm p ∧
      (b = true → List.Lex lt p q ∧ ∀ r : List α, r.Perm p → List.Lex lt p r → q = r ∨ List.Lex lt q r) ∧
      (b = false → (∀ r : List α, r.Perm p → ¬ List.Lex lt p r) ∧ q.Pairwise (fun x y => ¬ lt y x)) := by
  refine ⟨p.length + 1, fun fuel hf => ?_⟩
  obtain ⟨b, q, e, h1, h2, h3⟩ := Perm.util_spec h (fun x y => !(comp x y)) p
    (List.pairwise_of_forall (fun x y => by rw [← hcomp]; simp)) fuel (by omega)
  subst hp
  exact ⟨(b, q), e, h1, h2, h3⟩

/-- The same for the predecessor, when the elements of the range are distinct. -/
theorem C24_prev_permutation_partial {lt : α → α → Prop} (h : StrictTotal lt) (comp : α → α → Bool)
    (hcomp : ∀ x y, comp x y = true ↔ lt x y) (a : List α) (start stop : Nat) (p : List α)
    (hp : p = (a.drop start).take (stop - start)) (hd : p.Nodup) :
    EndsIn (fun fuel => prevPermutation comp fuel a start stop) fun (b, q) => q.Perm p ∧
      (b = true → List.Lex (fun x y => lt y x) p q ∧
        ∀ r : List α, r.Perm p → List.Lex (fun x y => lt y x) p r → q = r ∨ List.Lex (fun x y => lt y x) q r) ∧
      (b = false → (∀ r : List α, r.Perm p → ¬ List.Lex (fun x y => lt y x) p r) ∧ q.Pairwise (fun x y => ¬ lt x y)) := by
  refine ⟨p.length + 1, fun fuel hf => ?_⟩
  obtain ⟨b, q, e, h1, h2, h3⟩ := Perm.util_spec h.flip comp p
    (List.Pairwise.imp (fun {x y} (hne : x ≠ y) => by
      rw [hcomp]
      have h1 := h.tri x y
      have h2 := h.trans x y x
      have h3 := h.irrefl x
      constructor
      · intro h4 h5; exact h3 (h2 h4 h5)
      · intro h4; grind) hd) fuel (by omega)
  subst hp
  exact ⟨(b, q), e, h1, h2, h3⟩

/-- `List.Lex` of the reversed order is the reverse of `List.Lex` on lists of the same length, so the statement above speaks
of lexicographic predecessors. -/
theorem C24_lex_flip {lt : α → α → Prop} : ∀ (p q : List α), p.length = q.length →
    (List.Lex (fun x y => lt y x) p q ↔ List.Lex lt q p) := by
  intro p
  induction p with
  | nil => intro q h; cases q <;> simp at h; constructor <;> intro h <;> cases h
  | cons x p ih =>
    intro q h
    cases q with
    | nil => simp at h
    | cons y q =>
      have := ih q (by simpa using h)
      constructor
      · intro h
        cases h with
        | rel h => exact .rel h
        | cons h => exact .cons (this.1 h)
      · intro h
        cases h with
        | rel h => exact .rel h
        | cons h => exact .cons (this.2 h)

/-- The full statement of C24, for the default comparator on integers. -/
def C24_full : Prop := ∀ (a : List Int) (start stop : Nat), stop ≤ a.length →
    EndsIn (fun fuel => prevPermutation (fun x y => decide (x < y)) fuel a start stop) fun (b, q) =>
      q.Perm ((a.drop start).take (stop - start)) ∧
      (b = true → List.Lex (fun x y => x < y) q ((a.drop start).take (stop - start)) ∧
        ∀ r : List Int, r.Perm ((a.drop start).take (stop - start)) →
          List.Lex (fun x y => x < y) r ((a.drop start).take (stop - start)) → r = q ∨ List.Lex (fun x y => x < y) r q) ∧
      (b = false → (∀ r : List Int, r.Perm ((a.drop start).take (stop - start)) →
          ¬ List.Lex (fun x y => x < y) r ((a.drop start).take (stop - start))))

/-- C24 is false of the code: `prev_permutation([1, 1])` answers `(True, [1, 1])`. -/
theorem C24_full_false : ¬ C24_full := by
  intro h
  obtain ⟨n, e⟩ := h [1, 1] 0 2 (by decide)
  obtain ⟨⟨b, q⟩, e1, -, h2, -⟩ := e (n + 10) (by omega)
  have e2 : prevPermutation (fun x y : Int => decide (x < y)) (n + 10) [1, 1] 0 2 = .ok (true, [1, 1]) := rfl
  have e1 := e2.symm.trans e1
  cases e1
  have := (h2 rfl).1
  simp at this

/-- Another wrong answer: `prev_permutation([1, 1, 2])`, the least permutation, answers `(True, [1, 2, 1])`, a successor. -/
theorem C24_duplicates_wrong (n : Nat) :
    prevPermutation (fun x y : Int => decide (x < y)) (n + 10) [1, 1, 2] 0 3 = .ok (true, [1, 2, 1]) := rfl

theorem int_strictTotal : StrictTotal (fun x y : Int => x < y) := ⟨by intro a; omega, by intro a b c; omega, by intro a b; omega⟩

/-- The hypotheses are met by the default comparator; the runs are non-trivial. -/
example := C23_next_permutation int_strictTotal (fun x y => decide (x < y)) (by simp) [1, 3, 2, 2] 0 4 _ rfl
example : nextPermutation (fun x y : Int => decide (x < y)) 10 [1, 3, 2, 2] 0 4 = .ok (true, [2, 1, 2, 3]) := by decide
example : nextPermutation (fun x y : Int => decide (x < y)) 10 [3, 2, 2] 0 3 = .ok (false, [2, 2, 3]) := by decide
example := C24_prev_permutation_partial int_strictTotal (fun x y => decide (x < y)) (by simp) [2, 1, 3, 4] 0 4 _ rfl (by decide)
example : prevPermutation (fun x y : Int => decide (x < y)) 10 [2, 1, 3, 4] 0 4 = .ok (true, [1, 4, 3, 2]) := by decide

end Props
