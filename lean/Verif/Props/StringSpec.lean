import Verif.Py

/-! # Specification of string search -/
namespace Spec
variable {α : Type} [DecidableEq α]

/-- The positions of `text`, in increasing order, at which `query` starts. -/
def occurrences (text query : List α) : List Int :=
  ((List.range text.length).filter fun i => query.isPrefixOf (text.drop i)).map fun (i : Nat) => (i : Int)

/-! Facts about the specification used by the proofs. -/

/-- Pointwise form. -/
def Occ (t q : List α) (i : Nat) : Prop := ∀ (j : Nat), j < q.length → t[i + j]? = q[j]?

theorem occ_iff (t q : List α) (i : Nat) : q.isPrefixOf (t.drop i) = true ↔ Occ t q i := by
  rw [List.isPrefixOf_iff_prefix, List.prefix_iff_getElem?]
  constructor
  · intro h j hj
    rw [← List.getElem?_drop, h j hj, List.getElem?_eq_getElem hj]
  · intro h j hj
    rw [List.getElem?_drop, h j hj, List.getElem?_eq_getElem hj]

/-- The occurrences that start before `s`. -/
def occBefore (t q : List α) (s : Nat) : List Int :=
  ((List.range s).filter fun i => q.isPrefixOf (t.drop i)).map fun (i : Nat) => (i : Int)

theorem occBefore_zero (t q : List α) : occBefore t q 0 = [] := rfl

theorem occBefore_succ_pos {t q : List α} {s : Nat} (h : Occ t q s) : occBefore t q (s + 1) = occBefore t q s ++ [(s : Int)] := by
  simp [occBefore, List.range_succ, (occ_iff t q s).2 h]

theorem occBefore_succ_neg {t q : List α} {s : Nat} (h : ¬ Occ t q s) : occBefore t q (s + 1) = occBefore t q s := by
  have : q.isPrefixOf (t.drop s) = false := by
    rw [← Bool.not_eq_true, occ_iff]; exact h
  simp [occBefore, List.range_succ, this]

theorem occBefore_skip {t q : List α} {s s' : Nat} (hs : s ≤ s') (h : ∀ (i : Nat), s ≤ i → i < s' → ¬ Occ t q i) :
    occBefore t q s' = occBefore t q s := by
  induction s' with
  | zero => have : s = 0 := by omega
            rw [this]
  | succ s' ih =>
    by_cases e : s = s' + 1
    · rw [e]
    · rw [occBefore_succ_neg (h s' (by omega) (by omega)), ih (by omega) fun i h1 h2 => h i h1 (by omega)]

omit [DecidableEq α] in
theorem Occ.bound {t q : List α} {i : Nat} (h : Occ t q i) (hq : 0 < q.length) : i + q.length ≤ t.length := by
  have := h (q.length - 1) (by omega)
  rw [List.getElem?_eq_getElem (by omega : q.length - 1 < q.length)] at this
  have := (List.getElem?_eq_some_iff.1 this).1
  omega

theorem occurrences_eq {t q : List α} (hq : 0 < q.length) {s : Nat} (hs : t.length < s + q.length) :
    occurrences t q = occBefore t q s := by
  have e : occurrences t q = occBefore t q t.length := rfl
  rw [e]
  by_cases h : s ≤ t.length
  · exact occBefore_skip h fun i h1 _ ho => by have := ho.bound hq; omega
  · exact (occBefore_skip (by omega) fun i h1 _ ho => by have := ho.bound hq; omega).symm

end Spec
