import Verif.Props.Kmp
import Verif.Props.RabinKarp
import Verif.Props.BoyerMoore
import Verif.Props.ZFunction

/-!
# C132: the algorithms of `find` agree

Characters are their code points; `sep` is the separator of the Z-function search (`'$'`, 36).
-/
namespace Props
open Py Model Spec

/-- KMP and Boyer-Moore return the same list for every text and query, the empty query included. -/
theorem C132_kmp_boyer_moore {α : Type} [DecidableEq α] (text query : List α) : kmpFind text query = bmFind text query := by
  by_cases h : query = []
  · subst h; rw [C50_empty_query, C52_empty_query]
  · rw [C50_kmp text query h, C52_boyer_moore text query h]

/-- For every text and query the four algorithms return, and what the Z-function search finds is found by KMP and Boyer-Moore, and what these find is
found by Rabin-Karp. -/
theorem C132_order (sep : Nat) (text query : List Nat) : ∃ z k b r, zFind sep text query = .ok z ∧ kmpFind text query = .ok k ∧ bmFind text query = .ok b ∧
    rkFind text query = .ok r ∧ (∀ p ∈ z, p ∈ k) ∧ k = b ∧ ∀ p ∈ b, p ∈ r := by
  by_cases h : query = []
  · subst h
    exact ⟨[], [], [], [], C53_empty_query sep text, C50_empty_query text, C52_empty_query text, C51_empty_query text, by simp, rfl, by simp⟩
  · obtain ⟨z, e1, h1⟩ := C53_sound sep text query h
    obtain ⟨r, e2, h2⟩ := C51_complete text query h
    exact ⟨z, _, _, r, e1, C50_kmp text query h, C52_boyer_moore text query h, e2, h1, rfl, h2⟩

/-- **C132**: the four agree if and only if no occurrence of the query is followed by the separator and no window of the text that differs from the query
has its hash modulo 1000000007. -/
theorem C132_exact (sep : Nat) (text query : List Nat) (hq : query ≠ []) :
    (zFind sep text query = kmpFind text query ∧ bmFind text query = kmpFind text query ∧ rkFind text query = kmpFind text query) ↔
      (∀ i, ¬ (query ++ [sep]) <+: text.drop i) ∧
      ∀ i, i + query.length ≤ text.length → polyHash ((text.drop i).take query.length) % 1000000007 = polyHash query % 1000000007 →
        (text.drop i).take query.length = query := by
  have hq' : 0 < query.length := List.length_pos_iff.2 hq
  rw [C53_exact sep text query hq, C50_kmp text query hq, C52_boyer_moore text query hq, C51_exact text query hq]
  have inj : ∀ (n m : Nat) (p q : Nat → Bool), ((Except.ok (((List.range n).filter p).map fun (i : Nat) => (i : Int)) : PyM (List Int)) =
      .ok (((List.range m).filter q).map fun (i : Nat) => (i : Int))) ↔ ∀ i, (i < n ∧ p i = true) ↔ (i < m ∧ q i = true) := by
    intro n m p q
    constructor
    · intro e i
      have e' := Except.ok.inj e
      have : ∀ i : Nat, (i : Int) ∈ ((List.range n).filter p).map (fun (i : Nat) => (i : Int)) ↔ (i < n ∧ p i = true) := by
        intro i
        rw [List.mem_map]
        constructor
        · rintro ⟨j, hj, e⟩
          obtain rfl : j = i := Int.ofNat.inj e
          simpa [List.mem_filter] using hj
        · intro hj
          exact ⟨i, by simpa [List.mem_filter] using hj, rfl⟩
      have h2 : ∀ i : Nat, (i : Int) ∈ ((List.range m).filter q).map (fun (i : Nat) => (i : Int)) ↔ (i < m ∧ q i = true) := by
        intro i
        rw [List.mem_map]
        constructor
        · rintro ⟨j, hj, e⟩
          obtain rfl : j = i := Int.ofNat.inj e
          simpa [List.mem_filter] using hj
        · intro hj
          exact ⟨i, by simpa [List.mem_filter] using hj, rfl⟩
      rw [← this, e', h2]
    · intro h
      congr 2
      have hs : ∀ (n : Nat) (p : Nat → Bool), ((List.range n).filter p).Pairwise (· < ·) := fun n p => List.pairwise_lt_range.filter p
      refine List.Perm.eq_of_pairwise (le := (· < ·)) (fun a b _ _ h1 h2 => absurd h1 (by omega)) (hs n p) (hs m q) ?_
      have nd : ∀ (n : Nat) (p : Nat → Bool), ((List.range n).filter p).Nodup := fun n p => (hs n p).imp (by intro a b; omega)
      rw [List.perm_ext_iff_of_nodup (nd n p) (nd m q)]
      intro i
      simpa [List.mem_filter] using h i
  simp only [occurrences, inj]
  constructor
  · rintro ⟨h1, -, h2⟩
    refine ⟨?_, ?_⟩
    · intro i hi
      have hp : query <+: text.drop i := (List.prefix_append query [sep]).trans hi
      have hl := hp.length_le
      rw [List.length_drop] at hl
      have := ((h1 i).mpr ⟨by omega, List.isPrefixOf_iff_prefix.mpr hp⟩).2
      rw [List.isPrefixOf_iff_prefix.mpr hi] at this
      simp at this
    · intro i hi hh
      have := ((h2 i).mp ⟨by omega, by simpa using hh⟩).2
      rw [List.isPrefixOf_iff_prefix, List.prefix_iff_eq_take] at this
      exact this.symm
  · rintro ⟨h1, h2⟩
    refine ⟨?_, trivial, ?_⟩
    · intro i
      have : (query ++ [sep]).isPrefixOf (text.drop i) = false := by
        rw [← Bool.not_eq_true, List.isPrefixOf_iff_prefix]; exact h1 i
      simp [this]
    · intro i
      constructor
      · rintro ⟨a, b⟩
        refine ⟨by omega, ?_⟩
        rw [List.isPrefixOf_iff_prefix, List.prefix_iff_eq_take]
        exact (h2 i (by omega) (by simpa using b)).symm
      · rintro ⟨a, b⟩
        rw [List.isPrefixOf_iff_prefix] at b
        have hl := b.length_le
        rw [List.length_drop] at hl
        rw [List.prefix_iff_eq_take] at b
        exact ⟨by omega, by rw [← b]; simp⟩

/-- The statement for all inputs is false: the Z-function search of `a` in `a$a`. -/
def C132_full : Prop := ∀ text query : List Nat, zFind 36 text query = kmpFind text query ∧ rkFind text query = kmpFind text query

theorem C132_full_false : ¬ C132_full := by
  intro h
  have := (h [97, 36, 97] [97]).1
  revert this
  decide +kernel

/-- `aba` in `ababa`: the conditions of `C132_exact` hold. -/
example : (∀ i, ¬ ([97, 98, 97] ++ [36]) <+: [97, 98, 97, 98, 97].drop i) := by
  intro i
  intro h
  have h1 : 36 ∈ [97, 98, 97, 98, 97] := List.mem_of_mem_drop (h.subset (by simp))
  revert h1
  decide
example : zFind 36 [97, 98, 97, 98, 97] [97, 98, 97] = .ok [0, 2] ∧ rkFind [97, 98, 97, 98, 97] [97, 98, 97] = .ok [0, 2] := by decide +kernel
end Props
