import Mathlib.Data.List.Sort
import Verif.Props.Lcs
import Verif.Props.Lis
import Verif.Props.OrderedAgree

/-! # C151: subsequences and sorting agree -/
namespace Props
open Py Model Spec

theorem int_total : TotalPreorder (fun x y : Int => x ≤ y) := ⟨fun x y => by omega, fun x y z => by omega⟩

/-- There is one sorted copy of a list of ints, and every comparison sort finds it. -/
theorem sorted_copy (comp : Int → Int → Bool) (hc : Compat comp fun x y : Int => x ≤ y) (l : List Int) (hne : l ≠ []) :
    ∃ s : List Int, s.Perm l ∧ s.Pairwise (· ≤ ·) ∧ AllSort comp (l.map some) (s.map some) := by
  let s := l.mergeSort (fun x y => decide (x ≤ y))
  have hp : s.Perm l := List.mergeSort_perm _ _
  have hs : s.Pairwise (· ≤ ·) := by
    have := List.pairwise_mergeSort (le := fun x y : Int => decide (x ≤ y)) (by intro a b c; simp; omega) (by intro a b; simp; omega) l
    exact this.imp fun h => by simpa using h
  refine ⟨s, hp, hs, ?_⟩
  have hlen : 0 < (l.map some).length := by simpa [List.length_pos_iff] using hne
  obtain ⟨b, hb, c1, c2, c3, c4, c5, c6, c7, c8, c9⟩ := C127_comparison_sorts comp (fun x y : Int => x ≤ y) int_total hc (fun x y => Int.le_antisymm) (l.map some) 0
    ((l.map some).length - 1) (by omega) (by omega)
  have e1 : (l.map some).length - 1 + 1 = (l.map some).length := by omega
  rw [e1] at hb c1 c2 c3 c4 c6 c7 c8 c9
  have hsort : SortsTo (noneLast fun x y : Int => x ≤ y) (l.map some) (s.map some) 0 (l.map some).length := by
    refine ⟨⟨hp.map some, fun i hi => ?_⟩, ?_⟩
    · have hl := hp.length_eq
      rw [List.getElem?_eq_none (by simp at hi ⊢; omega), List.getElem?_eq_none (by simp at hi ⊢; omega)]
    · intro i j x y _ hij _ hx hy
      rw [List.getElem?_map] at hx hy
      obtain ⟨x', hx', rfl⟩ := Option.map_eq_some_iff.1 hx
      obtain ⟨y', hy', rfl⟩ := Option.map_eq_some_iff.1 hy
      have hw := hs
      rw [List.pairwise_iff_getElem] at hw
      obtain ⟨g1, rfl⟩ := List.getElem?_eq_some_iff.1 hx'
      obtain ⟨g2, rfl⟩ := List.getElem?_eq_some_iff.1 hy'
      exact hw i j g1 g2 hij
  have hbs := sortsTo_unique (fun x y => Int.le_antisymm) hb hsort
  subst hbs
  exact ⟨c1, c2, c3, c4, c5, c6, c7, c8, c9⟩

/-- A non-decreasing list of elements of `l` is a subsequence of the sorted copy of `l`. -/
theorem sublist_sorted {m l s : List Int} (hp : s.Perm l) (hs : s.Pairwise (· ≤ ·)) (hm : m.Sublist l) (hw : m.Pairwise (· ≤ ·)) : m.Sublist s :=
  List.sublist_of_subperm_of_pairwise (hm.subperm.trans hp.symm.subperm) hw hs

/-- **C151**: let `s` be the array that each of the nine comparison sorts makes of `l`. `longest_common_subsequence` of `l` and `s` is a longest
non-decreasing subsequence of `l`. -/
theorem C151_lcs_with_sorted (comp : Int → Int → Bool) (hc : Compat comp fun x y : Int => x ≤ y) (l : List Int) (hne : l ≠ []) :
    ∃ s r : List Int, AllSort comp (l.map some) (s.map some) ∧ lcs l s = .ok r ∧ r.Sublist l ∧ r.Pairwise (· ≤ ·) ∧
      ∀ m : List Int, m.Sublist l → m.Pairwise (· ≤ ·) → m.length ≤ r.length := by
  obtain ⟨s, hp, hs, ha⟩ := sorted_copy comp hc l hne
  obtain ⟨r, e, h1, h2, h3⟩ := C21_longest_common_subsequence l s
  exact ⟨s, r, ha, e, h1, hs.sublist h2, fun m hm hw => h3 m hm (sublist_sorted hp hs hm hw)⟩

/-- **C151**: if the elements of `l` are different, `longest_increasing_subsequence` of `l` and `longest_common_subsequence` of `l` and its sorted copy
have the same length. -/
theorem C151_lis_is_lcs (comp : Int → Int → Bool) (hc : Compat comp fun x y : Int => x ≤ y) (l : List Int) (hne : l ≠ []) (hn : l.Nodup) :
    ∃ s r : List Int, AllSort comp (l.map some) (s.map some) ∧ lcs l s = .ok r ∧ EndsIn (fun fuel => lis fuel l) fun r' => r'.length = r.length := by
  obtain ⟨s, r, ha, e, h1, h2, h3⟩ := C151_lcs_with_sorted comp hc l hne
  refine ⟨s, r, ha, e, ?_⟩
  obtain ⟨n, h⟩ := C22_longest_increasing_subsequence l hne
  refine ⟨n, fun k hk => ?_⟩
  obtain ⟨r', e', g1, g2, g3⟩ := h k hk
  refine ⟨r', e', Nat.le_antisymm (h3 r' g1 (g2.imp fun h => Int.le_of_lt h)) (g3 r h1 ?_)⟩
  have hd : r.Nodup := hn.sublist h1
  exact (h2.and hd).imp fun h => by omega

/-- **C151**: the order of the two arguments of `longest_common_subsequence` does not change the length. -/
theorem C151_lcs_symmetric {α : Type} [DecidableEq α] (s t : List α) :
    ∃ r r', lcs s t = .ok r ∧ lcs t s = .ok r' ∧ r.length = r'.length := by
  obtain ⟨r, e, h1, h2, h3⟩ := C21_longest_common_subsequence s t
  obtain ⟨r', e', g1, g2, g3⟩ := C21_longest_common_subsequence t s
  exact ⟨r, r', e, e', Nat.le_antisymm (g3 r h2 h1) (h3 r' g2 g1)⟩

/-! ## Non-vacuity -/

example := C151_lis_is_lcs (fun a b => decide (a ≤ b)) ⟨by intro a b h; simpa using h, by intro a b h; simp at h; omega⟩ [3, 1, 2, 5, 4] (by decide) (by decide)
example : lcs [3, 1, 2, 5, 4] [1, 2, 3, 4, 5] = .ok [1, 2, 4] ∧ lis 20 [3, 1, 2, 5, 4] = .ok [1, 2, 4] ∧ lcs [2, 2, 1, 2] [1, 2, 2, 2] = .ok [2, 2, 2] := by decide

end Props
