import Verif.Props.Radix
import Verif.Lemmas.SortForm

/-!
# C14, exactly: which ranges `radix_sort` sorts
-/
namespace Props
open Py Model Spec

/-- **C14**: `radix_sort` sorts a non-empty range of naturals and `None`s if and only if the range starts with a number and either holds a positive
number or has no number after a `None`. -/
theorem C14_exact (a : List (Option Nat)) (start stop : Nat) (hss : start < stop) (hs : stop ≤ a.length) :
    EndsIn (fun fuel => radixSort fuel a start stop) (fun b => SortsTo (noneLast (fun x y : Nat => x ≤ y)) a b start stop) ↔
      (∃ x, a[start]? = some (some x)) ∧
      ((∃ i x, start ≤ i ∧ i < stop ∧ a[i]? = some (some x) ∧ 0 < x) ∨
        ∀ i j x, start ≤ i → i < j → j < stop → a[i]? = some none → a[j]? ≠ some (some x)) := by
  have hlen : start < a.length := by omega
  cases h0 : a[start]? with
  | none => rw [List.getElem?_eq_none_iff] at h0; omega
  | some o =>
    cases o with
    | none =>
      constructor
      · rintro ⟨n, hn⟩
        obtain ⟨b, e, -⟩ := hn n (Nat.le_refl _)
        dsimp only at e
        rw [C14_leading_none a start stop n h0] at e
        cases e
      · rintro ⟨⟨x, hx⟩, -⟩
        cases hx
    | some x0 =>
      by_cases hp : ∃ i x, start ≤ i ∧ i < stop ∧ a[i]? = some (some x) ∧ 0 < x
      · exact ⟨fun _ => ⟨⟨x0, rfl⟩, .inl hp⟩, fun _ => C14_radix_sort_partial a start stop hss hs x0 h0 (.inl hp)⟩
      · have hz : ∀ i x, start ≤ i → i < stop → a[i]? = some (some x) → x = 0 := by
          intro i x h1 h2 h3
          rcases Nat.eq_zero_or_pos x with h | h
          · exact h
          · exact absurd ⟨i, x, h1, h2, h3, h⟩ hp
        have hx0 : x0 = 0 := hz start x0 (Nat.le_refl _) hss h0
        subst hx0
        have hrun := C14_only_zeros a start stop hss hs h0 hz
        constructor
        · rintro ⟨n, hn⟩
          obtain ⟨n', hn'⟩ := hrun
          obtain ⟨b, e, hb⟩ := hn (n + n') (by omega)
          have e' := hn' (n + n') (by omega)
          dsimp only at e e'
          rw [e'] at e
          cases e
          refine ⟨⟨0, rfl⟩, .inr ?_⟩
          intro i j x h1 h2 h3 h4 h5
          have := hb.2 i j none (some x) h1 h2 h3 h4 h5
          cases this
        · rintro ⟨-, h | h⟩
          · exact absurd h hp
          · obtain ⟨n', hn'⟩ := hrun
            refine ⟨n', fun n hn => ⟨a, hn' n hn, ⟨List.Perm.refl _, fun i _ => rfl⟩, ?_⟩⟩
            · intro i j x y h1 h2 h3 h4 h5
              cases x with
              | none =>
                cases y with
                | none => trivial
                | some y => exact absurd h5 (h i j y h1 h2 h3 h4)
              | some x =>
                cases y with
                | none => trivial
                | some y =>
                  have e1 := hz i x h1 (by omega) h4
                  have e2 := hz j y (by omega) h3 h5
                  subst e1 e2
                  exact Nat.le_refl 0

/-- A zero, then a `None`: sorted already, and left so although there is no positive number. -/
example : ∃ a : List (Option Nat), a = [some 0, some 0, none] ∧
    EndsIn (fun fuel => radixSort fuel a 0 3) (fun b => SortsTo (noneLast (fun x y : Nat => x ≤ y)) a b 0 3) :=
  ⟨_, rfl, (C14_exact _ 0 3 (by decide) (by decide)).mpr ⟨⟨0, rfl⟩, .inr (by
    intro i j x _ h2 h3 h4 h5
    obtain ⟨rfl⟩ : j = 2 := by
      rcases i with _ | _ | _ | i <;> simp at h4
      omega
    cases h5)⟩⟩

/-- A zero after a `None` and no positive number: not sorted. -/
example : ¬ EndsIn (fun fuel => radixSort fuel [some 0, none, some 0] 0 3)
    (fun b => SortsTo (noneLast (fun x y : Nat => x ≤ y)) [some 0, none, some 0] b 0 3) := by
  rw [C14_exact _ 0 3 (by decide) (by decide)]
  rintro ⟨-, ⟨i, x, -, h2, h3, h4⟩ | h⟩
  · rcases i with _ | _ | _ | i <;> simp at h3 <;> omega
  · exact h 1 2 0 (by decide) (by decide) (by decide) rfl rfl
end Props
