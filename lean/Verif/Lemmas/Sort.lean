import Verif.Spec
import Verif.Lemmas.Py

namespace Spec
variable {α : Type _}

theorem Rearranged.refl (a : List α) (lo hi : Nat) : Rearranged a a lo hi := ⟨.refl _, fun _ _ => rfl⟩

theorem Rearranged.trans {a b c : List α} {lo hi : Nat} (h1 : Rearranged a b lo hi) (h2 : Rearranged b c lo hi) :
    Rearranged a c lo hi :=
  ⟨h2.1.trans h1.1, fun i hi => (h2.2 i hi).trans (h1.2 i hi)⟩

theorem Rearranged.length_eq {a b : List α} {lo hi : Nat} (h : Rearranged a b lo hi) : b.length = a.length :=
  h.1.length_eq

theorem Rearranged.mono {a b : List α} {lo hi lo' hi' : Nat} (h : Rearranged a b lo hi) (h1 : lo' ≤ lo)
    (h2 : hi ≤ hi') : Rearranged a b lo' hi' :=
  ⟨h.1, fun i hi => h.2 i (by omega)⟩

theorem rearranged_swap {a : List α} {lo hi i j : Nat} (hi1 : lo ≤ i) (hi2 : i < hi) (hj1 : lo ≤ j) (hj2 : j < hi)
    (hi' : i < a.length) (hj' : j < a.length) :
    Rearranged a ((a.set i a[j]).set j a[i]) lo hi := by
  refine ⟨List.set_set_perm hi' hj', fun k hk => ?_⟩
  rw [List.getElem?_set_ne (by omega), List.getElem?_set_ne (by omega)]

/-- The cells of the range are rearranged among themselves. -/
theorem Rearranged.slice {a b : List α} {lo hi : Nat} (h : Rearranged a b lo hi)
    (hl : lo ≤ hi) : ((b.drop lo).take (hi - lo)).Perm ((a.drop lo).take (hi - lo)) := by
  have hlen := h.length_eq
  have e1 : b.take lo = a.take lo := by
    apply List.ext_getElem?
    intro i
    simp only [List.getElem?_take]
    split
    · exact h.2 i (by omega)
    · rfl
  have e2 : b.drop hi = a.drop hi := by
    apply List.ext_getElem?
    intro i
    simp only [List.getElem?_drop]
    exact h.2 _ (by omega)
  have sp : ∀ l : List α, l.take lo ++ ((l.drop lo).take (hi - lo) ++ l.drop hi) = l := by
    intro l
    have : l.drop hi = (l.drop lo).drop (hi - lo) := by rw [List.drop_drop]; congr 1; omega
    rw [this, List.take_append_drop, List.take_append_drop]
  have hp := h.1
  rw [← sp a, ← sp b, e1, e2] at hp
  exact (List.perm_append_right_iff _).1 ((List.perm_append_left_iff _).1 hp)

theorem Rearranged.mem {a b : List α} {lo hi : Nat} (h : Rearranged a b lo hi)
    {i : Nat} {x : α} (h1 : lo ≤ i) (h2 : i < hi) (hx : b[i]? = some x) :
    ∃ j, lo ≤ j ∧ j < hi ∧ a[j]? = some x := by
  have hp := h.slice (by omega)
  have hm : x ∈ (b.drop lo).take (hi - lo) := by
    rw [List.mem_iff_getElem?]
    refine ⟨i - lo, ?_⟩
    rw [List.getElem?_take_of_lt (by omega), List.getElem?_drop, ← hx]
    congr 1; omega
  have hm' := hp.mem_iff.1 hm
  rw [List.mem_iff_getElem?] at hm'
  obtain ⟨k, hk⟩ := hm'
  by_cases hlt : k < hi - lo
  · rw [List.getElem?_take_of_lt hlt, List.getElem?_drop] at hk
    exact ⟨lo + k, by omega, by omega, hk⟩
  · rw [List.getElem?_take_eq_none (by omega)] at hk; cases hk

theorem TotalPreorder.refl {le : α → α → Prop} (h : TotalPreorder le) (a : α) : le a a :=
  (h.total a a).elim id id

theorem TotalPreorder.noneLast {le : α → α → Prop} (h : TotalPreorder le) : TotalPreorder (noneLast le) where
  total a b := by
    cases a <;> cases b <;> simp [Spec.noneLast, h.total]
  trans a b c := by
    cases a <;> cases b <;> cases c <;> simp [Spec.noneLast]
    exact h.trans _ _ _

end Spec
