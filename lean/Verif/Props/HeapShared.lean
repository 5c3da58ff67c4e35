import Verif.Model.HeapShared
import Verif.Props.Heap

/-!
# C158: two heaps made from the same nodes
-/
namespace Props
open Py Model Spec
variable {α : Type}

/-- The property: the first heap still hands out a least element first. -/
def C158_full : Prop := ∀ (comp1 comp2 : Nat → Nat → Bool) (le1 : Nat → Nat → Prop), TotalPreorder le1 → Compat comp1 le1 → ∀ elements : List Nat, elements ≠ [] →
  ∃ s x, heapTwice comp1 comp2 2 2 elements = .ok s ∧ (heapExtract comp1 2 s.1).map Prod.fst = .ok x ∧ ∀ y ∈ elements, le1 x y

/-- Both heaps are built; the second holds the given elements, and the first sees its cells. -/
theorem heapTwice_spec {comp1 comp2 : α → α → Bool} {le1 le2 : α → α → Prop} (h1 : TotalPreorder le1) (h2 : TotalPreorder le2) (c1 : Compat comp1 le1)
    (c2 : Compat comp2 le2) {d1 d2 : Nat} (p1 : 0 < d1) (p2 : 0 < d2) (elements : List α) : ∃ s l, heapTwice comp1 comp2 d1 d2 elements = .ok s ∧
      l.Perm elements ∧ HeapFrom le2 d2 0 l ∧ s.1.heap.Dense l ∧ s.2.heap.Dense l ∧ s.1.n = elements.length ∧ s.2.n = elements.length := by
  obtain ⟨s1, l1, e1, n1, ⟨⟨k, hd⟩, hn, hc⟩, q1, -⟩ := heapBuild_spec h1 c1 p1 elements
  have hcells : s1.heap.data.filterMap id = l1 := by
    have hz : ∀ k, (List.replicate k (none : Option α)).filterMap id = [] := fun k => by
      induction k with
      | zero => rfl
      | succ k ih => simpa [List.replicate_succ] using ih
    rw [hd, List.filterMap_append, hz, List.append_nil]
    simp
  obtain ⟨s2, l2, e2, n2, den2, q2, hh⟩ := heapBuild_spec h2 c2 p2 l1
  have hlen : l2.length = l1.length := q2.length_eq
  refine ⟨(⟨{ s1.heap with data := s2.heap.data }, s1.n⟩, s2), l2, ?_, q2.trans q1, hh, ⟨den2.data, ?_, ?_⟩, den2, n1, by rw [n2, q1.length_eq]⟩
  · rw [heapTwice, e1, ok_bind, hcells, e2, ok_bind]
  · rw [hlen]; exact hn
  · rw [hlen]; exact hc

/-- **C158**: the second heap serves the elements, whatever the first did to the nodes. -/
theorem C158_second {comp1 comp2 : α → α → Bool} {le1 le2 : α → α → Prop} (h1 : TotalPreorder le1) (h2 : TotalPreorder le2) (c1 : Compat comp1 le1)
    (c2 : Compat comp2 le2) {d1 d2 : Nat} (p1 : 0 < d1) (p2 : 0 < d2) (elements : List α) (ops : List (HeapOp α)) :
    ∃ s, heapTwice comp1 comp2 d1 d2 elements = .ok s ∧ Serves le2 elements ops (trace (dheapStep comp2 d2) s.2 ops) := by
  obtain ⟨s, l, e, q, hh, -, den, -, n2⟩ := heapTwice_spec h1 h2 c1 c2 p1 p2 elements
  exact ⟨s, e, dheap_serves h2 c2 p2 ops s.2 elements ⟨⟨l, den, q, hh⟩, n2⟩⟩

/-- **C158** (partial): the first heap too, if the second has the same arity and the same order. Missing: heaps of different kinds. -/
theorem C158_first_partial {comp1 comp2 : α → α → Bool} {le : α → α → Prop} (h : TotalPreorder le) (c1 : Compat comp1 le)
    (c2 : Compat comp2 le) {d : Nat} (p : 0 < d) (elements : List α) (ops : List (HeapOp α)) :
    ∃ s, heapTwice comp1 comp2 d d elements = .ok s ∧ Serves le elements ops (trace (dheapStep comp1 d) s.1 ops) := by
  obtain ⟨s, l, e, q, hh, den, -, n1, -⟩ := heapTwice_spec h h c1 c2 p p elements
  exact ⟨s, e, dheap_serves h c1 p ops s.1 elements ⟨⟨l, den, q, hh⟩, n1⟩⟩

/-- **C158**: whatever the kinds, both heaps have the cells that the second has built, a permutation of the elements in its order. -/
theorem C158_same_cells {comp1 comp2 : α → α → Bool} {le1 le2 : α → α → Prop} (h1 : TotalPreorder le1) (h2 : TotalPreorder le2) (c1 : Compat comp1 le1)
    (c2 : Compat comp2 le2) {d1 d2 : Nat} (p1 : 0 < d1) (p2 : 0 < d2) (elements : List α) : ∃ s l, heapTwice comp1 comp2 d1 d2 elements = .ok s ∧
      l.Perm elements ∧ s.1.heap.data = s.2.heap.data ∧ s.1.heap.data.filterMap id = l ∧
      ∀ (p c : Nat) (x y : α), d2 * p + 1 ≤ c → c ≤ d2 * p + d2 → l[p]? = some x → l[c]? = some y → le2 x y := by
  obtain ⟨s, l, e, q, hh, ⟨⟨k, hd⟩, _, _⟩, -, -, -⟩ := heapTwice_spec h1 h2 c1 c2 p1 p2 elements
  refine ⟨s, l, e, q, ?_, ?_, fun p c x y a b hx hy => hh p c x y (Nat.zero_le _) ⟨a, b⟩ hx hy⟩
  · rw [heapTwice] at e
    cases h : heapNew comp1 d1 elements with
    | error er => rw [h] at e; cases e
    | ok s1 =>
      rw [h, ok_bind] at e
      cases h' : heapNew comp2 d2 (s1.heap.data.filterMap id) with
      | error er => rw [h'] at e; cases e
      | ok s2 => rw [h', ok_bind] at e; cases e; rfl
  · have hz : ∀ k, (List.replicate k (none : Option α)).filterMap id = [] := fun k => by
      induction k with
      | zero => rfl
      | succ k ih => simpa [List.replicate_succ] using ih
    rw [hd, List.filterMap_append, hz, List.append_nil]
    simp

theorem C158_full_false : ¬ C158_full := by
  intro h
  obtain ⟨s, x, e1, e2, hx⟩ := h (fun a b => decide (a ≤ b)) (fun a b => decide (b ≤ a)) (fun a b => a ≤ b) ⟨fun a b => Nat.le_total a b, fun a b c => Nat.le_trans⟩
    ⟨fun a b h => by simpa using h, fun a b h => by simp at h; omega⟩ [1, 2] (by simp)
  have e : (heapTwice (fun a b : Nat => decide (a ≤ b)) (fun a b => decide (b ≤ a)) 2 2 [1, 2] >>= fun s => (heapExtract (fun a b : Nat => decide (a ≤ b)) 2 s.1).map Prod.fst) = .ok 2 := by
    decide +kernel
  rw [e1, ok_bind, e2] at e
  cases e
  have := hx 1 (by simp)
  omega

end Props
