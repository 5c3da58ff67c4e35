import Verif.Props.Heap
import Verif.Props.LinkedContainers
import Verif.Props.BinomialHeap

/-!
# C131: the three priority queues are interchangeable, and each of them sorts
-/
namespace Props
open Py Model Spec
set_option linter.unusedSectionVars false
variable {ν π : Type}

/-- The entries a history pushes. -/
def pushedBy : List (PqOp ν π) → List (π × ν)
  | [] => []
  | .push v p :: ops => (p, v) :: pushedBy ops
  | _ :: ops => pushedBy ops

/-- Entries whose priorities tie are the same entry. -/
def TiesEqual (le : π → π → Prop) (l : List (π × ν)) : Prop := ∀ x ∈ l, ∀ y ∈ l, le x.1 y.1 → le y.1 x.1 → x = y

/-- When only equal entries tie, what a priority queue answers is determined. -/
theorem PqServes.unique {le : π → π → Prop} : ∀ (ops : List (PqOp ν π)) {l l' : List (π × ν)} {outs outs' : List (Out (Option π × ν))},
    l.Perm l' → TiesEqual le (l ++ pushedBy ops) → PqServes le l ops outs → PqServes le l' ops outs' → outs = outs' := by
  intro ops
  induction ops with
  | nil => intro l l' outs outs' _ _ h h'; exact h.trans h'.symm
  | cons op ops ih =>
    intro l l' outs outs' hp hn h h'
    cases op with
    | push v p =>
      obtain ⟨r, rfl, h⟩ := h
      obtain ⟨r', rfl, h'⟩ := h'
      rw [ih (hp.cons (p, v)) (fun x hx y hy => hn x (by simp [pushedBy] at hx ⊢; grind) y (by simp [pushedBy] at hy ⊢; grind)) h h']
    | pop =>
      rcases h with ⟨rfl, r, rfl, h⟩ | ⟨p, v, m, r, hm, hle, rfl, h⟩
      · rcases h' with ⟨rfl, r', rfl, h'⟩ | ⟨p', v', m', r', hm', hle', rfl, h'⟩
        · rw [ih hp hn h h']
        · exact absurd ((hp.trans hm').length_eq) (by simp)
      · rcases h' with ⟨rfl, r', rfl, h'⟩ | ⟨p', v', m', r', hm', hle', rfl, h'⟩
        · exact absurd ((hp.symm.trans hm).length_eq) (by simp)
        · have i1 : (p, v) ∈ l := hm.mem_iff.mpr (by simp)
          have i2 : (p', v') ∈ l := (hp.trans hm').mem_iff.mpr (by simp)
          have e := hn (p, v) (by simp [i1]) (p', v') (by simp [i2]) (hle _ i2) (hle' _ (hp.mem_iff.mp i1))
          cases e
          have hmm : m.Perm m' := (hm.symm.trans (hp.trans hm')).cons_inv
          rw [ih hmm (fun x hx y hy => hn x ?_ y ?_) h h']
          · rcases List.mem_append.mp hx with hx | hx
            · exact List.mem_append.mpr (.inl (hm.mem_iff.mpr (List.mem_cons_of_mem _ hx)))
            · exact List.mem_append.mpr (.inr hx)
          · rcases List.mem_append.mp hy with hx | hx
            · exact List.mem_append.mpr (.inl (hm.mem_iff.mpr (List.mem_cons_of_mem _ hx)))
            · exact List.mem_append.mpr (.inr hx)
    | peek =>
      rcases h with ⟨rfl, r, rfl, h⟩ | ⟨p, v, r, hm, hle, rfl, h⟩
      · rcases h' with ⟨rfl, r', rfl, h'⟩ | ⟨p', v', r', hm', hle', rfl, h'⟩
        · rw [ih hp hn h h']
        · exact absurd (hp.mem_iff.mpr hm') (by simp)
      · rcases h' with ⟨rfl, r', rfl, h'⟩ | ⟨p', v', r', hm', hle', rfl, h'⟩
        · exact absurd (hp.mem_iff.mp hm) (by simp)
        · have i2 := hp.mem_iff.mpr hm'
          have e := hn (p, v) (by simp [hm]) (p', v') (by simp [i2]) (hle _ i2) (hle' _ (hp.mem_iff.mp hm))
          cases e
          rw [ih hp hn h h']
    | isEmpty =>
      obtain ⟨r, rfl, h⟩ := h
      obtain ⟨r', rfl, h'⟩ := h'
      have e : l.isEmpty = l'.isEmpty := by
        have := hp.length_eq
        cases l <;> cases l' <;> simp at this ⊢
      rw [ih hp hn h h', e]

/-- **C131**: on every history of calls in which only equal entries tie, the linked-list, the binary-heap and the binomial-heap priority queue answer the
same, whichever compatible comparators (strict or not) the first two were given. -/
theorem C131_agree (le : π → π → Bool) (ho : TotalPreorder fun a b => le a b = true) (comp comp' : π → π → Bool)
    (hc : Compat comp fun a b => le a b = true) (hc' : Compat comp' fun a b => le a b = true) (ops : List (PqOp ν π))
    (hn : TiesEqual (fun a b => le a b = true) (pushedBy ops)) :
    trace (lpqStep comp) LL.new ops = trace (binomialPqStep le) [] ops ∧
    trace (heapPqStep comp') ⟨Doda.ofSize 0, 0⟩ ops = trace (binomialPqStep le) [] ops :=
  ⟨PqServes.unique ops (.refl _) hn (C34_linked_list_priority_queue comp _ ho hc ops) (C36_binomial_priority_queue ho ops),
   PqServes.unique ops (.refl _) hn (C35_heap_priority_queue comp' _ ho hc' ops) (C36_binomial_priority_queue ho ops)⟩

/-- Push every entry, then pop as often. -/
def pushThenPop (es : List (π × ν)) : List (PqOp ν π) := es.map (fun e => .push e.2 e.1) ++ es.map (fun _ => .pop)

/-- The values come out in the order of their priorities. -/
def ComesSorted (le : π → π → Prop) (es : List (π × ν)) (outs : List (Out (Option π × ν))) : Prop :=
  ∃ es' : List (π × ν), es'.Perm es ∧ es'.Pairwise (fun a b => le a.1 b.1) ∧ outs = es.map (fun _ => .done) ++ es'.map (fun e => .elem (none, e.2))

theorem PqServes.pops {le : π → π → Prop} : ∀ (n : List (π × ν)) {l : List (π × ν)} {outs : List (Out (Option π × ν))}, n.length = l.length →
    PqServes le l (n.map fun _ => .pop) outs →
    ∃ es' : List (π × ν), es'.Perm l ∧ es'.Pairwise (fun a b => le a.1 b.1) ∧ outs = es'.map (fun e => .elem (none, e.2)) := by
  intro n
  induction n with
  | nil =>
    intro l outs hl h
    cases l with
    | nil => exact ⟨[], .refl _, .nil, h⟩
    | cons x l => simp at hl
  | cons x n ih =>
    intro l outs hl h
    rcases h with ⟨rfl, r, rfl, h⟩ | ⟨p, v, m, r, hm, hle, rfl, h⟩
    · simp at hl
    · have := hm.length_eq
      obtain ⟨es', h1, h2, rfl⟩ := ih (l := m) (by simp at hl this; omega) h
      refine ⟨(p, v) :: es', (h1.cons _).trans hm.symm, List.pairwise_cons.mpr ⟨fun e he => hle e (hm.mem_iff.mpr (List.mem_cons_of_mem _ (h1.mem_iff.mp he))), h2⟩, rfl⟩

theorem PqServes.sorts {le : π → π → Prop} : ∀ (es : List (π × ν)) (n : List (π × ν)) {l : List (π × ν)} {outs : List (Out (Option π × ν))},
    n.length = es.length + l.length → PqServes le l (es.map (fun e => .push e.2 e.1) ++ n.map (fun _ => .pop)) outs →
    ∃ es' : List (π × ν), es'.Perm (es ++ l) ∧ es'.Pairwise (fun a b => le a.1 b.1) ∧ outs = es.map (fun _ => .done) ++ es'.map (fun e => .elem (none, e.2)) := by
  intro es
  induction es with
  | nil =>
    intro n l outs hl h
    exact PqServes.pops n (by simpa using hl) h
  | cons x es ih =>
    intro n l outs hl h
    obtain ⟨r, rfl, h⟩ := h
    obtain ⟨es', h1, h2, rfl⟩ := ih n (l := (x.1, x.2) :: l) (by simp at hl ⊢; omega) h
    exact ⟨es', h1.trans List.perm_middle, h2, rfl⟩

/-- **C131**: pushing entries and popping them all returns the values in priority order, with each of the three queues. -/
theorem C131_sorts (le : π → π → Bool) (ho : TotalPreorder fun a b => le a b = true) (comp comp' : π → π → Bool)
    (hc : Compat comp fun a b => le a b = true) (hc' : Compat comp' fun a b => le a b = true) (es : List (π × ν)) :
    ComesSorted (fun a b => le a b = true) es (trace (lpqStep comp) LL.new (pushThenPop es)) ∧
    ComesSorted (fun a b => le a b = true) es (trace (heapPqStep comp') ⟨Doda.ofSize 0, 0⟩ (pushThenPop es)) ∧
    ComesSorted (fun a b => le a b = true) es (trace (binomialPqStep le) [] (pushThenPop es)) := by
  have key : ∀ outs, PqServes (fun a b => le a b = true) [] (pushThenPop es) outs → ComesSorted (fun a b => le a b = true) es outs := by
    intro outs h
    obtain ⟨es', h1, h2, e⟩ := PqServes.sorts es es (by simp) h
    exact ⟨es', by simpa using h1, h2, e⟩
  exact ⟨key _ (C34_linked_list_priority_queue comp _ ho hc _), key _ (C35_heap_priority_queue comp' _ ho hc' _), key _ (C36_binomial_priority_queue ho _)⟩

/-- Three different values with one priority: the queues do not agree. The linked list pops them in the order they came, the heap does not. -/
theorem C131_ties : ∃ ops : List (PqOp Char Nat), trace (lpqStep fun a b => decide (a < b)) LL.new ops ≠
    trace (heapPqStep fun a b => decide (a < b)) ⟨Doda.ofSize 0, 0⟩ ops :=
  ⟨[.push 'a' 1, .push 'b' 1, .push 'c' 1, .pop, .pop], by decide +kernel⟩

/-- A history in which only equal entries tie, with two equal entries in it. -/
example : TiesEqual (fun a b : Nat => decide (a ≤ b) = true) (pushedBy [.push 'a' 3, .push 'b' 1, .peek, .push 'a' 3, .pop, .isEmpty, .pop, .pop, .pop]) := by
  simp only [pushedBy, TiesEqual]; decide

example : trace (binomialPqStep fun a b : Nat => decide (a ≤ b)) [] [.push 'a' 3, .push 'b' 1, .peek, .push 'a' 3, .pop, .isEmpty, .pop, .pop, .pop] =
    [.done, .done, .elem (some 1, 'b'), .done, .elem (none, 'b'), .flag false, .elem (none, 'a'), .elem (none, 'a'), .raised .indexError] := by decide +kernel
end Props
