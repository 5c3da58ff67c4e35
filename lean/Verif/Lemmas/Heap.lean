import Verif.Model.Heap
import Verif.Lemmas.Doda
import Verif.Spec

namespace Model
open Py Spec
variable {α : Type}

/-- `c` is a child of `p` in the `d`-ary layout. -/
def Child (d p c : Nat) : Prop := d * p + 1 ≤ c ∧ c ≤ d * p + d

theorem Child.lt {d p c : Nat} (hd : 0 < d) (h : Child d p c) : p < c := by
  have : p ≤ d * p := Nat.le_mul_of_pos_left p hd
  have := h.1
  omega

theorem child_iff {d p c : Nat} (hd : 0 < d) : Child d p c ↔ 0 < c ∧ p = (c - 1) / d := by
  unfold Child
  constructor
  · rintro ⟨h1, h2⟩
    refine ⟨by omega, ?_⟩
    symm
    rw [Nat.div_eq_iff hd]
    rw [Nat.mul_comm p d]
    omega
  · rintro ⟨h1, rfl⟩
    have := Nat.div_add_mod (c - 1) d
    have := Nat.mod_lt (c - 1) hd
    omega

/-- Heap order below position `lo`, except possibly at `i`. -/
structure HeapExc (le : α → α → Prop) (d lo i : Nat) (l : List α) : Prop where
  main : ∀ p c x y, lo ≤ p → Child d p c → p ≠ i → l[p]? = some x → l[c]? = some y → le x y
  skip : ∀ q c x y, lo ≤ q → Child d q i → Child d i c → l[q]? = some x → l[c]? = some y → le x y

/-- Heap order from position `lo` on. -/
def HeapFrom (le : α → α → Prop) (d lo : Nat) (l : List α) : Prop :=
  ∀ p c x y, lo ≤ p → Child d p c → l[p]? = some x → l[c]? = some y → le x y

theorem Doda.Dense.node {d : Doda α} {l : List α} (h : d.Dense l) {i : Nat} {x : α} (hi : l[i]? = some x) :
    d.node i = .ok x := by
  obtain ⟨hlt, rfl⟩ := List.getElem?_eq_some_iff.1 hi
  rw [Doda.node, h.get hlt]
  rfl

theorem heapSwap_spec {d : Doda α} {l : List α} (h : d.Dense l) {i j : Nat} {x y : α} (hi : l[i]? = some x)
    (hj : l[j]? = some y) :
    ∃ d', heapSwap d i j = .ok d' ∧ d'.Dense ((l.set i y).set j x) := by
  obtain ⟨hil, -⟩ := List.getElem?_eq_some_iff.1 hi
  obtain ⟨hjl, -⟩ := List.getElem?_eq_some_iff.1 hj
  obtain ⟨d1, e1, h1⟩ := h.set hil y
  obtain ⟨d2, e2, h2⟩ := h1.set (i := j) (by simpa using hjl) x
  exact ⟨d2, by rw [heapSwap, h.node hi, ok_bind, h.node hj, ok_bind, e1, ok_bind, e2], h2⟩

theorem heapSwap_perm {l : List α} {i j : Nat} {x y : α} (hi : l[i]? = some x) (hj : l[j]? = some y) :
    ((l.set i y).set j x).Perm l := by
  obtain ⟨hil, rfl⟩ := List.getElem?_eq_some_iff.1 hi
  obtain ⟨hjl, rfl⟩ := List.getElem?_eq_some_iff.1 hj
  exact List.set_set_perm hil hjl

theorem heapPick_spec {comp : α → α → Bool} {le : α → α → Prop} (hle : TotalPreorder le) (hc : Compat comp le)
    {h : Doda α} {l : List α} (hd : h.Dense l) : ∀ (k j target : Nat), target < j → target < l.length →
    ∃ t, heapPick comp h l.length k j target = .ok t ∧ t < l.length ∧
      (t = target ∨ (j ≤ t ∧ t < j + k)) ∧
      (∀ x y, l[t]? = some x → l[target]? = some y → le x y) ∧
      (∀ c x y, j ≤ c → c < j + k → l[t]? = some x → l[c]? = some y → le x y) := by
  have refl : ∀ a, le a a := fun a => (hle.total a a).elim id id
  intro k
  induction k with
  | zero =>
    intro j target h1 h2
    refine ⟨target, rfl, h2, .inl rfl, ?_, ?_⟩
    · intro x y hx hy; rw [hx] at hy; cases hy; exact refl _
    · intro c x y h1 h2; omega
  | succ k ih =>
    intro j target h1 h2
    rw [heapPick]
    by_cases hj : j < l.length
    · rw [if_pos hj]
      have ej : l[j]? = some l[j] := List.getElem?_eq_getElem hj
      have et : l[target]? = some l[target] := List.getElem?_eq_getElem h2
      rw [hd.node ej, ok_bind, hd.node et, ok_bind]
      by_cases hcomp : comp l[j] l[target] = true
      · rw [if_pos hcomp]
        obtain ⟨t, e, htl, hor, hmin, hall⟩ := ih (j + 1) j (by omega) hj
        refine ⟨t, e, htl, by omega, ?_, ?_⟩
        · intro x y hx hy
          rw [et] at hy; cases hy
          exact hle.trans _ _ _ (hmin x _ hx ej) (hc.yes _ _ hcomp)
        · intro c x y h1 h2 hx hy
          by_cases hcj : c = j
          · subst hcj; exact hmin x y hx hy
          · exact hall c x y (by omega) (by omega) hx hy
      · rw [if_neg hcomp]
        obtain ⟨t, e, htl, hor, hmin, hall⟩ := ih (j + 1) target (by omega) h2
        refine ⟨t, e, htl, by omega, hmin, ?_⟩
        intro c x y h1 h2 hx hy
        by_cases hcj : c = j
        · subst hcj
          rw [ej] at hy; cases hy
          exact hle.trans _ _ _ (hmin x _ hx et) (hc.no _ _ (by simpa using hcomp))
        · exact hall c x y (by omega) (by omega) hx hy
    · rw [if_neg hj]
      refine ⟨target, rfl, h2, .inl rfl, ?_, ?_⟩
      · intro x y hx hy; rw [hx] at hy; cases hy; exact refl _
      · intro c x y h1 h2 hx hy
        have := (List.getElem?_eq_some_iff.1 hy).1
        omega

/-- A position past the end is left alone. -/
theorem heapify_past {comp : α → α → Bool} {d n : Nat} (hd : 0 < d) (fuel i : Nat) (h : Doda α) (hi : n ≤ i) :
    heapify comp d n (fuel + 1) i h = .ok h := by
  have : i ≤ d * i := Nat.le_mul_of_pos_left i hd
  have e : heapPick comp h n d (d * i + 1) i = .ok i := by
    obtain ⟨k, rfl⟩ : ∃ k, d = k + 1 := ⟨d - 1, by omega⟩
    rw [heapPick, if_neg (by omega)]
  rw [heapify, e, ok_bind, if_neg (by simp)]

theorem heapify_spec {comp : α → α → Bool} {le : α → α → Prop} (hle : TotalPreorder le) (hc : Compat comp le)
    {d : Nat} (hd : 0 < d) (lo : Nat) : ∀ (fuel i : Nat) (h : Doda α) (l : List α), h.Dense l → i < l.length → lo ≤ i →
    l.length < fuel + i → HeapExc le d lo i l →
    ∃ h' l', heapify comp d l.length fuel i h = .ok h' ∧ h'.Dense l' ∧ l'.Perm l ∧ HeapFrom le d lo l' := by
  intro fuel
  induction fuel with
  | zero => intro i h l hden hi hlo hf; omega
  | succ fuel ih =>
    intro i h l hden hi hlo hf hexc
    obtain ⟨t, e, htl, hor, hmin, hall⟩ := heapPick_spec hle hc hden d (d * i + 1) i
      (by have : i ≤ d * i := Nat.le_mul_of_pos_left i hd
          omega) hi
    rw [heapify, e, ok_bind]
    by_cases hti : t = i
    · rw [if_neg (by simpa using hti)]
      subst hti
      refine ⟨h, l, rfl, hden, .refl _, ?_⟩
      intro p c x y hp hch hx hy
      by_cases hpt : p = t
      · subst hpt
        exact hall c x y hch.1 (by have := hch.2; omega) hx hy
      · exact hexc.main p c x y hp hch hpt hx hy
    · rw [if_pos hti]
      have hch : Child d i t := by
        rcases hor with h1 | h1
        · exact absurd h1 hti
        · exact ⟨h1.1, by omega⟩
      have hit := hch.lt hd
      have et : l[t]? = some l[t] := List.getElem?_eq_getElem htl
      have ei : l[i]? = some l[i] := List.getElem?_eq_getElem hi
      obtain ⟨h1, e1, hden1⟩ := heapSwap_spec hden et ei
      have hperm := heapSwap_perm et ei
      have hlen : ((l.set t l[i]).set i l[t]).length = l.length := by simp
      rw [e1, ok_bind]
      have get : ∀ k, ((l.set t l[i]).set i l[t])[k]? = if k = i then some l[t] else if k = t then some l[i] else l[k]? := by
        intro k
        by_cases h1 : k = i
        · subst h1; rw [if_pos rfl, List.getElem?_set_self (by simpa using hi)]
        · rw [if_neg h1, List.getElem?_set_ne (by omega)]
          by_cases h2 : k = t
          · subst h2; rw [if_pos rfl, List.getElem?_set_self htl]
          · rw [if_neg h2, List.getElem?_set_ne (by omega)]
      have := ih t h1 ((l.set t l[i]).set i l[t]) hden1 (by rw [hlen]; exact htl) (by omega) (by rw [hlen]; omega) ?_
      · obtain ⟨h', l', e', hden', hperm', hheap⟩ := this
        rw [hlen] at e'
        exact ⟨h', l', e', hden', hperm'.trans hperm, hheap⟩
      · have parent_unique : ∀ p q c, Child d p c → Child d q c → p = q := by
          intro p q c hp hq
          rw [child_iff hd] at hp hq
          omega
        constructor
        · intro p c x y hp hpc hpt hx hy
          have hplt := hpc.lt hd
          rw [get] at hx hy
          by_cases hpi : p = i
          · subst hpi
            rw [if_pos rfl] at hx
            cases hx
            rw [if_neg (by omega)] at hy
            by_cases hct : c = t
            · rw [if_pos hct] at hy
              cases hy
              exact hmin _ _ et ei
            · rw [if_neg hct] at hy
              exact hall c _ y hpc.1 (by have := hpc.2; omega) et hy
          · rw [if_neg hpi, if_neg hpt] at hx
            by_cases hci : c = i
            · rw [if_pos hci] at hy
              cases hy
              subst hci
              exact hexc.skip p t _ _ hp hpc hch hx et
            · rw [if_neg hci] at hy
              by_cases hct : c = t
              · subst hct
                exact absurd (parent_unique _ _ _ hpc hch) hpi
              · rw [if_neg hct] at hy
                exact hexc.main p c x y hp hpc hpi hx hy
        · intro q c x y hq hqt htc hx hy
          have : q = i := parent_unique _ _ _ hqt hch
          subst this
          have := htc.lt hd
          rw [get, if_pos rfl] at hx
          cases hx
          rw [get, if_neg (by omega), if_neg (by omega)] at hy
          exact hexc.main t c _ y (by omega) htc hti et hy

theorem heapBuild_spec {comp : α → α → Bool} {le : α → α → Prop} (hle : TotalPreorder le) (hc : Compat comp le)
    {d : Nat} (hd : 0 < d) (l : List α) :
    ∃ s l', heapNew comp d l = .ok s ∧ s.n = l.length ∧ s.heap.Dense l' ∧ l'.Perm l ∧ HeapFrom le d 0 l' := by
  obtain ⟨h', e, l', hden, hperm, hheap⟩ := forDown_spec
    (I := fun (k : Nat) (h : Doda α) => ∃ l', h.Dense l' ∧ l'.Perm l ∧ HeapFrom le d k l')
    (body := fun i h => heapify comp d l.length (l.length + 2) i h) (lo := 0) (hi := l.length / d + 1)
    (s := Doda.ofList l) (Nat.zero_le _)
    ⟨l, Doda.ofList_dense l, .refl _, by
      intro p c x y hp hch hx hy
      have h1 := (List.getElem?_eq_some_iff.1 hy).1
      have h2 := hch.1
      have h3 := Nat.lt_div_iff_mul_lt hd (x := l.length) (y := p)
      have : l.length < d * (l.length / d + 1) := Nat.lt_mul_div_succ _ hd
      have : d * (l.length / d + 1) ≤ d * p := Nat.mul_le_mul_left d hp
      omega⟩
    (by
      rintro k h - hk ⟨l', hden, hperm, hheap⟩
      have hlen := hperm.length_eq
      by_cases hkl : k < l'.length
      · have := heapify_spec hle hc hd k (l.length + 2) k h l' hden hkl (Nat.le_refl _) (by omega) ?_
        · obtain ⟨h'', l'', e, hden', hp', hh'⟩ := this
          rw [hlen] at e
          exact ⟨h'', e, l'', hden', hp'.trans hperm, hh'⟩
        · constructor
          · intro p c x y hp hch hpk hx hy
            exact hheap p c x y (by omega) hch hx hy
          · intro q c x y hq hqk
            have := hqk.lt hd
            omega
      · refine ⟨h, heapify_past hd _ _ _ (by omega), l', hden, hperm, ?_⟩
        intro p c x y hp hch hx hy
        have h1 := (List.getElem?_eq_some_iff.1 hx).1
        omega)
  refine ⟨⟨h', l.length⟩, l', ?_, rfl, hden, hperm, hheap⟩
  rw [heapNew, heapBuild, if_neg (by omega)]
  dsimp only
  rw [e, ok_bind]

/-- Heap order everywhere except towards the parent of `i`. -/
structure HeapUp (le : α → α → Prop) (d i : Nat) (l : List α) : Prop where
  main : ∀ p c x y, Child d p c → c ≠ i → l[p]? = some x → l[c]? = some y → le x y
  skip : ∀ q c x y, Child d q i → Child d i c → l[q]? = some x → l[c]? = some y → le x y

theorem heapUp_spec {comp : α → α → Bool} {le : α → α → Prop} (hle : TotalPreorder le) (hc : Compat comp le)
    {d : Nat} (hd : 0 < d) : ∀ (fuel i : Nat) (h : Doda α) (l : List α), h.Dense l → i < l.length → i < fuel →
    HeapUp le d i l →
    ∃ h' l', heapUp comp d fuel i h = .ok h' ∧ h'.Dense l' ∧ l'.Perm l ∧ HeapFrom le d 0 l' := by
  intro fuel
  induction fuel with
  | zero => intro i h l hden hi hf; omega
  | succ fuel ih =>
    intro i h l hden hi hf hup
    rw [heapUp]
    by_cases hi0 : i = 0
    · rw [if_pos hi0]
      refine ⟨h, l, rfl, hden, .refl _, ?_⟩
      intro p c x y _ hch hx hy
      exact hup.main p c x y hch (by have := hch.1; omega) hx hy
    · rw [if_neg hi0]
      have hch : Child d ((i - 1) / d) i := (child_iff hd).2 ⟨by omega, rfl⟩
      have hpi := hch.lt hd
      generalize (i - 1) / d = q at hch hpi
      have hql : q < l.length := by omega
      have eq : l[q]? = some l[q] := List.getElem?_eq_getElem hql
      have ei : l[i]? = some l[i] := List.getElem?_eq_getElem hi
      have parent_unique : ∀ p q c, Child d p c → Child d q c → p = q := by
        intro p q c hp hq
        rw [child_iff hd] at hp hq
        omega
      dsimp only
      rw [hden.node eq, ok_bind, hden.node ei, ok_bind]
      by_cases hcomp : comp l[q] l[i] = true
      · rw [if_pos hcomp]
        refine ⟨h, l, rfl, hden, .refl _, ?_⟩
        intro p c x y _ hpc hx hy
        by_cases hci : c = i
        · subst hci
          have := parent_unique _ _ _ hpc hch
          subst this
          rw [eq] at hx; rw [ei] at hy; cases hx; cases hy
          exact hc.yes _ _ hcomp
        · exact hup.main p c x y hpc hci hx hy
      · rw [if_neg hcomp]
        have hge : le l[i] l[q] := hc.no _ _ (by simpa using hcomp)
        obtain ⟨h1, e1, hden1⟩ := heapSwap_spec hden ei eq
        have hperm := heapSwap_perm ei eq
        have hlen : ((l.set i l[q]).set q l[i]).length = l.length := by simp
        rw [e1, ok_bind]
        have get : ∀ k, ((l.set i l[q]).set q l[i])[k]? = if k = q then some l[i] else if k = i then some l[q] else l[k]? := by
          intro k
          by_cases h1 : k = q
          · subst h1; rw [if_pos rfl, List.getElem?_set_self (by simpa using hql)]
          · rw [if_neg h1, List.getElem?_set_ne (by omega)]
            by_cases h2 : k = i
            · subst h2; rw [if_pos rfl, List.getElem?_set_self hi]
            · rw [if_neg h2, List.getElem?_set_ne (by omega)]
        have := ih q h1 ((l.set i l[q]).set q l[i]) hden1 (by rw [hlen]; exact hql) (by omega) ?_
        · obtain ⟨h', l', e', hden', hperm', hheap⟩ := this
          exact ⟨h', l', e', hden', hperm'.trans hperm, hheap⟩
        · constructor
          · intro p c x y hpc hcq hx hy
            have hplt := hpc.lt hd
            rw [get] at hx hy
            rw [if_neg hcq] at hy
            by_cases hci : c = i
            · subst hci
              rw [if_pos rfl] at hy
              cases hy
              have := parent_unique _ _ _ hpc hch
              rw [if_pos this] at hx
              cases hx
              exact hge
            · rw [if_neg hci] at hy
              by_cases hpq : p = q
              · subst hpq
                rw [if_pos rfl] at hx
                cases hx
                exact hle.trans _ _ _ hge (hup.main p c _ y hpc hci eq hy)
              · rw [if_neg hpq] at hx
                by_cases hpi' : p = i
                · subst hpi'
                  rw [if_pos rfl] at hx
                  cases hx
                  exact hup.skip q c _ y hch hpc eq hy
                · rw [if_neg hpi'] at hx
                  exact hup.main p c x y hpc hci hx hy
          · intro q' c x y hq'q hqc hx hy
            have h1 := hq'q.lt hd
            have h2 := hqc.lt hd
            rw [get, if_neg (by omega), if_neg (by omega)] at hx
            rw [get, if_neg (by omega)] at hy
            have h3 := hup.main q' q x _ hq'q (by omega) hx eq
            by_cases hci : c = i
            · rw [if_pos hci] at hy
              cases hy
              exact h3
            · rw [if_neg hci] at hy
              exact hle.trans _ _ _ h3 (hup.main q c _ y hqc hci eq hy)

/-- The root of a heap is least. -/
theorem HeapFrom.root {le : α → α → Prop} (hle : TotalPreorder le) {d : Nat} (hd : 0 < d) {l : List α}
    (h : HeapFrom le d 0 l) : ∀ (c : Nat) (x y : α), l[0]? = some x → l[c]? = some y → le x y := by
  intro c
  induction c using Nat.strongRecOn with
  | _ c ih =>
    intro x y hx hy
    by_cases hc : c = 0
    · subst hc; rw [hx] at hy; cases hy; exact (hle.total x x).elim id id
    · have hch : Child d ((c - 1) / d) c := (child_iff hd).2 ⟨by omega, rfl⟩
      have hlt := hch.lt hd
      have hcl := (List.getElem?_eq_some_iff.1 hy).1
      have ep : l[(c - 1) / d]? = some l[(c - 1) / d] := List.getElem?_eq_getElem (by omega)
      exact hle.trans _ _ _ (ih _ hlt x _ hx ep) (h _ c _ y (Nat.zero_le _) hch ep hy)

/-- Invariant of a heap object whose content is `l` (as a multiset). -/
structure DHeap.Ok (le : α → α → Prop) (d : Nat) (s : DHeap α) (l : List α) : Prop where
  ex : ∃ l', s.heap.Dense l' ∧ l'.Perm l ∧ HeapFrom le d 0 l'
  n : s.n = l.length

theorem heapInsert_ok {comp : α → α → Bool} {le : α → α → Prop} (hle : TotalPreorder le) (hc : Compat comp le)
    {d : Nat} (hd : 0 < d) {s : DHeap α} {l : List α} (h : s.Ok le d l) (x : α) :
    ∃ s', heapInsert comp d s x = .ok s' ∧ s'.Ok le d (x :: l) := by
  obtain ⟨⟨l', hden, hperm, hheap⟩, hn⟩ := h
  obtain ⟨h1, e1, hden1⟩ := Doda.append_dense quarter hden x
  have hlen := hperm.length_eq
  have hn' : s.n = l'.length := by omega
  have hget : ∀ (p : Nat) (y : α), p ≠ l'.length → (l' ++ [x])[p]? = some y → l'[p]? = some y := by
    intro p y hp hy
    have := (List.getElem?_eq_some_iff.1 hy).1
    simp at this
    rwa [List.getElem?_append_left (by omega)] at hy
  obtain ⟨h2, l2, e2, hden2, hp2, hh2⟩ := heapUp_spec hle hc hd (s.n + 1) s.n h1 (l' ++ [x]) hden1 (by simp; omega)
    (by omega) (by
      rw [hn']
      constructor
      · intro p c a b hpc hcn ha hb
        have := hpc.lt hd
        have hcl := (List.getElem?_eq_some_iff.1 hb).1
        simp at hcl
        exact hheap p c a b (Nat.zero_le _) hpc (hget _ _ (by omega) ha) (hget _ _ hcn hb)
      · intro q c a b hq hcn ha hb
        have := hcn.lt hd
        have hcl := (List.getElem?_eq_some_iff.1 hb).1
        simp at hcl
        omega)
  refine ⟨⟨h2, s.n + 1⟩, ?_, ⟨l2, hden2, ?_, hh2⟩, ?_⟩
  · rw [heapInsert, if_neg (by omega), e1, ok_bind, e2, ok_bind]
  · exact hp2.trans ((List.perm_append_singleton x l').trans (hperm.cons x))
  · simp [hn]

theorem heapExtract_ok {comp : α → α → Bool} {le : α → α → Prop} (hle : TotalPreorder le) (hc : Compat comp le)
    {d : Nat} (hd : 0 < d) {s : DHeap α} {l : List α} (h : s.Ok le d l) (hl : l ≠ []) :
    ∃ x s' l', heapExtract comp d s = .ok (x, s') ∧ l.Perm (x :: l') ∧ (∀ y ∈ l, le x y) ∧ s'.Ok le d l' := by
  obtain ⟨⟨m, hden, hperm, hheap⟩, hn⟩ := h
  have hlen := hperm.length_eq
  have hne : m ≠ [] := by rintro rfl; simp at hlen; exact hl (List.eq_nil_of_length_eq_zero hlen.symm)
  obtain ⟨x, hx⟩ : ∃ x, m[0]? = some x := by
    cases m with
    | nil => exact absurd rfl hne
    | cons a m => exact ⟨a, rfl⟩
  have hmin : ∀ y ∈ l, le x y := by
    intro y hy
    obtain ⟨c, hc'⟩ := List.mem_iff_getElem?.1 (hperm.mem_iff.2 hy)
    exact hheap.root hle hd c x y hx hc'
  have hmpos : 0 < m.length := List.length_pos_iff.2 hne
  have hsn : s.n = m.length := by omega
  obtain ⟨m', z, rfl⟩ : ∃ m' z, m = m' ++ [z] := by
    rcases List.eq_nil_or_concat m with h | ⟨m', z, h⟩
    · exact absurd h hne
    · exact ⟨m', z, by simpa using h⟩
  have hz : (m' ++ [z])[m'.length]? = some z := by simp
  obtain ⟨h1, e1, hden1⟩ := heapSwap_spec hden hx hz
  have hsw : ∃ m2, ((m' ++ [z]).set 0 z).set m'.length x = m2 ++ [x] ∧ (m2 ++ [x]).Perm (m' ++ [z]) ∧ m2.length = m'.length ∧
      ∀ k y, 0 < k → m2[k]? = some y → m'[k]? = some y := by
    cases m' with
    | nil =>
      simp at hx
      subst hx
      exact ⟨[], by simp, .refl _, rfl, by simp⟩
    | cons a m' =>
      simp at hx
      subst hx
      refine ⟨z :: m', by simp, ?_, rfl, ?_⟩
      · simp only [List.cons_append]
        refine List.Perm.trans ?_ (List.perm_append_singleton z (a :: m')).symm
        exact (List.perm_append_singleton a m').cons z
      · intro k y hk hy
        obtain ⟨k, rfl⟩ : ∃ j, k = j + 1 := ⟨k - 1, by omega⟩
        simpa using hy
  obtain ⟨m2, em2, hpm2, hlm2, hgm2⟩ := hsw
  rw [em2] at hden1
  obtain ⟨h2, e2, hden2⟩ := Doda.delete_last_dense quarter hden1
  rw [hlm2] at e2
  have hs1 : s.n - 1 = m'.length := by rw [hsn]; simp
  have hperm2 : l.Perm (x :: m2) :=
    hperm.symm.trans (hpm2.symm.trans (List.perm_append_singleton x m2))
  have e3 : ∃ h3 l3, heapify comp d m'.length (s.n + 1) 0 h2 = .ok h3 ∧ h3.Dense l3 ∧ l3.Perm m2 ∧ HeapFrom le d 0 l3 := by
    by_cases hm : m2.length = 0
    · refine ⟨h2, m2, heapify_past hd _ _ _ (by omega), hden2, .refl _, ?_⟩
      intro p c a b _ _ ha
      have := (List.getElem?_eq_some_iff.1 ha).1
      omega
    · have := heapify_spec hle hc hd 0 (s.n + 1) 0 h2 m2 hden2 (by omega) (by omega) (by omega) ?_
      · rw [hlm2] at this; exact this
      · constructor
        · intro p c a b _ hpc hp ha hb
          have h1 := hgm2 p a (by omega) ha
          have h2 := hgm2 c b (by have := hpc.lt hd; omega) hb
          have h3 := (List.getElem?_eq_some_iff.1 h1).1
          have h4 := (List.getElem?_eq_some_iff.1 h2).1
          exact hheap p c a b (Nat.zero_le _) hpc (by rw [List.getElem?_append_left h3]; exact h1)
            (by rw [List.getElem?_append_left h4]; exact h2)
        · intro q c a b _ hq
          have := hq.1
          omega
  obtain ⟨h3, l3, e3, hden3, hp3, hh3⟩ := e3
  refine ⟨x, ⟨h3, s.n - 1⟩, m2, ?_, hperm2, hmin, ⟨l3, hden3, hp3, hh3⟩, by rw [hs1, hlm2]⟩
  rw [heapExtract, if_neg (by omega), hden.node hx, ok_bind, hs1, e1, ok_bind, e2, ok_bind, e3, ok_bind]

theorem heapEmpty_ok (le : α → α → Prop) (d : Nat) : (⟨Doda.ofSize 0, 0⟩ : DHeap α).Ok le d [] :=
  ⟨⟨[], Doda.ofSize_dense 0, .refl _, by intro p c x y _ _ hx; simp at hx⟩, rfl⟩

theorem heapIsEmpty_ok {le : α → α → Prop} {d : Nat} {s : DHeap α} {l : List α} (h : s.Ok le d l) :
    heapIsEmpty s = l.isEmpty := by
  obtain ⟨⟨l', ⟨_, _, hc⟩, hperm, _⟩, _⟩ := h
  have := hperm.length_eq
  rw [heapIsEmpty, hc, this]
  cases l <;> simp

theorem heapPeek_ok {le : α → α → Prop} (hle : TotalPreorder le) {d : Nat} (hd : 0 < d) {s : DHeap α} {l : List α}
    (h : s.Ok le d l) (hl : l ≠ []) : ∃ x, heapPeek s = .ok x ∧ x ∈ l ∧ ∀ y ∈ l, le x y := by
  have he := heapIsEmpty_ok h
  obtain ⟨⟨m, hden, hperm, hheap⟩, hn⟩ := h
  have hlen := hperm.length_eq
  obtain ⟨x, hx⟩ : ∃ x, m[0]? = some x := by
    cases m with
    | nil => simp at hlen; exact absurd (List.eq_nil_of_length_eq_zero hlen.symm) hl
    | cons a m => exact ⟨a, rfl⟩
  refine ⟨x, ?_, hperm.mem_iff.1 (List.mem_iff_getElem?.2 ⟨0, hx⟩), ?_⟩
  · rw [heapPeek, if_neg (by rw [he]; simpa using hl), hden.node hx]
  · intro y hy
    obtain ⟨c, hc'⟩ := List.mem_iff_getElem?.1 (hperm.mem_iff.2 hy)
    exact hheap.root hle hd c x y hx hc'

end Model
