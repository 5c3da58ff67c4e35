import Verif.Lemmas.Sort

namespace Spec
open Py
variable {α : Type}

theorem split_range (a : List α) {start stop : Nat} (h : start ≤ stop) :
    a = a.take start ++ (a.drop start).take (stop - start) ++ a.drop stop := by
  have h1 : a.drop stop = (a.drop start).drop (stop - start) := by
    rw [List.drop_drop]; congr 1; omega
  rw [h1, List.append_assoc, List.take_append_drop, List.take_append_drop]

theorem perm_live_none (l : List (Option α)) :
    ((l.filterMap id).map some ++ List.replicate (l.length - (l.filterMap id).length) none).Perm l := by
  induction l with
  | nil => exact .refl _
  | cons x l ih =>
    have := List.length_filterMap_le id l
    cases x with
    | none =>
      simp only [List.filterMap_cons, id, List.length_cons]
      rw [show l.length + 1 - (l.filterMap id).length = (l.length - (l.filterMap id).length) + 1 by omega,
        List.replicate_succ]
      exact List.perm_middle.trans (ih.cons none)
    | some x =>
      simp only [List.filterMap_cons, id, List.length_cons, List.map_cons, List.cons_append]
      rw [show l.length + 1 - ((l.filterMap id).length + 1) = l.length - (l.filterMap id).length by omega]
      exact ih.cons _

/-- Sorted live elements, then `None`, in place of the range: that is a sorted range. -/
theorem sortsTo_form {le : α → α → Prop} {pre mid post : List (Option α)} {l' : List α}
    (hp : l'.Perm (mid.filterMap id)) (hs : l'.Pairwise le) :
    SortsTo (noneLast le) (pre ++ mid ++ post)
      (pre ++ (l'.map some ++ List.replicate (mid.length - (mid.filterMap id).length) none) ++ post)
      pre.length (pre.length + mid.length) := by
  have hlen := hp.length_eq
  have hfl := List.length_filterMap_le id mid
  refine ⟨⟨?_, ?_⟩, ?_⟩
  · refine List.Perm.append_right _ (List.Perm.append_left _ ?_)
    exact ((hp.map some).append_right _).trans (perm_live_none mid)
  · have hml : (l'.map some ++ List.replicate (mid.length - (mid.filterMap id).length) (none : Option α)).length = mid.length := by
      simp; omega
    intro i hi
    rcases hi with hi | hi
    · rw [List.append_assoc, List.getElem?_append_left (by omega), List.append_assoc, List.getElem?_append_left (by omega)]
    · rw [List.getElem?_append_right (by rw [List.length_append, hml]; omega),
        List.getElem?_append_right (by rw [List.length_append]; omega), List.length_append, hml, List.length_append]
  · intro i j x y hi hij hj hx hy
    have hat : ∀ (k : Nat), pre.length ≤ k → k < pre.length + mid.length →
        (pre ++ (l'.map some ++ List.replicate (mid.length - (mid.filterMap id).length) none) ++ post)[k]? =
        if k - pre.length < l'.length then (l'.map some)[k - pre.length]? else some none := by
      intro k h1 h2
      rw [List.append_assoc, List.getElem?_append_right (by omega), List.getElem?_append_left (by simp; omega)]
      split
      · rw [List.getElem?_append_left (by simpa)]
      · rw [List.getElem?_append_right (by simp; omega), List.getElem?_replicate, if_pos (by simp; omega)]
    rw [hat i hi (by omega)] at hx
    rw [hat j (by omega) hj] at hy
    by_cases hj2 : j - pre.length < l'.length
    · rw [if_pos hj2] at hy
      rw [if_pos (by omega)] at hx
      rw [List.getElem?_map, List.getElem?_eq_getElem hj2] at hy
      rw [List.getElem?_map, List.getElem?_eq_getElem (by omega)] at hx
      cases hx; cases hy
      exact (List.pairwise_iff_getElem.1 hs) _ _ _ _ (by omega)
    · rw [if_neg hj2] at hy
      cases hy
      cases x <;> trivial

/-- A loop that reads the cells of a range one after the other is a loop over the list of these cells. -/
theorem forRange_rd {β σ : Type} (a : List β) (g : β → σ → PyM σ) {start stop : Nat} (hss : start ≤ stop) (hs : stop ≤ a.length)
    (s : σ) : forRange start stop s (fun i s => rd a i >>= fun x => g x s) = forList ((a.drop start).take (stop - start)) s g := by
  rw [forRange]
  obtain ⟨n, rfl⟩ : ∃ n, stop = start + n := ⟨stop - start, by omega⟩
  rw [show start + n - start = n by omega]
  clear hss
  induction n generalizing start s with
  | zero => simp [loop, forList]
  | succ n ih =>
    have hlt : start < a.length := by omega
    rw [List.drop_eq_getElem_cons hlt, List.take_succ_cons, loop, forList, rd_of_lt hlt, ok_bind]
    cases g a[start] s with
    | error e => rfl
    | ok s' => rw [ok_bind, ok_bind]; exact ih s' (by omega)

theorem forDown_rd {β σ : Type} (a : List β) (g : β → σ → PyM σ) {start stop : Nat} (hss : start ≤ stop) (hs : stop ≤ a.length)
    (s : σ) : forDown start stop s (fun i s => rd a i >>= fun x => g x s) =
      forList ((a.drop start).take (stop - start)).reverse s g := by
  rw [forDown]
  obtain ⟨n, rfl⟩ : ∃ n, stop = start + n := ⟨stop - start, by omega⟩
  rw [show start + n - start = n by omega]
  clear hss
  induction n generalizing s with
  | zero => simp [loopDown, forList]
  | succ n ih =>
    have hlt : start + n < a.length := by omega
    have hlt' : n < (a.drop start).length := by simp; omega
    rw [← List.take_append_getElem hlt', List.reverse_append, List.reverse_singleton, List.singleton_append, loopDown, forList,
      rd_of_lt hlt, ok_bind, List.getElem_drop]
    cases g a[start + n] s with
    | error e => rfl
    | ok s' => rw [ok_bind, ok_bind]; exact ih s' (by omega)

/-- Writing the cells of a range. -/
theorem forRange_wr {β : Type} (out : List β) (a : List β) (start : Nat) (h : start + out.length ≤ a.length) :
    forRange 0 out.length a (fun i a => rd out i >>= fun x => wr a (start + i) x) =
      .ok (a.take start ++ out ++ a.drop (start + out.length)) := by
  obtain ⟨b, e, h1, h2⟩ := forRange_spec (lo := 0) (hi := out.length) (s := a)
    (body := fun i a => rd out i >>= fun x => wr a (start + i) x)
    (fun k (b : List β) => b.length = a.length ∧ ∀ j, b[j]? = if start ≤ j ∧ j < start + k then out[j - start]? else a[j]?)
    (Nat.zero_le _) ⟨rfl, fun j => by rw [if_neg (by omega)]⟩
    (by
      rintro k b _ hk ⟨h1, h2⟩
      refine ⟨_, by rw [rd_of_lt hk, ok_bind, wr_of_lt _ (by omega)], by simp [h1], ?_⟩
      intro j
      by_cases hj : j = start + k
      · subst hj
        rw [List.getElem?_set_self (by omega), if_pos (by omega), show start + k - start = k by omega, List.getElem?_eq_getElem hk]
      · rw [List.getElem?_set_ne (by omega), h2]
        by_cases hj' : start ≤ j ∧ j < start + k
        · rw [if_pos hj', if_pos (by omega)]
        · rw [if_neg hj', if_neg (by omega)])
  rw [e]
  congr 1
  apply List.ext_getElem?
  intro j
  rw [h2]
  have htl : (a.take start).length = start := by simp; omega
  by_cases hj : start ≤ j ∧ j < start + out.length
  · rw [if_pos hj, List.append_assoc, List.getElem?_append_right (by omega), List.getElem?_append_left (by omega), htl]
  · rw [if_neg hj, List.append_assoc]
    by_cases hj' : j < start
    · rw [List.getElem?_append_left (by omega), List.getElem?_take_of_lt hj']
    · rw [List.getElem?_append_right (by omega), List.getElem?_append_right (by omega), List.getElem?_drop]
      congr 1; omega

end Spec
