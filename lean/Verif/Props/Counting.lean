import Verif.Lemmas.Dist

/-!
# C12: `counting_sort`
-/
namespace Props
open Py Spec Model

theorem countMaxMin_spec (a : List (Option Int)) (x0 : Option Int) :
    ∃ mx mn, forList a (x0, x0) countMaxMin = .ok (mx, mn) ∧ (mx = none ↔ mn = none) ∧
      (mn = none → a.filterMap id = []) ∧
      ∀ u v, mx = some u → mn = some v → v ≤ u ∧ ∀ x ∈ a.filterMap id, v ≤ x ∧ x ≤ u := by
  obtain ⟨⟨mx, mn⟩, e, h1, h2, h3⟩ := forList_spec (α := Option Int) (σ := Option Int × Option Int)
    (I := fun pre _ s => (s.1 = none ↔ s.2 = none) ∧ (s.2 = none → pre.filterMap id = []) ∧
      ∀ u v, s.1 = some u → s.2 = some v → v ≤ u ∧ ∀ x ∈ pre.filterMap id, v ≤ x ∧ x ≤ u) (body := countMaxMin) a [] (x0, x0)
    ⟨by simp, by simp, by
      intro u v h1 h2
      dsimp only at h1 h2
      rw [h1] at h2; cases h2
      exact ⟨by omega, by simp⟩⟩
    (by
      rintro pre x rest ⟨s1, s2⟩ ⟨h1, h2, h3⟩
      dsimp only at h1 h2 h3
      cases x with
      | none => exact ⟨_, rfl, h1, by simpa using h2, by simpa using h3⟩
      | some x =>
        refine ⟨_, rfl, ?_⟩
        cases s1 with
        | none =>
          have := h1.1 rfl
          subst this
          have := h2 rfl
          refine ⟨by simp, by simp, ?_⟩
          intro u v hu hv
          simp only [Option.some.injEq] at hu hv
          subst hu; subst hv
          refine ⟨by omega, ?_⟩
          intro y hy
          rw [List.filterMap_append, this] at hy
          simp at hy
          omega
        | some m1 =>
          cases s2 with
          | none => have := h1.2 rfl; cases this
          | some m2 =>
            obtain ⟨g1, g2⟩ := h3 m1 m2 rfl rfl
            refine ⟨?_, ?_, ?_⟩
            · dsimp only; split <;> split <;> simp
            · dsimp only; split <;> simp
            · intro u v hu hv
              dsimp only at hu hv
              have hu' : m1 ≤ u ∧ x ≤ u := by split at hu <;> (simp only [Option.some.injEq] at hu; omega)
              have hv' : v ≤ m2 ∧ v ≤ x := by split at hv <;> (simp only [Option.some.injEq] at hv; omega)
              refine ⟨by omega, ?_⟩
              intro y hy
              rw [List.filterMap_append, List.mem_append] at hy
              rcases hy with hy | hy
              · have := g2 y hy; omega
              · simp at hy; subst hy; omega)
  exact ⟨mx, mn, e, h1, by simpa using h2, by simpa using h3⟩

/-- C12: the result holds exactly the non-`None` integers of the input, in non-decreasing order, for every non-empty array with at
least one integer (negative values and `None` holes included). -/
theorem C12_counting_sort (a : List (Option Int)) (h : a.filterMap id ≠ []) :
    ∃ out : List Int, countingSort a = .ok (out.map some) ∧ out.Perm (a.filterMap id) ∧ out.Pairwise (· ≤ ·) := by
  obtain ⟨x0, hx0⟩ : ∃ x, a[0]? = some x := by
    cases a with
    | nil => exact absurd rfl h
    | cons x a => exact ⟨x, rfl⟩
  obtain ⟨mx, mn, e, h1, h2, h3⟩ := countMaxMin_spec a x0
  obtain ⟨mn, rfl⟩ : ∃ v, mn = some v := by
    cases mn with
    | none => exact absurd (h2 rfl) h
    | some v => exact ⟨v, rfl⟩
  obtain ⟨mx, rfl⟩ : ∃ v, mx = some v := by
    cases mx with
    | none => have := h1.1 rfl; cases this
    | some v => exact ⟨v, rfl⟩
  obtain ⟨hle, hb⟩ := h3 mx mn rfl rfl
  generalize hl : a.filterMap id = l at *
  let f : Int → Nat := fun x => (x - mn).toNat
  let m := (mx - mn + 1).toNat
  have hm : ∀ x ∈ l, f x < m := by
    intro x hx
    have := hb x hx
    show (x - mn).toNat < (mx - mn + 1).toNat
    omega
  -- tally
  obtain ⟨c1, e1, t1⟩ := forList_spec (α := Option Int) (σ := List Nat)
    (I := fun pre rest s => a = pre ++ rest ∧ IsTally f m (pre.filterMap id) s) (body := countTally mn) a [] (List.replicate m 0)
    ⟨rfl, tally_nil f m⟩
    (by
      rintro pre x rest s ⟨ha, ht⟩
      refine (fun ⟨s', h1, h2⟩ => ⟨s', h1, by simp [ha], h2⟩ : (∃ s', countTally mn x s = .ok s' ∧ IsTally f m ((pre ++ [x]).filterMap id) s') → _) ?_
      cases x with
      | none => exact ⟨s, rfl, by simpa using ht⟩
      | some x =>
        have hx : x ∈ l := by rw [← hl, ha]; simp
        obtain ⟨c, ec, s', ew, ht'⟩ := tally_step ht (hm x hx)
        refine ⟨s', ?_, by simpa using ht'⟩
        show (rd s (f x) >>= fun c => wr s (f x) (c + 1)) = _
        rw [ec, ok_bind, ew])
  have t1 := t1.2
  rw [List.nil_append, hl] at t1
  -- prefix sums
  obtain ⟨⟨c2, tot⟩, e2, p1, p2, p3, p4⟩ := forRange_spec (lo := 0) (hi := m) (s := (c1, 0)) (body := countPrefix)
    (fun k (s : List Nat × Nat) => s.1.length = m ∧ s.2 = ltc f l k ∧ (∀ v, v < k → s.1[v]? = some (ltc f l v)) ∧
      ∀ v, k ≤ v → v < m → s.1[v]? = some (bkt f l v).length) (Nat.zero_le _)
    ⟨t1.1, rfl, by intro v hv; omega, fun v _ hv => t1.2 v hv⟩
    (by
      rintro k ⟨c, tot⟩ _ hk ⟨p1, p2, p3, p4⟩
      dsimp only at p1 p2 p3 p4
      have hck := p4 k (Nat.le_refl _) hk
      refine ⟨_, by rw [countPrefix]; dsimp only; rw [rd_of_some hck, ok_bind, wr_of_lt _ (by omega), ok_bind], by simp [p1], ?_, ?_, ?_⟩
      · dsimp only; rw [ltc_succ, p2]; omega
      · intro v hv
        dsimp only
        by_cases hvk : v = k
        · subst hvk; rw [List.getElem?_set_self (by omega), p2]
        · rw [List.getElem?_set_ne (by omega)]; exact p3 v (by omega)
      · intro v hv1 hv2
        dsimp only
        rw [List.getElem?_set_ne (by omega)]; exact p4 v (by omega) hv2)
  dsimp only at p1 p2 p3 p4
  -- placing
  obtain ⟨⟨out, c3⟩, e3, -, q1, q2, q3⟩ := forList_spec (α := Option Int) (σ := List (Option Int) × List Nat)
    (I := fun pre rest s => a = pre ++ rest ∧ Cursor f m l (pre.filterMap id) s.2 ∧ s.1.length = l.length ∧
      Placed f m l (fun _ => 0) (fun v => (bkt f (pre.filterMap id) v).length) s.1) (body := countPlace mn) a [] (l.map some, c2)
    ⟨rfl, cursor_zero p1 (fun v hv => p3 v hv), by simp, by intro v o _ _ ho; simp [bkt] at ho⟩
    (by
      rintro pre x rest ⟨out, s⟩ ⟨ha, hc, ho, hp⟩
      dsimp only at hc ho hp
      cases x with
      | none => exact ⟨_, rfl, by simp [ha], by simpa using hc, ho, by simpa using hp⟩
      | some x =>
        have hl' : l = pre.filterMap id ++ x :: rest.filterMap id := by rw [← hl, ha]; simp
        obtain ⟨c, ec, out', ew, s', es, hc', ho', hp'⟩ := place_fwd hl' hm hc ho hp
        refine ⟨(out', s'), ?_, by simp [ha], by simpa using hc', ho', by simpa using hp'⟩
        show (rd s (f x) >>= fun c => wr out c (some x) >>= fun out => wr s (f x) (c + 1) >>= fun count => .ok (out, count)) = _
        rw [ec, ok_bind, ew, ok_bind, es, ok_bind])
  dsimp only at q1 q2 q3
  rw [List.nil_append, hl] at q3
  have hout : out = (dist f l m).map some := by
    apply List.ext_getElem?
    intro p
    by_cases hp : p < l.length
    · rw [placed_all hm q3 p hp, List.getElem?_map]
    · rw [List.getElem?_eq_none (by omega), List.getElem?_eq_none]
      rw [List.length_map, (dist_perm f m l hm).length_eq]; omega
  refine ⟨dist f l m, ?_, dist_perm f m l hm, ?_⟩
  · rw [countingSort, rd_of_some hx0, ok_bind, e, ok_bind]
    show (forList a (List.replicate m 0) (countTally mn) >>= _) = _
    rw [e1, ok_bind]
    show (forRange 0 m (c1, 0) countPrefix >>= _) = _
    rw [e2, ok_bind]
    show (forList a ((a.filterMap id).map some, c2) (countPlace mn) >>= _) = _
    rw [hl, e3, ok_bind]
    show _ = Except.ok _
    rw [hout]
  · refine (dist_pairwise f (fun _ _ => True) (List.pairwise_of_forall (fun _ _ => trivial)) m).imp_of_mem ?_
    intro x y hx hy h
    have h1 := hb x (mem_dist f hx).1
    have h2 := hb y (mem_dist f hy).1
    have : (x - mn).toNat ≤ (y - mn).toNat := by
      rcases h with h | h
      · exact Nat.le_of_lt h
      · exact Nat.le_of_eq h.1
    omega

/-- An array with only `None` cells is returned as it is; the empty array raises `IndexError`. -/
theorem C12_nothing_to_sort (n : Nat) : countingSort (List.replicate (n + 1) none) = .ok (List.replicate (n + 1) none) ∧
    countingSort [] = .error .indexError := by
  refine ⟨?_, rfl⟩
  have : ∀ (n : Nat), forList (List.replicate n none) ((none, none) : Option Int × Option Int) countMaxMin = .ok (none, none) := by
    intro n
    induction n with
    | zero => rfl
    | succ n ih => rw [List.replicate_succ, forList]; exact ih
  rw [countingSort, rd_of_some (x := none) (by simp), ok_bind, this, ok_bind]

example : countingSort [some 3, none, some (-2), some 7, some 3, none] = .ok [some (-2), some 3, some 3, some 7] := by decide

end Props
