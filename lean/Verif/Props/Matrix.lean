import Verif.Model.Matrix
import Verif.Lemmas.Py

/-! # C25: matrix multiplication -/
namespace Props
open Py Model

/-- `m` has `r` rows of `c` entries. -/
def MatShape {β : Type} (m : List (List β)) (r c : Nat) : Prop := m.length = r ∧ ∀ row ∈ m, row.length = c

/-- The entry of the product of matrices of inner dimension `n`. -/
def prodEntry (a b : List (List Int)) (n i j : Nat) : Int :=
  ((List.range n).map fun k => (a.getD i []).getD k 0 * (b.getD k []).getD j 0).sum

/-- `c` is the product of the `r × n` matrix `a` and the `n × m` matrix `b`. -/
def IsProduct (a b : List (List Int)) (r n m : Nat) (c : List (List (Option Int))) : Prop :=
  c = (List.range r).map fun i => (List.range m).map fun j => some (prodEntry a b n i j)

/-- C25, in full: every conformable pair, every order of the jobs. -/
def C25_full : Prop :=
  ∀ (a b : List (List Int)) (r n m : Nat) (sched : List (Nat × Nat) → List (Nat × Nat)), 0 < r → 0 < n → 0 < m → MatShape a r n → MatShape b n m →
    (∀ l, (sched l).Perm l) → ∃ c, matMul sched a b = .ok c ∧ IsProduct a b r n m c

theorem rd2_of_shape {β : Type} {m : List (List β)} {r c i j : Nat} (h : MatShape m r c) (hi : i < r) (hj : j < c) (d : β) :
    rd2 m i j = .ok ((m.getD i []).getD j d) := by
  obtain ⟨h1, h2⟩ := h
  subst h1
  have := h2 _ (List.getElem_mem hi)
  rw [rd2, rd_of_lt hi, ok_bind, rd_of_lt (by omega)]
  simp [List.getD, List.getElem?_eq_getElem hi]
  rw [List.getElem?_eq_getElem (by omega)]; rfl

theorem helper_spec {a b : List (List Int)} {r n m i j : Nat} (ha : MatShape a r n) (hb : MatShape b n m) (hrn : r ≤ n) (hi : i < r) (hj : j < m) :
    matHelper a b i j = .ok (prodEntry a b r i j) := by
  obtain ⟨s, e, hs⟩ := forRange_spec (fun k s => k ≤ r ∧ s = prodEntry a b k i j) (lo := 0) (hi := a.length) (s := (0 : Int))
    (body := fun i_1 s => do
      let x ← rd2 a i i_1
      let y ← rd2 b i_1 j
      .ok (s + x * y)) (Nat.zero_le _) ⟨Nat.zero_le _, rfl⟩ (by
      intro k s _ hk ⟨_, hs⟩
      rw [ha.1] at hk
      refine ⟨_, ?_, hk, rfl⟩
      rw [rd2_of_shape ha hi (by omega) 0, ok_bind, rd2_of_shape hb (by omega) hj 0, ok_bind, hs]
      simp [prodEntry, List.range_succ])
  rw [matHelper, e, hs.2, ha.1]

/-- Setting the cells of a list `cells` in a matrix. -/
theorem cells_spec {a b : List (List Int)} {r n m : Nat} (ha : MatShape a r n) (hb : MatShape b n m) (hrn : r ≤ n) (hmn : m ≤ n) :
    ∀ (cells : List (Nat × Nat)) (c : List (List (Option Int))), (∀ ij ∈ cells, ij.1 < r ∧ ij.2 < m) → MatShape c n n →
      ∃ c', forList cells c (matCell a b) = .ok c' ∧ MatShape c' n n ∧ ∀ i j, i < n → j < n →
        (c'.getD i []).getD j none = if (i, j) ∈ cells then some (prodEntry a b r i j) else (c.getD i []).getD j none := by
  intro cells
  induction cells with
  | nil => intro c _ h; exact ⟨c, rfl, h, by simp⟩
  | cons ij cells ih =>
    intro c hc h
    obtain ⟨p, q⟩ := ij
    obtain ⟨hp, hq⟩ := hc (p, q) (by simp)
    dsimp only at hp hq
    have hpl : p < c.length := by rw [h.1]; omega
    have hrow : (c[p]).length = n := h.2 _ (List.getElem_mem hpl)
    have e1 : matCell a b (p, q) c = .ok (c.set p (c[p].set q (some (prodEntry a b r p q)))) := by
      rw [matCell, helper_spec ha hb hrn hp hq, ok_bind, wr2, rd_of_lt hpl, ok_bind, wr_of_lt _ (by omega), ok_bind, wr_of_lt _ hpl]
    have hs : MatShape (c.set p (c[p].set q (some (prodEntry a b r p q)))) n n := by
      refine ⟨by simp [h.1], ?_⟩
      intro row hr
      rcases List.mem_or_eq_of_mem_set hr with hr | hr
      · exact h.2 _ hr
      · rw [hr, List.length_set, hrow]
    obtain ⟨c', e, hs', hv⟩ := ih _ (fun x hx => hc x (by simp [hx])) hs
    refine ⟨c', by rw [forList, e1, ok_bind, e], hs', ?_⟩
    intro i j hi hj
    rw [hv i j hi hj]
    by_cases hm : (i, j) ∈ cells
    · simp [hm]
    · rw [if_neg hm]
      by_cases hij : i = p ∧ j = q
      · obtain ⟨rfl, rfl⟩ := hij
        simp [List.getD, hpl, hrow, hj]
      · have : ¬ (i, j) ∈ (p, q) :: cells := by
          simp only [List.mem_cons, Prod.mk.injEq]; rintro (h | h)
          · exact hij h
          · exact hm h
        rw [if_neg this]
        by_cases hip : i = p
        · subst hip
          have hjq : q ≠ j := fun h => hij ⟨rfl, h.symm⟩
          simp [List.getD, hpl, hjq]
        · have : p ≠ i := fun h => hip h.symm
          simp [List.getD, this]

/-- C25 for square matrices of the same size, whatever the order of the jobs. Missing: see `C25_full_false`. -/
theorem C25_square_partial (a b : List (List Int)) (n : Nat) (hn : 0 < n) (ha : MatShape a n n) (hb : MatShape b n n)
    (sched : List (Nat × Nat) → List (Nat × Nat)) (hsched : ∀ l, (sched l).Perm l) :
    ∃ c, matMul sched a b = .ok c ∧ IsProduct a b n n n c := by
  have ha0 : 0 < a.length := by rw [ha.1]; exact hn
  have hb0 : 0 < b.length := by rw [hb.1]; exact hn
  have hr1 : (a[0]).length = n := ha.2 _ (List.getElem_mem ha0)
  have hr2 : (b[0]).length = n := hb.2 _ (List.getElem_mem hb0)
  have hmem : ∀ ij, ij ∈ sched (matCells n n) ↔ ij.1 < n ∧ ij.2 < n := by
    intro ij
    rw [(hsched _).mem_iff]
    obtain ⟨i, j⟩ := ij
    simp [matCells]
  obtain ⟨c, e, hs, hv⟩ := cells_spec ha hb (Nat.le_refl _) (Nat.le_refl _) (sched (matCells n n)) (List.replicate n (List.replicate n none))
    (fun ij h => (hmem ij).1 h) ⟨by simp, by simp +contextual⟩
  refine ⟨c, ?_, ?_⟩
  · rw [matMul, rd_of_lt ha0, ok_bind, rd_of_lt hb0, ok_bind, if_neg (by rw [hr1, hb.1]; simp), hr1, hr2, ha.1, hb.1, e]
  · rw [IsProduct]
    apply List.ext_getElem
    · simp [hs.1]
    · intro i h1 h2
      have hi : i < n := by rw [hs.1] at h1; exact h1
      have hrow : (c[i]).length = n := hs.2 _ (List.getElem_mem h1)
      apply List.ext_getElem
      · simp [hrow]
      · intro j h3 h4
        have hj : j < n := by rw [hrow] at h3; exact h3
        have := hv i j hi hj
        rw [if_pos ((hmem _).2 ⟨hi, hj⟩)] at this
        simp [List.getD, List.getElem?_eq_getElem h1, List.getElem?_eq_getElem h3] at this
        simp [this]

/-- The code is wrong for a `1 × 2` times a `2 × 1` matrix: the sum stops after as many terms as the first matrix has rows, and the
result has the wrong shape. -/
theorem C25_wide_wrong : matMul id [[1, 1]] [[1], [1]] = .ok [[some 1, none], [none, none]] := by decide

/-- And it raises `IndexError` for a `2 × 1` times a `1 × 2` matrix. -/
theorem C25_tall_raises : matMul id [[1], [1]] [[1, 1]] = .error .indexError := by decide

theorem C25_full_false : ¬ C25_full := by
  intro h
  obtain ⟨c, e, _⟩ := h [[1], [1]] [[1, 1]] 2 1 2 id (by decide) (by decide) (by decide) ⟨rfl, by simp⟩ ⟨rfl, by simp⟩ (fun l => List.Perm.refl l)
  rw [C25_tall_raises] at e
  cases e

/-- What the code returns for an `r × n` matrix times an `n × m` matrix when neither `r` nor `m` exceeds `n`: an `n × n` matrix, whose
entries stop after `r` terms and are `None` outside of the first `r` rows and `m` columns. -/
def truncated (a b : List (List Int)) (r n m : Nat) : List (List (Option Int)) :=
  (List.range n).map fun i => (List.range n).map fun j => if i < r ∧ j < m then some (prodEntry a b r i j) else none

theorem helper_raises {a b : List (List Int)} {r n m i j : Nat} (ha : MatShape a r n) (hb : MatShape b n m) (hrn : n < r) (hi : i < r) (hj : j < m) :
    matHelper a b i j = .error .indexError := by
  have key : ∀ (d k : Nat) (s : Int), k ≤ n → k + d = r → Py.loop (fun i_1 (s : Int) => do
      let x ← rd2 a i i_1
      let y ← rd2 b i_1 j
      .ok (s + x * y)) d k s = .error .indexError := by
    intro d
    induction d with
    | zero => intro k s h1 h2; omega
    | succ d ih =>
      intro k s h1 h2
      rw [Py.loop]
      by_cases hk : k < n
      · rw [rd2_of_shape ha hi hk 0, ok_bind, rd2_of_shape hb hk hj 0, ok_bind, ok_bind]
        exact ih _ _ (by omega) (by omega)
      · have hia : i < a.length := by rw [ha.1]; exact hi
        have hrow : (a[i]).length = n := ha.2 _ (List.getElem_mem hia)
        have : rd2 a i k = .error .indexError := by
          rw [rd2, rd_of_lt hia, ok_bind, rd, List.getElem?_eq_none (by omega)]
        rw [this]; rfl
  rw [matHelper, forRange, ha.1]
  exact key _ _ _ (Nat.zero_le _) (by omega)

theorem cells_raise {a b : List (List Int)} {r n m : Nat} (ha : MatShape a r n) (hb : MatShape b n m) (hrn : r ≤ n) :
    ∀ (cells : List (Nat × Nat)) (c : List (List (Option Int))), (∀ ij ∈ cells, ij.1 < r ∧ ij.2 < m) → (∃ ij ∈ cells, n ≤ ij.2) → MatShape c n n →
      forList cells c (matCell a b) = .error .indexError := by
  intro cells
  induction cells with
  | nil => rintro c _ ⟨_, h, _⟩; cases h
  | cons ij cells ih =>
    intro c hc hex h
    obtain ⟨p, q⟩ := ij
    obtain ⟨hp, hq⟩ := hc (p, q) (by simp)
    dsimp only at hp hq
    have hpl : p < c.length := by rw [h.1]; omega
    have hrow : (c[p]).length = n := h.2 _ (List.getElem_mem hpl)
    by_cases hqn : q < n
    · have e1 : matCell a b (p, q) c = .ok (c.set p (c[p].set q (some (prodEntry a b r p q)))) := by
        rw [matCell, helper_spec ha hb hrn hp hq, ok_bind, wr2, rd_of_lt hpl, ok_bind, wr_of_lt _ (by omega), ok_bind, wr_of_lt _ hpl]
      have hs : MatShape (c.set p (c[p].set q (some (prodEntry a b r p q)))) n n := by
        refine ⟨by simp [h.1], ?_⟩
        intro row hr
        rcases List.mem_or_eq_of_mem_set hr with hr | hr
        · exact h.2 _ hr
        · rw [hr, List.length_set, hrow]
      rw [forList, e1, ok_bind]
      refine ih _ (fun x hx => hc x (by simp [hx])) ?_ hs
      obtain ⟨x, hx, hx'⟩ := hex
      rcases List.mem_cons.1 hx with rfl | hx
      · dsimp only at hx'; omega
      · exact ⟨x, hx, hx'⟩
    · have e1 : matCell a b (p, q) c = .error .indexError := by
        rw [matCell, helper_spec ha hb hrn hp hq, ok_bind, wr2, rd_of_lt hpl, ok_bind, wr, if_neg (by omega)]; rfl
      rw [forList, e1]; rfl

/-- C25, exactly, for every conformable pair and every order of the jobs: `IndexError` if one of the outer dimensions exceeds the inner one,
otherwise the `truncated` matrix. -/
theorem C25_exact (a b : List (List Int)) (r n m : Nat) (hr : 0 < r) (hn : 0 < n) (hm : 0 < m) (ha : MatShape a r n) (hb : MatShape b n m)
    (sched : List (Nat × Nat) → List (Nat × Nat)) (hsched : ∀ l, (sched l).Perm l) :
    matMul sched a b = if r ≤ n ∧ m ≤ n then .ok (truncated a b r n m) else .error .indexError := by
  have ha0 : 0 < a.length := by rw [ha.1]; exact hr
  have hb0 : 0 < b.length := by rw [hb.1]; exact hn
  have hr1 : (a[0]).length = n := ha.2 _ (List.getElem_mem ha0)
  have hr2 : (b[0]).length = m := hb.2 _ (List.getElem_mem hb0)
  have hmem : ∀ ij, ij ∈ sched (matCells r m) ↔ ij.1 < r ∧ ij.2 < m := by
    intro ij
    rw [(hsched _).mem_iff]
    obtain ⟨i, j⟩ := ij
    simp [matCells]
  rw [matMul, rd_of_lt ha0, ok_bind, rd_of_lt hb0, ok_bind, if_neg (by rw [hr1, hb.1]; simp), hr1, hr2, ha.1, hb.1]
  by_cases hrn : r ≤ n
  · by_cases hmn : m ≤ n
    · rw [if_pos ⟨hrn, hmn⟩]
      obtain ⟨c, e, hs, hv⟩ := cells_spec ha hb hrn hmn (sched (matCells r m)) (List.replicate n (List.replicate n none))
        (fun ij h => (hmem ij).1 h) ⟨by simp, by simp +contextual⟩
      rw [e]
      congr 1
      rw [truncated]
      apply List.ext_getElem
      · simp [hs.1]
      · intro i h1 h2
        have hi : i < n := by rw [hs.1] at h1; exact h1
        have hrow : (c[i]).length = n := hs.2 _ (List.getElem_mem h1)
        apply List.ext_getElem
        · simp [hrow]
        · intro j h3 h4
          have hj : j < n := by rw [hrow] at h3; exact h3
          have := hv i j hi hj
          simp only [hmem] at this
          simp [List.getD, List.getElem?_eq_getElem h1, List.getElem?_eq_getElem h3, hi, hj] at this
          simp [this]
    · rw [if_neg (fun h => hmn h.2)]
      exact cells_raise ha hb hrn _ _ (fun ij h => (hmem ij).1 h) ⟨(0, n), (hmem _).2 ⟨hr, by dsimp only; omega⟩, Nat.le_refl _⟩ ⟨by simp, by simp +contextual⟩
  · rw [if_neg (fun h => hrn h.1)]
    have h0 : (0, 0) ∈ sched (matCells r m) := (hmem _).2 ⟨hr, hm⟩
    cases hc : sched (matCells r m) with
    | nil => rw [hc] at h0; cases h0
    | cons ij l =>
      obtain ⟨q1, q2⟩ := (hmem ij).1 (by rw [hc]; simp)
      rw [forList, matCell, helper_raises ha hb (by omega) q1 q2]
      rfl

/-- So the result is the product exactly for square matrices. -/
theorem C25_product_iff (a b : List (List Int)) (r n m : Nat) (hr : 0 < r) (hn : 0 < n) (hm : 0 < m) (ha : MatShape a r n) (hb : MatShape b n m)
    (sched : List (Nat × Nat) → List (Nat × Nat)) (hsched : ∀ l, (sched l).Perm l) :
    (∃ c, matMul sched a b = .ok c ∧ IsProduct a b r n m c) ↔ r = n ∧ m = n := by
  constructor
  · rintro ⟨c, e, hc⟩
    rw [C25_exact a b r n m hr hn hm ha hb sched hsched] at e
    split at e
    · cases e
      rw [IsProduct] at hc
      have h1 := congrArg List.length hc
      have h2 := congrArg (fun l => (l.getD 0 []).length) hc
      simp [truncated] at h1
      simp [truncated, List.getD, hr, hn] at h2
      omega
    · cases e
  · rintro ⟨rfl, rfl⟩
    exact C25_square_partial a b _ hn ha hb sched hsched

example : matMul List.reverse [[1, 2]] [[3], [4]] = .ok (truncated [[1, 2]] [[3], [4]] 1 2 1) := by decide

/-- A mismatch of the inner dimensions is reported as `ValueError`. -/
theorem C25_mismatch (a b : List (List Int)) (r n n' m : Nat) (hr : 0 < r) (hn' : 0 < n') (ha : MatShape a r n) (hb : MatShape b n' m) (h : n ≠ n')
    (sched : List (Nat × Nat) → List (Nat × Nat)) : matMul sched a b = .error .valueError := by
  have ha0 : 0 < a.length := by rw [ha.1]; exact hr
  have hb0 : 0 < b.length := by rw [hb.1]; exact hn'
  have hr1 : (a[0]).length = n := ha.2 _ (List.getElem_mem ha0)
  rw [matMul, rd_of_lt ha0, ok_bind, rd_of_lt hb0, ok_bind, if_pos (by rw [hr1, hb.1]; exact h)]

example : matMul List.reverse [[1, 1, 0], [0, 1, 0], [0, 0, 1]] [[2, 1, 2], [1, 2, 1], [2, 2, 2]] =
    .ok [[some 3, some 3, some 3], [some 1, some 2, some 1], [some 2, some 2, some 2]] := by decide

end Props
