import Verif.Props.Kmp

/-! # C52: Boyer-Moore -/
namespace Props
open Py Model Spec
variable {α : Type} [DecidableEq α]

/-- The table maps a character to its last position in the query. -/
def BmOk (q : List α) (n : Nat) (table : α → Option Int) : Prop :=
  ∀ c, match table c with
    | none => ∀ (j : Nat), j < n → q[j]? ≠ some c
    | some i => ∃ k : Nat, i = k ∧ k < n ∧ q[k]? = some c ∧ ∀ (j : Nat), k < j → j < n → q[j]? ≠ some c

theorem bmTable_spec (q : List α) : ∃ table, bmTable q = .ok table ∧ BmOk q q.length table := by
  refine forRange_spec (fun n table => BmOk q n table) (Nat.zero_le _) ?_ ?_
  · intro c j hj; exact absurd hj (Nat.not_lt_zero _)
  · intro n table _ hn h
    rw [rd_of_lt hn]
    refine ⟨_, rfl, ?_⟩
    intro c
    by_cases e : c = q[n]
    · simp only [if_pos e]
      refine ⟨n, rfl, by omega, by rw [List.getElem?_eq_getElem hn, e], ?_⟩
      intro j h1 h2; omega
    · simp only [if_neg e]
      have hne : q[n]? ≠ some c := by
        rw [List.getElem?_eq_getElem hn]; exact fun h => e (Option.some.inj h).symm
      have := h c
      cases hc : table c with
      | none =>
        rw [hc] at this
        intro j hj
        by_cases ej : j = n
        · rw [ej]; exact hne
        · exact this j (by omega)
      | some i =>
        rw [hc] at this
        obtain ⟨k, h1, h2, h3, h4⟩ := this
        refine ⟨k, h1, by omega, h3, ?_⟩
        intro j hj1 hj2
        by_cases ej : j = n
        · rw [ej]; exact hne
        · exact h4 j hj1 (by omega)

/-- The inner loop stops at the last mismatch, or below 0 when the query occurs here. -/
theorem bmCompare_spec (t q : List α) (s : Nat) (hs : s + q.length ≤ t.length) :
    ∃ j : Int, bmCompare t q s (q.length - 1) = .ok j ∧
      ((j = -1 ∧ Occ t q s) ∨ ∃ k : Nat, j = k ∧ k < q.length ∧ t[s + k]? ≠ q[k]?) := by
  have hcond : ∀ k : Nat, k < q.length → (do
        let a ← strAt q k
        let b ← strAt t ((s : Int) + k)
        (.ok (decide (a = b)) : PyM Bool)) = .ok (decide (t[s + k]? = q[k]?)) := by
    intro k hk
    have hk' : s + k < t.length := by omega
    rw [strAt_nat q k hk, ok_bind, show (s : Int) + k = ((s + k : Nat) : Int) by omega, strAt_nat t _ hk', ok_bind,
      List.getElem?_eq_getElem hk, List.getElem?_eq_getElem hk']
    congr 1
    simp only [Option.some.injEq, decide_eq_decide]
    exact ⟨fun h => h.symm, fun h => h.symm⟩
  obtain ⟨j, e, h, hf⟩ := whileLoop_spec
    (I := fun (j : Int) => -1 ≤ j ∧ j < q.length ∧ ∀ i : Nat, j < i → i < q.length → t[s + i]? = q[i]?) (fun j => (j + 1).toNat)
    (cond := fun j => if 0 ≤ j then do
        let a ← strAt q j
        let b ← strAt t (s + j)
        .ok (decide (a = b))
      else .ok false) (body := fun j => .ok (j - 1))
    (by
      rintro j ⟨h1, h2, _⟩
      by_cases h0 : 0 ≤ j
      · obtain ⟨k, rfl⟩ := Int.eq_ofNat_of_zero_le h0
        rw [if_pos h0, hcond k (by omega)]
        exact ⟨_, rfl⟩
      · exact ⟨false, by rw [if_neg h0]⟩)
    (by
      rintro j ⟨h1, h2, h3⟩ hc
      by_cases h0 : 0 ≤ j
      · obtain ⟨k, rfl⟩ := Int.eq_ofNat_of_zero_le h0
        rw [if_pos h0, hcond k (by omega)] at hc
        have hc' : t[s + k]? = q[k]? := by simpa using hc
        refine ⟨_, rfl, ⟨by omega, by omega, ?_⟩, by omega⟩
        intro i hi1 hi2
        by_cases ei : i = k
        · rw [ei]; exact hc'
        · exact h3 i (by omega) hi2
      · rw [if_neg h0] at hc; cases hc)
    (q.length + 1) ((q.length : Int) - 1) ⟨by omega, by omega, fun i h1 h2 => by omega⟩ (by omega)
  refine ⟨j, e, ?_⟩
  obtain ⟨h1, h2, h3⟩ := h
  by_cases h0 : 0 ≤ j
  · obtain ⟨k, rfl⟩ := Int.eq_ofNat_of_zero_le h0
    rw [if_pos h0, hcond k (by omega)] at hf
    exact Or.inr ⟨k, rfl, by omega, by simpa using hf⟩
  · exact Or.inl ⟨by omega, fun i hi => h3 i (by omega) hi⟩

structure BmInv (t q : List α) (st : Int × List Int) : Prop where
  s : ∃ s : Nat, st.1 = s ∧ st.2 = occBefore t q s

theorem bmStep_spec (t q : List α) (table : α → Option Int) (hq : 0 < q.length) (ht : BmOk q q.length table) (s : Nat)
    (hs : s + q.length ≤ t.length) :
    ∃ s' : Nat, s < s' ∧ bmStep t q table ((s : Int), occBefore t q s) = .ok ((s' : Int), occBefore t q s') := by
  obtain ⟨j, e, h⟩ := bmCompare_spec t q s hs
  unfold bmStep
  dsimp only
  rw [e, ok_bind]
  -- an occurrence at `s'` whose window covers the text position `p` puts the character at `p` into the query
  have hcov : ∀ (s' p : Nat) (hp : p < t.length), s' ≤ p → p < s' + q.length → Occ t q s' →
      q[p - s']? = some t[p] := by
    intro s' p hp h1 h2 ho
    rw [← ho (p - s') (by omega), show s' + (p - s') = p by omega, List.getElem?_eq_getElem hp]
  rcases h with ⟨rfl, hocc⟩ | ⟨k, rfl, hk, hmis⟩
  · rw [if_pos (by omega)]
    by_cases hlt : s + q.length < t.length
    · rw [if_pos (by omega), show (s : Int) + q.length = ((s + q.length : Nat) : Int) by omega, strAt_nat t _ hlt, ok_bind]
      have hc := ht t[s + q.length]
      cases hcase : table t[s + q.length] with
      | none =>
        rw [hcase] at hc
        refine ⟨s + q.length + 1, by omega, ?_⟩
        dsimp only
        rw [occBefore_skip (s := s + 1) (s' := s + q.length + 1) (by omega), occBefore_succ_pos hocc]
        · congr 2
        · intro s' h1 h2 ho
          exact hc (s + q.length - s') (by omega) (hcov s' _ hlt (by omega) (by omega) ho)
      | some i =>
        rw [hcase] at hc
        obtain ⟨k, rfl, hk1, hk2, hk3⟩ := hc
        refine ⟨s + (q.length - k), by omega, ?_⟩
        dsimp only
        rw [occBefore_skip (s := s + 1) (s' := s + (q.length - k)) (by omega), occBefore_succ_pos hocc]
        · congr 2; omega
        · intro s' h1 h2 ho
          exact hk3 (s + q.length - s') (by omega) (by omega) (hcov s' _ hlt (by omega) (by omega) ho)
    · rw [if_neg (by omega)]
      refine ⟨s + 1, by omega, ?_⟩
      rw [occBefore_succ_pos hocc]
      congr 2
  · rw [if_neg (by omega)]
    have hno : ¬ Occ t q s := fun ho => hmis (ho k hk)
    have hlt : s + k < t.length := by omega
    rw [show (s : Int) + k = ((s + k : Nat) : Int) by omega, strAt_nat t _ hlt, ok_bind]
    have hc := ht t[s + k]
    cases hcase : table t[s + k] with
    | none =>
      rw [hcase] at hc
      refine ⟨s + (k + 1), by omega, ?_⟩
      dsimp only
      rw [occBefore_skip (s := s) (s' := s + (k + 1)) (by omega)]
      · congr 2; omega
      · intro s' h1 h2 ho
        exact hc (s + k - s') (by omega) (hcov s' _ hlt (by omega) (by omega) ho)
    | some i =>
      rw [hcase] at hc
      obtain ⟨l, rfl, hl1, hl2, hl3⟩ := hc
      refine ⟨s + max 1 (k - l), by omega, ?_⟩
      dsimp only
      rw [occBefore_skip (s := s) (s' := s + max 1 (k - l)) (by omega)]
      · congr 2; omega
      · intro s' h1 h2 ho
        by_cases es : s' = s
        · rw [es] at ho; exact hno ho
        · exact hl3 (s + k - s') (by omega) (by omega) (hcov s' _ hlt (by omega) (by omega) ho)

/-- C52: for every text and every non-empty query, `find(text, query, 'boyer_moore')` returns exactly the positions at which the query
occurs. -/
theorem C52_boyer_moore (text query : List α) (hq : query ≠ []) : bmFind text query = .ok (occurrences text query) := by
  have hq' : 0 < query.length := List.length_pos_iff.2 hq
  unfold bmFind
  by_cases h0 : text.length = 0
  · have : text = [] := List.length_eq_zero_iff.1 h0
    subst this
    rfl
  · rw [if_neg (by omega)]
    obtain ⟨table, e, ht⟩ := bmTable_spec query
    rw [e, ok_bind]
    obtain ⟨st, e, ⟨s, hs1, hs2⟩, hf⟩ := whileLoop_spec (I := BmInv text query) (fun st => text.length + 1 - st.1.toNat)
      (cond := fun (st : Int × List Int) => .ok (decide (st.1 ≤ (text.length : Int) - query.length))) (body := bmStep text query table)
      (fun st _ => ⟨_, rfl⟩)
      (by
        rintro ⟨s, ps⟩ ⟨s, rfl, hps⟩ hc
        dsimp only at hps hc
        subst hps
        have : (s : Int) ≤ (text.length : Int) - query.length := by simpa using hc
        obtain ⟨s', h1, h2⟩ := bmStep_spec text query table hq' ht s (by omega)
        exact ⟨_, h2, ⟨s', rfl, rfl⟩, by dsimp only; omega⟩)
      (text.length + 2) (0, []) ⟨0, rfl, rfl⟩ (by dsimp only; omega)
    rw [e, ok_bind]
    obtain ⟨s0, ps⟩ := st
    dsimp only at hs1 hs2 ⊢
    subst hs1
    have : ¬ (s : Int) ≤ (text.length : Int) - query.length := by simpa using hf
    rw [hs2, occurrences_eq hq' (s := s) (by omega)]

/-- C52: an empty query is found nowhere. -/
theorem C52_empty_query (text : List α) : bmFind text [] = .ok [] := by
  simp [bmFind]

example : bmFind "abababcab".toList "abab".toList = .ok [0, 2] := by decide +kernel

end Props
