import Verif.Model.Strings
import Verif.Lemmas.Py
import Verif.Props.StringSpec

/-! # C50: Knuth-Morris-Pratt -/
namespace Props
open Py Model Spec
variable {α : Type} [DecidableEq α]
set_option linter.unusedSectionVars false

theorem strAt_nat (s : List α) (i : Nat) (h : i < s.length) : strAt s (i : Int) = .ok s[i] := by
  have : listIndex s.length (i : Int) = some i := by
    rw [listIndex, if_pos (by omega), if_pos (by omega)]; simp
  rw [strAt, this]; exact rd_of_lt h

theorem tabAt_nat {t : List (Option Int)} {i : Nat} {v : Int} (h : t[i]? = some (some v)) : tabAt t (i : Int) = .ok v := by
  rw [tabAt, if_neg (by omega)]
  simp [rd_of_some h]

/-- `k` is a proper border of the first `p` characters of `q`. -/
def Bord (q : List α) (p k : Nat) : Prop := k < p ∧ ∀ (j : Nat), j < k → q[j]? = q[p - k + j]?

/-- `v` is the longest border of the prefix of length `p` that is not followed by the same character as the prefix; `-1` if there is none. -/
structure Fail (q : List α) (p : Nat) (v : Int) : Prop where
  low : -1 ≤ v
  bord : ∀ k : Nat, v = k → Bord q p k ∧ q[k]? ≠ q[p]?
  max : ∀ k : Nat, Bord q p k → q[k]? ≠ q[p]? → (k : Int) ≤ v

/-- `c` is the longest proper border of the prefix of length `p`. -/
structure Longest (q : List α) (p c : Nat) : Prop where
  bord : Bord q p c
  max : ∀ k : Nat, Bord q p k → k ≤ c

theorem Bord.trans {q : List α} {p c k : Nat} (h1 : Bord q p c) (h2 : Bord q c k) : Bord q p k := by
  refine ⟨by have := h1.1; have := h2.1; omega, ?_⟩
  intro j hj
  have a1 := h1.1; have a2 := h2.1
  rw [h2.2 j hj, h1.2 (c - k + j) (by omega)]
  congr 1; omega

theorem Bord.of_lt {q : List α} {p c k : Nat} (h1 : Bord q p c) (h2 : Bord q p k) (h : k < c) : Bord q c k := by
  refine ⟨h, ?_⟩
  intro j hj
  have a1 := h1.1; have a2 := h2.1
  rw [h2.2 j hj, h1.2 (c - k + j) (by omega)]
  congr 1; omega

theorem Bord.zero (q : List α) (p : Nat) (h : 0 < p) : Bord q p 0 := ⟨h, fun j hj => absurd hj (Nat.not_lt_zero _)⟩

theorem Bord.succ {q : List α} {p k : Nat} (h : Bord q p k) (e : q[k]? = q[p]?) : Bord q (p + 1) (k + 1) := by
  refine ⟨by have := h.1; omega, ?_⟩
  intro j hj
  have := h.1
  by_cases hj' : j = k
  · subst hj'; rw [e]; congr 1; omega
  · rw [h.2 j (by omega)]; congr 1; omega

theorem Bord.pred {q : List α} {p k : Nat} (h : Bord q (p + 1) (k + 1)) : Bord q p k ∧ q[k]? = q[p]? := by
  have := h.1
  refine ⟨⟨by omega, ?_⟩, ?_⟩
  · intro j hj
    rw [h.2 j (by omega)]; congr 1; omega
  · rw [h.2 k (by omega)]; congr 1; omega

/-! ## The table -/

/-- Invariant of the inner loop: all borders followed by the right character are still ahead. -/
structure Back (q : List α) (p : Nat) (c : Int) : Prop where
  low : -1 ≤ c
  bord : ∀ k : Nat, c = k → Bord q p k
  max : ∀ k : Nat, Bord q p k → q[k]? = q[p]? → (k : Int) ≤ c

theorem kmpBack_spec (q : List α) (table : List (Option Int)) (p : Nat) (hp : p < q.length)
    (ht : ∀ i : Nat, i < p → ∃ v, table[i]? = some (some v) ∧ Fail q i v) (c : Nat) (hc : Longest q p c) :
    ∃ c', kmpBack q table p c = .ok c' ∧ -1 ≤ c' ∧ Longest q (p + 1) (c' + 1).toNat := by
  obtain ⟨c', e, h, hf⟩ := whileLoop_spec (I := Back q p) (fun c => (c + 1).toNat)
    (cond := fun cnd => if 0 ≤ cnd then do
        let a ← strAt q p
        let b ← strAt q cnd
        .ok (decide (a ≠ b))
      else .ok false) (body := fun cnd => tabAt table cnd)
    (by
      intro c h
      by_cases h0 : 0 ≤ c
      · obtain ⟨k, rfl⟩ := Int.eq_ofNat_of_zero_le h0
        have := (h.bord k rfl).1
        rw [if_pos h0, strAt_nat q p hp, ok_bind, strAt_nat q k (by omega)]
        exact ⟨_, rfl⟩
      · exact ⟨false, by rw [if_neg h0]⟩)
    (by
      intro c h hcond
      by_cases h0 : 0 ≤ c
      · obtain ⟨k, rfl⟩ := Int.eq_ofNat_of_zero_le h0
        have hb := h.bord k rfl
        have hkp := hb.1
        rw [if_pos h0, strAt_nat q p hp, ok_bind, strAt_nat q k (by omega), ok_bind] at hcond
        have hne : q[k]? ≠ q[p]? := by
          rw [List.getElem?_eq_getElem hp, List.getElem?_eq_getElem (by omega : k < q.length)]
          intro e
          have : q[p] = q[k] := (Option.some.inj e).symm
          simp [this] at hcond
        obtain ⟨v, hv, hF⟩ := ht k hkp
        refine ⟨v, tabAt_nat hv, ⟨hF.low, fun j hj => hb.trans (hF.bord j hj).1, ?_⟩, ?_⟩
        · intro j hj he
          have hjk := h.max j hj he
          have : j ≠ k := by rintro rfl; exact hne he
          have hjk' : j < k := by omega
          exact hF.max j (Bord.of_lt hb hj hjk') (by rw [he]; exact fun e => hne e.symm)
        · have : v < k := by
            rcases Int.lt_or_le v 0 with hv0 | hv0
            · omega
            · obtain ⟨j, rfl⟩ := Int.eq_ofNat_of_zero_le hv0
              have := (hF.bord j rfl).1.1
              omega
          have := hF.low
          show (v + 1).toNat < ((k : Int) + 1).toNat
          omega
      · rw [if_neg h0] at hcond; cases hcond)
    (q.length + 2) c ⟨by omega, fun k hk => by have : k = c := by omega
                                               rw [this]; exact hc.bord,
      fun k hk _ => by have := hc.max k hk; omega⟩ (by have := hc.bord.1; omega)
  refine ⟨c', e, h.low, ?_⟩
  by_cases h0 : 0 ≤ c'
  · obtain ⟨k, rfl⟩ := Int.eq_ofNat_of_zero_le h0
    have hb := h.bord k rfl
    have hkp := hb.1
    rw [if_pos h0, strAt_nat q p hp, ok_bind, strAt_nat q k (by omega), ok_bind] at hf
    have he : q[k]? = q[p]? := by
      rw [List.getElem?_eq_getElem hp, List.getElem?_eq_getElem (by omega : k < q.length)]
      have := Except.ok.inj hf
      simp only [ne_eq, decide_not, Bool.not_eq_eq_eq_not, Bool.not_false, decide_eq_true_eq] at this
      rw [this]
    have e1 : ((k : Int) + 1).toNat = k + 1 := by omega
    rw [e1]
    refine ⟨hb.succ he, ?_⟩
    intro j hj
    cases j with
    | zero => omega
    | succ j =>
      obtain ⟨a, b⟩ := hj.pred
      have := h.max j a b
      omega
  · have := h.low
    have e1 : (c' + 1).toNat = 0 := by omega
    rw [e1]
    refine ⟨Bord.zero q _ (by omega), ?_⟩
    intro j hj
    cases j with
    | zero => omega
    | succ j =>
      obtain ⟨a, b⟩ := hj.pred
      have := h.max j a b
      omega

/-- State of the outer loop. -/
structure TabInv (q : List α) (st : Nat × Int × List (Option Int)) : Prop where
  pos1 : 1 ≤ st.1
  pos2 : st.1 ≤ q.length
  len : st.2.2.length = q.length + 1
  cnd : ∃ c : Nat, st.2.1 = c ∧ Longest q st.1 c
  tab : ∀ i : Nat, i < st.1 → ∃ v, st.2.2[i]? = some (some v) ∧ Fail q i v

theorem Longest.fail_ne {q : List α} {p c : Nat} (h : Longest q p c) (hne : q[c]? ≠ q[p]?) : Fail q p c :=
  ⟨by omega, fun k hk => by have : k = c := by omega
                            subst this; exact ⟨h.bord, hne⟩,
   fun k hk _ => by have := h.max k hk; omega⟩

theorem Longest.fail_eq {q : List α} {p c : Nat} (h : Longest q p c) (he : q[c]? = q[p]?) {v : Int} (hv : Fail q c v) : Fail q p v := by
  refine ⟨hv.low, ?_, ?_⟩
  · intro k hk
    obtain ⟨a, b⟩ := hv.bord k hk
    exact ⟨h.bord.trans a, by rw [← he]; exact b⟩
  · intro k hk hne
    have hkc := h.max k hk
    have : k ≠ c := by rintro rfl; exact hne he
    exact hv.max k (Bord.of_lt h.bord hk (by omega)) (by rw [he]; exact hne)

theorem kmpStep_spec (q : List α) (st : Nat × Int × List (Option Int)) (h : TabInv q st) (hp : st.1 < q.length) :
    ∃ st', kmpStep q st = .ok st' ∧ TabInv q st' ∧ st'.1 = st.1 + 1 := by
  obtain ⟨pos, cnd, table⟩ := st
  obtain ⟨h1, h2, h3, ⟨c, rfl, hc⟩, ht⟩ := h
  dsimp only at h1 h2 h3 hc ht hp
  have hcp := hc.bord.1
  have hw : ∀ v, wr table pos (some v) = .ok (table.set pos (some v)) := fun v => wr_of_lt _ (by omega)
  have hset : ∀ v, Fail q pos v → ∀ i : Nat, i < pos + 1 → ∃ v', (table.set pos (some v))[i]? = some (some v') ∧ Fail q i v' := by
    intro v hv i hi
    by_cases e : i = pos
    · subst e
      exact ⟨v, by rw [List.getElem?_set_self (by omega)], hv⟩
    · obtain ⟨v', a, b⟩ := ht i (by omega)
      exact ⟨v', by rw [List.getElem?_set_ne (by omega)]; exact a, b⟩
  unfold kmpStep
  dsimp only
  rw [strAt_nat q pos hp, ok_bind, strAt_nat q c (by omega), ok_bind]
  by_cases he : q[pos] = q[c]
  · have he' : q[c]? = q[pos]? := by
      rw [List.getElem?_eq_getElem hp, List.getElem?_eq_getElem (by omega : c < q.length), he]
    obtain ⟨v, hv, hF⟩ := ht c hcp
    rw [if_pos he, tabAt_nat hv, ok_bind, hw, ok_bind]
    refine ⟨_, rfl, ⟨by dsimp only; omega, by dsimp only; omega, by simpa using h3, ⟨c + 1, by simp, ?_⟩, hset v (hc.fail_eq he' hF)⟩, rfl⟩
    refine ⟨hc.bord.succ he', ?_⟩
    intro j hj
    cases j with
    | zero => omega
    | succ j =>
      have := hc.max j hj.pred.1
      omega
  · have hne : q[c]? ≠ q[pos]? := by
      rw [List.getElem?_eq_getElem hp, List.getElem?_eq_getElem (by omega : c < q.length)]
      exact fun e => he (Option.some.inj e).symm
    have hF := hc.fail_ne hne
    rw [if_neg he, hw, ok_bind]
    obtain ⟨c', e, hlow, hl⟩ := kmpBack_spec q (table.set pos (some (c : Int))) pos hp
      (fun i hi => hset c hF i (by omega)) c hc
    rw [e, ok_bind]
    exact ⟨_, rfl, ⟨by dsimp only; omega, by dsimp only; omega, by simpa using h3, ⟨(c' + 1).toNat, by dsimp only; omega, hl⟩, hset c hF⟩, rfl⟩

theorem kmpTable_spec (q : List α) (hq : 0 < q.length) : ∃ t, kmpTable q = .ok t ∧
    ∀ i : Nat, i ≤ q.length → ∃ v, t[i]? = some (some v) ∧ Fail q i v := by
  unfold kmpTable
  dsimp only
  rw [wr_of_lt _ (by simp), ok_bind]
  obtain ⟨st, e, h, hf⟩ := whileLoop_spec (I := TabInv q) (fun st => q.length - st.1)
    (cond := fun (st : Nat × Int × List (Option Int)) => .ok (decide (st.1 < q.length))) (body := kmpStep q)
    (fun st _ => ⟨_, rfl⟩)
    (fun st h hc => by
      have hp : st.1 < q.length := by simpa using hc
      obtain ⟨st', e, h', e'⟩ := kmpStep_spec q st h hp
      exact ⟨st', e, h', by omega⟩)
    (q.length + 1) (1, 0, (List.replicate (q.length + 1) (none : Option Int)).set 0 (some (-1)))
    ⟨Nat.le_refl _, hq, by simp, ⟨0, rfl, Bord.zero q 1 (by omega), fun k hk => by have := hk.1; omega⟩, by
      intro i hi
      have : i = 0 := by dsimp only at hi; omega
      subst this
      refine ⟨-1, by simp, by omega, fun k hk => by omega, fun k hk => absurd hk.1 (by omega)⟩⟩
    (by dsimp only; omega)
  rw [e, ok_bind]
  obtain ⟨pos, cnd, table⟩ := st
  obtain ⟨h1, h2, h3, ⟨c, rfl, hc⟩, ht⟩ := h
  dsimp only at h1 h2 h3 hc ht ⊢
  have hpos : pos = q.length := by
    have : ¬ pos < q.length := by simpa using hf
    omega
  subst hpos
  rw [wr_of_lt _ (by omega)]
  refine ⟨_, rfl, ?_⟩
  intro i hi
  by_cases e : i = q.length
  · subst e
    refine ⟨c, by rw [List.getElem?_set_self (by omega)], hc.fail_ne ?_⟩
    have := hc.bord.1
    rw [List.getElem?_eq_getElem this, List.getElem?_eq_none (Nat.le_refl _)]; simp
  · obtain ⟨v', a, b⟩ := ht i (by omega)
    exact ⟨v', by rw [List.getElem?_set_ne (by omega)]; exact a, b⟩

/-! ## Matching -/

structure MatchInv (t q : List α) (st : Nat × Int × List Int) : Prop where
  j : st.1 ≤ t.length
  k : ∃ k : Nat, st.2.1 = k ∧ k < q.length ∧ k ≤ st.1 ∧ (∀ (i : Nat), i < k → t[st.1 - k + i]? = q[i]?) ∧
    st.2.2 = occBefore t q (st.1 - k)

theorem kmpMatchStep_spec (t q : List α) (table : List (Option Int)) (hq : 0 < q.length)
    (ht : ∀ i : Nat, i ≤ q.length → ∃ v, table[i]? = some (some v) ∧ Fail q i v) (st : Nat × Int × List Int) (h : MatchInv t q st)
    (hj : st.1 < t.length) :
    ∃ st', kmpMatchStep t q table st = .ok st' ∧ MatchInv t q st' ∧
      2 * t.length - (2 * st'.1 - st'.2.1.toNat) < 2 * t.length - (2 * st.1 - st.2.1.toNat) := by
  obtain ⟨j, k, ps⟩ := st
  obtain ⟨h1, k, rfl, hk1, hk2, hm, hps⟩ := h
  dsimp only at h1 hk1 hk2 hm hj hps
  subst hps
  unfold kmpMatchStep
  dsimp only
  rw [strAt_nat q k hk1, ok_bind, strAt_nat t j hj, ok_bind]
  by_cases he : q[k] = t[j]
  · rw [if_pos he]
    have hm' : ∀ (i : Nat), i < k + 1 → t[j - k + i]? = q[i]? := by
      intro i hi
      by_cases e : i = k
      · subst e
        rw [List.getElem?_eq_getElem hk1, he, ← List.getElem?_eq_getElem hj]; congr 1; omega
      · exact hm i (by omega)
    by_cases hn : k + 1 = q.length
    · rw [if_pos (by omega)]
      obtain ⟨v, hv, hF⟩ := ht q.length (Nat.le_refl _)
      have ek : ((k : Int) + 1) = ((q.length : Nat) : Int) := by omega
      rw [ek, tabAt_nat hv, ok_bind]
      have hv0 : 0 ≤ v := by
        have := hF.max 0 (Bord.zero q _ hq) (by rw [List.getElem?_eq_getElem hq, List.getElem?_eq_none (Nat.le_refl _)]; simp)
        omega
      obtain ⟨b, rfl⟩ := Int.eq_ofNat_of_zero_le hv0
      obtain ⟨hb, _⟩ := hF.bord b rfl
      have hbl := hb.1
      have hocc : Occ t q (j - k) := fun i hi => hm' i (by omega)
      refine ⟨_, rfl, ⟨by dsimp only; omega, b, rfl, hbl, by dsimp only; omega, ?_, ?_⟩, by dsimp only; omega⟩
      · intro i hi
        dsimp only
        rw [hb.2 i hi, ← hocc (q.length - b + i) (by omega)]
        congr 1; omega
      · dsimp only
        rw [occBefore_skip (s := j - k + 1) (s' := j + 1 - b) (by omega), occBefore_succ_pos hocc]
        · congr 2; omega
        · intro s hs1 hs2 ho
          have hB : Bord q q.length (j + 1 - s) := by
            refine ⟨by omega, ?_⟩
            intro i hi
            rw [← ho i (by omega), ← hocc (q.length - (j + 1 - s) + i) (by omega)]
            congr 1; omega
          have := hF.max _ hB (by
            rw [List.getElem?_eq_getElem (by omega : j + 1 - s < q.length), List.getElem?_eq_none (Nat.le_refl _)]; simp)
          omega
    · rw [if_neg (by omega)]
      refine ⟨_, rfl, ⟨by dsimp only; omega, k + 1, by simp, by omega, by dsimp only; omega, ?_, ?_⟩, by dsimp only; omega⟩
      · intro i hi
        dsimp only
        rw [← hm' i hi]; congr 1; omega
      · dsimp only; congr 1; omega
  · rw [if_neg he]
    obtain ⟨v, hv, hF⟩ := ht k (by omega)
    rw [tabAt_nat hv, ok_bind]
    -- no occurrence starts at `s` when the border it needs is longer than `v`
    have hno : ∀ (s : Nat), j - k ≤ s → s ≤ j → v < ((j - s : Nat) : Int) → ¬ Occ t q s := by
      intro s hs1 hs2 hs3 ho
      have hchar := ho (j - s) (by omega)
      rw [show s + (j - s) = j by omega] at hchar
      by_cases e : j - s = k
      · rw [e, List.getElem?_eq_getElem hk1, List.getElem?_eq_getElem hj] at hchar
        exact he (Option.some.inj hchar).symm
      · have hB : Bord q k (j - s) := by
          refine ⟨by omega, ?_⟩
          intro i hi
          rw [← ho i (by omega), ← hm (k - (j - s) + i) (by omega)]
          congr 1; omega
        have := hF.max _ hB (by
          rw [← hchar, List.getElem?_eq_getElem hk1, List.getElem?_eq_getElem hj]
          exact fun e => he (Option.some.inj e).symm)
        omega
    by_cases hv0 : v < 0
    · have := hF.low
      have : v = -1 := by omega
      subst this
      rw [if_pos (by omega)]
      refine ⟨_, rfl, ⟨by dsimp only; omega, 0, rfl, hq, by omega, fun i hi => absurd hi (Nat.not_lt_zero _), ?_⟩, by dsimp only; omega⟩
      dsimp only
      exact (occBefore_skip (by omega) fun s hs1 hs2 => hno s hs1 (by omega) (by omega)).symm
    · rw [if_neg hv0]
      obtain ⟨b, rfl⟩ := Int.eq_ofNat_of_zero_le (by omega : 0 ≤ v)
      obtain ⟨hb, _⟩ := hF.bord b rfl
      have hbl := hb.1
      refine ⟨_, rfl, ⟨h1, b, rfl, by omega, by dsimp only; omega, ?_, ?_⟩, by dsimp only; omega⟩
      · intro i hi
        dsimp only
        rw [hb.2 i hi, ← hm (k - b + i) (by omega)]
        congr 1; omega
      · dsimp only
        exact (occBefore_skip (by omega) fun s hs1 hs2 => hno s hs1 (by omega) (by omega)).symm

/-- C50: for every text and every non-empty query, `find(text, query, 'kmp')` returns exactly the positions at which the query occurs. -/
theorem C50_kmp (text query : List α) (hq : query ≠ []) : kmpFind text query = .ok (occurrences text query) := by
  have hq' : 0 < query.length := List.length_pos_iff.2 hq
  unfold kmpFind
  by_cases h0 : text.length = 0
  · have : text = [] := List.length_eq_zero_iff.1 h0
    subst this
    rfl
  · rw [if_neg (by omega)]
    obtain ⟨table, e, ht⟩ := kmpTable_spec query hq'
    rw [e, ok_bind, kmpMatch]
    obtain ⟨st, e, h, hf⟩ := whileLoop_spec (I := MatchInv text query) (fun st => 2 * text.length - (2 * st.1 - st.2.1.toNat))
      (cond := fun (st : Nat × Int × List Int) => .ok (decide (st.1 < text.length))) (body := kmpMatchStep text query table)
      (fun st _ => ⟨_, rfl⟩)
      (fun st h hc => kmpMatchStep_spec text query table hq' ht st h (by simpa using hc))
      (2 * text.length + 1) (0, 0, [])
      ⟨Nat.zero_le _, 0, rfl, hq', Nat.le_refl _, fun i hi => absurd hi (Nat.not_lt_zero _), rfl⟩ (by dsimp only; omega)
    rw [e, ok_bind]
    obtain ⟨j, k, ps⟩ := st
    obtain ⟨h1, k, rfl, hk1, hk2, hm, hps⟩ := h
    have : ¬ j < text.length := by simpa using hf
    dsimp only at h1 hps ⊢
    rw [hps, occurrences_eq hq' (s := j - k) (by dsimp only at hk2; omega)]

/-- C50: an empty query is found nowhere. -/
theorem C50_empty_query (text : List α) : kmpFind text [] = .ok [] := by
  simp [kmpFind]

example : kmpFind "abababcab".toList "abab".toList = .ok [0, 2] := by decide +kernel
example : occurrences "abababcab".toList "abab".toList = [0, 2] := by decide

end Props
