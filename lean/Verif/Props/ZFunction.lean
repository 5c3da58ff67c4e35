import Verif.Props.Kmp

/-! # C53: search with the Z function -/
namespace Props
open Py Model Spec
variable {α : Type} [DecidableEq α]
set_option linter.unusedSectionVars false

/-- `v` is the length of the longest common prefix of `s` and its suffix at `i`. -/
structure IsZ (s : List α) (i v : Nat) : Prop where
  bound : i + v ≤ s.length
  eq : ∀ (j : Nat), j < v → s[j]? = s[i + j]?
  stop : i + v < s.length → s[v]? ≠ s[i + v]?

theorem zExtend_spec (s : List α) (pos v : Nat) (z : List Nat) (hpos : 1 ≤ pos) (hz : z.length = s.length) (hv : z[pos]? = some v)
    (hb : pos + v ≤ s.length) (he : ∀ (j : Nat), j < v → s[j]? = s[pos + j]?) :
    ∃ v', zExtend s pos z = .ok (z.set pos v') ∧ IsZ s pos v' := by
  have hlt : pos < z.length := (List.getElem?_eq_some_iff.1 hv).1
  obtain ⟨z', e, ⟨v', h1, h2, h3⟩, hf⟩ := whileLoop_spec
    (I := fun z' => ∃ v', z' = z.set pos v' ∧ pos + v' ≤ s.length ∧ ∀ (j : Nat), j < v' → s[j]? = s[pos + j]?)
    (fun z' => s.length - (z'[pos]?).getD 0)
    (cond := fun z => do
      let v ← rd z pos
      if pos + v < s.length then do
        let a ← rd s v
        let b ← rd s (pos + v)
        .ok (decide (a = b))
      else .ok false)
    (body := fun z => do
      let v ← rd z pos
      wr z pos (v + 1))
    (by
      rintro z' ⟨v', rfl, h2, h3⟩
      rw [rd_of_some (List.getElem?_set_self hlt), ok_bind]
      split
      · rename_i h
        rw [rd_of_lt (by omega : v' < s.length), ok_bind, rd_of_lt h]
        exact ⟨_, rfl⟩
      · exact ⟨_, rfl⟩)
    (by
      rintro z' ⟨v', rfl, h2, h3⟩ hc
      rw [rd_of_some (List.getElem?_set_self hlt), ok_bind] at hc
      split at hc
      · rename_i h
        rw [rd_of_lt (by omega : v' < s.length), ok_bind, rd_of_lt h, ok_bind] at hc
        have hc' : s[v'] = s[pos + v'] := by simpa using hc
        refine ⟨z.set pos (v' + 1), ?_, ⟨v' + 1, rfl, by omega, ?_⟩, ?_⟩
        · rw [rd_of_some (List.getElem?_set_self hlt), ok_bind, wr_of_lt _ (by simpa using hlt), List.set_set]
        · intro j hj
          by_cases ej : j = v'
          · subst ej
            rw [List.getElem?_eq_getElem h, List.getElem?_eq_getElem (by omega : j < s.length), hc']
          · exact h3 j (by omega)
        · rw [List.getElem?_set_self hlt, List.getElem?_set_self hlt]
          simp only [Option.getD_some]; omega
      · cases hc)
    (s.length + 1) z ⟨v, by
      apply List.ext_getElem?
      intro i
      rw [List.getElem?_set]
      split
      · rename_i e; subst e; exact hv
      · rfl, hb, he⟩ (by rw [hv]; simp only [Option.getD_some]; omega)
  subst h1
  refine ⟨v', e, h2, h3, ?_⟩
  intro hlt'
  rw [rd_of_some (List.getElem?_set_self hlt), ok_bind, if_pos hlt', rd_of_lt (by omega : v' < s.length), ok_bind, rd_of_lt hlt',
    ok_bind] at hf
  rw [List.getElem?_eq_getElem hlt', List.getElem?_eq_getElem (by omega : v' < s.length)]
  intro h
  have := Option.some.inj h
  simp [this] at hf

structure ZInv (s : List α) (pos : Nat) (st : List Nat × Nat × Nat) : Prop where
  len : st.1.length = s.length
  done : ∀ (i : Nat), 1 ≤ i → i < pos → ∃ v, st.1[i]? = some v ∧ IsZ s i v
  todo : ∀ (i : Nat), pos ≤ i → i < s.length → st.1[i]? = some 0
  seg : st.2.2 < pos ∨ (1 ≤ st.2.1 ∧ st.2.1 < pos ∧ st.2.2 < s.length ∧
    ∀ (j : Nat), st.2.1 + j ≤ st.2.2 → s[j]? = s[st.2.1 + j]?)

theorem zStep_spec (s : List α) (pos : Nat) (st : List Nat × Nat × Nat) (hpos : 1 ≤ pos) (hlt : pos < s.length) (h : ZInv s pos st) :
    ∃ st', zStep s pos st = .ok st' ∧ ZInv s (pos + 1) st' := by
  obtain ⟨z, l, r⟩ := st
  obtain ⟨hlen, hdone, htodo, hseg⟩ := h
  dsimp only at hlen hdone htodo hseg
  have h1 : ∃ v, zInit pos z l r = .ok (z.set pos v) ∧ pos + v ≤ s.length ∧ ∀ (j : Nat), j < v → s[j]? = s[pos + j]? := by
    unfold zInit
    by_cases hr : pos ≤ r
    · rcases hseg with hs | ⟨hs1, hs2, hs3, hs4⟩
      · omega
      · obtain ⟨v, hv, hz⟩ := hdone (pos - l) (by omega) (by omega)
        rw [if_pos hr, rd_of_some hv, ok_bind, wr_of_lt _ (by omega)]
        refine ⟨_, rfl, by omega, ?_⟩
        intro j hj
        rw [hz.eq j (by omega), hs4 (pos - l + j) (by omega)]
        congr 1; omega
    · rw [if_neg hr]
      refine ⟨0, ?_, by omega, fun j hj => absurd hj (Nat.not_lt_zero _)⟩
      congr 1
      apply List.ext_getElem?
      intro i
      rw [List.getElem?_set]
      split
      · rename_i e; subst e; rw [if_pos (by omega), htodo pos (Nat.le_refl _) hlt]
      · rfl
  obtain ⟨v0, e1, hb, he⟩ := h1
  have hself : ∀ w, (z.set pos w)[pos]? = some w := fun w => List.getElem?_set_self (by omega)
  obtain ⟨v, e2, hz⟩ := zExtend_spec s pos v0 (z.set pos v0) hpos (by simpa using hlen) (hself _) hb he
  rw [List.set_set] at e2
  have hstep : zStep s pos (z, l, r) = if pos + v > r + 1 then .ok (z.set pos v, pos, pos + v - 1) else .ok (z.set pos v, l, r) := by
    unfold zStep
    dsimp only
    rw [e1, ok_bind, e2, ok_bind, rd_of_some (hself _), ok_bind]
  have hd : ∀ (i : Nat), 1 ≤ i → i < pos + 1 → ∃ v', (z.set pos v)[i]? = some v' ∧ IsZ s i v' := by
    intro i hi1 hi2
    by_cases e : i = pos
    · subst e; exact ⟨v, hself _, hz⟩
    · obtain ⟨v', a, b⟩ := hdone i hi1 (by omega)
      exact ⟨v', by rw [List.getElem?_set_ne (by omega)]; exact a, b⟩
  have ht : ∀ (i : Nat), pos + 1 ≤ i → i < s.length → (z.set pos v)[i]? = some 0 := by
    intro i hi1 hi2
    rw [List.getElem?_set_ne (by omega)]; exact htodo i (by omega) hi2
  rw [hstep]
  by_cases hc : pos + v > r + 1
  · rw [if_pos hc]
    refine ⟨_, rfl, by simpa using hlen, hd, ht, ?_⟩
    dsimp only
    by_cases hv : v = 0
    · left; omega
    · right
      have := hz.bound
      exact ⟨hpos, by omega, by omega, fun j hj => hz.eq j (by omega)⟩
  · rw [if_neg hc]
    refine ⟨_, rfl, by simpa using hlen, hd, ht, ?_⟩
    dsimp only
    rcases hseg with hs | ⟨a, b, c, d⟩
    · left; omega
    · right; exact ⟨a, by omega, c, d⟩

theorem zVector_spec (sep : α) (t q : List α) : ∃ f, zVector sep t q = .ok f ∧ f.length = t.length ∧
    ∀ (i : Nat), i < t.length → ∃ v, f[i]? = some v ∧ IsZ (q ++ sep :: t) (q.length + 1 + i) v := by
  unfold zVector
  dsimp only
  have hlen : (q ++ sep :: t).length = q.length + 1 + t.length := by simp; omega
  generalize q ++ sep :: t = s at *
  obtain ⟨⟨z, l, r⟩, e, h⟩ := forRange_spec (fun pos st => ZInv s pos st) (lo := 1) (hi := s.length)
    (s := (List.replicate s.length 0, 0, 0)) (body := zStep s) (by omega)
    ⟨by simp, fun i h1 h2 => by omega, fun i h1 h2 => by simp [h2], Or.inl (by simp)⟩
    (fun k st h1 h2 h => zStep_spec s k st h1 h2 h)
  obtain ⟨hl, hd, _, _⟩ := h
  dsimp only at hl hd
  rw [e, ok_bind]
  dsimp only
  obtain ⟨f, e2, h1, h2⟩ := forRange_spec
    (fun n res => res.length = n - (q.length + 1) ∧ ∀ (i : Nat), i < n - (q.length + 1) → res[i]? = z[q.length + 1 + i]?)
    (lo := q.length + 1) (hi := s.length) (s := ([] : List Nat))
    (body := fun pos res => do
      let v ← rd z pos
      .ok (res ++ [v])) (by omega) ⟨by simp, fun i hi => by omega⟩
    (by
      rintro k res h1 h2 ⟨h3, h4⟩
      rw [rd_of_lt (by omega : k < z.length)]
      refine ⟨_, rfl, by simp; omega, ?_⟩
      intro i hi
      by_cases ei : i = res.length
      · subst ei
        rw [List.getElem?_append_right (Nat.le_refl _)]
        rw [show q.length + 1 + res.length = k by omega, List.getElem?_eq_getElem (by omega : k < z.length)]
        simp
      · rw [List.getElem?_append_left (by omega)]
        exact h4 i (by omega))
  rw [e2]
  refine ⟨f, rfl, by omega, ?_⟩
  intro i hi
  rw [h2 i (by omega)]
  exact hd _ (by omega) (by omega)

theorem isZ_query (sep : α) (t q : List α) (i v : Nat) (hi : i < t.length) (h : IsZ (q ++ sep :: t) (q.length + 1 + i) v) :
    v = q.length ↔ (Occ t q i ∧ ¬ Occ t (q ++ [sep]) i) := by
  obtain ⟨hb, he, hs⟩ := h
  have hlen : (q ++ sep :: t).length = q.length + 1 + t.length := by simp; omega
  have hq : ∀ (j : Nat), j < q.length → (q ++ sep :: t)[j]? = q[j]? := fun j hj => List.getElem?_append_left hj
  have hsep : (q ++ sep :: t)[q.length]? = some sep := by
    rw [List.getElem?_append_right (Nat.le_refl _)]; simp
  have ht : ∀ (j : Nat), (q ++ sep :: t)[q.length + 1 + i + j]? = t[i + j]? := by
    intro j
    rw [List.getElem?_append_right (by omega), show q.length + 1 + i + j - q.length = i + j + 1 by omega, List.getElem?_cons_succ]
  rw [hlen] at hb hs
  have hocc' : Occ t (q ++ [sep]) i ↔ Occ t q i ∧ t[i + q.length]? = some sep := by
    constructor
    · intro h
      refine ⟨fun j hj => ?_, ?_⟩
      · rw [h j (by simp; omega), List.getElem?_append_left hj]
      · rw [h q.length (by simp), List.getElem?_append_right (Nat.le_refl _)]; simp
    · rintro ⟨h1, h2⟩ j hj
      by_cases ej : j = q.length
      · subst ej; rw [h2, List.getElem?_append_right (Nat.le_refl _)]; simp
      · have : j < q.length := by simp at hj; omega
        rw [h1 j this, List.getElem?_append_left this]
  constructor
  · rintro rfl
    refine ⟨fun j hj => ?_, ?_⟩
    · rw [← ht, ← he j hj, hq j hj]
    · rw [hocc']
      rintro ⟨_, h⟩
      have hlt := (List.getElem?_eq_some_iff.1 h).1
      apply hs (by omega)
      rw [hsep, ht, h]
  · rintro ⟨ho, hn⟩
    rcases Nat.lt_trichotomy v q.length with hv | hv | hv
    · exfalso
      have e := ho v hv
      have hlt : i + v < t.length := by
        rw [List.getElem?_eq_getElem hv] at e
        exact (List.getElem?_eq_some_iff.1 e).1
      apply hs (by omega)
      rw [hq v hv, ht, e]
    · exact hv
    · exfalso
      apply hn
      rw [hocc']
      refine ⟨ho, ?_⟩
      rw [← ht, ← he q.length hv, hsep]

/-- What the code computes for every text and every non-empty query: the positions at which the query occurs and is not directly followed by
the separator `"$"`. -/
theorem C53_exact (sep : α) (text query : List α) (hq : query ≠ []) :
    zFind sep text query = .ok (((List.range text.length).filter fun i =>
      query.isPrefixOf (text.drop i) && !(query ++ [sep]).isPrefixOf (text.drop i)).map fun (i : Nat) => (i : Int)) := by
  have hq' : 0 < query.length := List.length_pos_iff.2 hq
  unfold zFind
  by_cases h0 : text.length = 0
  · have : text = [] := List.length_eq_zero_iff.1 h0
    subst this
    rfl
  · rw [if_neg (by omega)]
    obtain ⟨f, e, hl, hf⟩ := zVector_spec sep text query
    rw [e, ok_bind, hl]
    obtain ⟨res, e, h⟩ := forRange_spec (lo := 0) (hi := text.length) (s := ([] : List Int))
      (body := fun pos res => do
        let v ← rd f pos
        .ok (if v = query.length then res ++ [(pos : Int)] else res))
      (fun n res => res = ((List.range n).filter fun i =>
        query.isPrefixOf (text.drop i) && !(query ++ [sep]).isPrefixOf (text.drop i)).map fun (i : Nat) => (i : Int))
      (Nat.zero_le _) rfl
      (by
        rintro k res _ hk rfl
        obtain ⟨v, hv, hz⟩ := hf k hk
        rw [rd_of_some hv, ok_bind]
        refine ⟨_, rfl, ?_⟩
        have hiff := isZ_query sep text query k v hk hz
        rw [← occ_iff, ← occ_iff] at hiff
        rw [List.range_succ, List.filter_append, List.map_append]
        by_cases hvq : v = query.length
        · rw [if_pos hvq]
          have := hiff.1 hvq
          simp [this.1, this.2]
        · rw [if_neg hvq]
          have : (query.isPrefixOf (text.drop k) && !(query ++ [sep]).isPrefixOf (text.drop k)) = false := by
            rw [← Bool.not_eq_true]
            intro h
            apply hvq
            rw [hiff]
            simp only [Bool.and_eq_true, Bool.not_eq_true'] at h
            exact ⟨h.1, by rw [h.2]; simp⟩
          simp [this])
    rw [e, h]

/-- The full property. -/
def C53_full : Prop := ∀ text query : List Char, query ≠ [] → zFind '$' text query = .ok (occurrences text query)

/-- C53 as far as it holds: for every text without `'$'` and every non-empty query the result is exactly the positions of the query.
Missing: texts with `'$'`, for which the property is false (`C53_full_false`). -/
theorem C53_z_function_partial (sep : α) (text query : List α) (hq : query ≠ []) (hsep : sep ∉ text) :
    zFind sep text query = .ok (occurrences text query) := by
  rw [C53_exact sep text query hq, occurrences]
  congr 2
  apply List.filter_congr
  intro i _
  have : (query ++ [sep]).isPrefixOf (text.drop i) = false := by
    rw [← Bool.not_eq_true, List.isPrefixOf_iff_prefix]
    intro h
    exact hsep (List.mem_of_mem_drop (h.subset (by simp)))
  simp [this]

/-- C53: no reported position is wrong, whatever the text. -/
theorem C53_sound (sep : α) (text query : List α) (hq : query ≠ []) :
    ∃ ps, zFind sep text query = .ok ps ∧ ∀ p ∈ ps, p ∈ occurrences text query := by
  refine ⟨_, C53_exact sep text query hq, ?_⟩
  intro p hp
  rw [occurrences]
  obtain ⟨i, hi, rfl⟩ := List.mem_map.1 hp
  refine List.mem_map.2 ⟨i, ?_, rfl⟩
  rw [List.mem_filter] at hi ⊢
  simp only [Bool.and_eq_true] at hi
  exact ⟨hi.1, hi.2.1⟩

theorem C53_empty_query (sep : α) (text : List α) : zFind sep text [] = .ok [] := by
  simp [zFind]

/-- A text with the separator hides an occurrence: searching `"a"` in `"a$a"` finds only position 2. -/
theorem C53_separator_in_text : zFind '$' ['a', '$', 'a'] ['a'] = .ok [2] ∧ occurrences ['a', '$', 'a'] ['a'] = [0, 2] := by
  constructor <;> decide +kernel

theorem C53_full_false : ¬ C53_full := by
  intro h
  have := h ['a', '$', 'a'] ['a'] (by simp)
  rw [C53_separator_in_text.1, C53_separator_in_text.2] at this
  cases this

example : zFind '$' "abababcab".toList "abab".toList = .ok [0, 2] := by decide +kernel
example : '$' ∉ "abababcab".toList := by decide

end Props
