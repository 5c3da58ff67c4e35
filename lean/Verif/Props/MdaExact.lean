import Verif.Props.Array

/-!
# C28 for every tuple of indices, inside the dimensions or not
-/
namespace Props
open Py Model Spec
variable {α : Type}

/-- The row-major position of a tuple: `i₁·(d₂⋯dₙ) + i₂·(d₃⋯dₙ) + … + iₙ`. -/
def rowMajor : List Int → List Nat → Int
  | i :: is, _ :: ds => i * volume ds + rowMajor is ds
  | _, _ => 0

/-- The test the code makes: every index is less than the product of its dimension and those after it. -/
def BelowProducts : List Int → List Nat → Prop
  | i :: is, d :: ds => i < volume (d :: ds) ∧ BelowProducts is ds
  | [], [] => True
  | _, _ => False

theorem rowMajor_eq : ∀ (is : List Int) (ds : List Nat), is.length = ds.length →
    mdaPosition is ((mdaSizes ds).drop 1) = rowMajor is ds := by
  intro is
  induction is with
  | nil => intro ds h; cases ds <;> simp [mdaPosition, rowMajor]
  | cons i is ih =>
    intro ds h
    cases ds with
    | nil => simp at h
    | cons d ds =>
      rw [mdaSizes_cons, List.drop_one, List.tail_cons, position_cons, ih ds (by simpa using h), rowMajor, Int.mul_comm]

theorem checkShape_eq {ds : List Nat} {a : Mda α} (hw : MdaWf ds a) (idx : List Int) (hl : idx.length = ds.length) :
    (BelowProducts idx ds → a.checkShape idx = .ok ()) ∧ (¬ BelowProducts idx ds → a.checkShape idx = .error .indexError) := by
  have key : ∀ (idx : List Int) (ds : List Nat), idx.length = ds.length →
      ((idx.zip (mdaSizes ds)).any (fun p => decide (p.1 ≥ (p.2 : Int))) = true ↔ ¬ BelowProducts idx ds) := by
    intro idx
    induction idx with
    | nil => intro ds h; cases ds with
      | nil => simp [BelowProducts]
      | cons d ds => simp at h
    | cons i is ih => intro ds h; cases ds with
      | nil => simp at h
      | cons d ds =>
        rw [mdaSizes_cons, List.zip_cons_cons, List.any_cons, Bool.or_eq_true, ih ds (by simpa using h), BelowProducts]
        simp only [decide_eq_true_eq]
        constructor
        · rintro (h1 | h1) ⟨h2, h3⟩
          · omega
          · exact h1 h3
        · intro h1
          by_cases h2 : i < volume (d :: ds)
          · exact .inr fun h3 => h1 ⟨h2, h3⟩
          · exact .inl (by omega)
  have hlen : ¬ idx.length ≠ a.sizes.length - 1 := by rw [hw.1, mdaSizes_length, hl]; simp
  constructor
  · intro hb
    rw [Mda.checkShape, if_neg hlen, if_neg]
    rw [hw.1, key idx ds hl]
    exact fun h => h hb
  · intro hb
    rw [Mda.checkShape, if_neg hlen, if_pos]
    rw [hw.1, key idx ds hl]
    exact hb

theorem rowMajor_onto : ∀ (ds : List Nat) (p : Int), 0 ≤ p → p < volume ds → ∃ jdx, InRange jdx ds ∧ rowMajor jdx ds = p := by
  intro ds
  induction ds with
  | nil => intro p h1 h2; simp [volume] at h2; exact ⟨[], trivial, by simp [rowMajor]; omega⟩
  | cons d ds ih =>
    intro p h1 h2
    have hv : (0 : Int) < volume ds := by
      rcases Nat.eq_zero_or_pos (volume ds) with h0 | h0
      · rw [volume, h0] at h2; simp at h2; omega
      · omega
    have h3 : p < (volume ds : Int) * d := by
      have : ((volume (d :: ds) : Nat) : Int) = volume ds * d := by rw [volume, Int.natCast_mul]; exact Int.mul_comm _ _
      omega
    obtain ⟨js, hj, e⟩ := ih (p % volume ds) (Int.emod_nonneg _ (by omega)) (Int.emod_lt_of_pos _ hv)
    refine ⟨p / volume ds :: js, ⟨Int.ediv_nonneg h1 (by omega), ?_, hj⟩, ?_⟩
    · exact Int.ediv_lt_of_lt_mul hv (by rw [Int.mul_comm]; exact h3)
    · rw [rowMajor, e, Int.mul_comm]
      exact Int.mul_ediv_add_emod _ _

/-- **C28 for every tuple of the right length.** It is refused with `IndexError` exactly if some index is not below the product of its
dimension and the later ones, or the row-major position is outside `-N … N-1` (`N` the number of cells). Otherwise it denotes the cell
of the tuple inside the dimensions with the same position modulo `N`, for reading and for writing. -/
theorem C28_exact (ds : List Nat) (a : Mda α) (hw : MdaWf ds a) (idx : List Int) (hl : idx.length = ds.length) :
    ((BelowProducts idx ds ∧ -(volume ds : Int) ≤ rowMajor idx ds ∧ rowMajor idx ds < volume ds) ∧
      ∃ jdx, InRange jdx ds ∧ (rowMajor jdx ds = rowMajor idx ds ∨ rowMajor jdx ds = rowMajor idx ds + volume ds) ∧
        a.get idx = a.get jdx ∧ ∀ v, a.set idx v = a.set jdx v) ∨
    (¬ (BelowProducts idx ds ∧ -(volume ds : Int) ≤ rowMajor idx ds ∧ rowMajor idx ds < volume ds) ∧
      a.get idx = .error .indexError ∧ ∀ v, a.set idx v = .error .indexError) := by
  obtain ⟨c1, c2⟩ := checkShape_eq hw idx hl
  have hpos : mdaPosition idx (a.sizes.drop 1) = rowMajor idx ds := by rw [hw.1]; exact rowMajor_eq idx ds hl
  have hlen := hw.2
  by_cases hb : BelowProducts idx ds
  · by_cases hr : -(volume ds : Int) ≤ rowMajor idx ds ∧ rowMajor idx ds < volume ds
    · refine .inl ⟨⟨hb, hr⟩, ?_⟩
      obtain ⟨p, hp0, hp1, hp2, hp3⟩ : ∃ p : Int, 0 ≤ p ∧ p < volume ds ∧ (p = rowMajor idx ds ∨ p = rowMajor idx ds + volume ds) ∧
          listIndex a.data.length (rowMajor idx ds) = some p.toNat := by
        by_cases h0 : 0 ≤ rowMajor idx ds
        · exact ⟨rowMajor idx ds, h0, hr.2, .inl rfl, by rw [listIndex, if_pos h0, hlen, if_pos hr.2]⟩
        · refine ⟨rowMajor idx ds + volume ds, by omega, by omega, .inr rfl, ?_⟩
          rw [listIndex, if_neg h0, hlen, if_pos (by omega)]
      obtain ⟨jdx, hj, ej⟩ := rowMajor_onto ds p hp0 hp1
      have hjl := hj.length_eq
      have ej' : mdaPosition jdx (a.sizes.drop 1) = p := by rw [hw.1, rowMajor_eq jdx ds hjl, ej]
      obtain ⟨e1, l1⟩ := Mda.index_ok hw jdx hj
      rw [ej'] at e1
      have e2 := Mda.checkShape_ok hw jdx hj
      refine ⟨jdx, hj, by rw [ej]; exact hp2, ?_, ?_⟩
      · simp only [Mda.get, c1 hb, e2, ok_bind, hpos, ej', e1, hp3]
      · intro v
        simp only [Mda.set, c1 hb, e2, ok_bind, hpos, ej', e1, hp3]
    · refine .inr ⟨fun h => hr h.2, ?_⟩
      have hn : listIndex a.data.length (rowMajor idx ds) = none := by
        rw [listIndex, hlen]
        by_cases h0 : 0 ≤ rowMajor idx ds
        · rw [if_pos h0, if_neg (by omega)]
        · rw [if_neg h0, if_neg (by omega)]
      refine ⟨by simp only [Mda.get, c1 hb, ok_bind, hpos, hn], fun v => by simp only [Mda.set, c1 hb, ok_bind, hpos, hn]⟩
  · exact .inr ⟨fun h => hb h.1, by simp only [Mda.get, c2 hb]; rfl, fun v => by simp only [Mda.set, c2 hb]; rfl⟩

-- A 2 × 3 array: (0, -1) denotes the last cell (1, 2); (0, 3) is refused by the product 3 of the second dimension.
example : BelowProducts [0, -1] [2, 3] ∧ rowMajor [0, -1] [2, 3] = -1 ∧ rowMajor [1, 2] [2, 3] = -1 + volume [2, 3] ∧
    ¬ BelowProducts [0, 3] [2, 3] := by simp [BelowProducts, rowMajor, volume]

end Props
