import Verif.Model.ArrayMore
import Verif.Props.Array

/-! # C140: the shape of a multi-dimensional array, and `fill` -/
namespace Props
open Py Model
variable {α : Type}

theorem foldl_mul_int (l : List Int) : ∀ k : Int, l.foldl (· * ·) k = k * l.foldl (· * ·) 1 := by
  induction l with
  | nil => intro k; simp
  | cons d l ih => intro k; simp only [List.foldl_cons]; rw [ih, ih (1 * d), Int.one_mul, Int.mul_assoc]

theorem foldl_mul_pos (l : List Int) (h : ∀ d ∈ l, 1 ≤ d) : 0 < l.foldl (· * ·) 1 := by
  induction l with
  | nil => decide
  | cons d l ih =>
    simp only [List.foldl_cons]
    rw [foldl_mul_int]
    have h1 : 1 ≤ d := h d (by simp)
    exact Int.mul_pos (by omega) (ih fun x hx => h x (by simp [hx]))

theorem mdaSizesInt_head (ds : List Int) : ∃ t, mdaSizesInt ds = ds.foldl (· * ·) 1 :: t := by
  cases ds with
  | nil => exact ⟨[], rfl⟩
  | cons d ds => exact ⟨mdaSizesInt ds, rfl⟩

theorem shape_of_sizes (ds : List Int) (h : ∀ d ∈ ds, 1 ≤ d) : mdaShape (mdaSizesInt ds) = ds := by
  induction ds with
  | nil => rfl
  | cons d ds ih =>
    have ih := ih fun x hx => h x (by simp [hx])
    obtain ⟨t, ht⟩ := mdaSizesInt_head ds
    have hp := foldl_mul_pos ds fun x hx => h x (by simp [hx])
    simp only [mdaSizesInt]
    rw [ht] at ih ⊢
    simp only [mdaShape]
    rw [ih, List.foldl_cons, foldl_mul_int, Int.one_mul, Int.mul_fdiv_cancel _ (by omega)]

/-- C140, `shape`: whenever the constructor accepts the dimensions, `shape` shows them. -/
theorem C140_shape (dims : List Int) (sizes : List Int) (data : List (Option α)) (h : mdaNewInt dims = .ok (sizes, data)) :
    mdaShape sizes = dims := by
  match dims, h with
  | [n], h =>
    obtain ⟨rfl, _⟩ := Prod.mk.inj (Except.ok.inj h)
    simp only [mdaShape, Int.fdiv_one]
  | d :: e :: ds, h =>
    simp only [mdaNewInt] at h
    split at h
    · cases h
    · rename_i hb
      obtain ⟨rfl, _⟩ := Prod.mk.inj (Except.ok.inj h)
      apply shape_of_sizes
      intro x hx
      rw [Bool.not_eq_true, List.any_eq_false] at hb
      have := hb x hx
      simp only [decide_eq_true_eq] at this
      omega

/-- The number of cells is the product of the dimensions, when none is negative. -/
theorem C140_cells (dims : List Int) (sizes : List Int) (data : List (Option α)) (h : mdaNewInt dims = .ok (sizes, data))
    (h0 : ∀ d ∈ dims, 0 ≤ d) : (data.length : Int) = dims.foldl (· * ·) 1 ∧ ∀ c ∈ data, c = none := by
  match dims, h with
  | [n], h =>
    obtain ⟨_, rfl⟩ := Prod.mk.inj (Except.ok.inj h)
    have := h0 n (by simp)
    refine ⟨?_, fun c hc => List.eq_of_mem_replicate hc⟩
    simp only [List.length_replicate, List.foldl_cons, List.foldl_nil, Int.one_mul]
    omega
  | d :: e :: ds, h =>
    simp only [mdaNewInt] at h
    split at h
    · cases h
    · rename_i hb
      obtain ⟨_, rfl⟩ := Prod.mk.inj (Except.ok.inj h)
      refine ⟨?_, fun c hc => List.eq_of_mem_replicate hc⟩
      rw [Bool.not_eq_true, List.any_eq_false] at hb
      have hp := foldl_mul_pos (d :: e :: ds) fun x hx => by
        have := hb x hx
        simp only [decide_eq_true_eq] at this
        omega
      obtain ⟨t, ht⟩ := mdaSizesInt_head (e :: ds)
      rw [ht, List.headD_cons, List.length_replicate]
      have : (e :: ds).foldl (· * ·) 1 * d = (d :: e :: ds).foldl (· * ·) 1 := by
        rw [List.foldl_cons (l := e :: ds), foldl_mul_int (e :: ds) (1 * d), Int.one_mul, Int.mul_comm]
      rw [this]
      omega

/-- C140, which dimensions are refused: none at all, and several of which one is below 1. -/
theorem C140_refused_exact (dims : List Int) :
    (mdaNewInt (α := α) dims = .error .valueError ↔ dims = [] ∨ (2 ≤ dims.length ∧ ∃ d ∈ dims, d < 1)) ∧
    ((∃ a, mdaNewInt (α := α) dims = .ok a) ↔ ¬ (dims = [] ∨ (2 ≤ dims.length ∧ ∃ d ∈ dims, d < 1))) := by
  match dims with
  | [] => exact ⟨⟨fun _ => .inl rfl, fun _ => rfl⟩, ⟨fun ⟨_, h⟩ => (nomatch h), fun h => absurd (.inl rfl) h⟩⟩
  | [n] =>
    refine ⟨⟨fun h => (nomatch h), ?_⟩, ⟨fun _ => ?_, fun _ => ⟨_, rfl⟩⟩⟩
    · rintro (h | ⟨h, _⟩)
      · cases h
      · simp at h
    · rintro (h | ⟨h, _⟩)
      · cases h
      · simp at h
  | d :: e :: ds =>
    by_cases hb : (d :: e :: ds).any (fun x => decide (x < 1)) = true
    · have h1 : mdaNewInt (α := α) (d :: e :: ds) = .error .valueError := by simp only [mdaNewInt, if_pos hb]
      have h2 : ∃ x ∈ d :: e :: ds, x < 1 := by
        obtain ⟨x, hx, h⟩ := List.any_eq_true.1 hb
        exact ⟨x, hx, by simpa using h⟩
      rw [h1]
      exact ⟨⟨fun _ => .inr ⟨by simp, h2⟩, fun _ => rfl⟩, ⟨fun ⟨_, h⟩ => (nomatch h), fun h => absurd (.inr ⟨by simp, h2⟩) h⟩⟩
    · have h2 : ¬ (d :: e :: ds = [] ∨ (2 ≤ (d :: e :: ds).length ∧ ∃ x ∈ d :: e :: ds, x < 1)) := by
        rintro (h | ⟨_, x, hx, h⟩)
        · cases h
        · exact hb (List.any_eq_true.2 ⟨x, hx, by simpa using h⟩)
      have h1 : mdaNewInt (α := α) (d :: e :: ds) = .ok (mdaSizesInt (d :: e :: ds),
          List.replicate ((mdaSizesInt (e :: ds)).headD 1 * d).toNat none) := by simp only [mdaNewInt, if_neg hb]
      rw [h1]
      exact ⟨⟨fun h => (nomatch h), fun h => absurd h h2⟩, ⟨fun _ => h2, fun _ => ⟨_, rfl⟩⟩⟩

/-- C140 in full: a dimension below 1 is refused. -/
def C140_full : Prop := ∀ dims : List Int, (∃ d ∈ dims, d < 1) → mdaNewInt (α := Int) dims = .error .valueError

/-- It is false of the code: with one dimension the check is skipped. -/
theorem C140_full_false : ¬ C140_full := fun h => nomatch h [-3] ⟨-3, by simp, by decide⟩

theorem sizes_cast (ds : List Nat) : mdaSizesInt (ds.map Int.ofNat) = (mdaSizes ds).map Int.ofNat := by
  have hf : ∀ (l : List Nat) (k : Nat), (l.map Int.ofNat).foldl (· * ·) (Int.ofNat k) = Int.ofNat (l.foldl (· * ·) k) := by
    intro l
    induction l with
    | nil => intro k; rfl
    | cons x l ih => intro k; exact ih (k * x)
  induction ds with
  | nil => rfl
  | cons d ds ih =>
    simp only [List.map_cons, mdaSizesInt, mdaSizes, ih]
    congr 1
    exact hf (d :: ds) 1

/-- For dimensions that are not negative this is the constructor of C28. -/
theorem C140_as_C28 (ds : List Nat) (a : Mda α) (h : Mda.new ds = .ok a) :
    mdaNewInt (ds.map Int.ofNat) = .ok (a.sizes.map Int.ofNat, a.data) := by
  match ds, h with
  | [n], h => cases h; rfl
  | d :: e :: ds, h =>
    simp only [Mda.new] at h
    split at h
    · cases h
    · rename_i hb
      cases h
      simp only [List.map_cons, mdaNewInt]
      rw [if_neg]
      · have h1 := sizes_cast (d :: e :: ds)
        have h2 := sizes_cast (e :: ds)
        simp only [List.map_cons] at h1 h2
        rw [h1, h2]
        congr 2
      · intro hc
        apply hb
        obtain ⟨x, hx, hlt⟩ := List.any_eq_true.1 hc
        have : x ∈ (d :: e :: ds).map Int.ofNat := hx
        obtain ⟨y, hy, rfl⟩ := List.mem_map.1 this
        exact List.any_eq_true.2 ⟨y, hy, by simp only [decide_eq_true_eq] at hlt ⊢; have : (y : Int) < 1 := hlt; omega⟩

/-- C140, `fill`: on every array (in every state) `fill(x)` raises what `dtype(x)` raises and then changes nothing; otherwise every tuple of
indices in range reads `dtype(x)` afterwards, and the shape is what it was. -/
theorem C140_fill (ds : List Nat) (a : Mda α) (hw : MdaWf ds a) (conv : α → PyM α) (x : α) :
    (∀ e, conv x = .error e → a.fill conv x = .error e) ∧
    (∀ y, conv x = .ok y → ∃ a', a.fill conv x = .ok a' ∧ MdaWf ds a' ∧
      mdaShape (a'.sizes.map Int.ofNat) = mdaShape (a.sizes.map Int.ofNat) ∧ ∀ idx, InRange idx ds → a'.get idx = .ok (some y)) := by
  refine ⟨fun e he => by simp only [Mda.fill, he]; rfl, fun y hy => ?_⟩
  obtain ⟨d, hd, hl, hall⟩ := forRange_spec
    (fun k (d : List (Option α)) => d.length = a.data.length ∧ ∀ j, j < k → d[j]? = some (some y))
    (body := fun i d => wr d i (some y)) (lo := 0) (hi := a.data.length) (s := a.data) (by omega) ⟨rfl, by intro j h; omega⟩
    (by
      intro k d _ hk ⟨h1, h2⟩
      refine ⟨_, wr_of_lt _ (by omega), by simpa using h1, ?_⟩
      intro j hj
      by_cases hjk : j = k
      · subst hjk; simp [h1, hk]
      · rw [List.getElem?_set_ne (by omega)]; exact h2 j (by omega))
  have hw' : MdaWf ds { a with data := d } := ⟨hw.1, by rw [← hw.2]; exact hl⟩
  refine ⟨{ a with data := d }, by simp only [Mda.fill, hy, ok_bind, hd], hw', rfl, fun idx hi => ?_⟩
  obtain ⟨e1, l1⟩ := Mda.index_ok hw' idx hi
  have e2 := Mda.checkShape_ok hw' idx hi
  simp only [Mda.get, e2, ok_bind, e1]
  exact rd_of_some (hall _ (by rw [← hl]; exact l1))

example : mdaNewInt (α := Int) [2, 3, 2] = .ok ([12, 6, 2, 1], List.replicate 12 none) ∧ mdaShape [12, 6, 2, 1] = [2, 3, 2] := ⟨rfl, rfl⟩
example : mdaNewInt (α := Int) [2, 0, 2] = .error .valueError := rfl
example : ∃ a a' : Mda Int, Mda.new [2, 3] = .ok a ∧ a.fill (fun x => .ok x) 7 = .ok a' ∧ a'.get [1, 2] = .ok (some 7) := ⟨_, _, rfl, rfl, rfl⟩

end Props
