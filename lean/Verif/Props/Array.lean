import Verif.Spec
import Verif.Model.Array
import Verif.Lemmas.Py

/-!
# C26, C27, C28: arrays
-/
namespace Props
open Py Model Spec
variable {α : Type}

theorem listIndex_of {n : Nat} {i : Int} (h0 : 0 ≤ i) (h1 : i < n) : listIndex n i = some i.toNat := by
  rw [listIndex, if_pos h0, if_pos h1]

/-! ## C26 OneDimensionalArray -/

/-- The arrays a user can hold: the stored size is the length of the data. Every constructor establishes it and every
operation keeps it (`C26_constructors`, `C26_set`, `C26_fill`). -/
def OdaWf (a : Oda α) : Prop := a.data.length = a.size

theorem convAll_length (conv : α → PyM α) : ∀ (l r : List α), convAll conv l = .ok r → r.length = l.length := by
  intro l
  induction l with
  | nil => intro r h; cases h; rfl
  | cons x l ih =>
    intro r h
    cases hx : conv x with
    | error e => simp [convAll, hx] at h
    | ok y =>
      cases hl : convAll conv l with
      | error e => simp [convAll, hx, hl] at h
      | ok ys => simp [convAll, hx, hl] at h; subst h; simp [ih ys hl]

theorem convAll_getElem? (conv : α → PyM α) : ∀ (l r : List α), convAll conv l = .ok r →
    ∀ (i : Nat) (x : α), l[i]? = some x → ∃ y, conv x = .ok y ∧ r[i]? = some y := by
  intro l
  induction l with
  | nil => intro r _ i x hx; simp at hx
  | cons z l ih =>
    intro r h i x hx
    cases hz : conv z with
    | error e => simp [convAll, hz] at h
    | ok y =>
      cases hl : convAll conv l with
      | error e => simp [convAll, hz, hl] at h
      | ok ys =>
        simp [convAll, hz, hl] at h; subst h
        cases i with
        | zero => simp at hx; subst hx; exact ⟨y, hz, by simp⟩
        | succ i => simpa using ih ys hl i x (by simpa using hx)

/-- C26, constructors: a size gives that many `init` cells, a list its converted elements, a list with a wrong size is
rejected. -/
theorem C26_constructors :
    (∀ (n : Nat) (init : Option α), OdaWf (Oda.ofSize n init) ∧ (Oda.ofSize n init).len = n ∧
      ∀ i : Nat, i < n → (Oda.ofSize n init).get i = .ok init) ∧
    (∀ (conv : α → PyM α) (l : List α) (a : Oda α), Oda.ofList conv l = .ok a → OdaWf a ∧ a.len = l.length ∧
      ∀ (i : Nat) (x : α), l[i]? = some x → ∃ y, conv x = .ok y ∧ a.get i = .ok (some y)) ∧
    (∀ (conv : α → PyM α) (l : List α) (n : Nat), n ≠ l.length → ∀ a, Oda.ofListSize conv l n ≠ .ok a) := by
  refine ⟨fun n init => ⟨by simp [OdaWf, Oda.ofSize], rfl, ?_⟩, ?_, ?_⟩
  · intro i hi
    have h1 : ¬ ((i : Int) ≥ (n : Int) ∨ (i : Int) < 0) := by omega
    have h2 : listIndex n (i : Int) = some i := by simp [listIndex]; omega
    simp [Oda.ofSize, Oda.get, h2, rd, hi]
  · intro conv l a h
    cases hl : convAll conv l with
    | error e => simp [Oda.ofList, hl] at h
    | ok r =>
      simp [Oda.ofList, hl] at h
      subst h
      have hlen := convAll_length conv l r hl
      refine ⟨by simp [OdaWf], by simp [Oda.len, hlen], ?_⟩
      intro i x hx
      obtain ⟨y, hy, hr⟩ := convAll_getElem? conv l r hl i x hx
      refine ⟨y, hy, ?_⟩
      have hi := (List.getElem?_eq_some_iff.1 hr).1
      have h1 : ¬ ((i : Int) ≥ (r.length : Int) ∨ (i : Int) < 0) := by omega
      have h2 : listIndex r.length (i : Int) = some i := by simp [listIndex]; omega
      simp only [Oda.get, List.length_map, h2, if_neg h1, rd, List.getElem?_map, hr, Option.map_some]
  · intro conv l n hn a h
    cases hl : convAll conv l with
    | error e => simp [Oda.ofListSize, hl] at h
    | ok r =>
      have hlen := convAll_length conv l r hl
      simp [Oda.ofListSize, hl, hlen, hn] at h

/-- C26, reads: an index outside `0 ≤ i < len` raises `IndexError`, an index inside never raises. -/
theorem C26_get (a : Oda α) (hw : OdaWf a) (i : Int) :
    (¬ (0 ≤ i ∧ i < a.len) → a.get i = .error .indexError) ∧
    (0 ≤ i ∧ i < a.len → ∃ v, a.get i = .ok v) := by
  unfold OdaWf at hw
  constructor
  · intro h
    rw [Oda.get, if_pos (by simp only [Oda.len] at h; omega)]
  · intro h
    simp only [Oda.len] at h
    have h2 : listIndex a.data.length i = some i.toNat := listIndex_of (by omega) (by omega)
    rw [Oda.get, if_neg (by omega), h2]
    exact ⟨_, rd_of_lt (by omega)⟩

/-- C26, writes: a write at `0 ≤ i < len` is read back (converted by the dtype), changes no other index and keeps the length.
If the dtype rejects the value nothing is returned, i.e. the array is unchanged. -/
theorem C26_set (conv : α → PyM α) (a : Oda α) (hw : OdaWf a) (i : Int) (h : 0 ≤ i ∧ i < a.len) (v : Option α) :
    (∀ x e, v = some x → conv x = .error e → a.set conv i v = .error e) ∧
    (∀ w, (v = none ∧ w = none) ∨ (∃ x y, v = some x ∧ conv x = .ok y ∧ w = some y) →
      ∃ a', a.set conv i v = .ok a' ∧ OdaWf a' ∧ a'.len = a.len ∧ a'.get i = .ok w ∧
        ∀ j, j ≠ i → a'.get j = a.get j) := by
  unfold OdaWf at hw
  simp only [Oda.len] at h
  have hk : i.toNat < a.data.length := by omega
  have h2 : listIndex a.data.length i = some i.toNat := listIndex_of (by omega) (by omega)
  constructor
  · intro x e hv hx
    subst hv
    simp [Oda.set, hx]
  · intro w hcase
    have hset : a.set conv i v = .ok { a with data := a.data.set i.toNat w } := by
      rcases hcase with ⟨rfl, rfl⟩ | ⟨x, y, rfl, hy, rfl⟩
      · simp [Oda.set, h2, wr_of_lt _ hk]
      · simp [Oda.set, hy, h2, wr_of_lt _ hk]
    refine ⟨_, hset, by simpa [OdaWf] using hw, rfl, ?_, ?_⟩
    · have h2 : listIndex (a.data.set i.toNat w).length i = some i.toNat := by simpa using h2
      simp only [Oda.get]
      rw [if_neg (by omega), h2]
      simp [rd, hk]
    · intro j hj
      simp only [Oda.get, List.length_set]
      split
      · rfl
      · rename_i hj2
        have h3 : listIndex a.data.length j = some j.toNat := listIndex_of (by omega) (by omega)
        rw [h3]
        simp only [rd]
        rw [List.getElem?_set_ne (by omega)]

/-- C26, fill: afterwards every index reads the (converted) value. -/
theorem C26_fill (conv : α → PyM α) (a : Oda α) (hw : OdaWf a) (v y : α) (hy : conv v = .ok y) :
    ∃ a', a.fill conv v = .ok a' ∧ OdaWf a' ∧ a'.len = a.len ∧ ∀ i : Int, 0 ≤ i → i < a.len → a'.get i = .ok (some y) := by
  unfold OdaWf at hw
  obtain ⟨d, hd, hl, hall⟩ := forRange_spec
    (fun k (d : List (Option α)) => d.length = a.size ∧ ∀ j, j < k → d[j]? = some (some y))
    (body := fun i d => wr d i (some y)) (lo := 0) (hi := a.size) (s := a.data) (by omega) ⟨hw, by intro j h; omega⟩
    (by
      intro k d _ hk ⟨h1, h2⟩
      refine ⟨_, wr_of_lt _ (by omega), by simpa using h1, ?_⟩
      intro j hj
      by_cases hjk : j = k
      · subst hjk; simp [h1, hk]
      · rw [List.getElem?_set_ne (by omega)]; exact h2 j (by omega))
  refine ⟨{ a with data := d }, by simp [Oda.fill, hy, hd], hl, rfl, ?_⟩
  intro i h0 hi
  simp only [Oda.len] at hi
  have h3 : listIndex d.length i = some i.toNat := listIndex_of (by omega) (by omega)
  simp only [Oda.get]
  rw [if_neg (by omega), h3]
  simp only [rd, hall i.toNat (by omega)]

/-- What the code does outside the property: a *write* at a negative index is not rejected but wraps around. -/
theorem C26_negative_write_wraps :
    Oda.set (fun x : Int => .ok x) (Oda.ofSize 3 none) (-1) (some 5) = .ok ⟨3, [none, none, some 5]⟩ := rfl

example := C26_set (fun x : Int => .ok x) (Oda.ofSize 5 none) (by rfl) 2 (by decide) (some 7)
example := C26_fill (fun x : Int => .ok x) (Oda.ofSize 5 none) (by rfl) 6 6 rfl

/-! ## C28 MultiDimensionalArray -/

/-- A tuple of indices inside the dimensions. -/
def InRange : List Int → List Nat → Prop
  | [], [] => True
  | i :: is, d :: ds => 0 ≤ i ∧ i < d ∧ InRange is ds
  | _, _ => False

/-- Number of cells. -/
def volume : List Nat → Nat
  | [] => 1
  | d :: ds => d * volume ds

theorem foldl_mul (l : List Nat) : ∀ k, l.foldl (· * ·) k = k * volume l := by
  induction l with
  | nil => intro k; simp [volume]
  | cons d l ih => intro k; simp [volume, ih, Nat.mul_assoc]

theorem mdaSizes_cons (d : Nat) (ds : List Nat) : mdaSizes (d :: ds) = volume (d :: ds) :: mdaSizes ds := by
  rw [mdaSizes, foldl_mul, Nat.one_mul]

theorem mdaSizes_length (ds : List Nat) : (mdaSizes ds).length = ds.length + 1 := by
  induction ds with
  | nil => rfl
  | cons d ds ih => simp [mdaSizes, ih]

theorem mdaSizes_head (ds : List Nat) : (mdaSizes ds).headD 1 = volume ds := by
  cases ds with
  | nil => rfl
  | cons d ds => rw [mdaSizes_cons]; rfl

theorem position_cons (i : Int) (is : List Int) (ds : List Nat) :
    mdaPosition (i :: is) (mdaSizes ds) = volume ds * i + mdaPosition is ((mdaSizes ds).drop 1) := by
  cases ds with
  | nil => cases is <;> simp [mdaSizes, mdaPosition, volume]
  | cons d ds => rw [mdaSizes_cons]; simp [mdaPosition]

theorem InRange.length_eq : ∀ (is : List Int) (ds : List Nat), InRange is ds → is.length = ds.length := by
  intro is
  induction is with
  | nil => intro ds h; cases ds with
    | nil => rfl
    | cons d ds => simp [InRange] at h
  | cons i is ih => intro ds h; cases ds with
    | nil => simp [InRange] at h
    | cons d ds => simp [ih ds h.2.2]

theorem position_bounds : ∀ (is : List Int) (ds : List Nat), InRange is ds →
    0 ≤ mdaPosition is ((mdaSizes ds).drop 1) ∧ mdaPosition is ((mdaSizes ds).drop 1) < volume ds := by
  intro is
  induction is with
  | nil => intro ds h; cases ds with
    | nil => simp [mdaPosition, volume]
    | cons d ds => simp [InRange] at h
  | cons i is ih => intro ds h; cases ds with
    | nil => simp [InRange] at h
    | cons d ds =>
      obtain ⟨h1, h2, h3⟩ := h
      obtain ⟨h4, h5⟩ := ih ds h3
      rw [mdaSizes_cons, List.drop_one, List.tail_cons, position_cons]
      have h6 : (volume ds : Int) * i ≥ 0 := Int.mul_nonneg (by omega) h1
      have h7 : (volume ds : Int) * (i + 1) ≤ volume ds * d := Int.mul_le_mul_of_nonneg_left (by omega) (by omega)
      rw [Int.mul_add] at h7
      have h8 : ((volume (d :: ds) : Nat) : Int) = volume ds * d := by
        rw [volume, Int.natCast_mul]; exact Int.mul_comm _ _
      omega

theorem position_inj : ∀ (is js : List Int) (ds : List Nat), InRange is ds → InRange js ds →
    mdaPosition is ((mdaSizes ds).drop 1) = mdaPosition js ((mdaSizes ds).drop 1) → is = js := by
  intro is
  induction is with
  | nil => intro js ds h1 h2 _; cases ds with
    | nil => cases js with
      | nil => rfl
      | cons j js => simp [InRange] at h2
    | cons d ds => simp [InRange] at h1
  | cons i is ih => intro js ds h1 h2 he; cases ds with
    | nil => simp [InRange] at h1
    | cons d ds => cases js with
      | nil => simp [InRange] at h2
      | cons j js =>
        obtain ⟨a1, a2, a3⟩ := h1
        obtain ⟨b1, b2, b3⟩ := h2
        rw [mdaSizes_cons, List.drop_one, List.tail_cons, position_cons, position_cons] at he
        have pa := position_bounds is ds a3
        have pb := position_bounds js ds b3
        have hij : i = j := by
          rcases Int.lt_trichotomy i j with hlt | heq | hgt
          · have : (volume ds : Int) * (i + 1) ≤ volume ds * j := Int.mul_le_mul_of_nonneg_left (by omega) (by omega)
            rw [Int.mul_add] at this; omega
          · exact heq
          · have : (volume ds : Int) * (j + 1) ≤ volume ds * i := Int.mul_le_mul_of_nonneg_left (by omega) (by omega)
            rw [Int.mul_add] at this; omega
        subst hij
        rw [ih js ds a3 b3 (by omega)]

/-- The arrays a user can hold for the dimensions `ds`. -/
def MdaWf (ds : List Nat) (a : Mda α) : Prop := a.sizes = mdaSizes ds ∧ a.data.length = volume ds

theorem Mda.new_wf (ds : List Nat) (hne : ds ≠ []) (hpos : ∀ d ∈ ds, 1 ≤ d) :
    ∃ a : Mda α, Mda.new ds = .ok a ∧ MdaWf ds a ∧ ∀ idx, InRange idx ds → a.get idx = .ok none := by
  have key : ∀ a : Mda α, MdaWf ds a → a.data = List.replicate (volume ds) none →
      ∀ idx, InRange idx ds → a.get idx = .ok none := by
    intro a hw hd idx hi
    have hb := position_bounds idx ds hi
    have hc : a.checkShape idx = .ok () := by
      rw [Mda.checkShape, if_neg, if_neg]
      · rw [hw.1]
        clear hb hd hw hpos hne
        induction idx generalizing ds with
        | nil => simp
        | cons i is ih =>
          cases ds with
          | nil => simp [InRange] at hi
          | cons d ds =>
            rw [mdaSizes_cons]
            have h9 := position_bounds is ds hi.2.2
            have := ih ds hi.2.2
            simp only [List.zip_cons_cons, List.any_cons, Bool.or_eq_true, not_or]
            refine ⟨?_, this⟩
            simp only [decide_eq_true_eq]
            have h10 : (d : Int) * 1 ≤ d * volume ds := Int.mul_le_mul_of_nonneg_left (by omega) (by omega)
            have h11 : ((volume (d :: ds) : Nat) : Int) = d * volume ds := by rw [volume, Int.natCast_mul]
            have := hi.2.1
            omega
      · rw [hw.1, mdaSizes_length, hi.length_eq]; simp
    have h2 : listIndex a.data.length (mdaPosition idx (a.sizes.drop 1)) =
        some (mdaPosition idx (a.sizes.drop 1)).toNat := by
      rw [hw.1, hw.2]; simp only [listIndex]; rw [if_pos hb.1, if_pos hb.2]
    simp only [Mda.get, hc, ok_bind, h2]
    rw [hw.1, hd]
    simp only [rd, List.getElem?_replicate]
    rw [if_pos (by omega)]
  match ds, hne with
  | [n], _ =>
    refine ⟨⟨[n, 1], List.replicate n none⟩, rfl, ⟨by simp [mdaSizes], by simp [volume]⟩, ?_⟩
    exact key _ ⟨by simp [mdaSizes], by simp [volume]⟩ (by simp [volume])
  | d :: e :: es, _ =>
    have hany : ((d :: e :: es).any fun x => decide (x < 1)) = false := by
      rw [List.any_eq_false]
      intro x hx
      have := hpos x hx
      simp; omega
    have hw : MdaWf (d :: e :: es) (⟨mdaSizes (d :: e :: es),
        List.replicate ((mdaSizes (e :: es)).headD 1 * d) none⟩ : Mda α) := by
      refine ⟨rfl, ?_⟩
      rw [mdaSizes_head]; simp only [volume, List.length_replicate]; exact Nat.mul_comm _ _
    refine ⟨_, by simp only [Mda.new, hany]; rfl, hw, key _ hw ?_⟩
    dsimp only
    rw [mdaSizes_head]; simp only [volume]; congr 1; exact Nat.mul_comm _ _

theorem Mda.checkShape_ok {ds : List Nat} {a : Mda α} (hw : MdaWf ds a) (idx : List Int) (hi : InRange idx ds) :
    a.checkShape idx = .ok () := by
  rw [Mda.checkShape, if_neg, if_neg]
  · rw [hw.1]
    clear hw
    induction idx generalizing ds with
    | nil => simp
    | cons i is ih =>
      cases ds with
      | nil => simp [InRange] at hi
      | cons d ds =>
        rw [mdaSizes_cons]
        have h9 := position_bounds is ds hi.2.2
        have := ih hi.2.2
        simp only [List.zip_cons_cons, List.any_cons, Bool.or_eq_true, not_or]
        refine ⟨?_, this⟩
        simp only [decide_eq_true_eq]
        have h10 : (d : Int) * 1 ≤ d * volume ds := Int.mul_le_mul_of_nonneg_left (by omega) (by omega)
        have h11 : ((volume (d :: ds) : Nat) : Int) = d * volume ds := by rw [volume, Int.natCast_mul]
        have := hi.2.1
        omega
  · rw [hw.1, mdaSizes_length, hi.length_eq]; simp

theorem Mda.index_ok {ds : List Nat} {a : Mda α} (hw : MdaWf ds a) (idx : List Int) (hi : InRange idx ds) :
    listIndex a.data.length (mdaPosition idx (a.sizes.drop 1)) =
        some (mdaPosition idx (a.sizes.drop 1)).toNat ∧ (mdaPosition idx (a.sizes.drop 1)).toNat < a.data.length := by
  have hb := position_bounds idx ds hi
  rw [hw.1, hw.2]; simp only [listIndex]; rw [if_pos hb.1, if_pos hb.2]
  exact ⟨rfl, by omega⟩

/-- C28, the part that holds: for tuples inside the dimensions a read never raises, a write is read back, and it affects no
other tuple. (A tuple of the wrong length is rejected, `C28_wrong_arity`.) -/
theorem C28_cells_independent_partial (ds : List Nat) (a : Mda α) (hw : MdaWf ds a) (idx : List Int) (hi : InRange idx ds)
    (v : Option α) :
    (∃ w, a.get idx = .ok w) ∧
    ∃ a', a.set idx v = .ok a' ∧ MdaWf ds a' ∧ a'.get idx = .ok v ∧
      ∀ jdx, InRange jdx ds → jdx ≠ idx → a'.get jdx = a.get jdx := by
  obtain ⟨e1, l1⟩ := Mda.index_ok hw idx hi
  have e2 := Mda.checkShape_ok hw idx hi
  constructor
  · exact ⟨_, by simp only [Mda.get, e2, ok_bind, e1]; exact rd_of_lt l1⟩
  · have hset : a.set idx v = .ok { a with data := a.data.set (mdaPosition idx (a.sizes.drop 1)).toNat v } := by
      simp only [Mda.set, e2, ok_bind, e1, wr_of_lt _ l1]
    have hw' : MdaWf ds { a with data := a.data.set (mdaPosition idx (a.sizes.drop 1)).toNat v } :=
      ⟨hw.1, by simpa using hw.2⟩
    refine ⟨_, hset, hw', ?_, ?_⟩
    · obtain ⟨e3, l3⟩ := Mda.index_ok hw' idx hi
      have e4 := Mda.checkShape_ok hw' idx hi
      simp only [Mda.get, e4, ok_bind, e3]
      simp only [rd]
      rw [List.getElem?_set_self l1]
    · intro jdx hj hne
      obtain ⟨e3, l3⟩ := Mda.index_ok hw' jdx hj
      have e4 := Mda.checkShape_ok hw' jdx hj
      obtain ⟨e5, l5⟩ := Mda.index_ok hw jdx hj
      have e6 := Mda.checkShape_ok hw jdx hj
      simp only [Mda.get, e4, e6, ok_bind, e3, e5]
      simp only [rd]
      rw [List.getElem?_set_ne]
      intro h
      apply hne
      have b1 := position_bounds idx ds hi
      have b2 := position_bounds jdx ds hj
      rw [hw.1] at h
      exact position_inj jdx idx ds hj hi (by omega)

/-- C28: a tuple whose length is not the number of dimensions raises `IndexError`. -/
theorem C28_wrong_arity (ds : List Nat) (a : Mda α) (hw : MdaWf ds a) (idx : List Int) (hl : idx.length ≠ ds.length)
    (v : Option α) : a.get idx = .error .indexError ∧ a.set idx v = .error .indexError := by
  have : a.checkShape idx = .error .indexError := by
    rw [Mda.checkShape, if_pos]
    rw [hw.1, mdaSizes_length]; simpa using hl
  simp [Mda.get, Mda.set, this]

/-- The full C28: tuples outside the dimensions are rejected. -/
def C28_full : Prop := ∀ (ds : List Nat) (a : Mda Int), ds ≠ [] → Mda.new ds = .ok a → ∀ idx : List Int, idx.length = ds.length →
  ¬ InRange idx ds → a.get idx = .error .indexError

/-- It is false of the code: on a 2 × 3 × 2 array the tuple `(0, 3, 0)` is accepted, -/
theorem C28_full_false : ¬ C28_full := by
  intro h
  have := h [2, 3, 2] _ (by decide) rfl [0, 3, 0] rfl (by simp [InRange])
  have e : Mda.get (⟨mdaSizes [2, 3, 2], List.replicate 12 none⟩ : Mda Int) [0, 3, 0] = .ok none := by rfl
  exact absurd (e.symm.trans this) (by intro h; cases h)

/-- and it denotes the cell of `(1, 0, 0)`: in every array with dimensions `[d, e, f]`, all at least 2, a write at `(0, e, 0)` is seen
at `(1, 0, 0)`. -/
theorem C28_aliasing (d e f : Nat) (hd : 2 ≤ d) (he : 2 ≤ e) (hf : 2 ≤ f) (a : Mda α) (hw : MdaWf [d, e, f] a)
    (v : Option α) : ∃ a', a.set [0, e, 0] v = .ok a' ∧ a'.get [1, 0, 0] = .ok v := by
  have hp : mdaPosition [0, (e : Int), 0] (a.sizes.drop 1) = mdaPosition [1, 0, 0] (a.sizes.drop 1) := by
    rw [hw.1]
    simp [mdaSizes, mdaPosition]
    exact Int.mul_comm _ _
  have hir : InRange [1, 0, 0] [d, e, f] := by
    refine ⟨by omega, by omega, by omega, by omega, by omega, by omega, trivial⟩
  obtain ⟨e1, l1⟩ := Mda.index_ok hw _ hir
  have hc : a.checkShape [0, (e : Int), 0] = .ok () := by
    rw [Mda.checkShape, if_neg, if_neg]
    · have h4 : e * 2 ≤ e * f := Nat.mul_le_mul_left _ hf
      have h1 : 2 * (e * f) ≤ d * (e * f) := Nat.mul_le_mul_right _ hd
      rw [hw.1, mdaSizes_cons, mdaSizes_cons, mdaSizes_cons]
      simp only [volume, List.zip_cons_cons, List.any_cons, Bool.or_eq_true, decide_eq_true_eq, Nat.mul_one, not_or]
      refine ⟨by omega, by omega, by omega, by simp⟩
    · rw [hw.1]; simp [mdaSizes]
  obtain ⟨-, a', h1, h2, h3, -⟩ := C28_cells_independent_partial _ a hw _ hir v
  refine ⟨a', ?_, h3⟩
  rw [← h1]
  simp only [Mda.set, hc, Mda.checkShape_ok hw _ hir, hp]

example := C28_cells_independent_partial (α := Int) [2, 3, 2] ⟨mdaSizes [2, 3, 2], List.replicate 12 none⟩ ⟨rfl, by simp [volume]⟩
  [1, 2, 1] (by simp [InRange]) (some 3)

end Props
