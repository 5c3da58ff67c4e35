import Verif.Model.CppSearch
import Verif.Lemmas.CppSort
import Verif.Props.Search

/-!
# C98, C99: the searches with `backend=Backend.CPP`

`start` and `stop` are the keywords `start` and `end` (inclusive), `none` when absent.
-/
namespace Props
open Py Spec Model
variable {α : Type}

theorem cppStop_lt {a : List (Option α)} {stop : Option Nat} (h0 : a ≠ []) (hl : a.length < 2 ^ 63) (hs : ∀ s, stop = some s → s < a.length) :
    stop.getD (Cpp.lastIndex a) = stop.getD (a.length - 1) ∧ stop.getD (a.length - 1) < a.length := by
  have := List.length_pos_iff.2 h0
  cases stop with
  | none => exact ⟨Cpp.lastIndex_eq (by omega) h0, by simp; omega⟩
  | some s => exact ⟨rfl, hs s rfl⟩

theorem Cpp_equal_yes [DecidableEq α] {x value : Option α} (h : x = value) (s : Cpp.St α) : Cpp.equal (some x) value s = (true, s) := by
  simp [Cpp.equal, h]
theorem Cpp_equal_no [DecidableEq α] {x value : Option α} (h : x ≠ value) (s : Cpp.St α) : Cpp.equal (some x) value s = (false, s) := by
  simp [Cpp.equal, h]

/-! ## linear_search -/

theorem Cpp_linear_sim [DecidableEq α] (a : List (Option α)) (value : Option α) : ∀ n i r, Model.linearSearchLoop a value n i = .ok r →
    Cpp.linearLoop value n i ⟨a, false⟩ = (r, ⟨a, false⟩) := by
  intro n
  induction n with
  | zero => intro i r e; cases e; rfl
  | succ n ih =>
    intro i r e
    simp only [Model.linearSearchLoop] at e
    obtain ⟨x, hx, e⟩ := bind_ok e
    simp only [Cpp.linearLoop, Cpp.bind_apply, Cpp.getItem_ok hx]
    by_cases he : x = value
    · rw [if_pos he] at e; cases e; simp only [Cpp_equal_yes he]; rfl
    · rw [if_neg he] at e; simp only [Cpp_equal_no he]; exact ih _ _ e

/-- C98, `linear_search`: the least position of the range that holds the value (which may be `None`); `None` exactly when there is none. -/
theorem C98_linear_search [DecidableEq α] (a : List (Option α)) (value : Option α) (h0 : a ≠ []) (hl : a.length < 2 ^ 63) (start stop : Option Nat)
    (hs : ∀ s, stop = some s → s < a.length) :
    (∃ k, Cpp.linearSearch a value start stop = .ok (some k) ∧ start.getD 0 ≤ k ∧ k ≤ stop.getD (a.length - 1) ∧ a[k]? = some value ∧
      ∀ j, start.getD 0 ≤ j → j < k → a[j]? ≠ some value) ∨
    (Cpp.linearSearch a value start stop = .ok none ∧ ∀ j, start.getD 0 ≤ j → j ≤ stop.getD (a.length - 1) → a[j]? ≠ some value) := by
  obtain ⟨h1, h2⟩ := cppStop_lt h0 hl hs
  have key : ∀ r, Model.linearSearch a value (start.getD 0) (stop.getD (a.length - 1) + 1) = .ok r → Cpp.linearSearch a value start stop = .ok r := by
    intro r e
    unfold Cpp.linearSearch
    simp only [h1, Cpp.sz_succ (show stop.getD (a.length - 1) + 1 < 2 ^ 64 by omega)]
    rw [Cpp_linear_sim a value _ _ _ e]
    rfl
  rcases C15_linear_search a value (start.getD 0) (stop.getD (a.length - 1) + 1) h2 with ⟨k, e, g1, g2, g3, g4⟩ | ⟨e, g⟩
  · exact .inl ⟨k, key _ e, g1, by omega, g3, g4⟩
  · exact .inr ⟨key _ e, fun j q1 q2 => g j q1 (by omega)⟩

/-! ## binary_search -/

theorem cpp_mid_bounds (l r : Nat) (h : l ≤ r) :
    l ≤ l / 2 + r / 2 + l % 2 * r % 2 ∧ l / 2 + r / 2 + l % 2 * r % 2 ≤ r := by
  have hm : l % 2 * r % 2 = if l % 2 = 1 ∧ r % 2 = 1 then 1 else 0 := by
    rcases Nat.mod_two_eq_zero_or_one l with e | e
    · simp [e]
    · rw [e, Nat.one_mul]; rcases Nat.mod_two_eq_zero_or_one r with e' | e' <;> simp [e']
  rw [hm]
  split <;> omega

theorem ofInt32_nat {k : Nat} (h : k < 2 ^ 64) : Cpp.ofInt32 (k : Int) = k := Cpp.sz_nat h
theorem toInt32_nat {k : Nat} (h : k < 2 ^ 31) : Cpp.toInt32 k = k := by unfold Cpp.toInt32; omega

theorem Cpp_binary_sim [DecidableEq α] (t : α → α → Bool) (a : List (Option α)) (value : Option α) (hl : a.length < 2 ^ 31) :
    ∀ fuel (left stop : Nat) r, stop ≤ a.length → Model.binarySearchLoop (pyComp t) a value fuel left stop = .ok r →
    Cpp.binaryLoop t value fuel left ((stop : Int) - 1) ⟨a, false⟩ = .ok (r, ⟨a, false⟩) := by
  intro fuel
  induction fuel with
  | zero => intro left stop r _ e; cases e
  | succ fuel ih =>
    intro left stop r hs e
    simp only [Model.binarySearchLoop] at e
    simp only [Cpp.binaryLoop]
    by_cases hlt : left < stop
    · rw [if_pos hlt] at e
      rw [if_pos (by omega)]
      have hb := cpp_mid_bounds left (stop - 1) (by omega)
      have hm : (left : Int).tdiv 2 + ((stop : Int) - 1).tdiv 2 + ((left : Int).tmod 2 * ((stop : Int) - 1)).tmod 2 =
          ((left / 2 + (stop - 1) / 2 + left % 2 * (stop - 1) % 2 : Nat) : Int) := by
        rw [show ((stop : Int) - 1) = ((stop - 1 : Nat) : Int) by omega]
        simp only [Int.natCast_add, Int.natCast_ediv, Int.natCast_mul, Int.natCast_emod, Int.tdiv_eq_ediv_of_nonneg (Int.natCast_nonneg _),
          Int.tmod_eq_emod_of_nonneg (Int.natCast_nonneg _)]
        rw [Int.tmod_eq_emod_of_nonneg (Int.mul_nonneg (by omega) (by omega))]
        rfl
      rw [hm]
      generalize left / 2 + (stop - 1) / 2 + left % 2 * (stop - 1) % 2 = mid at *
      obtain ⟨x, hx, e⟩ := bind_ok e
      rw [if_neg (by omega), ofInt32_nat (by omega), Cpp.getItem_ok hx]
      by_cases he : x = value
      · rw [if_pos he] at e; cases e; simp only [Cpp_equal_yes he, if_true]
      · rw [if_neg he] at e; simp only [Cpp_equal_no he, Cpp.comp_ok, Bool.false_eq_true, if_false]
        by_cases hc : pyComp t x value = true
        · rw [if_pos hc] at e
          rw [if_pos hc, if_neg (by omega)]
          exact ih (mid + 1) stop r hs e
        · rw [if_neg hc] at e
          rw [if_neg hc, if_neg (by omega)]
          exact ih left mid r (by omega) e
    · rw [if_neg hlt] at e
      cases e
      rw [if_neg (by omega)]

/-- `None` last, in a total order without ties. -/
theorem noneLast_anti {le : α → α → Prop} (anti : ∀ x y, le x y → le y x → x = y) :
    ∀ x y, noneLast le x y → noneLast le y x → x = y := by
  intro x y h1 h2
  cases x <;> cases y
  · rfl
  · simp [noneLast] at h1
  · simp [noneLast] at h2
  · rw [anti _ _ h1 h2]

/-- C98, `binary_search` on a sorted range (`None` cells last): sound and complete, without exception or overflow. -/
theorem C98_binary_search [DecidableEq α] (comp : α → α → Bool) (le : α → α → Prop)
    (anti : ∀ x y, le x y → le y x → x = y) (hc : Compat comp le) (a : List (Option α)) (value : Option α) (h0 : a ≠ []) (hl : a.length < 2 ^ 31)
    (start stop : Option Nat) (hst : start.getD 0 < 2 ^ 31) (hstop : ∀ s, stop = some s → s < a.length)
    (hs : SortedRange (noneLast le) a (start.getD 0) (stop.getD (a.length - 1) + 1)) :
    ∃ r, EndsWith (fun fuel => Cpp.binarySearch comp fuel a value start stop) (.ok r) ∧
      SearchResult a value (start.getD 0) (stop.getD (a.length - 1)) r := by
  obtain ⟨h1, h2⟩ := cppStop_lt h0 (by omega) hstop
  obtain ⟨r, ⟨n, hn⟩, g1, g2⟩ := C16_binary_search (pyComp comp) (noneLast le) (noneLast_anti anti) (pyComp_compat hc) a value
    (start.getD 0) (stop.getD (a.length - 1) + 1) h2 hs
  refine ⟨r, ⟨n, fun m hm => ?_⟩, fun k hk => ?_, ?_⟩
  · have := Cpp_binary_sim comp a value hl m _ _ r h2 (hn m hm)
    dsimp only
    unfold Cpp.binarySearch
    rw [h1, toInt32_nat hst, toInt32_nat (by omega)]
    rw [show (((stop.getD (a.length - 1) + 1 : Nat) : Int) - 1) = ((stop.getD (a.length - 1) : Nat) : Int) by omega] at this
    rw [this]
    rfl
  · obtain ⟨q1, q2, q3⟩ := g1 k hk
    exact ⟨q1, by omega, q3⟩
  · rw [g2]
    exact ⟨fun h j j1 j2 => h j j1 (by omega), fun h j j1 j2 => h j j1 (by omega)⟩

/-- On an empty array both answer `None`. -/
theorem C98_empty [DecidableEq α] (comp : α → α → Bool) (value : Option α) (fuel : Nat) :
    Cpp.linearSearch ([] : List (Option α)) value none none = .ok none ∧
    Cpp.binarySearch comp (fuel + 1) ([] : List (Option α)) value none none = .ok none := by
  have h1 : Cpp.sz ((Cpp.lastIndex ([] : List (Option α)) : Int) + 1) = 0 := by
    show Cpp.sz ((Cpp.sz (-1) : Nat) + 1 : Int) = 0; decide
  have h2 : Cpp.toInt32 (Cpp.lastIndex ([] : List (Option α))) = -1 := by
    show Cpp.toInt32 (Cpp.sz (-1)) = -1; decide
  have h3 : Cpp.toInt32 0 = 0 := by decide
  constructor
  · simp only [Cpp.linearSearch, Option.getD_none, h1]; rfl
  · simp only [Cpp.binarySearch, Option.getD_none, h2, h3, Cpp.binaryLoop]; rfl

/-! ## jump_search -/

theorem isqrtFrom_le (n : Nat) : ∀ r, isqrtFrom n r ≤ r := by
  intro r
  induction r with
  | zero => exact Nat.le_refl _
  | succ r ih => rw [isqrtFrom]; split; exact Nat.le_refl _; omega

theorem isqrtFrom_positive (n : Nat) (hn : 0 < n) : ∀ r, 0 < r → 0 < isqrtFrom n r := by
  intro r
  induction r with
  | zero => omega
  | succ r ih =>
    intro _
    rw [isqrtFrom]
    split
    · omega
    · rename_i h
      by_cases hr : r = 0
      · subst hr; simp at h; omega
      · exact ih (by omega)

theorem Cpp_jumpLoop_spec [DecidableEq α] (t : α → α → Bool) (a : List (Option α)) (value : Option α) (step upper lower : Nat)
    (hl : a.length < 2 ^ 30) (hu : upper < a.length) (hstep : 0 < step) (hstep2 : step ≤ a.length) :
    ∀ fuel (prev pos : Nat) u, upper + 1 - pos < fuel → lower ≤ prev → prev ≤ upper → pos ≤ upper → a[pos]? = some u →
      (prev = lower ∨ ∃ x, a[prev]? = some x ∧ pyComp t x value = true) → lower ≤ pos →
      ∃ p : Nat, Cpp.jumpLoop t value step upper fuel prev pos (some u) ⟨a, false⟩ = .ok ((p : Int), ⟨a, false⟩) ∧ lower ≤ p ∧ p ≤ upper ∧
        (p = lower ∨ ∃ x, a[p]? = some x ∧ pyComp t x value = true) := by
  intro fuel
  induction fuel with
  | zero => intro prev pos u h; omega
  | succ fuel ih =>
    intro prev pos u hf h1 h2 h3 hu' h4 h5
    simp only [Cpp.jumpLoop, ofInt32_nat (show pos < 2 ^ 64 by omega), if_pos h3, Cpp.comp_ok]
    by_cases hc : pyComp t u value = true
    · rw [if_pos hc, if_neg (by omega)]
      rw [show ((pos : Int) + (step : Int)) = ((pos + step : Nat) : Int) by omega, ofInt32_nat (by omega)]
      by_cases hgt : upper < pos + step
      · rw [if_pos hgt]
        exact ⟨pos, rfl, h5, h3, .inr ⟨u, hu', hc⟩⟩
      · rw [if_neg hgt]
        have hlt : pos + step < a.length := by omega
        rw [Cpp.getItem_ok (rd_of_lt hlt)]
        exact ih pos (pos + step) a[pos + step] (by omega) h5 h3 (by omega) (List.getElem?_eq_getElem hlt)
          (.inr ⟨u, hu', hc⟩) (by omega)
    · rw [if_neg hc]
      exact ⟨prev, rfl, h1, h2, h4⟩

theorem Cpp_jumpScan_spec [DecidableEq α] (a : List (Option α)) (value : Option α) (upper : Nat) (hl : a.length < 2 ^ 30) (hu : upper < a.length) :
    ∀ fuel (prev : Nat), upper + 1 - prev < fuel → prev ≤ upper + 1 →
      (∃ k, Cpp.jumpScan value upper fuel prev ⟨a, false⟩ = .ok (some k, ⟨a, false⟩) ∧ prev ≤ k ∧ k ≤ upper ∧ a[k]? = some value) ∨
      (Cpp.jumpScan value upper fuel prev ⟨a, false⟩ = .ok (none, ⟨a, false⟩) ∧ ∀ j, prev ≤ j → j ≤ upper → a[j]? ≠ some value) := by
  intro fuel
  induction fuel with
  | zero => intro prev h; omega
  | succ fuel ih =>
    intro prev hf hp
    simp only [Cpp.jumpScan, ofInt32_nat (show prev < 2 ^ 64 by omega)]
    by_cases hle : prev ≤ upper
    · have hlt : prev < a.length := by omega
      rw [if_pos hle, Cpp.getItem_ok (rd_of_lt hlt)]
      by_cases he : a[prev] = value
      · simp only [Cpp_equal_yes he, if_true]
        exact .inl ⟨prev, rfl, Nat.le_refl _, hle, by rw [← he]; simp⟩
      · simp only [Cpp_equal_no he, Bool.false_eq_true, if_false]
        rw [if_neg (by omega)]
        have hne : a[prev]? ≠ some value := by
          rw [List.getElem?_eq_getElem hlt]; intro e; exact he (Option.some.inj e)
        rcases ih (prev + 1) (by omega) (by omega) with ⟨k, e, g1, g2, g3⟩ | ⟨e, g⟩
        · exact .inl ⟨k, e, by omega, g2, g3⟩
        · refine .inr ⟨e, fun j j1 j2 => ?_⟩
          by_cases hj : j = prev
          · subst hj; exact hne
          · exact g j (by omega) j2
    · rw [if_neg hle]
      exact .inr ⟨rfl, by omega⟩

/-- C98, `jump_search` on a sorted range (`None` cells last): sound and complete for every start and every compatible comparator. -/
theorem C98_jump_search [DecidableEq α] (comp : α → α → Bool) (le : α → α → Prop)
    (anti : ∀ x y, le x y → le y x → x = y) (hc : Compat comp le) (a : List (Option α)) (value : Option α) (hl : a.length < 2 ^ 30) (h0 : a ≠ [])
    (start stop : Option Nat) (hss : start.getD 0 ≤ stop.getD (a.length - 1)) (hstop : ∀ s, stop = some s → s < a.length)
    (hs : SortedRange (noneLast le) a (start.getD 0) (stop.getD (a.length - 1) + 1)) :
    EndsIn (fun fuel => Cpp.jumpSearch comp fuel a value start stop) (SearchResult a value (start.getD 0) (stop.getD (a.length - 1))) := by
  obtain ⟨h1, h2⟩ := cppStop_lt h0 (by omega) hstop
  refine ⟨a.length + 2, fun fuel hf => ?_⟩
  dsimp only
  unfold Cpp.jumpSearch
  dsimp only
  rw [h1]
  generalize start.getD 0 = lower at *
  generalize stop.getD (a.length - 1) = upper at *
  have hn : Cpp.sz ((upper : Int) - lower + 1) = upper - lower + 1 := by unfold Cpp.sz; omega
  rw [hn]
  have hp := isqrtFrom_positive (upper - lower + 1) (by omega) (upper - lower + 1) (by omega)
  have hle := isqrtFrom_le (upper - lower + 1) (upper - lower + 1)
  generalize isqrtFrom (upper - lower + 1) (upper - lower + 1) = step at *
  have hlt : lower < a.length := by omega
  rw [toInt32_nat (by omega), ofInt32_nat (by omega), Cpp.getItem_ok (rd_of_lt hlt)]
  obtain ⟨p, e, p1, p2, p3⟩ := Cpp_jumpLoop_spec comp a value step upper lower hl h2 hp (by omega) fuel lower lower a[lower] (by omega)
    (Nat.le_refl _) hss hss (List.getElem?_eq_getElem hlt) (.inl rfl) (Nat.le_refl _)
  rw [e]
  simp only [ok_bind]
  rcases Cpp_jumpScan_spec a value upper hl h2 fuel p (by omega) (by omega) with ⟨k, e2, g1, g2, g3⟩ | ⟨e2, g⟩
  · refine ⟨some k, by rw [e2]; rfl, ?_, ?_⟩
    · intro k' hk; cases hk; exact ⟨by omega, g2, g3⟩
    · constructor
      · intro h; cases h
      · intro h; exact absurd g3 (h k (by omega) g2)
  · refine ⟨none, by rw [e2]; rfl, (fun k hk => by cases hk), ⟨fun _ j j1 j2 hj => ?_, fun _ => rfl⟩⟩
    by_cases hjp : p ≤ j
    · exact g j hjp j2 hj
    · rcases p3 with rfl | ⟨x, hx, hcx⟩
      · omega
      · have q1 := (pyComp_compat hc).yes _ _ hcx
        have q2 := hs j p value x j1 (by omega) (by omega) hj hx
        have := noneLast_anti anti _ _ q1 q2
        subst this
        exact g p (Nat.le_refl _) p2 hx

/-- On an empty array `jump_search` counts until the `int` overflows (undefined behaviour); if `None` is searched, it never ends. -/
theorem C98_jump_empty [DecidableEq α] (comp : α → α → Bool) (v : α) :
    EndsWith (fun fuel => Cpp.jumpSearch comp fuel ([] : List (Option α)) (some v) none none) (.error .undefined) ∧
    ∀ fuel, Cpp.jumpSearch comp fuel ([] : List (Option α)) none none none = .error .outOfFuel := by
  have h2 : Cpp.lastIndex ([] : List (Option α)) = 2 ^ 64 - 1 := by show Cpp.sz (-1) = _; decide
  have h3 : Cpp.toInt32 0 = 0 := by decide
  have h4 : Cpp.sz (((2 ^ 64 - 1 : Nat) : Int) - ((0 : Nat) : Int) + 1) = 0 := by decide
  have h5 : Cpp.ofInt32 0 = 0 := by decide
  have h6 : Cpp.getItem 0 (⟨[], false⟩ : Cpp.St α) = (none, ⟨[], true⟩) := rfl
  have scan : ∀ (k n : Nat), k < 2 ^ 31 → k < n → Cpp.jumpScan (some v) (2 ^ 64 - 1) n (2 ^ 31 - 1 - (k : Int)) (⟨[], true⟩ : Cpp.St α) = .error .undefined := by
    intro k
    induction k with
    | zero =>
      intro n _ hn
      obtain ⟨n, rfl⟩ : ∃ m, n = m + 1 := ⟨n - 1, by omega⟩
      rw [Cpp.jumpScan, if_pos (by unfold Cpp.ofInt32 Cpp.sz; omega), Cpp.getItem_err rfl]
      simp only [Cpp.equal, Bool.false_eq_true, if_false]
      rw [if_pos (by omega)]
    | succ k ih =>
      intro n hk hn
      obtain ⟨n, rfl⟩ : ∃ m, n = m + 1 := ⟨n - 1, by omega⟩
      rw [Cpp.jumpScan, if_pos (by unfold Cpp.ofInt32 Cpp.sz; omega), Cpp.getItem_err rfl]
      simp only [Cpp.equal, Bool.false_eq_true, if_false]
      rw [if_neg (by omega), show (2 ^ 31 - 1 - ((k + 1 : Nat) : Int) + 1) = 2 ^ 31 - 1 - (k : Int) by omega]
      exact ih n (by omega) (by omega)
  constructor
  · refine ⟨2 ^ 31, fun n hn => ?_⟩
    dsimp only
    unfold Cpp.jumpSearch
    simp only [Option.getD_none, h2, h3, h4, h5, h6]
    have : Cpp.jumpLoop comp (some v) ((isqrtFrom 0 0 : Nat) : Int) (2 ^ 64 - 1) n 0 0 none (⟨[], true⟩ : Cpp.St α) = .ok (0, ⟨[], true⟩) := by
      obtain ⟨m, rfl⟩ : ∃ m, n = m + 1 := ⟨n - 1, by omega⟩
      rw [Cpp.jumpLoop, if_pos (by rw [h5]; omega)]
      rfl
    rw [this]
    have e := scan (2 ^ 31 - 1) n (by omega) (by omega)
    rw [show (2 ^ 31 - 1 - ((2 ^ 31 - 1 : Nat) : Int)) = 0 by omega] at e
    simp only [ok_bind]
    rw [e]
    rfl
  · intro fuel
    unfold Cpp.jumpSearch
    simp only [Option.getD_none, h2, h3, h4, h5, h6]
    have : ∀ fuel, Cpp.jumpLoop comp none ((isqrtFrom 0 0 : Nat) : Int) (2 ^ 64 - 1) fuel 0 0 none (⟨[], true⟩ : Cpp.St α) = .error .outOfFuel := by
      intro fuel
      induction fuel with
      | zero => rfl
      | succ fuel ih =>
        rw [Cpp.jumpLoop, if_pos (by rw [h5]; omega)]
        dsimp only [Cpp.comp]
        rw [if_pos rfl]
        have : (0 : Int) + ((isqrtFrom 0 0 : Nat) : Int) = 0 := rfl
        rw [this, h5, if_neg (by omega), if_neg (by omega), Cpp.getItem_err rfl]
        exact ih
    rw [this]
    rfl

/-! The hypotheses are met: a range with `None` cells at its end that starts after index 0. -/

/-- `[7, 1, 3, 3, 8, None, 0]`, sorted from 1 to 5 -/
def cppCells : List (Option Int) := [some 7, some 1, some 3, some 3, some 8, none, some 0]

theorem cppCells_sorted : SortedRange (noneLast (fun x y : Int => x ≤ y)) cppCells 1 6 := by
  intro i j x y h1 h2 h3 hx hy
  have hi : i < 6 := by omega
  rcases i with _ | _ | _ | _ | _ | _ | i <;> rcases j with _ | _ | _ | _ | _ | _ | j <;> simp [cppCells] at hx hy <;>
    first | omega | (subst hx; subst hy; simp [noneLast])

example : EndsIn (fun fuel => Cpp.jumpSearch (fun u v : Int => decide (u ≤ v)) fuel cppCells (some 3) (some 1) (some 5)) (SearchResult cppCells (some 3) 1 5) :=
  C98_jump_search _ _ (fun x y h1 h2 => Int.le_antisymm h1 h2) intLe_compat _ _ (by decide) (by decide) (some 1) (some 5) (by decide)
    (by intro s h; cases h; decide) cppCells_sorted
example : ∃ r, EndsWith (fun fuel => Cpp.binarySearch (fun u v : Int => decide (u ≤ v)) fuel cppCells none (some 1) (some 5)) (.ok r) ∧
    SearchResult cppCells none 1 5 r :=
  C98_binary_search _ _ (fun x y h1 h2 => Int.le_antisymm h1 h2) intLe_compat _ _ (by decide) (by decide) (some 1) (some 5) (by decide)
    (by intro s h; cases h; decide) cppCells_sorted
example : Cpp.jumpSearch (fun u v : Int => decide (u ≤ v)) 9 cppCells (some 8) (some 1) (some 5) = .ok (some 4) := by decide +kernel
example : Cpp.linearSearch cppCells none none none = .ok (some 5) := by decide +kernel

/-! ## C99: is_ordered -/

theorem Cpp_ordered_sim (t : α → α → Bool) (a : List (Option α)) (hl : a.length < 2 ^ 63) : ∀ n i r, 0 < i → i + n ≤ a.length →
    Model.isOrderedLoop t a n i = .ok r → Cpp.orderedLoop t n i ⟨a, false⟩ = (r, ⟨a, false⟩) := by
  intro n
  induction n with
  | zero => intro i r _ _ e; cases e; rfl
  | succ n ih =>
    intro i r hi hin e
    simp only [Model.isOrderedLoop] at e
    obtain ⟨x, hx, e⟩ := bind_ok e
    have hlt : i - 1 < a.length := by omega
    simp only [Cpp.orderedLoop, Cpp.bind_apply, Cpp.getItem_ok hx, Cpp.sz_pred (show i < 2 ^ 64 by omega) hi, Cpp.getItem_ok (rd_of_lt hlt)]
    cases x with
    | none => rw [if_pos (by simp [Cpp.isNone])]; exact ih _ _ (by omega) (by omega) e
    | some u =>
      dsimp only at e
      rw [rd_of_lt hlt, ok_bind] at e
      cases hy : a[i - 1] with
      | none => rw [hy] at e; rw [if_pos (by simp [Cpp.isNone])]; exact ih _ _ (by omega) (by omega) e
      | some v =>
        rw [hy] at e
        rw [if_neg (by simp [Cpp.isNone])]
        dsimp only at e
        cases ht : t u v with
        | true =>
          have hco : Cpp.comp t (some (some u)) (some (some v)) ⟨a, false⟩ = (true, ⟨a, false⟩) := by rw [← ht]; rfl
          rw [ht, if_pos rfl] at e
          cases e
          simp only [Cpp.bind_apply, hco]; rfl
        | false =>
          have hco : Cpp.comp t (some (some u)) (some (some v)) ⟨a, false⟩ = (false, ⟨a, false⟩) := by rw [← ht]; rfl
          rw [ht, if_neg (by decide)] at e
          simp only [Cpp.bind_apply, hco]
          exact ih _ _ (by omega) (by omega) e

/-- C99: `is_ordered` answers whether the live elements of the array are in order. -/
def C99_full : Prop := ∀ (a : List (Option Int)), a ≠ [] → a.length < 2 ^ 63 →
  ∃ b, Cpp.isOrdered (fun u v => decide (u ≤ v)) a none none = .ok b ∧
    (b = true ↔ (a.filterMap id).Pairwise (fun x y => x ≤ y))

theorem Cpp_isOrdered_eq (t : α → α → Bool) (a : List (Option α)) (h0 : a ≠ []) (hl : a.length < 2 ^ 63) (start stop : Option Nat)
    (hst : start.getD 0 < 2 ^ 63) (hs : ∀ s, stop = some s → s < a.length) (r : Bool)
    (e : Model.isOrdered t a (start.getD 0) (stop.getD (a.length - 1) + 1) = .ok r) : Cpp.isOrdered t a start stop = .ok r := by
  obtain ⟨h1, h2⟩ := cppStop_lt h0 hl hs
  unfold Cpp.isOrdered
  dsimp only
  rw [h1, Cpp.sz_succ (by omega), Cpp.sz_succ (by omega)]
  unfold Model.isOrdered at e
  by_cases hle : start.getD 0 ≤ stop.getD (a.length - 1)
  · rw [Cpp_ordered_sim t a hl _ _ r (by omega) (by omega) e]; rfl
  · rw [show stop.getD (a.length - 1) + 1 - (start.getD 0 + 1) = 0 by omega] at e ⊢
    cases e; rfl

/-- With a strict comparator and no `None` cell the answer is right. Missing: comparators that hold of equal elements, such as the default
(`C99_full_false`), and `None` cells (`C99_none_hides_disorder`). -/
theorem C99_is_ordered_partial (comp : α → α → Bool) (le : α → α → Prop) (ho : TotalPreorder le)
    (hstrict : ∀ x y, comp x y = true ↔ ¬ le y x) (a : List α) (h0 : a ≠ []) (hl : a.length < 2 ^ 63) (start stop : Option Nat)
    (hst : start.getD 0 < 2 ^ 63) (hs : ∀ s, stop = some s → s < a.length) :
    ∃ b, Cpp.isOrdered comp (a.map some) start stop = .ok b ∧ (b = true ↔ SortedRange le a (start.getD 0) (stop.getD (a.length - 1) + 1)) := by
  have hs' : ∀ s, stop = some s → s < (a.map some).length := by simpa using hs
  obtain ⟨h1, h2⟩ := cppStop_lt (a := a.map some) (by simpa using h0) (by simpa using hl) hs'
  rw [List.length_map] at h2
  obtain ⟨b, e, hb⟩ := C20_is_ordered_partial comp le ho hstrict a (start.getD 0) (stop.getD (a.length - 1) + 1) h2
  refine ⟨b, Cpp_isOrdered_eq comp _ (by simpa using h0) (by simpa using hl) start stop hst hs' b ?_, hb⟩
  rw [List.length_map]; exact e

/-- C99, exactly, for every comparator and every array: `True` exactly if no two neighbouring numbers of the range have the later one come
before the earlier one under the comparator. -/
theorem C99_exact (comp : α → α → Bool) (a : List (Option α)) (h0 : a ≠ []) (hl : a.length < 2 ^ 63) (start stop : Option Nat)
    (hst : start.getD 0 < 2 ^ 63) (hs : ∀ s, stop = some s → s < a.length) :
    ∃ b, Cpp.isOrdered comp a start stop = .ok b ∧
      (b = true ↔ ∀ k x y, start.getD 0 ≤ k → k < stop.getD (a.length - 1) → a[k]? = some (some x) → a[k + 1]? = some (some y) → comp y x = false) := by
  obtain ⟨h1, h2⟩ := cppStop_lt h0 hl hs
  obtain ⟨b, e, hb⟩ := C20_exact comp a (start.getD 0) (stop.getD (a.length - 1) + 1) h2
  exact ⟨b, Cpp_isOrdered_eq comp a h0 hl start stop hst hs b e,
    hb.trans ⟨fun g k x y q1 q2 => g k x y q1 (by omega), fun g k x y q1 q2 => g k x y q1 (by omega)⟩⟩

/-- `[3, 3]` is reported as not ordered. -/
theorem C99_full_false : ¬ C99_full := by
  intro h
  obtain ⟨b, e, hb⟩ := h [some 3, some 3] (by simp) (by decide)
  have : Cpp.isOrdered (fun u v : Int => decide (u ≤ v)) [some 3, some 3] none none = .ok false := by decide +kernel
  rw [this] at e
  cases e
  simp at hb

theorem C99_none_hides_disorder :
    Cpp.isOrdered (fun u v : Int => decide (u < v)) [some 3, none, some 1] none none = .ok true := by decide +kernel

example : ∃ b, Cpp.isOrdered (fun u v : Int => decide (u < v)) (List.map some [9, 1, 4, 4, 6]) (some 1) none = .ok b ∧
    (b = true ↔ SortedRange (fun x y : Int => x ≤ y) [9, 1, 4, 4, 6] 1 5) :=
  C99_is_ordered_partial _ _ intLe_total (by intro x y; simp) [9, 1, 4, 4, 6] (by decide) (by decide) (some 1) none (by decide) (by intro s h; cases h)
example : Cpp.isOrdered (fun u v : Int => decide (u < v)) (List.map some [9, 1, 4, 4, 6]) (some 1) none = .ok true := by decide +kernel

end Props
