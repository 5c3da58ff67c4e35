import Verif.Lemmas.CppQuick
import Verif.Props.Sort

/-!
# C96, C97: the sorts with `backend=Backend.CPP`

`start` and `stop` are the keywords `start` and `end` (inclusive), `none` when absent. Arrays have fewer than 2⁶³ cells.
-/
namespace Props
open Py Spec Model
variable {α : Type}

/-! ## C96 -/

/-- C96: the three quadratic sorts of the C++ back end end without exception and sort the range. -/
def C96_full : Prop := ∀ (comp : Int → Int → Bool) (le : Int → Int → Prop), TotalPreorder le → Compat comp le →
  ∀ (a : List (Option Int)), a.length < 2 ^ 63 →
    (∃ b, Cpp.bubbleSort comp a none none = .ok b ∧ SortsTo (noneLast le) a b 0 a.length) ∧
    (∃ b, Cpp.selectionSort comp a none none = .ok b ∧ SortsTo (noneLast le) a b 0 a.length) ∧
    (∃ b, Cpp.insertionSort comp a none none = .ok b ∧ SortsTo (noneLast le) a b 0 a.length)

theorem cppStop {a : List (Option α)} {stop : Option Nat} (h0 : a ≠ []) (hl : a.length < 2 ^ 63) (hs : ∀ s, stop = some s → s < a.length) :
    stop.getD (Cpp.lastIndex a) = stop.getD (a.length - 1) ∧ stop.getD (a.length - 1) < a.length := by
  have := List.length_pos_iff.2 h0
  cases stop with
  | none => exact ⟨Cpp.lastIndex_eq (by omega) h0, by simp; omega⟩
  | some s => exact ⟨rfl, hs s rfl⟩

/-- `bubble_sort`; missing: the empty array (`C96_bubble_empty`). -/
theorem C96_bubble_sort_partial (comp : α → α → Bool) (le : α → α → Prop) (ho : TotalPreorder le) (hc : Compat comp le)
    (a : List (Option α)) (h0 : a ≠ []) (hl : a.length < 2 ^ 63) (start stop : Option Nat) (hs : ∀ s, stop = some s → s < a.length) :
    ∃ b, Cpp.bubbleSort comp a start stop = .ok b ∧ SortsTo (noneLast le) a b (start.getD 0) (stop.getD (a.length - 1) + 1) := by
  obtain ⟨h1, h2⟩ := cppStop h0 hl hs
  obtain ⟨b, e, hb⟩ := C01_bubble_sort comp le ho hc a (start.getD 0) (stop.getD (a.length - 1) + 1) h2
  refine ⟨b, ?_, hb⟩
  unfold Cpp.bubbleSort
  rw [h1, Cpp.bubble_sim comp a b _ _ h2 (by omega) e]
  rfl

/-- `selection_sort`; nothing is missing (the empty array: `C96_empty`). -/
theorem C96_selection_sort (comp : α → α → Bool) (le : α → α → Prop) (ho : TotalPreorder le) (hc : Compat comp le)
    (a : List (Option α)) (h0 : a ≠ []) (hl : a.length < 2 ^ 63) (start stop : Option Nat) (hs : ∀ s, stop = some s → s < a.length) :
    ∃ b, Cpp.selectionSort comp a start stop = .ok b ∧ SortsTo (noneLast le) a b (start.getD 0) (stop.getD (a.length - 1) + 1) := by
  obtain ⟨h1, h2⟩ := cppStop h0 hl hs
  obtain ⟨b, e, hb⟩ := C02_selection_sort comp le ho hc a (start.getD 0) (stop.getD (a.length - 1) + 1) h2
  refine ⟨b, ?_, hb⟩
  unfold Cpp.selectionSort
  rw [h1, Cpp.selection_sim comp a b _ _ h2 (by omega) e]
  rfl

/-- `insertion_sort`; nothing is missing (the empty array: `C96_empty`). -/
theorem C96_insertion_sort (comp : α → α → Bool) (le : α → α → Prop) (ho : TotalPreorder le) (hc : Compat comp le)
    (a : List (Option α)) (h0 : a ≠ []) (hl : a.length < 2 ^ 63) (start stop : Option Nat) (hs : ∀ s, stop = some s → s < a.length)
    (hst : start.getD 0 < 2 ^ 63) :
    ∃ b, Cpp.insertionSort comp a start stop = .ok b ∧ SortsTo (noneLast le) a b (start.getD 0) (stop.getD (a.length - 1) + 1) := by
  obtain ⟨h1, h2⟩ := cppStop h0 hl hs
  obtain ⟨b, e, hb⟩ := C03_insertion_sort comp le ho hc a (start.getD 0) (stop.getD (a.length - 1) + 1) h2
  refine ⟨b, ?_, hb⟩
  unfold Cpp.insertionSort
  rw [h1, Cpp.insertion_sim comp a b _ _ h2 (by omega) (by omega) e]
  rfl

/-- Empty arrays stay as they are with the other two. -/
theorem C96_empty (comp : α → α → Bool) :
    Cpp.selectionSort comp [] none none = .ok [] ∧ Cpp.insertionSort comp [] none none = .ok [] := by
  have h1 : Cpp.sz ((Cpp.lastIndex ([] : List (Option α)) : Int) + 1) = 0 := by
    show Cpp.sz ((Cpp.sz (-1) : Nat) + 1 : Int) = 0; decide
  have h2 : Cpp.sz (((0 : Nat) : Int) + 1) = 1 := rfl
  constructor
  · simp only [Cpp.selectionSort, Cpp.selectionImpl, Option.getD_none, h1, Cpp.cfor, Nat.sub_zero, Cpp.cloop]; rfl
  · simp only [Cpp.insertionSort, Cpp.insertionImpl, Option.getD_none, h1, h2, Cpp.cfor, Nat.zero_sub, Cpp.cloop]; rfl

theorem Cpp_cloop_err {body : Nat → Cpp.CM α Unit} (hb : ∀ i s, (body i s).2.err = true) :
    ∀ n i s, (Cpp.cloop body (n + 1) i s).2.err = true := by
  intro n
  induction n with
  | zero => intro i s; exact hb i s
  | succ n ih => intro i s; exact ih (i + 1) _

theorem Cpp_body_err (comp : α → α → Bool) (j : Nat) (s : Cpp.St α) (h : s.cells = []) :
    ((do
      let x ← Cpp.getItem j
      let y ← Cpp.getItem (Cpp.sz (j + 1))
      if !(← Cpp.comp comp x y) then Cpp.swap (Cpp.sz (j + 1)) j : Cpp.CM α Unit) s).2.err = true ∧
    ((do
      let x ← Cpp.getItem j
      let y ← Cpp.getItem (Cpp.sz (j + 1))
      if !(← Cpp.comp comp x y) then Cpp.swap (Cpp.sz (j + 1)) j : Cpp.CM α Unit) s).2.cells = [] := by
  obtain ⟨cells, err⟩ := s
  cases h
  have hg : ∀ i, Cpp.getItem i (⟨[], err⟩ : Cpp.St α) = (none, ⟨[], true⟩) := by intro i; cases err <;> rfl
  have hg' : ∀ i, Cpp.getItem i (⟨[], true⟩ : Cpp.St α) = (none, ⟨[], true⟩) := fun i => rfl
  simp only [Cpp.bind_apply, hg, hg', Cpp.comp, Bool.not_false, if_true, Cpp.swap, Cpp.setItem]
  exact ⟨trivial, trivial⟩

/-- `bubble_sort` of an empty array: 2⁶⁴-1 passes of 2⁶⁴-1 failing accesses, then an exception. -/
theorem C96_bubble_empty (comp : α → α → Bool) : Cpp.bubbleSort comp [] none none = .error .systemError := by
  have inner : ∀ n i (s : Cpp.St α), s.cells = [] → (Cpp.cloop (fun j => (do
      let x ← Cpp.getItem j
      let y ← Cpp.getItem (Cpp.sz (j + 1))
      if !(← Cpp.comp comp x y) then Cpp.swap (Cpp.sz (j + 1)) j : Cpp.CM α Unit)) n i s).2.cells = [] ∧
      (0 < n ∨ s.err = true → (Cpp.cloop (fun j => (do
      let x ← Cpp.getItem j
      let y ← Cpp.getItem (Cpp.sz (j + 1))
      if !(← Cpp.comp comp x y) then Cpp.swap (Cpp.sz (j + 1)) j : Cpp.CM α Unit)) n i s).2.err = true) := by
    intro n
    induction n with
    | zero => intro i s h; exact ⟨h, fun h => by rcases h with h | h; omega; exact h⟩
    | succ n ih =>
      intro i s h
      obtain ⟨h1, h2⟩ := Cpp_body_err comp i s h
      obtain ⟨g1, g2⟩ := ih (i + 1) _ h2
      exact ⟨g1, fun _ => g2 (.inr h1)⟩
  have outer : ∀ (N : Nat), 0 < N → ∀ n i (s : Cpp.St α), s.cells = [] → 0 < n ∨ s.err = true → (Cpp.cloop (fun _ => Cpp.cfor 0 N fun j => (do
      let x ← Cpp.getItem j
      let y ← Cpp.getItem (Cpp.sz (j + 1))
      if !(← Cpp.comp comp x y) then Cpp.swap (Cpp.sz (j + 1)) j : Cpp.CM α Unit)) n i s).2.err = true := by
    intro N hN n
    induction n with
    | zero => intro i s h hp; rcases hp with hp | hp; omega; exact hp
    | succ n ih =>
      intro i s h _
      obtain ⟨g1, g2⟩ := inner (N - 0) 0 s h
      exact ih (i + 1) _ g1 (.inr (g2 (.inl hN)))
  have hN : 0 < Cpp.lastIndex ([] : List (Option α)) := by show 0 < Cpp.sz (-1); decide
  have hM : 0 < Cpp.sz (((([] : List (Option α)).length : Nat) : Int) - 1) := hN
  unfold Cpp.bubbleSort Cpp.finish Cpp.bubbleImpl
  simp only [Option.getD_none]
  generalize Cpp.lastIndex ([] : List (Option α)) = N at hN
  generalize Cpp.sz (((([] : List (Option α)).length : Nat) : Int) - 1) = M at hM
  refine if_pos ?_
  exact (outer N hN (M - 0) 0 ⟨[], false⟩ rfl (.inl hM))

theorem C96_full_false : ¬ C96_full := by
  intro h
  obtain ⟨⟨b, e, -⟩, -⟩ := h _ _ intLe_total intLe_compat [] (by decide)
  rw [C96_bubble_empty] at e
  cases e

example : ∃ b, Cpp.insertionSort (fun u v => decide (u > v)) exArr (some 1) (some 4) = .ok b ∧
    SortsTo (noneLast (fun a b : Int => b ≤ a)) exArr b 1 5 :=
  C96_insertion_sort _ _ intGe_total intGt_compat exArr (by decide) (by decide) (some 1) (some 4) (by intro s h; cases h; decide) (by decide)
example : Cpp.bubbleSort (fun u v : Int => decide (u ≤ v)) exArr (some 1) (some 4) =
    .ok [some 9, some (-2), some 3, some 3, none, some 0] := by decide +kernel

/-! ## C97 -/

/-- C97: the quick sort of the C++ back end ends and sorts. -/
def C97_full : Prop := ∀ (comp : Int → Int → Bool) (le : Int → Int → Prop), TotalPreorder le → Compat comp le →
  ∀ (a : List (Option Int)) (start stop : Nat), start ≤ stop → stop < a.length → a.length < 2 ^ 63 →
    ∃ b, EndsWith (fun fuel => Cpp.quickSort comp fuel a (some start) (some stop)) (.ok b) ∧ SortsTo (noneLast le) a b start (stop + 1)

theorem quickPy_run (comp : α → α → Bool) (le : α → α → Prop) (ho : TotalPreorder le) (hc : Compat comp le) (a : List (Option α))
    (start stop : Nat) (h1 : start ≤ stop) (h2 : stop < a.length) :
    ∃ b st n, whileLoop n Cpp.more (quickBody (pyComp comp) lastCell) (a, [(start, stop)]) = .ok (b, st) ∧
      SortsTo (noneLast le) a b start (stop + 1) := by
  obtain ⟨b, ⟨n, hn⟩, hs⟩ := C05_quick_sort comp le ho hc a start stop h1 h2
  have e := hn n (Nat.le_refl _)
  unfold Model.quickSort quickSortPick quickSortC at e
  obtain ⟨⟨b', st⟩, e, e'⟩ := bind_ok e
  cases e'
  exact ⟨_, st, n, e, hs⟩

theorem quickCpp_ends {comp : α → α → Bool} {a b : List (Option α)} {start stop n : Nat} {st : List (Nat × Nat)}
    (e : whileLoop n Cpp.more (Cpp.quickStep comp) (⟨a, false⟩, [(start, stop)]) = .ok (⟨b, false⟩, st)) :
    EndsWith (fun fuel => Cpp.quickSort comp fuel a (some start) (some stop)) (.ok b) := by
  refine FuelMono.endsWith (f := fun fuel => Cpp.quickSort comp fuel a (some start) (some stop)) (n := n) (.bind (.bind (.whileC _) fun _ => .const _) fun _ => .const _) ?_
  unfold Cpp.quickSort Cpp.quickImpl
  simp only [Option.getD_some, e, ok_bind, Cpp.finish]
  rfl

theorem quickCpp_never {comp : α → α → Bool} {a : List (Option α)} {start stop : Nat}
    (e : ∀ fuel, whileLoop fuel Cpp.more (Cpp.quickStep comp) (⟨a, false⟩, [(start, stop)]) = .error .outOfFuel) (fuel : Nat) :
    Cpp.quickSort comp fuel a (some start) (some stop) = .error .outOfFuel := by
  unfold Cpp.quickSort Cpp.quickImpl
  simp only [Option.getD_some, e, error_bind]

/-- It sorts or it never ends. -/
theorem C97_sorts_or_never_ends (comp : α → α → Bool) (le : α → α → Prop) (ho : TotalPreorder le) (hc : Compat comp le)
    (a : List (Option α)) (start stop : Nat) (h1 : start ≤ stop) (h2 : stop < a.length) (hl : a.length < 2 ^ 63) :
    (∃ b, EndsWith (fun fuel => Cpp.quickSort comp fuel a (some start) (some stop)) (.ok b) ∧ SortsTo (noneLast le) a b start (stop + 1)) ∨
    ∀ fuel, Cpp.quickSort comp fuel a (some start) (some stop) = .error .outOfFuel := by
  obtain ⟨b, st, n, e, hs⟩ := quickPy_run comp le ho hc a start stop h1 h2
  rcases Cpp.quick_same_or_never comp n a b _ st hl e with h | h
  · exact .inl ⟨b, quickCpp_ends h, hs⟩
  · exact .inr (quickCpp_never h)

/-- It sorts every range that does not begin at index 0. Missing: ranges that do (`C97_never_ends`). -/
theorem C97_later_start_partial (comp : α → α → Bool) (le : α → α → Prop) (ho : TotalPreorder le) (hc : Compat comp le)
    (a : List (Option α)) (start stop : Nat) (h0 : 0 < start) (h1 : start ≤ stop) (h2 : stop < a.length) (hl : a.length < 2 ^ 63) :
    ∃ b, EndsWith (fun fuel => Cpp.quickSort comp fuel a (some start) (some stop)) (.ok b) ∧
      SortsTo (noneLast le) a b start (stop + 1) := by
  obtain ⟨b, st, n, e, hs⟩ := quickPy_run comp le ho hc a start stop h1 h2
  refine ⟨b, quickCpp_ends (st := st) (n := n) (Cpp.quick_same comp (J := fun _ st => ∀ q ∈ st, 0 < q.1) ?_ n a b _ st hl
    (by intro q hq; simp at hq; subst hq; exact h0) e), hs⟩
  intro a a' low high p st hJ hp
  have hb := Cpp.partition_bounds hp
  have hlow : 0 < low := hJ (low, high) (by simp)
  refine ⟨by omega, ?_⟩
  intro r hr
  simp only [quickBody, hp, ok_bind] at hr
  cases hr
  intro q hq
  have hst : ∀ q ∈ (if low + 1 < p then (low, p - 1) :: st else st), 0 < q.1 := by
    intro q hq
    split at hq
    · rcases List.mem_cons.1 hq with rfl | hq
      · exact hlow
      · exact hJ q (by simp [hq])
    · exact hJ q (by simp [hq])
  dsimp only at hq
  split at hq
  · rcases List.mem_cons.1 hq with rfl | hq
    · exact Nat.succ_pos _
    · exact hst q hq
  · exact hst q hq

/-- It sorts a range of at least two cells from index 0 whose first cell may come before all the others. -/
theorem C97_least_first_partial (comp : α → α → Bool) (le : α → α → Prop) (ho : TotalPreorder le) (hc : Compat comp le)
    (a : List (Option α)) (stop : Nat) (h1 : 0 < stop) (h2 : stop < a.length) (hl : a.length < 2 ^ 63) (v : Option α) (hv : a[0]? = some v)
    (hle : ∀ (j : Nat) x, 1 ≤ j → j ≤ stop → a[j]? = some x → pyComp comp v x = true) :
    ∃ b, EndsWith (fun fuel => Cpp.quickSort comp fuel a (some 0) (some stop)) (.ok b) ∧
      SortsTo (noneLast le) a b 0 (stop + 1) := by
  obtain ⟨b, st, n, e, hs⟩ := quickPy_run comp le ho hc a 0 stop (by omega) h2
  refine ⟨b, quickCpp_ends (st := st) (n := n) (Cpp.quick_same comp
    (J := fun a st => Cpp.Leads (pyComp comp) v stop a ∧ ∀ q ∈ st, q.1 ≤ q.2 ∧ q.2 ≤ stop ∧ (q.1 = 0 → 1 ≤ q.2)) ?_ n a b _ st hl
    ⟨⟨hv, hle⟩, by intro q hq; simp at hq; subst hq; exact ⟨by omega, by omega, by omega⟩⟩ e), hs⟩
  intro a a' low high p st hJ hp
  obtain ⟨hJ1, hJ2⟩ := hJ
  obtain ⟨b1, b2, b3⟩ := hJ2 (low, high) (by simp)
  obtain ⟨c1, c2, c3⟩ := Cpp.partition_leads hp hJ1 b2 b1 b3
  refine ⟨c2, ?_⟩
  intro r hr
  simp only [quickBody, hp, ok_bind] at hr
  cases hr
  refine ⟨c1, ?_⟩
  dsimp only at b1 b2 b3
  intro q hq
  have hst : ∀ q ∈ (if low + 1 < p then (low, p - 1) :: st else st), q.1 ≤ q.2 ∧ q.2 ≤ stop ∧ (q.1 = 0 → 1 ≤ q.2) := by
    intro q hq
    split at hq
    · rcases List.mem_cons.1 hq with rfl | hq
      · exact ⟨by dsimp only; omega, by dsimp only; omega, by dsimp only; omega⟩
      · exact hJ2 q (by simp [hq])
    · exact hJ2 q (by simp [hq])
  dsimp only at hq
  split at hq
  · rcases List.mem_cons.1 hq with rfl | hq
    · exact ⟨by dsimp only; omega, by dsimp only; omega, by dsimp only; omega⟩
    · exact hst q hq
  · exact hst q hq

/-- It never ends on a range from index 0 if no other cell of the range may come before the last one: a range of one cell, for
example, or one whose last element is the only smallest one. -/
theorem C97_never_ends (comp : α → α → Bool) (le : α → α → Prop) (ho : TotalPreorder le) (hc : Compat comp le)
    (a : List (Option α)) (stop : Nat) (h2 : stop < a.length) (hl : a.length < 2 ^ 63) (v : Option α) (hv : a[stop]? = some v)
    (hlt : ∀ (j : Nat) x, j < stop → a[j]? = some x → pyComp comp x v = false) (fuel : Nat) :
    Cpp.quickSort comp fuel a (some 0) (some stop) = .error .outOfFuel := by
  refine quickCpp_never ?_ fuel
  intro fuel
  cases fuel with
  | zero => rfl
  | succ fuel =>
    obtain ⟨a', p, hp, -⟩ := qsPartition_spec ho.noneLast (pyComp_compat hc) (lastCell_picks ho.noneLast) a 0 stop (by omega) h2
    have h0 : p = 0 := by
      unfold qsPartition at hp
      obtain ⟨x, hx, hp⟩ := bind_ok hp
      have hxv : x = v := by
        simp only [lastCell, rd, hv] at hx
        cases hx; rfl
      subst hxv
      obtain ⟨⟨b, k⟩, hk, hp⟩ := bind_ok hp
      obtain ⟨d, hd, hp⟩ := bind_ok hp
      cases hp
      have key : ∀ n j, j + n ≤ stop → Py.loop (fun j (s : List (Option α) × Nat) => do
          let y ← rd s.1 j
          if pyComp comp y x = true then
            let a ← swp s.1 s.2 j
            .ok (a, s.2 + 1)
          else .ok (s.1, s.2)) n j (a, 0) = .ok (a, 0) := by
        intro n
        induction n with
        | zero => intro j _; rfl
        | succ n ih =>
          intro j hj
          have hjl : j < a.length := by omega
          simp only [Py.loop, rd_of_lt hjl, ok_bind, hlt j a[j] (by omega) (List.getElem?_eq_getElem hjl)]
          exact ih (j + 1) (by omega)
      have hk' := key (stop - 0) 0 (by omega)
      unfold forRange at hk
      rw [hk'] at hk
      cases hk; rfl
    obtain ⟨st, e, hm⟩ := (Cpp.quickStep_sim (st := []) comp hl hp).2 h0
    rw [Py.whileLoop]
    simp only [Cpp.more, List.isEmpty_cons, Bool.not_false, ok_bind, if_true, e]
    exact Cpp.quick_never comp fuel _ _ hm (by show a'.length < _; rw [(Cpp.partition_bounds hp).2.2.2]; omega)

/-- An empty array, with the default `start` and `end`. -/
theorem C97_empty (comp : α → α → Bool) (fuel : Nat) : Cpp.quickSort comp fuel [] none none = .error .outOfFuel := by
  unfold Cpp.quickSort Cpp.quickImpl
  have : whileLoop fuel Cpp.more (Cpp.quickStep comp) (⟨([] : List (Option α)), false⟩, [(0, 2 ^ 64 - 1)]) = .error .outOfFuel :=
    Cpp.quick_never comp fuel _ _ (by simp) (by simp)
  have hi : Cpp.lastIndex ([] : List (Option α)) = 2 ^ 64 - 1 := rfl
  simp only [Option.getD_none, hi, this, error_bind]

/-- `[2, 1]` -/
theorem C97_full_false : ¬ C97_full := by
  intro h
  obtain ⟨b, ⟨n, hn⟩, -⟩ := h _ _ intLe_total intLe_compat [some 2, some 1] 0 1 (by decide) (by decide) (by decide)
  have := hn n (Nat.le_refl _)
  dsimp only at this
  rw [C97_never_ends _ _ intLe_total intLe_compat [some 2, some 1] 1 (by decide) (by decide) (some 1) rfl (by
    intro j x hj hx
    have : j = 0 := by omega
    subst this; cases hx; rfl)] at this
  cases this

example : Cpp.quickSort (fun u v : Int => decide (u ≤ v)) 10 exArr (some 1) (some 4) = .ok [some 9, some (-2), some 3, some 3, none, some 0] := by
  decide +kernel
example : Cpp.quickSort (fun u v : Int => decide (u ≤ v)) 10 [some 0, some 5, none, some 2] none none = .ok [some 0, some 2, some 5, none] := by
  decide +kernel

end Props
