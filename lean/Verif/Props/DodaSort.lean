import Verif.Model.DodaSort
import Verif.Props.Doda
import Verif.Props.Stable
import Verif.Props.Heap
import Verif.Props.Intro

/-!
# C93: sorting a dynamic array

A dynamic array has dead cells (`None`) where elements were deleted and at its end. Sorting it moves the live elements to the front in
order, and afterwards `append` and `delete` go on working on the sorted sequence.
-/
namespace Props
open Py Model Spec
variable {α : Type}

/-- `sort fuel` sorts every non-empty range of every list of cells, given enough iterations. -/
def SortsCells (le : α → α → Prop) (sort : Nat → List (Option α) → Nat → Nat → PyM (List (Option α))) : Prop :=
  ∀ a start stop, start < stop → stop ≤ a.length →
    ∃ b, EndsWith (fun fuel => sort fuel a start stop) (.ok b) ∧ SortsTo (noneLast le) a b start stop

/-- Sorted cells: the live ones in order, then the dead ones. -/
theorem sorted_cells {le : α → α → Prop} : ∀ {b : List (Option α)}, b.Pairwise (noneLast le) →
    (b.filterMap id).Pairwise le ∧ ∃ k, b = (b.filterMap id).map some ++ List.replicate k none
  | [], _ => ⟨.nil, 0, rfl⟩
  | none :: b, h => by
    rw [List.pairwise_cons] at h
    have hn : ∀ x ∈ b, x = none := by
      intro x hx
      have := h.1 x hx
      cases x with
      | none => rfl
      | some x => exact this.elim
    have hb : b = List.replicate b.length none := List.eq_replicate_iff.2 ⟨rfl, hn⟩
    have hf : b.filterMap id = [] := by rw [hb, filterMap_replicate_none]
    have hf' : (none :: b).filterMap id = b.filterMap id := rfl
    rw [hf', hf]
    exact ⟨.nil, b.length + 1, by rw [List.replicate_succ, ← hb]; rfl⟩
  | some x :: b, h => by
    rw [List.pairwise_cons] at h
    obtain ⟨h1, k, h2⟩ := sorted_cells h.2
    have hf' : (some x :: b).filterMap id = x :: b.filterMap id := rfl
    rw [hf']
    refine ⟨List.pairwise_cons.2 ⟨fun y hy => ?_, h1⟩, k, by rw [List.map_cons, List.cons_append, ← h2]⟩
    have : some y ∈ b := by
      rw [List.mem_filterMap] at hy
      obtain ⟨z, hz, e⟩ := hy
      cases e; exact hz
    exact h.1 _ this

theorem dodaLast_spec (data : List (Option α)) : ∀ k, k ≤ data.length →
    (∃ (i : Nat) (x : α), i < k ∧ data[i]? = some (some x)) →
    ∃ c, dodaLast data k = .ok c ∧ c ≤ k ∧ 0 < c ∧ (∃ x, data[c - 1]? = some (some x)) ∧ ∀ i, c ≤ i → i < k → data[i]? = some none := by
  intro k
  induction k with
  | zero => rintro _ ⟨i, x, h, _⟩; omega
  | succ k ih =>
    rintro hk ⟨i, x, hi, hx⟩
    have hlt : k < data.length := by omega
    rw [dodaLast, rd_of_lt hlt, ok_bind]
    cases e : data[k] with
    | some y =>
      exact ⟨k + 1, rfl, by omega, by omega, ⟨y, by rw [Nat.add_sub_cancel, List.getElem?_eq_getElem hlt, e]⟩, fun i h1 h2 => by omega⟩
    | none =>
      have : i ≠ k := by
        rintro rfl
        rw [List.getElem?_eq_getElem hlt, e] at hx
        cases hx
      obtain ⟨c, h1, h2, h3, h4, h5⟩ := ih (by omega) ⟨i, x, by omega, hx⟩
      refine ⟨c, h1, by omega, h3, h4, fun j g1 g2 => ?_⟩
      by_cases hj : j = k
      · rw [hj, List.getElem?_eq_getElem hlt, e]
      · exact h5 j g1 (by omega)

theorem dodaLast_dead (data : List (Option α)) (h : ∀ (i : Nat) (x : α), data[i]? ≠ some (some x)) : ∀ k, k ≤ data.length →
    dodaLast data k = .error .indexError := by
  intro k
  induction k with
  | zero => intro _; rfl
  | succ k ih =>
    intro hk
    have hlt : k < data.length := by omega
    rw [dodaLast, rd_of_lt hlt, ok_bind]
    cases e : data[k] with
    | some y => exact absurd (by rw [List.getElem?_eq_getElem hlt, e]) (h k y)
    | none => exact ih (by omega)

theorem mem_live {l : List (Option α)} {x : α} (h : x ∈ l.filterMap id) : ∃ i : Nat, l[i]? = some (some x) := by
  rw [List.mem_filterMap] at h
  obtain ⟨z, hz, e⟩ := h
  cases e
  obtain ⟨i, hi, hx⟩ := List.mem_iff_getElem.1 hz
  exact ⟨i, by rw [List.getElem?_eq_getElem hi, hx]⟩

theorem force_dead (low : Nat → Nat → Bool) {d : Doda α} (hl : d.data.filterMap id = []) :
    d.modifyForce low = .error .indexError := by
  rw [Doda.modifyForce, dodaLast_dead d.data (fun i x hx => by
    have : x ∈ d.data.filterMap id := List.mem_filterMap.2 ⟨some x, List.mem_of_getElem? hx, rfl⟩
    rw [hl] at this
    cases this) d.size (Nat.le_refl _)]
  rfl

theorem perm_dead {b a : List (Option α)} (hp : b.Perm a) (hl : a.filterMap id = []) : b.filterMap id = [] := by
  have := hp.filterMap id
  rw [hl] at this
  exact this.eq_nil

/-- `_modify(True)` on cells with as many live ones as the counter says, at least one of them: the bookkeeping is right afterwards and
the sequence of the live elements is the same. -/
theorem modifyForce_spec (low : Nat → Nat → Bool) {d : Doda α} (hn : d.num = d.live.length) (hl : d.live ≠ []) :
    ∃ d', d.modifyForce low = .ok d' ∧ d'.Inv ∧ d'.live = d.live ∧
      (∀ l k, d.data = l.map some ++ List.replicate k none → d'.Dense l) := by
  obtain ⟨x, hx⟩ := List.exists_mem_of_ne_nil _ hl
  obtain ⟨i, hi⟩ := mem_live hx
  have hil := (List.getElem?_eq_some_iff.1 hi).1
  obtain ⟨c, e, h1, h2, ⟨y, h3⟩, h4⟩ := dodaLast_spec d.data d.data.length (Nat.le_refl _) ⟨i, x, hil, hi⟩
  have hinv : Doda.Inv { d with cnt := c } := ⟨h1, hn, h4⟩
  have hs : 0 < Doda.size { d with cnt := c } := by show 0 < d.data.length; omega
  obtain ⟨d', e', hd, -⟩ := Doda.modify_spec low hinv hs
  have hrun : d.modifyForce low = .ok d' := by
    rw [Doda.modifyForce, show d.size = d.data.length from rfl, e, ok_bind]; exact e'
  rcases hd with rfl | hd
  · refine ⟨_, hrun, hinv, rfl, fun l k hk => ?_⟩
    have hlive : d.live = l := by
      rw [Doda.live, hk, List.filterMap_append, filterMap_replicate_none, List.append_nil, List.filterMap_map]; simp
    refine ⟨⟨k, hk⟩, by rw [← hlive]; exact hn, ?_⟩
    show c = l.length
    have a1 : c - 1 < l.length := by
      apply Classical.byContradiction
      intro hge
      rw [hk, List.getElem?_append_right (by simp; omega), List.getElem?_replicate] at h3
      split at h3 <;> cases h3
    have a2 : l.length ≤ c := by
      apply Classical.byContradiction
      intro hlt
      have := h4 (l.length - 1) (by omega) (by rw [hk]; simp; omega)
      rw [hk, List.getElem?_append_left (by simp; omega), List.getElem?_map, List.getElem?_eq_getElem (by omega)] at this
      cases this
    omega
  · have hd2 : d'.Dense d.live := hd
    refine ⟨d', hrun, hd2.inv.1, hd2.inv.2, fun l k hk => ?_⟩
    have hlive : d.live = l := by
      rw [Doda.live, hk, List.filterMap_append, filterMap_replicate_none, List.append_nil, List.filterMap_map]; simp
    rw [← hlive]; exact hd2

/-- Dynamic arrays reached by any history of `append`, `delete` and sorts of any non-empty range. -/
inductive DodaHistory (low : Nat → Nat → Bool) (le : α → α → Prop) : Doda α → Prop
  | size (n : Nat) : DodaHistory low le (Doda.ofSize n)
  | list (l : List α) : DodaHistory low le (Doda.ofList l)
  | append {d d' : Doda α} (x : α) : DodaHistory low le d → d.append low x = .ok d' → DodaHistory low le d'
  | delete {d d' : Doda α} (i : Int) : DodaHistory low le d → d.delete low i = .ok d' → DodaHistory low le d'
  | sort {d d' : Doda α} (srt : Nat → List (Option α) → Nat → Nat → PyM (List (Option α))) (fuel start stop : Nat) :
      DodaHistory low le d → SortsCells le srt → start < stop → stop ≤ d.size →
      d.sortWith low (srt fuel) start stop = .ok d' → (∀ n, fuel ≤ n → d.sortWith low (srt n) start stop = .ok d') →
      DodaHistory low le d'

theorem sortWith_run (low : Nat → Nat → Bool) {d : Doda α} (hinv : d.Inv) {b : List (Option α)} (hp : b.Perm d.data) (hl : d.live ≠ []) :
    ∃ d', Doda.modifyForce low { d with data := b } = .ok d' ∧ d'.Inv ∧ d'.live = b.filterMap id ∧
      (∀ l k, b = l.map some ++ List.replicate k none → d'.Dense l) := by
  have hpl : (b.filterMap id).Perm d.live := hp.filterMap id
  exact modifyForce_spec low (d := { d with data := b }) (hinv.num.trans hpl.length_eq.symm) (fun e => hl (by
    have : b.filterMap id = [] := e
    rw [this] at hpl
    exact List.nil_perm.1 hpl))

theorem DodaHistory.inv {low : Nat → Nat → Bool} {le : α → α → Prop} {d : Doda α} (h : DodaHistory low le d) : d.Inv := by
  induction h with
  | size n => exact (Doda.ofSize_dense n).inv.1
  | list l => exact (Doda.ofList_dense l).inv.1
  | append x _ e ih =>
    obtain ⟨d', e', h1, -⟩ := Doda.append_spec low ih x
    rw [e] at e'; cases e'; exact h1
  | @delete d d1 i _ e ih =>
    by_cases hd : ∃ x, 0 ≤ i ∧ d.data[i.toNat]? = some (some x)
    · obtain ⟨x, h0, hx⟩ := hd
      obtain ⟨d', e', h1, -⟩ := Doda.delete_live low ih i.toNat x hx
      rw [show ((i.toNat : Nat) : Int) = i by omega] at e'
      rw [e] at e'; cases e'; exact h1
    · have := Doda.delete_dead low ih i (by intro x hx; exact hd ⟨x, hx⟩)
      rw [e] at this; cases this; exact ih
  | @sort d d1 srt fuel start stop _ hs h1 h2 e hall ih =>
    obtain ⟨b, ⟨n, hn⟩, hr, -⟩ := hs d.data start stop h1 h2
    have e1 := hall (fuel + n) (by omega)
    have e2 := hn (fuel + n) (by omega)
    dsimp only at e2
    rw [Doda.sortWith, e2, ok_bind] at e1
    by_cases hl : d.live = []
    · rw [force_dead low (perm_dead hr.1 hl)] at e1
      cases e1
    · obtain ⟨d', e3, h3, -⟩ := sortWith_run low ih hr.1 hl
      rw [e3] at e1; cases e1; exact h3

/-- Full statement of C93 for one sort: whatever the history, sorting a range ends without exception and leaves the live elements of the
sorted cells. It is false for arrays without live elements (`C93_full_false`). -/
def C93_full : Prop := ∀ (low : Nat → Nat → Bool) (d : Doda Int), DodaHistory low (fun x y => x ≤ y) d →
  ∃ d', Doda.sortWith low (bubbleSort (fun u v => decide (u ≤ v))) d 0 d.size = .ok d' ∧
    ∃ l, d'.Dense l ∧ l.Perm (d.data.filterMap id) ∧ l.Pairwise (fun x y => x ≤ y)

/-- C93. After any history, sorting the whole array (the default range) with any of the sorts leaves exactly the live elements, in order,
at positions 0, 1, …, and the counters say so (`Dense`, as in `C27_indexing`). Missing: arrays without any live element. -/
theorem C93_sort_all_partial (low : Nat → Nat → Bool) (le : α → α → Prop)
    (srt : Nat → List (Option α) → Nat → Nat → PyM (List (Option α))) (hs : SortsCells le srt)
    (d : Doda α) (h : DodaHistory low le d) (hl : d.data.filterMap id ≠ []) :
    ∃ d' l, EndsWith (fun fuel => d.sortWith low (srt fuel) 0 d.size) (.ok d') ∧ DodaHistory low le d' ∧
      d'.Dense l ∧ l.Perm (d.data.filterMap id) ∧ l.Pairwise le := by
  have hpos : 0 < d.size := by
    apply Classical.byContradiction
    intro hn
    have : d.data = [] := List.length_eq_zero_iff.1 (by show d.size = 0; omega)
    rw [this] at hl; exact hl rfl
  obtain ⟨b, ⟨n, hn⟩, hr, hsr⟩ := hs d.data 0 d.size hpos (Nat.le_refl _)
  have hb : b.Pairwise (noneLast le) := by
    rw [List.pairwise_iff_getElem]
    intro i j hi hj hij
    exact hsr i j _ _ (by omega) hij (by rw [show d.size = d.data.length from rfl, ← hr.1.length_eq]; exact hj)
      (List.getElem?_eq_getElem hi) (List.getElem?_eq_getElem hj)
  obtain ⟨g1, k, g2⟩ := sorted_cells hb
  obtain ⟨d', e, -, h2, h3⟩ := sortWith_run low h.inv hr.1 hl
  have hall : ∀ m, n ≤ m → d.sortWith low (srt m) 0 d.size = .ok d' := by
    intro m hm
    have := hn m hm
    dsimp only at this
    rw [Doda.sortWith, this, ok_bind]; exact e
  exact ⟨d', b.filterMap id, ⟨n, hall⟩, .sort srt n 0 d.size h hs hpos (Nat.le_refl _) (hall n (Nat.le_refl n)) hall,
    h3 _ k g2, hr.1.filterMap id, g1⟩

/-- C93, a sub-range: the live elements end up in the sequence given by the sorted cells. Missing: arrays without any live element. -/
theorem C93_sort_range_partial (low : Nat → Nat → Bool) (le : α → α → Prop)
    (srt : Nat → List (Option α) → Nat → Nat → PyM (List (Option α))) (hs : SortsCells le srt)
    (d : Doda α) (h : DodaHistory low le d) (hl : d.data.filterMap id ≠ []) (start stop : Nat) (h1 : start < stop) (h2 : stop ≤ d.size) :
    ∃ d' b, EndsWith (fun fuel => d.sortWith low (srt fuel) start stop) (.ok d') ∧ DodaHistory low le d' ∧
      SortsTo (noneLast le) d.data b start stop ∧ d'.data.filterMap id = b.filterMap id := by
  obtain ⟨b, ⟨n, hn⟩, hr, hsr⟩ := hs d.data start stop h1 h2
  obtain ⟨d', e, -, h3, -⟩ := sortWith_run low h.inv hr.1 hl
  have hall : ∀ m, n ≤ m → d.sortWith low (srt m) start stop = .ok d' := by
    intro m hm
    have := hn m hm
    dsimp only at this
    rw [Doda.sortWith, this, ok_bind]; exact e
  exact ⟨d', b, ⟨n, hall⟩, .sort srt n start stop h hs h1 h2 (hall n (Nat.le_refl n)) hall, ⟨hr, hsr⟩, h3⟩

/-- C93, afterwards: whatever history of appends, deletes and sorts led to the array, the facts of C27 hold: the counters are right and
`append` and `delete` act on the sequence of live elements without raising. -/
theorem C93_history (low : Nat → Nat → Bool) (le : α → α → Prop) (d : Doda α) (h : DodaHistory low le d) :
    d.num = (d.data.filterMap id).length ∧
    (∀ i x, d.data[i]? = some (some x) → i < d.cnt) ∧
    (∀ x, ∃ d', d.append low x = .ok d' ∧ d'.data.filterMap id = d.data.filterMap id ++ [x]) ∧
    (∀ i : Int, (∀ x, d.get i ≠ .ok (some x)) → d.delete low i = .ok d) ∧
    (∀ (i : Int) x, d.get i = .ok (some x) → ∃ d', d.delete low i = .ok d' ∧
      d.data.filterMap id = (d.data.take i.toNat).filterMap id ++ x :: (d.data.drop (i.toNat + 1)).filterMap id ∧
      d'.data.filterMap id = (d.data.take i.toNat).filterMap id ++ (d.data.drop (i.toNat + 1)).filterMap id) :=
  doda_facts low d h.inv

/-- `reversed(array)` runs through the live elements backwards (with the dead cells among them). -/
theorem C93_reversed (low : Nat → Nat → Bool) (le : α → α → Prop) (d : Doda α) (h : DodaHistory low le d) :
    d.reversed.filterMap id = (d.data.filterMap id).reverse := by
  have := h.inv.live_take
  rw [Doda.reversed, List.filterMap_reverse, ← this]
  rfl

/-- An array without live elements: every sort that only rearranges the cells ends in `IndexError`. -/
theorem C93_nothing_alive (low : Nat → Nat → Bool) (d : Doda α) (hl : d.data.filterMap id = []) (start stop : Nat)
    (srt : List (Option α) → Nat → Nat → PyM (List (Option α))) (b : List (Option α)) (e : srt d.data start stop = .ok b)
    (hp : b.Perm d.data) : d.sortWith low srt start stop = .error .indexError := by
  rw [Doda.sortWith, e, ok_bind, force_dead low (perm_dead hp hl)]

theorem C93_full_false : ¬ C93_full := by
  intro h
  obtain ⟨d', e, -⟩ := h quarter (Doda.ofSize 2) (.size 2)
  have : Doda.sortWith quarter (bubbleSort (fun u v : Int => decide (u ≤ v))) (Doda.ofSize 2) 0 2 = .error .indexError := by decide
  rw [show (Doda.ofSize 2 : Doda Int).size = 2 from rfl, this] at e
  cases e

/-! ## The sorts that this applies to -/

section
variable {comp : α → α → Bool} {le : α → α → Prop} (ho : TotalPreorder le) (hc : Compat comp le)
include ho hc

theorem sortsCells_bubble : SortsCells le (fun _ => bubbleSort comp) := fun a start stop _ h2 =>
  let ⟨b, e, hs⟩ := C01_bubble_sort comp le ho hc a start stop h2
  ⟨b, ⟨0, fun _ _ => e⟩, hs⟩
theorem sortsCells_selection : SortsCells le (fun _ => selectionSort comp) := fun a start stop _ h2 =>
  let ⟨b, e, hs⟩ := C02_selection_sort comp le ho hc a start stop h2
  ⟨b, ⟨0, fun _ _ => e⟩, hs⟩
theorem sortsCells_insertion : SortsCells le (fun _ => insertionSort comp) := fun a start stop _ h2 =>
  let ⟨b, e, hs⟩ := C03_insertion_sort comp le ho hc a start stop h2
  ⟨b, ⟨0, fun _ _ => e⟩, hs⟩
theorem sortsCells_merge : SortsCells le (mergeSort comp) := fun a start stop h1 h2 =>
  C04_merge_sort comp le ho hc a start stop h1 h2
/-- `stop - 1` is the keyword `end` -/
theorem sortsCells_quick : SortsCells le (fun fuel a start stop => quickSort comp fuel a start (stop - 1)) := by
  intro a start stop h1 h2
  obtain ⟨b, e, hs⟩ := C05_quick_sort comp le ho hc a start (stop - 1) (by omega) (by omega)
  rw [show stop - 1 + 1 = stop by omega] at hs
  exact ⟨b, e, hs⟩
theorem sortsCells_heap : SortsCells le (fun _ => heapsort comp) := fun a start stop _ h2 =>
  let ⟨b, e, hs⟩ := C06_heapsort comp le ho hc a start stop h2
  ⟨b, ⟨0, fun _ _ => e⟩, hs⟩
theorem sortsCells_shell : SortsCells le (shellSort comp) := fun a start stop _ h2 =>
  C07_shell_sort comp le ho hc a start stop h2
theorem sortsCells_cocktail : SortsCells le (cocktailSort comp) := fun a start stop _ h2 =>
  C09_cocktail_shaker_sort comp le ho hc a start stop h2
theorem sortsCells_brick (hstrict : ∀ u v, comp u v = true → comp v u = false) : SortsCells le (brickSort comp) :=
  fun a start stop _ h2 => C10_brick_sort_strict_partial comp le ho hc hstrict a start stop h2
end

/-- C93 for the named sorts. -/
theorem C93_all_sorts_partial (comp : α → α → Bool) (le : α → α → Prop) (ho : TotalPreorder le) (hc : Compat comp le)
    (srt : Nat → List (Option α) → Nat → Nat → PyM (List (Option α)))
    (hsrt : srt ∈ [fun _ => bubbleSort comp, fun _ => selectionSort comp, fun _ => insertionSort comp, mergeSort comp,
      fun fuel a start stop => quickSort comp fuel a start (stop - 1), fun _ => heapsort comp, shellSort comp, cocktailSort comp])
    (low : Nat → Nat → Bool) (d : Doda α) (h : DodaHistory low le d) (hl : d.data.filterMap id ≠ []) :
    ∃ d' l, EndsWith (fun fuel => d.sortWith low (srt fuel) 0 d.size) (.ok d') ∧ DodaHistory low le d' ∧
      d'.Dense l ∧ l.Perm (d.data.filterMap id) ∧ l.Pairwise le := by
  refine C93_sort_all_partial low le srt ?_ d h hl
  simp only [List.mem_cons, List.not_mem_nil, or_false] at hsrt
  rcases hsrt with rfl | rfl | rfl | rfl | rfl | rfl | rfl | rfl
  · exact sortsCells_bubble ho hc
  · exact sortsCells_selection ho hc
  · exact sortsCells_insertion ho hc
  · exact sortsCells_merge ho hc
  · exact sortsCells_quick ho hc
  · exact sortsCells_heap ho hc
  · exact sortsCells_shell ho hc
  · exact sortsCells_cocktail ho hc

/-- Append 5, 7, 1, 6, delete position 1, sort: the cells 5, None, 1, 6, … become 1, 5, 6, None, …; then append 2. -/
example : (do
      let d ← (Doda.ofSize 0 : Doda Int).append quarter 5
      let d ← d.append quarter 7
      let d ← d.append quarter 1
      let d ← d.append quarter 6
      let d ← d.delete quarter 1
      let d ← d.sortWith quarter (bubbleSort (fun u v => decide (u ≤ v))) 0 7
      d.append quarter 2) =
    (.ok ⟨[some 1, some 5, some 6, some 2, none, none, none], 4, 4⟩ : PyM (Doda Int)) := by decide

end Props
