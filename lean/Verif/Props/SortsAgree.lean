import Verif.Props.Stable
import Verif.Props.Heap
import Verif.Props.Intro
import Verif.Lemmas.SortForm
import Verif.Props.Counting
import Verif.Props.Radix

/-!
# C127: the choice of the sorting algorithm does not matter

When no two different values are equivalent for the order (integers under `<=`, under `>=`, …) all comparison sorts leave the same array
behind. When different values can be equivalent (records sorted by one field) the stable ones do.
-/
namespace Spec
variable {α : Type}

/-- No two different values are equivalent. -/
def NoTies (le : α → α → Prop) : Prop := ∀ x y, le x y → le y x → x = y

end Spec

namespace Props
open Py Spec Model
variable {α : Type}

theorem noneLast_noTies {le : α → α → Prop} (h : NoTies le) : ∀ x y : Option α, noneLast le x y → noneLast le y x → x = y := by
  rintro (_ | x) (_ | y) h1 h2
  · rfl
  · exact h1.elim
  · exact h2.elim
  · rw [h x y h1 h2]

/-- the sorted range, cut out -/
theorem sorted_mid {β : Type} {le : β → β → Prop} {b : List β} {start stop : Nat} (h : SortedRange le b start stop) :
    ((b.drop start).take (stop - start)).Pairwise le := by
  rw [List.pairwise_iff_getElem]
  intro i j hi hj hij
  simp only [List.length_take, List.length_drop] at hi hj
  refine h (start + i) (start + j) _ _ (by omega) (by omega) (by omega) ?_ ?_
  · rw [List.getElem_take, List.getElem_drop, List.getElem?_eq_getElem]
  · rw [List.getElem_take, List.getElem_drop, List.getElem?_eq_getElem]

/-- the parts outside the range are the same -/
theorem rearranged_outside {β : Type} {a b : List β} {start stop : Nat} (h : Rearranged a b start stop) :
    b.take start = a.take start ∧ b.drop stop = a.drop stop := by
  constructor
  · apply List.ext_getElem?
    intro i
    rw [List.getElem?_take, List.getElem?_take]
    split
    · exact h.2 i (.inl (by omega))
    · rfl
  · apply List.ext_getElem?
    intro i
    rw [List.getElem?_drop, List.getElem?_drop]
    exact h.2 _ (.inr (by omega))

theorem mid_perm {β : Type} {a b : List β} {start stop : Nat} (hs : start ≤ stop) (h : Rearranged a b start stop) :
    ((b.drop start).take (stop - start)).Perm ((a.drop start).take (stop - start)) := by
  obtain ⟨h1, h2⟩ := rearranged_outside h
  have hp := h.1
  rw [split_range a hs, split_range b hs, h1, h2, List.perm_append_right_iff, List.perm_append_left_iff] at hp
  exact hp

theorem eq_of_mid {β : Type} {a b b' : List β} {start stop : Nat} (hs : start ≤ stop) (h : Rearranged a b start stop) (h' : Rearranged a b' start stop)
    (hm : (b.drop start).take (stop - start) = (b'.drop start).take (stop - start)) : b = b' := by
  obtain ⟨h1, h2⟩ := rearranged_outside h
  obtain ⟨h1', h2'⟩ := rearranged_outside h'
  rw [split_range b hs, split_range b' hs, h1, h2, h1', h2', hm]

theorem eq_of_empty_range {β : Type} {a b : List β} {start stop : Nat} (hs : stop ≤ start) (h : Rearranged a b start stop) : b = a :=
  List.ext_getElem? fun i => h.2 i (by omega)

/-- Without ties there is only one sorted arrangement. -/
theorem sortsTo_unique {le : α → α → Prop} (ht : NoTies le) {a b b' : List (Option α)} {start stop : Nat}
    (h : SortsTo (noneLast le) a b start stop) (h' : SortsTo (noneLast le) a b' start stop) : b = b' := by
  by_cases hs : start ≤ stop
  · exact eq_of_mid hs h.1 h'.1 (List.Perm.eq_of_pairwise (fun x y _ _ => noneLast_noTies ht x y) (sorted_mid h.2) (sorted_mid h'.2)
      ((mid_perm hs h.1).trans (mid_perm hs h'.1).symm))
  · rw [eq_of_empty_range (by omega) h.1, eq_of_empty_range (by omega) h'.1]

/-- Two sorted lists in which equivalent elements appear in the same sequence are the same. -/
theorem stable_unique {le : α → α → Prop} (ho : TotalPreorder le) : ∀ l l' : List α, l.Pairwise le → l'.Pairwise le →
    (∀ p : α → Bool, (∀ x y, p x = true → p y = true → le x y) → l.filter p = l'.filter p) → l = l' := by
  classical
  have hrefl : ∀ x, le x x := fun x => (ho.total x x).elim id id
  intro l
  induction l with
  | nil =>
    intro l' _ _ h
    cases l' with
    | nil => rfl
    | cons y l' =>
      have := h (fun z => decide (z = y)) (by intro x z hx hz; simp at hx hz; subst hx; subst hz; exact hrefl _)
      simp at this
  | cons x l ih =>
    intro l' hl hl' h
    have hp : ∀ p : α, ∀ z w, (decide (le z p ∧ le p z)) = true → (decide (le w p ∧ le p w)) = true → le z w := by
      intro p z w hz hw
      simp only [decide_eq_true_eq] at hz hw
      exact ho.trans _ _ _ hz.1 hw.2
    have hx := h (fun z => decide (le z x ∧ le x z)) (hp x)
    cases l' with
    | nil => simp [hrefl] at hx
    | cons y l' =>
      rw [List.filter_cons_of_pos (by simp [hrefl])] at hx
      have hxy : le x y := by
        have hy := h (fun z => decide (le z y ∧ le y z)) (hp y)
        rw [List.filter_cons_of_pos (a := y) (by simp [hrefl])] at hy
        have : y ∈ (x :: l).filter (fun z => decide (le z y ∧ le y z)) := by rw [hy]; simp
        rcases List.mem_cons.mp (List.mem_filter.mp this).1 with rfl | hm
        · exact hrefl _
        · exact (List.pairwise_cons.mp hl).1 _ hm
      have hyx : le y x := by
        have : x ∈ (y :: l').filter (fun z => decide (le z x ∧ le x z)) := by rw [← hx]; simp
        rcases List.mem_cons.mp (List.mem_filter.mp this).1 with rfl | hm
        · exact hrefl _
        · exact (List.pairwise_cons.mp hl').1 _ hm
      rw [List.filter_cons_of_pos (a := y) (by simp [hxy, hyx])] at hx
      have e : x = y := (List.cons.inj hx).1
      subst e
      congr 1
      refine ih l' (List.pairwise_cons.mp hl).2 (List.pairwise_cons.mp hl').2 fun p hpp => ?_
      have := h p hpp
      by_cases hpx : p x = true
      · rw [List.filter_cons_of_pos hpx, List.filter_cons_of_pos hpx] at this
        exact (List.cons.inj this).2
      · rwa [List.filter_cons_of_neg hpx, List.filter_cons_of_neg hpx] at this

/-- A sorted list of cells: the values first, then `None`. -/
theorem live_none {le : α → α → Prop} : ∀ l : List (Option α), l.Pairwise (noneLast le) →
    l = (l.filterMap id).map some ++ List.replicate (l.length - (l.filterMap id).length) none ∧ (l.filterMap id).Pairwise le := by
  intro l
  induction l with
  | nil => intro _; simp
  | cons x l ih =>
    intro h
    obtain ⟨h1, h2⟩ := List.pairwise_cons.mp h
    obtain ⟨e, hs⟩ := ih h2
    cases x with
    | none =>
      have hall : ∀ y ∈ l, y = none := by
        intro y hy
        cases y with
        | none => rfl
        | some y => exact (h1 _ hy).elim
      have : l.filterMap id = [] := by
        rw [List.filterMap_eq_nil_iff]
        intro y hy
        rw [hall y hy]; rfl
      have hl : l = List.replicate l.length none := List.eq_replicate_iff.mpr ⟨rfl, hall⟩
      simp only [List.filterMap_cons, id, this, List.map_nil, List.nil_append, List.length_cons, List.length_nil, Nat.sub_zero]
      exact ⟨by rw [List.replicate_succ, ← hl], .nil⟩
    | some x =>
      simp only [List.filterMap_cons, id, List.map_cons, List.cons_append, List.length_cons, List.pairwise_cons]
      refine ⟨?_, ?_, hs⟩
      · rw [show l.length + 1 - ((l.filterMap id).length + 1) = l.length - (l.filterMap id).length by omega]
        exact congrArg _ e
      · intro y hy
        obtain ⟨z, hz, ez⟩ := List.mem_filterMap.mp hy
        cases ez
        exact h1 _ hz

/-- There is only one sorted arrangement that keeps equivalent elements in their order. -/
theorem stable_sortsTo_unique {le : α → α → Prop} (ho : TotalPreorder le) {a b b' : List (Option α)} {start stop : Nat}
    (h : SortsTo (noneLast le) a b start stop) (hk : KeepsTies le a b) (h' : SortsTo (noneLast le) a b' start stop) (hk' : KeepsTies le a b') :
    b = b' := by
  by_cases hs : start ≤ stop
  · refine eq_of_mid hs h.1 h'.1 ?_
    have h1 := live_none _ (sorted_mid h.2)
    have h2 := live_none _ (sorted_mid h'.2)
    have hp := (mid_perm hs h.1).trans (mid_perm hs h'.1).symm
    obtain ⟨o1, o2⟩ := rearranged_outside h.1
    obtain ⟨o1', o2'⟩ := rearranged_outside h'.1
    have hlive : ((b.drop start).take (stop - start)).filterMap id = ((b'.drop start).take (stop - start)).filterMap id := by
      refine stable_unique ho _ _ h1.2 h2.2 fun p hpp => ?_
      have e : (b.filterMap id).filter p = (b'.filterMap id).filter p := (hk p hpp).trans (hk' p hpp).symm
      rw [split_range b hs, split_range b' hs, o1, o2, o1', o2'] at e
      simp only [List.filterMap_append, List.filter_append] at e
      have e1 := List.append_cancel_right e
      exact List.append_cancel_left e1
    rw [h1.1, h2.1, hlive, hp.length_eq]
  · rw [eq_of_empty_range (by omega) h.1, eq_of_empty_range (by omega) h'.1]

theorem EndsWith.const {β : Type} {x y : β} (h : x = y) : EndsWith (fun _ : Nat => x) y := ⟨0, fun _ _ => h⟩

/-- All nine comparison sorts of a non-empty range (`intro_sort` with any depth limit and threshold, `quick_sort` with the default pivot)
leave the same array behind when no two different values are equivalent. -/
theorem C127_comparison_sorts (comp : α → α → Bool) (le : α → α → Prop) (ho : TotalPreorder le) (hc : Compat comp le) (ht : NoTies le)
    (a : List (Option α)) (start end_ : Nat) (h1 : start ≤ end_) (h2 : end_ < a.length) :
    ∃ b, SortsTo (noneLast le) a b start (end_ + 1) ∧
      bubbleSort comp a start (end_ + 1) = .ok b ∧
      selectionSort comp a start (end_ + 1) = .ok b ∧
      insertionSort comp a start (end_ + 1) = .ok b ∧
      EndsWith (fun fuel => mergeSort comp fuel a start (end_ + 1)) (.ok b) ∧
      EndsWith (fun fuel => quickSort comp fuel a start end_) (.ok b) ∧
      heapsort comp a start (end_ + 1) = .ok b ∧
      EndsWith (fun fuel => shellSort comp fuel a start (end_ + 1)) (.ok b) ∧
      (∀ maxdepth threshold : Int, EndsWith (fun fuel => introSort comp threshold fuel a start (end_ + 1) maxdepth) (.ok b)) ∧
      EndsWith (fun fuel => cocktailSort comp fuel a start (end_ + 1)) (.ok b) := by
  obtain ⟨b, e, hb⟩ := C01_bubble_sort comp le ho hc a start (end_ + 1) (by omega)
  refine ⟨b, hb, e, ?_, ?_, ?_, ?_, ?_, ?_, ?_, ?_⟩
  · obtain ⟨b', e', hb'⟩ := C02_selection_sort comp le ho hc a start (end_ + 1) (by omega)
    rw [e', sortsTo_unique ht hb hb']
  · obtain ⟨b', e', hb'⟩ := C03_insertion_sort comp le ho hc a start (end_ + 1) (by omega)
    rw [e', sortsTo_unique ht hb hb']
  · obtain ⟨b', e', hb'⟩ := C04_merge_sort comp le ho hc a start (end_ + 1) (by omega) (by omega)
    rwa [sortsTo_unique ht hb hb']
  · obtain ⟨b', e', hb'⟩ := C05_quick_sort comp le ho hc a start end_ h1 h2
    rwa [sortsTo_unique ht hb hb']
  · obtain ⟨b', e', hb'⟩ := C06_heapsort comp le ho hc a start (end_ + 1) (by omega)
    rw [e', sortsTo_unique ht hb hb']
  · obtain ⟨b', e', hb'⟩ := C07_shell_sort comp le ho hc a start (end_ + 1) (by omega)
    rwa [sortsTo_unique ht hb hb']
  · intro maxdepth threshold
    refine ⟨end_ + 1 - start + 1, fun n hn => ?_⟩
    obtain ⟨b', e', hb'⟩ := C08_intro_sort comp le ho hc a start (end_ + 1) (by omega) maxdepth threshold n (by omega)
    rw [sortsTo_unique ht hb hb']
    exact e'
  · obtain ⟨b', e', hb'⟩ := C09_cocktail_shaker_sort comp le ho hc a start (end_ + 1) (by omega)
    rwa [sortsTo_unique ht hb hb']

/-- With a non-strict comparator the stable sorts leave the same array behind whatever the values carry that the order does not look at, and
so do the two brick sorts with the strict comparator of the same order. -/
theorem C127_stable_sorts (comp comp' : α → α → Bool) (le : α → α → Prop) (ho : TotalPreorder le) (hw : Weak comp le) (hst : Strict comp' le)
    (sched : Nat → List Nat → List Nat) (hsched : ∀ n jobs, (sched n jobs).Perm jobs) (a : List (Option α)) (start stop : Nat) (h1 : start < stop)
    (h2 : stop ≤ a.length) :
    ∃ b, SortsTo (noneLast le) a b start stop ∧ KeepsTies le a b ∧
      bubbleSort comp a start stop = .ok b ∧
      insertionSort comp a start stop = .ok b ∧
      EndsWith (fun fuel => mergeSort comp fuel a start stop) (.ok b) ∧
      EndsWith (fun fuel => cocktailSort comp fuel a start stop) (.ok b) ∧
      EndsWith (fun fuel => brickSort comp' fuel a start stop) (.ok b) ∧
      EndsWith (fun fuel => brickSortPar comp' sched fuel a start stop) (.ok b) := by
  obtain ⟨b, e, hb, hk⟩ := C91_bubble_sort comp le ho hw a start stop h2
  refine ⟨b, hb, hk, e, ?_, ?_, ?_, ?_, ?_⟩
  · obtain ⟨b', e', hb', hk'⟩ := C91_insertion_sort comp le ho hw a start stop h2
    rw [e', stable_sortsTo_unique ho hb hk hb' hk']
  · obtain ⟨b', e', hb', hk'⟩ := C91_merge_sort comp le ho hw a start stop h1 h2
    rwa [stable_sortsTo_unique ho hb hk hb' hk']
  · obtain ⟨b', e', hb', hk'⟩ := C91_cocktail_shaker_sort comp le ho hw a start stop h2
    rwa [stable_sortsTo_unique ho hb hk hb' hk']
  · obtain ⟨b', e', hb', hk'⟩ := C91_brick_sort comp' le ho hst a start stop h2
    rwa [stable_sortsTo_unique ho hb hk hb' hk']
  · obtain ⟨b', e', hb', hk'⟩ := C91_brick_sort_parallel comp' le ho hst sched hsched a start stop h2
    rwa [stable_sortsTo_unique ho hb hk hb' hk']

/-- Sorting what is sorted changes nothing, and sorting it again with any other of the algorithms neither. -/
theorem C127_again (comp : α → α → Bool) (le : α → α → Prop) (ho : TotalPreorder le) (hc : Compat comp le) (ht : NoTies le)
    (a : List (Option α)) (start end_ : Nat) (h1 : start ≤ end_) (h2 : end_ < a.length) (hs : SortedRange (noneLast le) a start (end_ + 1)) :
    bubbleSort comp a start (end_ + 1) = .ok a ∧ EndsWith (fun fuel => quickSort comp fuel a start end_) (.ok a) ∧
      EndsWith (fun fuel => mergeSort comp fuel a start (end_ + 1)) (.ok a) ∧ heapsort comp a start (end_ + 1) = .ok a := by
  obtain ⟨b, hb, e1, _, _, e4, e5, e6, _⟩ := C127_comparison_sorts comp le ho hc ht a start end_ h1 h2
  have : b = a := sortsTo_unique ht hb ⟨⟨.refl _, fun _ _ => rfl⟩, hs⟩
  subst this
  exact ⟨e1, e5, e4, e6⟩

/-- The order of the values beforehand does not matter: arrangements of the same values are sorted to the same array. -/
theorem C127_any_arrangement (comp : α → α → Bool) (le : α → α → Prop) (ho : TotalPreorder le) (hc : Compat comp le) (ht : NoTies le)
    (a a' : List (Option α)) (start end_ : Nat) (h1 : start ≤ end_) (h2 : end_ < a.length) (hr : Rearranged a a' start (end_ + 1)) :
    ∃ b, EndsWith (fun fuel => quickSort comp fuel a start end_) (.ok b) ∧ EndsWith (fun fuel => mergeSort comp fuel a' start (end_ + 1)) (.ok b) := by
  have hl := hr.1.length_eq
  obtain ⟨b, hb, _, _, _, _, e5, _⟩ := C127_comparison_sorts comp le ho hc ht a start end_ h1 h2
  obtain ⟨b', hb', _, _, _, e4, _⟩ := C127_comparison_sorts comp le ho hc ht a' start end_ h1 (by omega)
  have : b = b' := sortsTo_unique ht hb ⟨⟨hb'.1.1.trans hr.1, fun i hi => (hb'.1.2 i hi).trans (hr.2 i hi)⟩, hb'.2⟩
  subst this
  exact ⟨b, e5, e4⟩

/-- The sorts that do not compare: `counting_sort` returns the values of what the comparison sorts leave behind, without the `None`s, and
`radix_sort` leaves the same array behind (ranges as in C14). -/
theorem C127_counting_sort (a : List (Option Int)) (h : a.filterMap id ≠ []) :
    ∃ b, bubbleSort (fun u v : Int => decide (u ≤ v)) a 0 a.length = .ok b ∧ countingSort a = .ok ((b.filterMap id).map some) := by
  obtain ⟨b, e, hb⟩ := C01_bubble_sort _ _ intLe_total intLe_compat a 0 a.length (Nat.le_refl _)
  obtain ⟨out, e', hp, hs⟩ := C12_counting_sort a h
  refine ⟨b, e, ?_⟩
  have hm := sorted_mid hb.2
  rw [List.drop_zero, Nat.sub_zero, ← hb.1.1.length_eq, List.take_length] at hm
  have : b.filterMap id = out :=
    List.Perm.eq_of_pairwise (fun x y _ _ h1 h2 => Int.le_antisymm h1 h2) (live_none _ hm).2 hs ((hb.1.1.filterMap id).trans hp.symm)
  rw [this, e']

theorem C127_radix_sort (a : List (Option Nat)) (start stop : Nat) (hss : start < stop) (hs : stop ≤ a.length) (x0 : Nat)
    (h0 : a[start]? = some (some x0))
    (hpos : (∃ i x, start ≤ i ∧ i < stop ∧ a[i]? = some (some x) ∧ 0 < x) ∨ (∀ i, start ≤ i → i < stop → a[i]? ≠ some none)) :
    ∃ b, bubbleSort (fun u v : Nat => decide (u ≤ v)) a start stop = .ok b ∧ EndsWith (fun fuel => radixSort fuel a start stop) (.ok b) := by
  obtain ⟨b, e, hb⟩ := C01_bubble_sort (fun u v : Nat => decide (u ≤ v)) (fun a b : Nat => a ≤ b) ⟨fun a b => by omega, fun a b c => by omega⟩
    ⟨fun a b h => by simpa using h, fun a b h => by simp at h; omega⟩ a start stop hs
  obtain ⟨n0, hr⟩ := C14_radix_sort_partial a start stop hss hs x0 h0 hpos
  refine ⟨b, e, n0, fun n hn => ?_⟩
  obtain ⟨b', e', hb'⟩ := hr n hn
  rw [sortsTo_unique (fun x y h1 h2 => Nat.le_antisymm h1 h2) hb hb']
  exact e'

/-! ## The hypotheses are met, and needed -/

example : NoTies (fun a b : Int => a ≤ b) := fun x y h1 h2 => by omega

example : ∃ b, bubbleSort (fun u v : Int => decide (u ≤ v)) exArr 1 5 = .ok b ∧ heapsort (fun u v : Int => decide (u ≤ v)) exArr 1 5 = .ok b := by
  obtain ⟨b, _, e1, _, _, _, _, e6, _⟩ := C127_comparison_sorts _ _ intLe_total intLe_compat (fun x y h1 h2 => by omega) exArr 1 4 (by decide) (by decide)
  exact ⟨b, e1, e6⟩

/-- With ties the sorts differ: `[(2, 0), (2, 1), (1, 2)]` sorted by the first component. -/
theorem C127_ties_needed : ∃ b b', insertionSort keyComp exRec 0 4 = .ok b ∧ selectionSort keyComp exRec 0 4 = .ok b' ∧ b ≠ b' := by
  refine ⟨_, _, (by decide : insertionSort keyComp exRec 0 4 = .ok [some (1, 2), some (2, 0), some (2, 1), none]),
    (by decide : selectionSort keyComp exRec 0 4 = .ok [some (1, 2), some (2, 1), some (2, 0), none]), by decide⟩

end Props
