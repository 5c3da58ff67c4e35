import Verif.Props.SortsAgree
import Verif.Props.Search

/-!
# C142: sort, then search

Any of the sorts followed by any of the searches answers questions about the values that were there before the sorting: a value is found
exactly if it was among them, `lower_bound` counts the smaller values and `upper_bound` those that are not greater.
-/
namespace Props
open Py Spec Model
variable {α : Type}

/-! ## Specification -/

open Classical in
/-- How many of the values are before `v`. -/
noncomputable def smaller (le : α → α → Prop) (l : List α) (v : α) : Nat :=
  l.countP fun x => decide (¬ le v x)

open Classical in
/-- How many of the values are not after `v`. -/
noncomputable def notGreater (le : α → α → Prop) (l : List α) (v : α) : Nat :=
  l.countP fun x => decide (le x v)

/-- A search that finds exactly what was there. -/
def FindsAll (search : α → Nat → PyM (Option Nat)) (l s : List α) : Prop :=
  ∀ v, EndsIn (search v) fun r => (∀ k, r = some k → s[k]? = some v) ∧ (r = none ↔ v ∉ l)

/-! ## Proofs -/

/-- Sorting an array of values leaves an array of the same values in order. -/
theorem sorted_values {le : α → α → Prop} {l : List α} {b : List (Option α)} (h : SortsTo (noneLast le) (l.map some) b 0 l.length) :
    ∃ s : List α, b = s.map some ∧ s.Perm l ∧ s.Pairwise le := by
  have hp := h.1.1
  have hlen : b.length = l.length := by simpa using hp.length_eq
  have hm := sorted_mid h.2
  rw [List.drop_zero, Nat.sub_zero, ← hlen, List.take_length] at hm
  obtain ⟨e, hs⟩ := live_none _ hm
  have hf : (b.filterMap id).Perm l := by
    have := hp.filterMap id
    simpa [List.filterMap_map] using this
  refine ⟨b.filterMap id, ?_, hf, hs⟩
  rw [hf.length_eq, hlen, Nat.sub_self, List.replicate_zero, List.append_nil] at e
  exact e

theorem sortedRange_of_pairwise {le : α → α → Prop} {s : List α} (h : s.Pairwise le) (lo hi : Nat) : SortedRange le s lo hi := by
  intro i j x y _ h2 _ hx hy
  obtain ⟨hi, rfl⟩ := List.getElem?_eq_some_iff.1 hx
  obtain ⟨hj, rfl⟩ := List.getElem?_eq_some_iff.1 hy
  exact List.pairwise_iff_getElem.1 h i j _ _ h2

/-- A position that has exactly the elements with `p` before it is their number. -/
theorem countP_split (p : α → Bool) : ∀ (s : List α) (r : Nat), r ≤ s.length → (∀ j x, j < r → s[j]? = some x → p x = true) →
    (∀ j x, r ≤ j → s[j]? = some x → p x = false) → r = s.countP p := by
  intro s
  induction s with
  | nil => intro r hr _ _; simp at hr; subst hr; rfl
  | cons a s ih =>
    intro r hr h1 h2
    cases r with
    | zero =>
      have ha := h2 0 a (Nat.le_refl _) rfl
      rw [List.countP_cons_of_neg (by simp [ha])]
      exact ih 0 (Nat.zero_le _) (fun j x hj => absurd hj (Nat.not_lt_zero _)) fun j x _ hx => h2 (j + 1) x (Nat.zero_le _) (by simpa using hx)
    | succ r =>
      have ha := h1 0 a (Nat.succ_pos _) rfl
      rw [List.countP_cons_of_pos ha]
      congr 1
      exact ih r (by simpa using hr) (fun j x hj hx => h1 (j + 1) x (by omega) (by simpa using hx)) fun j x hj hx => h2 (j + 1) x (by omega) (by simpa using hx)

theorem not_found_iff [DecidableEq α] {l s : List α} (hp : s.Perm l) {v : α} : (∀ j, 0 ≤ j → j < s.length → s[j]? ≠ some v) ↔ v ∉ l := by
  rw [← hp.mem_iff]
  constructor
  · intro h hv
    obtain ⟨i, hi, e⟩ := List.getElem_of_mem hv
    exact h i (Nat.zero_le _) hi (by rw [List.getElem?_eq_getElem hi, e])
  · intro h j _ hj e
    exact h (List.mem_of_getElem? e)

theorem found_linear [DecidableEq α] {l s : List α} (hp : s.Perm l) : FindsAll (fun v _ => linearSearch s v 0 s.length) l s := by
  intro v
  refine ⟨0, fun n _ => ?_⟩
  rcases C15_linear_search s v 0 s.length (Nat.le_refl _) with ⟨k, e, _, hk, h, _⟩ | ⟨e, h⟩
  · refine ⟨some k, e, fun j hj => ?_, ?_⟩
    · cases hj; exact h
    · constructor
      · intro hn; cases hn
      · intro hv; exact absurd h ((not_found_iff hp).2 hv k (Nat.zero_le _) hk)
  · exact ⟨none, e, fun k hk => (by cases hk), fun _ => (not_found_iff hp).1 h, fun _ => rfl⟩

theorem found_binary [DecidableEq α] (comp : α → α → Bool) (le : α → α → Prop) (ht : NoTies le) (hc : Compat comp le) {l s : List α} (hp : s.Perm l)
    (hs : s.Pairwise le) : FindsAll (fun v fuel => binarySearch comp fuel s v 0 s.length) l s := by
  intro v
  obtain ⟨r, ⟨n, e⟩, h1, h2⟩ := C16_binary_search comp le ht hc s v 0 s.length (Nat.le_refl _) (sortedRange_of_pairwise hs _ _)
  exact ⟨n, fun m hm => ⟨r, e m hm, fun k hk => (h1 k hk).2.2, h2.trans (not_found_iff hp)⟩⟩

theorem found_jump [DecidableEq α] (comp : α → α → Bool) (le : α → α → Prop) (ho : TotalPreorder le) (ht : NoTies le)
    (hstrict : ∀ x y, comp x y = true ↔ ¬ le y x) {l s : List α} (hp : s.Perm l) (hs : s.Pairwise le) (hne : s ≠ []) :
    FindsAll (fun v fuel => jumpSearch comp fuel s v 0 (s.length - 1)) l s := by
  intro v
  have hpos := List.length_pos_iff.2 hne
  obtain ⟨n, h⟩ := C17_jump_search_partial comp le ho ht hstrict s v (s.length - 1) (by omega) (sortedRange_of_pairwise hs _ _)
  refine ⟨n, fun m hm => ?_⟩
  obtain ⟨r, e, h1, h2⟩ := h m hm
  refine ⟨r, e, fun k hk => (h1 k hk).2.2, h2.trans ?_⟩
  rw [← not_found_iff hp]
  exact ⟨fun h j h0 hj => h j h0 (by omega), fun h j h0 hj => h j h0 (by omega)⟩

open Classical in
/-- `lower_bound` counts the smaller values. -/
theorem C142_lower_bound (comp : α → α → Bool) (le : α → α → Prop) (ho : TotalPreorder le) (hstrict : ∀ x y, comp x y = true ↔ ¬ le y x)
    {l s : List α} (hp : s.Perm l) (hs : s.Pairwise le) (hne : l ≠ []) (v : α) :
    EndsWith (fun fuel => lowerBound comp fuel s v 0 s.length) (.ok (smaller le l v)) := by
  have hpos : 0 < s.length := by rw [hp.length_eq]; exact List.length_pos_iff.2 hne
  obtain ⟨n, h⟩ := C18_lower_bound comp le ho hstrict s v 0 s.length hpos (Nat.le_refl _) (sortedRange_of_pairwise hs _ _)
  refine ⟨n, fun m hm => ?_⟩
  obtain ⟨r, e, _, hr, h1, h2⟩ := h m hm
  refine e.trans ?_
  congr 1
  unfold smaller
  rw [← hp.countP_eq]
  refine countP_split _ s r hr (fun j x hj hx => ?_) fun j x hj hx => ?_
  · exact (decide_eq_true_iff).2 (h1 j x (Nat.zero_le _) hj hx)
  · exact (decide_eq_false_iff_not).2 (Classical.not_not.2 (h2 j x hj (List.getElem?_eq_some_iff.1 hx).1 hx))

open Classical in
/-- `upper_bound` counts the values that are not greater. -/
theorem C142_upper_bound (comp : α → α → Bool) (le : α → α → Prop) (ho : TotalPreorder le) (hstrict : ∀ x y, comp x y = true ↔ ¬ le y x)
    {l s : List α} (hp : s.Perm l) (hs : s.Pairwise le) (hne : l ≠ []) (v : α) :
    EndsWith (fun fuel => upperBound comp fuel s v 0 s.length) (.ok (notGreater le l v)) := by
  have hpos : 0 < s.length := by rw [hp.length_eq]; exact List.length_pos_iff.2 hne
  obtain ⟨n, h⟩ := C19_upper_bound comp le ho hstrict s v 0 s.length hpos (Nat.le_refl _) (sortedRange_of_pairwise hs _ _)
  refine ⟨n, fun m hm => ?_⟩
  obtain ⟨r, e, _, hr, h1, h2⟩ := h m hm
  refine e.trans ?_
  congr 1
  unfold notGreater
  rw [← hp.countP_eq]
  refine countP_split _ s r hr (fun j x hj hx => ?_) fun j x hj hx => ?_
  · exact (decide_eq_true_iff).2 (h1 j x (Nat.zero_le _) hj hx)
  · exact decide_eq_false (h2 j x hj (List.getElem?_eq_some_iff.1 hx).1 hx)

/-- The two bounds are as far apart as there are values equal to the one asked for. -/
theorem C142_occurrences [DecidableEq α] (le : α → α → Prop) (ho : TotalPreorder le) (ht : NoTies le) (l : List α) (v : α) :
    notGreater le l v = smaller le l v + l.count v := by
  classical
  have hrefl : ∀ x, le x x := fun x => (ho.total x x).elim id id
  unfold notGreater smaller
  induction l with
  | nil => rfl
  | cons a l ih =>
    by_cases hav : a = v
    · subst hav
      rw [List.countP_cons_of_pos (by simp [hrefl]), List.countP_cons_of_neg (by simp [hrefl]), List.count_cons_self, ih]
      omega
    · by_cases hle : le a v
      · have hn : ¬ le v a := fun h => hav (ht _ _ hle h)
        rw [List.countP_cons_of_pos (by simp [hle]), List.countP_cons_of_pos (by simp [hn]), List.count_cons_of_ne hav, ih]
        omega
      · have hn : le v a := (ho.total v a).resolve_right hle
        rw [List.countP_cons_of_neg (by simp [hle]), List.countP_cons_of_neg (by simp [hn]), List.count_cons_of_ne hav, ih]

/-- **Sort, then search.** Whatever arrangement of the values a sort leaves behind, the searches answer for the values there were before. `leq` is
the comparator of `binary_search`, `less` the strict one of the other searches. -/
theorem C142_search [DecidableEq α] (leq less : α → α → Bool) (le : α → α → Prop) (ho : TotalPreorder le) (ht : NoTies le) (hc : Compat leq le)
    (hstrict : ∀ x y, less x y = true ↔ ¬ le y x) (l : List α) (hne : l ≠ []) (b : List (Option α))
    (hb : SortsTo (noneLast le) (l.map some) b 0 l.length) :
    ∃ s : List α, b = s.map some ∧ s.length = l.length ∧
      FindsAll (fun v _ => linearSearch s v 0 s.length) l s ∧
      FindsAll (fun v fuel => binarySearch leq fuel s v 0 s.length) l s ∧
      FindsAll (fun v fuel => jumpSearch less fuel s v 0 (s.length - 1)) l s ∧
      (∀ v, EndsWith (fun fuel => lowerBound less fuel s v 0 s.length) (.ok (smaller le l v))) ∧
      (∀ v, EndsWith (fun fuel => upperBound less fuel s v 0 s.length) (.ok (smaller le l v + l.count v))) := by
  obtain ⟨s, e, hp, hs⟩ := sorted_values hb
  have hne' : s ≠ [] := fun h => hne (List.length_eq_zero_iff.1 (by rw [← hp.length_eq, h]; rfl))
  refine ⟨s, e, hp.length_eq, found_linear hp, found_binary leq le ht hc hp hs, found_jump less le ho ht hstrict hp hs hne',
    C142_lower_bound less le ho hstrict hp hs hne, fun v => ?_⟩
  rw [← C142_occurrences le ho ht]
  exact C142_upper_bound less le ho hstrict hp hs hne v

/-- The sorts: each of the nine leaves such an arrangement behind, the same one. -/
theorem C142_sort_then_search [DecidableEq α] (leq less : α → α → Bool) (le : α → α → Prop) (ho : TotalPreorder le) (ht : NoTies le) (hc : Compat leq le)
    (hstrict : ∀ x y, less x y = true ↔ ¬ le y x) (l : List α) (hne : l ≠ []) :
    ∃ s : List α,
      (bubbleSort leq (l.map some) 0 l.length = .ok (s.map some) ∧
        selectionSort leq (l.map some) 0 l.length = .ok (s.map some) ∧
        insertionSort leq (l.map some) 0 l.length = .ok (s.map some) ∧
        EndsWith (fun fuel => mergeSort leq fuel (l.map some) 0 l.length) (.ok (s.map some)) ∧
        EndsWith (fun fuel => quickSort leq fuel (l.map some) 0 (l.length - 1)) (.ok (s.map some)) ∧
        heapsort leq (l.map some) 0 l.length = .ok (s.map some) ∧
        EndsWith (fun fuel => shellSort leq fuel (l.map some) 0 l.length) (.ok (s.map some)) ∧
        (∀ maxdepth threshold : Int, EndsWith (fun fuel => introSort leq threshold fuel (l.map some) 0 l.length maxdepth) (.ok (s.map some))) ∧
        EndsWith (fun fuel => cocktailSort leq fuel (l.map some) 0 l.length) (.ok (s.map some))) ∧
      FindsAll (fun v _ => linearSearch s v 0 s.length) l s ∧
      FindsAll (fun v fuel => binarySearch leq fuel s v 0 s.length) l s ∧
      FindsAll (fun v fuel => jumpSearch less fuel s v 0 (s.length - 1)) l s ∧
      (∀ v, EndsWith (fun fuel => lowerBound less fuel s v 0 s.length) (.ok (smaller le l v))) ∧
      (∀ v, EndsWith (fun fuel => upperBound less fuel s v 0 s.length) (.ok (smaller le l v + l.count v))) := by
  have hpos := List.length_pos_iff.2 hne
  have hl : l.length - 1 + 1 = l.length := by omega
  obtain ⟨b, hb, h⟩ := C127_comparison_sorts leq le ho hc ht (l.map some) 0 (l.length - 1) (by omega) (by simp; omega)
  rw [hl] at hb h
  obtain ⟨s, e, _, hs⟩ := C142_search leq less le ho ht hc hstrict l hne b hb
  subst e
  exact ⟨s, h, hs⟩

/-! ## The hypotheses are met -/

/-- Integers: `<=` for the sorts and `binary_search`, `<` for the other searches. -/
example : ∃ s : List Int, heapsort (fun u v : Int => decide (u ≤ v)) ([5, 2, 9, 2].map some) 0 4 = .ok (s.map some) ∧
    EndsWith (fun fuel => upperBound (fun u v : Int => decide (u < v)) fuel s 2 0 s.length) (.ok (smaller (fun a b : Int => a ≤ b) [5, 2, 9, 2] 2 + 2)) := by
  obtain ⟨s, ⟨_, _, _, _, _, h, _⟩, _, _, _, _, hu⟩ := C142_sort_then_search (fun u v : Int => decide (u ≤ v)) (fun u v : Int => decide (u < v)) _ intLe_total
    (fun x y h1 h2 => by omega) intLe_compat (fun x y => by simp) [5, 2, 9, 2] (by decide)
  exact ⟨s, h, hu 2⟩

end Props
