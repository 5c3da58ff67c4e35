import Verif.Model.CppSort
import Verif.Model.Sort
import Verif.Lemmas.Bubble
import Verif.Lemmas.Insertion
import Verif.Lemmas.Quick
import Verif.Lemmas.Bind
/-!
# While no index is out of range, the C++ sorts do what the Python sorts do
-/
namespace Model.Cpp
open Py Spec Model
variable {α β γ : Type _}

theorem bind_apply (m : CM α β) (f : β → CM α γ) (s : St α) : (m >>= f) s = f (m s).1 (m s).2 := rfl
theorem pure_apply (x : β) (s : St α) : (pure x : CM α β) s = (x, s) := rfl

theorem getItem_ok {a : List (Option α)} {i : Nat} {x : Option α} (h : rd a i = .ok x) :
    getItem i ⟨a, false⟩ = (some x, ⟨a, false⟩) := by
  unfold rd at h
  unfold getItem
  cases e : a[i]? with
  | none => rw [e] at h; cases h
  | some y => rw [e] at h; cases h; simp [e]

theorem getItem_err {i : Nat} {s : St α} (h : s.err = true) : getItem i s = (none, s) := by simp [getItem, h]

theorem setItem_ok {a b : List (Option α)} {i : Nat} {x : Option α} (h : wr a i x = .ok b) :
    setItem i (some x) ⟨a, false⟩ = ((), ⟨b, false⟩) := by
  unfold wr at h
  split at h
  · cases h; simp [setItem, *]
  · cases h

theorem comp_ok (t : α → α → Bool) (u v : Option α) (s : St α) : comp t (some u) (some v) s = (pyComp t u v, s) := by
  cases u <;> cases v <;> rfl

theorem swap_ok {a b : List (Option α)} {i j : Nat} (h : swp a i j = .ok b) : Cpp.swap i j ⟨a, false⟩ = ((), ⟨b, false⟩) := by
  unfold swp at h
  obtain ⟨y, hy, h⟩ := bind_ok h
  obtain ⟨x, hx, h⟩ := bind_ok h
  obtain ⟨l, hl, h⟩ := bind_ok h
  simp only [Cpp.swap, bind_apply, getItem_ok hx, getItem_ok hy, setItem_ok hl, setItem_ok h]

theorem swp_comm {a b : List β} {i j : Nat} (h : swp a i j = .ok b) : swp a j i = .ok b := by
  have : i < a.length ∧ j < a.length := by
    unfold swp at h
    obtain ⟨y, hy, h⟩ := bind_ok h
    obtain ⟨x, hx, h⟩ := bind_ok h
    simp only [rd] at hx hy
    constructor
    · cases e : a[i]? with
      | none => rw [e] at hx; cases hx
      | some _ => exact (List.getElem?_eq_some_iff.1 e).1
    · cases e : a[j]? with
      | none => rw [e] at hy; cases hy
      | some _ => exact (List.getElem?_eq_some_iff.1 e).1
  rw [swp_of_lt this.1 this.2] at h
  rw [swp_of_lt this.2 this.1]
  cases h
  congr 1
  by_cases hij : i = j
  · subst hij; rfl
  · rw [List.set_comm _ _ (fun h => hij h.symm)]

theorem sz_nat {k : Nat} (h : k < 2 ^ 64) : sz (k : Int) = k := by unfold sz; omega
theorem sz_succ {k : Nat} (h : k + 1 < 2 ^ 64) : sz ((k : Int) + 1) = k + 1 := by unfold sz; omega
theorem sz_pred {k : Nat} (h : k < 2 ^ 64) (h0 : 0 < k) : sz ((k : Int) - 1) = k - 1 := by unfold sz; omega

theorem lastIndex_eq {a : List (Option α)} (h : a.length < 2 ^ 64) (h0 : a ≠ []) : lastIndex a = a.length - 1 :=
  sz_pred h (List.length_pos_iff.2 h0)

/-- Loops correspond when their bodies do, on the states the Python loop reaches. -/
theorem cloop_sim {body : Nat → CM α Unit} {pbody : Nat → List (Option α) → PyM (List (Option α))} {lo hi : Nat} {I : List (Option α) → Prop}
    (hI : ∀ i a a', lo ≤ i → i < hi → I a → pbody i a = .ok a' → I a' ∧ body i ⟨a, false⟩ = ((), ⟨a', false⟩)) :
    ∀ n i a b, lo ≤ i → i + n ≤ hi → I a → Py.loop pbody n i a = .ok b → cloop body n i ⟨a, false⟩ = ((), ⟨b, false⟩) ∧ I b := by
  intro n
  induction n with
  | zero => intro i a b _ _ h e; cases e; exact ⟨rfl, h⟩
  | succ n ih =>
    intro i a b h1 h2 h e
    simp only [Py.loop] at e
    obtain ⟨a', ha, e⟩ := bind_ok e
    obtain ⟨h', e'⟩ := hI i a a' h1 (by omega) h ha
    have := ih (i + 1) a' b (by omega) (by omega) h' e
    refine ⟨?_, this.2⟩
    simp only [cloop, bind_apply, e']
    exact this.1

theorem cfor_sim {body : Nat → CM α Unit} {pbody : Nat → List (Option α) → PyM (List (Option α))} {lo hi : Nat} {I : List (Option α) → Prop}
    (hI : ∀ i a a', lo ≤ i → i < hi → I a → pbody i a = .ok a' → I a' ∧ body i ⟨a, false⟩ = ((), ⟨a', false⟩))
    {a b : List (Option α)} (h : I a) (e : forRange lo hi a pbody = .ok b) :
    cfor lo hi body ⟨a, false⟩ = ((), ⟨b, false⟩) ∧ I b := by
  by_cases hlh : lo ≤ hi
  · exact cloop_sim hI (hi - lo) lo a b (Nat.le_refl _) (by omega) h e
  · unfold forRange at e
    unfold cfor
    rw [show hi - lo = 0 by omega] at e ⊢
    cases e; exact ⟨rfl, h⟩

theorem swp_length {a b : List β} {i j : Nat} (h : swp a i j = .ok b) : b.length = a.length := by
  unfold swp at h
  obtain ⟨y, hy, h⟩ := bind_ok h
  obtain ⟨x, hx, h⟩ := bind_ok h
  obtain ⟨l, hl, h⟩ := bind_ok h
  unfold wr at hl h
  split at hl
  · cases hl
    split at h
    · cases h; simp
    · cases h
  · cases hl

theorem bubble_sim (t : α → α → Bool) (a b : List (Option α)) (lower upper : Nat) (hu : upper < a.length) (hl : a.length < 2 ^ 64)
    (e : Model.bubbleSort t a lower (upper + 1) = .ok b) : bubbleImpl t lower upper a.length ⟨a, false⟩ = ((), ⟨b, false⟩) := by
  unfold Model.bubbleSort bubbleSortC at e
  unfold bubbleImpl
  rw [sz_pred hl (by omega)]
  refine (cfor_sim (I := fun _ => True) (pbody := fun _ a => forRange lower (upper + 1 - 1) a fun j a => do
      let x ← rd a j
      let y ← rd a (j + 1)
      if !(pyComp t x y) then swp a j (j + 1) else .ok a) ?_ trivial e).1
  intro i a a' _ _ _ e
  refine ⟨trivial, (cfor_sim (I := fun _ => True) ?_ trivial e).1⟩
  intro j a a' _ h2 _ e
  refine ⟨trivial, ?_⟩
  obtain ⟨x, hx, e⟩ := bind_ok e
  obtain ⟨y, hy, e⟩ := bind_ok e
  simp only [sz_succ (show j + 1 < 2 ^ 64 by omega), bind_apply, getItem_ok hx, getItem_ok hy, comp_ok]
  split at e
  · rw [if_pos (by assumption)]; exact swap_ok (swp_comm e)
  · cases e; rw [if_neg (by assumption)]; rfl

theorem selectMin_sim (t : α → α → Bool) (a : List (Option α)) : ∀ n j m m',
    Py.loop (fun j jMin => do
      let x ← rd a jMin
      let y ← rd a j
      if !(pyComp t x y) then .ok j else .ok jMin) n j m = .ok m' → selectMin t n j m ⟨a, false⟩ = (m', ⟨a, false⟩) := by
  intro n
  induction n with
  | zero => intro j m m' e; cases e; rfl
  | succ n ih =>
    intro j m m' e
    simp only [Py.loop] at e
    obtain ⟨q, hq, e⟩ := bind_ok e
    obtain ⟨x, hx, hq⟩ := bind_ok hq
    obtain ⟨y, hy, hq⟩ := bind_ok hq
    simp only [selectMin, bind_apply, getItem_ok hx, getItem_ok hy, comp_ok]
    split at hq
    · cases hq; rw [if_pos (by assumption)]; exact ih _ _ _ e
    · cases hq; rw [if_neg (by assumption)]; exact ih _ _ _ e

theorem swap_self {a : List (Option α)} {i : Nat} (h : i < a.length) : Cpp.swap i i ⟨a, false⟩ = ((), ⟨a, false⟩) := by
  refine swap_ok ?_
  rw [swp_of_lt h h]
  simp

theorem selection_sim (t : α → α → Bool) (a b : List (Option α)) (lower upper : Nat) (hu : upper < a.length) (hl : a.length < 2 ^ 64)
    (e : Model.selectionSort t a lower (upper + 1) = .ok b) : selectionImpl t lower upper ⟨a, false⟩ = ((), ⟨b, false⟩) := by
  unfold Model.selectionSort selectionSortC at e
  unfold selectionImpl
  rw [sz_succ (by omega)]
  refine (cfor_sim (I := fun b => b.length = a.length) ?_ rfl e).1
  intro i a' a'' _ h2 hI e
  obtain ⟨m, hm, e⟩ := bind_ok e
  rw [sz_succ (by omega)]
  simp only [bind_apply, selectMin_sim t a' _ _ _ _ hm]
  split at e
  · exact ⟨by rw [swp_length e, hI], swap_ok (swp_comm e)⟩
  · rename_i hne
    cases e
    have : m = i := by simpa using hne
    subst this
    exact ⟨hI, swap_self (by omega)⟩

theorem wr_length {a b : List β} {i : Nat} {x : β} (h : wr a i x = .ok b) : b.length = a.length := by
  unfold wr at h
  split at h
  · cases h; simp
  · cases h

theorem insertShift_sim (t : α → α → Bool) (lower : Nat) (temp : Option α) : ∀ j n a a' j',
    shiftDown (pyComp t) lower 1 temp n a j = .ok (a', j') → insertShift t lower (some temp) j ⟨a, false⟩ = (j', ⟨a', false⟩) ∧ a'.length = a.length := by
  intro j
  induction j with
  | zero =>
    intro n a a' j' e
    cases n with
    | zero => cases e
    | succ n =>
      simp only [shiftDown] at e
      rw [if_neg (by omega)] at e
      cases e; exact ⟨rfl, rfl⟩
  | succ j ih =>
    intro n a a' j' e
    cases n with
    | zero => cases e
    | succ n =>
      simp only [shiftDown] at e
      simp only [insertShift]
      split at e
      · obtain ⟨x, hx, e⟩ := bind_ok e
        rw [Nat.add_sub_cancel] at hx e
        rw [if_pos (by omega)]
        simp only [bind_apply, getItem_ok hx, comp_ok]
        split at e
        · obtain ⟨b, hb, e⟩ := bind_ok e
          obtain ⟨h1, h2⟩ := ih n b a' j' e
          rw [if_pos (by assumption)]
          simp only [bind_apply, getItem_ok hx, setItem_ok hb]
          exact ⟨h1, by rw [h2, wr_length hb]⟩
        · cases e
          rw [if_neg (by assumption)]
          exact ⟨rfl, rfl⟩
      · cases e
        rw [if_neg (by omega)]
        exact ⟨rfl, rfl⟩

theorem insertion_sim (t : α → α → Bool) (a b : List (Option α)) (lower upper : Nat) (hu : upper < a.length) (hlu : lower + 1 < 2 ^ 64)
    (hl : a.length < 2 ^ 64)
    (e : Model.insertionSort t a lower (upper + 1) = .ok b) : insertionImpl t lower upper ⟨a, false⟩ = ((), ⟨b, false⟩) := by
  unfold Model.insertionSort insertionSortC at e
  unfold insertionImpl
  rw [sz_succ (show upper + 1 < _ by omega), sz_succ (show lower + 1 < _ by omega)]
  refine (cfor_sim (I := fun _ => True) ?_ trivial e).1
  intro i a' a'' _ h2 hI e
  obtain ⟨temp, ht, e⟩ := bind_ok e
  obtain ⟨⟨b, j⟩, hj, e⟩ := bind_ok e
  simp only [bind_apply, getItem_ok ht, (insertShift_sim t lower temp _ _ _ _ _ hj).1]
  exact ⟨trivial, setItem_ok e⟩

/-! ## quick sort -/

theorem partLoop_sim (t : α → α → Bool) (x : Option α) : ∀ n j k a a' k',
    Py.loop (fun j (s : List (Option α) × Nat) => do
      let y ← rd s.1 j
      if pyComp t y x = true then
        let a ← swp s.1 s.2 j
        .ok (a, s.2 + 1)
      else .ok (s.1, s.2)) n j (a, k) = .ok (a', k') → partLoop t (some x) n j k ⟨a, false⟩ = (k', ⟨a', false⟩) := by
  intro n
  induction n with
  | zero => intro j k a a' k' e; cases e; rfl
  | succ n ih =>
    intro j k a a' k' e
    simp only [Py.loop] at e
    obtain ⟨⟨b, m⟩, hq, e⟩ := bind_ok e
    obtain ⟨y, hy, hq⟩ := bind_ok hq
    simp only [partLoop, bind_apply, getItem_ok hy, comp_ok]
    split at hq
    · obtain ⟨c, hc, hq⟩ := bind_ok hq
      cases hq
      rw [if_pos (by assumption)]
      simp only [bind_apply, swap_ok hc]
      exact ih _ _ _ _ _ e
    · cases hq; rw [if_neg (by assumption)]; exact ih _ _ _ _ _ e

theorem partition_sim (t : α → α → Bool) (low high : Nat) (a a' : List (Option α)) (p : Nat)
    (e : qsPartition (pyComp t) lastCell low high a = .ok (a', p)) : quickPartition t low high ⟨a, false⟩ = (p, ⟨a', false⟩) := by
  unfold qsPartition at e
  obtain ⟨x, hx, e⟩ := bind_ok e
  obtain ⟨⟨b, k⟩, hk, e⟩ := bind_ok e
  obtain ⟨c, hc, e⟩ := bind_ok e
  cases e
  have hx' : rd a high = .ok x := hx
  have hk' := partLoop_sim t x _ _ _ _ _ _ hk
  simp only [quickPartition, bind_apply, getItem_ok hx', hk', swap_ok hc, pure_apply]

/-- With a pending exception, or with a pivot position outside the array, nothing moves and the split point is the lower end. -/
theorem partLoop_err (t : α → α → Bool) : ∀ n j k (s : St α), s.err = true → partLoop t none n j k s = (k, s) := by
  intro n
  induction n with
  | zero => intro j k s _; rfl
  | succ n ih =>
    intro j k s h
    have hs : { s with err := true } = s := by cases s; cases h; rfl
    simp only [partLoop, bind_apply, getItem_err h, comp, hs]
    exact ih _ _ _ h

theorem partition_err (t : α → α → Bool) (low high : Nat) (s : St α) (h : s.err = true ∨ s.cells.length ≤ high) :
    (quickPartition t low high s).1 = low ∧ (quickPartition t low high s).2.cells = s.cells ∧ (quickPartition t low high s).2.err = true := by
  have hg : ∃ s', getItem high s = (none, s') ∧ s'.err = true ∧ s'.cells = s.cells := by
    unfold getItem
    by_cases he : s.err = true
    · exact ⟨s, by simp [he], he, rfl⟩
    · have : s.cells[high]? = none := List.getElem?_eq_none (by rcases h with h | h; exact absurd h he; exact h)
      exact ⟨{ s with err := true }, by simp [he, this], rfl, rfl⟩
  obtain ⟨s', e, he, hc⟩ := hg
  have hs : { s' with err := true } = s' := by cases s'; cases he; rfl
  simp only [quickPartition, bind_apply, e, partLoop_err t _ _ _ _ he, Cpp.swap, getItem_err he, setItem, pure_apply, hs]
  exact ⟨trivial, hc, he⟩

end Model.Cpp
