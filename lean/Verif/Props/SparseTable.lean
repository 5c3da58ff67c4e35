import Verif.Model.RangeQuery
import Verif.Props.Matrix
import Verif.Lemmas.Py

/-! # C45: the sparse table; the vocabulary of range queries -/
namespace Props
open Py Model
variable {α : Type}

/-! ## Specification -/

/-- The fold of a list: `x₁ op x₂ op … op xₙ` (nothing for the empty list). -/
def foldOf (op : α → α → α) : List α → Option α
  | [] => none
  | x :: xs => some (xs.foldl op x)

/-- The `n` elements of the array from position `s` on. -/
def slice (a : List α) (s n : Nat) : List α := (a.drop s).take n

/-- `func` computes with the associative operation `op` and treats `None` as "nothing". -/
structure IsFold (f : QFunc α) (op : α → α → α) : Prop where
  assoc : ∀ x y z, op (op x y) z = op x (op y z)
  one : ∀ x, f.one (some x) = some x
  noneLeft : ∀ y, f.two none y = y
  noneRight : ∀ x, f.two x none = x
  both : ∀ x y, f.two (some x) (some y) = some (op x y)

theorem qfuncOf_isFold {op : α → α → α} (h : ∀ x y z, op (op x y) z = op x (op y z)) : IsFold (qfuncOf op) op :=
  ⟨h, fun _ => rfl, fun y => by cases y <;> rfl, fun x => by cases x <;> rfl, fun _ _ => rfl⟩

/-- The three functions the library provides. -/
theorem minimum_isFold : IsFold qMinimum min := qfuncOf_isFold fun x y z => by omega
theorem summation_isFold : IsFold qSum (fun x y => x + y) := qfuncOf_isFold fun x y z => by omega
theorem gcd_isFold : IsFold qGcd (fun x y => (Int.gcd x y : Int)) := qfuncOf_isFold fun x y z => by
  rw [Int.gcd_assoc]

/-! ## Lemmas -/

theorem foldl_assoc {op : α → α → α} (h : ∀ x y z, op (op x y) z = op x (op y z)) (l : List α) (x y : α) :
    l.foldl op (op x y) = op x (l.foldl op y) := by
  induction l generalizing y with
  | nil => rfl
  | cons z l ih => simp only [List.foldl_cons]; rw [h, ih]

theorem foldOf_append {f : QFunc α} {op : α → α → α} (h : IsFold f op) (l1 l2 : List α) :
    f.two (foldOf op l1) (foldOf op l2) = foldOf op (l1 ++ l2) := by
  cases l1 with
  | nil => simp only [foldOf, List.nil_append]; rw [h.noneLeft]
  | cons x l1 =>
    cases l2 with
    | nil => simp only [foldOf, List.append_nil]; rw [h.noneRight]
    | cons y l2 =>
      simp only [foldOf, List.cons_append, h.both, List.foldl_append, List.foldl_cons]
      rw [foldl_assoc h.assoc]

theorem slice_add (a : List α) (s m k : Nat) : slice a s (m + k) = slice a s m ++ slice a (s + m) k := by
  rw [slice, slice, slice, List.take_add, List.drop_drop]

theorem slice_one (a : List α) {s : Nat} (h : s < a.length) : slice a s 1 = [a[s]] := by
  rw [slice, List.drop_eq_getElem_cons h]; rfl

theorem wr2_of_shape {β : Type} {m : List (List β)} {r c i j : Nat} (h : MatShape m r c) (hi : i < r) (hj : j < c) (v d : β) :
    ∃ m', wr2 m i j v = .ok m' ∧ MatShape m' r c ∧
      ∀ p q, (m'.getD p []).getD q d = if p = i ∧ q = j then v else (m.getD p []).getD q d := by
  obtain ⟨h1, h2⟩ := h
  subst h1
  have hl := h2 _ (List.getElem_mem hi)
  refine ⟨m.set i (m[i].set j v), ?_, ⟨by simp, ?_⟩, ?_⟩
  · rw [wr2, rd_of_lt hi, ok_bind, wr_of_lt _ (by omega), ok_bind, wr_of_lt _ hi]
  · intro row hr
    rcases List.mem_or_eq_of_mem_set hr with hr | hr
    · exact h2 _ hr
    · rw [hr, List.length_set, hl]
  · intro p q
    by_cases hp : p = i
    · subst hp
      by_cases hq : q = j
      · subst hq; simp [List.getD, hi, hl, hj]
      · have : j ≠ q := fun h => hq h.symm
        simp [List.getD, hi, hq, this]
    · have : i ≠ p := fun h => hp h.symm
      simp [List.getD, hp, this]

/-- The columns `0..J` of the table hold the folds of the blocks of length `2^j`. -/
def Cols (op : α → α → α) (a : List α) (t : List (List (Option α))) (L J : Nat) : Prop :=
  MatShape t a.length L ∧ ∀ i j, j < J → i + 2 ^ j ≤ a.length → (t.getD i []).getD j none = foldOf op (slice a i (2 ^ j))

theorem two_pow_log2_le {n : Nat} (h : n ≠ 0) : 2 ^ Nat.log2 n ≤ n := Nat.log2_self_le h

theorem stFirst_spec {f : QFunc α} {op : α → α → α} (hf : IsFold f op) (a : List α) (t : List (List (Option α))) (L : Nat) (hL : 0 < L)
    (ht : MatShape t a.length L) : ∃ t', stFirst f a t = .ok t' ∧ Cols op a t' L 1 := by
  obtain ⟨t', e, hs, hv⟩ := forRange_spec (fun k t => MatShape t a.length L ∧ ∀ i, i < k → i < a.length →
      (t.getD i []).getD 0 none = foldOf op (slice a i 1)) (lo := 0) (hi := a.length) (s := t)
    (body := fun i t => do
      let x ← rd a i
      wr2 t i 0 (f.one (some x))) (Nat.zero_le _) ⟨ht, by intro i hi; omega⟩ (by
      rintro k t _ hk ⟨hs, hv⟩
      obtain ⟨t', e, hs', hv'⟩ := wr2_of_shape hs hk hL (f.one (some a[k])) none
      refine ⟨t', by rw [rd_of_lt hk, ok_bind, e], hs', ?_⟩
      intro i hi hi2
      rw [hv']
      by_cases hik : i = k
      · subst hik
        rw [if_pos ⟨rfl, rfl⟩, hf.one, slice_one _ hi2]; rfl
      · rw [if_neg (by simp [hik])]
        exact hv i (by omega) hi2)
  refine ⟨t', e, hs, ?_⟩
  intro i j hj hi
  have : j = 0 := by omega
  subst this
  have hi' : i < a.length := by simp at hi; omega
  exact hv i hi' hi'

theorem stColumn_spec {f : QFunc α} {op : α → α → α} (hf : IsFold f op) (a : List α) (t : List (List (Option α))) (L J : Nat) (hJ : 0 < J)
    (hL : J < L ∨ a.length < 2 ^ J) (ht : Cols op a t L J) : ∃ t', stColumn f a.length J t = .ok t' ∧ Cols op a t' L (J + 1) := by
  have hpow : 2 ^ J = 2 ^ (J - 1) + 2 ^ (J - 1) := by
    obtain ⟨k, rfl⟩ : ∃ k, J = k + 1 := ⟨J - 1, by omega⟩
    rw [Nat.add_sub_cancel, Nat.pow_succ]; omega
  obtain ⟨t', e, hs, hv⟩ := forRange_spec (fun k t => Cols op a t L J ∧ ∀ i, i < k → i + 2 ^ J ≤ a.length →
      (t.getD i []).getD J none = foldOf op (slice a i (2 ^ J))) (lo := 0) (hi := a.length + 1 - 2 ^ J) (s := t)
    (body := fun i t => do
      let x ← rd2 t i (J - 1)
      let y ← rd2 t (i + 2 ^ (J - 1)) (J - 1)
      wr2 t i J (f.two x y)) (Nat.zero_le _) ⟨ht, by intro i hi; omega⟩ (by
      rintro k t _ hk ⟨⟨hs, hc⟩, hv⟩
      have hpos : 0 < 2 ^ (J - 1) := Nat.two_pow_pos _
      have hJL : J < L := by omega
      obtain ⟨t', e, hs', hv'⟩ := wr2_of_shape hs (show k < a.length by omega) hJL (foldOf op (slice a k (2 ^ J))) none
      refine ⟨t', ?_, ⟨hs', ?_⟩, ?_⟩
      · rw [rd2_of_shape hs (show k < a.length by omega) (show J - 1 < L by omega) none, ok_bind,
          rd2_of_shape hs (show k + 2 ^ (J - 1) < a.length by omega) (show J - 1 < L by omega) none, ok_bind,
          hc _ _ (by omega) (by omega), hc _ _ (by omega) (by omega), foldOf_append hf, ← slice_add, ← hpow, e]
      · intro i j hj hi
        rw [hv', if_neg (by omega)]
        exact hc i j hj hi
      · intro i hi hi2
        rw [hv']
        by_cases hik : i = k
        · subst hik; rw [if_pos ⟨rfl, rfl⟩]
        · rw [if_neg (by simp [hik])]
          exact hv i (by omega) hi2)
  refine ⟨t', e, hs.1, ?_⟩
  intro i j hj hi
  by_cases hjJ : j = J
  · subst hjJ; exact hv i (by omega) hi
  · exact hs.2 i j (by omega) hi

theorem stNew_spec {f : QFunc α} {op : α → α → α} (hf : IsFold f op) (a : List α) (ha : a ≠ []) :
    ∃ t, stNew f a = .ok t ∧ Cols op a t (Nat.log2 a.length + 1) (Nat.log2 a.length + 1) := by
  have hn : a.length ≠ 0 := by simpa using ha
  obtain ⟨t0, e0, h0⟩ := stFirst_spec hf a (List.replicate a.length (List.replicate (Nat.log2 a.length + 1) none))
    (Nat.log2 a.length + 1) (by omega) ⟨by simp, by simp +contextual⟩
  obtain ⟨t, e, h⟩ := forRange_spec (fun J t => 0 < J ∧ Cols op a t (Nat.log2 a.length + 1) J) (lo := 1)
    (hi := Nat.log2 a.length + 1 + 1) (s := t0) (body := stColumn f a.length) (by omega) ⟨by omega, h0⟩ (by
      rintro J t _ hJ ⟨hJ0, hc⟩
      obtain ⟨t', e, h⟩ := stColumn_spec hf a t _ J hJ0 (by
        by_cases hJL : J < Nat.log2 a.length + 1
        · exact Or.inl hJL
        · right
          have : J = Nat.log2 a.length + 1 := by omega
          rw [this]; exact Nat.lt_log2_self) hc
      exact ⟨t', e, by omega, h⟩)
  refine ⟨t, by rw [stNew, if_neg hn]; dsimp only; rw [e0, ok_bind, e], h.2.1, fun i j hj hi => h.2.2 i j (by omega) hi⟩

theorem stQueryLoop_spec {f : QFunc α} {op : α → α → α} (hf : IsFold f op) {a : List α} {t : List (List (Option α))} {L : Nat}
    (hL : a.length < 2 ^ L) (ht : Cols op a t L L) (start0 end_ : Nat) (he : end_ < a.length) :
    ∀ (j start : Nat), start0 ≤ start → start ≤ end_ + 1 → end_ + 1 - start < 2 ^ j →
      stQueryLoop f t end_ j start (foldOf op (slice a start0 (start - start0))) = .ok (foldOf op (slice a start0 (end_ + 1 - start0))) := by
  intro j
  induction j with
  | zero =>
    intro start h0 h1 h2
    have : start = end_ + 1 := by simp at h2; omega
    rw [stQueryLoop, this]
  | succ j ih =>
    intro start h0 h1 h2
    rw [Nat.pow_succ] at h2
    rw [stQueryLoop]
    split
    · rename_i hle
      have hjL : j < L := by
        rcases Nat.lt_or_ge j L with h | h
        · exact h
        · have := Nat.pow_le_pow_right (n := 2) (by decide) h
          omega
      have hpos : 0 < 2 ^ j := Nat.two_pow_pos _
      rw [rd2_of_shape ht.1 (show start < a.length by omega) hjL none, ok_bind, ht.2 _ _ hjL (by omega), foldOf_append hf]
      have := slice_add a start0 (start - start0) (2 ^ j)
      rw [show start0 + (start - start0) = start by omega] at this
      rw [← this]
      have := ih (start + 2 ^ j) (by omega) (by omega) (by omega)
      rw [show start + 2 ^ j - start0 = start - start0 + 2 ^ j by omega] at this
      exact this
    · exact ih start h0 h1 (by omega)

/-- C45. For every non-empty array, every associative function and every range `start..end` inside the array, the query on the built
table is the fold of the function over the range. -/
theorem C45_sparse_table {f : QFunc α} {op : α → α → α} (hf : IsFold f op) (a : List α) (ha : a ≠ []) :
    ∃ t, stNew f a = .ok t ∧ ∀ start end_, start ≤ end_ → end_ < a.length →
      stQuery f t start end_ = .ok (foldOf op (slice a start (end_ + 1 - start))) := by
  obtain ⟨t, e, ht⟩ := stNew_spec hf a ha
  refine ⟨t, e, ?_⟩
  intro start end_ h1 h2
  have := stQueryLoop_spec hf Nat.lt_log2_self ht start end_ h2 (Nat.log2 (end_ + 1 - start) + 2) start (Nat.le_refl _) (by omega)
    (Nat.lt_trans Nat.lt_log2_self (Nat.pow_lt_pow_right (by decide) (by omega)))
  rw [stQuery, if_neg (by omega)]
  simpa [slice, foldOf] using this

/-- The empty array is refused. -/
theorem C45_empty (f : QFunc α) : stNew f [] = .error .valueError := rfl

example : ∃ t, stNew qMinimum [4, 6, 1, 5, 7, 3] = .ok t ∧ stQuery qMinimum t 3 4 = .ok (some 5) ∧ stQuery qMinimum t 0 4 = .ok (some 1) :=
  ⟨_, rfl, rfl, rfl⟩

end Props
