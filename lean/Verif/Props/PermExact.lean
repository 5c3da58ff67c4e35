import Verif.Props.Perm

/-!
# C24 for ranges with repeated values: what `prev_permutation` answers
-/
namespace Props
open Py Model Spec Perm
variable {α : Type}

/-- What the shared loop does for a transitive comparison. -/
theorem util_shape (pc : α → α → Bool) (tr : ∀ x y z, pc x y = true → pc y z = true → pc x z = true) (p : List α) (fuel : Nat)
    (hf : p.length < fuel) :
    (p.Pairwise (fun x y => pc x y = true) ∧ permutationUtil pc fuel p = .ok (false, p.reverse)) ∨
    ∃ pre x s1 y s2, p = pre ++ x :: (s1 ++ y :: s2) ∧ (s1 ++ y :: s2).Pairwise (fun x y => pc x y = true) ∧
      (∀ z ∈ s1, pc x z = false) ∧ pc x y = false ∧ (∀ z ∈ s2, pc x z = true) ∧
      permutationUtil pc fuel p = .ok (true, pre ++ y :: (s1 ++ x :: s2).reverse) := by
  by_cases hlen : p.length = 0
  · have : p = [] := List.eq_nil_of_length_eq_zero hlen
    subst this
    obtain ⟨f, rfl⟩ : ∃ f, fuel = f + 1 := ⟨fuel - 1, by omega⟩
    exact .inl ⟨.nil, rfl⟩
  obtain ⟨k, ek, hk, hdesc, hpiv⟩ := descend_spec pc p (p.length - 1) (by omega)
  have hsuf' : ∀ (d i : Nat) (x y : α), k ≤ i → p[i]? = some x → p[i + d + 1]? = some y → pc x y = true := by
    intro d
    induction d with
    | zero =>
      intro i x y hi hx hy
      have hl := (List.getElem?_eq_some_iff.1 hy).1
      exact hdesc i x y hi (by omega) hx hy
    | succ d ih =>
      intro i x y hi hx hy
      have hl := (List.getElem?_eq_some_iff.1 hy).1
      have hz : p[i + d + 1]? = some p[i + d + 1] := List.getElem?_eq_getElem (by omega)
      exact tr _ _ _ (ih i x _ hi hx hz) (hdesc (i + d + 1) _ y (by omega) (by omega) hz (by rw [← hy]; rfl))
  have hsuf : (p.drop k).Pairwise (fun x y => pc x y = true) := by
    rw [List.pairwise_iff_getElem]
    intro i j hi hj hij
    simp only [List.length_drop] at hi hj
    exact hsuf' (j - i - 1) (k + i) _ _ (by omega) (by rw [List.getElem_drop, List.getElem?_eq_getElem (by omega)])
      (by rw [List.getElem_drop, show k + i + (j - i - 1) + 1 = k + j by omega, List.getElem?_eq_getElem (by omega)])
  by_cases hk0 : k = 0
  · subst hk0
    refine .inl ⟨by simpa using hsuf, ?_⟩
    have := reverse_spec fuel [] p [] hf
    simp only [List.length_nil, Nat.zero_add, List.nil_append, List.append_nil] at this
    simp only [permutationUtil, ek, ok_bind, Nat.lt_irrefl, if_false, this, decide_false]
  · right
    have hk1 : k - 1 < p.length := by omega
    have hkl : k < p.length := by omega
    have hx : p[k - 1]? = some p[k - 1] := List.getElem?_eq_getElem hk1
    have hy0 : p[k]? = some p[k] := List.getElem?_eq_getElem hkl
    have hpf := hpiv _ _ (by omega) hx hy0
    have hmono : ∀ (i j : Nat) (x y : α), k ≤ i → i < j → j < p.length → p[i]? = some x → p[j]? = some y →
        pc p[k - 1] x = true → pc p[k - 1] y = true := by
      intro i j x y h1 h2 h3 hxi hyj hp
      exact tr _ _ _ hp (hsuf' (j - i - 1) i x y h1 hxi (by rw [show i + (j - i - 1) + 1 = j by omega]; exact hyj))
    obtain ⟨r, er, r1, r2, r3, r4⟩ := bisect_spec pc p p[k - 1] k p.length (Nat.le_refl _) hmono fuel k p.length
      (by omega) (Nat.le_refl _) (by omega) (Nat.le_refl _) (by intro j x h1 h2; omega) (by intro j x h1 h2; omega)
    have hr : k < r := by
      apply Classical.byContradiction
      intro hge
      have := r4 k _ (by omega) hkl hy0
      rw [hpf] at this; cases this
    -- decompose the array around the pivot and the element to be swapped with it
    have hr1 : r - 1 < p.length := by omega
    have hdec : p = p.take (k - 1) ++ p[k - 1] :: ((p.drop k).take (r - 1 - k) ++ p[r - 1] :: p.drop r) := by
      apply List.ext_getElem?
      intro i
      have e0 : (p.take (k - 1)).length = k - 1 := by simp; omega
      have e1 : ((p.drop k).take (r - 1 - k)).length = r - 1 - k := by simp; omega
      by_cases h1 : i < k - 1
      · rw [List.getElem?_append_left (by omega), List.getElem?_take_of_lt h1]
      · rw [List.getElem?_append_right (by omega), e0]
        by_cases h2 : i = k - 1
        · subst h2; simp [hx]
        · obtain ⟨m, hm⟩ : ∃ m, i - (k - 1) = m + 1 := ⟨i - k, by omega⟩
          rw [hm, List.getElem?_cons_succ]
          by_cases h3 : m < r - 1 - k
          · rw [List.getElem?_append_left (by omega), List.getElem?_take_of_lt h3, List.getElem?_drop]
            congr 1; omega
          · rw [List.getElem?_append_right (by omega), e1]
            by_cases h4 : m = r - 1 - k
            · subst h4
              rw [Nat.sub_self, List.getElem?_cons_zero, ← List.getElem?_eq_getElem hr1]
              congr 1; omega
            · obtain ⟨n, hn⟩ : ∃ n, m - (r - 1 - k) = n + 1 := ⟨m - (r - 1 - k) - 1, by omega⟩
              rw [hn, List.getElem?_cons_succ, List.getElem?_drop]
              congr 1; omega
    generalize hpre : p.take (k - 1) = pre at hdec
    generalize hs1 : (p.drop k).take (r - 1 - k) = s1 at hdec
    generalize hs2 : p.drop r = s2 at hdec
    have lpre : pre.length = k - 1 := by rw [← hpre]; simp; omega
    have ls1 : s1.length = r - 1 - k := by rw [← hs1]; simp; omega
    have ls2 : s2.length = p.length - r := by rw [← hs2]; simp
    have hdk : p.drop k = s1 ++ p[r - 1] :: s2 := by
      conv => lhs; rw [hdec]
      rw [List.drop_append, List.drop_eq_nil_of_le (by omega), lpre, List.nil_append, show k - (k - 1) = 1 by omega]
      rfl
    rw [hdk] at hsuf
    have hgr : p[r - 1]? = some p[r - 1] := List.getElem?_eq_getElem hr1
    refine ⟨pre, p[k - 1], s1, p[r - 1], s2, hdec, hsuf, ?_, r3 (r - 1) _ (by omega) (by omega) hgr, ?_, ?_⟩
    · intro z hz
      obtain ⟨i, hi⟩ := List.mem_iff_getElem?.1 hz
      have hl := (List.getElem?_eq_some_iff.1 hi).1
      rw [← hs1, List.getElem?_take_of_lt (by omega), List.getElem?_drop] at hi
      exact r3 (k + i) z (by omega) (by omega) hi
    · intro z hz
      obtain ⟨i, hi⟩ := List.mem_iff_getElem?.1 hz
      rw [← hs2, List.getElem?_drop] at hi
      have hl := (List.getElem?_eq_some_iff.1 hi).1
      exact r4 (r + i) z (by omega) hl hi
    have esw : swp p (k - 1) (r - 1) = .ok (pre ++ [p[r - 1]] ++ (s1 ++ p[k - 1] :: s2)) := by
      have := swp_mid pre s1 s2 p[k - 1] p[r - 1] (k - 1) (r - 1) lpre.symm (by omega)
      rw [← hdec] at this
      rw [this]; simp
    have lM : (s1 ++ p[k - 1] :: s2).length = p.length - k := by
      simp [ls1, ls2]; omega
    have erev := reverse_spec fuel (pre ++ [p[r - 1]]) (s1 ++ p[k - 1] :: s2) [] (by omega)
    rw [lM] at erev
    have lA : (pre ++ [p[r - 1]]).length = k := by simp [lpre]; omega
    rw [lA, show k + (p.length - k) = p.length by omega, List.append_nil, List.append_nil] at erev
    simp only [permutationUtil, ek, ok_bind, if_pos (show 0 < k by omega), rd_of_lt hk1, er, esw, erev,
      decide_eq_true (show 0 < k by omega)]
    simp

theorem bisect_mono (pc : α → α → Bool) (p : List α) (pivot : α) : ∀ (n left stop r : Nat), permBisect pc p pivot n left stop = .ok r →
    ∀ m, n ≤ m → permBisect pc p pivot m left stop = .ok r := by
  intro n
  induction n with
  | zero => intro left stop r h; cases h
  | succ n ih =>
    intro left stop r h m hm
    obtain ⟨m, rfl⟩ : ∃ k, m = k + 1 := ⟨m - 1, by omega⟩
    rw [permBisect] at h ⊢
    split
    · rename_i hlt
      rw [if_pos hlt] at h
      dsimp only at h ⊢
      cases hr : rd p (left + (stop - 1 - left) / 2) with
      | error e => rw [hr] at h; cases h
      | ok y =>
        rw [hr, ok_bind] at h
        rw [ok_bind]
        split
        · rename_i hc; rw [if_pos hc] at h; exact ih _ _ _ h m (by omega)
        · rename_i hc; rw [if_neg hc] at h; exact ih _ _ _ h m (by omega)
    · rename_i hlt
      rw [if_neg hlt] at h
      exact h

theorem reverse_mono : ∀ (n left stop : Nat) (p r : List α), permReverse n left stop p = .ok r →
    ∀ m, n ≤ m → permReverse m left stop p = .ok r := by
  intro n
  induction n with
  | zero => intro left stop p r h; cases h
  | succ n ih =>
    intro left stop p r h m hm
    obtain ⟨m, rfl⟩ : ∃ k, m = k + 1 := ⟨m - 1, by omega⟩
    rw [permReverse] at h ⊢
    split
    · rename_i hlt
      rw [if_pos hlt] at h
      cases hr : swp p left (stop - 1) with
      | error e => rw [hr] at h; cases h
      | ok y =>
        rw [hr, ok_bind] at h
        rw [ok_bind]
        exact ih _ _ _ _ h m (by omega)
    · rename_i hlt
      rw [if_neg hlt] at h
      exact h

theorem permUtil_mono (comp : α → α → Bool) (a : List α) (start stop : Nat) :
    FuelMono (fun fuel => prevPermutation comp fuel a start stop) := by
  unfold prevPermutation permutationUtil
  dsimp only
  refine .bind (.const _) fun i => ?_
  have rev : ∀ q : List α, FuelMono (fun n => do
      let p ← permReverse n i (permSlice a start stop).length q
      .ok (decide (0 < i), p)) :=
    fun q => .bind (fun n r h m hm => reverse_mono _ _ _ _ _ h m hm) fun y => .const _
  exact .ite (.bind (.const _) fun x => .bind (fun n r h m hm => bisect_mono _ _ _ _ _ _ _ h m hm) fun y => .bind (.const _) rev)
    (.bind (.const _) rev)

theorem lex_cancel {lt : α → α → Prop} (irr : ∀ x, ¬ lt x x) : ∀ (pre : List α) {u v : List α}, List.Lex lt (pre ++ u) (pre ++ v) →
    List.Lex lt u v := by
  intro pre
  induction pre with
  | nil => intro u v h; exact h
  | cons x pre ih =>
    intro u v h
    cases h with
    | rel h => exact absurd h (irr x)
    | cons h => exact ih h

/-- `q` is the lexicographic predecessor of `p` among its permutations. -/
def LexPredecessor (lt : α → α → Prop) (p q : List α) : Prop :=
  q.Perm p ∧ List.Lex lt q p ∧ ∀ r : List α, r.Perm p → List.Lex lt r p → r = q ∨ List.Lex lt r q

/-- **C24 for every range**, repeated values or not. If the range increases strictly the answer is `(False, reversed range)`, and that is
right. Otherwise the range is `pre, x, s1, y, s2` with `s1, y, s2` its longest strictly increasing end and `y` the last element of that
end that is not greater than `x`; the answer is `(True, pre, y, reversed (s1, x, s2))`, and it is the lexicographic predecessor exactly
if `x` and `y` differ. -/
theorem C24_exact {lt : α → α → Prop} (h : StrictTotal lt) (comp : α → α → Bool) (hcomp : ∀ x y, comp x y = true ↔ lt x y)
    (a : List α) (start stop : Nat) (p : List α) (hp : p = (a.drop start).take (stop - start)) :
    (p.Pairwise lt ∧ EndsWith (fun fuel => prevPermutation comp fuel a start stop) (.ok (false, p.reverse)) ∧
      ∀ r : List α, r.Perm p → ¬ List.Lex lt r p) ∨
    ∃ pre x s1 y s2, p = pre ++ x :: (s1 ++ y :: s2) ∧ (s1 ++ y :: s2).Pairwise lt ∧
      (∀ z ∈ s1 ++ y :: s2, ¬ lt x z ↔ z ∈ s1 ++ [y]) ∧
      EndsWith (fun fuel => prevPermutation comp fuel a start stop) (.ok (true, pre ++ y :: (s1 ++ x :: s2).reverse)) ∧
      (LexPredecessor lt p (pre ++ y :: (s1 ++ x :: s2).reverse) ↔ x ≠ y) := by
  have tr : ∀ x y z, comp x y = true → comp y z = true → comp x z = true := by
    intro x y z; rw [hcomp, hcomp, hcomp]; exact h.trans x y z
  have hneg : ∀ x y, comp x y = false ↔ ¬ lt x y := by
    intro x y; rw [← hcomp]; simp
  have run : ∀ fuel, prevPermutation comp fuel a start stop = permutationUtil comp fuel p := by
    intro fuel; subst hp; rfl
  have hall : ∀ fuel, p.length < fuel → _ := fun fuel hf => util_shape comp tr p fuel hf
  rcases hall (p.length + 1) (by omega) with ⟨hs, e⟩ | ⟨pre, x, s1, y, s2, hd, hs, h1, h2, h3, e⟩
  · have hs' : p.Pairwise lt := hs.imp (fun {x y} g => (hcomp x y).1 g)
    refine .inl ⟨hs', ?_, ?_⟩
    · refine FuelMono.endsWith (permUtil_mono comp a start stop) (n := p.length + 1) ?_
      exact (run _).trans e
    · intro r hr hl
      rw [← C24_lex_flip p r hr.length_eq.symm] at hl
      exact lex_greatest h.flip p r (hs'.imp (fun {x y} g g' => h.irrefl x (h.trans x y x g g'))) hr hl
  · right
    have hs' : (s1 ++ y :: s2).Pairwise lt := hs.imp (fun {x y} g => (hcomp x y).1 g)
    refine ⟨pre, x, s1, y, s2, hd, hs', ?_, ?_, ?_⟩
    · intro z hz
      rw [← hneg]
      simp only [List.mem_append, List.mem_cons, List.not_mem_nil, or_false] at hz ⊢
      constructor
      · intro hn
        rcases hz with hz | hz | hz
        · exact .inl hz
        · exact .inr hz
        · rw [h3 z hz] at hn; cases hn
      · rintro (hz | rfl)
        · exact h1 z hz
        · exact h2
    · refine FuelMono.endsWith (permUtil_mono comp a start stop) (n := p.length + 1) ?_
      exact (run _).trans e
    · constructor
      · rintro ⟨-, hl, -⟩ rfl
        -- the predecessor would be `pre, x, reversed (s1, x, s2)`, which is not smaller than `pre, x, s1, x, s2`
        have hl' : List.Lex lt ((x :: (s1 ++ x :: s2).reverse)) (x :: (s1 ++ x :: s2)) := lex_cancel h.irrefl pre (hd ▸ hl)
        have hl2 := lex_cancel h.irrefl [x] hl'
        refine lex_greatest h.flip (s1 ++ x :: s2) (s1 ++ x :: s2).reverse
          (hs'.imp (fun {x y} g g' => h.irrefl x (h.trans x y x g g'))) (List.reverse_perm _) ?_
        exact (C24_lex_flip (s1 ++ x :: s2) (s1 ++ x :: s2).reverse (List.length_reverse).symm).2 hl2
      · intro hne
        have hyx : lt y x := by
          have h4 := (hneg x y).1 h2
          rcases h.tri x y with g | g | g
          · exact absurd g h4
          · exact absurd g hne
          · exact g
        obtain ⟨q1, q2, q3⟩ := successor h.flip pre s1 s2 x y
          (hs'.imp (fun {x y} g g' => h.irrefl x (h.trans x y x g g'))) hyx
          (fun z hz g => h.irrefl x (h.trans _ _ _ ((hcomp _ _).1 (h3 z hz)) g))
        rw [← hd] at q1 q2 q3
        refine ⟨q1, (C24_lex_flip _ _ q1.length_eq.symm).1 q2, ?_⟩
        intro r hr hl
        rcases q3 r hr ((C24_lex_flip _ _ hr.length_eq.symm).2 hl) with g | g
        · exact .inl g.symm
        · exact .inr ((C24_lex_flip _ _ (by rw [q1.length_eq, hr.length_eq])).1 g)

-- `[3, 1, 4, 1, 5]`: the end `1, 5` with `4` before it; the answer is right although 1 occurs twice.
example : prevPermutation (fun x y : Int => decide (x < y)) 10 [3, 1, 4, 1, 5] 0 5 = .ok (true, [3, 1, 1, 5, 4]) ∧
    [3, 1, 4, 1, 5] = [3, 1] ++ (4 : Int) :: ([] ++ 1 :: [5]) ∧ (4 : Int) ≠ 1 := by decide
-- `[2, 2, 3]` is the least permutation, but the answer is its successor `[2, 3, 2]`: `x = y = 2`.
example : prevPermutation (fun x y : Int => decide (x < y)) 10 [2, 2, 3] 0 3 = .ok (true, [2, 3, 2]) := by decide

end Props
