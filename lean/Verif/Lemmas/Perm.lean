import Verif.Spec
import Verif.Model.Dp
import Verif.Lemmas.Py

namespace Perm
open Py Model Spec
variable {α : Type}

variable {lt : α → α → Prop}

theorem _root_.Spec.StrictTotal.flip (h : StrictTotal lt) : StrictTotal (fun a b => lt b a) :=
  ⟨h.irrefl, fun a b c h1 h2 => h.trans c b a h2 h1, fun a b => by have := h.tri a b; grind⟩

theorem _root_.Spec.StrictTotal.nlt_trans (h : StrictTotal lt) {a b c : α} (h1 : ¬ lt a b) (h2 : ¬ lt b c) : ¬ lt a c := by
  intro h3
  rcases h.tri a b with h4 | rfl | h4
  · exact h1 h4
  · exact h2 h3
  · exact h2 (h.trans _ _ _ h4 h3)

theorem lex_append (pre : List α) {a b : List α} (h : List.Lex lt a b) : List.Lex lt (pre ++ a) (pre ++ b) := by
  induction pre with
  | nil => exact h
  | cons x pre ih => exact .cons ih

/-- A non-decreasing list is lexicographically least among its permutations. -/
theorem lex_least (h : StrictTotal lt) : ∀ (l r : List α), l.Pairwise (fun a b => ¬ lt b a) → r.Perm l →
    l = r ∨ List.Lex lt l r := by
  intro l
  induction l with
  | nil => intro r _ hp; left; exact (List.Perm.eq_nil hp).symm
  | cons x l ih =>
    intro r hs hp
    rw [List.pairwise_cons] at hs
    cases r with
    | nil => exact absurd hp.length_eq (by simp)
    | cons z r =>
      have hz : z ∈ x :: l := hp.mem_iff.1 (List.mem_cons_self ..)
      have hn : ¬ lt z x := by
        rcases List.mem_cons.1 hz with rfl | hz
        · exact h.irrefl _
        · exact hs.1 z hz
      rcases h.tri x z with h1 | rfl | h1
      · exact .inr (.rel h1)
      · rcases ih r hs.2 hp.cons_inv with rfl | h2
        · exact .inl rfl
        · exact .inr (.cons h2)
      · exact absurd h1 hn

/-- A non-increasing list is lexicographically greatest among its permutations. -/
theorem lex_greatest (h : StrictTotal lt) : ∀ (l r : List α), l.Pairwise (fun a b => ¬ lt a b) → r.Perm l →
    ¬ List.Lex lt l r := by
  intro l
  induction l with
  | nil => intro r _ hp hl; rw [List.Perm.eq_nil hp] at hl; cases hl
  | cons x l ih =>
    intro r hs hp hl
    rw [List.pairwise_cons] at hs
    cases hl with
    | rel h1 =>
      rename_i z r
      have hz := hp.mem_iff.1 (List.mem_cons_self ..)
      rcases List.mem_cons.1 hz with rfl | hz
      · exact h.irrefl _ h1
      · exact hs.1 z hz h1
    | cons h2 => exact ih _ hs.2 hp.cons_inv h2

/-- Replacing the pivot by the least greater element of the non-increasing suffix and sorting the rest gives the
successor. -/
theorem successor (h : StrictTotal lt) (pre s1 s2 : List α) (x y : α) (hs : (s1 ++ y :: s2).Pairwise (fun a b => ¬ lt a b))
    (hy : lt x y) (hs2 : ∀ z, z ∈ s2 → ¬ lt x z) :
    let q := pre ++ y :: (s1 ++ x :: s2).reverse
    let p := pre ++ x :: (s1 ++ y :: s2)
    q.Perm p ∧ List.Lex lt p q ∧ ∀ r : List α, r.Perm p → List.Lex lt p r → q = r ∨ List.Lex lt q r := by
  refine ⟨?_, ?_, ?_⟩
  · refine List.Perm.append_left _ ?_
    have h1 : (y :: (s1 ++ x :: s2).reverse).Perm (y :: x :: (s1 ++ s2)) :=
      List.Perm.cons _ ((List.reverse_perm _).trans List.perm_middle)
    exact h1.trans ((List.Perm.swap _ _ _).trans (List.Perm.cons _ List.perm_middle.symm))
  · exact lex_append _ (.rel hy)
  · intro r hp hl
    induction pre generalizing r with
    | cons a pre ih =>
      cases hl with
      | rel h1 => exact .inr (.rel h1)
      | cons h2 =>
        rcases ih _ hp.cons_inv h2 with h3 | h3
        · left; rw [List.cons_append, h3]
        · exact .inr (.cons h3)
    | nil =>
      rw [List.pairwise_append, List.pairwise_cons] at hs
      obtain ⟨hs1, ⟨hys, hs22⟩, hs12⟩ := hs
      have hgt : ∀ z, z ∈ s1 → lt x z := by
        intro z hz
        have := hs12 z hz y (List.mem_cons_self ..)
        rcases h.tri x z with h1 | rfl | h1
        · exact h1
        · exact absurd hy this
        · exact absurd (h.trans _ _ _ h1 hy) this
      cases hl with
      | cons h2 =>
        exact absurd h2 (lex_greatest h _ _ (by
          rw [List.pairwise_append, List.pairwise_cons]; exact ⟨hs1, ⟨hys, hs22⟩, hs12⟩) hp.cons_inv)
      | rel h1 =>
        rename_i z r
        have hz := hp.mem_iff.1 (List.mem_cons_self ..)
        simp only [List.nil_append, List.mem_cons, List.mem_append] at hz
        have key : z = y ∨ lt y z := by
          rcases hz with rfl | hz | rfl | hz
          · exact absurd h1 (h.irrefl _)
          · have := hs12 z hz y (List.mem_cons_self ..)
            rcases h.tri y z with h3 | rfl | h3
            · exact .inr h3
            · exact .inl rfl
            · exact absurd h3 this
          · exact .inl rfl
          · exact absurd h1 (hs2 z hz)
        rcases key with rfl | key
        · have hp2 : r.Perm ((s1 ++ x :: s2).reverse) := by
            have : (z :: r).Perm (z :: (s1 ++ x :: s2)) := by
              refine hp.trans ?_
              simp only [List.nil_append]
              have h1 : (x :: (s1 ++ z :: s2)).Perm (x :: z :: (s1 ++ s2)) := List.Perm.cons _ List.perm_middle
              exact h1.trans ((List.Perm.swap _ _ _).trans (List.Perm.cons _ List.perm_middle.symm))
            exact this.cons_inv.trans (List.reverse_perm _).symm
          have hsort : ((s1 ++ x :: s2).reverse).Pairwise (fun a b => ¬ lt b a) := by
            rw [List.pairwise_reverse, List.pairwise_append, List.pairwise_cons]
            refine ⟨hs1, ⟨hs2, hs22⟩, ?_⟩
            intro a ha b hb
            rcases List.mem_cons.1 hb with rfl | hb
            · intro h4; exact h.irrefl _ (h.trans _ _ _ h4 (hgt a ha))
            · exact hs12 a ha b (List.mem_cons_of_mem _ hb)
          rcases lex_least h _ _ hsort hp2 with h3 | h3
          · left; simp only [List.nil_append, h3]
          · right; exact .cons h3
        · right; exact .rel key

/-! ## The loops -/

theorem swp_mid (A M B : List α) (x y : α) (i j : Nat) (hi : i = A.length) (hj : j = A.length + M.length + 1) :
    swp (A ++ x :: (M ++ y :: B)) i j = .ok (A ++ y :: (M ++ x :: B)) := by
  subst hi hj
  have h1 : (A ++ x :: (M ++ y :: B))[A.length]? = some x := by simp
  have h2 : (A ++ x :: (M ++ y :: B))[A.length + M.length + 1]? = some y := by
    rw [List.getElem?_append_right (by omega), show A.length + M.length + 1 - A.length = M.length + 1 by omega,
      List.getElem?_cons_succ, List.getElem?_append_right (by omega), Nat.sub_self, List.getElem?_cons_zero]
  rw [swp, rd_of_some h2, ok_bind, rd_of_some h1, ok_bind, wr_of_lt _ (by simp), ok_bind, wr_of_lt _ (by simp; omega),
    List.set_append_right _ _ (by omega), Nat.sub_self, List.set_cons_zero,
    List.set_append_right _ _ (by omega), show A.length + M.length + 1 - A.length = M.length + 1 by omega,
    List.set_cons_succ, List.set_append_right _ _ (by omega), Nat.sub_self, List.set_cons_zero]

theorem reverse_spec : ∀ (fuel : Nat) (A M B : List α), M.length < fuel →
    permReverse fuel A.length (A.length + M.length) (A ++ M ++ B) = .ok (A ++ M.reverse ++ B) := by
  intro fuel
  induction fuel with
  | zero => intro A M B h; omega
  | succ fuel ih =>
    intro A M B h
    rw [permReverse]
    split
    · rename_i hl
      cases M with
      | nil => simp at hl; omega
      | cons m M =>
        rcases List.eq_nil_or_concat M with rfl | ⟨M, n, rfl⟩
        · simp at hl
        · rw [List.concat_eq_append] at h ⊢
          have e := swp_mid A M B m n A.length (A.length + (m :: (M ++ [n])).length - 1) rfl (by simp; omega)
          rw [show A ++ (m :: (M ++ [n])) ++ B = A ++ m :: (M ++ n :: B) by simp, e, ok_bind]
          have := ih (A ++ [n]) M (m :: B) (by simp at h; omega)
          rw [show (A ++ [n]).length = A.length + 1 by simp] at this
          rw [show A.length + (m :: (M ++ [n])).length - 1 = A.length + 1 + M.length by simp; omega,
            show A ++ n :: (M ++ m :: B) = A ++ [n] ++ M ++ (m :: B) by simp, this]
          simp
    · rename_i hl
      have : M.reverse = M := by
        match M, hl with
        | [], _ => rfl
        | [m], _ => rfl
        | _ :: _ :: _, hl => simp at hl
      rw [this]

theorem descend_spec (pc : α → α → Bool) (p : List α) : ∀ (i : Nat), i < p.length →
    ∃ k, permDescend pc p i = .ok k ∧ k ≤ i ∧
      (∀ j x y, k ≤ j → j < i → p[j]? = some x → p[j + 1]? = some y → pc x y = true) ∧
      (∀ x y, 0 < k → p[k - 1]? = some x → p[k]? = some y → pc x y = false) := by
  intro i
  induction i with
  | zero => intro _; exact ⟨0, rfl, by omega, by intro j x y h1 h2; omega, by intro x y h; omega⟩
  | succ i ih =>
    intro hi
    simp only [permDescend, rd_of_lt (show i < p.length by omega), rd_of_lt hi, ok_bind]
    split
    · rename_i hpc
      obtain ⟨k, e, h1, h2, h3⟩ := ih (by omega)
      refine ⟨k, e, by omega, ?_, h3⟩
      intro j x y g1 g2 hx hy
      by_cases hj : j = i
      · subst hj
        rw [List.getElem?_eq_getElem (by omega)] at hx hy
        cases hx; cases hy; exact hpc
      · exact h2 j x y g1 (by omega) hx hy
    · rename_i hpc
      refine ⟨i + 1, rfl, by omega, by intro j x y h1 h2; omega, ?_⟩
      intro x y _ hx hy
      simp only [Nat.add_sub_cancel] at hx
      rw [List.getElem?_eq_getElem (by omega)] at hx hy
      cases hx; cases hy
      simpa using hpc

/-- The bisection finds the end of the prefix (of the range) on which `pc pivot` is false. -/
theorem bisect_spec (pc : α → α → Bool) (p : List α) (pivot : α) (lo hi : Nat) (hh : hi ≤ p.length)
    (hmono : ∀ i j x y, lo ≤ i → i < j → j < hi → p[i]? = some x → p[j]? = some y → pc pivot x = true → pc pivot y = true) :
    ∀ (fuel left stop : Nat), stop - left < fuel → lo ≤ left → left ≤ stop → stop ≤ hi →
      (∀ j x, lo ≤ j → j < left → p[j]? = some x → pc pivot x = false) →
      (∀ j x, stop ≤ j → j < hi → p[j]? = some x → pc pivot x = true) →
      ∃ r, permBisect pc p pivot fuel left stop = .ok r ∧ lo ≤ r ∧ r ≤ hi ∧
        (∀ j x, lo ≤ j → j < r → p[j]? = some x → pc pivot x = false) ∧
        (∀ j x, r ≤ j → j < hi → p[j]? = some x → pc pivot x = true) := by
  intro fuel
  induction fuel with
  | zero => intro l s h; omega
  | succ fuel ih =>
    intro left stop hf h1 h2 h3 h4 h5
    rw [permBisect]
    split
    · rename_i hlt
      have hm : left + (stop - 1 - left) / 2 < p.length := by omega
      simp only [rd_of_lt hm, ok_bind]
      generalize hmid : left + (stop - 1 - left) / 2 = mid at *
      have hg : p[mid]? = some p[mid] := List.getElem?_eq_getElem hm
      split
      · rename_i hp
        refine ih (mid + 1) stop (by omega) (by omega) (by omega) h3 ?_ h5
        intro j x g1 g2 hx
        by_cases hj : j = mid
        · subst hj; rw [hg] at hx; cases hx; simpa using hp
        · cases hc : pc pivot x with
          | false => rfl
          | true =>
            have := hmono j mid x _ g1 (by omega) (by omega) hx hg hc
            simp [this] at hp
      · rename_i hp
        refine ih left mid (by omega) h1 (by omega) (by omega) h4 ?_
        intro j x g1 g2 hx
        by_cases hj : j = mid
        · subst hj; rw [hg] at hx; cases hx; simpa using hp
        · exact hmono mid j _ x (by omega) (by omega) g2 hg hx (by simpa using hp)
    · exact ⟨left, rfl, h1, by omega, h4, fun j x g1 g2 => h5 j x (by omega) g2⟩

/-- The whole of `_permutation_util`: given that `pc` is the negation of `lt` on the pairs it may be asked about, it
computes the lexicographic successor. -/
theorem util_spec (h : StrictTotal lt) (pc : α → α → Bool) (p : List α)
    (hpc : p.Pairwise (fun x y => pc x y = true ↔ ¬ lt x y)) (fuel : Nat) (hf : p.length < fuel) :
    ∃ b q, permutationUtil pc fuel p = .ok (b, q) ∧ q.Perm p ∧
      (b = true → List.Lex lt p q ∧ ∀ r : List α, r.Perm p → List.Lex lt p r → q = r ∨ List.Lex lt q r) ∧
      (b = false → (∀ r : List α, r.Perm p → ¬ List.Lex lt p r) ∧ q.Pairwise (fun a b => ¬ lt b a)) := by
  have hpc' : ∀ (i j : Nat) (x y : α), i < j → p[i]? = some x → p[j]? = some y → (pc x y = true ↔ ¬ lt x y) := by
    intro i j x y (hij : i < j) hx hy
    obtain ⟨h1, rfl⟩ := List.getElem?_eq_some_iff.1 hx
    obtain ⟨h2, rfl⟩ := List.getElem?_eq_some_iff.1 hy
    exact List.pairwise_iff_getElem.1 hpc i j _ _ hij
  by_cases hlen : p.length = 0
  · have : p = [] := List.eq_nil_of_length_eq_zero hlen
    subst this
    refine ⟨false, [], ?_, .refl _, by simp, fun _ => ⟨?_, by simp⟩⟩
    · obtain ⟨f, rfl⟩ : ∃ f, fuel = f + 1 := ⟨fuel - 1, by omega⟩
      rfl
    · intro r hr hl; rw [List.Perm.eq_nil hr] at hl; cases hl
  obtain ⟨k, ek, hk, hdesc, hpiv⟩ := descend_spec pc p (p.length - 1) (by omega)
  -- the suffix from `k` on is non-increasing
  have hsuf' : ∀ (d i : Nat) (x y : α), k ≤ i → p[i]? = some x → p[i + d]? = some y → ¬ lt x y := by
    intro d
    induction d with
    | zero => intro i x y _ hx hy; rw [Nat.add_zero, hx] at hy; cases hy; exact h.irrefl _
    | succ d ih =>
      intro i x y hi hx hy
      have hl := (List.getElem?_eq_some_iff.1 hy).1
      have hz : p[i + d]? = some p[i + d] := List.getElem?_eq_getElem (by omega)
      have h1 := ih i x _ hi hx hz
      have h2 := hdesc (i + d) _ y (by omega) (by omega) hz (by rw [← hy]; rfl)
      rw [hpc' (i + d) (i + d + 1) _ y (by omega) hz (by rw [← hy]; rfl)] at h2
      exact h.nlt_trans h1 h2
  have hsuf : (p.drop k).Pairwise (fun a b => ¬ lt a b) := by
    rw [List.pairwise_iff_getElem]
    intro i j hi hj hij
    simp only [List.length_drop] at hi hj
    exact hsuf' (j - i) (k + i) _ _ (by omega) (by rw [List.getElem_drop, List.getElem?_eq_getElem (by omega)])
      (by rw [List.getElem_drop, show k + i + (j - i) = k + j by omega, List.getElem?_eq_getElem (by omega)])
  by_cases hk0 : k = 0
  · subst hk0
    refine ⟨false, p.reverse, ?_, List.reverse_perm _, by simp, fun _ => ⟨?_, ?_⟩⟩
    · have := reverse_spec fuel [] p [] hf
      simp only [List.length_nil, Nat.zero_add, List.nil_append, List.append_nil] at this
      simp only [permutationUtil, ek, ok_bind, Nat.lt_irrefl, if_false, this, decide_false]
    · intro r hr; exact lex_greatest h _ _ (by simpa using hsuf) hr
    · rw [List.pairwise_reverse]; simpa using hsuf
  · have hk1 : k - 1 < p.length := by omega
    have hkl : k < p.length := by omega
    have hx : p[k - 1]? = some p[k - 1] := List.getElem?_eq_getElem hk1
    have hy0 : p[k]? = some p[k] := List.getElem?_eq_getElem hkl
    have hpf := hpiv _ _ (by omega) hx hy0
    have hmono : ∀ (i j : Nat) (x y : α), k ≤ i → i < j → j < p.length → p[i]? = some x → p[j]? = some y →
        pc p[k - 1] x = true → pc p[k - 1] y = true := by
      intro i j x y h1 h2 h3 hxi hyj hp
      rw [hpc' (k - 1) i _ x (by omega) hx hxi] at hp
      rw [hpc' (k - 1) j _ y (by omega) hx hyj]
      exact h.nlt_trans hp (hsuf' (j - i) i x y h1 hxi (by rw [show i + (j - i) = j by omega]; exact hyj))
    obtain ⟨r, er, r1, r2, r3, r4⟩ := bisect_spec pc p p[k - 1] k p.length (Nat.le_refl _) hmono fuel k p.length
      (by omega) (Nat.le_refl _) (by omega) (Nat.le_refl _) (by intro j x h1 h2; omega) (by intro j x h1 h2; omega)
    have hr : k < r := by
      apply Classical.byContradiction
      intro hge
      have := r4 k _ (by omega) hkl hy0
      rw [hpf] at this; cases this
    -- decompose the array around the pivot and the element to be swapped with it
    have hr1 : r - 1 < p.length := by omega
    have hdec : p = p.take (k - 1) ++ p[k - 1] :: ((p.drop k).take (r - 1 - k) ++ p[r - 1] :: p.drop r) := by
      apply List.ext_getElem?
      intro i
      have e0 : (p.take (k - 1)).length = k - 1 := by simp; omega
      have e1 : ((p.drop k).take (r - 1 - k)).length = r - 1 - k := by simp; omega
      by_cases h1 : i < k - 1
      · rw [List.getElem?_append_left (by omega), List.getElem?_take_of_lt h1]
      · rw [List.getElem?_append_right (by omega), e0]
        by_cases h2 : i = k - 1
        · subst h2; simp [hx]
        · obtain ⟨m, hm⟩ : ∃ m, i - (k - 1) = m + 1 := ⟨i - k, by omega⟩
          rw [hm, List.getElem?_cons_succ]
          by_cases h3 : m < r - 1 - k
          · rw [List.getElem?_append_left (by omega), List.getElem?_take_of_lt h3, List.getElem?_drop]
            congr 1; omega
          · rw [List.getElem?_append_right (by omega), e1]
            by_cases h4 : m = r - 1 - k
            · subst h4
              rw [Nat.sub_self, List.getElem?_cons_zero, ← List.getElem?_eq_getElem hr1]
              congr 1; omega
            · obtain ⟨n, hn⟩ : ∃ n, m - (r - 1 - k) = n + 1 := ⟨m - (r - 1 - k) - 1, by omega⟩
              rw [hn, List.getElem?_cons_succ, List.getElem?_drop]
              congr 1; omega
    generalize hpre : p.take (k - 1) = pre at hdec
    generalize hs1 : (p.drop k).take (r - 1 - k) = s1 at hdec
    generalize hs2 : p.drop r = s2 at hdec
    have lpre : pre.length = k - 1 := by rw [← hpre]; simp; omega
    have ls1 : s1.length = r - 1 - k := by rw [← hs1]; simp; omega
    have ls2 : s2.length = p.length - r := by rw [← hs2]; simp
    have hdk : p.drop k = s1 ++ p[r - 1] :: s2 := by
      conv => lhs; rw [hdec]
      rw [List.drop_append, List.drop_eq_nil_of_le (by omega), lpre, List.nil_append, show k - (k - 1) = 1 by omega]
      rfl
    rw [hdk] at hsuf
    have hlt : lt p[k - 1] p[r - 1] := by
      have hg : p[r - 1]? = some p[r - 1] := List.getElem?_eq_getElem hr1
      have h1 := r3 (r - 1) _ (by omega) (by omega) hg
      have h2 := hpc' (k - 1) (r - 1) _ _ (by omega) hx hg
      apply Classical.byContradiction
      intro h3
      rw [h2.2 h3] at h1; cases h1
    have hle : ∀ z, z ∈ s2 → ¬ lt p[k - 1] z := by
      intro z hz
      obtain ⟨i, hi⟩ := List.mem_iff_getElem?.1 hz
      rw [← hs2, List.getElem?_drop] at hi
      have hl := (List.getElem?_eq_some_iff.1 hi).1
      have h1 := r4 (r + i) z (by omega) hl hi
      rwa [hpc' (k - 1) (r + i) _ _ (by omega) hx hi] at h1
    obtain ⟨s1', s2', s3'⟩ := successor h pre s1 s2 p[k - 1] p[r - 1] hsuf hlt hle
    rw [← hdec] at s1' s2' s3'
    refine ⟨true, pre ++ p[r - 1] :: (s1 ++ p[k - 1] :: s2).reverse, ?_, s1', fun _ => ⟨s2', s3'⟩, by simp⟩
    have esw : swp p (k - 1) (r - 1) = .ok (pre ++ [p[r - 1]] ++ (s1 ++ p[k - 1] :: s2)) := by
      have := swp_mid pre s1 s2 p[k - 1] p[r - 1] (k - 1) (r - 1) lpre.symm (by omega)
      rw [← hdec] at this
      rw [this]; simp
    have lM : (s1 ++ p[k - 1] :: s2).length = p.length - k := by
      simp [ls1, ls2]; omega
    have erev := reverse_spec fuel (pre ++ [p[r - 1]]) (s1 ++ p[k - 1] :: s2) [] (by omega)
    rw [lM] at erev
    have lA : (pre ++ [p[r - 1]]).length = k := by simp [lpre]; omega
    rw [lA, show k + (p.length - k) = p.length by omega, List.append_nil, List.append_nil] at erev
    simp only [permutationUtil, ek, ok_bind, if_pos (show 0 < k by omega), rd_of_lt hk1, er, esw, erev,
      decide_eq_true (show 0 < k by omega)]
    simp

end Perm
