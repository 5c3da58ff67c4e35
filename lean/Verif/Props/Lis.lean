import Verif.Spec
import Verif.Model.Dp
import Verif.Lemmas.Py
import Verif.Props.Search
import Verif.Props.Lcs

/-!
# C22: longest_increasing_subsequence
-/
namespace Props
open Py Model Spec

namespace Lis

/-- Reading with a default, for the proofs. -/
theorem rd_getD {α : Type} {l : List α} {i : Nat} (d : α) (h : i < l.length) : rd l i = .ok (l.getD i d) := by
  rw [rd_of_lt h]; simp [List.getD, h]

theorem getD_set {α : Type} {l : List α} {i k : Nat} (d x : α) (h : i < l.length) :
    (l.set i x).getD k d = if k = i then x else l.getD k d := by
  by_cases hk : k = i
  · subst hk; simp [List.getD, h]
  · simp [List.getD, hk, List.getElem?_set_ne (Ne.symm hk)]

/-- `j` is the last index of a strictly increasing chain of `k + 1` positions linked by `parent`. -/
def Chain (a : List Int) (parent : List (Option Nat)) : Nat → Nat → Prop
  | 0, j => parent.getD j none = none
  | k + 1, j => ∃ j', parent.getD j none = some j' ∧ j' < j ∧ a.getD j' 0 < a.getD j 0 ∧ Chain a parent k j'

theorem Chain.congr {a : List Int} {p p' : List (Option Nat)} {i : Nat} (h : ∀ j, j < i → p'.getD j none = p.getD j none) :
    ∀ (k j : Nat), j < i → Chain a p k j → Chain a p' k j := by
  intro k
  induction k with
  | zero => intro j hj hc; simp only [Chain] at hc ⊢; rw [h j hj]; exact hc
  | succ k ih =>
    intro j hj ⟨j', e, h1, h2, h3⟩
    exact ⟨j', by rw [h j hj, e], h1, h2, ih j' (by omega) h3⟩

structure Inv (a : List Int) (i : Nat) (s : LisState) : Prop where
  dpl : s.dp.length = a.length
  pl : s.parent.length = a.length
  lt : s.length < i
  dlt : ∀ k, k ≤ s.length → s.dp.getD k 0 < i
  chain : ∀ k, k ≤ s.length → Chain a s.parent k (s.dp.getD k 0)
  fresh : ∀ j, i ≤ j → s.parent.getD j none = none
  mono : ∀ k l, k < l → l ≤ s.length → a.getD (s.dp.getD k 0) 0 < a.getD (s.dp.getD l 0) 0
  opt : ∀ (m : List Int) (v : Int), (m ++ [v]).Sublist (a.take i) → (m ++ [v]).Pairwise (· < ·) →
    m.length ≤ s.length ∧ a.getD (s.dp.getD m.length 0) 0 ≤ v

theorem lisCurr_spec (a : List Int) (dp : List Nat) : ∀ n i, i + n ≤ dp.length → (∀ k, i ≤ k → k < i + n → dp.getD k 0 < a.length) →
    ∃ c, lisCurr a dp n i = .ok c ∧ c.length = n ∧ ∀ k, k < n → c[k]? = some (a.getD (dp.getD (i + k) 0) 0) := by
  intro n
  induction n with
  | zero => intro i _ _; exact ⟨[], rfl, rfl, by intro k h; omega⟩
  | succ n ih =>
    intro i h1 h2
    obtain ⟨c, e, hl, hc⟩ := ih (i + 1) (by omega) (fun k h3 h4 => h2 k (by omega) (by omega))
    refine ⟨a.getD (dp.getD i 0) 0 :: c, ?_, by simp [hl], ?_⟩
    · simp only [lisCurr, rd_getD 0 (show i < dp.length by omega), ok_bind,
        rd_getD 0 (h2 i (by omega) (by omega)), e]
    · intro k hk
      cases k with
      | zero => simp
      | succ k =>
        have := hc k (by omega)
        simp only [List.getElem?_cons_succ, this]
        rw [show i + 1 + k = i + (k + 1) by omega]

theorem take_succ_getD (a : List Int) (i : Nat) (h : i < a.length) : a.take (i + 1) = a.take i ++ [a.getD i 0] := by
  rw [List.take_add_one]; simp [List.getD, h]

/-- The three cases of the step as one: position `c` of `dp` becomes `i`. -/
theorem step_inv {a : List Int} {i : Nat} {s : LisState} (hi : i < a.length) (inv : Inv a i s)
    (c L' : Nat) (par : Option Nat)
    (hL : (L' = s.length ∧ c ≤ s.length) ∨ (L' = s.length + 1 ∧ c = s.length + 1))
    (hbelow : ∀ k, k < c → a.getD (s.dp.getD k 0) 0 < a.getD i 0)
    (habove : ∀ k, c ≤ k → k ≤ s.length → a.getD i 0 ≤ a.getD (s.dp.getD k 0) 0)
    (hpar : (c = 0 ∧ par = none) ∨ (0 < c ∧ par = some (s.dp.getD (c - 1) 0))) :
    Inv a (i + 1) { dp := s.dp.set c i, parent := s.parent.set i par, length := L' } := by
  obtain ⟨dpl, pl, lt, dlt, chain, fresh, mono, opt⟩ := inv
  have hcl : c < s.dp.length := by omega
  have hpl : i < s.parent.length := by omega
  have hcongr : ∀ j, j < i → (s.parent.set i par).getD j none = s.parent.getD j none := by
    intro j hj; rw [getD_set _ _ hpl, if_neg (by omega)]
  refine ⟨by simpa using dpl, by simpa using pl, by dsimp only; omega, ?_, ?_, ?_, ?_, ?_⟩
  · intro k hk
    dsimp only at hk ⊢
    rw [getD_set _ _ hcl]
    split
    · omega
    · have := dlt k (by omega); omega
  · intro k hk
    dsimp only at hk ⊢
    rw [getD_set _ _ hcl]
    split
    · rename_i hkc
      subst hkc
      rcases hpar with ⟨hc0, rfl⟩ | ⟨hc0, rfl⟩
      · subst hc0; simp only [Chain]; rw [getD_set _ _ hpl, if_pos rfl]
      · obtain ⟨k, rfl⟩ : ∃ k', k = k' + 1 := ⟨k - 1, by omega⟩
        refine ⟨s.dp.getD k 0, ?_, dlt k (by omega), hbelow k (by omega), ?_⟩
        · rw [getD_set _ _ hpl, if_pos rfl]; rfl
        · exact Chain.congr hcongr _ _ (dlt k (by omega)) (chain k (by omega))
    · exact Chain.congr hcongr _ _ (dlt k (by omega)) (chain k (by omega))
  · intro j hj
    dsimp only
    rw [getD_set _ _ hpl, if_neg (by omega)]
    exact fresh j (by omega)
  · intro k l hkl hl
    dsimp only at hl ⊢
    rw [getD_set _ _ hcl, getD_set _ _ hcl]
    by_cases hk : k = c
    · rw [if_pos hk, if_neg (by omega)]
      have h1 := habove c (by omega) (by omega)
      have h2 := mono c l (by omega) (by omega)
      omega
    · rw [if_neg hk]
      split
      · exact hbelow k (by omega)
      · exact mono k l hkl (by omega)
  · intro m v hm hp
    dsimp only
    rw [take_succ_getD a i hi] at hm
    rw [getD_set _ _ hcl]
    rcases Lcs.sublist_concat hm with hm' | ⟨m', e, hm'⟩
    · obtain ⟨h1, h2⟩ := opt m v hm' hp
      refine ⟨by omega, ?_⟩
      split
      · have := habove m.length (by omega) (by omega); omega
      · exact h2
    · obtain ⟨rfl, e2⟩ := List.append_inj' e rfl
      simp only [List.cons.injEq, and_true] at e2
      subst e2
      rcases List.eq_nil_or_concat m with rfl | ⟨m2, w, rfl⟩
      · simp only [List.length_nil]
        refine ⟨by omega, ?_⟩
        split
        · exact Int.le_refl _
        · have := hbelow 0 (by omega); omega
      · simp only [List.concat_eq_append, List.length_append, List.length_singleton] at *
        have hw : w < a.getD i 0 := by
          rw [List.pairwise_append] at hp
          exact hp.2.2 w (by simp) _ (by simp)
        obtain ⟨h1, h2⟩ := opt m2 w hm' (by rw [List.pairwise_append] at hp; exact hp.1)
        have hlt : m2.length < c := by
          apply Classical.byContradiction
          intro hge
          have := habove m2.length (by omega) h1
          omega
        refine ⟨by omega, ?_⟩
        split
        · exact Int.le_refl _
        · have := hbelow (m2.length + 1) (by omega); omega

theorem set_self {l : List (Option Nat)} {i : Nat} (h : l.getD i none = none) : l.set i none = l := by
  apply List.ext_getElem?
  intro k
  by_cases hk : k = i
  · subst hk
    by_cases hl : k < l.length
    · simp [List.getD, hl] at h ⊢; rw [h]
    · simp [hl]
  · rw [List.getElem?_set_ne (Ne.symm hk)]

theorem step_spec {a : List Int} {fuel i : Nat} {s : LisState} (hf : a.length + 1 ≤ fuel) (hi : i < a.length)
    (inv : Inv a i s) : ∃ s', lisStep fuel a i s = .ok s' ∧ Inv a (i + 1) s' := by
  have hd : ∀ k, k ≤ s.length → s.dp.getD k 0 < a.length := fun k hk => by have := inv.dlt k hk; omega
  have hdl := inv.dpl
  have hpl := inv.pl
  have hlt := inv.lt
  simp only [lisStep, rd_getD 0 hi, rd_getD 0 (show 0 < s.dp.length by omega), rd_getD 0 (hd 0 (by omega)),
    rd_getD 0 (show s.length < s.dp.length by omega), rd_getD 0 (hd s.length (by omega)), ok_bind]
  split
  · rename_i hx
    refine ⟨{ s with dp := s.dp.set 0 i }, by rw [wr_of_lt _ (by omega), ok_bind], ?_⟩
    have := step_inv hi inv 0 s.length none (.inl ⟨rfl, by omega⟩) (by intro k h; omega)
      (by
        intro k _ hk
        by_cases h0 : k = 0
        · subst h0; exact hx
        · have := inv.mono 0 k (by omega) hk; omega) (.inl ⟨rfl, rfl⟩)
    rwa [set_self (inv.fresh i (by omega))] at this
  · rename_i hx
    split
    · rename_i hl
      rw [wr_of_lt _ (by omega), ok_bind, Nat.add_sub_cancel,
        rd_getD 0 (show s.length < (s.dp.set (s.length + 1) i).length by simp; omega), ok_bind, wr_of_lt _ (by omega),
        ok_bind, getD_set _ _ (by omega), if_neg (by omega)]
      refine ⟨_, rfl, step_inv hi inv (s.length + 1) (s.length + 1) _ (.inr ⟨rfl, rfl⟩) ?_ (by intro k h1 h2; omega)
        (.inr ⟨by omega, rfl⟩)⟩
      intro k hk
      by_cases h0 : k = s.length
      · subst h0; exact hl
      · have := inv.mono k s.length (by omega) (by omega); omega
    · rename_i hl
      have hL : 0 < s.length := by
        apply Classical.byContradiction
        intro h
        have : s.length = 0 := by omega
        rw [this] at hl
        omega
      obtain ⟨c, ec, cl, hc⟩ := lisCurr_spec a s.dp s.length 0 (by omega) (fun k _ h => hd k (by omega))
      simp only [Nat.zero_add] at hc
      obtain ⟨r, er, r1, r2, r3, r4⟩ := lowerBound_of_fuel (fun u v : Int => decide (u < v)) (fun u v => u ≤ v)
        ⟨fun a b => by omega, fun a b c => by omega⟩ (fun x y => by simp) c (a.getD i 0) 0 c.length (by omega) (by omega)
        (by
          intro p q x y _ h2 h3 hx hy
          rw [hc p (by omega)] at hx
          rw [hc q (by omega)] at hy
          cases hx; cases hy
          have := inv.mono p q h2 (by omega)
          omega) fuel (by omega)
      have hr0 : 0 < r := by
        apply Classical.byContradiction
        intro h
        have : r = 0 := by omega
        subst this
        have := r4 0 _ (by omega) (by omega) (hc 0 (by omega))
        omega
      rw [ec, ok_bind, er, ok_bind, wr_of_lt _ (by omega), ok_bind, if_neg (by omega),
        rd_getD 0 (show r - 1 < (s.dp.set r i).length by simp; omega), ok_bind, wr_of_lt _ (by omega), ok_bind,
        getD_set _ _ (by omega), if_neg (by omega)]
      refine ⟨_, rfl, step_inv hi inv r s.length _ (.inl ⟨rfl, by omega⟩) ?_ ?_ (.inr ⟨hr0, rfl⟩)⟩
      · intro k hk
        have := r3 k _ (by omega) hk (hc k (by omega))
        omega
      · intro k h1 h2
        by_cases h0 : k = s.length
        · subst h0; omega
        · exact r4 k _ h1 (by omega) (hc k (by omega))

theorem chain_spec {a : List Int} {parent : List (Option Nat)} (hpl : parent.length = a.length) :
    ∀ (k j fuel : Nat), j < a.length → Chain a parent k j → k < fuel →
    ∃ r, lisChain a parent fuel (some j) = .ok r ∧ r.length = k + 1 ∧ r.reverse.Sublist (a.take (j + 1)) ∧
      r.reverse.Pairwise (· < ·) ∧ r.head? = some (a.getD j 0) := by
  intro k
  induction k with
  | zero =>
    intro j fuel hj hc hf
    obtain ⟨f, rfl⟩ : ∃ f, fuel = f + 1 := ⟨fuel - 1, by omega⟩
    refine ⟨[a.getD j 0], ?_, rfl, ?_, by simp, rfl⟩
    · simp only [Chain] at hc
      simp only [lisChain, rd_getD 0 hj, rd_getD none (show j < parent.length by omega), hc, ok_bind]
    · rw [take_succ_getD a j hj]; simp
  | succ k ih =>
    intro j fuel hj ⟨j', e, h1, h2, h3⟩ hf
    obtain ⟨f, rfl⟩ : ∃ f, fuel = f + 1 := ⟨fuel - 1, by omega⟩
    obtain ⟨r, er, rl, rs, rp, rh⟩ := ih j' f (by omega) h3 (by omega)
    refine ⟨a.getD j 0 :: r, ?_, by simp [rl], ?_, ?_, rfl⟩
    · simp only [lisChain, rd_getD 0 hj, rd_getD none (show j < parent.length by omega), e, ok_bind, er]
    · rw [take_succ_getD a j hj, List.reverse_cons]
      refine (rs.trans ?_).append (.refl _)
      exact List.take_sublist_take_left (by omega)
    · rw [List.reverse_cons, List.pairwise_append]
      refine ⟨rp, by simp, ?_⟩
      intro x hx y hy
      simp only [List.mem_singleton] at hy
      subst hy
      cases r with
      | nil => simp at rh
      | cons z r =>
        simp only [List.head?_cons, Option.some.injEq] at rh
        subst rh
        rw [List.reverse_cons, List.pairwise_append] at rp
        simp only [List.reverse_cons, List.mem_append, List.mem_singleton] at hx
        rcases hx with hx | rfl
        · have := rp.2.2 x hx (a.getD j' 0) (List.mem_singleton_self _); omega
        · exact h2

end Lis

/-- C22. On a non-empty array `longest_increasing_subsequence` ends; its result is a strictly increasing subsequence and
no strictly increasing subsequence is longer. -/
theorem C22_longest_increasing_subsequence (a : List Int) (hne : a ≠ []) :
    EndsIn (fun fuel => lis fuel a) fun r =>
      r.Sublist a ∧ r.Pairwise (· < ·) ∧
      ∀ m : List Int, m.Sublist a → m.Pairwise (· < ·) → m.length ≤ r.length := by
  refine ⟨a.length + 1, fun fuel hf => ?_⟩
  have hn : 0 < a.length := List.length_pos_iff.2 hne
  have rep0 : ∀ (n k : Nat), (List.replicate n 0).getD k 0 = 0 := by
    intro n k
    simp only [List.getD, List.getElem?_replicate]
    split <;> rfl
  have repn : ∀ (n k : Nat), (List.replicate n (none : Option Nat)).getD k none = none := by
    intro n k
    simp only [List.getD, List.getElem?_replicate]
    split <;> rfl
  have h0 : Lis.Inv a 1 { dp := List.replicate a.length 0, parent := List.replicate a.length none, length := 0 } := by
    refine ⟨by simp, by simp, by simp, ?_, ?_, ?_, ?_, ?_⟩
    · intro k _; simp only [rep0]; omega
    · intro k hk
      dsimp only at hk ⊢
      obtain rfl : k = 0 := by omega
      exact repn _ _
    · intro j _; exact repn _ _
    · intro k l h1 h2; dsimp only at h2; omega
    · intro m v hm _
      have hl := hm.length_le
      simp only [List.length_append, List.length_singleton, List.length_take] at hl
      have : m = [] := List.eq_nil_of_length_eq_zero (by omega)
      subst this
      refine ⟨by simp, ?_⟩
      simp only [rep0]
      rw [Lis.take_succ_getD a 0 hn] at hm
      simp only [List.take_zero, List.nil_append, List.singleton_sublist, List.mem_singleton] at hm
      omega
  obtain ⟨s, es, inv⟩ := forRange_spec (Lis.Inv a) (body := lisStep fuel a) (lo := 1) (hi := a.length) (by omega) h0
    (fun k s _ h2 h3 => Lis.step_spec hf h2 h3)
  have hd := inv.dlt s.length (by omega)
  have hlt := inv.lt
  have hdl := inv.dpl
  obtain ⟨r, er, rl, rs, rp, -⟩ := Lis.chain_spec inv.pl s.length _ fuel hd (inv.chain _ (by omega)) (by omega)
  refine ⟨r.reverse, ?_, rs.trans (List.take_sublist _ _), rp, ?_⟩
  · simp only [lis, es, ok_bind, Lis.rd_getD 0 (show s.length < s.dp.length by omega), er]
  · intro m hm hp
    rcases List.eq_nil_or_concat m with rfl | ⟨m2, w, rfl⟩
    · simp
    · simp only [List.concat_eq_append] at hm hp ⊢
      have := (inv.opt m2 w (by simpa using hm) hp).1
      simp [rl]; omega

/-- The empty array is rejected by the first read. -/
theorem C22_empty (fuel : Nat) : lis fuel [] = .error .indexError := rfl

/-- A concrete run (the second example of the docstring). -/
example : lis 20 [3, 4, -1, 5, 8, 2, 2, 2, 3, 12, 7, 9, 10] = .ok [-1, 2, 3, 7, 9, 10] := by decide

end Props
