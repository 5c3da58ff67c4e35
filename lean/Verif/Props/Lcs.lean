import Verif.Spec
import Verif.Model.Dp
import Verif.Lemmas.Py

/-!
# C21: longest_common_subsequence
-/
namespace Props
open Py Model
variable {α : Type} [DecidableEq α]

namespace Lcs

def Good (p q : List α) (c : Nat × List α) : Prop :=
  c.2.length = c.1 ∧ c.2.Sublist p ∧ c.2.Sublist q ∧ ∀ m : List α, m.Sublist p → m.Sublist q → m.length ≤ c.1

def RowGood (p : List α) : List α → List α → List (Nat × List α) → Prop
  | q, [], [c] => Good p q c
  | q, y :: s, c :: r => Good p q c ∧ RowGood p (q ++ [y]) s r
  | _, _, _ => False

omit [DecidableEq α] in
theorem sublist_concat {m p : List α} {x : α} (h : m.Sublist (p ++ [x])) :
    m.Sublist p ∨ ∃ m', m = m' ++ [x] ∧ m'.Sublist p := by
  rw [List.sublist_append_iff] at h
  obtain ⟨l1, l2, rfl, h1, h2⟩ := h
  cases l2 with
  | nil => left; simpa using h1
  | cons a l2 =>
    have := h2.length_le
    cases l2 with
    | nil =>
      right
      have : a = x := by
        have := h2.subset (List.mem_singleton_self a)
        simpa using this
      exact ⟨l1, by rw [this], h1⟩
    | cons b l2 => simp at this

omit [DecidableEq α] in
theorem good_eq {p q : List α} {x : α} {c : Nat × List α} (h : Good p q c) :
    Good (p ++ [x]) (q ++ [x]) (c.1 + 1, c.2 ++ [x]) := by
  classical
  obtain ⟨h1, h2, h3, h4⟩ := h
  refine ⟨by simp [h1], h2.append (.refl _), h3.append (.refl _), ?_⟩
  intro m hp hq
  dsimp only
  rcases sublist_concat hp with hp' | ⟨m1, rfl, hp'⟩
  · rcases sublist_concat hq with hq' | ⟨m2, rfl, hq'⟩
    · have := h4 m hp' hq'; omega
    · have := h4 m2 ((List.sublist_append_left _ _).trans hp') hq'
      simp; omega
  · rcases sublist_concat hq with hq' | ⟨m2, e, hq'⟩
    · have := h4 m1 hp' ((List.sublist_append_left _ _).trans hq')
      simp; omega
    · obtain ⟨rfl, -⟩ := List.append_inj' e rfl
      have := h4 m1 hp' hq'
      simp; omega

omit [DecidableEq α] in
theorem good_ne {p q : List α} {x y : α} {u l : Nat × List α} (hxy : x ≠ y) (hu : Good p (q ++ [y]) u)
    (hl : Good (p ++ [x]) q l) : Good (p ++ [x]) (q ++ [y]) (if u.1 > l.1 then u else l) := by
  classical
  obtain ⟨u1, u2, u3, u4⟩ := hu
  obtain ⟨l1, l2, l3, l4⟩ := hl
  have key : ∀ m : List α, m.Sublist (p ++ [x]) → m.Sublist (q ++ [y]) → m.length ≤ u.1 ∨ m.length ≤ l.1 := by
    intro m hp hq
    rcases sublist_concat hp with hp' | ⟨m1, rfl, hp'⟩
    · exact .inl (u4 m hp' hq)
    · rcases sublist_concat hq with hq' | ⟨m2, e, hq'⟩
      · exact .inr (l4 _ hp hq')
      · have := List.append_inj' e rfl
        simp at this
        exact absurd this.2 hxy
  split
  · exact ⟨u1, u2.trans (List.sublist_append_left _ _), u3, fun m hp hq => by have := key m hp hq; omega⟩
  · exact ⟨l1, l2, l3.trans (List.sublist_append_left _ _), fun m hp hq => by have := key m hp hq; omega⟩

theorem row_spec {p : List α} {x : α} : ∀ (s q : List α) (up : List (Nat × List α)) (left : Nat × List α),
    RowGood p q s up → Good (p ++ [x]) q left →
    ∃ cells, lcsRow x s up left = .ok cells ∧ RowGood (p ++ [x]) q s (left :: cells) := by
  intro s
  induction s with
  | nil => intro q up left _ hl; exact ⟨[], by simp [lcsRow], hl⟩
  | cons y s ih =>
    intro q up left hu hl
    match up, hu with
    | ul :: up', ⟨g, hu'⟩ =>
      have : ∃ u up2, up' = u :: up2 ∧ Good p (q ++ [y]) u := by
        cases s with
        | nil =>
          match up', hu' with
          | [c], h => exact ⟨c, [], rfl, h⟩
        | cons z s =>
          match up', hu' with
          | c :: r, h => exact ⟨c, r, rfl, h.1⟩
      obtain ⟨u, up2, rfl, gu⟩ := this
      have gc : Good (p ++ [x]) (q ++ [y])
          (if x = y then (ul.1 + 1, ul.2 ++ [x]) else if u.1 > left.1 then u else left) := by
        split
        · subst y; exact good_eq g
        · exact good_ne ‹_› gu hl
      obtain ⟨rest, e, hr⟩ := ih (q ++ [y]) (u :: up2) _ hu' gc
      refine ⟨_ :: rest, ?_, hl, hr⟩
      simp [lcsRow, e]

theorem rows_spec {s2 : List α} : ∀ (s1 p : List α) (prev : List (Nat × List α)), RowGood p [] s2 prev →
    ∃ last, lcsRows s2 s1 prev = .ok last ∧ RowGood (p ++ s1) [] s2 last := by
  intro s1
  induction s1 with
  | nil => intro p prev h; exact ⟨prev, rfl, by simpa using h⟩
  | cons x s1 ih =>
    intro p prev h
    obtain ⟨cells, e, hr⟩ := row_spec (x := x) s2 [] prev (0, []) h
      ⟨rfl, by simp, by simp, by simp⟩
    obtain ⟨last, e2, hl⟩ := ih (p ++ [x]) _ hr
    exact ⟨last, by simp [lcsRows, e, e2], by simpa using hl⟩

omit [DecidableEq α] in
theorem row_last {p : List α} : ∀ (s q : List α) (row : List (Nat × List α)), RowGood p q s row →
    ∃ c, row[s.length]? = some c ∧ Good p (q ++ s) c := by
  intro s
  induction s with
  | nil =>
    intro q row h
    match row, h with
    | [c], h => exact ⟨c, rfl, by simpa [RowGood] using h⟩
  | cons y s ih =>
    intro q row h
    match row, h with
    | c :: r, ⟨_, h⟩ =>
      obtain ⟨d, e, g⟩ := ih _ _ h
      exact ⟨d, by simpa using e, by simpa using g⟩

omit [DecidableEq α] in
theorem row_init : ∀ (s q : List α), RowGood [] q s (List.replicate (s.length + 1) (0, [])) := by
  intro s
  induction s with
  | nil => intro q; exact ⟨rfl, by simp, by simp, by simp⟩
  | cons y s ih => intro q; exact ⟨⟨rfl, by simp, by simp, by simp⟩, ih _⟩

end Lcs

/-- C21. `longest_common_subsequence` never raises; its result is a common subsequence and no common subsequence is
longer. -/
theorem C21_longest_common_subsequence (s1 s2 : List α) :
    ∃ r, lcs s1 s2 = .ok r ∧ r.Sublist s1 ∧ r.Sublist s2 ∧
      ∀ m : List α, m.Sublist s1 → m.Sublist s2 → m.length ≤ r.length := by
  obtain ⟨last, e, h⟩ := Lcs.rows_spec s1 [] _ (Lcs.row_init s2 [])
  obtain ⟨c, ec, g1, g2, g3, g4⟩ := Lcs.row_last _ _ _ h
  refine ⟨c.2, ?_, by simpa using g2, by simpa using g3, ?_⟩
  · simp [lcs, e, rd_of_some ec]
  · intro m hp hq; rw [g1]; exact g4 m (by simpa using hp) (by simpa using hq)

/-- A concrete run. -/
example : lcs [1, 3, 2, 4, 1] [3, 4, 1, 2] = .ok [3, 4, 1] := by decide

end Props
