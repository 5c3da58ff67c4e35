import Verif.Model.DisjointSet
import Verif.Lemmas.Py
import Verif.Spec

/-! # C44: disjoint sets -/
namespace Props
open Py Model Spec
variable {κ : Type} [DecidableEq κ]
set_option linter.unusedSectionVars false

/-! ## Specification: keys and the unions made so far -/

/-- The equivalence relation generated by the pairs. -/
inductive Joined (pairs : List (κ × κ)) : κ → κ → Prop
  | refl (a : κ) : Joined pairs a a
  | pair (a b : κ) (h : (a, b) ∈ pairs) : Joined pairs a b
  | symm (a b : κ) (h : Joined pairs a b) : Joined pairs b a
  | trans (a b c : κ) (h1 : Joined pairs a b) (h2 : Joined pairs b c) : Joined pairs a c

/-- Calls that change the object. -/
inductive DsuOp (κ : Type) where
  | make (k : κ)
  | union (a b : κ)
  | makeRoot (k : κ)

/-- Abstract state: the known keys and the pairs that have been united. -/
structure Partition (κ : Type) where
  keys : List κ
  pairs : List (κ × κ)

/-- `make_set` adds a key once, `union` of two known keys joins them, anything else changes nothing. -/
def dsuSpec (p : Partition κ) : DsuOp κ → Partition κ
  | .make k => if k ∈ p.keys then p else { p with keys := p.keys ++ [k] }
  | .union a b => if a ∈ p.keys ∧ b ∈ p.keys then { p with pairs := p.pairs ++ [(a, b)] } else p
  | .makeRoot _ => p

/-- The modelled object; a call that raises leaves it as it was. -/
def dsuStep (s : Dsu κ) : DsuOp κ → Dsu κ
  | .make k => dsuMake s k
  | .union a b => match dsuUnion s a b with
    | .ok s' => s'
    | .error _ => s
  | .makeRoot k => match dsuMakeRoot s k with
    | .ok s' => s'
    | .error _ => s

/-! ## Invariant -/

/-- The walk along `parent` from `k` reaches the root `r` after `n` steps. -/
inductive ParentWalk (s : Dsu κ) : κ → Nat → κ → Prop
  | root (k : κ) (h : s.parent k = k) : ParentWalk s k 0 k
  | step (k : κ) (n : Nat) (r : κ) (h : s.parent k ≠ k) (w : ParentWalk s (s.parent k) n r) : ParentWalk s k (n + 1) r

theorem ParentWalk.unique {s : Dsu κ} {k : κ} {n m : Nat} {r q : κ} (h1 : ParentWalk s k n r) (h2 : ParentWalk s k m q) : n = m ∧ r = q := by
  induction h1 generalizing m q with
  | root k h =>
    cases h2 with
    | root _ _ => exact ⟨rfl, rfl⟩
    | step _ _ _ h' _ => exact absurd h h'
  | step k n r h w ih =>
    cases h2 with
    | root _ h' => exact absurd h' h
    | step _ m _ h' w' =>
      obtain ⟨a, b⟩ := ih w'
      exact ⟨by omega, b⟩

theorem ParentWalk.isRoot {s : Dsu κ} {k : κ} {n : Nat} {r : κ} (h : ParentWalk s k n r) : s.parent r = r := by
  induction h <;> assumption

structure DsuOk (s : Dsu κ) (root : κ → κ) : Prop where
  nodup : s.keys.Nodup
  closed : ∀ k ∈ s.keys, s.parent k ∈ s.keys
  walk : ∀ k ∈ s.keys, ∃ n, ParentWalk s k n (root k)
  size : ∀ r ∈ s.keys, root r = r → s.size r = (s.keys.countP fun k => decide (root k = r) : Nat)

theorem DsuOk.walk_mem {s : Dsu κ} {root : κ → κ} (h : DsuOk s root) {k : κ} {n : Nat} {r : κ} (w : ParentWalk s k n r) (hk : k ∈ s.keys) : r ∈ s.keys := by
  induction w with
  | root k _ => exact hk
  | step k n r _ _ ih => exact ih (h.closed k hk)

theorem DsuOk.root_mem {s : Dsu κ} {root : κ → κ} (h : DsuOk s root) {k : κ} (hk : k ∈ s.keys) : root k ∈ s.keys := by
  obtain ⟨n, w⟩ := h.walk k hk
  exact h.walk_mem w hk

theorem DsuOk.parent_root {s : Dsu κ} {root : κ → κ} (h : DsuOk s root) {k : κ} (hk : k ∈ s.keys) : s.parent (root k) = root k := by
  obtain ⟨n, w⟩ := h.walk k hk
  exact w.isRoot

/-- A key is a root iff it is its own parent. -/
theorem DsuOk.root_iff {s : Dsu κ} {root : κ → κ} (h : DsuOk s root) {k : κ} (hk : k ∈ s.keys) : root k = k ↔ s.parent k = k := by
  constructor
  · intro e; have := h.parent_root hk; rwa [e] at this
  · intro e
    obtain ⟨n, w⟩ := h.walk k hk
    exact (w.unique (.root k e)).2

theorem DsuOk.root_root {s : Dsu κ} {root : κ → κ} (h : DsuOk s root) {k : κ} (hk : k ∈ s.keys) : root (root k) = root k :=
  (h.root_iff (h.root_mem hk)).2 (h.parent_root hk)

theorem DsuOk.root_parent {s : Dsu κ} {root : κ → κ} (h : DsuOk s root) {k : κ} (hk : k ∈ s.keys) : root (s.parent k) = root k := by
  by_cases e : s.parent k = k
  · rw [e]
  · obtain ⟨n, w⟩ := h.walk k hk
    obtain ⟨m, w'⟩ := h.walk _ (h.closed k hk)
    exact ((ParentWalk.step k m _ e w').unique w).2

theorem length_le_of_subset {l m : List κ} (hl : l.Nodup) (h : ∀ x ∈ l, x ∈ m) : l.length ≤ m.length := by
  induction l generalizing m with
  | nil => simp
  | cons x l ih =>
    have hx := h x (by simp)
    have hl' := List.nodup_cons.1 hl
    have : l.length ≤ (m.erase x).length := by
      apply ih hl'.2
      intro y hy
      have : y ≠ x := by rintro rfl; exact hl'.1 hy
      exact (List.mem_erase_of_ne this).2 (h y (by simp [hy]))
    rw [List.length_erase_of_mem hx] at this
    have := List.length_pos_of_mem hx
    simp only [List.length_cons]; omega

/-- The walk from a key is shorter than the number of keys. -/
theorem DsuOk.walk_lt {s : Dsu κ} {root : κ → κ} (h : DsuOk s root) {k : κ} {n : Nat} {r : κ} (w : ParentWalk s k n r) (hk : k ∈ s.keys) :
    n < s.keys.length := by
  have : ∃ path : List κ, path.length = n + 1 ∧ path.Nodup ∧ ∀ x ∈ path, x ∈ s.keys ∧ ∃ m, m ≤ n ∧ ParentWalk s x m r := by
    induction w with
    | root k e => exact ⟨[k], rfl, by simp, by simpa using ⟨hk, ParentWalk.root k e⟩⟩
    | step k n r e w ih =>
      obtain ⟨path, h1, h2, h3⟩ := ih (h.closed k hk)
      refine ⟨k :: path, by simp [h1], List.nodup_cons.2 ⟨?_, h2⟩, ?_⟩
      · intro hm
        obtain ⟨_, m, hm1, w'⟩ := h3 k hm
        have := ((ParentWalk.step k n r e w).unique w').1
        omega
      · intro x hx
        rcases List.mem_cons.1 hx with rfl | hx
        · exact ⟨hk, n + 1, Nat.le_refl _, .step _ n r e w⟩
        · obtain ⟨a, m, b, c⟩ := h3 x hx
          exact ⟨a, m, by omega, c⟩
  obtain ⟨path, h1, h2, h3⟩ := this
  have := length_le_of_subset h2 (fun x hx => (h3 x hx).1)
  omega

/-! ## find_root -/

theorem findLoop_eq {s : Dsu κ} {k : κ} {n : Nat} {r : κ} (w : ParentWalk s k n r) : ∀ fuel, n < fuel → dsuFindLoop fuel s k = .ok (s, r) := by
  induction w with
  | root k h =>
    intro fuel hf
    obtain ⟨m, rfl⟩ : ∃ m, fuel = m + 1 := ⟨fuel - 1, by omega⟩
    rw [dsuFindLoop, if_neg (by simp [h])]
  | step k n r h w ih =>
    intro fuel hf
    obtain ⟨m, rfl⟩ : ∃ m, fuel = m + 1 := ⟨fuel - 1, by omega⟩
    rw [dsuFindLoop, if_pos h]
    have : fset s.parent (s.parent k) (s.parent (s.parent k)) = s.parent := by
      funext j; simp only [fset]; split
      · rename_i e; rw [e]
      · rfl
    simp only [this]
    exact ih m (by omega)

/-- `find_root` answers the root and changes nothing. -/
theorem find_eq {s : Dsu κ} {root : κ → κ} (h : DsuOk s root) {k : κ} (hk : k ∈ s.keys) : dsuFind s k = .ok (s, root k) := by
  obtain ⟨n, w⟩ := h.walk k hk
  rw [dsuFind, if_pos hk, findLoop_eq w _ (Nat.lt_succ_of_lt (h.walk_lt w hk))]

theorem countP_append_one (l : List κ) (x : κ) (p : κ → Bool) : (l ++ [x]).countP p = l.countP p + if p x then 1 else 0 := by
  rw [List.countP_append]; simp [List.countP_cons]

/-! ## make_set -/

theorem make_ok {s : Dsu κ} {root : κ → κ} (h : DsuOk s root) {k : κ} (hk : k ∉ s.keys) : DsuOk (dsuMake s k) (fset root k k) := by
  rw [dsuMake, if_neg hk]
  have hne : ∀ j ∈ s.keys, j ≠ k := by rintro j hj rfl; exact hk hj
  refine ⟨?_, ?_, ?_, ?_⟩
  · exact List.nodup_append.2 ⟨h.nodup, by simp, by intro a ha b hb; simp at hb; subst hb; exact hne a ha⟩
  · intro j hj
    simp only [fset]
    split
    · simp
    · rename_i e
      rcases List.mem_append.1 hj with hj | hj
      · exact List.mem_append.2 (Or.inl (h.closed j hj))
      · exact absurd (by simpa using hj) e
  · intro j hj
    by_cases e : j = k
    · subst e
      refine ⟨0, ?_⟩
      have : fset root j j j = j := by simp [fset]
      rw [this]
      exact .root j (by simp [fset])
    · have hj' : j ∈ s.keys := by simpa [e] using hj
      obtain ⟨n, w⟩ := h.walk j hj'
      have : fset root k k j = root j := by simp [fset, e]
      rw [this]
      refine ⟨n, ?_⟩
      clear hj e this
      generalize root j = r at w
      induction w with
      | root j e => exact .root j (by simp [fset, hne j hj', e])
      | step j n r e w ih =>
        refine .step j n r (by simpa [fset, hne j hj'] using e) ?_
        have : (fset s.parent k k) j = s.parent j := by simp [fset, hne j hj']
        show ParentWalk _ ((fset s.parent k k) j) n r
        rw [this]
        exact ih (h.closed j hj')
  · intro r hr hroot
    rw [countP_append_one]
    by_cases e : r = k
    · subst e
      have : s.keys.countP (fun j => decide (fset root r r j = r)) = 0 := by
        rw [List.countP_eq_zero]
        intro j hj
        have := hne j hj
        simp only [fset, this, if_false, decide_eq_true_eq]
        intro e; rw [← e] at hk; exact hk (h.root_mem hj)
      rw [this]; simp [fset]
    · have hr' : r ∈ s.keys := by simpa [e] using hr
      have hroot' : root r = r := by simpa [fset, e] using hroot
      have : s.keys.countP (fun j => decide (fset root k k j = r)) = s.keys.countP (fun j => decide (root j = r)) := by
        apply List.countP_congr
        intro j hj
        simp [fset, hne j hj]
      rw [this]
      have e' : ¬ k = r := fun h => e h.symm
      simp [fset, e, e', h.size r hr' hroot']

/-! ## union -/

/-- Attaching the root `y` to the root `x`. -/
theorem link_ok {s : Dsu κ} {root : κ → κ} (h : DsuOk s root) {x y : κ} (hx : x ∈ s.keys) (hy : y ∈ s.keys) (rx : s.parent x = x)
    (ry : s.parent y = y) (hne : x ≠ y) :
    DsuOk { s with parent := fset s.parent y x, size := fset s.size x (s.size x + s.size y) } (fun k => if root k = y then x else root k) := by
  have hrx := (h.root_iff hx).2 rx
  have hry := (h.root_iff hy).2 ry
  have wx : ParentWalk { s with parent := fset s.parent y x, size := fset s.size x (s.size x + s.size y) } x 0 x :=
    .root x (by simp [fset, hne, rx])
  refine ⟨h.nodup, ?_, ?_, ?_⟩
  · intro k hk
    simp only [fset]; split
    · exact hx
    · exact h.closed k hk
  · intro k hk
    obtain ⟨n, w⟩ := h.walk k hk
    generalize root k = r at w
    induction w with
    | root k e =>
      split
      · rename_i e'; subst e'
        refine ⟨1, .step k 0 x (by simpa [fset] using hne) ?_⟩
        simpa [fset] using wx
      · rename_i e'
        exact ⟨0, .root k (by simp [fset, e', e])⟩
    | step k n r e w ih =>
      obtain ⟨m, w'⟩ := ih (h.closed k hk)
      have hky : k ≠ y := by rintro rfl; exact e ry
      refine ⟨m + 1, .step k m _ (by simpa [fset, hky] using e) ?_⟩
      simpa [fset, hky] using w'
  · intro r hr hroot
    dsimp only at hroot hr ⊢
    have hry' : r ≠ y := by
      rintro rfl
      simp [hry] at hroot; exact hne hroot
    have hroot' : root r = r := by
      split at hroot
      · rename_i e
        subst hroot
        rw [hrx]
      · exact hroot
    by_cases e : r = x
    · subst e
      simp only [fset, if_true]
      rw [h.size r hx hrx, h.size y hy hry]
      have : ∀ l : List κ, (l.countP fun k => decide ((if root k = y then r else root k) = r)) =
          (l.countP fun k => decide (root k = r)) + (l.countP fun k => decide (root k = y)) := by
        intro l
        induction l with
        | nil => rfl
        | cons k l ih =>
          simp only [List.countP_cons, ih]
          by_cases h1 : root k = y
          · have : ¬ root k = r := by rw [h1]; exact fun h => hne h.symm
            simp [h1, this, hne.symm]; omega
          · by_cases h2 : root k = r <;> simp [h1, h2, hne] <;> omega
      rw [this]; simp
    · simp only [fset, e, if_false]
      rw [h.size r hr hroot']
      congr 1
      apply List.countP_congr
      intro k _
      by_cases h1 : root k = y
      · have e' : ¬ x = r := fun h => e h.symm
        have e'' : ¬ y = r := fun h => hry' h.symm
        simp [h1, e', e'']
      · simp [h1]

theorem union_ok {s : Dsu κ} {root : κ → κ} (h : DsuOk s root) {a b : κ} (ha : a ∈ s.keys) (hb : b ∈ s.keys) :
    ∃ s' root', dsuUnion s a b = .ok s' ∧ DsuOk s' root' ∧ s'.keys = s.keys ∧
      ∀ x ∈ s.keys, ∀ y ∈ s.keys, (root' x = root' y ↔ root x = root y ∨ (root x = root a ∧ root y = root b) ∨ (root x = root b ∧ root y = root a)) := by
  have key : ∀ x y, x ∈ s.keys → y ∈ s.keys → s.parent x = x → s.parent y = y → x ≠ y →
      ∃ root', DsuOk { s with parent := fset s.parent y x, size := fset s.size x (s.size x + s.size y) } root' ∧
        ∀ p ∈ s.keys, ∀ q ∈ s.keys, (root' p = root' q ↔ root p = root q ∨ (root p = x ∧ root q = y) ∨ (root p = y ∧ root q = x)) := by
    intro x y hx hy rx ry hne
    refine ⟨_, link_ok h hx hy rx ry hne, ?_⟩
    intro p _ q _
    by_cases h1 : root p = y <;> by_cases h2 : root q = y <;> simp only [h1, h2, if_true, if_false] <;> grind
  rw [dsuUnion, find_eq h ha, ok_bind]
  dsimp only
  rw [find_eq h hb, ok_bind]
  dsimp only
  by_cases hne : root a = root b
  · rw [if_neg (by simp [hne])]
    refine ⟨s, root, rfl, h, rfl, ?_⟩
    intro x _ y _
    grind
  · rw [if_pos hne]
    by_cases hsz : s.size (root a) < s.size (root b)
    · obtain ⟨root', h1, h2⟩ := key (root b) (root a) (h.root_mem hb) (h.root_mem ha) (h.parent_root hb) (h.parent_root ha) (fun e => hne e.symm)
      simp only [if_pos hsz]
      refine ⟨_, root', rfl, h1, rfl, ?_⟩
      intro x hx y hy
      rw [h2 x hx y hy]; grind
    · obtain ⟨root', h1, h2⟩ := key (root a) (root b) (h.root_mem ha) (h.root_mem hb) (h.parent_root ha) (h.parent_root hb) hne
      simp only [if_neg hsz]
      exact ⟨_, root', rfl, h1, rfl, h2⟩

/-! ## make_root -/

theorem shrink_spec {s : Dsu κ} {c : κ} {n : Nat} {r : κ} (sz : Int) (w : ParentWalk s c n r) : ∀ (size : κ → Int) (fuel : Nat), n < fuel →
    ∃ size', dsuShrink sz fuel { s with size := size } c = .ok ({ s with size := size' }, r) ∧ size' r = size r ∧
      ∀ j, (∀ m, ¬ ParentWalk s j m r) → size' j = size j := by
  induction w with
  | root c e =>
    intro size fuel hf
    obtain ⟨m, rfl⟩ : ∃ m, fuel = m + 1 := ⟨fuel - 1, by omega⟩
    exact ⟨size, by rw [dsuShrink, if_neg (by simp [e])], rfl, fun _ _ => rfl⟩
  | step c n r e w ih =>
    intro size fuel hf
    obtain ⟨m, rfl⟩ : ∃ m, fuel = m + 1 := ⟨fuel - 1, by omega⟩
    obtain ⟨size', e1, h1, h2⟩ := ih (fset size c (size c - sz)) m (by omega)
    refine ⟨size', by rw [dsuShrink, if_pos e]; exact e1, ?_, ?_⟩
    · rw [h1]
      have : r ≠ c := by rintro rfl; exact e w.isRoot
      simp [fset, this]
    · intro j hj
      rw [h2 j hj]
      have : j ≠ c := by rintro rfl; exact hj _ (.step _ n r e w)
      simp [fset, this]

theorem makeRoot_ok {s : Dsu κ} {root : κ → κ} (h : DsuOk s root) {a : κ} (ha : a ∈ s.keys) :
    ∃ s', dsuMakeRoot s a = .ok s' ∧ DsuOk s' (fun k => if root k = root a then a else root k) ∧ s'.keys = s.keys := by
  rw [dsuMakeRoot, if_pos ha]
  by_cases hp : s.parent a = a
  · have hra := (h.root_iff ha).2 hp
    rw [if_neg (by simp [hp])]
    refine ⟨s, rfl, ?_, rfl⟩
    have : (fun k => if root k = root a then a else root k) = root := by
      funext k; split
      · rename_i e; rw [e, hra]
      · rfl
    rw [this]; exact h
  · rw [if_pos hp]
    have hpa := h.closed a ha
    obtain ⟨n, w⟩ := h.walk _ hpa
    rw [h.root_parent ha] at w
    obtain ⟨size', e1, hs1, hs2⟩ := shrink_spec (s.size a) w s.size (s.keys.length + 1) (Nat.lt_succ_of_lt (h.walk_lt w hpa))
    have e1' : dsuShrink (s.size a) (s.keys.length + 1) s (s.parent a) = .ok ({ s with size := size' }, root a) := e1
    rw [e1', ok_bind]
    dsimp only
    have hr := h.root_mem ha
    have hpr := h.parent_root ha
    have hra : root a ≠ a := fun e => hp ((h.root_iff ha).1 e)
    refine ⟨_, rfl, ⟨h.nodup, ?_, ?_, ?_⟩, rfl⟩
    · intro k hk
      simp only [fset]
      split
      · exact ha
      · split
        · exact ha
        · exact h.closed k hk
    · intro k hk
      obtain ⟨n, w⟩ := h.walk k hk
      -- walk from k in the new forest
      have gen : ∀ (n : Nat) (k r : κ), k ∈ s.keys → ParentWalk s k n r → ∃ m, ParentWalk { s with
          size := fset (fset size' (root a) (size' (root a) - size' a)) a (size' (root a))
          parent := fset (fset s.parent (root a) a) a a } k m (if r = root a then a else r) := by
        intro n k r hk w
        induction w with
        | root k e =>
          by_cases hka : k = root a
          · rw [if_pos hka]
            refine ⟨1, .step k 0 a ?_ ?_⟩
            · subst hka
              simp [fset, hra]
              exact fun e => hra e.symm
            · subst hka
              have : (fset (fset s.parent (root a) a) a a) (root a) = a := by simp [fset, hra]
              show ParentWalk _ ((fset (fset s.parent (root a) a) a a) (root a)) 0 a
              rw [this]
              exact .root a (by simp [fset])
          · rw [if_neg hka]
            have : k ≠ a := by rintro rfl; exact hp e
            exact ⟨0, .root k (by simp [fset, hka, this, e])⟩
        | step k n r e w ih =>
          by_cases hka : k = a
          · have : r = root a := by
              obtain ⟨m, w'⟩ := h.walk a ha
              rw [← hka] at w'
              rw [← hka]
              exact ((ParentWalk.step k n r e w).unique w').2
            rw [if_pos this, hka]
            exact ⟨0, .root a (by simp [fset])⟩
          · obtain ⟨m, w'⟩ := ih (h.closed k hk)
            have hkr : k ≠ root a := by rintro rfl; exact e hpr
            have : (fset (fset s.parent (root a) a) a a) k = s.parent k := by simp [fset, hka, hkr]
            refine ⟨m + 1, .step k m _ ?_ ?_⟩
            · show (fset (fset s.parent (root a) a) a a) k ≠ k
              rw [this]; exact e
            · show ParentWalk _ ((fset (fset s.parent (root a) a) a a) k) m _
              rw [this]; exact w'
      exact gen n k (root k) hk w
    · intro r hr' hroot
      dsimp only at hr' hroot ⊢
      by_cases hra' : r = a
      · subst hra'
        simp only [fset, if_true, hs1]
        rw [h.size _ hr (h.root_root ha)]
        congr 1
        apply List.countP_congr
        intro k hk
        by_cases hk' : root k = root r
        · simp [hk']
        · have : ¬ root k = r := by
            intro e
            apply hk'
            have := h.root_root hk
            rw [← this, e]
          simp [hk', this]
      · have hrr : r ≠ root a := by
          rintro rfl
          rw [if_pos (h.root_root ha)] at hroot
          exact hra' hroot.symm
        have hroot' : root r = r := by
          split at hroot
          · exact absurd hroot.symm hra'
          · exact hroot
        simp only [fset, hra', hrr, if_false]
        have hsr : size' r = s.size r := by
          apply hs2
          intro m w'
          obtain ⟨m', w''⟩ := h.walk r hr'
          rw [hroot'] at w''
          exact hrr ((w'.unique w'').2).symm
        rw [hsr, h.size r hr' hroot']
        congr 1
        apply List.countP_congr
        intro k hk
        by_cases hk' : root k = root a
        · have e1 : ¬ root a = r := fun e => hrr e.symm
          have e2 : ¬ a = r := fun e => hra' e.symm
          simp [hk', e1, e2]
        · simp [hk']
/-! ## Histories -/

/-- The object `s` represents the partition `p`. -/
structure DsuRep (s : Dsu κ) (p : Partition κ) (root : κ → κ) : Prop where
  ok : DsuOk s root
  keys : s.keys = p.keys
  pairs : ∀ q ∈ p.pairs, q.1 ∈ p.keys ∧ q.2 ∈ p.keys
  rel : ∀ a ∈ p.keys, ∀ b ∈ p.keys, (root a = root b ↔ Joined p.pairs a b)

theorem joined_classes {keys : List κ} {pairs : List (κ × κ)} {f : κ → κ}
    (hp : ∀ q ∈ pairs, (q.1 ∈ keys ∧ q.2 ∈ keys) ∧ f q.1 = f q.2) {a b : κ} (h : Joined pairs a b) :
    a = b ∨ (a ∈ keys ∧ b ∈ keys ∧ f a = f b) := by
  induction h with
  | refl a => exact Or.inl rfl
  | pair a b h => have := hp _ h; exact Or.inr ⟨this.1.1, this.1.2, this.2⟩
  | symm a b h ih => grind
  | trans a b c h1 h2 ih1 ih2 => grind

theorem Joined.mono {p q : List (κ × κ)} (hpq : ∀ x ∈ p, x ∈ q) {a b : κ} (h : Joined p a b) : Joined q a b := by
  induction h with
  | refl a => exact .refl a
  | pair a b h => exact .pair a b (hpq _ h)
  | symm a b h ih => exact .symm _ _ ih
  | trans a b c h1 h2 ih1 ih2 => exact .trans _ _ _ ih1 ih2

/-- A function whose classes are exactly one join coarser represents the extended pairs. -/
theorem rel_extend {keys : List κ} {pairs : List (κ × κ)} {root root' : κ → κ} {a b : κ} (ha : a ∈ keys) (hb : b ∈ keys)
    (hp : ∀ q ∈ pairs, q.1 ∈ keys ∧ q.2 ∈ keys) (h : ∀ x ∈ keys, ∀ y ∈ keys, (root x = root y ↔ Joined pairs x y))
    (h' : ∀ x ∈ keys, ∀ y ∈ keys, (root' x = root' y ↔ root x = root y ∨ (root x = root a ∧ root y = root b) ∨ (root x = root b ∧ root y = root a))) :
    ∀ x ∈ keys, ∀ y ∈ keys, (root' x = root' y ↔ Joined (pairs ++ [(a, b)]) x y) := by
  intro x hx y hy
  have hab : Joined (pairs ++ [(a, b)]) a b := .pair _ _ (by simp)
  have hm : ∀ {u v}, Joined pairs u v → Joined (pairs ++ [(a, b)]) u v := fun w => w.mono (by simp +contextual)
  constructor
  · intro e
    rcases (h' x hx y hy).1 e with e | ⟨e1, e2⟩ | ⟨e1, e2⟩
    · exact hm ((h x hx y hy).1 e)
    · exact .trans _ _ _ (hm ((h x hx a ha).1 e1)) (.trans _ _ _ hab (.symm _ _ (hm ((h y hy b hb).1 e2))))
    · exact .trans _ _ _ (hm ((h x hx b hb).1 e1)) (.trans _ _ _ (.symm _ _ hab) (.symm _ _ (hm ((h y hy a ha).1 e2))))
  · intro j
    have hc : ∀ q ∈ pairs ++ [(a, b)], (q.1 ∈ keys ∧ q.2 ∈ keys) ∧ root' q.1 = root' q.2 := by
      intro q hq
      rcases List.mem_append.1 hq with hq | hq
      · refine ⟨hp q hq, ?_⟩
        obtain ⟨m1, m2⟩ := hp q hq
        exact (h' _ m1 _ m2).2 (Or.inl ((h _ m1 _ m2).2 (.pair _ _ hq)))
      · have : q = (a, b) := by simpa using hq
        subst this
        exact ⟨⟨ha, hb⟩, (h' _ ha _ hb).2 (Or.inr (Or.inl ⟨rfl, rfl⟩))⟩
    rcases joined_classes hc j with e | ⟨_, _, e⟩
    · rw [e]
    · exact e

theorem DsuRep.not_mem_error {s : Dsu κ} {p : Partition κ} {root : κ → κ} (h : DsuRep s p root) {a : κ} (ha : a ∉ p.keys) :
    dsuFind s a = .error .keyError := by
  rw [dsuFind, if_neg (by rw [h.keys]; exact ha)]

theorem union_error {s : Dsu κ} {p : Partition κ} {root : κ → κ} (h : DsuRep s p root) {a b : κ} (hab : ¬ (a ∈ p.keys ∧ b ∈ p.keys)) :
    dsuUnion s a b = .error .keyError := by
  by_cases ha : a ∈ p.keys
  · have hb : b ∉ p.keys := fun hb => hab ⟨ha, hb⟩
    rw [dsuUnion, find_eq h.ok (by rw [h.keys]; exact ha), ok_bind]
    dsimp only
    rw [h.not_mem_error hb]; rfl
  · rw [dsuUnion, h.not_mem_error ha]; rfl

theorem makeRoot_rep {s : Dsu κ} {p : Partition κ} {root : κ → κ} (h : DsuRep s p root) {a : κ} (ha : a ∈ p.keys) :
    ∃ s', dsuMakeRoot s a = .ok s' ∧ DsuRep s' p (fun k => if root k = root a then a else root k) := by
  obtain ⟨s', e, h1, h2⟩ := makeRoot_ok h.ok (a := a) (by rw [h.keys]; exact ha)
  refine ⟨s', e, h1, by rw [h2, h.keys], h.pairs, ?_⟩
  intro x hx y hy
  rw [← h.rel x hx y hy]
  have k1 := h.ok.root_root (k := x) (by rw [h.keys]; exact hx)
  have k2 := h.ok.root_root (k := y) (by rw [h.keys]; exact hy)
  by_cases e1 : root x = root a <;> by_cases e2 : root y = root a <;> simp only [e1, e2, if_true, if_false] <;> grind

theorem step_rep {s : Dsu κ} {p : Partition κ} {root : κ → κ} (h : DsuRep s p root) (op : DsuOp κ) :
    ∃ root', DsuRep (dsuStep s op) (dsuSpec p op) root' := by
  cases op with
  | make k =>
    simp only [dsuStep, dsuSpec]
    by_cases hk : k ∈ p.keys
    · rw [if_pos hk, dsuMake, if_pos (by rw [h.keys]; exact hk)]
      exact ⟨root, h⟩
    · rw [if_neg hk]
      have hk' : k ∉ s.keys := by rw [h.keys]; exact hk
      refine ⟨_, make_ok h.ok hk', ?_, ?_, ?_⟩
      · rw [dsuMake, if_neg hk']; simp [h.keys]
      · intro q hq
        have := h.pairs q hq
        exact ⟨List.mem_append_left _ this.1, List.mem_append_left _ this.2⟩
      · intro a ha b hb
        dsimp only at ha hb ⊢
        have hroot : ∀ j ∈ p.keys, root j ≠ k := by
          intro j hj e
          exact hk' (e ▸ h.ok.root_mem (by rw [h.keys]; exact hj))
        have hno : ∀ j ∈ p.keys, ¬ Joined p.pairs j k := by
          intro j hj w
          rcases joined_classes (keys := p.keys) (f := fun _ => k) (fun q hq => ⟨h.pairs q hq, rfl⟩) w with e | ⟨_, e, _⟩
          · exact hk (e ▸ hj)
          · exact hk e
        by_cases ea : a = k <;> by_cases eb : b = k
        · subst ea; subst eb; simp only [true_iff]; exact .refl _
        · subst ea
          have hb' : b ∈ p.keys := by simpa [eb] using hb
          simp only [fset, if_true, eb, if_false]
          exact ⟨fun e => absurd e.symm (hroot b hb'), fun w => absurd (.symm _ _ w) (hno b hb')⟩
        · subst eb
          have ha' : a ∈ p.keys := by simpa [ea] using ha
          simp only [fset, if_true, ea, if_false]
          exact ⟨fun e => absurd e (hroot a ha'), fun w => absurd w (hno a ha')⟩
        · have ha' : a ∈ p.keys := by simpa [ea] using ha
          have hb' : b ∈ p.keys := by simpa [eb] using hb
          simp only [fset, ea, eb, if_false]
          exact h.rel a ha' b hb'
  | union a b =>
    simp only [dsuStep, dsuSpec]
    by_cases hab : a ∈ p.keys ∧ b ∈ p.keys
    · rw [if_pos hab]
      obtain ⟨ha, hb⟩ := hab
      obtain ⟨s', root', e, h1, h2, h3⟩ := union_ok h.ok (a := a) (b := b) (by rw [h.keys]; exact ha) (by rw [h.keys]; exact hb)
      rw [e]
      dsimp only
      rw [h.keys] at h3
      refine ⟨root', h1, by rw [h2, h.keys], ?_, rel_extend ha hb h.pairs h.rel h3⟩
      intro q hq
      rcases List.mem_append.1 hq with hq | hq
      · exact h.pairs q hq
      · have : q = (a, b) := by simpa using hq
        subst this; exact ⟨ha, hb⟩
    · rw [if_neg hab, union_error h hab]
      exact ⟨root, h⟩
  | makeRoot k =>
    simp only [dsuStep, dsuSpec]
    by_cases hk : k ∈ p.keys
    · obtain ⟨s', e, h'⟩ := makeRoot_rep h hk
      rw [e]; exact ⟨_, h'⟩
    · rw [dsuMakeRoot, if_neg (by rw [h.keys]; exact hk)]
      exact ⟨root, h⟩

/-- The object after a history of calls, and the partition the history describes. -/
def dsuAfter (ops : List (DsuOp κ)) : Dsu κ := ops.foldl dsuStep dsuNew
def partitionAfter (ops : List (DsuOp κ)) : Partition κ := ops.foldl dsuSpec ⟨[], []⟩

theorem after_rep (ops : List (DsuOp κ)) : ∃ root, DsuRep (dsuAfter ops) (partitionAfter ops) root := by
  have gen : ∀ (ops : List (DsuOp κ)) (s : Dsu κ) (p : Partition κ) (root : κ → κ), DsuRep s p root →
      ∃ root, DsuRep (ops.foldl dsuStep s) (ops.foldl dsuSpec p) root := by
    intro ops
    induction ops with
    | nil => intro s p root h; exact ⟨root, h⟩
    | cons op ops ih =>
      intro s p root h
      obtain ⟨root', h'⟩ := step_rep h op
      exact ih _ _ root' h'
  refine gen ops dsuNew ⟨[], []⟩ id ⟨⟨List.nodup_nil, ?_, ?_, ?_⟩, rfl, ?_, ?_⟩
  all_goals intro a ha; simp [dsuNew] at ha

/-! ## Theorems -/

/-- C44: after any history, a query about a key that was never made raises `KeyError`. -/
theorem C44_unknown (ops : List (DsuOp κ)) (a : κ) (ha : a ∉ (partitionAfter ops).keys) :
    dsuFind (dsuAfter ops) a = .error .keyError ∧ dsuSize (dsuAfter ops) a = .error .keyError ∧
    dsuMakeRoot (dsuAfter ops) a = .error .keyError ∧
    ∀ b, dsuUnion (dsuAfter ops) a b = .error .keyError ∧ dsuUnion (dsuAfter ops) b a = .error .keyError := by
  obtain ⟨root, h⟩ := after_rep ops
  have ha' : a ∉ (dsuAfter ops).keys := by rw [h.keys]; exact ha
  refine ⟨h.not_mem_error ha, ?_, ?_, fun b => ⟨union_error h fun hab => ha hab.1, union_error h fun hab => ha hab.2⟩⟩
  · rw [dsuSize, if_neg ha']
  · rw [dsuMakeRoot, if_neg ha']

/-- C44: after any history, `find_root` of a known key succeeds, returns a member of the key's own set, and returns the same object for two
keys exactly when unions have connected them. -/
theorem C44_find (ops : List (DsuOp κ)) : ∃ rep : κ → κ,
    (∀ a ∈ (partitionAfter ops).keys, (∃ s', dsuFind (dsuAfter ops) a = .ok (s', rep a)) ∧ rep a ∈ (partitionAfter ops).keys ∧
      Joined (partitionAfter ops).pairs a (rep a)) ∧
    ∀ a ∈ (partitionAfter ops).keys, ∀ b ∈ (partitionAfter ops).keys, (rep a = rep b ↔ Joined (partitionAfter ops).pairs a b) := by
  obtain ⟨root, h⟩ := after_rep ops
  refine ⟨root, ?_, h.rel⟩
  intro a ha
  have ha' : a ∈ (dsuAfter ops).keys := by rw [h.keys]; exact ha
  have hm : root a ∈ (partitionAfter ops).keys := by rw [← h.keys]; exact h.ok.root_mem ha'
  exact ⟨⟨_, find_eq h.ok ha'⟩, hm, (h.rel a ha _ hm).1 (h.ok.root_root ha').symm⟩

/-- C44: looking up a root has no observable effect: the object is unchanged. -/
theorem C44_find_pure (ops : List (DsuOp κ)) (a r : κ) (s' : Dsu κ) (e : dsuFind (dsuAfter ops) a = .ok (s', r)) : s' = dsuAfter ops := by
  obtain ⟨root, h⟩ := after_rep ops
  by_cases ha : a ∈ (dsuAfter ops).keys
  · rw [find_eq h.ok ha] at e; cases e; rfl
  · rw [dsuFind, if_neg ha] at e; cases e

/-- C44: `find_size` is the number of keys connected to the key. -/
theorem C44_size (ops : List (DsuOp κ)) (a : κ) (ha : a ∈ (partitionAfter ops).keys) :
    ∃ members : List κ, members.Nodup ∧ (∀ b, b ∈ members ↔ b ∈ (partitionAfter ops).keys ∧ Joined (partitionAfter ops).pairs a b) ∧
      dsuSize (dsuAfter ops) a = .ok (members.length : Int) := by
  obtain ⟨root, h⟩ := after_rep ops
  have ha' : a ∈ (dsuAfter ops).keys := by rw [h.keys]; exact ha
  refine ⟨(dsuAfter ops).keys.filter fun b => decide (root b = root a), h.ok.nodup.filter _, ?_, ?_⟩
  · intro b
    rw [List.mem_filter, h.keys, decide_eq_true_eq]
    constructor
    · rintro ⟨hb, e⟩; exact ⟨hb, (h.rel a ha b hb).1 e.symm⟩
    · rintro ⟨hb, j⟩; exact ⟨hb, ((h.rel a ha b hb).2 j).symm⟩
  · rw [dsuSize, if_pos ha', find_eq h.ok ha', ok_bind]
    dsimp only
    rw [h.ok.size _ (h.ok.root_mem ha') (h.ok.root_root ha'), List.countP_eq_length_filter]

/-- C44: after `make_root(a)` on a known key, `find_root` of every key connected to `a` is `a`. -/
theorem C44_make_root (ops : List (DsuOp κ)) (a b : κ) (ha : a ∈ (partitionAfter ops).keys) (hb : b ∈ (partitionAfter ops).keys)
    (hab : Joined (partitionAfter ops).pairs a b) :
    ∃ s', dsuMakeRoot (dsuAfter ops) a = .ok s' ∧ ∃ s'', dsuFind s' b = .ok (s'', a) := by
  obtain ⟨root, h⟩ := after_rep ops
  obtain ⟨s', e, h'⟩ := makeRoot_rep h ha
  have hb' : b ∈ s'.keys := by rw [h'.keys]; exact hb
  have := find_eq h'.ok hb'
  rw [if_pos ((h.rel a ha b hb).2 hab).symm] at this
  exact ⟨s', e, _, this⟩

/-! ### disjoint_sets -/

/-- Grouping by a function, one key at a time. -/
theorem groupAdd_spec (root : κ → κ) (key : κ) : ∀ (g : List (κ × List κ)) (done : List κ),
    (g.map Prod.fst).Nodup → (∀ e ∈ g, e.2 ≠ [] ∧ ∀ x ∈ e.2, root x = e.1) → (g.flatMap Prod.snd).Perm done →
    ((groupAdd (root key) key g).map Prod.fst).Nodup ∧ (∀ e ∈ groupAdd (root key) key g, e.2 ≠ [] ∧ ∀ x ∈ e.2, root x = e.1) ∧
      ((groupAdd (root key) key g).flatMap Prod.snd).Perm (done ++ [key]) ∧
      (∀ r, r ∈ (groupAdd (root key) key g).map Prod.fst → r = root key ∨ r ∈ g.map Prod.fst) := by
  intro g
  induction g with
  | nil =>
    intro done _ _ h3
    have : done = [] := by simpa using h3
    subst this
    simp [groupAdd]
  | cons e g ih =>
    intro done h1 h2 h3
    obtain ⟨r', l⟩ := e
    rw [groupAdd]
    by_cases hr : r' = root key
    · rw [if_pos hr]
      refine ⟨by simpa using h1, ?_, ?_, by intro r h; right; simpa using h⟩
      · intro e he
        rcases List.mem_cons.1 he with rfl | he
        · refine ⟨by simp, ?_⟩
          intro x hx
          rcases List.mem_append.1 hx with hx | hx
          · exact (h2 (r', l) (by simp)).2 x hx
          · have : x = key := by simpa using hx
            rw [this, hr]
        · exact h2 e (by simp [he])
      · simp only [List.flatMap_cons] at h3 ⊢
        have : (l ++ [key] ++ g.flatMap Prod.snd).Perm ((l ++ g.flatMap Prod.snd) ++ [key]) := by
          rw [List.append_assoc, List.append_assoc]
          exact List.Perm.append_left _ List.perm_append_comm
        exact this.trans (h3.append_right _)
    · rw [if_neg hr]
      simp only [List.map_cons, List.nodup_cons] at h1
      obtain ⟨i1, i2, i3, i4⟩ := ih _ h1.2 (fun e he => h2 e (by simp [he])) (List.Perm.refl _)
      refine ⟨?_, ?_, ?_, ?_⟩
      · simp only [List.map_cons, List.nodup_cons]
        refine ⟨?_, i1⟩
        intro hm
        rcases i4 _ hm with e | e
        · exact hr e
        · exact h1.1 e
      · intro e he
        rcases List.mem_cons.1 he with rfl | he
        · exact h2 _ (by simp)
        · exact i2 e he
      · simp only [List.flatMap_cons] at h3 ⊢
        refine (List.Perm.append_left l i3).trans ?_
        rw [← List.append_assoc]
        exact h3.append_right _
      · intro r h
        simp only [List.map_cons, List.mem_cons] at h
        rcases h with rfl | h
        · right; simp
        · rcases i4 r h with e | e
          · exact Or.inl e
          · right; simp [e]

/-- C44: `disjoint_sets` lists every known key exactly once, in non-empty groups, two keys in the same group exactly when unions have
connected them. -/
theorem C44_disjoint_sets (ops : List (DsuOp κ)) : ∃ groups, dsuGroups (dsuAfter ops) = .ok groups ∧
    groups.flatten.Perm (partitionAfter ops).keys ∧ (partitionAfter ops).keys.Nodup ∧ (∀ g ∈ groups, g ≠ []) ∧
    (∀ g ∈ groups, ∀ a ∈ g, ∀ b, b ∈ g ↔ b ∈ (partitionAfter ops).keys ∧ Joined (partitionAfter ops).pairs a b) := by
  obtain ⟨root, h⟩ := after_rep ops
  have hnd : (partitionAfter ops).keys.Nodup := by rw [← h.keys]; exact h.ok.nodup
  have loop : ∀ (rest done : List κ) (g : List (κ × List κ)), (∀ k ∈ rest, k ∈ (dsuAfter ops).keys) →
      (g.map Prod.fst).Nodup → (∀ e ∈ g, e.2 ≠ [] ∧ ∀ x ∈ e.2, root x = e.1) → (g.flatMap Prod.snd).Perm done →
      ∃ g', (forList rest (dsuAfter ops, g) fun key (st : Dsu κ × List (κ × List κ)) => do
          let (s, r) ← dsuFind st.1 key
          .ok (s, groupAdd r key st.2)) = .ok (dsuAfter ops, g') ∧
        (g'.map Prod.fst).Nodup ∧ (∀ e ∈ g', e.2 ≠ [] ∧ ∀ x ∈ e.2, root x = e.1) ∧ (g'.flatMap Prod.snd).Perm (done ++ rest) := by
    intro rest
    induction rest with
    | nil => intro done g _ h1 h2 h3; exact ⟨g, rfl, h1, h2, by simpa using h3⟩
    | cons k rest ih =>
      intro done g hk h1 h2 h3
      obtain ⟨i1, i2, i3, _⟩ := groupAdd_spec root k g done h1 h2 h3
      obtain ⟨g', e, j1, j2, j3⟩ := ih (done ++ [k]) _ (fun x hx => hk x (by simp [hx])) i1 i2 i3
      refine ⟨g', ?_, j1, j2, by simpa using j3⟩
      rw [forList]
      dsimp only
      rw [find_eq h.ok (hk k (by simp))]
      exact e
  obtain ⟨g, e, h1, h2, h3⟩ := loop (dsuAfter ops).keys [] [] (fun _ hk => hk) (by simp) (by simp) (by simp)
  refine ⟨g.map Prod.snd, ?_, ?_, hnd, ?_, ?_⟩
  · rw [dsuGroups, e]; rfl
  · rw [← h.keys]
    simpa [List.flatMap] using h3
  · intro l hl
    obtain ⟨e, he, rfl⟩ := List.mem_map.1 hl
    exact (h2 e he).1
  · intro l hl a ha b
    obtain ⟨e, he, rfl⟩ := List.mem_map.1 hl
    have hmem : ∀ x, x ∈ (partitionAfter ops).keys ↔ ∃ e ∈ g, x ∈ e.2 := by
      intro x
      rw [← h.keys, ← (by simpa using h3 : (g.flatMap Prod.snd).Perm (dsuAfter ops).keys).mem_iff, List.mem_flatMap]
    have hak := (hmem a).2 ⟨e, he, ha⟩
    constructor
    · intro hb
      have hbk := (hmem b).2 ⟨e, he, hb⟩
      refine ⟨hbk, (h.rel a hak b hbk).1 ?_⟩
      rw [(h2 e he).2 a ha, (h2 e he).2 b hb]
    · rintro ⟨hbk, j⟩
      obtain ⟨e', he', hb⟩ := (hmem b).1 hbk
      have hr : e'.1 = e.1 := by
        rw [← (h2 e' he').2 b hb, ← (h2 e he).2 a ha]; exact ((h.rel a hak b hbk).2 j).symm
      have : e' = e := by
        obtain ⟨i, hi, rfl⟩ := List.mem_iff_getElem.1 he
        obtain ⟨j, hj, rfl⟩ := List.mem_iff_getElem.1 he'
        have hp := List.pairwise_iff_getElem.1 h1
        have : i = j := by
          rcases Nat.lt_trichotomy i j with c | c | c
          · exact absurd (by rw [List.getElem_map, List.getElem_map]; exact hr.symm) (hp i j (by simpa using hi) (by simpa using hj) c)
          · exact c
          · exact absurd (by rw [List.getElem_map, List.getElem_map]; exact hr) (hp j i (by simpa using hj) (by simpa using hi) c)
        subst this; rfl
      rw [← this]; exact hb

/-! ### Non-vacuity -/

example : (partitionAfter [.make 1, .make 2, .make 3, .union 1 2, .makeRoot 2, .union 3 9] : Partition Nat).keys = [1, 2, 3] := by decide
example : dsuSize (dsuAfter [.make 1, .make 2, .make 3, .union 1 2, .makeRoot 2, .union 3 9] : Dsu Nat) 1 = .ok 2 := by rfl
example : Joined (partitionAfter [.make 1, .make 2, .make 3, .union 1 2] : Partition Nat).pairs 1 2 := .pair _ _ (by decide)

end Props
