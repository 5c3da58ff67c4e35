import Mathlib.Data.List.Permutation
import Verif.Props.PermExact

/-!
# C128: stepping through all arrangements

The loop a user writes around `next_permutation`:

```
while True:
    yield p
    more, p = next_permutation(p)
    if not more: break
```
-/
namespace Props
open Py Spec Model
variable {α : Type}

/-- The arrangements the loop yields, beginning with `p`; `fuel` bounds the loops inside `next_permutation`, the second number the rounds of the
loop itself. -/
def arrangements (comp : α → α → Bool) (fuel : Nat) : Nat → List α → PyM (List (List α))
  | 0, _ => .error .outOfFuel
  | rounds + 1, p => do
    let (more, q) ← nextPermutation comp fuel p 0 p.length
    if more then do
      let rest ← arrangements comp fuel rounds q
      .ok (p :: rest)
    else .ok [p]

theorem lex_trans {lt : α → α → Prop} (h : StrictTotal lt) : ∀ {p q r : List α}, List.Lex lt p q → List.Lex lt q r → List.Lex lt p r := by
  intro p q r h1
  induction h1 generalizing r with
  | nil => intro h2; cases h2 <;> exact .nil
  | rel hab =>
    intro h2
    cases h2 with
    | rel hbc => exact .rel (h.trans _ _ _ hab hbc)
    | cons _ => exact .rel hab
  | cons _ ih =>
    intro h2
    cases h2 with
    | rel hbc => exact .rel hbc
    | cons h2 => exact .cons (ih h2)

theorem lex_irrefl {lt : α → α → Prop} (h : StrictTotal lt) : ∀ p : List α, ¬ List.Lex lt p p := by
  intro p
  induction p with
  | nil => intro h1; cases h1
  | cons x p ih =>
    intro h1
    cases h1 with
    | rel hx => exact h.irrefl _ hx
    | cons h1 => exact ih h1

/-- What `next_permutation(p)` gives is determined. -/
theorem next_ends {lt : α → α → Prop} (h : StrictTotal lt) (comp : α → α → Bool) (hcomp : ∀ x y, comp x y = true ↔ lt x y) (p : List α) :
    ∃ b q, EndsWith (fun fuel => nextPermutation comp fuel p 0 p.length) (.ok (b, q)) ∧ q.Perm p ∧
      (b = true → List.Lex lt p q ∧ ∀ r : List α, r.Perm p → List.Lex lt p r → q = r ∨ List.Lex lt q r) ∧
      (b = false → (∀ r : List α, r.Perm p → ¬ List.Lex lt p r) ∧ q.Pairwise (fun x y => ¬ lt y x)) := by
  obtain ⟨n0, hn⟩ := C23_next_permutation h comp hcomp p 0 p.length p (by simp)
  obtain ⟨⟨b, q⟩, e, h1, h2, h3⟩ := hn n0 (Nat.le_refl _)
  refine ⟨b, q, ⟨n0, fun n hf => ?_⟩, h1, h2, h3⟩
  obtain ⟨⟨b', q'⟩, e', h1', h2', h3'⟩ := hn n hf
  dsimp only at *
  rw [e']
  cases b with
  | true =>
    cases b' with
    | false => exact absurd (h2 rfl).1 ((h3' rfl).1 q h1)
    | true =>
      obtain ⟨x1, x2⟩ := h2 rfl
      obtain ⟨y1, y2⟩ := h2' rfl
      rcases x2 q' h1' y1 with rfl | z1
      · rfl
      · rcases y2 q h1 x1 with rfl | z2
        · rfl
        · exact absurd (lex_trans h z1 z2) (lex_irrefl h _)
  | false =>
    cases b' with
    | true => exact absurd (h2' rfl).1 ((h3 rfl).1 q' h1')
    | false =>
      have : q' = q := by
        refine List.Perm.eq_of_pairwise (fun x y _ _ g1 g2 => ?_) (h3' rfl).2 (h3 rfl).2 (h1'.trans h1.symm)
        rcases h.tri x y with g | g | g
        · exact absurd g g2
        · exact g
        · exact absurd g g1
      rw [this]

theorem countP_less {β : Type} {P Q : β → Bool} : ∀ {l : List β}, (∀ x ∈ l, P x = true → Q x = true) → ∀ y ∈ l, Q y = true → P y = false →
    l.countP P < l.countP Q := by
  intro l
  induction l with
  | nil => intro _ y hy; cases hy
  | cons x l ih =>
    intro hPQ y hy hQ hP
    have hle : l.countP P ≤ l.countP Q := List.countP_mono_left fun z hz => hPQ z (List.mem_cons_of_mem _ hz)
    rw [List.countP_cons, List.countP_cons]
    rcases List.mem_cons.mp hy with rfl | hy
    · rw [hP, hQ]; simp; omega
    · have := ih (fun z hz => hPQ z (List.mem_cons_of_mem _ hz)) y hy hQ hP
      have hx := hPQ x (by simp)
      cases hpx : P x with
      | true => rw [hx hpx]; omega
      | false => simp; omega

/-- **C128** Beginning with any arrangement, the loop ends and lists that arrangement and all lexicographically greater ones in increasing order,
each once. -/
theorem C128_from {lt : α → α → Prop} (h : StrictTotal lt) (comp : α → α → Bool) (hcomp : ∀ x y, comp x y = true ↔ lt x y) (p : List α) :
    ∃ L, EndsWith (fun n => arrangements comp n n p) (.ok L) ∧ L.Pairwise (List.Lex lt) ∧
      ∀ q, q ∈ L ↔ q.Perm p ∧ (q = p ∨ List.Lex lt p q) := by
  classical
  have key : ∀ (m : Nat) (u : List α), u.Perm p → (p.permutations.countP fun r => decide (List.Lex lt u r)) ≤ m →
      ∃ L n0, (∀ fuel rounds, n0 ≤ fuel → n0 ≤ rounds → arrangements comp fuel rounds u = .ok L) ∧ L.Pairwise (List.Lex lt) ∧
        ∀ q, q ∈ L ↔ q.Perm p ∧ (q = u ∨ List.Lex lt u q) := by
    intro m
    induction m with
    | zero =>
      intro u hu hm
      obtain ⟨b, q, ⟨n0, e⟩, h1, h2, h3⟩ := next_ends h comp hcomp u
      have hno : ∀ r : List α, r.Perm p → ¬ List.Lex lt u r := by
        intro r hr hl
        have : 0 < p.permutations.countP fun r => decide (List.Lex lt u r) :=
          List.countP_pos_iff.mpr ⟨r, List.mem_permutations.mpr hr, by simpa using hl⟩
        omega
      cases b with
      | true => exact absurd (h2 rfl).1 (hno q (h1.trans hu))
      | false =>
        refine ⟨[u], n0 + 1, fun fuel rounds hf hr => ?_, by simp, fun q => ?_⟩
        · obtain ⟨k, rfl⟩ : ∃ k, rounds = k + 1 := ⟨rounds - 1, by omega⟩
          have e' := e fuel (by omega)
          dsimp only at e'
          simp only [arrangements, e', ok_bind]
          rfl
        · rw [List.mem_singleton]
          constructor
          · rintro rfl; exact ⟨hu, .inl rfl⟩
          · rintro ⟨g1, g2 | g2⟩
            · exact g2
            · exact absurd g2 (hno q g1)
    | succ m ih =>
      intro u hu hm
      obtain ⟨b, q, ⟨n0, e⟩, h1, h2, h3⟩ := next_ends h comp hcomp u
      cases b with
      | false =>
        refine ⟨[u], n0 + 1, fun fuel rounds hf hr => ?_, by simp, fun q => ?_⟩
        · obtain ⟨k, rfl⟩ : ∃ k, rounds = k + 1 := ⟨rounds - 1, by omega⟩
          have e' := e fuel (by omega)
          dsimp only at e'
          simp only [arrangements, e', ok_bind]
          rfl
        · rw [List.mem_singleton]
          constructor
          · rintro rfl; exact ⟨hu, .inl rfl⟩
          · rintro ⟨g1, g2 | g2⟩
            · exact g2
            · exact absurd g2 ((h3 rfl).1 q (g1.trans hu.symm))
      | true =>
        obtain ⟨x1, x2⟩ := h2 rfl
        have hq := h1.trans hu
        have hless : (p.permutations.countP fun r => decide (List.Lex lt q r)) < p.permutations.countP fun r => decide (List.Lex lt u r) :=
          countP_less (fun r _ hr => by simp only [decide_eq_true_eq] at hr ⊢; exact lex_trans h x1 hr) q (List.mem_permutations.mpr hq)
            (by simpa using x1) (by simpa using lex_irrefl h q)
        obtain ⟨L, n1, r1, r2, r3⟩ := ih q hq (by omega)
        refine ⟨u :: L, n0 + n1 + 1, fun fuel rounds hf hr => ?_, ?_, fun s => ?_⟩
        · obtain ⟨k, rfl⟩ : ∃ k, rounds = k + 1 := ⟨rounds - 1, by omega⟩
          have e' := e fuel (by omega)
          dsimp only at e'
          simp only [arrangements, e', ok_bind, r1 fuel k (by omega) (by omega)]
          rfl
        · refine List.pairwise_cons.mpr ⟨fun s hs => ?_, r2⟩
          rcases ((r3 s).mp hs).2 with rfl | g
          · exact x1
          · exact lex_trans h x1 g
        · rw [List.mem_cons, r3]
          constructor
          · rintro (rfl | ⟨g1, rfl | g2⟩)
            · exact ⟨hu, .inl rfl⟩
            · exact ⟨g1, .inr x1⟩
            · exact ⟨g1, .inr (lex_trans h x1 g2)⟩
          · rintro ⟨g1, rfl | g2⟩
            · exact .inl rfl
            · rcases x2 s (g1.trans hu.symm) g2 with rfl | g
              · exact .inr ⟨g1, .inl rfl⟩
              · exact .inr ⟨g1, .inr g⟩
  obtain ⟨L, n0, r1, r2, r3⟩ := key _ p (.refl _) (Nat.le_refl _)
  exact ⟨L, ⟨n0, fun n hn => r1 n n hn hn⟩, r2, r3⟩

theorem sorted_least {lt : α → α → Prop} (h : StrictTotal lt) : ∀ {p : List α}, p.Pairwise (fun x y => ¬ lt y x) → ∀ q : List α, q.Perm p →
    q = p ∨ List.Lex lt p q := by
  intro p
  induction p with
  | nil => intro _ q hq; exact .inl (List.perm_nil.mp hq)
  | cons x p ih =>
    intro hp q hq
    obtain ⟨h1, h2⟩ := List.pairwise_cons.mp hp
    cases q with
    | nil => exact absurd hq.length_eq (by simp)
    | cons y q =>
      have hy : y ∈ x :: p := hq.mem_iff.mp (by simp)
      rcases h.tri x y with g | rfl | g
      · exact .inr (.rel g)
      · rcases ih h2 q ((List.perm_cons x).mp hq) with rfl | g
        · exact .inl rfl
        · exact .inr (.cons g)
      · rcases List.mem_cons.mp hy with rfl | hy
        · exact absurd g (h.irrefl _)
        · exact absurd g (h1 y hy)

/-- **C128** Beginning with the sorted arrangement, the loop lists every arrangement of the values exactly once, in lexicographic order, whether
values repeat or not. -/
theorem C128_all {lt : α → α → Prop} (h : StrictTotal lt) (comp : α → α → Bool) (hcomp : ∀ x y, comp x y = true ↔ lt x y) (p : List α)
    (hs : p.Pairwise (fun x y => ¬ lt y x)) :
    ∃ L, EndsWith (fun n => arrangements comp n n p) (.ok L) ∧ L.Pairwise (List.Lex lt) ∧ L.Nodup ∧ ∀ q, q ∈ L ↔ q.Perm p := by
  obtain ⟨L, e, h1, h2⟩ := C128_from h comp hcomp p
  refine ⟨L, e, h1, h1.imp (fun {a b} hab => by rintro rfl; exact lex_irrefl h _ hab), fun q => ?_⟩
  rw [h2]
  exact ⟨fun g => g.1, fun g => ⟨g, sorted_least h hs q g⟩⟩

/-- … `n!` arrangements when the `n` values are different. -/
theorem C128_factorial {lt : α → α → Prop} (h : StrictTotal lt) (comp : α → α → Bool) (hcomp : ∀ x y, comp x y = true ↔ lt x y) (p : List α)
    (hs : p.Pairwise lt) :
    ∃ L, EndsWith (fun n => arrangements comp n n p) (.ok L) ∧ L.Nodup ∧ (∀ q, q ∈ L ↔ q.Perm p) ∧ L.length = p.length.factorial := by
  have hs' : p.Pairwise (fun x y => ¬ lt y x) := hs.imp fun {a b} g g' => h.irrefl _ (h.trans _ _ _ g g')
  have hd : p.Nodup := hs.imp fun {a b} g => by rintro rfl; exact h.irrefl _ g
  obtain ⟨L, e, _, h1, h2⟩ := C128_all h comp hcomp p hs'
  refine ⟨L, e, h1, h2, ?_⟩
  have : L.Perm p.permutations := (List.perm_ext_iff_of_nodup h1 (List.nodup_permutations _ hd)).mpr fun q => by
    rw [h2, List.mem_permutations]
  rw [this.length_eq, List.length_permutations]

/-- The two directions undo each other when the values are different: after `next_permutation` answered `(True, q)`, `prev_permutation(q)` answers
`(True, p)`. -/
theorem C128_back {lt : α → α → Prop} (h : StrictTotal lt) (comp : α → α → Bool) (hcomp : ∀ x y, comp x y = true ↔ lt x y) (p q : List α)
    (hd : p.Nodup) (hn : EndsWith (fun fuel => nextPermutation comp fuel p 0 p.length) (.ok (true, q))) :
    EndsWith (fun fuel => prevPermutation comp fuel q 0 q.length) (.ok (true, p)) := by
  obtain ⟨b, q', e, h1, h2, _⟩ := next_ends h comp hcomp p
  have heq : (b, q') = (true, q) := by
    obtain ⟨n1, e1⟩ := e
    obtain ⟨n2, e2⟩ := hn
    have a := e1 (n1 + n2) (by omega)
    have b := e2 (n1 + n2) (by omega)
    dsimp only at a b
    rw [a] at b
    exact Except.ok.inj b
  obtain ⟨rfl, rfl⟩ := Prod.mk.inj heq
  obtain ⟨x1, x2⟩ := h2 rfl
  obtain ⟨n0, hp⟩ := C24_prev_permutation_partial h comp hcomp q' 0 q'.length q' (by simp) (h1.nodup_iff.mpr hd)
  refine ⟨n0, fun n hn => ?_⟩
  obtain ⟨⟨b, r⟩, e', g1, g2, g3⟩ := hp n hn
  dsimp only at *
  have hflip : ∀ s : List α, s.Perm q' → (List.Lex (fun x y => lt y x) q' s ↔ List.Lex lt s q') := fun s hs => C24_lex_flip q' s hs.length_eq.symm
  rw [e']
  cases b with
  | false => exact absurd ((hflip p h1.symm).mpr x1) ((g3 rfl).1 p h1.symm)
  | true =>
    obtain ⟨y1, y2⟩ := g2 rfl
    rcases y2 p h1.symm ((hflip p h1.symm).mpr x1) with rfl | z
    · rfl
    · exfalso
      have z' : List.Lex lt p r := (C24_lex_flip r p (g1.trans h1).length_eq).mp z
      have y1' := (hflip r g1).mp y1
      rcases x2 r (g1.trans h1) z' with rfl | w
      · exact lex_irrefl h _ y1'
      · exact lex_irrefl h _ (lex_trans h y1' w)

/-! ## The hypotheses are met -/

example : arrangements (fun x y : Int => decide (x < y)) 9 9 [1, 2, 2] = .ok [[1, 2, 2], [2, 1, 2], [2, 2, 1]] := by decide
example : arrangements (fun x y : Int => decide (x < y)) 9 9 [2, 1, 3] = .ok [[2, 1, 3], [2, 3, 1], [3, 1, 2], [3, 2, 1]] := by decide
example := C128_factorial int_strictTotal (fun x y => decide (x < y)) (by simp) [1, 2, 3, 4] (by decide)
example := C128_back int_strictTotal (fun x y => decide (x < y)) (by simp) [2, 1, 3] [2, 3, 1] (by decide)
  ⟨9, fun n hn => by obtain ⟨m, rfl⟩ : ∃ m, n = m + 9 := ⟨n - 9, by omega⟩; rfl⟩

end Props
