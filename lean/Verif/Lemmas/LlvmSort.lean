import Verif.Lemmas.Llvm

/-! # The passes of the generated bubble sort sort the buffer -/
open Py Spec Model.Llvm
namespace Props
variable {ε : Type} {gt : ε → ε → Bool} {le : ε → ε → Prop}

/-- `gt` is the strict part of `le`, as far as sorting needs it. -/
structure GtOf (gt : ε → ε → Bool) (le : ε → ε → Prop) : Prop where
  yes : ∀ x y, gt x y = true → le y x
  no : ∀ x y, gt x y = false → le x y

theorem settle_perm (m : List ε) (k : Nat) : (settle gt m k).Perm m := by
  unfold settle
  split
  · next x y hx hy =>
    split
    · obtain ⟨h1, rfl⟩ := List.getElem?_eq_some_iff.1 hx
      obtain ⟨h2, rfl⟩ := List.getElem?_eq_some_iff.1 hy
      exact List.set_set_perm h1 h2
    · exact .refl _
  · exact .refl _

theorem settle_get (g : GtOf gt le) (ho : TotalPreorder le) {m : List ε} {k : Nat} (h : k + 1 < m.length) :
    (∀ t, t ≠ k → t ≠ k + 1 → (settle gt m k)[t]? = m[t]?) ∧
    (((settle gt m k)[k]? = m[k]? ∧ (settle gt m k)[k + 1]? = m[k + 1]? ∧ le m[k] m[k + 1]) ∨
      ((settle gt m k)[k]? = m[k + 1]? ∧ (settle gt m k)[k + 1]? = m[k]? ∧ le m[k + 1] m[k])) := by
  have hx : m[k]? = some m[k] := List.getElem?_eq_getElem (by omega)
  have hy : m[k + 1]? = some m[k + 1] := List.getElem?_eq_getElem (by omega)
  have e : settle gt m k = if gt m[k] m[k + 1] then (m.set k m[k + 1]).set (k + 1) m[k] else m := by
    unfold settle; rw [hx, hy]
  rw [e]
  cases hg : gt m[k] m[k + 1] with
  | false => exact ⟨fun _ _ _ => by simp, .inl ⟨by simp, by simp, g.no _ _ hg⟩⟩
  | true =>
    refine ⟨fun t h1 h2 => ?_, .inr ⟨?_, ?_, g.yes _ _ hg⟩⟩
    · simp [List.getElem?_set, Ne.symm h1, Ne.symm h2]
    · have : k < m.length := by omega
      simp [List.getElem?_set, this, hy]
    · simp [List.getElem?_set, h, hx]

/-- What one pass up to `L` achieves, after its first `k` comparisons. -/
structure Passed (le : ε → ε → Prop) (m b : List ε) (L k : Nat) : Prop where
  perm : b.Perm m
  rest : ∀ t, L < t → b[t]? = m[t]?
  from_ : ∀ t x, t ≤ L → b[t]? = some x → ∃ u : Nat, u ≤ L ∧ m[u]? = some x
  top : ∀ t x y, t < k → b[t]? = some x → b[k]? = some y → le x y

theorem pass_upto (g : GtOf gt le) (ho : TotalPreorder le) (m : List ε) (L : Nat) (hL : L < m.length) :
    ∀ k, k ≤ L → Passed le m ((List.range' 0 k).foldl (settle gt) m) L k := by
  intro k
  induction k with
  | zero => intro _; exact ⟨.refl _, fun _ _ => rfl, fun t x h e => ⟨t, h, e⟩, fun t _ _ h => absurd h (by omega)⟩
  | succ k ih =>
    intro hk
    have p := ih (by omega)
    rw [List.range'_concat, List.foldl_append]
    generalize (List.range' 0 k).foldl (settle gt) m = b at p
    simp only [List.foldl_cons, List.foldl_nil, Nat.zero_add, Nat.one_mul]
    have hlen : b.length = m.length := p.perm.length_eq
    have hb : k + 1 < b.length := by omega
    obtain ⟨s1, s2⟩ := settle_get g ho hb
    have bk : b[k]? = some b[k] := List.getElem?_eq_getElem (by omega)
    have bk1 : b[k + 1]? = some b[k + 1] := List.getElem?_eq_getElem (by omega)
    refine ⟨(settle_perm b k).trans p.perm, fun t ht => ?_, fun t x ht e => ?_, fun t x y ht ex ey => ?_⟩
    · rw [s1 t (by omega) (by omega)]; exact p.rest t ht
    · by_cases h1 : t = k
      · subst h1
        rcases s2 with ⟨q, -, -⟩ | ⟨q, -, -⟩ <;> rw [q] at e
        · exact p.from_ _ x ht e
        · exact p.from_ _ x (by omega) e
      · by_cases h2 : t = k + 1
        · subst h2
          rcases s2 with ⟨-, q, -⟩ | ⟨-, q, -⟩ <;> rw [q] at e
          · exact p.from_ _ x ht e
          · exact p.from_ _ x (by omega) e
        · rw [s1 t h1 h2] at e; exact p.from_ _ x ht e
    · have hxk : ∀ x, b[t]? = some x → t < k → le x b[k] := fun x e h => p.top t x _ h e bk
      by_cases h1 : t = k
      · subst h1
        rcases s2 with ⟨q1, q2, q3⟩ | ⟨q1, q2, q3⟩ <;> rw [q1] at ex <;> rw [q2] at ey
        · rw [bk] at ex; rw [bk1] at ey; cases ex; cases ey; exact q3
        · rw [bk1] at ex; rw [bk] at ey; cases ex; cases ey; exact q3
      · have htk : t < k := by omega
        rw [s1 t (by omega) (by omega)] at ex
        have hle := hxk x ex htk
        rcases s2 with ⟨q1, q2, q3⟩ | ⟨q1, q2, q3⟩ <;> rw [q2] at ey
        · rw [bk1] at ey; cases ey; exact ho.trans _ _ _ hle q3
        · rw [bk] at ey; cases ey; exact hle

/-- All passes sort. -/
theorem bubbled_sorts (g : GtOf gt le) (ho : TotalPreorder le) (m : List ε) :
    (bubbled gt m).Perm m ∧ (bubbled gt m).Pairwise le := by
  have key : ∀ i, i ≤ m.length - 1 →
      let b := (List.range' 0 i).foldl (fun b i => pass gt b (m.length - 1 - i)) m
      b.Perm m ∧ ∀ a c x y, a < c → m.length - i ≤ c → b[a]? = some x → b[c]? = some y → le x y := by
    intro i
    induction i with
    | zero =>
      intro _
      refine ⟨.refl _, fun a c x y _ h _ e => ?_⟩
      simp only [List.range'_zero, List.foldl_nil] at e
      have := (List.getElem?_eq_some_iff.1 e).1
      omega
    | succ i ih =>
      intro hi
      obtain ⟨hp, hs⟩ := ih (by omega)
      dsimp only
      rw [List.range'_concat, List.foldl_append]
      generalize (List.range' 0 i).foldl (fun b i => pass gt b (m.length - 1 - i)) m = b at hp hs
      simp only [List.foldl_cons, List.foldl_nil, Nat.zero_add, Nat.one_mul]
      have hlen := hp.length_eq
      have p := pass_upto g ho b (m.length - 1 - i) (by omega) (m.length - 1 - i) (Nat.le_refl _)
      refine ⟨p.perm.trans hp, fun a c x y hac hc ex ey => ?_⟩
      unfold pass at ex ey
      by_cases h1 : c = m.length - 1 - i
      · subst h1; exact p.top a x y hac ex ey
      · have h2 : m.length - 1 - i < c := by omega
        rw [p.rest c h2] at ey
        by_cases h3 : m.length - 1 - i < a
        · rw [p.rest a h3] at ex; exact hs a c x y hac (by omega) ex ey
        · obtain ⟨u, hu, eu⟩ := p.from_ a x (by omega) ex
          exact hs u c x y (by omega) (by omega) eu ey
  obtain ⟨hp, hs⟩ := key (m.length - 1) (Nat.le_refl _)
  refine ⟨hp, List.pairwise_iff_getElem.2 fun i j hi hj hij => ?_⟩
  have hlen := hp.length_eq
  have hj' : j < m.length := by
    have : (bubbled gt m).length = m.length := hlen
    omega
  exact hs i j _ _ hij (by omega) (List.getElem?_eq_getElem hi) (List.getElem?_eq_getElem hj)

end Props
