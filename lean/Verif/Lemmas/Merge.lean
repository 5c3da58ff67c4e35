import Verif.Lemmas.Bubble

namespace Model
open Py Spec
variable {α β : Type}

private theorem mergeCollect_spec (stop lo hi : Nat) (a : List (Option α)) (hlh : lo ≤ hi) (hs : stop ≤ a.length) :
    ∃ a', mergeCollect stop lo hi a = .ok ((a.drop lo).take (min hi stop - lo), a') ∧ a'.length = a.length ∧
      ∀ i, (i < lo ∨ min hi stop ≤ i) → a'[i]? = a[i]? := by
  obtain ⟨⟨l, a'⟩, e, h1, h2, h3⟩ := forRange_spec (lo := lo) (hi := hi) (s := (([] : List (Option α)), a))
    (body := fun i (l, a) =>
      if i < stop then do
        let x ← rd a i
        let a ← wr a i none
        .ok (l ++ [x], a)
      else .ok (l, a))
    (fun k (s : List (Option α) × List (Option α)) => s.1 = (a.drop lo).take (min k stop - lo) ∧
      s.2.length = a.length ∧ ∀ i, (i < lo ∨ min k stop ≤ i) → s.2[i]? = a[i]?) hlh
    ⟨by simp [Nat.sub_eq_zero_of_le (Nat.min_le_left lo stop)], rfl, fun _ _ => rfl⟩ (by
      rintro k ⟨l, b⟩ g1 g2 ⟨hl, hb, hr⟩
      dsimp only at hl hb hr ⊢
      by_cases hk : k < stop
      · rw [if_pos hk, rd_of_lt (by omega : k < b.length)]
        simp only [ok_bind]
        rw [wr_of_lt _ (by omega)]
        refine ⟨_, rfl, ?_, by simp [hb], ?_⟩
        · have hbk : b[k] = a[k] := by
            have := hr k (by omega)
            rw [List.getElem?_eq_getElem (by omega), List.getElem?_eq_getElem (by omega)] at this
            exact Option.some.inj this
          rw [hl, hbk, show min (k + 1) stop - lo = (min k stop - lo) + 1 by omega,
            List.take_add_one, List.getElem?_drop, show lo + (min k stop - lo) = k by omega,
            List.getElem?_eq_getElem (by omega)]
          rfl
        · intro i hi
          dsimp only
          rw [List.getElem?_set_ne (by omega)]
          exact hr i (by omega)
      · rw [if_neg hk]
        refine ⟨_, rfl, ?_, hb, ?_⟩
        · rw [hl, show min (k + 1) stop = min k stop by omega]
        · intro i hi; exact hr i (by omega))
  refine ⟨a', ?_, h2, h3⟩
  dsimp only at h1
  rw [← h1]; exact e

private theorem writeAll_spec : ∀ (l a : List β) (k : Nat), k + l.length ≤ a.length →
    writeAll l a k = .ok (a.take k ++ l ++ a.drop (k + l.length)) := by
  intro l
  induction l with
  | nil => intro a k h; simp [writeAll]
  | cons x l ih =>
    intro a k h
    simp only [List.length_cons] at h
    rw [writeAll, wr_of_lt _ (by omega)]
    simp only [ok_bind]
    rw [ih _ _ (by simp; omega)]
    congr 1
    have : (a.set k x).take (k + 1) = a.take k ++ [x] := by
      rw [List.take_add_one, List.take_set_of_le (by omega), List.getElem?_set_self (by omega)]
      rfl
    rw [this, List.drop_set_of_lt (by omega)]
    simp [Nat.add_assoc, Nat.add_comm 1]

/-- the elements satisfying `p` are equivalent to each other: one of them never has to overtake another -/
def Alike (c : β → β → Bool) (le : β → β → Prop) (p : β → Bool) : Prop :=
  ∀ x y z, c x y = false → (x = z ∨ le x z) → p y = true → p z = true → False

private theorem mergeWrite_spec {c : β → β → Bool} {le : β → β → Prop} (ho : TotalPreorder le) (hc : Compat c le) :
    ∀ (n : Nat) (l r a : List β) (k : Nat), l.length + r.length = n → k + l.length + r.length ≤ a.length →
      ∃ m, mergeWrite c l r a k = .ok (a.take k ++ m ++ a.drop (k + m.length)) ∧ m.Perm (l ++ r) ∧
        (l.Pairwise le → r.Pairwise le → m.Pairwise le) ∧
        (l.Pairwise le → ∀ p : β → Bool, Alike c le p → m.filter p = (l ++ r).filter p) := by
  have ht := ho.trans
  intro n
  induction n with
  | zero =>
    intro l r a k hn h
    have hl : l = [] := List.length_eq_zero_iff.1 (by omega)
    have hr : r = [] := List.length_eq_zero_iff.1 (by omega)
    subst hl; subst hr
    exact ⟨[], by simp [mergeWrite, writeAll], .refl _, by simp, by simp⟩
  | succ n ih =>
    intro l r a k hn h
    match l, r with
    | [], r =>
      refine ⟨r, ?_, .refl _, fun _ h => h, fun _ _ _ => rfl⟩
      rw [mergeWrite.eq_2, writeAll_spec _ _ _ (by simpa using h)]
    | x :: l, [] =>
      refine ⟨x :: l, ?_, by simp, fun h _ => h, fun _ _ _ => by simp⟩
      rw [mergeWrite.eq_3 _ _ _ _ (by simp), writeAll_spec _ _ _ (by simpa using h)]
    | x :: l, y :: r =>
      simp only [List.length_cons] at hn h
      have key : ∀ (z : β), (a.set k z).take (k + 1) = a.take k ++ [z] := by
        intro z
        rw [List.take_add_one, List.take_set_of_le (by omega), List.getElem?_set_self (by omega)]
        rfl
      rw [mergeWrite.eq_1]
      cases hxy : c x y with
      | true =>
        obtain ⟨m, e, hp, hs, hf⟩ := ih l (y :: r) (a.set k x) (k + 1) (by simp; omega) (by simp; omega)
        refine ⟨x :: m, ?_, by simpa using hp.cons x, ?_, fun h1 p hal => ?_⟩
        · simp only [if_true]
          rw [wr_of_lt _ (by omega)]
          simp only [ok_bind]
          rw [e, key, List.drop_set_of_lt (by omega)]
          simp [Nat.add_assoc, Nat.add_comm 1]
        · intro h1 h2
          rw [List.pairwise_cons] at h1
          rw [List.pairwise_cons]
          refine ⟨?_, hs h1.2 h2⟩
          intro z hz
          rw [hp.mem_iff, List.mem_append, List.mem_cons] at hz
          rw [List.pairwise_cons] at h2
          have := hc.yes _ _ hxy
          rcases hz with hz | rfl | hz
          · exact h1.1 z hz
          · exact this
          · exact ht _ _ _ this (h2.1 z hz)
        · have := hf (List.pairwise_cons.1 h1).2 p hal
          rw [List.filter_cons, this, List.cons_append, List.filter_cons]
      | false =>
        obtain ⟨m, e, hp, hs, hf⟩ := ih (x :: l) r (a.set k y) (k + 1) (by simp; omega) (by simp; omega)
        refine ⟨y :: m, ?_, ?_, ?_, fun h1 p hal => ?_⟩
        · simp only [Bool.false_eq_true, if_false]
          rw [wr_of_lt _ (by omega)]
          simp only [ok_bind]
          rw [e, key, List.drop_set_of_lt (by omega)]
          simp [Nat.add_assoc, Nat.add_comm 1]
        · exact (hp.cons y).trans List.perm_middle.symm
        · intro h1 h2
          rw [List.pairwise_cons] at h2
          rw [List.pairwise_cons]
          refine ⟨?_, hs h1 h2.2⟩
          intro z hz
          rw [hp.mem_iff, List.mem_append, List.mem_cons] at hz
          rw [List.pairwise_cons] at h1
          have := hc.no _ _ hxy
          rcases hz with (rfl | hz) | hz
          · exact this
          · exact ht _ _ _ this (h1.1 z hz)
          · exact h2.1 z hz
        · have := hf h1 p hal
          rw [List.filter_cons, this, List.filter_append, List.filter_append, List.filter_cons (x := y)]
          split
          · rename_i hy
            have : (x :: l).filter p = [] := by
              rw [List.filter_eq_nil_iff]
              intro z hz hpz
              rw [List.mem_cons] at hz
              rcases hz with rfl | hz
              · exact hal _ _ _ hxy (.inl rfl) hy hpz
              · exact hal _ _ _ hxy (.inr ((List.pairwise_cons.1 h1).1 z hz)) hy hpz
            rw [this]; rfl
          · rfl

private theorem sortedRange_slice {le : β → β → Prop} {a : List β} {lo hi : Nat} (hh : hi ≤ a.length) :
    SortedRange le a lo hi ↔ ((a.drop lo).take (hi - lo)).Pairwise le := by
  rw [List.pairwise_iff_getElem]
  constructor
  · intro h p q hp hq hpq
    simp only [List.length_take, List.length_drop] at hp hq
    apply h (lo + p) (lo + q) _ _ (by omega) (by omega) (by omega) <;> simp
  · intro h i j x y h1 h2 h3 hx hy
    have := h (i - lo) (j - lo) (by simp; omega) (by simp; omega) (by omega)
    simp only [List.getElem_take, List.getElem_drop, show lo + (i - lo) = i by omega,
      show lo + (j - lo) = j by omega] at this
    rw [List.getElem?_eq_getElem (by omega)] at hx hy
    rw [← Option.some.inj hx, ← Option.some.inj hy]
    exact this

theorem mergeBlock_spec {comp : α → α → Bool} {le : α → α → Prop} (ho : TotalPreorder le) (hc : Compat comp le)
    (a : List (Option α)) (i p stop : Nat) (hi : i < stop) (hs : stop ≤ a.length) :
    ∃ b, mergeBlock comp a i p stop = .ok b ∧ Rearranged a b i (min (i + 2 * p) stop) ∧
      (SortedRange (noneLast le) a i (min (i + p) stop) →
       SortedRange (noneLast le) a (i + p) (min (i + 2 * p) stop) →
        SortedRange (noneLast le) b i (min (i + 2 * p) stop)) ∧
      (SortedRange (noneLast le) a i (min (i + p) stop) → ∀ q : Option α → Bool,
        Alike (pyComp comp) (noneLast le) q → b.filter q = a.filter q) := by
  obtain ⟨a1, e1, hl1, hr1⟩ := mergeCollect_spec stop i (i + p) a (by omega) hs
  obtain ⟨a2, e2, hl2, hr2⟩ := mergeCollect_spec stop (i + p) (i + 2 * p) a1 (by omega) (by omega)
  have eqr : (a1.drop (i + p)).take (min (i + 2 * p) stop - (i + p))
      = (a.drop (i + p)).take (min (i + 2 * p) stop - (i + p)) := by
    apply List.ext_getElem?
    intro k
    simp only [List.getElem?_take, List.getElem?_drop]
    split
    · exact hr1 _ (by omega)
    · rfl
  rw [eqr] at e2
  obtain ⟨m, e3, hp, hsrt, hflt⟩ := mergeWrite_spec ho.noneLast (pyComp_compat hc) _
    ((a.drop i).take (min (i + p) stop - i)) ((a.drop (i + p)).take (min (i + 2 * p) stop - (i + p))) a2 i rfl
    (by simp; omega)
  have hsplit : (a.drop i).take (min (i + p) stop - i) ++ (a.drop (i + p)).take (min (i + 2 * p) stop - (i + p))
      = (a.drop i).take (min (i + 2 * p) stop - i) := by
    apply List.ext_getElem?
    intro k
    rw [List.getElem?_append]
    simp only [List.getElem?_take, List.getElem?_drop, List.length_take, List.length_drop]
    by_cases h1 : k < min (i + p) stop - i
    · rw [if_pos (by omega), if_pos h1, if_pos (by omega)]
    · rw [if_neg (by omega)]
      by_cases h2 : k < min (i + 2 * p) stop - i
      · rw [if_pos (by omega), if_pos h2]
        congr 1; omega
      · rw [if_neg (by omega), if_neg h2]
  rw [hsplit] at hp hflt
  have hml : m.length = min (i + 2 * p) stop - i := by
    rw [hp.length_eq, List.length_take, List.length_drop]; omega
  have htake : a2.take i = a.take i := by
    apply List.ext_getElem?
    intro k
    simp only [List.getElem?_take]
    split
    · rw [hr2 k (by omega), hr1 k (by omega)]
    · rfl
  have hdrop : a2.drop (i + m.length) = a.drop (i + m.length) := by
    apply List.ext_getElem?
    intro k
    simp only [List.getElem?_drop]
    rw [hr2 _ (by omega), hr1 _ (by omega)]
  rw [htake, hdrop] at e3
  have hlt : (a.take i).length = i := by rw [List.length_take]; omega
  have hdec : a = a.take i ++ (a.drop i).take (min (i + 2 * p) stop - i) ++ a.drop (i + m.length) := by
    rw [List.append_assoc, hml,
      show a.drop (i + (min (i + 2 * p) stop - i)) = (a.drop i).drop (min (i + 2 * p) stop - i) by rw [List.drop_drop],
      List.take_append_drop, List.take_append_drop]
  refine ⟨a.take i ++ m ++ a.drop (i + m.length), ?_, ⟨?_, ?_⟩, ?_, ?_⟩
  · simp only [mergeBlock, e1, e2, ok_bind, e3]
  · have : a = a.take i ++ (a.drop i).take (min (i + 2 * p) stop - i) ++ a.drop (i + m.length) := by
      rw [List.append_assoc, hml,
        show a.drop (i + (min (i + 2 * p) stop - i)) = (a.drop i).drop (min (i + 2 * p) stop - i) by rw [List.drop_drop],
        List.take_append_drop, List.take_append_drop]
    conv => rhs; rw [this]
    exact (hp.append_left _).append_right _
  · intro j hj
    rw [List.append_assoc]
    by_cases h1 : j < i
    · rw [List.getElem?_append_left (by omega), List.getElem?_take_of_lt h1]
    · rw [List.getElem?_append_right (by omega), List.getElem?_append_right (by omega), List.getElem?_drop]
      congr 1; omega
  · intro g1 g2
    rw [sortedRange_slice (by simp; omega)]
    have : ((a.take i ++ m ++ a.drop (i + m.length)).drop i).take (min (i + 2 * p) stop - i) = m := by
      rw [List.append_assoc, List.drop_append_of_le_length (by omega), List.drop_of_length_le (by omega),
        List.nil_append, ← hml, List.take_append_of_le_length (Nat.le_refl _), List.take_length]
    rw [this]
    exact hsrt ((sortedRange_slice (by omega)).1 g1) ((sortedRange_slice (by omega)).1 g2)
  · intro g1 q hq
    conv => rhs; rw [hdec]
    rw [List.filter_append, List.filter_append, List.filter_append, List.filter_append,
      hflt ((sortedRange_slice (by omega)).1 g1) q hq]

/-- blocks of size `p` (counted from `start`) are sorted -/
private def Blocks (le : β → β → Prop) (a : List β) (start stop p : Nat) : Prop :=
  ∀ t, SortedRange le a (start + t * p) (min (start + (t + 1) * p) stop)

private theorem SortedRange.congr {le : β → β → Prop} {a b : List β} {lo hi : Nat} (h : SortedRange le a lo hi)
    (e : ∀ i, lo ≤ i → i < hi → b[i]? = a[i]?) : SortedRange le b lo hi := by
  intro i j x y h1 h2 h3 hx hy
  exact h i j x y h1 h2 h3 (by rw [← e i h1 (by omega)]; exact hx) (by rw [← e j (by omega) h3]; exact hy)

private theorem mergeRound_spec {comp : α → α → Bool} {le : α → α → Prop} (ho : TotalPreorder le)
    (hc : Compat comp le) (a : List (Option α)) (start stop p : Nat) (hp : 0 < p)
    (hs : stop ≤ a.length) (hb : Blocks (noneLast le) a start stop p) (fuel : Nat) (hf : stop - start < fuel) :
    ∃ b, mergeRound comp fuel a start stop p = .ok b ∧ Rearranged a b start stop ∧
      Blocks (noneLast le) b start stop (2 * p) ∧
      (∀ q : Option α → Bool, Alike (pyComp comp) (noneLast le) q → b.filter q = a.filter q) := by
  obtain ⟨⟨b, i⟩, e, ⟨t, ht, hr, h1, h2, h0⟩, hg⟩ := whileLoop_spec
    (I := fun s : List (Option α) × Nat => ∃ t, s.2 = start + t * (2 * p) ∧ Rearranged a s.1 start stop ∧
      (∀ u, u < t → SortedRange (noneLast le) s.1 (start + u * (2 * p)) (min (start + (u + 1) * (2 * p)) stop)) ∧
      (∀ k, s.2 ≤ k → s.1[k]? = a[k]?) ∧
      (∀ q : Option α → Bool, Alike (pyComp comp) (noneLast le) q → s.1.filter q = a.filter q))
    (m := fun s => stop - s.2)
    (cond := fun (s : List (Option α) × Nat) => .ok (decide (s.2 < stop)))
    (body := fun s => do
      let a ← mergeBlock comp s.1 s.2 p stop
      .ok (a, s.2 + 2 * p)) (fun s _ => ⟨_, rfl⟩) (by
      rintro ⟨b, i⟩ ⟨t, ht, hr, h1, h2, h0⟩ hcd
      dsimp only at ht hr h1 h2 h0 hcd ⊢
      have hi : i < stop := by simpa using hcd
      have hl := hr.length_eq
      obtain ⟨b', e, hr', hs', hf'⟩ := mergeBlock_spec ho hc b i p stop hi (by omega)
      have hsi : start ≤ i := by rw [ht]; omega
      have hmid : t * (2 * p) = (2 * t) * p := by rw [Nat.mul_comm 2 p, ← Nat.mul_assoc, Nat.mul_comm _ 2, ← Nat.mul_assoc]
      have hleft : SortedRange (noneLast le) b i (min (i + p) stop) := by
        have := hb (2 * t)
        have e3 : (2 * t + 1) * p = 2 * t * p + p := by rw [Nat.add_mul]; omega
        rw [show start + 2 * t * p = i by omega, show start + (2 * t + 1) * p = i + p by omega] at this
        exact SortedRange.congr this (fun k g1 g2 => h2 k g1)
      refine ⟨(b', i + 2 * p), by simp [e], ⟨t + 1, ?_, hr.trans (hr'.mono hsi (by omega)), ?_, ?_,
        fun q hq => (hf' hleft q hq).trans (h0 q hq)⟩, ?_⟩
      · dsimp only; rw [ht, Nat.add_mul]; omega
      · intro u hu
        dsimp only
        by_cases hut : u < t
        · refine SortedRange.congr (h1 u hut) ?_
          intro k g1 g2
          apply hr'.2
          left
          have h3 : (u + 1) * (2 * p) ≤ t * (2 * p) := Nat.mul_le_mul_right _ hut
          omega
        · have : u = t := by omega
          subst this
          have h3 : (u + 1) * (2 * p) = u * (2 * p) + 2 * p := by rw [Nat.add_mul]; omega
          have e1 : start + u * (2 * p) = i := ht.symm
          have e2 : start + (u + 1) * (2 * p) = i + 2 * p := by omega
          rw [e1, e2]
          have hm : u * (2 * p) = (2 * u) * p := by rw [Nat.mul_comm 2 p, ← Nat.mul_assoc, Nat.mul_comm _ 2, ← Nat.mul_assoc]
          apply hs'
          · have := hb (2 * u)
            have e3 : (2 * u + 1) * p = 2 * u * p + p := by rw [Nat.add_mul]; omega
            rw [show start + 2 * u * p = i by omega, show start + (2 * u + 1) * p = i + p by omega] at this
            exact SortedRange.congr this (fun k g1 g2 => h2 k g1)
          · have := hb (2 * u + 1)
            have e3 : (2 * u + 1) * p = 2 * u * p + p := by rw [Nat.add_mul]; omega
            have e4 : (2 * u + 1 + 1) * p = 2 * u * p + p + p := by rw [Nat.add_mul, Nat.add_mul]; omega
            rw [show start + (2 * u + 1) * p = i + p by omega, show start + (2 * u + 1 + 1) * p = i + 2 * p by omega]
              at this
            exact SortedRange.congr this (fun k g1 g2 => h2 k (by omega))
      · intro k hk
        dsimp only at hk ⊢
        rw [hr'.2 k (by omega)]
        exact h2 k (by omega)
      · dsimp only; omega) fuel (a, start)
      ⟨0, by simp, .refl _ _ _, by intro u hu; omega, fun _ _ => rfl, fun _ _ => rfl⟩ (by simpa using hf)
  dsimp only at ht hr h1 h2 h0
  refine ⟨b, by rw [mergeRound, e]; rfl, hr, ?_, h0⟩
  intro u
  by_cases hu : u < t
  · exact h1 u hu
  · intro x y _ _ g1 g2 g3
    have : stop ≤ i := by simpa using hg
    have h3 : t * (2 * p) ≤ u * (2 * p) := Nat.mul_le_mul_right _ (by omega)
    omega

theorem mergeRounds_spec {comp : α → α → Bool} {le : α → α → Prop} (ho : TotalPreorder le)
    (hc : Compat comp le) (a : List (Option α)) (start stop rounds : Nat) (hs : stop ≤ a.length)
    (hrd : stop - start ≤ 2 ^ rounds) (fuel : Nat) (hf : stop - start < fuel) :
    ∃ b, mergeRounds comp fuel rounds a start stop = .ok b ∧ SortsTo (noneLast le) a b start stop ∧
      (∀ q : Option α → Bool, Alike (pyComp comp) (noneLast le) q → b.filter q = a.filter q) := by
  obtain ⟨b, e, hr, hb, h0⟩ := forRange_spec (lo := 0) (hi := rounds) (s := a)
    (body := fun size a => mergeRound comp fuel a start stop (2 ^ size))
    (fun k b => Rearranged a b start stop ∧ Blocks (noneLast le) b start stop (2 ^ k) ∧
      (∀ q : Option α → Bool, Alike (pyComp comp) (noneLast le) q → b.filter q = a.filter q)) (Nat.zero_le _)
    ⟨.refl _ _ _, by intro t i j x y g1 g2 g3; rw [Nat.add_mul] at g3; simp at g1 g3; omega, fun _ _ => rfl⟩ (by
      rintro k b - _ ⟨hr, hb, h0⟩
      have hl := hr.length_eq
      obtain ⟨b', e, hr', hb', h0'⟩ := mergeRound_spec ho hc b start stop (2 ^ k) (Nat.pow_pos (by omega)) (by omega) hb
        fuel hf
      exact ⟨b', e, hr.trans hr', by rwa [Nat.pow_succ, Nat.mul_comm],
        fun q hq => (h0' q hq).trans (h0 q hq)⟩)
  refine ⟨b, e, ⟨hr, ?_⟩, h0⟩
  have := hb 0
  simp only [Nat.zero_mul, Nat.add_zero, Nat.zero_add, Nat.one_mul] at this
  intro i j x y g1 g2 g3
  exact this i j x y g1 g2 (by omega)

end Model
