import Verif.Py

namespace Py
variable {α σ : Type _}

@[simp] theorem ok_bind {α β : Type _} (x : α) (f : α → PyM β) : (Except.ok x : PyM α) >>= f = f x := rfl
@[simp] theorem error_bind {α β : Type _} (e : PyErr) (f : α → PyM β) :
    (Except.error e : PyM α) >>= f = .error e := rfl
@[simp] theorem pure_eq_ok {α : Type _} (x : α) : (pure x : PyM α) = .ok x := rfl

theorem rd_of_lt {l : List α} {i : Nat} (h : i < l.length) : rd l i = .ok l[i] := by
  simp [rd, List.getElem?_eq_getElem h]

theorem rd_of_some {l : List α} {i : Nat} {x : α} (h : l[i]? = some x) : rd l i = .ok x := by
  simp [rd, h]

theorem rd_eq_ok {l : List α} {i : Nat} {x : α} : rd l i = .ok x ↔ l[i]? = some x := by
  unfold rd; split <;> simp_all

theorem wr_of_lt {l : List α} {i : Nat} (x : α) (h : i < l.length) : wr l i x = .ok (l.set i x) := by
  simp [wr, h]

theorem swp_of_lt {l : List α} {i j : Nat} (hi : i < l.length) (hj : j < l.length) :
    swp l i j = .ok ((l.set i l[j]).set j l[i]) := by
  simp [swp, rd_of_lt, wr_of_lt, hi, hj]

theorem loop_spec (I : Nat → σ → Prop) (body : Nat → σ → PyM σ) :
    ∀ (n i : Nat) (s : σ), I i s →
      (∀ k s, i ≤ k → k < i + n → I k s → ∃ s', body k s = .ok s' ∧ I (k + 1) s') →
      ∃ s', loop body n i s = .ok s' ∧ I (i + n) s' := by
  intro n
  induction n with
  | zero => intro i s h _; exact ⟨s, rfl, h⟩
  | succ n ih =>
    intro i s h hb
    obtain ⟨s1, e1, h1⟩ := hb i s (Nat.le_refl _) (by omega) h
    obtain ⟨s2, e2, h2⟩ := ih (i + 1) s1 h1 (fun k s h1 h2 => hb k s (by omega) (by omega))
    refine ⟨s2, ?_, by rwa [show i + (n + 1) = i + 1 + n by omega]⟩
    simp [loop, e1, e2]

/-- Invariant rule for `for i in range(lo, hi)`. -/
theorem forRange_spec (I : Nat → σ → Prop) {body : Nat → σ → PyM σ} {lo hi : Nat} {s : σ}
    (hlh : lo ≤ hi) (h0 : I lo s)
    (hb : ∀ k s, lo ≤ k → k < hi → I k s → ∃ s', body k s = .ok s' ∧ I (k + 1) s') :
    ∃ s', forRange lo hi s body = .ok s' ∧ I hi s' := by
  obtain ⟨s', e, h⟩ := loop_spec I body (hi - lo) lo s h0
    (fun k s h1 h2 => hb k s h1 (by omega))
  exact ⟨s', e, by rwa [show lo + (hi - lo) = hi by omega] at h⟩

theorem forRange_empty {body : Nat → σ → PyM σ} {lo hi : Nat} {s : σ} (h : hi ≤ lo) :
    forRange lo hi s body = .ok s := by
  simp [forRange, Nat.sub_eq_zero_of_le h, loop]

theorem loopDown_spec (I : Nat → σ → Prop) (body : Nat → σ → PyM σ) (i : Nat) :
    ∀ (n : Nat) (s : σ), I (i + n) s →
      (∀ k s, i ≤ k → k < i + n → I (k + 1) s → ∃ s', body k s = .ok s' ∧ I k s') →
      ∃ s', loopDown body n i s = .ok s' ∧ I i s' := by
  intro n
  induction n with
  | zero => intro s h _; exact ⟨s, rfl, h⟩
  | succ n ih =>
    intro s h hb
    obtain ⟨s1, e1, h1⟩ := hb (i + n) s (by omega) (by omega) h
    obtain ⟨s2, e2, h2⟩ := ih s1 h1 (fun k s h1 h2 => hb k s (by omega) (by omega))
    exact ⟨s2, by simp [loopDown, e1, e2], h2⟩

/-- Invariant rule for `for i in range(hi - 1, lo - 1, -1)`; `I k` holds before the iteration `k - 1`. -/
theorem forDown_spec (I : Nat → σ → Prop) {body : Nat → σ → PyM σ} {lo hi : Nat} {s : σ}
    (hlh : lo ≤ hi) (h0 : I hi s)
    (hb : ∀ k s, lo ≤ k → k < hi → I (k + 1) s → ∃ s', body k s = .ok s' ∧ I k s') :
    ∃ s', forDown lo hi s body = .ok s' ∧ I lo s' := by
  refine loopDown_spec I body lo (hi - lo) s (by rwa [show lo + (hi - lo) = hi by omega]) ?_
  exact fun k s h1 h2 => hb k s h1 (by omega)

theorem forDown_empty {body : Nat → σ → PyM σ} {lo hi : Nat} {s : σ} (h : hi ≤ lo) :
    forDown lo hi s body = .ok s := by
  simp [forDown, Nat.sub_eq_zero_of_le h, loopDown]

/-- Invariant rule for `for x in xs`: `I done rest s`. -/
theorem forList_spec {α : Type _} (I : List α → List α → σ → Prop) {body : α → σ → PyM σ} :
    ∀ (xs pre : List α) (s : σ), I pre xs s →
    (∀ pre x rest s, I pre (x :: rest) s → ∃ s', body x s = .ok s' ∧ I (pre ++ [x]) rest s') →
    ∃ s', forList xs s body = .ok s' ∧ I (pre ++ xs) [] s' := by
  intro xs
  induction xs with
  | nil => intro pre s h _; exact ⟨s, rfl, by simpa using h⟩
  | cons x xs ih =>
    intro pre s h hb
    obtain ⟨s1, e1, h1⟩ := hb _ _ _ _ h
    obtain ⟨s2, e2, h2⟩ := ih _ s1 h1 hb
    exact ⟨s2, by simp [forList, e1, e2], by simpa using h2⟩

/-- Invariant rule for `while`, with a decreasing measure: it ends within `m s + 1` tests of the condition. -/
theorem whileLoop_spec (I : σ → Prop) (m : σ → Nat) {cond : σ → PyM Bool} {body : σ → PyM σ}
    (hc : ∀ s, I s → ∃ b, cond s = .ok b)
    (hb : ∀ s, I s → cond s = .ok true → ∃ s', body s = .ok s' ∧ I s' ∧ m s' < m s) :
    ∀ (fuel : Nat) (s : σ), I s → m s < fuel →
      ∃ s', whileLoop fuel cond body s = .ok s' ∧ I s' ∧ cond s' = .ok false := by
  intro fuel
  induction fuel with
  | zero => intro s _ h; omega
  | succ fuel ih =>
    intro s hs hm
    obtain ⟨b, eb⟩ := hc s hs
    cases b with
    | false => exact ⟨s, by simp [whileLoop, eb], hs, eb⟩
    | true =>
      obtain ⟨s1, e1, h1, hlt⟩ := hb s hs eb
      obtain ⟨s2, e2, h2⟩ := ih s1 h1 (by omega)
      exact ⟨s2, by simp [whileLoop, eb, e1, e2], h2⟩

/-- More fuel does not change the result of a loop that has ended. -/
theorem whileLoop_mono {cond : σ → PyM Bool} {body : σ → PyM σ} :
    ∀ (fuel : Nat) (s : σ) (r : PyM σ), whileLoop fuel cond body s = r → r ≠ .error .outOfFuel →
      ∀ fuel', fuel ≤ fuel' → whileLoop fuel' cond body s = r := by
  intro fuel
  induction fuel with
  | zero => intro s r h hr; simp [whileLoop] at h; exact absurd h.symm hr
  | succ fuel ih =>
    intro s r h hr fuel' hf
    obtain ⟨f, rfl⟩ : ∃ f, fuel' = f + 1 := ⟨fuel' - 1, by omega⟩
    rw [whileLoop] at h ⊢
    cases hc : cond s with
    | error e => simp [hc] at h ⊢; exact h
    | ok b =>
      cases b with
      | false => simp [hc] at h ⊢; exact h
      | true =>
        cases hb : body s with
        | error e => simp [hc, hb] at h ⊢; exact h
        | ok s1 => simp [hc, hb] at h ⊢; exact ih s1 r h hr f (by omega)

/-- Once a fuel-indexed computation has returned, more fuel gives the same value. -/
def FuelMono {α : Type _} (f : Nat → PyM α) : Prop := ∀ n r, f n = .ok r → ∀ m, n ≤ m → f m = .ok r

theorem FuelMono.const {α : Type _} (x : PyM α) : FuelMono (fun _ => x) := fun _ _ h _ _ => h

theorem FuelMono.bind {α β : Type _} {f : Nat → PyM α} {k : Nat → α → PyM β} (hf : FuelMono f)
    (hk : ∀ x, FuelMono (fun n => k n x)) : FuelMono (fun n => f n >>= k n) := by
  intro n r h m hm
  dsimp only at h ⊢
  cases e : f n with
  | error er => rw [e] at h; simp at h
  | ok x =>
    rw [e] at h
    rw [hf n x e m hm]
    exact hk x n r h m hm

theorem FuelMono.while_ {cond : Nat → σ → PyM Bool} {body : Nat → σ → PyM σ}
    (hc : ∀ s, FuelMono (fun n => cond n s)) (hb : ∀ s, FuelMono (fun n => body n s)) (s : σ) :
    FuelMono (fun n => whileLoop n (cond n) (body n) s) := by
  have key : ∀ (k n m : Nat), n ≤ m → ∀ (l : Nat), k ≤ l → ∀ s r,
      whileLoop k (cond n) (body n) s = .ok r → whileLoop l (cond m) (body m) s = .ok r := by
    intro k n m hnm
    induction k with
    | zero => intro l _ s r h; simp [whileLoop] at h
    | succ k ih =>
      intro l hl s r h
      obtain ⟨l, rfl⟩ : ∃ f, l = f + 1 := ⟨l - 1, by omega⟩
      rw [whileLoop] at h ⊢
      cases e : cond n s with
      | error er => rw [e] at h; simp at h
      | ok b =>
        rw [e] at h
        rw [show cond m s = .ok b from hc s n b e m hnm]
        cases b with
        | false => exact h
        | true =>
          simp only [ok_bind, if_true] at h ⊢
          cases e2 : body n s with
          | error er => rw [e2] at h; simp at h
          | ok s1 =>
            rw [e2] at h
            rw [show body m s = .ok s1 from hb s n s1 e2 m hnm]
            exact ih l (by omega) s1 r h
  exact fun n r h m hm => key n n m hm m hm s r h

theorem FuelMono.whileC {cond : σ → PyM Bool} {body : σ → PyM σ} (s : σ) :
    FuelMono (fun n => whileLoop n cond body s) :=
  FuelMono.while_ (cond := fun _ => cond) (body := fun _ => body) (fun _ => .const _) (fun _ => .const _) s

theorem FuelMono.loop {body : Nat → Nat → σ → PyM σ} (hb : ∀ i s, FuelMono (fun n => body n i s)) :
    ∀ (k i : Nat) (s : σ), FuelMono (fun n => loop (body n) k i s) := by
  intro k
  induction k with
  | zero => intro i s; exact .const _
  | succ k ih => intro i s; exact .bind (hb i s) (fun x => ih (i + 1) x)

theorem FuelMono.forRange {body : Nat → Nat → σ → PyM σ} (hb : ∀ i s, FuelMono (fun n => body n i s))
    (lo hi : Nat) (s : σ) : FuelMono (fun n => forRange lo hi s (body n)) :=
  FuelMono.loop hb _ _ _

theorem FuelMono.forList {α : Type _} {body : Nat → α → σ → PyM σ}
    (hb : ∀ x s, FuelMono (fun n => body n x s)) :
    ∀ (xs : List α) (s : σ), FuelMono (fun n => forList xs s (body n)) := by
  intro xs
  induction xs with
  | nil => intro s; exact .const _
  | cons x xs ih => intro s; exact .bind (hb x s) (fun s => ih s)

theorem FuelMono.ite {α : Type _} {f g : Nat → PyM α} {c : Prop} [Decidable c] (hf : FuelMono f) (hg : FuelMono g) :
    FuelMono (fun n => if c then f n else g n) := by
  intro n r h m hm
  dsimp only at h ⊢
  split at h
  · rw [if_pos ‹_›]; exact hf n r h m hm
  · rw [if_neg ‹_›]; exact hg n r h m hm

theorem FuelMono.endsWith {α : Type _} {f : Nat → PyM α} (hf : FuelMono f) {n : Nat} {r : α} (h : f n = .ok r) :
    ∃ n₀, ∀ n, n₀ ≤ n → f n = .ok r := ⟨n, fun m hm => hf n r h m hm⟩

end Py
