import Verif.Model.Search
import Verif.Props.Fenwick
import Verif.Props.DisjointSet
import Verif.Props.BinomialHeap
import Verif.Lemmas.Bind

/-! # C124: the operations that promise logarithmic time take logarithmically many steps

The loops of the model count their tests: a loop that is allowed fewer tests than it needs ends in `outOfFuel`. -/
namespace Props
open Py Model Spec
variable {α : Type}
set_option linter.unusedSectionVars false

/-- `k` tests of the loop condition are enough: with `k` the loop ends, and more make no difference. -/
def SettlesWithin {β : Type} (k : Nat) (f : Nat → PyM β) : Prop := f k ≠ .error .outOfFuel ∧ ∀ n, k ≤ n → f n = f k

/-- The same for two allowances at once, which is what the inductions need. -/
private def Agree {β : Type} (k : Nat) (f : Nat → PyM β) : Prop := ∀ n m, k ≤ n → k ≤ m → f n = f m ∧ f n ≠ .error .outOfFuel

private theorem Agree.settles {β : Type} {k : Nat} {f : Nat → PyM β} (h : Agree k f) : SettlesWithin k f :=
  ⟨(h k k (Nat.le_refl _) (Nat.le_refl _)).2, fun n hn => (h n k hn (Nat.le_refl _)).1⟩

private theorem Agree.mono {β : Type} {k k' : Nat} {f : Nat → PyM β} (h : Agree k f) (hk : k ≤ k') : Agree k' f :=
  fun n m hn hm => h n m (by omega) (by omega)

/-- One round of a loop, then the rest. -/
private theorem Agree.step {β : Type} {k : Nat} {f g : Nat → PyM β} (e : ∀ n, f (n + 1) = g n) (h : Agree k g) : Agree (k + 1) f := by
  intro n m hn hm
  obtain ⟨n, rfl⟩ : ∃ i, n = i + 1 := ⟨n - 1, by omega⟩
  obtain ⟨m, rfl⟩ : ∃ i, m = i + 1 := ⟨m - 1, by omega⟩
  rw [e, e]
  exact h n m (by omega) (by omega)

private theorem Agree.const {β : Type} (k : Nat) {r : PyM β} (h : r ≠ .error .outOfFuel) : Agree k fun _ => r :=
  fun _ _ _ _ => ⟨rfl, h⟩

private theorem Agree.bind {β γ : Type} {k : Nat} {r : PyM γ} {f : γ → Nat → PyM β} (h : r ≠ .error .outOfFuel) (hf : ∀ x, r = .ok x → Agree k (f x)) :
    Agree k fun n => r >>= fun x => f x n := by
  cases e : r with
  | ok x => exact hf x e
  | error x => exact Agree.const k fun hx => h (by cases hx; exact e)

private theorem rd_fuel {β : Type} (l : List β) (i : Nat) : rd l i ≠ .error .outOfFuel := by
  unfold rd; split <;> intro h <;> cases h

private theorem wr_fuel {β : Type} (l : List β) (i : Nat) (x : β) : wr l i x ≠ .error .outOfFuel := by
  unfold wr; split <;> intro h <;> cases h

/-! ## Searching -/

private theorem binarySearchLoop_agree [DecidableEq α] (comp : α → α → Bool) (a : List α) (value : α) : ∀ (k left stop : Nat), stop - left < 2 ^ k →
    Agree (k + 1) fun n => binarySearchLoop comp a value n left stop := by
  intro k
  induction k with
  | zero =>
    intro left stop h
    refine Agree.step (g := fun _ => .ok none) (fun n => ?_) (Agree.const _ (by intro h; cases h))
    rw [binarySearchLoop, if_neg (by omega)]
  | succ k ih =>
    intro left stop h
    by_cases hlt : left < stop
    · refine Agree.step (fun n => by rw [binarySearchLoop, if_pos hlt]) (Agree.bind (rd_fuel _ _) fun x _ => ?_)
      have hm : left / 2 + (stop - 1) / 2 + left % 2 * (stop - 1) % 2 = (left + (stop - 1)) / 2 := by
        have h1 : left % 2 * (stop - 1) % 2 = left % 2 * ((stop - 1) % 2) := by
          rcases Nat.mod_two_eq_zero_or_one left with e | e <;> rw [e] <;> simp
        rw [h1]
        rcases Nat.mod_two_eq_zero_or_one left with e | e <;> rcases Nat.mod_two_eq_zero_or_one (stop - 1) with e' | e' <;> simp [e, e'] <;> omega
      rw [Nat.pow_succ] at h
      rw [hm]
      by_cases h1 : x = value
      · simp only [if_pos h1]
        exact Agree.const _ (by intro h; cases h)
      · simp only [if_neg h1]
        by_cases h2 : comp x value = true
        · simp only [if_pos h2]
          exact ih _ _ (by omega)
        · simp only [if_neg h2]
          exact ih _ _ (by omega)
    · refine Agree.step (g := fun _ => .ok none) (fun n => ?_) (Agree.const _ (by intro h; cases h))
      rw [binarySearchLoop, if_neg hlt]

/-- **C124**: `binary_search` in a range of `m` elements looks at no more than `log2 m + 1` of them (one more test ends the loop), whatever the array, the value
and the comparison. -/
theorem C124_binary_search [DecidableEq α] (comp : α → α → Bool) (a : List α) (value : α) (start stop : Nat) :
    SettlesWithin (Nat.log2 (stop - start) + 2) fun n => binarySearch comp n a value start stop :=
  (binarySearchLoop_agree comp a value _ start stop Nat.lt_log2_self).settles

private theorem boundLoop_agree (go : α → Bool) (a : List α) : ∀ (k start stop index : Nat), stop - start < 2 ^ k →
    Agree (k + 1) fun n => boundLoop go a n start stop index := by
  intro k
  induction k with
  | zero =>
    intro start stop index h
    refine Agree.step (g := fun _ => .ok index) (fun n => ?_) (Agree.const _ (by intro h; cases h))
    rw [boundLoop, if_neg (by omega)]
  | succ k ih =>
    intro start stop index h
    by_cases hlt : start < stop
    · refine Agree.step (fun n => by rw [boundLoop, if_pos hlt]) (Agree.bind (rd_fuel _ _) fun x _ => ?_)
      rw [Nat.pow_succ] at h
      by_cases h2 : go x = true
      · simp only [if_pos h2]
        exact ih _ _ _ (by omega)
      · simp only [if_neg h2]
        exact ih _ _ _ (by omega)
    · refine Agree.step (g := fun _ => .ok index) (fun n => ?_) (Agree.const _ (by intro h; cases h))
      rw [boundLoop, if_neg hlt]

/-- **C124**: so does `lower_bound`. -/
theorem C124_lower_bound (comp : α → α → Bool) (a : List α) (value : α) (start stop : Nat) :
    SettlesWithin (Nat.log2 (stop - start) + 2) fun n => lowerBound comp n a value start stop :=
  (Agree.bind (rd_fuel _ _) fun _ _ => boundLoop_agree _ a _ start stop _ Nat.lt_log2_self).settles

/-- **C124**: so does `upper_bound`. -/
theorem C124_upper_bound (comp : α → α → Bool) (a : List α) (value : α) (start stop : Nat) :
    SettlesWithin (Nat.log2 (stop - start) + 2) fun n => upperBound comp n a value start stop :=
  (Agree.bind (rd_fuel _ _) fun _ _ => boundLoop_agree _ a _ start stop _ Nat.lt_log2_self).settles

/-- The bound is met: one value is looked for among four, and two rounds are too few. -/
example : binarySearch (fun a b : Nat => decide (a < b)) 3 [1, 3, 5, 7] 9 0 4 = .error .outOfFuel ∧
    binarySearch (fun a b : Nat => decide (a < b)) (Nat.log2 4 + 2) [1, 3, 5, 7] 9 0 4 = .ok none := by decide +kernel

/-! ## Heaps -/

private theorem node_fuel (h : Doda α) (i : Nat) : h.node i ≠ .error .outOfFuel := by
  unfold Doda.node Doda.get
  split
  · intro e; cases e
  · cases e : rd h.data (i : Int).toNat with
    | error x => intro hx; cases hx; exact rd_fuel _ _ e
    | ok x => cases x <;> intro hx <;> cases hx

private theorem bind_fuel {β γ : Type} {r : PyM γ} {f : γ → PyM β} (h : r ≠ .error .outOfFuel) (hf : ∀ x, f x ≠ .error .outOfFuel) :
    (r >>= f) ≠ .error .outOfFuel := by
  cases r with
  | ok x => exact hf x
  | error x => intro hx; cases hx; exact h rfl

private theorem set_fuel (h : Doda α) (i : Nat) (x : Option α) : h.set i x ≠ .error .outOfFuel :=
  bind_fuel (wr_fuel _ _ _) fun _ e => by cases e

private theorem heapSwap_fuel (h : Doda α) (i j : Nat) : heapSwap h i j ≠ .error .outOfFuel :=
  bind_fuel (node_fuel _ _) fun _ => bind_fuel (node_fuel _ _) fun _ => bind_fuel (set_fuel _ _ _) fun _ => set_fuel _ _ _

private theorem heapUp_agree (comp : α → α → Bool) {d : Nat} (hd : 2 ≤ d) : ∀ (k i : Nat) (h : Doda α), i + 1 < 2 ^ (k + 1) →
    Agree (k + 1) fun n => heapUp comp d n i h := by
  intro k
  induction k with
  | zero =>
    intro i h hi
    have : i = 0 := by omega
    refine Agree.step (g := fun _ => .ok h) (fun n => ?_) (Agree.const _ (by intro h; cases h))
    rw [heapUp, if_pos this]
  | succ k ih =>
    intro i h hi
    by_cases h0 : i = 0
    · refine Agree.step (g := fun _ => .ok h) (fun n => ?_) (Agree.const _ (by intro h; cases h))
      rw [heapUp, if_pos h0]
    · refine Agree.step (fun n => by rw [heapUp, if_neg h0]) (Agree.bind (node_fuel _ _) fun x _ => Agree.bind (node_fuel _ _) fun y _ => ?_)
      by_cases hc : comp x y = true
      · simp only [if_pos hc]
        exact Agree.const _ (by intro h; cases h)
      · simp only [if_neg hc]
        refine Agree.bind (heapSwap_fuel _ _ _) fun h' _ => ih _ _ ?_
        have h1 : (i - 1) / d ≤ (i - 1) / 2 := Nat.div_le_div_left hd (by omega)
        rw [Nat.pow_succ] at hi
        omega

/-- **C124**: inserting into a heap of `n` elements in which every node has at least two children compares the new element with at most `log2 (n + 1)` others (one more
test ends the loop), whatever the heap holds. -/
theorem C124_heap_insert (comp : α → α → Bool) {d : Nat} (hd : 2 ≤ d) (n : Nat) (h : Doda α) :
    SettlesWithin (Nat.log2 (n + 1) + 1) fun fuel => heapUp comp d fuel n h :=
  (heapUp_agree comp hd _ n h Nat.lt_log2_self).settles

private theorem heapPick_range (comp : α → α → Bool) (h : Doda α) (n : Nat) : ∀ (k j target t : Nat), heapPick comp h n k j target = .ok t →
    t = target ∨ (j ≤ t ∧ t < n) := by
  intro k
  induction k with
  | zero => intro j target t e; cases e; exact .inl rfl
  | succ k ih =>
    intro j target t e
    rw [heapPick] at e
    by_cases hj : j < n
    · rw [if_pos hj] at e
      obtain ⟨x, _, e⟩ := bind_ok e
      obtain ⟨y, _, e⟩ := bind_ok e
      rcases ih _ _ _ e with h1 | h1
      · split at h1
        · exact .inr ⟨by omega, by omega⟩
        · exact .inl h1
      · exact .inr ⟨by omega, h1.2⟩
    · rw [if_neg hj] at e
      cases e; exact .inl rfl

private theorem heapPick_fuel (comp : α → α → Bool) (h : Doda α) (n : Nat) : ∀ (k j target : Nat), heapPick comp h n k j target ≠ .error .outOfFuel := by
  intro k
  induction k with
  | zero => intro j target e; cases e
  | succ k ih =>
    intro j target
    rw [heapPick]
    split
    · exact bind_fuel (node_fuel _ _) fun _ => bind_fuel (node_fuel _ _) fun _ => ih _ _
    · intro e; cases e

private theorem heapify_agree (comp : α → α → Bool) {d : Nat} (hd : 2 ≤ d) (n : Nat) : ∀ (k i : Nat) (h : Doda α), n < (i + 1) * 2 ^ (k + 1) →
    Agree (k + 1) fun fuel => heapify comp d n fuel i h := by
  intro k
  induction k with
  | zero =>
    intro i h hn
    refine Agree.step (fun n => by rw [heapify]) (Agree.bind (heapPick_fuel _ _ _ _ _ _) fun t e => ?_)
    have h2 : 2 * i ≤ d * i := Nat.mul_le_mul_right i hd
    have ht : t = i := by
      rcases heapPick_range _ _ _ _ _ _ _ e with h1 | h1
      · exact h1
      · omega
    simp only [ne_eq, ht, not_true_eq_false, if_false]
    exact Agree.const _ (by intro h; cases h)
  | succ k ih =>
    intro i h hn
    refine Agree.step (fun n => by rw [heapify]) (Agree.bind (heapPick_fuel _ _ _ _ _ _) fun t e => ?_)
    have h2 : 2 * i ≤ d * i := Nat.mul_le_mul_right i hd
    by_cases ht : t = i
    · simp only [ne_eq, ht, not_true_eq_false, if_false]
      exact Agree.const _ (by intro h; cases h)
    · simp only [ne_eq, ht, not_false_eq_true, if_true]
      refine Agree.bind (heapSwap_fuel _ _ _) fun h' _ => ih _ _ ?_
      rcases heapPick_range _ _ _ _ _ _ _ e with h1 | h1
      · exact absurd h1 ht
      · have h3 : (i + 1) * 2 * 2 ^ (k + 1) ≤ (t + 1) * 2 ^ (k + 1) := Nat.mul_le_mul_right _ (by omega)
        have h4 : (i + 1) * 2 ^ (k + 1 + 1) = (i + 1) * 2 * 2 ^ (k + 1) := by rw [Nat.pow_succ 2 (k + 1), Nat.mul_comm (2 ^ (k + 1)) 2, Nat.mul_assoc]
        omega

/-- **C124**: after the last element has been put in the place of the extracted one, it sinks by at most `log2 n` levels in a heap of `n` elements in which every
node has at least two children (one more round ends the loop), whatever the heap holds. -/
theorem C124_heap_extract (comp : α → α → Bool) {d : Nat} (hd : 2 ≤ d) (n : Nat) (h : Doda α) :
    SettlesWithin (Nat.log2 n + 1) fun fuel => heapify comp d n fuel 0 h :=
  (heapify_agree comp hd n _ 0 h (by simpa using Nat.lt_log2_self)).settles

/-- **C124**: a binomial heap of `n` elements, however it was built, consists of at most `log2 n + 1` trees. -/
theorem C124_binomial_trees {κ δ : Type} {le : κ → κ → Bool} (ho : KeyOrder le) (e : HeapExpr κ δ) :
    ∃ h, e.eval le = .ok h ∧ h.length ≤ Nat.log2 (bhEntries h).length + 1 := by
  obtain ⟨h, e1, hk, _⟩ := C38_history ho e
  refine ⟨h, e1, ?_⟩
  have hle : ∀ t ∈ h, t.order ≤ Nat.log2 (bhEntries h).length := by
    intro t ht
    have h1 := C38_orders hk t ht
    have h2 : 0 < 2 ^ t.order := Nat.pow_pos (by omega)
    exact (Nat.le_log2 (by omega)).2 h1
  have key : ∀ (l : List Nat) (b : Nat), l.Pairwise (· < ·) → (∀ x ∈ l, x ≤ b) → l.length ≤ b + 1 := by
    intro l b hl hb
    have hnd : l.Nodup := hl.imp fun h => by omega
    have := length_le_of_subset hnd (m := List.range (b + 1)) fun x hx => by
      have := hb x hx
      rw [List.mem_range]; omega
    simpa using this
  have := key (h.map (·.order)) _ (List.pairwise_map.2 hk.orders) (by
    intro x hx
    obtain ⟨t, ht, rfl⟩ := List.mem_map.1 hx
    exact hle t ht)
  simpa using this

/-! ## Fenwick trees -/

/-- The lowest bit of a positive number, and what is left without it. -/
private theorem lowBit_form : ∀ n, 0 < n → ∃ i, lowBit n = 2 ^ i ∧ ∃ q, n = (2 * q + 1) * 2 ^ i := by
  intro n
  induction n using Nat.strongRecOn with
  | _ n ih =>
    intro hn
    obtain ⟨m, hm | hm⟩ : ∃ m, n = 2 * m ∨ n = 2 * m + 1 := ⟨n / 2, by omega⟩
    · subst hm
      obtain ⟨i, h1, q, h2⟩ := ih m (by omega) (by omega)
      refine ⟨i + 1, by rw [lowBit_even, h1, Nat.pow_succ]; omega, q, ?_⟩
      rw [Nat.pow_succ]
      conv => lhs; rw [h2]
      rw [Nat.mul_comm 2, Nat.mul_assoc]
    · subst hm
      exact ⟨0, by rw [lowBit_odd]; rfl, m, by simp⟩

private theorem lowBit_next {n j : Nat} (hn : 0 < n) (hj : 2 ^ j ∣ n) : ∃ i, j ≤ i ∧ 2 ^ (i + 1) ∣ n - lowBit n ∧ 2 ^ (i + 1) ∣ n + lowBit n := by
  obtain ⟨i, h1, q, h2⟩ := lowBit_form n hn
  refine ⟨i, ?_, ⟨q, ?_⟩, ⟨q + 1, ?_⟩⟩
  · apply Classical.byContradiction
    intro h
    have h3 : 2 ^ (i + 1) ∣ n := Nat.dvd_trans (Nat.pow_dvd_pow 2 (by omega)) hj
    obtain ⟨c, hc⟩ := h3
    rw [Nat.pow_succ, Nat.mul_assoc] at hc
    rw [h2, Nat.mul_comm] at hc
    have := Nat.eq_of_mul_eq_mul_left (Nat.pow_pos (by omega)) hc
    omega
  · rw [h1]
    conv => lhs; rw [h2]
    rw [Nat.add_mul, Nat.one_mul, Nat.add_sub_cancel, Nat.pow_succ, Nat.mul_comm 2 q, Nat.mul_assoc, Nat.mul_comm q, Nat.mul_comm (2 ^ i) 2]
  · rw [h1]
    conv => lhs; rw [h2]
    rw [Nat.add_mul, Nat.one_mul, Nat.pow_succ, Nat.mul_add, Nat.mul_comm 2 q, Nat.mul_assoc, Nat.mul_comm q, Nat.mul_comm (2 ^ i) 2]
    omega

private theorem bitSumLoop_agree (tree : List Int) : ∀ (k j index : Nat) (sum : Int), 2 ^ j ∣ index → index < 2 ^ (j + k) →
    Agree (k + 1) fun n => bitSumLoop tree n index sum := by
  intro k
  induction k with
  | zero =>
    intro j index sum hd hlt
    have h0 : index = 0 := Nat.eq_zero_of_dvd_of_lt hd hlt
    refine Agree.step (g := fun _ => .ok sum) (fun n => ?_) (Agree.const _ (by intro h; cases h))
    rw [bitSumLoop, if_neg (by omega)]
  | succ k ih =>
    intro j index sum hd hlt
    by_cases h0 : 0 < index
    · refine Agree.step (fun n => by rw [bitSumLoop, if_pos h0]) (Agree.bind (rd_fuel _ _) fun x _ => ?_)
      obtain ⟨i, h1, h2, _⟩ := lowBit_next h0 hd
      refine ih (j + 1) _ _ (Nat.dvd_trans (Nat.pow_dvd_pow 2 (by omega)) h2) ?_
      rw [show j + 1 + k = j + (k + 1) by omega]
      exact Nat.lt_of_le_of_lt (Nat.sub_le _ _) hlt
    · refine Agree.step (g := fun _ => .ok sum) (fun n => ?_) (Agree.const _ (by intro h; cases h))
      rw [bitSumLoop, if_neg h0]

/-- **C124**: the sum of the first `m` elements is the sum of at most `log2 m + 1` cells of a Fenwick tree (one more test ends the loop). -/
theorem C124_prefix_sum (tree : List Int) (m : Nat) (sum : Int) :
    SettlesWithin (Nat.log2 m + 2) fun n => bitSumLoop tree n m sum :=
  (bitSumLoop_agree tree _ 0 m sum (by simp) (by rw [Nat.zero_add]; exact Nat.lt_log2_self)).settles

private theorem bitAdd_agree (size : Nat) (value : Int) : ∀ (k j index : Nat) (tree : List Int), 0 < index → 2 ^ j ∣ index → size < 2 ^ (j + k) →
    Agree (k + 1) fun n => bitAdd size value n index tree := by
  intro k
  induction k with
  | zero =>
    intro j index tree h0 hd hlt
    have h1 := Nat.le_of_dvd h0 hd
    refine Agree.step (g := fun _ => .ok tree) (fun n => ?_) (Agree.const _ (by intro h; cases h))
    rw [bitAdd, if_neg (by simp at hlt; omega)]
  | succ k ih =>
    intro j index tree h0 hd hlt
    by_cases h1 : index < size + 1
    · refine Agree.step (fun n => by rw [bitAdd, if_pos h1]) (Agree.bind (rd_fuel _ _) fun x _ => Agree.bind (wr_fuel _ _ _) fun t _ => ?_)
      obtain ⟨i, h2, _, h3⟩ := lowBit_next h0 hd
      exact ih (j + 1) _ _ (by omega) (Nat.dvd_trans (Nat.pow_dvd_pow 2 (by omega)) h3) (by rw [show j + 1 + k = j + (k + 1) by omega]; exact hlt)
    · refine Agree.step (g := fun _ => .ok tree) (fun n => ?_) (Agree.const _ (by intro h; cases h))
      rw [bitAdd, if_neg h1]

/-- **C124**: an update of a Fenwick tree of `n` elements changes at most `log2 n + 1` cells (one more test ends the loop). -/
theorem C124_fenwick_update (size : Nat) (value : Int) (index : Nat) (tree : List Int) :
    SettlesWithin (Nat.log2 size + 2) fun n => bitAdd size value n (index + 1) tree :=
  (bitAdd_agree size value _ 0 (index + 1) tree (by omega) (by simp) (by rw [Nat.zero_add]; exact Nat.lt_log2_self)).settles

/-! ## Disjoint sets -/

variable {κ : Type} [DecidableEq κ]

/-- Every key reaches its root by at most `log2` of the size of the set many links. -/
private def Shallow (s : Dsu κ) (root : κ → κ) : Prop := ∀ k ∈ s.keys, ∃ n, ParentWalk s k n (root k) ∧ ((2 ^ n : Nat) : Int) ≤ s.size (root k)

private theorem link_shallow {s : Dsu κ} {root : κ → κ} (h : DsuOk s root) (hs : Shallow s root) {x y : κ} (hx : x ∈ s.keys) (hy : y ∈ s.keys)
    (rx : s.parent x = x) (ry : s.parent y = y) (hne : x ≠ y) (hsz : s.size y ≤ s.size x) :
    Shallow { s with parent := fset s.parent y x, size := fset s.size x (s.size x + s.size y) } (fun k => if root k = y then x else root k) := by
  have hpos : ∀ z ∈ s.keys, s.parent z = z → 0 < s.size z := by
    intro z hz rz
    obtain ⟨n, w, hn⟩ := hs z hz
    rw [(h.root_iff hz).2 rz] at hn
    have : 0 < 2 ^ n := Nat.pow_pos (by omega)
    omega
  have wx : ParentWalk { s with parent := fset s.parent y x, size := fset s.size x (s.size x + s.size y) } x 0 x :=
    .root x (by simp [fset, hne, rx])
  intro k hk
  obtain ⟨n, w, hn⟩ := hs k hk
  dsimp only
  generalize root k = r at w hn ⊢
  have walk : ParentWalk { s with parent := fset s.parent y x, size := fset s.size x (s.size x + s.size y) } k (if r = y then n + 1 else n) (if r = y then x else r) := by
    clear hn
    induction w with
    | root k e =>
      split
      · rename_i e'; subst e'
        refine .step k 0 x (by simpa [fset] using hne) ?_
        simpa [fset] using wx
      · rename_i e'
        exact .root k (by simp [fset, e', e])
    | step k n r e w ih =>
      have w' := ih (h.closed k hk)
      have hky : k ≠ y := by rintro rfl; exact e ry
      have : (if r = y then n + 1 + 1 else n + 1) = (if r = y then n + 1 else n) + 1 := by split <;> rfl
      rw [this]
      refine .step k _ _ (by simpa [fset, hky] using e) ?_
      simpa [fset, hky] using w'
  refine ⟨_, walk, ?_⟩
  by_cases e : r = y
  · simp only [if_pos e, fset, if_true]
    rw [e] at hn
    rw [Nat.pow_succ]
    omega
  · simp only [if_neg e, fset]
    by_cases e' : r = x
    · rw [if_pos e']
      rw [e'] at hn
      have := hpos y hy ry
      omega
    · rw [if_neg e']; exact hn

/-- `make_root` is not called. -/
def NoMakeRoot (ops : List (DsuOp κ)) : Prop := ∀ k, DsuOp.makeRoot k ∉ ops

private theorem shallow_step {s : Dsu κ} {p : Partition κ} {root : κ → κ} (h : DsuRep s p root) (hs : Shallow s root) (op : DsuOp κ)
    (hop : ∀ k, op ≠ .makeRoot k) : ∃ root', DsuRep (dsuStep s op) (dsuSpec p op) root' ∧ Shallow (dsuStep s op) root' := by
  obtain ⟨root', h'⟩ := step_rep h op
  refine ⟨root', h', ?_⟩
  -- the walks are determined, so it is enough to find them for some choice of roots
  have move : ∀ root'' : κ → κ, Shallow (dsuStep s op) root'' → Shallow (dsuStep s op) root' := by
    intro root'' h2 k hk
    obtain ⟨n, w, hn⟩ := h2 k hk
    obtain ⟨m, w'⟩ := h'.ok.walk k hk
    obtain ⟨e1, e2⟩ := w.unique w'
    exact ⟨n, e1 ▸ w', e2 ▸ hn⟩
  cases op with
  | makeRoot k => exact absurd rfl (hop k)
  | make k =>
    rw [dsuStep] at move h' ⊢
    by_cases hk : k ∈ s.keys
    · rw [dsuMake, if_pos hk] at move ⊢
      exact move root hs
    · refine move (fset root k k) ?_
      rw [dsuMake, if_neg hk]
      intro j hj
      by_cases e : j = k
      · subst e
        refine ⟨0, ?_, by simp [fset]⟩
        have : fset root j j j = j := by simp [fset]
        rw [this]
        exact .root j (by simp [fset])
      · have hj' : j ∈ s.keys := by simpa [e] using hj
        obtain ⟨n, w, hn⟩ := hs j hj'
        have hr : root j ≠ k := fun e => hk (e ▸ h.ok.root_mem hj')
        have : fset root k k j = root j := by simp [fset, e]
        rw [this]
        refine ⟨n, ?_, by simpa [fset, hr] using hn⟩
        clear hj e this hr hn
        generalize root j = r at w
        induction w with
        | root j e => exact .root j (by
            have : j ≠ k := fun h => hk (h ▸ hj')
            simp [fset, this, e])
        | step j n r e w ih =>
          have hjk : j ≠ k := fun h => hk (h ▸ hj')
          have w' := ih (h.ok.closed j hj')
          exact .step j n r (by simpa [fset, hjk] using e) (by simpa [fset, hjk] using w')
  | union a b =>
    by_cases hab : a ∈ p.keys ∧ b ∈ p.keys
    · have ha : a ∈ s.keys := by rw [h.keys]; exact hab.1
      have hb : b ∈ s.keys := by rw [h.keys]; exact hab.2
      have e : dsuUnion s a b = if root a ≠ root b then
          (if s.size (root a) < s.size (root b) then
            .ok { s with parent := fset s.parent (root a) (root b), size := fset s.size (root b) (s.size (root b) + s.size (root a)) }
          else .ok { s with parent := fset s.parent (root b) (root a), size := fset s.size (root a) (s.size (root a) + s.size (root b)) }) else .ok s := by
        rw [dsuUnion, find_eq h.ok ha, ok_bind]
        dsimp only
        rw [find_eq h.ok hb, ok_bind]
        dsimp only
        split
        · split <;> rfl
        · rfl
      by_cases hne : root a = root b
      · rw [if_neg (by simp [hne])] at e
        simp only [dsuStep, e] at move ⊢
        exact move root hs
      · rw [if_pos hne] at e
        by_cases hsz : s.size (root a) < s.size (root b)
        · rw [if_pos hsz] at e
          simp only [dsuStep, e] at move ⊢
          exact move _ (link_shallow h.ok hs (h.ok.root_mem hb) (h.ok.root_mem ha) (h.ok.parent_root hb) (h.ok.parent_root ha) (fun e => hne e.symm) (by omega))
        · rw [if_neg hsz] at e
          simp only [dsuStep, e] at move ⊢
          exact move _ (link_shallow h.ok hs (h.ok.root_mem ha) (h.ok.root_mem hb) (h.ok.parent_root ha) (h.ok.parent_root hb) hne (by omega))
    · have e := union_error h hab
      simp only [dsuStep, e] at move ⊢
      exact move root hs

private theorem shallow_after : ∀ (ops : List (DsuOp κ)), NoMakeRoot ops → ∃ root, DsuRep (dsuAfter ops) (partitionAfter ops) root ∧ Shallow (dsuAfter ops) root := by
  have gen : ∀ (ops : List (DsuOp κ)) (s : Dsu κ) (p : Partition κ) (root : κ → κ), NoMakeRoot ops → DsuRep s p root → Shallow s root →
      ∃ root, DsuRep (ops.foldl dsuStep s) (ops.foldl dsuSpec p) root ∧ Shallow (ops.foldl dsuStep s) root := by
    intro ops
    induction ops with
    | nil => intro s p root _ h hs; exact ⟨root, h, hs⟩
    | cons op ops ih =>
      intro s p root hno h hs
      obtain ⟨root', h', hs'⟩ := shallow_step h hs op fun k e => hno k (by rw [e]; exact List.mem_cons_self)
      exact ih _ _ root' (fun k hk => hno k (List.mem_cons_of_mem _ hk)) h' hs'
  intro ops hno
  refine gen ops dsuNew ⟨[], []⟩ id hno ⟨⟨List.nodup_nil, ?_, ?_, ?_⟩, rfl, ?_, ?_⟩ ?_
  all_goals intro a ha; simp [dsuNew] at ha

/-- **C124**: as long as `make_root` is not used, `find_root` of a key in a set of `m` keys follows at most `log2 m` links to the root (one more test ends the loop),
after every history of `make_set` and `union`. -/
theorem C124_find_root (ops : List (DsuOp κ)) (hno : NoMakeRoot ops) (a : κ) (ha : a ∈ (partitionAfter ops).keys) :
    ∃ m : Nat, dsuSize (dsuAfter ops) a = .ok (m : Int) ∧ SettlesWithin (Nat.log2 m + 1) fun n => dsuFindLoop n (dsuAfter ops) a := by
  obtain ⟨root, h, hs⟩ := shallow_after ops hno
  have ha' : a ∈ (dsuAfter ops).keys := by rw [h.keys]; exact ha
  obtain ⟨n, w, hn⟩ := hs a ha'
  have hsz := h.ok.size _ (h.ok.root_mem ha') (h.ok.root_root ha')
  refine ⟨(dsuAfter ops).keys.countP fun k => decide (root k = root a), ?_, ?_⟩
  · rw [dsuSize, if_pos ha', find_eq h.ok ha', ok_bind]
    dsimp only
    rw [hsz]
  · rw [hsz] at hn
    have hn' : 2 ^ n ≤ (dsuAfter ops).keys.countP fun k => decide (root k = root a) := by exact_mod_cast hn
    have hpos : 0 < 2 ^ n := Nat.pow_pos (by omega)
    have hlog := (Nat.le_log2 (by omega)).2 hn'
    refine ⟨?_, fun f hf => ?_⟩
    · dsimp only
      rw [findLoop_eq w _ (by omega)]
      intro h; cases h
    · dsimp only
      rw [findLoop_eq w _ (by omega), findLoop_eq w _ (by omega)]

/-- Four keys in one set: two links, and two tests are not enough. -/
example : NoMakeRoot [DsuOp.make 1, .make 2, .make 3, .make 4, .union 1 2, .union 3 4, .union 1 3] ∧
    dsuFindLoop 2 (dsuAfter [DsuOp.make 1, .make 2, .make 3, .make 4, .union 1 2, .union 3 4, .union 1 3]) 4 = .error .outOfFuel ∧
    ∃ s, dsuFindLoop (Nat.log2 4 + 1) (dsuAfter [DsuOp.make 1, .make 2, .make 3, .make 4, .union 1 2, .union 3 4, .union 1 3]) 4 = .ok (s, 1) := by
  refine ⟨by intro k; simp, rfl, _, rfl⟩

/-- A history that always attaches the old root to the new key: `make_set n`, `union 0 n`, `make_root n`. -/
def chainOps : Nat → List (DsuOp Nat)
  | 0 => [.make 0]
  | n + 1 => chainOps n ++ [.make (n + 1), .union 0 (n + 1), .makeRoot (n + 1)]

private structure Chain (n : Nat) (s : Dsu Nat) : Prop where
  keys : s.keys = List.range (n + 1)
  up : ∀ i, i < n → s.parent i = i + 1
  top : s.parent n = n
  size : s.size n = n + 1

private theorem Chain.walk {n : Nat} {s : Dsu Nat} (h : Chain n s) : ∀ k i, i + k = n → ParentWalk s i k n := by
  intro k
  induction k with
  | zero => intro i hi; obtain rfl : i = n := by omega
            exact .root _ h.top
  | succ k ih =>
    intro i hi
    refine .step i k n (by rw [h.up i (by omega)]; omega) ?_
    rw [h.up i (by omega)]
    exact ih _ (by omega)

private theorem chain_after : ∀ n, Chain n (dsuAfter (chainOps n)) := by
  intro n
  induction n with
  | zero => exact ⟨rfl, fun i hi => absurd hi (by omega), rfl, rfl⟩
  | succ n ih =>
    have hstep : dsuAfter (chainOps (n + 1)) = dsuStep (dsuStep (dsuStep (dsuAfter (chainOps n)) (.make (n + 1))) (.union 0 (n + 1))) (.makeRoot (n + 1)) := by
      rw [chainOps, dsuAfter, dsuAfter, List.foldl_append]; rfl
    rw [hstep]
    generalize dsuAfter (chainOps n) = s at ih
    have hnk : n + 1 ∉ s.keys := by rw [ih.keys, List.mem_range]; omega
    rw [dsuStep, dsuMake, if_neg hnk]
    generalize hs1 : (⟨s.keys ++ [n + 1], fset s.parent (n + 1) (n + 1), fset s.size (n + 1) 1⟩ : Dsu Nat) = s1
    have k1 : s1.keys = List.range (n + 2) := by rw [← hs1]; simp only [ih.keys]; rw [← List.range_succ]
    have p1 : ∀ i, s1.parent i = if i = n + 1 then n + 1 else s.parent i := by intro i; rw [← hs1]; rfl
    have z1 : ∀ i, s1.size i = if i = n + 1 then 1 else s.size i := by intro i; rw [← hs1]; rfl
    have w1 : ∀ k i, i + k = n → ParentWalk s1 i k n := by
      intro k
      induction k with
      | zero =>
        intro i hi
        obtain rfl : i = n := by omega
        exact .root _ (by rw [p1, if_neg (by omega)]; exact ih.top)
      | succ k ihk =>
        intro i hi
        have : s1.parent i = i + 1 := by rw [p1, if_neg (by omega)]; exact ih.up i (by omega)
        exact .step i k n (by rw [this]; omega) (by rw [this]; exact ihk _ (by omega))
    have f1 : dsuFind s1 0 = .ok (s1, n) := by
      rw [dsuFind, if_pos (by rw [k1, List.mem_range]; omega), findLoop_eq (w1 n 0 (by omega)) _ (by rw [k1]; simp; omega)]
    have f2 : dsuFind s1 (n + 1) = .ok (s1, n + 1) := by
      rw [dsuFind, if_pos (by rw [k1, List.mem_range]; omega),
        findLoop_eq (.root (n + 1) (by rw [p1, if_pos rfl])) _ (by omega)]
    have e2 : dsuUnion s1 0 (n + 1) = .ok { s1 with parent := fset s1.parent (n + 1) n, size := fset s1.size n (s1.size n + s1.size (n + 1)) } := by
      rw [dsuUnion, f1, ok_bind]
      dsimp only
      rw [f2, ok_bind]
      dsimp only
      rw [if_pos (by omega)]
      have hz : ¬ s1.size n < s1.size (n + 1) := by
        rw [z1, z1, if_neg (by omega), if_pos rfl, ih.size]; omega
      rw [if_neg hz]
    simp only [dsuStep, e2]
    generalize hs2 : ({ s1 with parent := fset s1.parent (n + 1) n, size := fset s1.size n (s1.size n + s1.size (n + 1)) } : Dsu Nat) = s2
    have k2 : s2.keys = List.range (n + 2) := by rw [← hs2]; exact k1
    have p2 : ∀ i, s2.parent i = if i = n + 1 then n else s1.parent i := by intro i; rw [← hs2]; rfl
    have z2 : ∀ i, s2.size i = if i = n then s1.size n + s1.size (n + 1) else s1.size i := by intro i; rw [← hs2]; rfl
    have hp : s2.parent (n + 1) = n := by rw [p2, if_pos rfl]
    have hpn : s2.parent n = n := by rw [p2, if_neg (by omega), p1, if_neg (by omega)]; exact ih.top
    have e3 : dsuMakeRoot s2 (n + 1) = .ok
        ⟨s2.keys, fset (fset s2.parent n (n + 1)) (n + 1) (n + 1), fset (fset s2.size n (s2.size n - s2.size (n + 1))) (n + 1) (s2.size n)⟩ := by
      have hk : n + 1 ∈ s2.keys := by rw [k2, List.mem_range]; omega
      rw [dsuMakeRoot, if_pos hk, if_pos (by rw [hp]; omega), hp, dsuShrink, if_neg (by simp [hpn])]
      rfl
    rw [e3]
    refine ⟨k2, fun i hi => ?_, by simp [fset], ?_⟩
    · simp only [fset]
      rw [if_neg (by omega)]
      split
      · omega
      · rw [p2, if_neg (by omega), p1, if_neg (by omega)]
        exact ih.up i (by omega)
    · simp only [fset, if_true]
      rw [z2, if_pos rfl, z1, z1, if_neg (by omega), if_pos rfl, ih.size]
      omega

private theorem findLoop_short {s : Dsu κ} {k : κ} {n : Nat} {r : κ} (w : ParentWalk s k n r) : ∀ fuel, fuel ≤ n → dsuFindLoop fuel s k = .error .outOfFuel := by
  induction w with
  | root k h => intro fuel hf; obtain rfl : fuel = 0 := by omega
                rfl
  | step k n r h w ih =>
    intro fuel hf
    cases fuel with
    | zero => rfl
    | succ fuel =>
      rw [dsuFindLoop, if_pos h]
      dsimp only
      have : fset s.parent (s.parent k) (s.parent (s.parent k)) = s.parent := by
        funext j; simp only [fset]; split
        · rename_i e; rw [e]
        · rfl
      rw [this]
      exact ih fuel (by omega)

/-- **C124** with `make_root` there is no such bound: for every `n` there is a history that makes `n + 1` keys and unites them, after which finding the root takes `n`
links. -/
theorem C124_make_root_chain (n : Nat) : (partitionAfter (chainOps n)).keys.length = n + 1 ∧
    dsuFindLoop n (dsuAfter (chainOps n)) 0 = .error .outOfFuel ∧ ∃ s, dsuFindLoop (n + 1) (dsuAfter (chainOps n)) 0 = .ok (s, n) := by
  have h := chain_after n
  obtain ⟨root, hr⟩ := after_rep (chainOps n)
  refine ⟨by rw [← hr.keys, h.keys]; simp, findLoop_short (h.walk n 0 (by omega)) n (by omega), _, findLoop_eq (h.walk n 0 (by omega)) _ (by omega)⟩

end Props
