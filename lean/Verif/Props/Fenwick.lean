import Verif.Model.Fenwick
import Verif.Lemmas.Py
import Verif.Spec

/-! # C48: the Fenwick tree -/
namespace Props
open Py Model Spec

/-! ## The lowest set bit -/

theorem lowBit_odd (m : Nat) : lowBit (2 * m + 1) = 1 := by
  have e1 : ((2 * m + 1 : Nat) : Int) = Int.bit true m := by rw [Int.bit_val]; simp
  have e2 : (-((2 * m + 1 : Nat) : Int)) = Int.bit true (-(m : Int) - 1) := by rw [Int.bit_val]; simp; omega
  have e3 : Int.land (m : Int) (-(m : Int) - 1) = 0 := by
    have : (-(m : Int) - 1) = Int.negSucc m := by omega
    rw [this]
    show ((Nat.ldiff m m : Nat) : Int) = 0
    have : Nat.ldiff m m = 0 := by
      apply Nat.eq_of_testBit_eq; intro i; simp [Nat.testBit_ldiff]
    rw [this]; rfl
  rw [lowBit, e2, e1, Int.land_bit, e3]; rfl

theorem lowBit_even (m : Nat) : lowBit (2 * m) = 2 * lowBit m := by
  have e1 : ((2 * m : Nat) : Int) = Int.bit false m := by rw [Int.bit_val]; simp
  have e2 : (-((2 * m : Nat) : Int)) = Int.bit false (-(m : Int)) := by rw [Int.bit_val]; simp
  rw [lowBit, e2, e1, Int.land_bit, Int.bit_val, lowBit]
  simp only [Bool.and_self, cond_false, Int.add_zero]
  omega

theorem lowBit_pos_le : ∀ n, 0 < n → 0 < lowBit n ∧ lowBit n ≤ n := by
  intro n
  induction n using Nat.strongRecOn with
  | ind n ih =>
    intro hn
    rcases Nat.even_or_odd' n with ⟨m, rfl | rfl⟩
    · rw [lowBit_even]; have := ih m (by omega) (by omega); omega
    · rw [lowBit_odd]; omega

/-- Node `j` of the tree covers the positions `j - lowBit j < q ≤ j`. -/
def Covers (j q : Nat) : Prop := j - lowBit j < q ∧ q ≤ j

/-- The nodes covering `q` are `q` itself and the nodes covering `q + lowBit q`. -/
theorem covers_step : ∀ (j q : Nat), 0 < q → 0 < j → (Covers j q ↔ j = q ∨ Covers j (q + lowBit q)) := by
  intro j
  induction j using Nat.strongRecOn with
  | ind j ih =>
    intro q hq hj
    unfold Covers
    have hlq := lowBit_pos_le q hq
    rcases Nat.even_or_odd' j with ⟨j', rfl | rfl⟩
    · rw [lowBit_even]
      have hlj := lowBit_pos_le j' (by omega)
      rcases Nat.even_or_odd' q with ⟨q', rfl | rfl⟩
      · have := ih j' (by omega) q' (by omega) (by omega)
        unfold Covers at this
        rw [lowBit_even] at hlq ⊢
        omega
      · rw [lowBit_odd]
        omega
    · rw [lowBit_odd]
      rcases Nat.even_or_odd' q with ⟨q', rfl | rfl⟩
      · rw [lowBit_even] at hlq ⊢; omega
      · rw [lowBit_odd]; omega

/-! ## Prefix sums of a function -/

/-- `v 0 + … + v (n - 1)`. -/
def psum (v : Nat → Int) : Nat → Int
  | 0 => 0
  | n + 1 => psum v n + v n

theorem psum_update (v : Nat → Int) (p : Nat) (d : Int) (n : Nat) :
    psum (fun k => if k = p then v k + d else v k) n = psum v n + (if p < n then d else 0) := by
  induction n with
  | zero => simp [psum]
  | succ n ih =>
    simp only [psum, ih]
    by_cases h1 : p < n
    · have : n ≠ p := by omega
      simp only [h1, if_true, this, if_false, show p < n + 1 by omega]; omega
    · by_cases h2 : n = p
      · subst h2; simp; omega
      · have : ¬ p < n + 1 := by omega
        simp only [h1, h2, this, if_false]; omega

/-- The tree holds, at every node, the sum of the values it covers. -/
def TreeOk (n : Nat) (tree : List Int) (v : Nat → Int) : Prop :=
  tree.length = n + 2 ∧ ∀ j, 0 < j → j ≤ n → tree[j]? = some (psum v j - psum v (j - lowBit j))

theorem bitAdd_spec (n : Nat) (d : Int) : ∀ (fuel q : Nat) (tree : List Int), 0 < q → n + 1 < q + fuel → 0 < fuel → tree.length = n + 2 →
    ∃ tree', bitAdd n d fuel q tree = .ok tree' ∧ tree'.length = n + 2 ∧
      ∀ (j : Nat) (x : Int), 0 < j → j ≤ n → tree[j]? = some x →
        (Covers j q → tree'[j]? = some (x + d)) ∧ (¬ Covers j q → tree'[j]? = some x) := by
  intro fuel
  induction fuel with
  | zero =>
    intro q tree hq hfu hf0 hl
    omega
  | succ fuel ih =>
    intro q tree hq hfu _ hl
    have hlow := lowBit_pos_le q hq
    rw [bitAdd]
    by_cases hqn : q < n + 1
    · rw [if_pos hqn, rd_of_lt (by omega), ok_bind, wr_of_lt _ (by omega), ok_bind]
      obtain ⟨tree', e, hl', hv⟩ := ih (q + lowBit q) (tree.set q (tree[q]'(by omega) + d)) (by omega) (by omega) (by omega) (by simp [hl])
      refine ⟨tree', e, hl', ?_⟩
      intro j x hj hjn hx
      have hc := covers_step j q hq hj
      by_cases hjq : j = q
      · subst hjq
        have hself : Covers j j := ⟨by omega, Nat.le_refl _⟩
        have hnot : ¬ Covers j (j + lowBit j) := fun h => by have := h.2; omega
        have hx' : tree[j]'(by omega) = x := by
          rw [List.getElem?_eq_getElem (by omega)] at hx; exact Option.some.inj hx
        have := (hv j (x + d) hj hjn (by rw [List.getElem?_set_self (by omega), hx'])).2 hnot
        exact ⟨fun _ => this, fun h => absurd hself h⟩
      · have h2 := hv j x hj hjn (by rw [List.getElem?_set_ne (fun h => hjq h.symm)]; exact hx)
        constructor
        · intro h
          rcases hc.1 h with h | h
          · exact absurd h hjq
          · exact h2.1 h
        · intro h
          exact h2.2 (fun h' => h (hc.2 (Or.inr h')))
    · rw [if_neg hqn]
      refine ⟨tree, rfl, hl, ?_⟩
      intro j x hj hjn hx
      exact ⟨fun h => absurd h.2 (by omega), fun _ => hx⟩

/-- Adding `d` at position `p`. -/
theorem bitAdd_ok {n : Nat} {tree : List Int} {v : Nat → Int} (h : TreeOk n tree v) (p : Nat) (d : Int) :
    ∃ tree', bitAdd n d (n + 2) (p + 1) tree = .ok tree' ∧ TreeOk n tree' (fun k => if k = p then v k + d else v k) := by
  obtain ⟨tree', e, hl, hv⟩ := bitAdd_spec n d (n + 2) (p + 1) tree (by omega) (by omega) (by omega) h.1
  refine ⟨tree', e, hl, ?_⟩
  intro j hj hjn
  have := hv j _ hj hjn (h.2 j hj hjn)
  rw [psum_update, psum_update]
  by_cases hc : Covers j (p + 1)
  · rw [this.1 hc]
    unfold Covers at hc
    rw [if_pos (by omega), if_neg (by omega)]
    congr 1; omega
  · rw [this.2 hc]
    unfold Covers at hc
    have hlow := lowBit_pos_le j hj
    by_cases h1 : p < j
    · rw [if_pos h1, if_pos (by omega)]; congr 1; omega
    · rw [if_neg h1, if_neg (by omega)]; congr 1; omega

theorem bitSumLoop_spec {n : Nat} {tree : List Int} {v : Nat → Int} (h : TreeOk n tree v) : ∀ (fuel i : Nat) (acc : Int), i < fuel → i ≤ n →
    bitSumLoop tree fuel i acc = .ok (acc + psum v i) := by
  intro fuel
  induction fuel with
  | zero => intro i acc h; omega
  | succ fuel ih =>
    intro i acc hi hin
    rw [bitSumLoop]
    by_cases h0 : 0 < i
    · have hlow := lowBit_pos_le i h0
      rw [if_pos h0, rd_of_some (h.2 i h0 hin), ok_bind, ih _ _ (by omega) (by omega)]
      congr 1; omega
    · have : i = 0 := by omega
      subst this
      simp [psum]

/-! ## The object -/

/-- The value a position counts with: nothing before it was first set. -/
def liveVal (s : Fenwick) (k : Nat) : Int := if s.flag.getD k false then s.array.getD k 0 else 0

structure BitOk (s : Fenwick) : Prop where
  flag : s.flag.length = s.array.length
  tree : TreeOk s.array.length s.tree (liveVal s)

theorem bitUpdate_ok {s : Fenwick} (h : BitOk s) (i : Nat) (x : Int) (hi : i < s.array.length) :
    ∃ s', bitUpdate s i x = .ok s' ∧ BitOk s' ∧ s'.array = s.array.set i x ∧ s'.flag = s.flag.set i true := by
  have hif : i < s.flag.length := by rw [h.flag]; exact hi
  have key : ∀ (d : Int) , (∀ k, (if k = i then liveVal s k + d else liveVal s k) =
      liveVal ⟨s.tree, s.array.set i x, s.flag.set i true⟩ k) →
      ∃ tree', bitAdd s.array.length d (s.array.length + 2) (i + 1) s.tree = .ok tree' ∧
        BitOk ⟨tree', s.array.set i x, s.flag.set i true⟩ := by
    intro d hd
    obtain ⟨tree', e, ht⟩ := bitAdd_ok h.tree i d
    refine ⟨tree', e, by simp [h.flag], ?_⟩
    have : (fun k => if k = i then liveVal s k + d else liveVal s k) = liveVal ⟨tree', s.array.set i x, s.flag.set i true⟩ := by
      funext k; rw [hd k]; rfl
    rw [this] at ht
    simpa using ht
  by_cases hfl : s.flag[i] = true
  · obtain ⟨tree', e, ht⟩ := key (x - s.array[i]) (by
      intro k
      simp only [liveVal, List.getD]
      by_cases hk : k = i
      · subst hk
        simp [hif, hi, hfl]
      · have : i ≠ k := fun h => hk h.symm
        simp only [hk, if_false, List.getElem?_set_ne this]
        rfl)
    refine ⟨⟨tree', s.array.set i x, s.flag.set i true⟩, ?_, ht, rfl, rfl⟩
    have hset : s.flag.set i true = s.flag := by
      rw [← hfl]; exact List.set_getElem_self hif
    rw [bitUpdate, rd_of_lt hif, ok_bind]
    simp only [hfl, Bool.true_eq_false, if_false, rd_of_lt hi, ok_bind, e, wr_of_lt _ hi, hset]
  · have hfl' : s.flag[i] = false := by simpa using hfl
    obtain ⟨tree', e, ht⟩ := key x (by
      intro k
      simp only [liveVal, List.getD]
      by_cases hk : k = i
      · subst hk
        simp [hif, hi, hfl']
      · have : i ≠ k := fun h => hk h.symm
        simp only [hk, if_false, List.getElem?_set_ne this]
        rfl)
    refine ⟨⟨tree', s.array.set i x, s.flag.set i true⟩, ?_, ht, rfl, rfl⟩
    rw [bitUpdate, rd_of_lt hif, ok_bind]
    simp only [hfl', if_true, wr_of_lt _ hif, ok_bind, e, wr_of_lt _ hi]

theorem psum_zero (n : Nat) : psum (fun _ => 0) n = 0 := by
  induction n with
  | zero => rfl
  | succ n ih => simp [psum, ih]

/-- After construction every position is live. -/
structure Full (s : Fenwick) (a : List Int) : Prop where
  ok : BitOk s
  arr : s.array = a
  all : s.flag = List.replicate a.length true

theorem bitNew_ok (a : List Int) (ha : a ≠ []) : ∃ s, bitNew a = .ok s ∧ Full s a := by
  have hn : 0 < a.length := List.length_pos_iff.2 ha
  obtain ⟨s, e, h1, h2, h3⟩ := forRange_spec (fun k s => BitOk s ∧ s.array = a ∧ s.flag = List.replicate k true ++ List.replicate (a.length - k) false)
    (lo := 0) (hi := a.length) (s := (⟨List.replicate (a.length + 2) 0, a, List.replicate a.length false⟩ : Fenwick))
    (body := fun i s => do
      let x ← rd a i
      bitUpdate s i x) (Nat.zero_le _) ⟨⟨by simp, by
        have : liveVal ⟨List.replicate (a.length + 2) 0, a, List.replicate a.length false⟩ = fun _ => 0 := by
          funext k
          simp only [liveVal, List.getD, List.getElem?_replicate]
          split <;> simp_all
        rw [this]
        refine ⟨by simp, ?_⟩
        intro j _ hj
        dsimp only at hj
        rw [psum_zero, psum_zero, List.getElem?_replicate, if_pos (by omega)]; rfl⟩, rfl, by simp⟩ (by
      rintro k s _ hk ⟨h1, h2, h3⟩
      obtain ⟨s', e, hs, ha', hf'⟩ := bitUpdate_ok h1 k a[k] (by rw [h2]; exact hk)
      refine ⟨s', by rw [rd_of_lt hk, ok_bind, e], hs, ?_, ?_⟩
      · rw [ha', h2]; exact List.set_getElem_self hk
      · rw [hf', h3]
        obtain ⟨m, hm⟩ : ∃ m, a.length - k = m + 1 := ⟨a.length - k - 1, by omega⟩
        rw [hm, show a.length - (k + 1) = m by omega, List.replicate_succ, List.set_append_right _ _ (by simp)]
        simp [List.replicate_succ'])
  refine ⟨s, by rw [bitNew, rd_of_lt hn, ok_bind, e], h1, h2, ?_⟩
  rw [h3]; simp

theorem psum_take (v : Nat → Int) (a : List Int) (h : ∀ k, k < a.length → v k = a.getD k 0) : ∀ n, n ≤ a.length → psum v n = (a.take n).sum := by
  intro n
  induction n with
  | zero => intro _; simp [psum]
  | succ n ih =>
    intro hn
    rw [psum, ih (by omega), ← List.take_append_getElem (by omega : n < a.length), List.sum_append, h n (by omega)]
    simp [List.getD, List.getElem?_eq_getElem (show n < a.length by omega)]

theorem Full.prefix {s : Fenwick} {a : List Int} (h : Full s a) (i : Nat) (hi : i < a.length) :
    bitPrefix s i = .ok (a.take (i + 1)).sum := by
  have hlen : s.array.length = a.length := by rw [h.arr]
  rw [bitPrefix, bitSumLoop_spec h.ok.tree _ _ _ (by omega) (by omega)]
  rw [psum_take _ a _ _ (by omega)]
  · simp
  · intro k hk
    simp [liveVal, h.all, h.arr, List.getD, hk]

/-! ## C48 -/

/-- Calls on a Fenwick tree. -/
inductive BitOp where
  | update (index : Nat) (value : Int)
  | sum (left right : Nat)

def bitStep (s : Fenwick) : BitOp → Fenwick × Out Int
  | .update i v => match bitUpdate s i v with
    | .ok s' => (s', .done)
    | .error e => (s, .raised e)
  | .sum l r => match bitSum s l r with
    | .ok x => (s, .elem x)
    | .error e => (s, .raised e)

/-- The specification: a plain array, `sum l r` adds up the elements at positions `l..r`. -/
def bitSpec (a : List Int) : BitOp → List Int × Out Int
  | .update i v => if i < a.length then (a.set i v, .done) else (a, .raised .indexError)
  | .sum l r => (a, .elem ((a.take (r + 1)).drop l).sum)

/-- Sums are asked for ranges inside the array. -/
def BitOp.InRange (n : Nat) : BitOp → Prop
  | .update _ _ => True
  | .sum l r => l ≤ r ∧ r < n

/-- C48. For every non-empty array and every history of updates (in range or not) and range sums inside the array. -/
theorem C48_fenwick (a : List Int) (ha : a ≠ []) (ops : List BitOp) (hops : ∀ o ∈ ops, o.InRange a.length) :
    ∃ s, bitNew a = .ok s ∧ trace bitStep s ops = trace bitSpec a ops := by
  obtain ⟨s, e, hs⟩ := bitNew_ok a ha
  refine ⟨s, e, ?_⟩
  clear e ha
  induction ops generalizing s a with
  | nil => rfl
  | cons o ops ih =>
    have ho := hops o (by simp)
    have hops' : ∀ o ∈ ops, o.InRange a.length := fun x hx => hops x (by simp [hx])
    cases o with
    | update i v =>
      by_cases hi : i < a.length
      · obtain ⟨s', e, h1, h2, h3⟩ := bitUpdate_ok hs.ok i v (by rw [hs.arr]; exact hi)
        have : Full s' (a.set i v) := ⟨h1, by rw [h2, hs.arr], by
          rw [h3, hs.all, List.length_set]
          apply List.ext_getElem?
          intro j
          rw [List.getElem?_set]
          simp only [List.length_replicate, List.getElem?_replicate]
          split
          · rename_i h; subst h; simp [hi]
          · rfl⟩
        simp only [trace, bitStep, bitSpec, e, if_pos hi]
        rw [ih _ (by simpa using hops') _ this]
      · have : bitUpdate s i v = .error .indexError := by
          rw [bitUpdate, rd, hs.all, List.getElem?_eq_none (by simp; omega)]; rfl
        simp only [trace, bitStep, bitSpec, this, if_neg hi]
        rw [ih _ hops' _ hs]
    | sum l r =>
      obtain ⟨h1, h2⟩ : l ≤ r ∧ r < a.length := ho
      have : bitSum s l r = .ok ((a.take (r + 1)).drop l).sum := by
        rw [bitSum]
        by_cases hl : 1 ≤ l
        · rw [if_pos hl, hs.prefix r h2, ok_bind, hs.prefix (l - 1) (by omega), ok_bind, show l - 1 + 1 = l by omega]
          have := congrArg List.sum (List.take_append_drop l (a.take (r + 1)))
          rw [List.sum_append, List.take_take, show min l (r + 1) = l by omega] at this
          congr 1; omega
        · rw [if_neg hl, hs.prefix r h2, show l = 0 by omega, List.drop_zero]
      simp only [trace, bitStep, bitSpec, this]
      rw [ih _ hops' _ hs]

example : (bitNew [1, 2, 3]).toOption.map (fun s => trace bitStep s [.sum 0 2, .update 0 100, .sum 0 2, .sum 1 2, .update 3 7]) =
    some [.elem 6, .done, .elem 105, .elem 5, .raised .indexError] := by decide +kernel

end Props
