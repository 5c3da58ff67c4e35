import Verif.Model.CppFenwick
import Verif.Props.Fenwick

/-! # C110: the Fenwick tree of the C++ back end -/
namespace Props
open Py Model Model.Cpp Spec

/-! ## Values of `long` -/

theorem inLong_of {x : Int} (h1 : -2 ^ 63 ≤ x) (h2 : x < 2 ^ 63) : inLong x = true := by
  simp only [inLong, decide_eq_true_eq]; exact ⟨h1, h2⟩

theorem inLong_natAbs {x : Int} (h : x.natAbs < 2 ^ 63) : inLong x = true := inLong_of (by omega) (by omega)

theorem longOp_ok {x : Int} (h : inLong x = true) : longOp x = .ok x := by rw [longOp, if_pos h]

theorem asLong_ok {x : Int} (h : inLong x = true) : asLong x = (x, false) := by rw [asLong, if_pos h]

/-- `|v 0| + … + |v (n - 1)|`. -/
def asum (v : Nat → Int) : Nat → Nat
  | 0 => 0
  | n + 1 => asum v n + (v n).natAbs

theorem asum_mono (v : Nat → Int) {i j : Nat} (h : i ≤ j) : asum v i ≤ asum v j := by
  induction h with
  | refl => exact Nat.le_refl _
  | step _ ih => rw [asum]; omega

theorem psum_abs (v : Nat → Int) {i j : Nat} (h : i ≤ j) : (psum v j - psum v i).natAbs ≤ asum v j - asum v i := by
  induction h with
  | refl => simp
  | @step j h ih =>
    have := asum_mono v h
    rw [psum, asum]
    omega

theorem psum_inLong (v : Nat → Int) {i j n : Nat} (h : i ≤ j) (hn : j ≤ n) (hb : asum v n < 2 ^ 63) : inLong (psum v j - psum v i) = true := by
  have h1 := psum_abs v h
  have h2 := asum_mono v hn
  exact inLong_natAbs (by omega)

theorem asum_update (v : Nat → Int) (p : Nat) (w : Nat → Int) (h : ∀ k, k ≠ p → w k = v k) (n : Nat) (hv : v p = 0 ∨ True) :
    asum w n ≤ asum v n + (w p).natAbs := by
  clear hv
  have key : ∀ n, (n ≤ p → asum w n = asum v n) ∧ asum w n ≤ asum v n + (w p).natAbs := by
    intro n
    induction n with
    | zero => simp [asum]
    | succ n ih =>
      constructor
      · intro hn
        rw [asum, asum, ih.1 (by omega), h n (by omega)]
      · by_cases hp : n = p
        · subst hp; rw [asum, asum, ih.1 (Nat.le_refl _)]; omega
        · rw [asum, asum, h n hp]; have := ih.2; omega
  exact (key n).2

/-! ## Without an overflow the two back ends do the same -/

theorem cbAdd_eq (n : Nat) (d : Int) : ∀ (fuel q : Nat) (tree tree' : List Int), 0 < q → n + 1 < q + fuel → 0 < fuel → tree.length = n + 2 →
    bitAdd n d fuel q tree = .ok tree' → (∀ (j : Nat) (x : Int), 0 < j → j ≤ n → tree'[j]? = some x → inLong x = true) →
    cbAdd n d fuel q tree = .ok tree' := by
  intro fuel
  induction fuel with
  | zero => intro q tree tree' _ _ h; omega
  | succ fuel ih =>
    intro q tree tree' hq hfu _ hl e hin
    have hlow := lowBit_pos_le q hq
    rw [bitAdd] at e
    rw [cbAdd]
    by_cases hqn : q < n + 1
    · rw [if_pos hqn, rd_of_lt (by omega), ok_bind, wr_of_lt _ (by omega), ok_bind] at e
      obtain ⟨t2, e2, _, hv⟩ := bitAdd_spec n d fuel (q + lowBit q) (tree.set q (tree[q]'(by omega) + d)) (by omega) (by omega) (by omega) (by simp [hl])
      have ht : t2 = tree' := by rw [e2] at e; exact Except.ok.inj e
      subst ht
      have hnot : ¬ Covers q (q + lowBit q) := fun h => by have := h.2; omega
      have hx := (hv q (tree[q]'(by omega) + d) hq (by omega) (by rw [List.getElem?_set_self (by omega)])).2 hnot
      rw [if_pos hqn, rd_of_lt (by omega), ok_bind, longOp_ok (hin q _ hq (by omega) hx), ok_bind, wr_of_lt _ (by omega), ok_bind]
      exact ih _ _ _ (by omega) (by omega) (by omega) (by simp [hl]) e hin
    · rw [if_neg hqn] at e ⊢
      exact e

/-- The sum of the absolute values in the tree. -/
def bitMass (s : Fenwick) : Nat := asum (liveVal s) s.array.length

theorem treeOk_inLong {n : Nat} {tree : List Int} {v : Nat → Int} (h : TreeOk n tree v) (hb : asum v n < 2 ^ 63) (j : Nat) (x : Int)
    (hj : 0 < j) (hn : j ≤ n) (hx : tree[j]? = some x) : inLong x = true := by
  rw [h.2 j hj hn] at hx
  cases hx
  exact psum_inLong v (by omega) hn hb

theorem cbUpdate_eq {s s' : Fenwick} {i : Nat} {x : Int} (h : BitOk s) (hi : i < s.array.length) (hfit : s.array.length < 2 ^ 63)
    (hx : x.natAbs < 2 ^ 62) (ho : (liveVal s i).natAbs < 2 ^ 62) (e : bitUpdate s i x = .ok s') (hs : BitOk s') (hlen : s'.array.length = s.array.length)
    (hm : bitMass s' < 2 ^ 63) : cbUpdate s i x = .ok (s', false) := by
  have hif : i < s.flag.length := by rw [h.flag]; exact hi
  have hc : (0 : Int) ≤ (i : Int) ∧ (i : Int) < s.array.length := ⟨by omega, by omega⟩
  have ei : asLong (i : Int) = ((i : Int), false) := asLong_ok (inLong_of (by omega) (by omega))
  have ev : asLong x = (x, false) := asLong_ok (inLong_of (by omega) (by omega))
  have key : ∀ d tree', bitAdd s.array.length d (s.array.length + 2) (i + 1) s.tree = .ok tree' → s'.tree = tree' →
      cbAdd s.array.length d (s.array.length + 2) (i + 1) s.tree = .ok tree' := by
    intro d tree' e1 e2
    refine cbAdd_eq _ _ _ _ _ _ (by omega) (by omega) (by omega) h.tree.1 e1 ?_
    intro j y hj hn hy
    have ht := hs.tree
    rw [hlen, e2] at ht
    rw [bitMass, hlen] at hm
    exact treeOk_inLong ht hm j y hj hn hy
  obtain ⟨tree', e1, _⟩ : ∃ t, bitAdd s.array.length (if s.flag[i] = false then x else x - s.array[i]) (s.array.length + 2) (i + 1) s.tree = .ok t ∧ True := by
    obtain ⟨t, h1, _⟩ := bitAdd_ok h.tree i (if s.flag[i] = false then x else x - s.array[i])
    exact ⟨t, h1, trivial⟩
  rw [bitUpdate, rd_of_lt hif, ok_bind] at e
  simp only [cbUpdate, ei, ev]
  rw [if_pos hc]
  simp only [Int.toNat_natCast, rd_of_lt hif, ok_bind]
  cases hfl : s.flag[i] with
  | false =>
    simp only [hfl, if_true, wr_of_lt _ hif, ok_bind] at e e1 ⊢
    rw [e1, ok_bind, wr_of_lt _ hi, ok_bind] at e
    have e' := Except.ok.inj e
    rw [key _ _ e1 (by rw [← e']), ok_bind, wr_of_lt _ hi, ok_bind, ← e']
    rfl
  | true =>
    simp only [hfl, Bool.true_eq_false, if_false, rd_of_lt hi, ok_bind] at e e1 ⊢
    rw [e1, ok_bind, wr_of_lt _ hi, ok_bind] at e
    have e' := Except.ok.inj e
    have hold : liveVal s i = s.array[i] := by simp [liveVal, List.getD, hif, hi, hfl]
    rw [hold] at ho
    rw [longOp_ok (inLong_natAbs (by omega)), ok_bind]
    rw [key _ _ e1 (by rw [← e']), ok_bind, wr_of_lt _ hi, ok_bind, ← e']
    rfl

theorem cbSumLoop_eq {n : Nat} {tree : List Int} {v : Nat → Int} (h : TreeOk n tree v) (hb : asum v n < 2 ^ 63) : ∀ (fuel i m : Nat), i < fuel → i ≤ m → m ≤ n →
    cbSumLoop tree fuel i (psum v m - psum v i, false) = .ok (psum v m, false) := by
  intro fuel
  induction fuel with
  | zero => intro i m h; omega
  | succ fuel ih =>
    intro i m hi him hmn
    rw [cbSumLoop]
    by_cases h0 : 0 < i
    · have hlow := lowBit_pos_le i h0
      have hx := h.2 i h0 (by omega)
      rw [if_pos h0, hx]
      have he : psum v m - psum v i + (psum v i - psum v (i - lowBit i)) = psum v m - psum v (i - lowBit i) := by omega
      dsimp only
      rw [he, longOp_ok (psum_inLong v (by omega) hmn hb), ok_bind]
      exact ih _ _ (by omega) (by omega) hmn
    · have : i = 0 := by omega
      subst this
      simp [psum]

/-! ## The specification's sizes -/

/-- The sum of the absolute values of a list. -/
def absSum (a : List Int) : Nat := (a.map Int.natAbs).sum

theorem asum_take (v : Nat → Int) (a : List Int) (h : ∀ k, k < a.length → v k = a.getD k 0) : ∀ n, n ≤ a.length → asum v n = absSum (a.take n) := by
  intro n
  induction n with
  | zero => intro _; simp [asum, absSum]
  | succ n ih =>
    intro hn
    rw [asum, ih (by omega), ← List.take_append_getElem (by omega : n < a.length), absSum, absSum, List.map_append, List.sum_append, h n (by omega)]
    simp [List.getD, List.getElem?_eq_getElem (show n < a.length by omega)]

theorem Full.mass {s : Fenwick} {a : List Int} (h : Full s a) : bitMass s = absSum a := by
  rw [bitMass, h.arr, asum_take _ a _ _ (Nat.le_refl _), List.take_length]
  intro k hk
  simp [liveVal, h.all, h.arr, List.getD, hk]

theorem natAbs_le_absSum {a : List Int} {i : Nat} (hi : i < a.length) : (a[i]).natAbs ≤ absSum a := by
  induction a generalizing i with
  | nil => simp at hi
  | cons x xs ih =>
    cases i with
    | zero => simp [absSum]
    | succ i =>
      have := ih (i := i) (by simpa using hi)
      simp only [absSum, List.map_cons, List.sum_cons, List.getElem_cons_succ] at *
      omega

theorem cbPrefix_eq {s : Fenwick} {a : List Int} (h : Full s a) (hb : absSum a < 2 ^ 62) (hn : a.length < 2 ^ 62) (i : Int) (h0 : -1 ≤ i) (hi : i < a.length) :
    cbPrefix s i = .ok ((a.take (i + 1).toNat).sum, false) := by
  have hlen : s.array.length = a.length := by rw [h.arr]
  have hm := h.mass
  rw [bitMass, hlen] at hm
  have ht := h.ok.tree
  rw [hlen] at ht
  rw [cbPrefix, asLong_ok (inLong_of (by omega) (by omega))]
  dsimp only
  rw [longOp_ok (inLong_of (by omega) (by omega)), ok_bind]
  have := cbSumLoop_eq ht (by omega) ((i + 1).toNat + 1) (i + 1).toNat (i + 1).toNat (by omega) (Nat.le_refl _) (by omega)
  rw [Int.sub_self] at this
  rw [this, psum_take _ a _ _ (by omega)]
  intro k hk
  simp [liveVal, h.all, h.arr, List.getD, hk]

theorem Full.set {s s' : Fenwick} {a : List Int} (hs : Full s a) {i : Nat} {v : Int} (hi : i < a.length) (h1 : BitOk s') (h2 : s'.array = s.array.set i v)
    (h3 : s'.flag = s.flag.set i true) : Full s' (a.set i v) :=
  ⟨h1, by rw [h2, hs.arr], by
    rw [h3, hs.all, List.length_set]
    apply List.ext_getElem?
    intro j
    rw [List.getElem?_set]
    simp only [List.length_replicate, List.getElem?_replicate]
    split
    · rename_i h; subst h; simp [hi]
    · rfl⟩

theorem cbNew_eq (a : List Int) (ha : a ≠ []) (hb : absSum a < 2 ^ 62) (hn : a.length < 2 ^ 62) : ∃ s, cbNew a = .ok s ∧ Full s a := by
  have hpos : 0 < a.length := List.length_pos_iff.2 ha
  obtain ⟨r, e, h1, h2, h3, h4⟩ := forRange_spec (fun k (r : Fenwick × Bool) => BitOk r.1 ∧ r.1.array = a ∧
      r.1.flag = List.replicate k true ++ List.replicate (a.length - k) false ∧ r.2 = false)
    (lo := 0) (hi := a.length) (s := ((⟨List.replicate (a.length + 2) 0, a, List.replicate a.length false⟩ : Fenwick), false))
    (body := fun i s => do
      let x ← rd a i
      let r ← cbUpdate s.1 i x
      .ok (r.1, s.2 || r.2)) (Nat.zero_le _) ⟨⟨by simp, by
        have : liveVal ⟨List.replicate (a.length + 2) 0, a, List.replicate a.length false⟩ = fun _ => 0 := by
          funext k
          simp only [liveVal, List.getD, List.getElem?_replicate]
          split <;> simp_all
        rw [this]
        refine ⟨by simp, ?_⟩
        intro j _ hj
        dsimp only at hj
        rw [psum_zero, psum_zero, List.getElem?_replicate, if_pos (by omega)]; rfl⟩, rfl, by simp, rfl⟩ (by
      rintro k r _ hk ⟨h1, h2, h3, h4⟩
      have hlk : k < r.1.array.length := by rw [h2]; exact hk
      obtain ⟨s', e, hs, ha', hf'⟩ := bitUpdate_ok h1 k a[k] hlk
      have harr : s'.array = a := by rw [ha', h2]; exact List.set_getElem_self hk
      have hflag : s'.flag = List.replicate (k + 1) true ++ List.replicate (a.length - (k + 1)) false := by
        rw [hf', h3]
        obtain ⟨m, hm⟩ : ∃ m, a.length - k = m + 1 := ⟨a.length - k - 1, by omega⟩
        rw [hm, show a.length - (k + 1) = m by omega, List.replicate_succ, List.set_append_right _ _ (by simp)]
        simp [List.replicate_succ']
      have hak := natAbs_le_absSum hk
      have hmass : bitMass s' ≤ absSum a := by
        have key : ∀ n, n ≤ a.length → asum (liveVal s') n ≤ absSum (a.take n) := by
          intro n
          induction n with
          | zero => intro _; simp [asum]
          | succ n ih =>
            intro hn
            have hi := ih (by omega)
            rw [asum, ← List.take_append_getElem (by omega : n < a.length)]
            rw [absSum] at hi ⊢
            rw [List.map_append, List.sum_append]
            have : (liveVal s' n).natAbs ≤ (a[n]).natAbs := by
              rw [liveVal]
              split
              · rw [harr]; simp [List.getD, show n < a.length by omega]
              · simp
            simp only [List.map_cons, List.map_nil, List.sum_cons, List.sum_nil]
            omega
        have := key a.length (Nat.le_refl _)
        rw [List.take_length] at this
        rw [bitMass, harr]; exact this
      have hlive : liveVal r.1 k = 0 := by
        rw [liveVal, h3]
        have : (List.replicate k true ++ List.replicate (a.length - k) false).getD k false = false := by
          rw [List.getD, List.getElem?_append_right (by simp), List.getElem?_replicate]
          split <;> rfl
        rw [this]; rfl
      have hu := cbUpdate_eq h1 hlk (by rw [h2]; omega) (by omega) (by rw [hlive]; decide) e hs (by rw [harr, h2]) (by omega)
      refine ⟨(s', false), by rw [rd_of_lt hk, ok_bind, hu, ok_bind, h4]; rfl, hs, harr, hflag, rfl⟩)
  refine ⟨r.1, by rw [cbNew, rd_of_lt hpos, ok_bind, e, ok_bind, h4]; rfl, h1, h2, ?_⟩
  rw [h3]; simp

/-! ## C110 -/

/-- What the caller sees of `update`: a call that returns with an exception pending raises `SystemError`, although it has changed the tree. -/
def cbUpdOut (s : Fenwick) : PyM (Fenwick × Bool) → Fenwick × Out Int
  | .ok (s', false) => (s', .done)
  | .ok (s', true) => (s', .raised .systemError)
  | .error e => (s, .raised e)

/-- What the caller sees of `get_sum`. -/
def cbSumOut (s : Fenwick) : PyM (Int × Bool) → Fenwick × Out Int
  | .ok (x, false) => (s, .elem x)
  | .ok (_, true) => (s, .raised .systemError)
  | .error e => (s, .raised e)

/-- A call of the C++ object. -/
def cbStep (s : Fenwick) : BitOp → Fenwick × Out Int
  | .update i v => cbUpdOut s (cbUpdate s i v)
  | .sum l r => cbSumOut s (cbSum s l r)

/-- Every index of the call is inside the array. -/
def BitOp.Inside (n : Nat) : BitOp → Prop
  | .update i _ => i < n
  | .sum l r => l ≤ r ∧ r < n

/-- Before and after every call of the history the absolute values in the array sum up to less than 2⁶². -/
def SmallSums (a : List Int) (ops : List BitOp) : Prop := ∀ k, absSum (final bitSpec a (ops.take k)) < 2 ^ 62

theorem SmallSums.head {a : List Int} {ops : List BitOp} (h : SmallSums a ops) : absSum a < 2 ^ 62 := by
  have h0 := h 0
  rw [List.take_zero, final] at h0
  exact h0

theorem SmallSums.tail {a : List Int} {o : BitOp} {ops : List BitOp} (h : SmallSums a (o :: ops)) : SmallSums (bitSpec a o).1 ops := by
  intro k
  have h0 := h (k + 1)
  rw [List.take_succ_cons, final] at h0
  exact h0

theorem cbStep_update {s : Fenwick} {a : List Int} (hs : Full s a) (hn : a.length < 2 ^ 62) (hb : absSum a < 2 ^ 62) {i : Nat} {v : Int} (hi : i < a.length)
    (hb' : absSum (a.set i v) < 2 ^ 62) : (cbStep s (.update i v)).2 = (bitSpec a (.update i v)).2 ∧ Full (cbStep s (.update i v)).1 (bitSpec a (.update i v)).1 := by
  have hsi : i < s.array.length := by rw [hs.arr]; exact hi
  obtain ⟨s', e, h1, h2, h3⟩ := bitUpdate_ok hs.ok i v hsi
  have hf := hs.set hi h1 h2 h3
  have hspec : bitSpec a (.update i v) = (a.set i v, .done) := by simp only [bitSpec, if_pos hi]
  have hv : v.natAbs < 2 ^ 62 := by
    have := natAbs_le_absSum (a := a.set i v) (i := i) (by simpa using hi)
    rw [List.getElem_set_self] at this
    omega
  have hlive : (liveVal s i).natAbs < 2 ^ 62 := by
    have := natAbs_le_absSum hi
    have : liveVal s i = a[i] := by simp [liveVal, hs.all, hs.arr, List.getD, hi]
    rw [this]; omega
  have hu := cbUpdate_eq hs.ok hsi (by rw [hs.arr]; omega) hv hlive e h1 (by rw [h2]; simp) (by rw [hf.mass]; omega)
  have hstep : cbStep s (.update i v) = (s', .done) := by rw [cbStep, hu]; rfl
  rw [hspec, hstep]
  exact ⟨rfl, hf⟩

theorem cbStep_sum {s : Fenwick} {a : List Int} (hs : Full s a) (hn : a.length < 2 ^ 62) (hb : absSum a < 2 ^ 62) {l r : Nat} (h1 : l ≤ r) (h2 : r < a.length) :
    (cbStep s (.sum l r)).2 = (bitSpec a (.sum l r)).2 ∧ Full (cbStep s (.sum l r)).1 (bitSpec a (.sum l r)).1 := by
  have hr := cbPrefix_eq hs hb hn (r : Int) (by omega) (by omega)
  have hall : cbSum s (l : Int) (r : Int) = .ok (((a.take (r + 1)).drop l).sum, false) := by
    rw [cbSum, asLong_ok (inLong_of (x := (l : Int)) (by omega) (by omega)), asLong_ok (inLong_of (x := (r : Int)) (by omega) (by omega))]
    dsimp only
    by_cases hl : 1 ≤ l
    · rw [if_pos (by omega), hr, ok_bind, cbPrefix_eq hs hb hn ((l : Int) - 1) (by omega) (by omega), ok_bind]
      dsimp only
      rw [show ((r : Int) + 1).toNat = r + 1 by omega, show ((l : Int) - 1 + 1).toNat = l by omega]
      have hd := congrArg List.sum (List.take_append_drop l (a.take (r + 1)))
      rw [List.sum_append, List.take_take, show min l (r + 1) = l by omega] at hd
      have hlive : ∀ k, k < a.length → liveVal s k = a.getD k 0 := by
        intro k hk
        simp [liveVal, hs.all, hs.arr, List.getD, hk]
      have hb2 : asum (liveVal s) a.length < 2 ^ 63 := by
        have := hs.mass
        rw [bitMass, hs.arr] at this
        omega
      have hps := psum_inLong (liveVal s) (i := l) (j := r + 1) (n := a.length) (by omega) (by omega) hb2
      rw [psum_take _ a hlive _ (by omega), psum_take _ a hlive _ (by omega)] at hps
      rw [longOp_ok hps, ok_bind]
      have : (a.take (r + 1)).sum - (a.take l).sum = ((a.take (r + 1)).drop l).sum := by omega
      rw [this]
      rfl
    · rw [if_neg (by omega), hr, ok_bind, show l = 0 by omega, List.drop_zero, show ((r : Int) + 1).toNat = r + 1 by omega]
      rfl
  have hstep : cbStep s (.sum l r) = (s, .elem ((a.take (r + 1)).drop l).sum) := by rw [cbStep, hall]; rfl
  rw [hstep]
  exact ⟨rfl, hs⟩

theorem cbStep_spec {s : Fenwick} {a : List Int} (hs : Full s a) (hn : a.length < 2 ^ 62) (hb : absSum a < 2 ^ 62) : ∀ {o : BitOp}, o.Inside a.length →
    absSum (bitSpec a o).1 < 2 ^ 62 → (cbStep s o).2 = (bitSpec a o).2 ∧ Full (cbStep s o).1 (bitSpec a o).1
  | .update i v, ho, hb' => by
    have e : (bitSpec a (.update i v)).1 = a.set i v := by simp only [bitSpec, if_pos (show i < a.length from ho)]
    rw [e] at hb'
    exact cbStep_update hs hn hb ho hb'
  | .sum l r, ho, _ => cbStep_sum hs hn hb ho.1 ho.2

/-- C110, what holds. For every non-empty array and every history of updates and range sums inside the array, as long as the absolute values in the array sum up to less than 2⁶²,
the C++ object gives exactly the answers of a plain array. Missing: large values, and updates outside the array. -/
theorem C110_fenwick_partial (a : List Int) (ha : a ≠ []) (hn : a.length < 2 ^ 62) (ops : List BitOp) (hin : ∀ o ∈ ops, o.Inside a.length)
    (hb : SmallSums a ops) : ∃ s, cbNew a = .ok s ∧ trace cbStep s ops = trace bitSpec a ops := by
  obtain ⟨s, e, hs⟩ := cbNew_eq a ha hb.head hn
  refine ⟨s, e, ?_⟩
  clear e ha
  induction ops generalizing s a with
  | nil => rfl
  | cons o ops ih =>
    have ho := hin o (by simp)
    have hlen : (bitSpec a o).1.length = a.length := by
      cases o with
      | update i v => simp only [bitSpec]; split <;> simp
      | sum l r => rfl
    obtain ⟨h1, h2⟩ := cbStep_spec hs hn hb.head ho hb.tail.head
    rw [trace, trace, h1]
    rw [ih _ (by rw [hlen]; exact hn) (by rw [hlen]; exact fun x hx => hin x (by simp [hx])) hb.tail _ h2]

/-- A concrete history that meets the hypotheses, with its answers. -/
example : (cbNew [1, -2, 3]).toOption.map (fun s => trace cbStep s [.sum 0 2, .update 0 100, .sum 0 2, .sum 1 2]) =
    some [.elem 2, .done, .elem 101, .elem 1] := by decide +kernel

example : SmallSums [1, -2, 3] [.sum 0 2, .update 0 100, .sum 0 2, .sum 1 2] := by
  intro k
  have : ∀ k, k ≤ 4 → absSum (final bitSpec [1, -2, 3] ([.sum 0 2, .update 0 100, .sum 0 2, .sum 1 2].take k)) < 2 ^ 62 := by
    intro k hk
    match k, hk with
    | 0, _ => decide
    | 1, _ => decide
    | 2, _ => decide
    | 3, _ => decide
    | 4, _ => decide
  by_cases h : k ≤ 4
  · exact this k h
  · have e : ([.sum 0 2, .update 0 100, .sum 0 2, .sum 1 2] : List BitOp).take k = [.sum 0 2, .update 0 100, .sum 0 2, .sum 1 2] :=
      List.take_of_length_le (by simp; omega)
    rw [e]
    exact this 4 (Nat.le_refl _)

/-! ### What goes wrong -/

/-- The claim at full strength: the object answers like C48's, for all ints. -/
def C110_full : Prop := ∀ (a : List Int), a ≠ [] → ∀ ops : List BitOp, (∀ o ∈ ops, o.InRange a.length) →
    ∃ s, cbNew a = .ok s ∧ trace cbStep s ops = trace bitSpec a ops

theorem C110_full_false : ¬ C110_full := by
  intro h
  obtain ⟨s, e, _⟩ := h [2 ^ 63] (by simp) [] (by simp)
  have : (cbNew [2 ^ 63]).toOption.isNone = true := by decide +kernel
  rw [e] at this
  cases this

/-- An int that does not fit in a `long` makes the constructor raise, whatever the other elements are, unless their sums overflow first. -/
theorem C110_large_element (x : Int) (hx : inLong x = false) : cbNew [x] = .error .systemError := by
  have e : asLong x = (-1, true) := by rw [asLong, hx]; rfl
  have e0 : asLong ((0 : Nat) : Int) = (((0 : Nat) : Int), false) := asLong_ok (inLong_of (by omega) (by omega))
  have e1 : longOp (0 + -1) = .ok (-1) := longOp_ok (inLong_of (by omega) (by omega))
  have eu : cbUpdate ⟨[0, 0, 0], [x], [false]⟩ ((0 : Nat) : Int) x = .ok (⟨[0, -1, 0], [-1], [true]⟩, true) := by
    simp only [cbUpdate, e, e0]
    rw [if_pos ⟨Int.le_refl _, (by simp)⟩]
    show (do
      let tree ← cbAdd 1 (-1) 3 1 [0, 0, 0]
      .ok ((⟨tree, [-1], [true]⟩ : Fenwick), true)) = _
    have : cbAdd 1 (-1) 3 1 [0, 0, 0] = .ok [0, -1, 0] := by
      rw [cbAdd, if_pos (by decide)]
      show (do
        let y ← longOp (0 + -1)
        let tree ← wr [0, 0, 0] 1 y
        cbAdd 1 (-1) 2 (1 + lowBit (2 * 0 + 1)) tree) = _
      rw [e1, lowBit_odd]
      rfl
    rw [this]
    rfl
  show (do
    let r ← forRange 0 1 ((⟨[0, 0, 0], [x], [false]⟩ : Fenwick), false) fun i s => do
      let x ← rd [x] i
      let r ← cbUpdate s.1 i x
      .ok (r.1, s.2 || r.2)
    if r.2 then .error .systemError else .ok r.1) = _
  have ef : forRange 0 1 ((⟨[0, 0, 0], [x], [false]⟩ : Fenwick), false) (fun i s => do
      let x ← rd [x] i
      let r ← cbUpdate s.1 i x
      .ok (r.1, s.2 || r.2)) = .ok (⟨[0, -1, 0], [-1], [true]⟩, true) := by
    simp only [forRange, loop]
    show (do
      let s ← (do
        let r ← cbUpdate ⟨[0, 0, 0], [x], [false]⟩ ((0 : Nat) : Int) x
        .ok (r.1, false || r.2))
      .ok s) = _
    rw [eu]
    rfl
  rw [ef]
  rfl

/-- Two elements whose sum does not fit: signed overflow while the tree is built (Python answers with the exact sum). -/
theorem C110_sum_overflow : cbNew [2 ^ 62, 2 ^ 62] = .error .undefined ∧ bitNew [2 ^ 62, 2 ^ 62] ≠ .error .undefined := by
  refine ⟨?_, ?_⟩
  · have : (match cbNew [2 ^ 62, 2 ^ 62] with | .error .undefined => true | _ => false) = true := by decide +kernel
    revert this
    cases cbNew [2 ^ 62, 2 ^ 62] with
    | ok s => intro h; cases h
    | error e => cases e <;> first | (intro _; rfl) | (intro h; cases h)
  intro h
  obtain ⟨s, e, _⟩ := bitNew_ok [2 ^ 62, 2 ^ 62] (by simp)
  rw [e] at h
  cases h

/-- An update outside the array is undefined behaviour (Python raises `IndexError`). -/
theorem C110_update_outside (s : Fenwick) (i : Int) (v : Int) (h : i < 0 ∨ i ≥ s.array.length) :
    cbUpdate s i v = .error .undefined := by
  by_cases hi : inLong i = true
  · simp only [cbUpdate, asLong_ok hi]
    rw [if_neg (by omega)]
  · have e : asLong i = (-1, true) := by rw [asLong, if_neg hi]
    simp only [cbUpdate, e]
    rw [if_neg (by omega)]

/-- An update with an int that does not fit raises `SystemError` but has stored -1: the sums change. -/
theorem C110_failed_update_stores (s : Fenwick) (a : List Int) (hs : Full s a) (hn : a.length < 2 ^ 62) (hb : absSum a < 2 ^ 61) (i : Nat) (hi : i < a.length) (v : Int)
    (hv : inLong v = false) : ∃ s', cbUpdate s i v = .ok (s', true) ∧ Full s' (a.set i (-1)) := by
  have hsi : i < s.array.length := by rw [hs.arr]; exact hi
  obtain ⟨s', e, h1, h2, h3⟩ := bitUpdate_ok hs.ok i (-1) hsi
  have hf := hs.set hi h1 h2 h3
  have hlive : (liveVal s i).natAbs < 2 ^ 62 := by
    have := natAbs_le_absSum hi
    have : liveVal s i = a[i] := by simp [liveVal, hs.all, hs.arr, List.getD, hi]
    rw [this]; omega
  have hm : bitMass s' < 2 ^ 63 := by
    have h := hs.mass
    have hu : ∀ k, k ≠ i → liveVal s' k = liveVal s k := by
      intro k hk
      have : i ≠ k := fun h => hk h.symm
      simp only [liveVal, h2, h3, List.getD, List.getElem?_set_ne this]
      rfl
    have hw : liveVal s' i = -1 := by simp [liveVal, h2, h3, List.getD, hsi, hs.ok.flag]
    have := asum_update (liveVal s) i (liveVal s') hu s.array.length (Or.inr trivial)
    rw [hw] at this
    rw [bitMass, h2, List.length_set]
    rw [bitMass] at h
    omega
  have hu := cbUpdate_eq hs.ok hsi (by rw [hs.arr]; omega) (by decide) hlive e h1 (by rw [h2]; simp) hm
  refine ⟨s', ?_, hf⟩
  have ev : asLong v = (-1, true) := by rw [asLong, hv]; rfl
  have e1 : asLong (-1) = (-1, false) := by rfl
  have ei : asLong (i : Int) = ((i : Int), false) := asLong_ok (inLong_of (by omega) (by omega))
  simp only [cbUpdate, ev, e1, ei] at hu ⊢
  have hc : (0 : Int) ≤ (i : Int) ∧ (i : Int) < s.array.length := ⟨by omega, by omega⟩
  rw [if_pos hc] at hu ⊢
  have hif : i < s.flag.length := by rw [hs.ok.flag]; exact hsi
  have hfl : rd s.flag i = .ok true := rd_of_some (by rw [hs.all, List.getElem?_replicate, if_pos hi])
  simp only [Int.toNat_natCast, hfl, rd_of_lt hsi, wr_of_lt _ hsi, ok_bind, Bool.true_eq_false, if_false] at hu ⊢
  revert hu
  generalize longOp _ = B
  cases B with
  | error e => intro hu; cases hu
  | ok d =>
    simp only [ok_bind]
    generalize cbAdd _ _ _ _ _ = C
    cases C with
    | error e => intro hu; cases hu
    | ok t =>
      simp only [ok_bind]
      intro hu
      have := Except.ok.inj hu
      rw [Prod.mk.injEq] at this
      rw [this.1]
      rfl

/-- A bound of `get_sum` that does not fit in a `long` makes the call raise `SystemError`, whichever of the two it is (Python answers or raises
`IndexError`). -/
theorem C110_sum_large (s : Fenwick) (a : List Int) (hs : Full s a) (hn : a.length < 2 ^ 62) (hb : absSum a < 2 ^ 62) (l r : Int)
    (h : (inLong l = false ∧ -1 ≤ r ∧ r < a.length) ∨ (0 ≤ l ∧ l ≤ a.length ∧ inLong r = false) ∨ (inLong l = false ∧ inLong r = false)) :
    (cbSumOut s (cbSum s l r)).2 = .raised .systemError := by
  have large : ∀ x : Int, inLong x = false → asLong x = (-1, true) := fun x hx => by rw [asLong, hx]; rfl
  have hneg := cbPrefix_eq hs hb hn (-1) (by omega) (by omega)
  rcases h with ⟨hl, h1, h2⟩ | ⟨h1, h2, hr⟩ | ⟨hl, hr⟩
  · have hr' : asLong r = (r, false) := asLong_ok (inLong_of (by omega) (by omega))
    simp only [cbSum, large l hl, hr']
    rw [if_neg (by decide), cbPrefix_eq hs hb hn r h1 h2]
    rfl
  · have hl' : asLong l = (l, false) := asLong_ok (inLong_of (by omega) (by omega))
    simp only [cbSum, large r hr, hl']
    have ev : longOp (([] : List Int).sum - ((a.take (l - 1 + 1).toNat)).sum) = .ok (([] : List Int).sum - ((a.take (l - 1 + 1).toNat)).sum) := by
      apply longOp_ok
      have hsum : ∀ b : List Int, b.sum.natAbs ≤ absSum b := by
        intro b
        induction b with
        | nil => simp [absSum]
        | cons x xs ih => simp only [absSum, List.map_cons, List.sum_cons] at ih ⊢; omega
      have h3 := hsum (a.take (l - 1 + 1).toNat)
      have h4 : absSum (a.take (l - 1 + 1).toNat) ≤ absSum a := by
        have := congrArg absSum (List.take_append_drop (l - 1 + 1).toNat a)
        rw [absSum, List.map_append, List.sum_append] at this
        rw [← this]
        simp only [absSum]
        omega
      apply inLong_of <;> simp only [List.sum_nil] <;> omega
    by_cases hl1 : l ≥ 1
    · rw [if_pos hl1, hneg, ok_bind, cbPrefix_eq hs hb hn (l - 1) (by omega) (by omega), ok_bind]
      have : (a.take ((-1 : Int) + 1).toNat).sum = ([] : List Int).sum := rfl
      rw [this]
      dsimp only
      rw [ev]
      rfl
    · rw [if_neg hl1, hneg]
      rfl
  · simp only [cbSum, large l hl, large r hr]
    rw [if_neg (by decide), hneg]
    rfl

example : ∃ s, cbNew [1, 2, 3] = .ok s ∧ (cbSumOut s (cbSum s 1 (2 ^ 63))).2 = .raised .systemError := by
  obtain ⟨s, e, hs⟩ := cbNew_eq [1, 2, 3] (by simp) (by decide) (by decide)
  exact ⟨s, e, C110_sum_large s _ hs (by decide) (by decide) _ _ (.inr (.inl ⟨by decide, by decide, by decide⟩))⟩

/-- A sum that reaches more than one position beyond the array raises `SystemError` (Python: `IndexError`). -/
theorem C110_sum_far_outside : (cbNew [1, 2, 3]).toOption.map (fun s => trace cbStep s [.sum 0 4, .sum 0 3, .update 0 (2 ^ 63), .sum 0 0, .sum 0 2]) =
    some [.raised .systemError, .elem 0, .raised .systemError, .elem (-1), .elem 4] := by decide +kernel

end Props
