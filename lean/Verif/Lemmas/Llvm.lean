import Verif.Model.LlvmSort
import Verif.Spec
import Verif.Lemmas.Sort

/-! # Executing the generated bubble sort -/
open Py Spec Model.Llvm
namespace Props

/-- The function that `_build_bubble_sort_ir` builds, written out. -/
def bubbleFn : Fn :=
  [[(0, .cmpLe .n (.const 1)), (1, .cbr (.reg 0) 8 1)],
   [(2, .phi [(.const 0, 0), (.reg 25, 7)]), (3, .sub .n (.const 1)), (4, .cmpLt (.reg 2) (.reg 3)), (5, .cbr (.reg 4) 2 8)],
   [(6, .sub (.reg 3) (.reg 2)), (7, .br 3)],
   [(8, .phi [(.const 0, 2), (.reg 23, 6)]), (9, .cmpLt (.reg 8) (.reg 6)), (10, .cbr (.reg 9) 4 7)],
   [(11, .sext (.reg 8)), (12, .add (.reg 8) (.const 1)), (13, .sext (.reg 12)), (14, .gep .arr (.reg 11)),
    (15, .gep .arr (.reg 13)), (16, .load (.reg 14)), (17, .load (.reg 15)), (18, .elemGt (.reg 16) (.reg 17)),
    (19, .cbr (.reg 18) 5 6)],
   [(20, .store (.reg 17) (.reg 14)), (21, .store (.reg 16) (.reg 15)), (22, .br 6)],
   [(23, .add (.reg 8) (.const 1)), (24, .br 3)],
   [(25, .add (.reg 2) (.const 1)), (26, .br 1)],
   [(27, .ret)]]

theorem built_bubble : built buildBubble = .ok bubbleFn := by rfl

theorem compile_bubble : compile buildBubble = .ok bubbleFn := by
  unfold compile; rw [built_bubble]; decide

/-- Enough steps lead from `s` to `s'`. -/
def Reaches {ε : Type} (gt : ε → ε → Bool) (n : BitVec 32) (s s' : Exec ε) : Prop :=
  ∃ k, ∀ fuel, whileLoop (fuel + k) (fun s : Exec ε => .ok !s.done) (execBlock gt n bubbleFn) s
    = whileLoop fuel (fun s : Exec ε => .ok !s.done) (execBlock gt n bubbleFn) s'

variable {ε : Type} {gt : ε → ε → Bool} {n : BitVec 32}

theorem Reaches.refl (s : Exec ε) : Reaches gt n s s := ⟨0, fun _ => rfl⟩

theorem Reaches.trans {s t u : Exec ε} (h1 : Reaches gt n s t) (h2 : Reaches gt n t u) : Reaches gt n s u := by
  obtain ⟨k, hk⟩ := h1; obtain ⟨l, hl⟩ := h2
  refine ⟨l + k, fun fuel => ?_⟩
  rw [← Nat.add_assoc, hk, hl]

theorem Reaches.step {s s' : Exec ε} (h : s.done = false) (e : execBlock gt n bubbleFn s = .ok s') : Reaches gt n s s' := by
  refine ⟨1, fun fuel => ?_⟩
  simp only [whileLoop, h, Bool.not_false]
  simp [e]

/-! ## Numbers below 2³¹ as `i32` -/

theorem toInt_small {k : Nat} (h : k < 2 ^ 31) : (BitVec.ofNat 32 k).toInt = k := by
  rw [BitVec.toInt_ofNat']
  simp only [Int.bmod]
  omega

theorem slt_small {a b : Nat} (ha : a < 2 ^ 31) (hb : b < 2 ^ 31) :
    (BitVec.ofNat 32 a).slt (BitVec.ofNat 32 b) = decide (a < b) := by
  rw [BitVec.slt, toInt_small ha, toInt_small hb]
  simp

theorem sle_small {a b : Nat} (ha : a < 2 ^ 31) (hb : b < 2 ^ 31) :
    (BitVec.ofNat 32 a).sle (BitVec.ofNat 32 b) = decide (a ≤ b) := by
  rw [BitVec.sle, toInt_small ha, toInt_small hb]
  simp

theorem wide_small {k : Nat} (h : k < 2 ^ 31) : ((BitVec.ofNat 32 k).signExtend 64).toInt = k := by
  rw [BitVec.toInt_signExtend_of_le (by omega), toInt_small h]

theorem add_small (k : Nat) : BitVec.ofNat 32 k + 1#32 = BitVec.ofNat 32 (k + 1) := by
  rw [BitVec.ofNat_add]

theorem sub_small {a b : Nat} (h : b ≤ a) : BitVec.ofNat 32 a - BitVec.ofNat 32 b = BitVec.ofNat 32 (a - b) := by
  have : BitVec.ofNat 32 a = BitVec.ofNat 32 (a - b) + BitVec.ofNat 32 b := by
    rw [← BitVec.ofNat_add]; congr 1; omega
  rw [this, BitVec.add_sub_cancel]

/-! ## The inner loop -/

/-- The array after comparing the cells `k` and `k + 1`. -/
def settle (gt : ε → ε → Bool) (m : List ε) (k : Nat) : List ε :=
  match m[k]?, m[k + 1]? with
  | some x, some y => if gt x y then (m.set k y).set (k + 1) x else m
  | _, _ => m

/-- Entering the head of the inner loop with `j = k`. -/
def AtInner (s : Exec ε) (k L i : Nat) : Prop :=
  s.cur = 3 ∧ s.done = false ∧ s.env 2 = some (.i32 (BitVec.ofNat 32 i)) ∧ s.env 6 = some (.i32 (BitVec.ofNat 32 L)) ∧
  ((s.pred = 2 ∧ k = 0) ∨ (s.pred = 6 ∧ s.env 23 = some (.i32 (BitVec.ofNat 32 k))))

theorem inner_head {s : Exec ε} {k L i : Nat} (h : AtInner s k L i) (hk : k < 2 ^ 31) (hL : L < 2 ^ 31) :
    ∃ s', execBlock gt n bubbleFn s = .ok s' ∧ s'.done = false ∧ s'.mem = s.mem ∧ s'.pred = 3 ∧
      s'.cur = (if k < L then 4 else 7) ∧ s'.env 2 = s.env 2 ∧ s'.env 6 = s.env 6 ∧
      s'.env 8 = some (.i32 (BitVec.ofNat 32 k)) := by
  obtain ⟨env, mem, p, c, dn⟩ := s
  obtain ⟨h1, h2, h3, h4, h5⟩ := h
  simp only at h1 h2 h3 h4 h5
  subst h1 h2
  rcases h5 with ⟨rfl, rfl⟩ | ⟨rfl, h5⟩
  · simp [execBlock, bubbleFn, phis, execAll, exec1, opd32, opd, setReg, h3, h4]
    have := slt_small (a := 0) (b := L) (by decide) hL
    simp [this]
  · simp [execBlock, bubbleFn, phis, execAll, exec1, opd32, opd, setReg, h3, h4, h5, slt_small hk hL]

theorem inner_iter {s : Exec ε} {k L i : Nat} (h : AtInner s k L i) (hkL : k < L) (hL : L < s.mem.length) (hm : s.mem.length < 2 ^ 31) :
    ∃ s', Reaches gt n s s' ∧ AtInner s' (k + 1) L i ∧ s'.mem = settle gt s.mem k := by
  obtain ⟨s1, e1, d1, m1, p1, c1, r2, r6, r8⟩ := inner_head (gt := gt) (n := n) h (by omega) (by omega)
  rw [if_pos hkL] at c1
  obtain ⟨-, h0, h2, h6, -⟩ := h
  rw [h2] at r2; rw [h6] at r6
  have hx : s.mem[k]? = some s.mem[k] := List.getElem?_eq_getElem (by omega)
  have hy : s.mem[k + 1]? = some s.mem[k + 1] := List.getElem?_eq_getElem (by omega)
  have w0 := wide_small (k := k) (by omega)
  have w1 := wide_small (k := k + 1) (by omega)
  have hb : execBlock gt n bubbleFn s1 = .ok
      ⟨fun q => if q = 18 then some (.i1 (gt s.mem[k] s.mem[k + 1])) else if q = 17 then some (.elem s.mem[k + 1]) else
        if q = 16 then some (.elem s.mem[k]) else if q = 15 then some (.ptr ((k + 1 : Nat) : Int)) else
        if q = 14 then some (.ptr (k : Int)) else if q = 13 then some (.i64 ((BitVec.ofNat 32 (k + 1)).signExtend 64)) else
        if q = 12 then some (.i32 (BitVec.ofNat 32 (k + 1))) else
        if q = 11 then some (.i64 ((BitVec.ofNat 32 k).signExtend 64)) else s1.env q,
        s.mem, 4, if gt s.mem[k] s.mem[k + 1] then 5 else 6, false⟩ := by
    obtain ⟨env, mem, p, c, dn⟩ := s1
    simp only at d1 m1 p1 c1 r2 r6 r8
    subst d1 m1 p1 c1
    have k1 : (k : Int) < s.mem.length := by omega
    have k2 : (k : Int) + 1 < s.mem.length := by omega
    have k3 : 0 ≤ (k : Int) + 1 := by omega
    have k4 : ((k : Int) + 1).toNat = k + 1 := by omega
    simp [execBlock, bubbleFn, phis, execAll, exec1, opd32, opd, opdPtr, opdElem, setReg, r8, add_small, w0, w1, rd, hx, hy, k1, k2, k3, k4]
    rfl
  have hr1 : Reaches gt n s s1 := .step h0 e1
  have key : ∃ s2, Reaches gt n s1 s2 ∧ s2.cur = 6 ∧ s2.done = false ∧ s2.env 2 = some (.i32 (BitVec.ofNat 32 i)) ∧
      s2.env 6 = some (.i32 (BitVec.ofNat 32 L)) ∧ s2.env 8 = some (.i32 (BitVec.ofNat 32 k)) ∧ s2.mem = settle gt s.mem k := by
    cases hg : gt s.mem[k] s.mem[k + 1] with
    | false =>
      refine ⟨_, .step d1 hb, ?_⟩
      simp [hg, r2, r6, r8, settle, hx, hy]
    | true =>
      rw [hg] at hb
      have k1 : (k : Int) < s.mem.length := by omega
      have k2 : (k : Int) + 1 < s.mem.length := by omega
      have k3 : 0 ≤ (k : Int) + 1 := by omega
      have k4 : ((k : Int) + 1).toNat = k + 1 := by omega
      have k5 : k < s.mem.length := by omega
      have k6 : k + 1 < s.mem.length := by omega
      refine ⟨_, (Reaches.step d1 hb).trans (.step rfl (s' := ?_) ?_), ?_⟩
      · exact ⟨fun q => if q = 18 then some (.i1 true) else if q = 17 then some (.elem s.mem[k + 1]) else
        if q = 16 then some (.elem s.mem[k]) else if q = 15 then some (.ptr ((k + 1 : Nat) : Int)) else
        if q = 14 then some (.ptr (k : Int)) else if q = 13 then some (.i64 ((BitVec.ofNat 32 (k + 1)).signExtend 64)) else
        if q = 12 then some (.i32 (BitVec.ofNat 32 (k + 1))) else
        if q = 11 then some (.i64 ((BitVec.ofNat 32 k).signExtend 64)) else s1.env q,
        (s.mem.set k s.mem[k + 1]).set (k + 1) s.mem[k], 5, 6, false⟩
      · simp [execBlock, bubbleFn, phis, execAll, exec1, opd, opdPtr, opdElem, wr, k1, k2, k3, k4, k5, k6]
      · simp [r2, r6, r8, settle, hx, hy, hg]
  obtain ⟨s2, hr2, c2, d2, q2, q6, q8, m2⟩ := key
  obtain ⟨env, mem, p, c, dn⟩ := s2
  simp only at c2 d2 q2 q6 q8 m2
  subst c2 d2
  refine ⟨⟨setReg env 23 (.i32 (BitVec.ofNat 32 (k + 1))), mem, 6, 3, false⟩, (hr1.trans hr2).trans (.step rfl ?_), ?_, m2⟩
  · simp [execBlock, bubbleFn, phis, execAll, exec1, opd32, opd, q8, add_small]
  · simp [AtInner, setReg, q2, q6]

theorem settle_length (m : List ε) (k : Nat) : (settle gt m k).length = m.length := by
  unfold settle; split
  · split <;> simp
  · rfl

/-- The whole inner loop. -/
theorem inner_loop (L i : Nat) : ∀ d (s : Exec ε) (k : Nat), d = L - k → k ≤ L → AtInner s k L i → L < s.mem.length →
    s.mem.length < 2 ^ 31 →
    ∃ s', Reaches gt n s s' ∧ AtInner s' L L i ∧ s'.mem = (List.range' k d).foldl (settle gt) s.mem := by
  intro d
  induction d with
  | zero =>
    intro s k hd hk h _ _
    have : k = L := by omega
    subst this
    exact ⟨s, .refl s, h, rfl⟩
  | succ d ih =>
    intro s k hd hk h h1 h2
    obtain ⟨s1, r1, a1, m1⟩ := inner_iter (gt := gt) (n := n) h (by omega) h1 h2
    have hl : s1.mem.length = s.mem.length := by rw [m1, settle_length]
    obtain ⟨s2, r2, a2, m2⟩ := ih s1 (k + 1) (by omega) (by omega) a1 (by omega) (by omega)
    exact ⟨s2, r1.trans r2, a2, by rw [m2, m1]; rfl⟩

/-! ## The outer loop -/

/-- Entering the head of the outer loop. -/
def AtOuter (s : Exec ε) (i : Nat) : Prop :=
  s.cur = 1 ∧ s.done = false ∧ ((s.pred = 0 ∧ i = 0) ∨ (s.pred = 7 ∧ s.env 25 = some (.i32 (BitVec.ofNat 32 i))))

theorem outer_head {s : Exec ε} {i N : Nat} (h : AtOuter s i) (hn : n = BitVec.ofNat 32 N) (hN : 1 ≤ N) (hN2 : N < 2 ^ 31)
    (hi : i < 2 ^ 31) :
    ∃ s', execBlock gt n bubbleFn s = .ok s' ∧ s'.done = false ∧ s'.mem = s.mem ∧ s'.pred = 1 ∧
      s'.cur = (if i < N - 1 then 2 else 8) ∧ s'.env 2 = some (.i32 (BitVec.ofNat 32 i)) ∧
      s'.env 3 = some (.i32 (BitVec.ofNat 32 (N - 1))) := by
  subst hn
  obtain ⟨env, mem, p, c, dn⟩ := s
  obtain ⟨h1, h2, h5⟩ := h
  simp only at h1 h2 h5
  subst h1 h2
  have hs := sub_small (a := N) (b := 1) hN
  have hlt := slt_small (a := i) (b := N - 1) hi (by omega)
  rcases h5 with ⟨rfl, rfl⟩ | ⟨rfl, h5⟩
  · simp [execBlock, bubbleFn, phis, execAll, exec1, opd32, opd, setReg, hs, hlt]
  · simp [execBlock, bubbleFn, phis, execAll, exec1, opd32, opd, setReg, h5, hs, hlt]

/-- One pass: compare the neighbours up to position `L`. -/
def pass (gt : ε → ε → Bool) (m : List ε) (L : Nat) : List ε := (List.range' 0 L).foldl (settle gt) m

theorem foldl_settle_length (l : List Nat) : ∀ m : List ε, (l.foldl (settle gt) m).length = m.length := by
  induction l with
  | nil => intro m; rfl
  | cons k l ih => intro m; rw [List.foldl_cons, ih, settle_length]

theorem outer_iter {s : Exec ε} {i N : Nat} (h : AtOuter s i) (hn : n = BitVec.ofNat 32 N) (hi : i < N - 1) (hN2 : N < 2 ^ 31)
    (hm : s.mem.length = N) :
    ∃ s', Reaches gt n s s' ∧ AtOuter s' (i + 1) ∧ s'.mem = pass gt s.mem (N - 1 - i) := by
  obtain ⟨s1, e1, d1, m1, p1, c1, r2, r3⟩ := outer_head (gt := gt) h hn (by omega) hN2 (by omega)
  rw [if_pos hi] at c1
  have hr1 : Reaches gt n s s1 := .step h.2.1 e1
  obtain ⟨env, mem, p, c, dn⟩ := s1
  simp only at d1 m1 p1 c1 r2 r3
  subst d1 m1 c1
  have hs := sub_small (a := N - 1) (b := i) (by omega)
  have hb : execBlock gt n bubbleFn ⟨env, s.mem, p, 2, false⟩ =
      .ok ⟨setReg env 6 (.i32 (BitVec.ofNat 32 (N - 1 - i))), s.mem, 2, 3, false⟩ := by
    simp [execBlock, bubbleFn, phis, execAll, exec1, opd32, opd, r2, r3, hs]
  have hr2 := hr1.trans (.step rfl hb)
  obtain ⟨s3, r3, a3, m3⟩ := inner_loop (gt := gt) (n := n) (N - 1 - i) i (N - 1 - i) _ 0 (by omega) (by omega)
    (show AtInner ⟨setReg env 6 (.i32 (BitVec.ofNat 32 (N - 1 - i))), s.mem, 2, 3, false⟩ 0 (N - 1 - i) i by
      simp [AtInner, setReg, r2]) (by show _ < s.mem.length; omega) (by show s.mem.length < _; omega)
  obtain ⟨s4, e4, d4, m4, p4, c4, t2, t6, t8⟩ := inner_head (gt := gt) (n := n) a3 (by omega) (by omega)
  rw [if_neg (by omega)] at c4
  have hr4 := (hr2.trans r3).trans (.step a3.2.1 e4)
  rw [a3.2.2.1] at t2
  obtain ⟨env', mem', p', c', dn'⟩ := s4
  simp only at d4 m4 p4 c4 t2
  subst d4 c4
  refine ⟨⟨setReg env' 25 (.i32 (BitVec.ofNat 32 (i + 1))), mem', 7, 1, false⟩, hr4.trans (.step rfl ?_), ?_, ?_⟩
  · simp [execBlock, bubbleFn, phis, execAll, exec1, opd32, opd, t2, add_small]
  · simp [AtOuter, setReg]
  · show mem' = _
    rw [m4, m3]; rfl

/-- All passes from the `i`-th on. -/
theorem outer_loop (N : Nat) (hn : n = BitVec.ofNat 32 N) (hN : 1 ≤ N) (hN2 : N < 2 ^ 31) : ∀ d (s : Exec ε) (i : Nat), d = N - 1 - i →
    i ≤ N - 1 → AtOuter s i → s.mem.length = N →
    ∃ s', Reaches gt n s s' ∧ s'.done = true ∧
      s'.mem = (List.range' i d).foldl (fun m i => pass gt m (N - 1 - i)) s.mem := by
  intro d
  induction d with
  | zero =>
    intro s i hd hi h hm
    obtain ⟨s1, e1, d1, m1, p1, c1, r2, r3⟩ := outer_head (gt := gt) h hn hN hN2 (by omega)
    rw [if_neg (by omega)] at c1
    obtain ⟨env, mem, p, c, dn⟩ := s1
    simp only at d1 m1 c1
    subst d1 m1 c1
    refine ⟨⟨env, s.mem, p, 8, true⟩, (Reaches.step h.2.1 e1).trans (.step rfl ?_), rfl, rfl⟩
    simp [execBlock, bubbleFn, phis, execAll, exec1]
  | succ d ih =>
    intro s i hd hi h hm
    obtain ⟨s1, r1, a1, m1⟩ := outer_iter (gt := gt) h hn (by omega) hN2 hm
    obtain ⟨s2, r2, d2, m2⟩ := ih s1 (i + 1) (by omega) (by omega) a1 (by rw [m1, pass, foldl_settle_length, hm])
    exact ⟨s2, r1.trans r2, d2, by rw [m2, m1]; rfl⟩

/-- The array after the call. -/
def bubbled (gt : ε → ε → Bool) (m : List ε) : List ε :=
  (List.range' 0 (m.length - 1)).foldl (fun b i => pass gt b (m.length - 1 - i)) m

theorem call_bubble (m : List ε) (h : m.length < 2 ^ 31) :
    EndsWith (fun fuel => call gt bubbleFn fuel m (BitVec.ofNat 32 m.length)) (.ok (bubbled gt m)) := by
  have hle := sle_small (a := m.length) (b := 1) h (by decide)
  have key : ∃ s', Reaches gt (BitVec.ofNat 32 m.length) ⟨fun _ => none, m, 0, 0, false⟩ s' ∧ s'.done = true ∧
      s'.mem = bubbled gt m := by
    by_cases h1 : m.length ≤ 1
    · refine ⟨⟨setReg (fun _ => none) 0 (.i1 true), m, 0, 8, true⟩, (Reaches.step rfl (s' := ⟨setReg (fun _ => none) 0 (.i1 true), m, 0, 8, false⟩) ?_).trans (.step rfl ?_), rfl, ?_⟩
      · simp [execBlock, bubbleFn, phis, execAll, exec1, opd32, opd, setReg, hle, h1]
      · simp [execBlock, bubbleFn, phis, execAll, exec1]
      · have : m.length - 1 = 0 := by omega
        simp [bubbled, this]
    · obtain ⟨s', r, d, e⟩ := outer_loop (gt := gt) m.length rfl (by omega) h (m.length - 1)
        ⟨setReg (fun _ => none) 0 (.i1 false), m, 0, 1, false⟩ 0 (by omega) (by omega) (by simp [AtOuter]) rfl
      refine ⟨s', (Reaches.step rfl ?_).trans r, d, e⟩
      simp [execBlock, bubbleFn, phis, execAll, exec1, opd32, opd, setReg, hle, h1]
  obtain ⟨s', ⟨k, hk⟩, d, e⟩ := key
  refine ⟨k + 1, fun fuel hf => ?_⟩
  obtain ⟨f, rfl⟩ : ∃ f, fuel = (f + 1) + k := ⟨fuel - 1 - k, by omega⟩
  simp only [call]
  rw [hk]
  simp [whileLoop, d, e]

end Props
