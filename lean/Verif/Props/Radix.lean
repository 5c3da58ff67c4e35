import Verif.Lemmas.Dist
import Verif.Lemmas.SortForm

/-!
# C14: `radix_sort`
-/
namespace Props
open Py Spec Model

/-- The digit a pass sorts by. -/
def digit (exp x : Nat) : Nat := x / exp % 10

theorem radixPass_spec (pre mid post : List (Option Nat)) (exp : Nat) :
    radixPass (pre ++ mid ++ post) pre.length (pre.length + mid.length) exp =
      .ok (pre ++ ((dist (digit exp) (mid.filterMap id) 10).map some ++
        List.replicate (mid.length - (mid.filterMap id).length) none) ++ post) := by
  generalize hl : mid.filterMap id = l
  have hm : ∀ x ∈ l, digit exp x < 10 := fun x _ => Nat.mod_lt _ (by omega)
  have hfl : l.length ≤ mid.length := hl ▸ List.length_filterMap_le id mid
  have hslice : (((pre ++ mid ++ post).drop pre.length).take (pre.length + mid.length - pre.length)) = mid := by
    rw [List.append_assoc, List.drop_left, show pre.length + mid.length - pre.length = mid.length by omega, List.take_left]
  have hlen : (pre ++ mid ++ post).length = pre.length + mid.length + post.length := by simp; omega
  -- tally
  have e1 : ∃ c, forRange pre.length (pre.length + mid.length) (List.replicate 10 0) (radixTally (pre ++ mid ++ post) exp) = .ok c ∧
      IsTally (digit exp) 10 l c := by
    have := forRange_rd (pre ++ mid ++ post) (fun (x : Option Nat) (count : List Nat) => match x with
      | none => .ok count
      | some x => do
        let c ← rd count (x / exp % 10)
        wr count (x / exp % 10) (c + 1)) (start := pre.length) (stop := pre.length + mid.length) (by omega) (by omega) (List.replicate 10 0)
    rw [hslice] at this
    show ∃ c, forRange pre.length (pre.length + mid.length) (List.replicate 10 0) _ = _ ∧ _
    have key : forRange pre.length (pre.length + mid.length) (List.replicate 10 0) (radixTally (pre ++ mid ++ post) exp) = _ := this
    rw [key]
    obtain ⟨c1, e1, -, t1⟩ := forList_spec (α := Option Nat) (σ := List Nat)
      (I := fun pr rest s => mid = pr ++ rest ∧ IsTally (digit exp) 10 (pr.filterMap id) s)
      (body := fun (x : Option Nat) (count : List Nat) => match x with
      | none => .ok count
      | some x => do
        let c ← rd count (x / exp % 10)
        wr count (x / exp % 10) (c + 1)) mid [] (List.replicate 10 0)
      ⟨rfl, tally_nil _ _⟩
      (by
        rintro pr x rest s ⟨ha, ht⟩
        cases x with
        | none => exact ⟨s, rfl, by simp [ha], by simpa using ht⟩
        | some x =>
          have hx : x ∈ l := by rw [← hl, ha]; simp
          obtain ⟨c, ec, s', ew, ht'⟩ := tally_step ht (hm x hx)
          refine ⟨s', ?_, by simp [ha], by simpa using ht'⟩
          show (rd s (digit exp x) >>= fun c => wr s (digit exp x) (c + 1)) = _
          rw [ec, ok_bind, ew])
    rw [List.nil_append, hl] at t1
    exact ⟨c1, e1, t1⟩
  obtain ⟨c1, e1, t1⟩ := e1
  -- prefix sums
  obtain ⟨c2, e2, p1, p2, p3⟩ := forRange_spec (lo := 1) (hi := 10) (s := c1) (body := radixPrefix)
    (fun k (s : List Nat) => s.length = 10 ∧ (∀ v, v < k → s[v]? = some (ltc (digit exp) l v + (bkt (digit exp) l v).length)) ∧
      ∀ v, k ≤ v → v < 10 → s[v]? = some (bkt (digit exp) l v).length) (by omega)
    ⟨t1.1, by
      intro v hv
      have : v = 0 := by omega
      subst this
      rw [t1.2 0 (by omega)]
      simp [ltc, dist], fun v _ hv => t1.2 v hv⟩
    (by
      rintro k c hk1 hk ⟨p1, p2, p3⟩
      have hck := p3 k (Nat.le_refl _) hk
      have hck' := p2 (k - 1) (by omega)
      refine ⟨_, by rw [radixPrefix, rd_of_some hck, ok_bind, rd_of_some hck', ok_bind, wr_of_lt _ (by omega)], by simp [p1], ?_, ?_⟩
      · intro v hv
        by_cases hvk : v = k
        · subst hvk
          rw [List.getElem?_set_self (by omega)]
          have := ltc_succ (digit exp) l (v - 1)
          rw [show v - 1 + 1 = v by omega] at this
          rw [this, Nat.add_comm]
        · rw [List.getElem?_set_ne (by omega)]; exact p2 v (by omega)
      · intro v hv1 hv2
        rw [List.getElem?_set_ne (by omega)]; exact p3 v (by omega) hv2)
  have hcur : Cursor (digit exp) 10 l l c2 := ⟨p1, fun v hv => p2 v hv⟩
  -- placing
  have e3 : ∃ out c, forDown pre.length (pre.length + mid.length) (List.replicate mid.length none, c2)
      (radixPlace (pre ++ mid ++ post) exp) = .ok (out, c) ∧ out.length = mid.length ∧
      (∀ p, l.length ≤ p → p < mid.length → out[p]? = some none) ∧
      Placed (digit exp) 10 l (fun _ => 0) (fun v => (bkt (digit exp) l v).length) out := by
    have key : forDown pre.length (pre.length + mid.length) (List.replicate mid.length none, c2)
      (radixPlace (pre ++ mid ++ post) exp) = _ := forDown_rd (pre ++ mid ++ post)
        (fun (x : Option Nat) (s : List (Option Nat) × List Nat) => match x with
        | none => .ok s
        | some x => do
          let c ← rd s.2 (x / exp % 10)
          let count ← wr s.2 (x / exp % 10) (c - 1)
          let out ← wr s.1 (c - 1) (some x)
          .ok (out, count)) (start := pre.length) (stop := pre.length + mid.length) (by omega) (by omega) (List.replicate mid.length none, c2)
    rw [hslice] at key
    rw [key]
    obtain ⟨⟨out, c⟩, e3, -, hc, ho, hn, hp⟩ := forList_spec (α := Option Nat) (σ := List (Option Nat) × List Nat)
      (I := fun pr rest s => mid.reverse = pr ++ rest ∧ Cursor (digit exp) 10 l (rest.reverse.filterMap id) s.2 ∧ s.1.length = mid.length ∧
        (∀ p, l.length ≤ p → p < mid.length → s.1[p]? = some none) ∧
        Placed (digit exp) 10 l (fun v => (bkt (digit exp) (rest.reverse.filterMap id) v).length)
          (fun v => (bkt (digit exp) l v).length) s.1)
      (body := fun (x : Option Nat) (s : List (Option Nat) × List Nat) => match x with
        | none => .ok s
        | some x => do
          let c ← rd s.2 (x / exp % 10)
          let count ← wr s.2 (x / exp % 10) (c - 1)
          let out ← wr s.1 (c - 1) (some x)
          .ok (out, count)) mid.reverse [] (List.replicate mid.length none, c2)
      ⟨rfl, by rw [List.reverse_reverse, hl]; exact hcur, by simp, by intro p _ hp; simp [hp], by
        rw [List.reverse_reverse, hl]
        intro v o _ h1 h2
        dsimp only at h1 h2
        omega⟩
      (by
        rintro pr x rest ⟨out, c⟩ ⟨ha, hc, ho, hn, hp⟩
        dsimp only at hc ho hn hp
        cases x with
        | none => exact ⟨_, rfl, by simp [ha], by simpa using hc, ho, hn, by simpa using hp⟩
        | some x =>
          have hmid : mid = rest.reverse ++ some x :: pr.reverse := by
            have := congrArg List.reverse ha
            simpa using this
          have hl' : l = rest.reverse.filterMap id ++ x :: pr.reverse.filterMap id := by
            rw [← hl, hmid, List.filterMap_append, List.filterMap_cons]
            rfl
          have hr : (some x :: rest).reverse.filterMap id = rest.reverse.filterMap id ++ [x] := by
            rw [List.reverse_cons, List.filterMap_append]; rfl
          rw [hr] at hc hp
          obtain ⟨cc, ec, s', es, hclt, out', ew, eout, hc', hp'⟩ := place_bwd hl' hm hc (by omega) hp
          refine ⟨(out', s'), ?_, by simp [ha], hc', ?_, ?_, hp'⟩
          · show (rd c (digit exp x) >>= fun cc => wr c (digit exp x) (cc - 1) >>= fun count => wr out (cc - 1) (some x) >>=
              fun out => .ok (out, count)) = _
            rw [ec, ok_bind, es, ok_bind, ew, ok_bind]
          · simp [eout, ho]
          · intro p h1 h2
            dsimp only
            rw [eout, List.getElem?_set_ne (by omega)]
            exact hn p h1 h2)
    exact ⟨out, c, e3, ho, hn, by simpa [bkt] using hp⟩
  obtain ⟨out, c3, e3, ho, hn, hp⟩ := e3
  have hout : out = (dist (digit exp) l 10).map some ++ List.replicate (mid.length - l.length) none := by
    have hdl := (dist_perm (digit exp) 10 l hm).length_eq
    apply List.ext_getElem?
    intro p
    by_cases h1 : p < l.length
    · rw [placed_all hm hp p h1, List.getElem?_append_left (by simp; omega), List.getElem?_map]
    · rw [List.getElem?_append_right (by simp; omega), List.getElem?_replicate]
      by_cases h2 : p < mid.length
      · rw [hn p (by omega) h2, if_pos (by simp; omega)]
      · rw [List.getElem?_eq_none (by omega), if_neg (by simp; omega)]
  have hcopy : forRange 0 out.length (pre ++ mid ++ post) (radixCopy out pre.length) = _ :=
    forRange_wr out (pre ++ mid ++ post) pre.length (by omega)
  rw [radixPass, e1, ok_bind, e2, ok_bind]
  rw [show pre.length + mid.length - pre.length = mid.length by omega]
  rw [e3, ok_bind]
  dsimp only
  rw [← ho, hcopy, List.append_assoc pre mid post, List.take_left, ho, hout, List.drop_append]
  simp

/-- Sorted by the last `k` digits. -/
def LowSorted (k : Nat) (l : List Nat) : Prop := l.Pairwise fun x y => x % 10 ^ k ≤ y % 10 ^ k

theorem low_step {k : Nat} {l : List Nat} (h : LowSorted k l) : LowSorted (k + 1) (dist (digit (10 ^ k)) l 10) := by
  refine (dist_pairwise (digit (10 ^ k)) _ h 10).imp ?_
  intro x y hxy
  have hx := Nat.mod_pow_succ (x := x) (b := 10) (k := k)
  have hy := Nat.mod_pow_succ (x := y) (b := 10) (k := k)
  have hpos : 0 < 10 ^ k := Nat.pow_pos (by omega)
  have hlx := Nat.mod_lt x hpos
  have hly := Nat.mod_lt y hpos
  rw [hx, hy]
  unfold digit at hxy
  rcases hxy with h | ⟨h1, h2⟩
  · have : 10 ^ k * (x / 10 ^ k % 10 + 1) ≤ 10 ^ k * (y / 10 ^ k % 10) := Nat.mul_le_mul_left _ h
    rw [Nat.mul_add, Nat.mul_one] at this
    omega
  · rw [h1]; omega

theorem radixLoop_spec (pre post : List (Option Nat)) (mx : Nat) : ∀ (fuel k : Nat) (mid : List (Option Nat)),
    (∀ x ∈ mid.filterMap id, x ≤ mx) → mx < 10 ^ (k + fuel) → LowSorted k (mid.filterMap id) →
    ∃ b, radixLoop mx pre.length (pre.length + mid.length) (fuel + 1) (10 ^ k) (pre ++ mid ++ post) = .ok b ∧
      (mx < 10 ^ k → b = pre ++ mid ++ post ∧ (mid.filterMap id).Pairwise (· ≤ ·)) ∧
      (10 ^ k ≤ mx → ∃ l' : List Nat, l'.Perm (mid.filterMap id) ∧ l'.Pairwise (· ≤ ·) ∧
        b = pre ++ (l'.map some ++ List.replicate (mid.length - (mid.filterMap id).length) none) ++ post) := by
  intro fuel
  induction fuel with
  | zero =>
    intro k mid hmx hf hs
    have hpos : 0 < 10 ^ k := Nat.pow_pos (by omega)
    rw [radixLoop]
    have hlt : mx < 10 ^ k := hf
    · rw [if_neg (by rw [Nat.div_eq_of_lt hlt]; omega)]
      refine ⟨_, rfl, fun _ => ⟨rfl, ?_⟩, fun h => by omega⟩
      refine hs.imp_of_mem ?_
      intro x y hx hy h
      have h1 := hmx x hx
      have h2 := hmx y hy
      rwa [Nat.mod_eq_of_lt (by omega), Nat.mod_eq_of_lt (by omega)] at h
  | succ fuel ih =>
    intro k mid hmx hf hs
    have hpos : 0 < 10 ^ k := Nat.pow_pos (by omega)
    rw [radixLoop]
    by_cases hlt : mx < 10 ^ k
    · rw [if_neg (by rw [Nat.div_eq_of_lt hlt]; omega)]
      refine ⟨_, rfl, fun _ => ⟨rfl, ?_⟩, fun h => by omega⟩
      refine hs.imp_of_mem ?_
      intro x y hx hy h
      have h1 := hmx x hx
      have h2 := hmx y hy
      rwa [Nat.mod_eq_of_lt (by omega), Nat.mod_eq_of_lt (by omega)] at h
    · rw [if_pos (Nat.div_pos (by omega) hpos), radixPass_spec, ok_bind]
      have hfl : (mid.filterMap id).length ≤ mid.length := List.length_filterMap_le id mid
      have hm : ∀ x ∈ mid.filterMap id, digit (10 ^ k) x < 10 := fun x _ => Nat.mod_lt _ (by omega)
      have hperm := dist_perm (digit (10 ^ k)) 10 (mid.filterMap id) hm
      have hstep := low_step hs
      generalize dist (digit (10 ^ k)) (mid.filterMap id) 10 = l1 at hperm hstep
      have hpl := hperm.length_eq
      have hlive : (l1.map some ++ List.replicate (mid.length - (mid.filterMap id).length) none).filterMap id = l1 := by
        rw [List.filterMap_append, List.filterMap_map]
        have : (List.replicate (mid.length - (mid.filterMap id).length) (none : Option Nat)).filterMap id = [] := by
          rw [List.filterMap_eq_nil_iff]; intro a ha; rw [(List.mem_replicate.1 ha).2]; rfl
        rw [this]; simp
      have hml : (l1.map some ++ List.replicate (mid.length - (mid.filterMap id).length) (none : Option Nat)).length = mid.length := by
        simp; omega
      obtain ⟨b, e, hb1, hb2⟩ := ih (k + 1) (l1.map some ++ List.replicate (mid.length - (mid.filterMap id).length) none)
        (by rw [hlive]; intro x hx; exact hmx x (hperm.mem_iff.1 hx)) (by rw [show k + 1 + fuel = k + (fuel + 1) by omega]; exact hf)
        (by rw [hlive]; exact hstep)
      rw [hml] at e
      refine ⟨b, by rw [← Nat.pow_succ]; exact e, fun h => absurd h hlt, fun _ => ?_⟩
      rw [hlive, hml] at hb2
      rw [hlive] at hb1
      by_cases hk : mx < 10 ^ (k + 1)
      · exact ⟨l1, hperm, (hb1 hk).2, (hb1 hk).1⟩
      · obtain ⟨l', hp', hs', rfl⟩ := hb2 (by omega)
        refine ⟨l', hp'.trans hperm, hs', ?_⟩
        rw [hpl]

theorem radixMax_spec (a : List (Option Nat)) (start stop : Nat) (hss : start < stop) (hs : stop ≤ a.length) {x0 : Nat}
    (h0 : a[start]? = some (some x0)) :
    ∃ mx, radixMax a start stop = .ok mx ∧ (∀ x ∈ ((a.drop start).take (stop - start)).filterMap id, x ≤ mx) := by
  obtain ⟨mx, e, h⟩ := forRange_spec (lo := start + 1) (hi := stop) (s := x0)
    (body := fun i m => do
      match ← rd a i with
      | none => .ok m
      | some x => .ok (if m < x then x else m))
    (fun k (m : Nat) => ∀ i x, start ≤ i → i < k → a[i]? = some (some x) → x ≤ m) (by omega)
    (by
      intro i x h1 h2 hx
      have : i = start := by omega
      subst this
      rw [h0] at hx; simp at hx; omega)
    (by
      intro k m h1 h2 h
      have hk : k < a.length := by omega
      rw [rd_of_lt hk, ok_bind]
      cases hak : a[k] with
      | none =>
        refine ⟨m, rfl, ?_⟩
        intro i x g1 g2 hx
        by_cases hik : i = k
        · subst hik; rw [List.getElem?_eq_getElem hk, hak] at hx; cases hx
        · exact h i x g1 (by omega) hx
      | some y =>
        refine ⟨_, rfl, ?_⟩
        intro i x g1 g2 hx
        by_cases hik : i = k
        · subst hik
          rw [List.getElem?_eq_getElem hk, hak] at hx
          simp only [Option.some.injEq] at hx
          subst hx
          split <;> omega
        · have := h i x g1 (by omega) hx
          split <;> omega)
  refine ⟨mx, ?_, ?_⟩
  · rw [radixMax, rd_of_some h0, ok_bind]
    exact e
  · intro x hx
    rw [List.mem_filterMap] at hx
    obtain ⟨y, hy, hyx⟩ := hx
    simp only [id] at hyx
    subst hyx
    obtain ⟨j, hj⟩ := List.mem_iff_getElem?.1 hy
    by_cases hlt : j < stop - start
    · rw [List.getElem?_take_of_lt hlt, List.getElem?_drop] at hj
      exact h (start + j) x (by omega) (by omega) hj
    · rw [List.getElem?_take_eq_none (by omega)] at hj; cases hj

/-- C14, the part that holds: the range starts with a number, and either it holds a positive number or it holds no `None`. -/
theorem C14_radix_sort_partial (a : List (Option Nat)) (start stop : Nat) (hss : start < stop) (hs : stop ≤ a.length) (x0 : Nat)
    (h0 : a[start]? = some (some x0))
    (hpos : (∃ i x, start ≤ i ∧ i < stop ∧ a[i]? = some (some x) ∧ 0 < x) ∨ (∀ i, start ≤ i → i < stop → a[i]? ≠ some none)) :
    EndsIn (fun fuel => radixSort fuel a start stop) (fun b => SortsTo (noneLast (fun x y : Nat => x ≤ y)) a b start stop) := by
  obtain ⟨mx, e, hmx⟩ := radixMax_spec a start stop hss hs h0
  have hsplit := split_range a (Nat.le_of_lt hss)
  have l1 : (a.take start).length = start := by simp; omega
  have l2 : ((a.drop start).take (stop - start)).length = stop - start := by simp; omega
  refine ⟨mx + 1, ?_⟩
  intro fuel hf
  obtain ⟨fuel, rfl⟩ : ∃ k, fuel = k + 1 := ⟨fuel - 1, by omega⟩
  have hpow : mx < 10 ^ fuel := Nat.lt_of_lt_of_le (Nat.lt_pow_self (by omega : 1 < 10)) (Nat.pow_le_pow_right (by omega) (by omega))
  obtain ⟨b, eb, hb1, hb2⟩ := radixLoop_spec (a.take start) (a.drop stop) mx fuel 0 ((a.drop start).take (stop - start)) hmx
    (by simpa using hpow) (by
      have : ∀ x y : Nat, x % 10 ^ 0 ≤ y % 10 ^ 0 := by intro x y; simp [Nat.mod_one]
      exact List.pairwise_of_forall this)
  rw [← hsplit, l1, l2, show start + (stop - start) = stop by omega] at eb
  refine ⟨b, by dsimp only; rw [radixSort, e, ok_bind]; exact eb, ?_⟩
  by_cases h1 : 10 ^ 0 ≤ mx
  · obtain ⟨l', hp, hs', rfl⟩ := hb2 h1
    have := sortsTo_form (le := fun x y : Nat => x ≤ y) (pre := a.take start) (post := a.drop stop) hp hs'
    rw [← hsplit, l1, l2, show start + (stop - start) = stop by omega] at this
    rw [l2]
    exact this
  · have hmx0 : mx = 0 := by simp at h1; exact h1
    obtain ⟨rfl, hsort⟩ := hb1 (by simp [hmx0])
    rw [← hsplit]
    refine ⟨.refl _ _ _, ?_⟩
    have hzero : ∀ i x, start ≤ i → i < stop → a[i]? = some (some x) → x = 0 := by
      intro i x g1 g2 hx
      have : x ∈ ((a.drop start).take (stop - start)).filterMap id := by
        rw [List.mem_filterMap]
        refine ⟨some x, List.mem_iff_getElem?.2 ⟨i - start, ?_⟩, rfl⟩
        rw [List.getElem?_take_of_lt (by omega), List.getElem?_drop, ← hx]
        congr 1; omega
      have := hmx x this
      omega
    have hno : ∀ i, start ≤ i → i < stop → a[i]? ≠ some none := by
      rcases hpos with ⟨i, x, g1, g2, g3, g4⟩ | h
      · have := hzero i x g1 g2 g3; omega
      · exact h
    intro i j x y g1 g2 g3 hx hy
    cases y with
    | none => cases x <;> trivial
    | some y =>
      cases x with
      | none => exact absurd hx (hno i g1 (by omega))
      | some x =>
        have := hzero i x g1 (by omega) hx
        show x ≤ y
        omega

/-- The full C14: every non-empty range of non-negative integers and `None` holes. -/
def C14_full : Prop := ∀ (a : List (Option Nat)) (start stop : Nat), start < stop → stop ≤ a.length →
  EndsIn (fun fuel => radixSort fuel a start stop) (fun b => SortsTo (noneLast (fun x y : Nat => x ≤ y)) a b start stop)

/-- C14 is false of the code: a range that starts with `None` raises `TypeError`. -/
theorem C14_full_false : ¬ C14_full := by
  intro h
  obtain ⟨n, hn⟩ := h [none, some 1] 0 2 (by decide) (by decide)
  obtain ⟨b, e, -⟩ := hn n (Nat.le_refl _)
  cases e

/-- The other gap: zeros with a `None` between them are left as they are. -/
theorem C14_zeros_unsorted (fuel : Nat) : radixSort (fuel + 1) [some 0, none, some 0] 0 3 = .ok [some 0, none, some 0] := rfl

/-- A range that starts with `None` raises `TypeError`. -/
theorem C14_leading_none (a : List (Option Nat)) (start stop fuel : Nat) (h0 : a[start]? = some none) :
    radixSort fuel a start stop = .error .typeError := by
  rw [radixSort, radixMax, rd_of_some h0]
  rfl

/-- A range that starts with a number and holds no number but 0 is left as it is. Together with `C14_radix_sort_partial` and
`C14_leading_none` this covers every non-empty range. -/
theorem C14_only_zeros (a : List (Option Nat)) (start stop : Nat) (hss : start < stop) (hs : stop ≤ a.length)
    (h0 : a[start]? = some (some 0)) (hz : ∀ i x, start ≤ i → i < stop → a[i]? = some (some x) → x = 0) :
    EndsWith (fun fuel => radixSort fuel a start stop) (.ok a) := by
  obtain ⟨mx, e, h⟩ := forRange_spec (lo := start + 1) (hi := stop) (s := 0)
    (body := fun i m => do
      match ← rd a i with
      | none => .ok m
      | some x => .ok (if m < x then x else m))
    (fun _ (m : Nat) => m = 0) (by omega) rfl
    (by
      rintro k m h1 h2 rfl
      have hk : k < a.length := by omega
      rw [rd_of_lt hk, ok_bind]
      cases hak : a[k] with
      | none => exact ⟨0, rfl, rfl⟩
      | some y =>
        have := hz k y (by omega) h2 (by rw [List.getElem?_eq_getElem hk, hak])
        subst this
        exact ⟨0, rfl, rfl⟩)
  subst h
  refine ⟨1, fun fuel hf => ?_⟩
  obtain ⟨fuel, rfl⟩ : ∃ k, fuel = k + 1 := ⟨fuel - 1, by omega⟩
  have em : radixMax a start stop = .ok 0 := by
    rw [radixMax, rd_of_some h0, ok_bind]
    exact e
  dsimp only
  rw [radixSort, em, ok_bind, radixLoop, if_neg (by simp)]

example : radixSort 4 [some 170, some 45, none, some 75, some 90, some 802, some 24] 0 7 =
    .ok [some 24, some 45, some 75, some 90, some 170, some 802, none] := by decide

end Props
