import Verif.Props.CppSort
/-!
# Exactly when the C++ quick sort ends (C97)
-/
namespace Props
open Py Spec Model
variable {α : Type _}

/-- What happens to the range that begins at index 0, given as the list of its cells: the cells that may come before the last
one are the next such range, if there are at least two; there is no such range any more if there is one, and none ever
goes away if there is none. -/
inductive QuickEnds {β : Type _} (c : β → β → Bool) : List β → Prop
  | one {l : List β} {v : β} : (l.filter (c · v)).length = 1 → QuickEnds c (l ++ [v])
  | more {l : List β} {v : β} : 2 ≤ (l.filter (c · v)).length → QuickEnds c (l.filter (c · v)) → QuickEnds c (l ++ [v])

theorem quickEnds_iff {β : Type _} {c : β → β → Bool} {l : List β} {v : β} : QuickEnds c (l ++ [v]) ↔
    (l.filter (c · v)).length = 1 ∨ 2 ≤ (l.filter (c · v)).length ∧ QuickEnds c (l.filter (c · v)) := by
  constructor
  · generalize hm : l ++ [v] = m
    intro h
    cases h with
    | one h =>
      have := List.append_inj' hm rfl
      obtain ⟨rfl, e⟩ := this
      cases e
      exact .inl h
    | more h1 h2 =>
      have := List.append_inj' hm rfl
      obtain ⟨rfl, e⟩ := this
      cases e
      exact .inr ⟨h1, h2⟩
  · rintro (h | ⟨h1, h2⟩)
    · exact .one h
    · exact .more h1 h2

/-- Some cell before the last one may come before all later cells, and each cell before it may not come before one of these. -/
def LeastEarly {β : Type _} (c : β → β → Bool) (l : List β) : Prop :=
  ∃ pre x suf, l = pre ++ x :: suf ∧ suf ≠ [] ∧ (∀ y ∈ suf, c x y = true) ∧ ∀ z ∈ pre, ∃ y ∈ suf, c z y = false

/-- `≤` and `<` of a total preorder both have this property. -/
def Threshold {β : Type _} (c : β → β → Bool) : Prop := ∀ x y z, c x y = true → c z y = false → c x z = true

theorem Threshold.pyComp {comp : α → α → Bool} (h : Threshold comp) : Threshold (pyComp comp) := by
  rintro (_ | x) (_ | y) (_ | z) h1 h2 <;> simp_all [Model.pyComp]
  exact h x y z h1 h2

theorem filter_cut {β : Type _} {f : β → Bool} : ∀ {l P S : List β} {x : β}, l.filter f = P ++ x :: S →
    ∃ pre mid, l = pre ++ x :: mid ∧ pre.filter f = P ∧ mid.filter f = S ∧ f x = true := by
  intro l P S x h
  obtain ⟨pre, r, rfl, h1, h2⟩ := List.filter_eq_append_iff.1 h
  obtain ⟨r1, mid, rfl, h3, h4, h5⟩ := List.filter_eq_cons_iff.1 h2
  refine ⟨pre ++ r1, mid, by simp, ?_, h5, h4⟩
  rw [List.filter_append, h1, List.filter_eq_nil_iff.2 h3]; simp

theorem quickEnds_leastEarly {β : Type _} {c : β → β → Bool} (hw : Threshold c) {l : List β} : QuickEnds c l → LeastEarly c l := by
  intro h
  induction h with
  | @one l v h =>
    obtain ⟨x, hx⟩ := List.length_eq_one_iff.1 h
    obtain ⟨pre, mid, rfl, h1, h2, h3⟩ := filter_cut (P := []) (S := []) hx
    refine ⟨pre, x, mid ++ [v], by simp, by simp, ?_, ?_⟩
    · intro y hy
      rcases List.mem_append.1 hy with hy | hy
      · exact hw x v y h3 (by simpa using List.filter_eq_nil_iff.1 h2 y hy)
      · simp at hy; subst hy; exact h3
    · intro z hz
      exact ⟨v, by simp, by simpa using List.filter_eq_nil_iff.1 h1 z hz⟩
  | @more l v h1 _ ih =>
    obtain ⟨P, x, S, e, hS, h2, h3⟩ := ih
    obtain ⟨pre, mid, rfl, rfl, rfl, h4⟩ := filter_cut e
    refine ⟨pre, x, mid ++ [v], by simp, by simp, ?_, ?_⟩
    · intro y hy
      rcases List.mem_append.1 hy with hy | hy
      · cases hyv : c y v with
        | true => exact h2 y (by simp [hy, hyv])
        | false => exact hw x v y h4 hyv
      · simp at hy; subst hy; exact h4
    · intro z hz
      cases hzv : c z v with
      | false => exact ⟨v, by simp, hzv⟩
      | true =>
        obtain ⟨y, hy, e⟩ := h3 z (by simp [hz, hzv])
        exact ⟨y, by simp [(List.mem_filter.1 hy).1], e⟩

theorem leastEarly_quickEnds {β : Type _} {c : β → β → Bool} (hw : Threshold c) : ∀ n (l : List β), l.length ≤ n → LeastEarly c l → QuickEnds c l := by
  intro n
  induction n with
  | zero =>
    rintro l hl ⟨pre, x, suf, rfl, -⟩
    simp at hl
  | succ n ih =>
    rintro l hl ⟨pre, x, suf, rfl, hs, h1, h2⟩
    obtain ⟨mid, v, rfl⟩ : ∃ mid v, suf = mid ++ [v] := ⟨suf.dropLast, suf.getLast hs, (List.dropLast_concat_getLast hs).symm⟩
    have hxv : c x v = true := h1 v (by simp)
    have hf : (pre ++ x :: mid).filter (c · v) = pre.filter (c · v) ++ x :: mid.filter (c · v) := by simp [List.filter_append, List.filter_cons, hxv]
    have hlen : (pre.filter (c · v) ++ x :: mid.filter (c · v)).length ≤ n := by
      have a := List.length_filter_le (c · v) pre
      have b := List.length_filter_le (c · v) mid
      simp at hl ⊢; omega
    have key : ∀ z ∈ pre.filter (c · v), ∃ y ∈ mid.filter (c · v), c z y = false := by
      intro z hz
      obtain ⟨hz1, hz2⟩ := List.mem_filter.1 hz
      obtain ⟨y, hy, hy'⟩ := h2 z hz1
      rcases List.mem_append.1 hy with hy | hy
      · refine ⟨y, List.mem_filter.2 ⟨hy, ?_⟩, hy'⟩
        cases hyv : c y v with
        | true => rfl
        | false => rw [hw z v y hz2 hyv] at hy'; cases hy'
      · simp at hy; subst hy; rw [hz2] at hy'; cases hy'
    rw [show pre ++ x :: (mid ++ [v]) = (pre ++ x :: mid) ++ [v] by simp, quickEnds_iff, hf]
    by_cases hm : mid.filter (c · v) = []
    · left
      have : pre.filter (c · v) = [] := by
        rw [List.eq_nil_iff_forall_not_mem]
        intro z hz
        obtain ⟨y, hy, -⟩ := key z hz
        rw [hm] at hy; cases hy
      simp [this, hm]
    · right
      refine ⟨?_, ih _ hlen ⟨_, x, _, rfl, hm, fun y hy => h1 y (by simp [(List.mem_filter.1 hy).1]), key⟩⟩
      have := List.length_pos_iff.2 hm
      simp; omega

/-! ## Partition of a range from index 0 -/

theorem partLoop_take {β : Type _} {f : β → Bool} {a : List β} : ∀ n j k (b a' : List β) k',
    Py.loop (fun j (s : List β × Nat) => do
      let y ← rd s.1 j
      if f y = true then
        let a ← swp s.1 s.2 j
        .ok (a, s.2 + 1)
      else .ok (s.1, s.2)) n j (b, k) = .ok (a', k') → j + n ≤ a.length → k ≤ j → b.length = a.length → b.take k = (a.take j).filter f →
    b.drop j = a.drop j → k' ≤ j + n ∧ a'.length = a.length ∧ a'.take k' = (a.take (j + n)).filter f := by
  intro n
  induction n with
  | zero => intro j k b a' k' e _ h2 h3 h4 _; cases e; exact ⟨h2, h3, h4⟩
  | succ n ih =>
    intro j k b a' k' e h1 h2 h3 h4 h5
    have hj : j < b.length := by omega
    have hja : j < a.length := by omega
    have hbj : b[j] = a[j] := by
      have := congrArg (fun l => l[0]?) h5
      simp only [List.getElem?_drop, Nat.add_zero, List.getElem?_eq_getElem hj, List.getElem?_eq_getElem hja] at this
      exact Option.some.inj this
    have hd1 : b.drop (j + 1) = a.drop (j + 1) := by
      have := congrArg (List.drop 1) h5
      simpa [List.drop_drop, Nat.add_comm] using this
    have ht : (a.take (j + 1)).filter f = (a.take j).filter f ++ (if f a[j] then [a[j]] else []) := by
      rw [List.take_add_one, List.filter_append, List.getElem?_eq_getElem hja]
      simp [List.filter_cons]
    simp only [Py.loop, rd_of_lt hj, ok_bind, hbj] at e
    have hreach : j + (n + 1) = j + 1 + n := by omega
    rw [hreach]
    cases hf : f a[j] with
    | true =>
      rw [hf] at e ht
      simp only [if_true, swp_of_lt (l := b) (i := k) (j := j) (by omega) hj, ok_bind] at e
      refine ih (j + 1) (k + 1) _ a' k' e (by omega) (by omega) (by simp [h3]) ?_ ?_
      · rw [ht, ← h4]
        simp only [if_true]
        apply List.ext_getElem?
        intro i
        simp only [List.getElem?_take, List.getElem?_append, List.length_take, List.getElem?_set, hbj, List.length_set]
        have hm : min k b.length = k := by omega
        rw [hm]
        clear ih e h4 h5 hd1 ht
        rcases Nat.lt_trichotomy i k with h | h | h
        · grind
        · subst h; by_cases hij : i = j <;> grind
        · rw [if_neg (by omega), if_neg (by omega)]
          symm; rw [List.getElem?_eq_none_iff]; simp; omega
      · rw [← hd1]
        apply List.ext_getElem?
        intro i
        simp only [List.getElem?_drop, List.getElem?_set]
        grind
    | false =>
      rw [hf] at e ht
      exact ih (j + 1) k b a' k' e (by omega) (by omega) h3 (by rw [ht, ← h4]; simp) hd1

theorem partition_zero {β : Type _} {c : β → β → Bool} {high p : Nat} {a a' : List β} {v : β} (hv : a[high]? = some v)
    (e : qsPartition c lastCell 0 high a = .ok (a', p)) :
    a'.take p = (a.take high).filter (c · v) ∧ p = ((a.take high).filter (c · v)).length := by
  have hh := (List.getElem?_eq_some_iff.1 hv).1
  unfold qsPartition at e
  obtain ⟨x, hx, e⟩ := bind_ok e
  have hxv : x = v := by
    simp only [lastCell, rd, hv] at hx
    cases hx; rfl
  subst hxv
  obtain ⟨⟨b, k⟩, hk, e⟩ := bind_ok e
  obtain ⟨d, hd, e⟩ := bind_ok e
  cases e
  unfold forRange at hk
  obtain ⟨h1, h2, h3⟩ := partLoop_take (f := (c · x)) (a := a) _ _ _ _ _ _ hk (by omega) (Nat.le_refl _) rfl (by simp) rfl
  simp only [Nat.zero_add, Nat.sub_zero] at h1 h3
  rw [swp_of_lt (by omega) (by omega)] at hd
  have hd := Except.ok.inj hd
  have : a'.take p = b.take p := by
    subst hd
    rw [List.take_set_of_le (by omega), List.take_set_of_le (by omega)]
  refine ⟨by rw [this, h3], ?_⟩
  rw [← h3, List.length_take]; omega

/-! ## The whole run -/

/-- The pending range that begins at index 0, if there is one, goes away. -/
def Goes (c : α → α → Bool) (a : List (Option α)) (st : List (Nat × Nat)) : Prop :=
  ∀ h, (0, h) ∈ st → QuickEnds (pyComp c) (a.take (h + 1))

theorem goes_step {comp : α → α → Bool} {le : α → α → Prop} (ho : TotalPreorder le) (hc : Compat comp le) {a a' : List (Option α)} {low high p start stop : Nat}
    {st : List (Nat × Nat)} {b : List (Option α)} (hI : QuickInv (noneLast le) b start stop a ((low, high) :: st)) (hst : stop ≤ b.length)
    (e : qsPartition (pyComp comp) lastCell low high a = .ok (a', p)) :
    (p = 0 → ¬ Goes comp a ((low, high) :: st)) ∧
    (p ≠ 0 → ∀ r, quickBody (pyComp comp) lastCell (a, (low, high) :: st) = .ok r →
      QuickInv (noneLast le) b start stop r.1 r.2 ∧ (Goes comp r.1 r.2 ↔ Goes comp a ((low, high) :: st))) := by
  have hl := hI.1.length_eq
  obtain ⟨-, h1, h2⟩ := hI.2.1 (low, high) (by simp)
  dsimp only at h1 h2
  have hdis := (List.pairwise_cons.1 hI.2.2.1).1
  dsimp only at hdis
  have hlt : high < a.length := by omega
  obtain ⟨a2, p2, e2, g1, g2, hI'⟩ := quick_step ho.noneLast (pyComp_compat hc) (lastCell_picks ho.noneLast) hst hI
  rw [e] at e2
  cases e2
  obtain ⟨a3, p3, e3, hre, -⟩ := qsPartition_spec ho.noneLast (pyComp_compat hc) (lastCell_picks ho.noneLast) a low high h1 hlt
  rw [e] at e3
  cases e3
  have htake : a.take (high + 1) = a.take high ++ [a[high]] := by rw [List.take_add_one, List.getElem?_eq_getElem hlt]; rfl
  by_cases h0 : low = 0
  · subst h0
    obtain ⟨q1, q2⟩ := partition_zero (List.getElem?_eq_getElem hlt) e
    have hG : Goes comp a ((0, high) :: st) ↔ QuickEnds (pyComp comp) (a.take (high + 1)) := by
      constructor
      · intro h; exact h high (by simp)
      · intro h h' hm
        rcases List.mem_cons.1 hm with hm | hm
        · cases hm; exact h
        · have := hdis _ hm; dsimp only at this; omega
    rw [htake, quickEnds_iff, ← q2, ← q1] at hG
    constructor
    · rintro rfl hg
      rcases hG.1 hg with h | h <;> omega
    · intro hp r hr
      simp only [quickBody, e, ok_bind] at hr
      cases hr
      refine ⟨hI', ?_⟩
      rw [hG]
      have hlast : ∀ s, s ∈ (if p + 1 < high then (p + 1, high) :: (if 0 + 1 < p then (0, p - 1) :: st else st) else
          (if 0 + 1 < p then (0, p - 1) :: st else st)) → s.1 = 0 → 1 < p ∧ s = (0, p - 1) := by
        intro s hs hs0
        have hs' : s ∈ (if 0 + 1 < p then (0, p - 1) :: st else st) := by
          split at hs
          · rcases List.mem_cons.1 hs with rfl | hs
            · dsimp only at hs0; omega
            · exact hs
          · exact hs
        split at hs'
        · rcases List.mem_cons.1 hs' with rfl | hs'
          · exact ⟨by omega, rfl⟩
          · have := hdis _ hs'; omega
        · have := hdis _ hs'; omega
      constructor
      · intro h
        by_cases hp1 : p = 1
        · exact .inl hp1
        · refine .inr ⟨by omega, ?_⟩
          have := h (p - 1) (by dsimp only; rw [if_pos (show 0 + 1 < p by omega)]; split <;> simp)
          rwa [show p - 1 + 1 = p by omega] at this
      · intro h h' hm
        obtain ⟨k1, k2⟩ := hlast _ hm rfl
        cases k2
        rcases h with h | h
        · omega
        · rw [show p - 1 + 1 = p by omega]; exact h.2
  · constructor
    · rintro rfl; omega
    · intro hp r hr
      simp only [quickBody, e, ok_bind] at hr
      cases hr
      refine ⟨hI', ?_⟩
      have hmem : ∀ h', (0, h') ∈ (if p + 1 < high then (p + 1, high) :: (if low + 1 < p then (low, p - 1) :: st else st) else
          (if low + 1 < p then (low, p - 1) :: st else st)) ↔ (0, h') ∈ st := by
        intro h'
        split <;> split <;> simp [Ne.symm h0, fun h : 0 = low => h0 h.symm]
      have hsame : ∀ h', (0, h') ∈ st → a'.take (h' + 1) = a.take (h' + 1) := by
        intro h' hm
        have := hdis _ hm
        dsimp only at this
        apply List.ext_getElem?
        intro i
        simp only [List.getElem?_take]
        split
        · exact hre.2 i (by omega)
        · rfl
      constructor
      · intro h h' hm
        rcases List.mem_cons.1 hm with hm | hm
        · cases hm; exact absurd rfl h0
        · rw [← hsame h' hm]; exact h h' ((hmem h').2 hm)
      · intro h h' hm
        have hm := (hmem h').1 hm
        show QuickEnds _ (a'.take (h' + 1))
        rw [hsame h' hm]; exact h h' (List.mem_cons_of_mem _ hm)

theorem quick_goes {comp : α → α → Bool} {le : α → α → Prop} (ho : TotalPreorder le) (hc : Compat comp le) {start stop : Nat} {o : List (Option α)}
    (hst : stop ≤ o.length) (hlo : o.length < 2 ^ 63) : ∀ n (a b : List (Option α)) (st st' : List (Nat × Nat)),
    QuickInv (noneLast le) o start stop a st →
    whileLoop n Cpp.more (quickBody (pyComp comp) lastCell) (a, st) = .ok (b, st') →
    (Goes comp a st → whileLoop n Cpp.more (Cpp.quickStep comp) (⟨a, false⟩, st) = .ok (⟨b, false⟩, st')) ∧
    (¬ Goes comp a st → ∀ fuel, whileLoop fuel Cpp.more (Cpp.quickStep comp) (⟨a, false⟩, st) = .error .outOfFuel) := by
  intro n
  induction n with
  | zero => intro a b st st' _ e; cases e
  | succ n ih =>
    intro a b st st' hI e
    have hl : a.length < 2 ^ 63 := by rw [hI.1.length_eq]; exact hlo
    match st with
    | [] => exact ⟨fun _ => by cases e; rfl, fun h => absurd (fun _ hm => nomatch hm) h⟩
    | (low, high) :: st =>
      simp only [whileLoop, Cpp.more, List.isEmpty_cons, Bool.not_false, ok_bind, if_true] at e ⊢
      obtain ⟨⟨a1, st1⟩, hb, e⟩ := bind_ok e
      have hb' := hb
      simp only [quickBody] at hb
      obtain ⟨⟨a2, p⟩, hp, hb⟩ := bind_ok hb
      have ha : a2 = a1 := by cases hb; rfl
      subst ha
      obtain ⟨s1, s2⟩ := goes_step ho hc hI hst hp
      obtain ⟨g1, g2⟩ := Cpp.quickStep_sim (st := st) comp hl hp
      by_cases h0 : p = 0
      · refine ⟨fun h => absurd h (s1 h0), fun _ => ?_⟩
        obtain ⟨st2, e2, hm⟩ := g2 h0
        intro fuel
        cases fuel with
        | zero => rfl
        | succ fuel =>
          simp only [whileLoop, Cpp.more, List.isEmpty_cons, Bool.not_false, ok_bind, if_true, e2]
          exact Cpp.quick_never comp fuel _ _ hm (by show a2.length < _; rw [(Cpp.partition_bounds hp).2.2.2]; omega)
      · have e2 := g1 h0
        rw [hb'] at e2
        obtain ⟨t1, t2⟩ := s2 h0 _ hb'
        obtain ⟨i1, i2⟩ := ih a2 b st1 st' t1 e
        refine ⟨fun h => ?_, fun h fuel => ?_⟩
        · rw [e2]; exact i1 (t2.2 h)
        · cases fuel with
          | zero => rfl
          | succ fuel =>
            simp only [whileLoop, Cpp.more, List.isEmpty_cons, Bool.not_false, ok_bind, if_true, e2]
            exact i2 (fun hg => h (t2.1 hg)) fuel

/-- C97, exactly, for every consistent comparator: from index 0 it sorts if the first range goes away, and otherwise never ends. -/
theorem C97_exact_any (comp : α → α → Bool) (le : α → α → Prop) (ho : TotalPreorder le) (hc : Compat comp le)
    (a : List (Option α)) (stop : Nat) (h2 : stop < a.length) (hl : a.length < 2 ^ 63) :
    (QuickEnds (pyComp comp) (a.take (stop + 1)) → ∃ b, EndsWith (fun fuel => Cpp.quickSort comp fuel a (some 0) (some stop)) (.ok b) ∧
      SortsTo (noneLast le) a b 0 (stop + 1)) ∧
    (¬ QuickEnds (pyComp comp) (a.take (stop + 1)) → ∀ fuel, Cpp.quickSort comp fuel a (some 0) (some stop) = .error .outOfFuel) := by
  obtain ⟨b, st, n, e, hs⟩ := quickPy_run comp le ho hc a 0 stop (by omega) h2
  have hI : QuickInv (noneLast le) a 0 (stop + 1) a [(0, stop)] := ⟨.refl _ _ _, by simp, by simp, by
    intro i j x y g1 g2 g3 _ _
    exact .inr ⟨(0, stop), by simp, g1, by simp only; omega⟩⟩
  obtain ⟨k1, k2⟩ := quick_goes ho hc (by omega) hl n a b _ st hI e
  have hG : Goes comp a [(0, stop)] ↔ QuickEnds (pyComp comp) (a.take (stop + 1)) := by
    constructor
    · intro h; exact h stop (by simp)
    · intro h h' hm; simp at hm; subst hm; exact h
  rw [hG] at k1 k2
  exact ⟨fun h => ⟨b, quickCpp_ends (k1 h), hs⟩, fun h => quickCpp_never (k2 h)⟩

/-- C97, exactly, for a comparator that is `≤` or `<` of a total preorder: from index 0 it ends iff some cell before the last one may come before
all later cells of the range and each cell before that one may not come before one of these; if it ends, the range is sorted. -/
theorem C97_exact (comp : α → α → Bool) (le : α → α → Prop) (ho : TotalPreorder le)
    (hc : (∀ x y, comp x y = true ↔ le x y) ∨ (∀ x y, comp x y = true ↔ ¬ le y x))
    (a : List (Option α)) (stop : Nat) (h2 : stop < a.length) (hl : a.length < 2 ^ 63) :
    (LeastEarly (pyComp comp) (a.take (stop + 1)) → ∃ b, EndsWith (fun fuel => Cpp.quickSort comp fuel a (some 0) (some stop)) (.ok b) ∧
      SortsTo (noneLast le) a b 0 (stop + 1)) ∧
    (¬ LeastEarly (pyComp comp) (a.take (stop + 1)) → ∀ fuel, Cpp.quickSort comp fuel a (some 0) (some stop) = .error .outOfFuel) := by
  have ht := ho.trans
  have hto := ho.total
  have hf : ∀ {x y}, comp x y = false ↔ ¬ comp x y = true := by intro x y; simp
  have hcc : Compat comp le := by
    rcases hc with h | h
    · exact ⟨fun x y e => (h x y).1 e, fun x y e => by rw [hf, h] at e; exact (hto x y).resolve_left e⟩
    · exact ⟨fun x y e => (hto x y).resolve_right ((h x y).1 e), fun x y e => by
        rw [hf, h] at e; exact Classical.not_not.1 e⟩
  have hw : Threshold comp := by
    intro x y z h1 h3
    rcases hc with h | h
    · rw [hf, h] at h3
      rw [h] at h1 ⊢
      exact ht _ _ _ h1 ((hto z y).resolve_left h3)
    · rw [hf, h] at h3
      rw [h] at h1 ⊢
      exact fun hzx => h1 (ht _ _ _ (Classical.not_not.1 h3) hzx)
  have hiff : QuickEnds (pyComp comp) (a.take (stop + 1)) ↔ LeastEarly (pyComp comp) (a.take (stop + 1)) :=
    ⟨quickEnds_leastEarly hw.pyComp, leastEarly_quickEnds hw.pyComp _ _ (Nat.le_refl _)⟩
  rw [← hiff]
  exact C97_exact_any comp le ho hcc a stop h2 hl

/-- `[3, 1, 2]` ends, … -/
example : LeastEarly (pyComp fun x y : Int => decide (x ≤ y)) [some 3, some 1, some 2] :=
  ⟨[some 3], some 1, [some 2], rfl, by simp, by simp [pyComp], by simp [pyComp]⟩

/-- … `[2, 1, 3]` does not. -/
example : ¬ LeastEarly (pyComp fun x y : Int => decide (x ≤ y)) [some 2, some 1, some 3] := by
  intro h
  have := leastEarly_quickEnds (c := pyComp fun x y : Int => decide (x ≤ y)) (Threshold.pyComp (by
    intro x y z h1 h2; simp at h1 h2 ⊢; omega)) _ _ (Nat.le_refl _) h
  rw [show ([some 2, some 1, some 3] : List (Option Int)) = [some 2, some 1] ++ [some 3] from rfl, quickEnds_iff] at this
  rcases this with h | ⟨-, h⟩
  · exact absurd h (by decide)
  · rw [show ([some 2, some 1] : List (Option Int)).filter (pyComp (fun x y : Int => decide (x ≤ y)) · (some 3)) = [some 2] ++ [some 1] from by decide,
      quickEnds_iff] at h
    exact absurd h (by rintro (h | ⟨h, -⟩) <;> exact absurd h (by decide))

end Props
