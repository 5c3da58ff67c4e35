import Verif.Props.SparseTable
import Verif.Lemmas.Trace

/-! # C46: the array segment tree; C47: the range query classes -/
namespace Props
open Py Model Spec
variable {α : Type}

/-- Node `i` of the store is the root of a correct segment tree for the positions `lo..hi` of `a`, made of the nodes `ids`. -/
inductive SegOk (op : α → α → α) (s : Seg α) (a : List α) : Nat → Nat → Nat → List Nat → Prop
  | leaf (i lo : Nat) (h1 : (s.nodes i).lo = lo) (h2 : (s.nodes i).hi = lo) (h3 : (s.nodes i).data = foldOf op (slice a lo 1)) :
      SegOk op s a i lo lo [i]
  | node (i lo hi l r : Nat) (il ir : List Nat) (hlt : lo < hi) (h1 : (s.nodes i).lo = lo) (h2 : (s.nodes i).hi = hi)
      (hl : (s.nodes i).left = some l) (hr : (s.nodes i).right = some r)
      (L : SegOk op s a l lo ((lo + hi) / 2) il) (R : SegOk op s a r ((lo + hi) / 2 + 1) hi ir) (hnd : (i :: (il ++ ir)).Nodup)
      (h3 : (s.nodes i).data = foldOf op (slice a lo (hi + 1 - lo))) : SegOk op s a i lo hi (i :: (il ++ ir))

variable {f : QFunc α} {op : α → α → α}

theorem SegOk.le {s : Seg α} {a : List α} {i lo hi : Nat} {ids : List Nat} (h : SegOk op s a i lo hi ids) : lo ≤ hi := by
  cases h <;> omega

theorem SegOk.self_mem {s : Seg α} {a : List α} {i lo hi : Nat} {ids : List Nat} (h : SegOk op s a i lo hi ids) : i ∈ ids := by
  cases h <;> simp

theorem SegOk.data {s : Seg α} {a : List α} {i lo hi : Nat} {ids : List Nat} (h : SegOk op s a i lo hi ids) :
    (s.nodes i).data = foldOf op (slice a lo (hi + 1 - lo)) := by
  cases h with
  | leaf _ _ h1 h2 h3 => rw [h3, Nat.add_sub_cancel_left]
  | node => assumption

theorem SegOk.nodup {s : Seg α} {a : List α} {i lo hi : Nat} {ids : List Nat} (h : SegOk op s a i lo hi ids) : ids.Nodup := by
  cases h with
  | leaf => simp
  | node => assumption

/-- Only the nodes of the tree and the array positions it covers matter. -/
theorem SegOk.frame {s s' : Seg α} {a a' : List α} {i lo hi : Nat} {ids : List Nat} (h : SegOk op s a i lo hi ids)
    (hn : ∀ j ∈ ids, s'.nodes j = s.nodes j) (ha : ∀ p n, lo ≤ p → p + n ≤ hi + 1 → slice a' p n = slice a p n) :
    SegOk op s' a' i lo hi ids := by
  induction h with
  | leaf i lo h1 h2 h3 =>
    have := hn i (by simp)
    exact .leaf i lo (by rw [this, h1]) (by rw [this, h2]) (by rw [this, h3, ha _ _ (Nat.le_refl _) (Nat.le_refl _)])
  | node i lo hi l r il ir hlt h1 h2 hl hr L R hnd h3 ihL ihR =>
    have := hn i (by simp)
    refine .node i lo hi l r il ir hlt (by rw [this, h1]) (by rw [this, h2]) (by rw [this, hl]) (by rw [this, hr])
      (ihL (fun j hj => hn j (by simp [hj])) (fun p n h1 h2 => ha p n h1 (by omega)))
      (ihR (fun j hj => hn j (by simp [hj])) (fun p n h1 h2 => ha p n (by omega) (by omega))) hnd
      (by rw [this, h3, ha _ _ (Nat.le_refl _) (by omega)])

/-- The two halves of a range. -/
theorem halves (hf : IsFold f op) (a : List α) {lo hi : Nat} (h : lo < hi) :
    f.two (foldOf op (slice a lo ((lo + hi) / 2 + 1 - lo))) (foldOf op (slice a ((lo + hi) / 2 + 1) (hi + 1 - ((lo + hi) / 2 + 1)))) =
      foldOf op (slice a lo (hi + 1 - lo)) := by
  rw [foldOf_append hf]
  have := slice_add a lo ((lo + hi) / 2 + 1 - lo) (hi + 1 - ((lo + hi) / 2 + 1))
  rw [show lo + ((lo + hi) / 2 + 1 - lo) = (lo + hi) / 2 + 1 by omega,
    show (lo + hi) / 2 + 1 - lo + (hi + 1 - ((lo + hi) / 2 + 1)) = hi + 1 - lo by omega] at this
  rw [this]

/-! ## build -/

def buildLoop (f : QFunc α) (n : Nat) (st : Seg α × List Nat) : PyM (Seg α × List Nat) :=
  whileLoop n (fun st : Seg α × List Nat => .ok (!st.2.isEmpty)) (segBuildBody f) st

theorem buildLoop_step {n : Nat} {s : Seg α} {i : Nat} {stack : List Nat} {st' : Seg α × List Nat}
    (h : segBuildBody f (s, i :: stack) = .ok st') : buildLoop f (n + 1) (s, i :: stack) = buildLoop f n st' := by
  rw [buildLoop, whileLoop]
  simp only [List.isEmpty_cons, Bool.not_false, ok_bind, if_true, h]
  rfl

theorem build_spec (hf : IsFold f op) : ∀ (d : Nat) (s : Seg α) (i lo hi : Nat), hi + 1 - lo = d → lo ≤ hi → hi < s.array.length →
    i < s.fresh → (s.nodes i).lo = lo → (s.nodes i).hi = hi → (s.nodes i).left = none → (s.nodes i).right = none →
    ∃ s' ids, (∀ n stack, buildLoop f (n + (3 * (hi + 1 - lo) - 2)) (s, i :: stack) = buildLoop f n (s', stack)) ∧
      SegOk op s' s.array i lo hi ids ∧ s.fresh ≤ s'.fresh ∧ (∀ j ∈ ids, j = i ∨ (s.fresh ≤ j ∧ j < s'.fresh)) ∧
      (∀ j, j < s.fresh → j ≠ i → s'.nodes j = s.nodes j) ∧ s'.array = s.array := by
  intro d
  induction d using Nat.strongRecOn with
  | ind d ih =>
    intro s i lo hi hd hle hlen hi' h1 h2 h3 h4
    by_cases heq : lo = hi
    · subst heq
      refine ⟨s.put i { s.nodes i with data := some s.array[lo] }, [i], ?_, ?_, Nat.le_refl _, by simp, ?_, rfl⟩
      · intro n stack
        rw [show 3 * (lo + 1 - lo) - 2 = 1 by omega]
        apply buildLoop_step
        simp only [segBuildBody, h1, h2, if_true, rd_of_lt hlen, ok_bind]
      · refine .leaf i lo ?_ ?_ ?_
        · simp [Seg.put, h1]
        · simp [Seg.put, h2]
        · simp [Seg.put, slice_one _ hlen, foldOf]
      · intro j _ hj
        simp [Seg.put, hj]
    · have hlt : lo < hi := by omega
      -- first visit of the node: two children are created
      let mid := (lo + hi) / 2
      let l := s.fresh
      let r := s.fresh + 1
      have hmid : (lo + hi) / 2 = mid := rfl
      have hm1 : lo ≤ mid := by omega
      have hm2 : mid < hi := by omega
      let s1 : Seg α := ⟨fun j => if j = i then ⟨lo, hi, (s.nodes i).data, some l, some r⟩ else if j = r then ⟨mid + 1, hi, none, none, none⟩
        else if j = l then ⟨lo, mid, none, none, none⟩ else s.nodes j, s.fresh + 2, s.array⟩
      have hil : i ≠ l := by simp only [l]; omega
      have hir : i ≠ r := by simp only [r]; omega
      have hlr : l ≠ r := by simp only [l, r]; omega
      have e1 : ∀ stack, segBuildBody f (s, i :: stack) = .ok (s1, r :: l :: i :: stack) := by
        intro stack
        simp only [segBuildBody, h1, h2, h3, h4, if_neg heq]
        congr 2
        simp only [Seg.put, Seg.alloc, s1, Seg.mk.injEq, and_true]
        funext j
        grind
      obtain ⟨s2, ir, r1, R, r2, r3, r4, r5⟩ := ih (hi + 1 - (mid + 1)) (by omega) s1 r (mid + 1) hi rfl (by omega) hlen
        (by simp only [s1, r]; omega) (by simp [s1, hir.symm]) (by simp [s1, hir.symm]) (by simp [s1, hir.symm]) (by simp [s1, hir.symm])
      have hl2 : s2.nodes l = ⟨lo, mid, none, none, none⟩ := by
        rw [r4 l (by simp only [s1, l]; omega) hlr]; simp [s1, hil.symm, hlr]
      have hi2 : s2.nodes i = ⟨lo, hi, (s.nodes i).data, some l, some r⟩ := by
        rw [r4 i (by simp only [s1]; omega) hir]; simp [s1]
      have hf2 : s.fresh + 2 ≤ s2.fresh := r2
      obtain ⟨s3, il, l1, L, l2, l3, l4, l5⟩ := ih (mid + 1 - lo) (by omega) s2 l lo mid rfl (by omega) (by rw [r5]; simp only [s1]; omega)
        (by simp only [l]; omega) (by rw [hl2]) (by rw [hl2]) (by rw [hl2]) (by rw [hl2])
      have hi3 : s3.nodes i = ⟨lo, hi, (s.nodes i).data, some l, some r⟩ := by
        rw [l4 i (by omega) hil, hi2]
      have hidsr : ∀ j ∈ ir, j < s2.fresh ∧ s.fresh + 1 ≤ j := by
        intro j hj
        rcases r3 j hj with h | ⟨h, h'⟩
        · subst h; simp only [r]; omega
        · simp only [s1] at h; omega
      have hidsl : ∀ j ∈ il, j = l ∨ s2.fresh ≤ j ∧ j < s3.fresh := l3
      have hR : SegOk op s3 s.array r (mid + 1) hi ir := by
        have : SegOk op s2 s.array r (mid + 1) hi ir := R
        exact this.frame (fun j hj => l4 j (hidsr j hj).1 (by have := (hidsr j hj).2; simp only [l]; omega)) (fun _ _ _ _ => rfl)
      have hL : SegOk op s3 s.array l lo mid il := by
        have : SegOk op s3 s2.array l lo mid il := L
        rw [r5] at this; exact this
      have hnodup : (i :: (il ++ ir)).Nodup := by
        have nl : il.Nodup := hL.nodup
        have nr : ir.Nodup := hR.nodup
        simp only [List.nodup_cons, List.mem_append, List.nodup_append]
        refine ⟨?_, nl, nr, ?_⟩
        · rintro (h | h)
          · rcases hidsl i h with h | h
            · exact hil h
            · omega
          · have := hidsr i h; omega
        · intro x hx y hy hxy
          subst hxy
          have := hidsr x hy
          rcases hidsl x hx with h | h
          · simp only [l] at h; omega
          · omega
      let s4 : Seg α := s3.put i { s3.nodes i with data := foldOf op (slice s.array lo (hi + 1 - lo)) }
      have e4 : ∀ stack, segBuildBody f (s3, i :: stack) = .ok (s4, stack) := by
        intro stack
        simp only [segBuildBody, hi3, if_neg heq, Seg.dataOf, ok_bind, hL.data, hR.data]
        rw [← hmid, halves hf _ hlt]
        simp only [s4, hi3]
      have hni : ∀ j ∈ il ++ ir, j ≠ i := by
        intro j hj h; subst h
        rw [List.nodup_cons] at hnodup
        exact hnodup.1 hj
      refine ⟨s4, i :: (il ++ ir), ?_, ?_, ?_, ?_, ?_, ?_⟩
      · intro n stack
        have hk : n + (3 * (hi + 1 - lo) - 2) = (n + 1 + (3 * (mid + 1 - lo) - 2) + (3 * (hi + 1 - (mid + 1)) - 2)) + 1 := by omega
        rw [hk, buildLoop_step (e1 stack), r1, l1, buildLoop_step (e4 stack)]
      · refine .node i lo hi l r il ir hlt ?_ ?_ ?_ ?_ ?_ ?_ hnodup ?_
        · simp [s4, Seg.put, hi3]
        · simp [s4, Seg.put, hi3]
        · simp [s4, Seg.put, hi3]
        · simp [s4, Seg.put, hi3]
        · exact hL.frame (fun j hj => by simp [s4, Seg.put, hni j (by simp [hj])]) (fun _ _ _ _ => rfl)
        · exact hR.frame (fun j hj => by simp [s4, Seg.put, hni j (by simp [hj])]) (fun _ _ _ _ => rfl)
        · simp [s4, Seg.put]
      · show s.fresh ≤ s3.fresh; omega
      · intro j hj
        show _ ∨ _ ∧ j < s3.fresh
        rcases List.mem_cons.1 hj with h | h
        · exact Or.inl h
        · right
          rcases List.mem_append.1 h with h | h
          · rcases hidsl j h with h | h
            · simp only [l] at h; omega
            · omega
          · have := hidsr j h; omega
      · intro j hj hji
        have : s4.nodes j = s3.nodes j := by simp [s4, Seg.put, hji]
        rw [this, l4 j (by omega) (by simp only [l]; omega), r4 j (by simp only [s1]; omega) (by simp only [r]; omega)]
        have a1 : j ≠ l := by simp only [l]; omega
        have a2 : j ≠ r := by simp only [r]; omega
        simp [s1, hji, a1, a2]
      · show s3.array = s.array
        rw [l5, r5]

/-! ## update -/

def updLoop (f : QFunc α) (index : Int) (value : α) (n : Nat) (st : Seg α × List (Nat × Bool)) : PyM (Seg α × List (Nat × Bool)) :=
  whileLoop n (fun st : Seg α × List (Nat × Bool) => .ok (!st.2.isEmpty)) (segUpdateBody f index value) st

theorem updLoop_step {index : Int} {value : α} {n : Nat} {s : Seg α} {e : Nat × Bool} {stack : List (Nat × Bool)}
    {st' : Seg α × List (Nat × Bool)} (h : segUpdateBody f index value (s, e :: stack) = .ok st') :
    updLoop f index value (n + 1) (s, e :: stack) = updLoop f index value n st' := by
  rw [updLoop, whileLoop]
  simp only [List.isEmpty_cons, Bool.not_false, ok_bind, if_true, h]
  rfl

theorem slice_set_of_not_mem (a : List α) (k : Nat) (v : α) {p n : Nat} (h : k < p ∨ p + n ≤ k) : slice (a.set k v) p n = slice a p n := by
  unfold slice
  apply List.ext_getElem?
  intro j
  simp only [List.getElem?_take, List.getElem?_drop]
  split
  · rw [List.getElem?_set_ne (by omega)]
  · rfl

theorem upd_spec (hf : IsFold f op) {a ar : List α} (value : α) (index : Int) (k : Nat) (hk : k < a.length) :
    ∀ {s : Seg α} {i lo hi : Nat} {ids : List Nat}, SegOk op s a i lo hi ids → setAt s.array index value = .ok ar →
    (index = k ∨ index < 0 ∧ hi ≤ k) → lo ≤ k → k ≤ hi →
    ∃ s' c, c ≤ 2 * (hi - lo) + 1 ∧
      (∀ n stack, updLoop f index value (n + c) (s, (i, false) :: stack) = updLoop f index value n (s', segMark stack)) ∧
      SegOk op s' (a.set k value) i lo hi ids ∧ (∀ j, j ∉ ids → s'.nodes j = s.nodes j) ∧ s'.array = ar := by
  intro s i lo hi ids h
  induction h with
  | leaf i lo h1 h2 h3 =>
    intro ha hx hlo hhi
    have hlk : lo = k := by omega
    subst hlk
    refine ⟨Seg.put { s with array := ar } i { s.nodes i with data := some value }, 1, by omega, ?_, ?_, ?_, rfl⟩
    · intro n stack
      apply updLoop_step
      simp only [segUpdateBody, h1, h2, if_true, ha, ok_bind]
    · refine .leaf i lo ?_ ?_ ?_
      · simp [Seg.put, h1]
      · simp [Seg.put, h2]
      · rw [slice_one _ (by simpa using hk)]
        simp [Seg.put, foldOf]
    · intro j hj
      have : j ≠ i := by simpa using hj
      simp [Seg.put, this]
  | node i lo hi l r il ir hlt h1 h2 hl hr L R hnd h3 ihL ihR =>
    intro ha hx hlo hhi
    have hne : lo ≠ hi := by omega
    have hi_not : i ∉ il ++ ir := (List.nodup_cons.1 hnd).1
    have hdisj : ∀ x ∈ il, ∀ y ∈ ir, x ≠ y := (List.nodup_append.1 (List.nodup_cons.1 hnd).2).2.2
    -- the common last step
    have last : ∀ (s2 : Seg α), s2.nodes i = s.nodes i → SegOk op s2 (a.set k value) l lo ((lo + hi) / 2) il →
        SegOk op s2 (a.set k value) r ((lo + hi) / 2 + 1) hi ir → s2.array = ar →
        ∃ s3, (∀ stack, segUpdateBody f index value (s2, (i, true) :: stack) = .ok (s3, segMark stack)) ∧
          SegOk op s3 (a.set k value) i lo hi (i :: (il ++ ir)) ∧ (∀ j, j ≠ i → s3.nodes j = s2.nodes j) ∧ s3.array = ar := by
      intro s2 e2 L2 R2 ha2
      refine ⟨s2.put i { s.nodes i with data := foldOf op (slice (a.set k value) lo (hi + 1 - lo)) }, ?_, ?_, ?_, ha2⟩
      · intro stack
        simp only [segUpdateBody, e2, h1, h2, if_neg hne, if_true, hl, hr, Seg.dataOf, ok_bind, L2.data, R2.data]
        rw [halves hf _ hlt]
      · refine .node i lo hi l r il ir hlt (by simp [Seg.put, h1]) (by simp [Seg.put, h2]) (by simp [Seg.put, hl]) (by simp [Seg.put, hr])
          (L2.frame ?_ (fun _ _ _ _ => rfl)) (R2.frame ?_ (fun _ _ _ _ => rfl)) hnd (by simp [Seg.put])
        · intro j hj
          have : j ≠ i := by rintro rfl; exact hi_not (by simp [hj])
          simp [Seg.put, this]
        · intro j hj
          have : j ≠ i := by rintro rfl; exact hi_not (by simp [hj])
          simp [Seg.put, this]
      · intro j hj
        simp [Seg.put, hj]
    by_cases hmid : k ≤ (lo + hi) / 2
    · obtain ⟨s2, c, hc, e, L2, fr, ha2⟩ := ihL ha (.inl (by omega)) hlo hmid
      have hi2 : s2.nodes i = s.nodes i := fr i (fun h => hi_not (by simp [h]))
      have R2 : SegOk op s2 (a.set k value) r ((lo + hi) / 2 + 1) hi ir :=
        R.frame (fun j hj => fr j (fun h => hdisj j h j hj rfl)) (fun p n hp hn => slice_set_of_not_mem _ _ _ (by omega))
      obtain ⟨s3, e3, S3, fr3, ha3⟩ := last s2 hi2 L2 R2 ha2
      refine ⟨s3, c + 2, by omega, ?_, S3, ?_, ha3⟩
      · intro n stack
        have e0 : segUpdateBody f index value (s, (i, false) :: stack) = .ok (s, (l, false) :: (i, false) :: stack) := by
          simp only [segUpdateBody, h1, h2, if_neg hne, Bool.false_eq_true, if_false]
          rw [if_pos (by omega), hl]
        rw [show n + (c + 2) = n + 1 + c + 1 by omega, updLoop_step e0, e]
        show updLoop f index value (n + 1) (s2, (i, true) :: stack) = _
        rw [updLoop_step (e3 stack)]
      · intro j hj
        simp only [List.mem_cons, List.mem_append, not_or] at hj
        rw [fr3 j hj.1, fr j hj.2.1]
    · obtain ⟨s2, c, hc, e, R2, fr, ha2⟩ := ihR ha hx (by omega) hhi
      have hi2 : s2.nodes i = s.nodes i := fr i (fun h => hi_not (by simp [h]))
      have L2 : SegOk op s2 (a.set k value) l lo ((lo + hi) / 2) il :=
        L.frame (fun j hj => fr j (fun h => hdisj j hj j h rfl)) (fun p n hp hn => slice_set_of_not_mem _ _ _ (by omega))
      obtain ⟨s3, e3, S3, fr3, ha3⟩ := last s2 hi2 L2 R2 ha2
      refine ⟨s3, c + 2, by omega, ?_, S3, ?_, ha3⟩
      · intro n stack
        have e0 : segUpdateBody f index value (s, (i, false) :: stack) = .ok (s, (r, false) :: (i, false) :: stack) := by
          simp only [segUpdateBody, h1, h2, if_neg hne, Bool.false_eq_true, if_false]
          rw [if_neg (by omega), hr]
        rw [show n + (c + 2) = n + 1 + c + 1 by omega, updLoop_step e0, e]
        show updLoop f index value (n + 1) (s2, (i, true) :: stack) = _
        rw [updLoop_step (e3 stack)]
      · intro j hj
        simp only [List.mem_cons, List.mem_append, not_or] at hj
        rw [fr3 j hj.1, fr j hj.2.2]

theorem upd_raises {a : List α} (value : α) (index : Int) :
    ∀ {s : Seg α} {i lo hi : Nat} {ids : List Nat}, SegOk op s a i lo hi ids → setAt s.array index value = .error .indexError →
    (index < 0 ∨ hi < index) →
    ∃ c, c ≤ 2 * (hi - lo) + 1 ∧
      (∀ n stack, updLoop f index value (n + c) (s, (i, false) :: stack) = .error .indexError) := by
  intro s i lo hi ids h
  induction h with
  | leaf i lo h1 h2 h3 =>
    intro ha hhi
    refine ⟨1, by omega, ?_⟩
    intro n stack
    rw [updLoop, whileLoop]
    simp only [List.isEmpty_cons, Bool.not_false, ok_bind, if_true, segUpdateBody, h1, h2, ha, error_bind]
  | node i lo hi l r il ir hlt h1 h2 hl hr L R hnd h3 ihL ihR =>
    intro ha hhi
    obtain ⟨c, hc, e⟩ := ihR ha hhi
    refine ⟨c + 1, by omega, ?_⟩
    intro n stack
    have hne : lo ≠ hi := by omega
    have e0 : segUpdateBody f index value (s, (i, false) :: stack) = .ok (s, (r, false) :: (i, false) :: stack) := by
      simp only [segUpdateBody, h1, h2, if_neg hne, Bool.false_eq_true, if_false]
      rw [if_neg (by omega), hr]
    rw [show n + (c + 1) = n + c + 1 by omega, updLoop_step e0, e]

/-! ## query -/

theorem query_spec (hf : IsFold f op) {a : List α} (l r : Nat) : ∀ (fuel : Nat) {s : Seg α} {i lo hi : Nat} {ids : List Nat},
    SegOk op s a i lo hi ids → hi - lo < fuel →
    segQueryAux f s fuel (some i) lo hi l r = .ok (foldOf op (slice a (max lo l) (min hi r + 1 - max lo l))) := by
  intro fuel
  induction fuel with
  | zero => intro s i lo hi ids _ h; omega
  | succ fuel ih =>
    intro s i lo hi ids h hfu
    rw [segQueryAux]
    by_cases hout : r < lo ∨ hi < l
    · rw [if_pos hout, show min hi r + 1 - max lo l = 0 by omega]
      simp [slice, foldOf]
    · rw [if_neg hout]
      by_cases hin : l ≤ lo ∧ hi ≤ r
      · rw [if_pos hin]
        show Except.ok _ = _
        rw [h.data, show max lo l = lo by omega, show min hi r = hi by omega]
      · rw [if_neg hin]
        cases h with
        | leaf => omega
        | node _ _ _ l' r' il ir hlt h1 h2 hl hr L R hnd h3 =>
          dsimp only
          rw [hl, hr, ih L (by omega), ok_bind, ih R (by omega), ok_bind, foldOf_append hf]
          congr 2
          by_cases c1 : r ≤ (lo + hi) / 2
          · rw [show min hi r + 1 - max ((lo + hi) / 2 + 1) l = 0 by omega, show min ((lo + hi) / 2) r = min hi r by omega]
            simp [slice]
          · by_cases c2 : (lo + hi) / 2 + 1 ≤ l
            · rw [show min ((lo + hi) / 2) r + 1 - max lo l = 0 by omega, show max ((lo + hi) / 2 + 1) l = max lo l by omega]
              simp [slice]
            · have := slice_add a (max lo l) ((lo + hi) / 2 + 1 - max lo l) (min hi r + 1 - ((lo + hi) / 2 + 1))
              rw [show max lo l + ((lo + hi) / 2 + 1 - max lo l) = (lo + hi) / 2 + 1 by omega,
                show (lo + hi) / 2 + 1 - max lo l + (min hi r + 1 - ((lo + hi) / 2 + 1)) = min hi r + 1 - max lo l by omega] at this
              rw [this, show min ((lo + hi) / 2) r = (lo + hi) / 2 by omega, show max ((lo + hi) / 2 + 1) l = (lo + hi) / 2 + 1 by omega]

/-! ## C46 -/

/-- Calls on a built segment tree. -/
inductive SegOp (α : Type) where
  | update (index : Nat) (value : α)
  | query (start end_ : Nat)

/-- The answer of a query, as the caller sees it. -/
def answer : Option α → Out α
  | some x => .elem x
  | none => .nothing

/-- The machine: calls on the modelled object. -/
def segStep (f : QFunc α) (fuel : Nat) (s : Seg α) : SegOp α → Seg α × Out α
  | .update i v => match segUpdate f fuel s i v with
    | .ok s' => (s', .done)
    | .error e => (s, .raised e)
  | .query l r => match segQuery f fuel s l r with
    | .ok x => (s, answer x)
    | .error e => (s, .raised e)

/-- The specification: a plain array, a query folds the slice. -/
def segSpec (op : α → α → α) (a : List α) : SegOp α → List α × Out α
  | .update i v => if i < a.length then (a.set i v, .done) else (a, .raised .indexError)
  | .query l r => (a, answer (foldOf op (slice a l (r + 1 - l))))

/-- The object holds a correct tree for `a`. -/
def Built (op : α → α → α) (n : Nat) (s : Seg α) (a : List α) : Prop :=
  s.array.length = n ∧ a.length = n ∧ 0 < n ∧ ∃ ids, SegOk op s a 0 0 (n - 1) ids

theorem slice_min (a : List α) (l r : Nat) (h : 0 < a.length) :
    slice a (max 0 l) (min (a.length - 1) r + 1 - max 0 l) = slice a l (r + 1 - l) := by
  unfold slice
  rw [show max 0 l = l by omega]
  apply List.ext_getElem?
  intro j
  simp only [List.getElem?_take, List.getElem?_drop]
  by_cases h1 : j < r + 1 - l
  · rw [if_pos h1]
    by_cases h2 : j < min (a.length - 1) r + 1 - l
    · rw [if_pos h2]
    · rw [if_neg h2, List.getElem?_eq_none (by omega)]
  · rw [if_neg h1, if_neg (by omega)]

theorem segBuild_spec (hf : IsFold f op) (a : List α) (ha : a ≠ []) (fuel : Nat) (hfu : 3 * a.length ≤ fuel) :
    ∃ s, segBuild f fuel a = .ok s ∧ Built op a.length s a := by
  have hn : 0 < a.length := List.length_pos_iff.2 ha
  obtain ⟨s, ids, e, S, _, _, _, harr⟩ := build_spec hf a.length ⟨fun _ => ⟨0, a.length - 1, none, none, none⟩, 1, a⟩ 0 0 (a.length - 1)
    (by omega) (by omega) (by show a.length - 1 < a.length; omega) (by show 0 < 1; omega) rfl rfl rfl rfl
  refine ⟨s, ?_, by rw [harr], rfl, hn, ids, S⟩
  have := e (fuel - (3 * (a.length - 1 + 1 - 0) - 2)) []
  rw [show fuel - (3 * (a.length - 1 + 1 - 0) - 2) + (3 * (a.length - 1 + 1 - 0) - 2) = fuel by omega] at this
  obtain ⟨m, hm⟩ : ∃ m, fuel - (3 * (a.length - 1 + 1 - 0) - 2) = m + 1 := ⟨fuel - (3 * (a.length - 1 + 1 - 0) - 2) - 1, by omega⟩
  rw [hm] at this
  unfold buildLoop at this
  rw [segBuild]
  dsimp only
  rw [this]
  rfl

theorem setAt_length {a b : List α} {index : Int} {v : α} (e : setAt a index v = .ok b) : b.length = a.length := by
  unfold setAt at e
  split at e
  · rw [wr] at e; split at e
    · cases e; simp
    · cases e
  · cases e

/-- What an update does for every index: the cell of the tree that it changes. -/
theorem segUpdate_any (hf : IsFold f op) {n : Nat} {s : Seg α} {a : List α} (h : Built op n s a) (index : Int) (v : α) (fuel : Nat) (hfu : 2 * n + 1 ≤ fuel) :
    if -(n : Int) ≤ index ∧ index < n then
      ∃ s', segUpdate f fuel s index v = .ok s' ∧ Built op n s' (a.set (if 0 ≤ index then index.toNat else n - 1) v)
    else segUpdate f fuel s index v = .error .indexError := by
  obtain ⟨h1, h2, h3, ids, S⟩ := h
  split
  · rename_i hk
    obtain ⟨ar, har⟩ : ∃ ar, setAt s.array index v = .ok ar := by
      by_cases hi : 0 ≤ index
      · rw [setAt, listIndex, if_pos hi, if_pos (by omega)]
        exact ⟨_, wr_of_lt _ (by omega)⟩
      · rw [setAt, listIndex, if_neg hi, if_pos (by omega)]
        exact ⟨_, wr_of_lt _ (by omega)⟩
    have hkn : (if 0 ≤ index then index.toNat else n - 1) < n := by split <;> omega
    obtain ⟨s', c, hc, e, S', _, ha'⟩ := upd_spec hf v index (if 0 ≤ index then index.toNat else n - 1) (by rw [h2]; exact hkn) S har
      (by split <;> omega) (Nat.zero_le _) (by omega)
    refine ⟨s', ?_, by rw [ha', setAt_length har, h1], by simp [h2], h3, ids, S'⟩
    obtain ⟨m, hm⟩ : ∃ m, fuel = m + 1 + c := ⟨fuel - 1 - c, by omega⟩
    have := e (m + 1) []
    rw [← hm] at this
    unfold updLoop at this
    rw [segUpdate, this]
    rfl
  · rename_i hk
    have har : setAt s.array index v = .error .indexError := by
      by_cases hi : 0 ≤ index
      · rw [setAt, listIndex, if_pos hi, if_neg (by omega)]
      · rw [setAt, listIndex, if_neg hi, if_neg (by omega)]
    obtain ⟨c, hc, e⟩ := upd_raises (f := f) v index S har (by omega)
    obtain ⟨m, hm⟩ : ∃ m, fuel = m + 1 + c := ⟨fuel - 1 - c, by omega⟩
    have := e (m + 1) []
    rw [← hm] at this
    unfold updLoop at this
    rw [segUpdate, this]
    rfl

theorem segUpdate_spec (hf : IsFold f op) {n : Nat} {s : Seg α} {a : List α} (h : Built op n s a) (k : Nat) (v : α) (fuel : Nat) (hfu : 2 * n + 1 ≤ fuel) :
    if k < a.length then ∃ s', segUpdate f fuel s k v = .ok s' ∧ Built op n s' (a.set k v) else segUpdate f fuel s k v = .error .indexError := by
  have h2 := h.2.1
  have := segUpdate_any hf h k v fuel hfu
  split
  · rename_i hk
    rw [if_pos (by omega), if_pos (by omega)] at this
    exact this
  · rename_i hk
    rw [if_neg (by omega)] at this
    exact this

theorem segQuery_spec (hf : IsFold f op) {n : Nat} {s : Seg α} {a : List α} (h : Built op n s a) (l r : Nat) (fuel : Nat) (hfu : n ≤ fuel) :
    segQuery f fuel s l r = .ok (foldOf op (slice a l (r + 1 - l))) := by
  obtain ⟨h1, h2, h3, ids, S⟩ := h
  rw [segQuery, h1, query_spec hf l r fuel S (by omega), ← h2, slice_min a l r (by omega)]

/-- C46. For every non-empty array, every associative function and every history of updates and queries (in range or not), the built
tree answers as the plain array does: the fold of the current contents of the range; an update past the end raises `IndexError` and
changes nothing. `3 * n` iterations of the loops are enough. -/
theorem C46_segment_tree {f : QFunc α} {op : α → α → α} (hf : IsFold f op) (a : List α) (ha : a ≠ []) (fuel : Nat) (hfu : 3 * a.length ≤ fuel)
    (ops : List (SegOp α)) : ∃ s, segBuild f fuel a = .ok s ∧ trace (segStep f fuel) s ops = trace (segSpec op) a ops := by
  obtain ⟨s, e, hs⟩ := segBuild_spec hf a ha fuel hfu
  refine ⟨s, e, ?_⟩
  refine (trace_eq (Built op a.length) ?_ ops s a hs).1
  intro s b o hb
  have hbn := hb.2.1
  have hn := hb.2.2.1
  cases o with
  | update k v =>
    have := segUpdate_spec hf hb k v fuel (by omega)
    by_cases hk : k < b.length
    · rw [if_pos hk] at this
      obtain ⟨s', e', hs'⟩ := this
      simp only [segStep, segSpec, e', if_pos hk]
      exact ⟨hs', trivial⟩
    · rw [if_neg hk] at this
      simp only [segStep, segSpec, this, if_neg hk]
      exact ⟨hb, trivial⟩
  | query l r =>
    simp only [segStep, segSpec, segQuery_spec hf hb l r fuel (by omega)]
    exact ⟨hb, trivial⟩

example : ∃ s, segBuild qMinimum 30 [1, 2, 3, 4, 5] = .ok s ∧ trace (segStep qMinimum 30) s
    [.query 0 1, .query 1 3, .update 2 (-1), .query 1 3, .update 5 0, .query 3 9] =
    [.elem 1, .elem 2, .done, .elem (-1), .raised .indexError, .elem 4] := ⟨_, rfl, rfl⟩

/-! ## C47 -/

/-- What a range query must answer: an empty range is a `ValueError`, a range that is not inside the array an `IndexError`, otherwise
the fold of the slice. -/
def rangeAnswer (op : α → α → α) (a : List α) (start end_ : Int) : PyM (Option α) :=
  if end_ < start then .error .valueError
  else if start < 0 ∨ (a.length : Int) ≤ end_ then .error .indexError
  else .ok (foldOf op (slice a start.toNat (end_.toNat + 1 - start.toNat)))

theorem checkRange_spec (start end_ : Int) (n : Nat) :
    checkRange start (end_ + 1) n = if end_ < start then .error .valueError else if start < 0 ∨ (n : Int) ≤ end_ then .error .indexError else .ok () := by
  unfold checkRange
  by_cases h1 : end_ < start
  · rw [if_pos (by omega), if_pos h1]
  · rw [if_neg (by omega), if_neg h1]
    by_cases h2 : start < 0 ∨ (n : Int) ≤ end_
    · rw [if_pos (by omega), if_pos h2]
    · rw [if_neg (by omega), if_neg h2]

theorem rangeAnswer_of (op : α → α → α) (a : List α) (start end_ : Int) (g : PyM (Option α))
    (h : ¬ end_ < start → ¬ (start < 0 ∨ (a.length : Int) ≤ end_) → g = .ok (foldOf op (slice a start.toNat (end_.toNat + 1 - start.toNat)))) :
    (checkRange start (end_ + 1) a.length >>= fun _ => g) = rangeAnswer op a start end_ := by
  rw [checkRange_spec, rangeAnswer]
  split
  · rfl
  · rename_i h1
    split
    · rfl
    · rename_i h2
      exact h h1 h2

theorem arrayQuery_spec (hf : IsFold f op) (a : List α) (start end_ : Int) : rqArrayQuery f a start end_ = rangeAnswer op a start end_ := by
  apply rangeAnswer_of
  intro h1 h2
  obtain ⟨s, hs⟩ : ∃ s, s = start.toNat := ⟨_, rfl⟩
  obtain ⟨e, he⟩ : ∃ e, e = end_.toNat := ⟨_, rfl⟩
  rw [← hs, ← he]
  have hse : s ≤ e := by omega
  have hel : e < a.length := by omega
  by_cases h : e + 1 - s = 1
  · rw [if_pos h, rd_of_lt (by omega), ok_bind, hf.one, h, slice_one _ (by omega)]; rfl
  · rw [if_neg h, rd_of_lt (by omega), ok_bind, rd_of_lt (by omega), ok_bind]
    have h2 : slice a s 2 = [a[s], a[s + 1]] := by
      rw [show 2 = 1 + 1 from rfl, slice_add, slice_one _ (by omega), slice_one _ (by omega)]; rfl
    obtain ⟨r, er, hr⟩ := forRange_spec (fun k acc => acc = foldOf op (slice a s (k - s)) ∧ s + 2 ≤ k) (lo := s + 2) (hi := e + 1)
      (s := f.two (some a[s]) (some a[s + 1])) (body := fun i acc => do
        let z ← rd a i
        .ok (f.two acc (some z))) (by omega) ⟨by rw [show s + 2 - s = 2 by omega, h2, hf.both]; rfl, by omega⟩ (by
        rintro k acc hk1 hk2 ⟨rfl, _⟩
        refine ⟨_, by rw [rd_of_lt (by omega), ok_bind], ?_, by omega⟩
        have : some a[k] = foldOf op (slice a k 1) := by rw [slice_one _ (by omega)]; rfl
        rw [this, foldOf_append hf]
        have := slice_add a s (k - s) 1
        rw [show s + (k - s) = k by omega] at this
        rw [← this, show k - s + 1 = k + 1 - s by omega])
    rw [er, hr.1]

/-- C47, static: both data structures give the specified answer on every array and every pair of bounds, valid or not. -/
theorem C47_static {f : QFunc α} {op : α → α → α} (hf : IsFold f op) (a : List α) (ha : a ≠ []) :
    ∃ t, stNew f a = .ok t ∧ ∀ start end_ : Int, rqSparseQuery f t a.length start end_ = rangeAnswer op a start end_ ∧
      rqArrayQuery f a start end_ = rangeAnswer op a start end_ := by
  obtain ⟨t, e, h⟩ := C45_sparse_table hf a ha
  refine ⟨t, e, fun start end_ => ⟨?_, arrayQuery_spec hf a start end_⟩⟩
  apply rangeAnswer_of
  intro h1 h2
  exact h _ _ (by omega) (by omega)

/-- Calls on a dynamic range query object. -/
inductive RqOp (α : Type) where
  | update (index : Int) (value : α)
  | query (start end_ : Int)

def rqOut (s : σ) : PyM (Option α) → σ × Out α
  | .ok x => (s, answer x)
  | .error e => (s, .raised e)

/-- `RangeQueryDynamicArray`. -/
def rqArrayStep (f : QFunc α) (a : List α) : RqOp α → List α × Out α
  | .update i v => match rqArrayUpdate a i v with
    | .ok a' => (a', .done)
    | .error e => (a, .raised e)
  | .query l r => rqOut a (rqArrayQuery f a l r)

/-- `RangeQueryDynamicSegmentTree` on an array of `n` elements. -/
def rqSegStep (f : QFunc α) (fuel n : Nat) (s : Seg α) : RqOp α → Seg α × Out α
  | .update i v => match segUpdate f fuel s i v with
    | .ok s' => (s', .done)
    | .error e => (s, .raised e)
  | .query l r => rqOut s (rqSegQuery f fuel s n l r)

/-- The specification. -/
def rqSpec (op : α → α → α) (a : List α) : RqOp α → List α × Out α
  | .update i v => match setAt a i v with
    | .ok a' => (a', .done)
    | .error e => (a, .raised e)
  | .query l r => rqOut a (rangeAnswer op a l r)

/-- The array strategy meets the specification on all histories. -/
theorem C47_dynamic_array {f : QFunc α} {op : α → α → α} (hf : IsFold f op) (a : List α) (ops : List (RqOp α)) :
    trace (rqArrayStep f) a ops = trace (rqSpec op) a ops := by
  refine (trace_eq Eq ?_ ops a a rfl).1
  rintro s _ o rfl
  cases o with
  | update i v => simp only [rqArrayStep, rqSpec, rqArrayUpdate]; exact ⟨trivial, trivial⟩
  | query l r => simp only [rqArrayStep, rqSpec, arrayQuery_spec hf]; exact ⟨trivial, trivial⟩

/-- C47 in full for the dynamic strategies: the segment tree gives the specified answers on every history. -/
def C47_full : Prop :=
  ∀ (a : List Int), a ≠ [] → ∀ (fuel : Nat), 3 * a.length ≤ fuel → ∀ ops : List (RqOp Int),
    ∃ s, segBuild qSum fuel a = .ok s ∧ trace (rqSegStep qSum fuel a.length) s ops = trace (rqSpec (fun x y => x + y)) a ops

/-- A call whose index is not negative. -/
def RqOp.NonNeg : RqOp α → Prop
  | .update i _ => 0 ≤ i
  | .query _ _ => True

/-- C47 for histories whose updates use non-negative indices (queries are unrestricted). -/
theorem C47_dynamic_partial {f : QFunc α} {op : α → α → α} (hf : IsFold f op) (a : List α) (ha : a ≠ []) (fuel : Nat) (hfu : 3 * a.length ≤ fuel)
    (ops : List (RqOp α)) (hops : ∀ o ∈ ops, o.NonNeg) :
    ∃ s, segBuild f fuel a = .ok s ∧ trace (rqSegStep f fuel a.length) s ops = trace (rqSpec op) a ops := by
  obtain ⟨s, e, hs⟩ := segBuild_spec hf a ha fuel hfu
  refine ⟨s, e, ?_⟩
  clear e
  obtain ⟨n, hn⟩ : ∃ n, n = a.length := ⟨_, rfl⟩
  rw [← hn] at hs hfu ⊢
  clear ha hn
  induction ops generalizing s a with
  | nil => rfl
  | cons o ops ih =>
    have hbn := hs.2.1
    have hn := hs.2.2.1
    have ho := hops o (by simp)
    have hops' : ∀ o ∈ ops, o.NonNeg := fun x hx => hops x (by simp [hx])
    cases o with
    | update i v =>
      have hi : 0 ≤ i := ho
      have hk : ((i.toNat : Nat) : Int) = i := by omega
      have := segUpdate_spec hf hs i.toNat v fuel (by omega)
      rw [hk] at this
      by_cases hlt : i.toNat < a.length
      · rw [if_pos hlt] at this
        obtain ⟨s', e', hs'⟩ := this
        have hset : setAt a i v = .ok (a.set i.toNat v) := by
          rw [setAt, listIndex, if_pos hi, if_pos (by omega)]
          exact wr_of_lt _ hlt
        simp only [trace, rqSegStep, rqSpec, e', hset]
        rw [ih _ hops' _ hs']
      · rw [if_neg hlt] at this
        have hset : setAt a i v = .error .indexError := by
          rw [setAt, listIndex, if_pos hi, if_neg (by omega)]
        simp only [trace, rqSegStep, rqSpec, this, hset]
        rw [ih _ hops' _ hs]
    | query l r =>
      have : rqSegQuery f fuel s n l r = rangeAnswer op a l r := by
        rw [rqSegQuery, ← hbn]
        apply rangeAnswer_of
        intro _ _
        exact segQuery_spec hf hs _ _ fuel (by omega)
      simp only [trace, rqSegStep, rqSpec, this]
      cases hr : rangeAnswer op a l r <;> simp only [rqOut] <;> rw [ih _ hops' _ hs]

/-- What the segment tree strategy does, for every history: an update with a negative index that the array accepts changes the last cell, as
far as queries can tell. -/
def rqTreeSpec (op : α → α → α) (a : List α) : RqOp α → List α × Out α
  | .update i v =>
    if -(a.length : Int) ≤ i ∧ i < a.length then (a.set (if 0 ≤ i then i.toNat else a.length - 1) v, .done) else (a, .raised .indexError)
  | .query l r => rqOut a (rangeAnswer op a l r)

/-- C47, exactly: the answers of the segment tree strategy on every history. -/
theorem C47_dynamic_exact {f : QFunc α} {op : α → α → α} (hf : IsFold f op) (a : List α) (ha : a ≠ []) (fuel : Nat) (hfu : 3 * a.length ≤ fuel)
    (ops : List (RqOp α)) :
    ∃ s, segBuild f fuel a = .ok s ∧ trace (rqSegStep f fuel a.length) s ops = trace (rqTreeSpec op) a ops := by
  obtain ⟨s, e, hs⟩ := segBuild_spec hf a ha fuel hfu
  refine ⟨s, e, (trace_eq (Built op a.length) ?_ ops s a hs).1⟩
  intro s b o hb
  have hbn := hb.2.1
  have hn := hb.2.2.1
  cases o with
  | update i v =>
    have := segUpdate_any hf hb i v fuel (by omega)
    rw [← hbn] at this
    by_cases hk : -(b.length : Int) ≤ i ∧ i < b.length
    · rw [if_pos hk] at this
      obtain ⟨s', e', hs'⟩ := this
      simp only [rqSegStep, rqTreeSpec, e', if_pos hk]
      exact ⟨hbn ▸ hs', trivial⟩
    · rw [if_neg hk] at this
      simp only [rqSegStep, rqTreeSpec, this, if_neg hk]
      exact ⟨hb, trivial⟩
  | query l r =>
    have : rqSegQuery f fuel s a.length l r = rangeAnswer op b l r := by
      rw [rqSegQuery, ← hbn]
      apply rangeAnswer_of
      intro _ _
      exact segQuery_spec hf hb _ _ fuel (by omega)
    simp only [rqSegStep, rqTreeSpec, this]
    cases hr : rangeAnswer op b l r <;> simp only [rqOut] <;> exact ⟨hb, trivial⟩

/-- A negative index, which the underlying array accepts, is written to the wrong leaf by the segment tree. -/
theorem C47_negative_update : ∃ s, segBuild qSum 9 [1, 2, 3] = .ok s ∧
    trace (rqSegStep qSum 9 3) s [.update (-3) 9, .query 0 0, .query 2 2] = [.done, .elem 1, .elem 9] ∧
    trace (rqArrayStep qSum) [1, 2, 3] [.update (-3) 9, .query 0 0, .query 2 2] = [.done, .elem 9, .elem 3] := ⟨_, rfl, rfl, rfl⟩

theorem C47_full_false : ¬ C47_full := by
  intro h
  obtain ⟨s, e, ht⟩ := h [1, 2, 3] (by simp) 9 (by decide) [.update (-3) 9, .query 0 0, .query 2 2]
  obtain ⟨s', e', h1, h2⟩ := C47_negative_update
  rw [e] at e'
  cases e'
  have h3 := C47_dynamic_array summation_isFold [1, 2, 3] [.update (-3) 9, .query 0 0, .query 2 2]
  rw [h2] at h3
  rw [← h3] at ht
  exact absurd (h1.symm.trans ht) (by decide)

example : ∃ s, segBuild qGcd 12 [12, 18, 8, 5] = .ok s ∧ trace (rqSegStep qGcd 12 4) s
    [.query 0 1, .query 1 2, .query 2 1, .query 0 4, .update 3 16, .query 2 3] =
    [.elem 6, .elem 2, .raised .valueError, .raised .indexError, .done, .elem 8] := ⟨_, rfl, rfl⟩

end Props
