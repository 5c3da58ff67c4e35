import Verif.Props.ArrayQueue

/-!
# C32: the array queue as a double-ended queue, the part that holds
-/
namespace Props
open Py Model Spec
variable {α : Type}

/-- A restriction on histories of a double-ended queue. `a` counts the elements added since the queue was last empty, `n` the elements
that are there, `p` the successful `popleft`s since then. An element other than the last one may be taken out only if at least half of the elements
added since the queue was last empty remain, and `appendleft` may be called only while none has been taken out on the left. -/
def halfKept : Nat → Nat → Nat → List (QueueOp α) → Bool
  | _, _, _, [] => true
  | a, n, p, .append _ :: ops => halfKept (a + 1) (n + 1) p ops
  | a, n, p, .appendleft _ :: ops => p == 0 && halfKept (a + 1) (n + 1) 0 ops
  | a, n, p, .popleft :: ops =>
    if n == 0 then halfKept a n p ops
    else if n == 1 then halfKept 0 0 0 ops else decide (a ≤ 2 * (n - 1)) && halfKept a (n - 1) (p + 1) ops
  | a, n, p, .pop :: ops =>
    if n == 0 then halfKept a n p ops
    else if n == 1 then halfKept 0 0 0 ops else decide (a ≤ 2 * (n - 1)) && halfKept a (n - 1) p ops
  | a, n, p, .len :: ops => halfKept a n p ops

/-- The queue holds `l` from cell `f` on, `a` elements were added since it was empty. -/
structure DqInv (q : AQueue α) (a f : Nat) (l : List α) : Prop where
  data : ∃ k, q.items.data = List.replicate f none ++ l.map some ++ List.replicate k none
  num : q.items.num = l.length
  cnt : q.items.cnt = f + l.length
  front : l ≠ [] → q.front = f
  rear : q.rear + 1 = f + l.length
  empty : l = [] → f = 0 ∧ a = 0
  size : q.items.size ≤ 2 * a - 1 + (if l = [] then 1 else 0)
  half : a ≤ 2 * l.length
  added : f + l.length ≤ a

theorem DqInv.inv {q : AQueue α} {a f : Nat} {l : List α} (h : DqInv q a f l) : q.items.Inv ∧ q.items.live = l := by
  obtain ⟨k, hd⟩ := h.data
  have hc := h.cnt
  have hl : q.items.live = l := by
    rw [Doda.live, hd, List.filterMap_append, List.filterMap_append, filterMap_replicate_none, filterMap_replicate_none,
      List.append_nil, List.filterMap_map]
    simp
  refine ⟨⟨by simp [Doda.size, hd, hc], by rw [hl, h.num], ?_⟩, hl⟩
  intro i h1 h2
  simp only [Doda.size, hd, List.length_append, List.length_map, List.length_replicate] at h2
  rw [hd, List.getElem?_append_right (by simp; omega), List.getElem?_replicate, if_pos (by simp; omega)]

theorem dqAppend {q : AQueue α} {a f : Nat} {l : List α} (h : DqInv q a f l) (x : α) :
    ∃ q', queueAppend q x = .ok q' ∧ DqInv q' (a + 1) f (l ++ [x]) := by
  obtain ⟨hinv, hlive⟩ := h.inv
  obtain ⟨k, hd⟩ := h.data
  obtain ⟨data, e, k', hk', hkv⟩ := Doda.append_raw' quarter hinv x
  have hnum := h.num
  have hcnt := h.cnt
  have hsz : q.items.size = f + l.length + k := by simp [Doda.size, hd]; omega
  have htake : q.items.data.take q.items.cnt = List.replicate f none ++ l.map some := by
    rw [hd, List.take_left']; simp [hcnt]
  have hdata : data = List.replicate f none ++ (l ++ [x]).map some ++ List.replicate k' none := by
    rw [hk', htake]; simp
  have hlen : data.length = f + l.length + 1 + k' := by rw [hdata]; simp; omega
  have hs := h.size
  have hh := h.half
  have hadd := h.added
  have hle : data.length ≤ 2 * a + 1 := by
    split at hs
    case isTrue hl =>
      have := h.empty hl
      rw [hl] at hsz hlen hcnt
      simp only [List.length_nil] at *
      split at hkv <;> omega
    case isFalse hl =>
      have : 0 < l.length := List.length_pos_iff.2 hl
      split at hkv <;> omega
  have hq : quarter (q.items.num + 1) data.length = false := by
    simp only [quarter, decide_eq_false_iff_not]; omega
  have e2 : queueAppend q x = .ok ⟨⟨data, q.items.num + 1, q.items.cnt + 1⟩, if q.items.num = 0 then 0 else q.front, q.rear + 1⟩ := by
    rw [queueAppend, e, Doda.modify_high quarter (by simp only [Doda.size]; omega) hq]
    rfl
  refine ⟨_, e2, ⟨k', hdata⟩, by simp [hnum], by simp [hcnt]; omega, ?_, ?_, by simp, ?_, by simp; omega, by simp; omega⟩
  · intro _
    dsimp only
    by_cases hl : l = []
    · rw [if_pos (by rw [hnum, hl]; rfl), (h.empty hl).1]; rfl
    · rw [if_neg (by rw [hnum]; simpa using hl)]; exact h.front hl
  · have hr := h.rear
    simp only [List.length_append, List.length_singleton]
    push_cast at hr ⊢
    omega
  · have hne : l ++ [x] ≠ [] := by simp
    rw [if_neg hne]
    simp only [Doda.size]; omega

theorem compact_none (n : Nat) (new : List (Option α)) : ∀ j, dodaCompact (List.replicate n none) j new = .ok (new, j) := by
  induction n with
  | zero => intro j; rfl
  | succ n ih => intro j; rw [List.replicate_succ, dodaCompact, ih]

/-- Deleting a cell of the array of a queue that holds more than one element. -/
theorem dqDelete {q : AQueue α} {a f : Nat} {l₁ l₂ : List α} {x : α} (h : DqInv q a f (l₁ ++ x :: l₂)) (hl : l₁ ++ l₂ ≠ [])
    (ha : a ≤ 2 * (l₁ ++ l₂).length) :
    q.items.get ((f + l₁.length : Nat) : Int) = .ok (some x) ∧ quarter (q.items.num - 1) q.items.size = false ∧
    q.items.delete quarter ((f + l₁.length : Nat) : Int) =
      .ok ⟨q.items.data.set (f + l₁.length) none, q.items.num - 1, if l₂ = [] then q.items.cnt - 1 else q.items.cnt⟩ := by
  obtain ⟨k, hd⟩ := h.data
  have hnum := h.num
  have hcnt := h.cnt
  have hs := h.size
  rw [if_neg (by simp)] at hs
  simp only [List.length_append, List.length_cons] at hnum hcnt ha
  have hlen : 0 < l₁.length + l₂.length := by
    have := List.length_pos_iff.2 hl
    simpa using this
  have hx : q.items.data[f + l₁.length]? = some (some x) := by
    rw [hd, List.append_assoc, List.getElem?_append_right (by simp), List.getElem?_append_left (by simp)]
    simp
  have hsz : f + l₁.length < q.items.size := (List.getElem?_eq_some_iff.1 hx).1
  have hg : q.items.get ((f + l₁.length : Nat) : Int) = .ok (some x) := by
    rw [Doda.get, if_neg (by omega)]; exact rd_of_some (by rw [Int.toNat_natCast]; exact hx)
  have hq : quarter (q.items.num - 1) q.items.size = false := by
    simp only [quarter, decide_eq_false_iff_not]; omega
  refine ⟨hg, hq, ?_⟩
  rw [Doda.delete, if_pos (by omega), hg, ok_bind]
  dsimp only
  rw [Int.toNat_natCast, Doda.set, wr_of_lt _ hsz, ok_bind, ok_bind]
  dsimp only
  have hm : ∀ c : Nat, Doda.modify quarter ⟨q.items.data.set (f + l₁.length) none, q.items.num - 1, c⟩ =
      .ok ⟨q.items.data.set (f + l₁.length) none, q.items.num - 1, c⟩ := by
    intro c
    apply Doda.modify_high
    · simp only [Doda.size, List.length_set]; simp only [Doda.size] at hsz; omega
    · simp only [Doda.size, List.length_set]; exact hq
  by_cases h2 : l₂ = []
  · rw [h2] at hcnt
    simp only [List.length_nil] at hcnt
    rw [if_pos (by omega), if_pos h2]; exact hm _
  · have : 0 < l₂.length := List.length_pos_iff.2 h2
    rw [if_neg (by omega), if_neg h2]; exact hm _

/-- Deleting the only element. -/
theorem dqDelete_last {q : AQueue α} {a f : Nat} {x : α} (h : DqInv q a f [x]) :
    q.items.get (f : Int) = .ok (some x) ∧ q.items.delete quarter (f : Int) = .ok ⟨[none], 0, 0⟩ := by
  obtain ⟨k, hd⟩ := h.data
  have hnum := h.num
  have hcnt := h.cnt
  simp only [List.length_cons, List.length_nil] at hnum hcnt
  have hx : q.items.data[f]? = some (some x) := by rw [hd]; simp
  have hsz : f < q.items.size := (List.getElem?_eq_some_iff.1 hx).1
  have hg : q.items.get (f : Int) = .ok (some x) := by
    rw [Doda.get, if_neg (by omega)]; exact rd_of_some (by rw [Int.toNat_natCast]; exact hx)
  refine ⟨hg, ?_⟩
  rw [Doda.delete, if_pos (by omega), hg, ok_bind]
  dsimp only
  rw [Int.toNat_natCast, Doda.set, wr_of_lt _ hsz, ok_bind, ok_bind]
  dsimp only
  rw [if_pos (by omega), Doda.modify, if_neg (by simp only [Doda.size, List.length_set]; simp only [Doda.size] at hsz; omega)]
  rw [if_pos (by simp only [Doda.size, List.length_set, quarter]; simp only [Doda.size] at hsz; simp; omega)]
  dsimp only
  have : (q.items.data.set f none).take (q.items.cnt - 1) = List.replicate f none := by
    rw [hd, hcnt]; simp
  rw [this, compact_none, hnum]
  rfl

theorem dqInv_empty (q : AQueue α) (hi : q.items = ⟨[none], 0, 0⟩ ∨ q.items = ⟨[], 0, 0⟩) (hr : q.rear = -1) : DqInv q 0 0 [] := by
  refine ⟨?_, ?_, ?_, by simp, by rw [hr]; rfl, fun _ => ⟨rfl, rfl⟩, ?_, by simp, by simp⟩
  · rcases hi with hi | hi <;> rw [hi]
    · exact ⟨1, rfl⟩
    · exact ⟨0, rfl⟩
  all_goals rcases hi with hi | hi <;> rw [hi] <;> simp [Doda.size]

theorem dqPopleft {q : AQueue α} {a f : Nat} {x : α} {l : List α} (h : DqInv q a f (x :: l)) (ha : l ≠ [] → a ≤ 2 * l.length) :
    ∃ q', queuePopleft q = .ok (some x, q') ∧ DqInv q' (if l = [] then 0 else a) (if l = [] then 0 else f + 1) l := by
  have hfront := h.front (by simp)
  have hrear := h.rear
  have hnum := h.num
  have hcnt := h.cnt
  simp only [List.length_cons] at hnum hcnt hrear
  rw [queuePopleft, if_neg (by omega), hfront]
  by_cases hl : l = []
  · subst hl
    obtain ⟨hg, hdel⟩ := dqDelete_last h
    rw [hg, ok_bind, if_pos (by simp only [List.length_nil] at hrear; omega)]
    dsimp only
    rw [hdel, ok_bind]
    exact ⟨_, rfl, dqInv_empty _ (.inl rfl) rfl⟩
  · have hp : 0 < l.length := List.length_pos_iff.2 hl
    obtain ⟨hg, hq, hdel⟩ := dqDelete (l₁ := []) (l₂ := l) h hl (ha hl)
    simp only [List.length_nil, Nat.add_zero] at hg hdel
    rw [hg, ok_bind, if_neg (by omega), hq, if_neg (by simp)]
    dsimp only
    rw [hdel, ok_bind, if_neg hl, if_neg hl, if_neg hl]
    obtain ⟨k, hd⟩ := h.data
    have hs := h.size
    have hadd := h.added
    rw [if_neg (by simp)] at hs
    refine ⟨_, rfl, ⟨⟨k, ?_⟩, by dsimp only; omega, ?_, fun _ => by push_cast; rfl, ?_, fun e => absurd e hl, ?_, ha hl, ?_⟩⟩
    · dsimp only
      rw [hd, List.append_assoc, List.map_cons, List.cons_append, List.set_append_right _ _ (by simp)]
      simp [List.replicate_succ']
    · dsimp only; omega
    · dsimp only; push_cast; omega
    · rw [if_neg hl]; simp only [Doda.size, List.length_set]; exact hs
    · simp only [List.length_cons] at hadd; omega

theorem dqPop {q : AQueue α} {a f : Nat} {x : α} {l : List α} (h : DqInv q a f (l ++ [x])) (ha : l ≠ [] → a ≤ 2 * l.length) :
    ∃ q', queuePop q = .ok (some x, q') ∧ DqInv q' (if l = [] then 0 else a) (if l = [] then 0 else f) l := by
  have hfront := h.front (by simp)
  have hrear := h.rear
  have hnum := h.num
  have hcnt := h.cnt
  simp only [List.length_append, List.length_singleton] at hnum hcnt hrear
  have hr : q.rear = ((f + l.length : Nat) : Int) := by omega
  rw [queuePop, if_neg (by omega), hr]
  by_cases hl : l = []
  · subst hl
    obtain ⟨hg, hdel⟩ := dqDelete_last h
    simp only [List.length_nil, Nat.add_zero]
    rw [hg, ok_bind, if_pos hfront]
    dsimp only
    rw [hdel, ok_bind]
    exact ⟨_, rfl, dqInv_empty _ (.inl rfl) rfl⟩
  · have hp : 0 < l.length := List.length_pos_iff.2 hl
    obtain ⟨hg, hq, hdel⟩ := dqDelete (l₁ := l) (l₂ := []) h (by simpa using hl) (by simpa using ha hl)
    rw [hg, ok_bind, if_neg (by omega), hq, if_neg (by simp)]
    dsimp only
    rw [hdel, ok_bind, if_neg hl, if_neg hl]
    obtain ⟨k, hd⟩ := h.data
    have hs := h.size
    have hadd := h.added
    rw [if_neg (by simp)] at hs
    refine ⟨_, rfl, ⟨⟨k + 1, ?_⟩, by dsimp only; omega, ?_, fun _ => hfront, ?_, fun e => absurd e hl, ?_, ha hl, ?_⟩⟩
    · dsimp only
      rw [hd, List.map_append, List.append_assoc, List.append_assoc, List.append_assoc, List.set_append_right _ _ (by simp),
        List.set_append_right _ _ (by simp)]
      simp [List.replicate_succ]
    · dsimp only; rw [if_pos rfl]; omega
    · dsimp only; push_cast; omega
    · rw [if_neg hl]; simp only [Doda.size, List.length_set]; exact hs
    · simp only [List.length_append, List.length_singleton] at hadd; omega

theorem queueCopy_all (l : List α) (k : Nat) : ∀ (n i : Nat), i + n = l.length →
    queueCopy (l.map some ++ List.replicate k none) n (i : Int) = .ok ((l.drop i).map some) := by
  intro n
  induction n with
  | zero => intro i h; rw [queueCopy, List.drop_of_length_le (by omega)]; rfl
  | succ n ih =>
    intro i h
    have hi : i < l.length := by omega
    have hx : listIndex (l.map some ++ List.replicate k (none : Option α)).length (i : Int) = some i := by
      rw [listIndex]; simp; omega
    rw [queueCopy, hx]
    dsimp only
    rw [rd_of_some (x := some l[i]) (by rw [List.getElem?_append_left (by simpa using hi)]; simp [hi]), ok_bind]
    have := ih (i + 1) (by omega)
    push_cast at this
    rw [this, ok_bind, List.drop_eq_getElem_cons hi]
    rfl

theorem dodaOfOptions_some (l : List α) : dodaOfOptions (l.map some) = .ok l := by
  induction l with
  | nil => rfl
  | cons x l ih => rw [List.map_cons, dodaOfOptions, ih]; rfl

theorem dqAppendleft {q : AQueue α} {a : Nat} {l : List α} (h : DqInv q a 0 l) (x : α) :
    ∃ q', queueAppendleft q x = .ok q' ∧ DqInv q' (a + 1) 0 (x :: l) := by
  have hrear := h.rear
  have hnum := h.num
  have hh := h.half
  have hadd := h.added
  obtain ⟨k, hd⟩ := h.data
  have hf : (if q.items.num = 0 then ((0 : Int), (-1 : Int)) else (q.front, q.rear)) = (0, (l.length : Int) - 1) := by
    by_cases hl : l = []
    · rw [if_pos (by rw [hnum, hl]; rfl), hl]; rfl
    · rw [if_neg (by rw [hnum]; simpa using hl), h.front hl, show q.rear = (l.length : Int) - 1 by omega]; rfl
  have hc : queueCopy q.items.data l.length 0 = .ok (l.map some) := by
    have := queueCopy_all l k l.length 0 (by omega)
    rw [hd]; simpa using this
  have he : queueAppendleft q x = .ok ⟨Doda.ofList (x :: l), 0, l.length⟩ := by
    rw [queueAppendleft, hf]
    dsimp only
    rw [show ((l.length : Int) - 1 + 1 - 0).toNat = l.length by omega, hc, ok_bind,
      show some x :: l.map some = (x :: l).map some from rfl, dodaOfOptions_some, ok_bind]
    simp
  refine ⟨_, he, ⟨0, by simp [Doda.ofList]⟩, rfl, by simp [Doda.ofList], fun _ => rfl, ?_, by simp, ?_, ?_, ?_⟩
  · simp
  · rw [if_neg (by simp)]
    simp only [Doda.size, Doda.ofList, List.length_map, List.length_cons]; omega
  · simp only [List.length_cons]; omega
  · simp only [List.length_cons]; omega

/-- C32, the part that holds: from a new queue (empty or with items) every answer is that of a list used from both ends, through every history in
which an element other than the last one is taken out only if at least half of the elements added since the queue was last empty remain, and
`appendleft` is called only while none of them has been taken out on the left. What is missing: see `C32_full_false` and `C32_pop_wrong`. -/
theorem C32_deque_partial (l : List α) (q : AQueue α) (hq : queueNew (if l = [] then none else some l) = .ok q) (ops : List (QueueOp α))
    (hk : halfKept l.length l.length 0 ops = true) : trace arrayQueueStep q ops = trace queueSpec l ops := by
  have key : ∀ (ops : List (QueueOp α)) (q : AQueue α) (a f : Nat) (l : List α), DqInv q a f l → halfKept a l.length f ops = true →
      trace arrayQueueStep q ops = trace queueSpec l ops := by
    intro ops
    induction ops with
    | nil => intros; rfl
    | cons op ops ih =>
      intro q a f l h hk
      cases op with
      | append x =>
        obtain ⟨q', e, h'⟩ := dqAppend h x
        simp only [trace, arrayQueueStep, e, queueSpec, doneOf]
        rw [ih q' (a + 1) f (l ++ [x]) h' (by simpa [halfKept] using hk)]
      | appendleft x =>
        simp only [halfKept, Bool.and_eq_true, beq_iff_eq] at hk
        obtain ⟨rfl, hk⟩ := hk
        obtain ⟨q', e, h'⟩ := dqAppendleft h x
        simp only [trace, arrayQueueStep, e, queueSpec, doneOf]
        rw [ih q' (a + 1) 0 (x :: l) h' (by simpa using hk)]
      | popleft =>
        cases l with
        | nil =>
          have : queuePopleft q = .error .indexError := by rw [queuePopleft, if_pos (by simpa using h.num)]
          simp only [trace, arrayQueueStep, this, queueSpec, outOf]
          rw [ih q a f [] h (by simpa [halfKept] using hk)]
        | cons x l =>
          simp only [halfKept, List.length_cons, Nat.add_eq_zero_iff, Nat.one_ne_zero, and_false, beq_iff_eq, if_false,
            Nat.add_sub_cancel] at hk
          have hk' : (l ≠ [] → a ≤ 2 * l.length) ∧ halfKept (if l = [] then 0 else a) l.length (if l = [] then 0 else f + 1) ops = true := by
            by_cases hl : l = []
            · subst hl; simpa using hk
            · have : l.length ≠ 0 := by simpa using hl
              simp [this, hl] at hk ⊢
              exact hk
          obtain ⟨q', e, h'⟩ := dqPopleft h hk'.1
          simp only [trace, arrayQueueStep, e, queueSpec, outOf]
          rw [ih q' _ _ l h' hk'.2]
      | pop =>
        rcases List.eq_nil_or_concat l with rfl | ⟨l, x, rfl⟩
        · have : queuePop q = .error .indexError := by rw [queuePop, if_pos (by simpa using h.num)]
          simp only [trace, arrayQueueStep, this, queueSpec, outOf]
          have := ih q a f [] h (by simpa [halfKept] using hk)
          simpa using this
        · rw [List.concat_eq_append] at *
          simp only [halfKept, List.length_append, List.length_singleton, Nat.add_eq_zero_iff, Nat.one_ne_zero, and_false, beq_iff_eq, if_false,
            Nat.add_sub_cancel] at hk
          have hk' : (l ≠ [] → a ≤ 2 * l.length) ∧ halfKept (if l = [] then 0 else a) l.length (if l = [] then 0 else f) ops = true := by
            by_cases hl : l = []
            · subst hl; simpa using hk
            · have : l.length ≠ 0 := by simpa using hl
              simp [this, hl] at hk ⊢
              exact hk
          obtain ⟨q', e, h'⟩ := dqPop h hk'.1
          simp only [trace, arrayQueueStep, e, queueSpec, outOf, List.getLast?_concat, List.dropLast_concat]
          rw [ih q' _ _ l h' hk'.2]
      | len =>
        simp only [trace, arrayQueueStep, queueLen, queueSpec, h.num]
        rw [ih q a f l h (by simpa [halfKept] using hk)]
  by_cases hl : l = []
  · subst hl
    cases hq
    exact key ops _ 0 0 [] (dqInv_empty _ (.inr rfl) rfl) hk
  · rw [if_neg hl] at hq
    cases l with
    | nil => exact absurd rfl hl
    | cons x l =>
      cases hq
      refine key ops _ (l.length + 1) 0 (x :: l) ⟨⟨0, by simp [Doda.ofList]⟩, rfl, by simp [Doda.ofList], fun _ => rfl, ?_, by simp, ?_, ?_, ?_⟩ hk
      · simp
      · rw [if_neg (by simp)]
        simp only [Doda.size, Doda.ofList, List.length_map, List.length_cons]; omega
      · simp only [List.length_cons]; omega
      · simp

example : halfKept 0 0 0 ([.append 1, .appendleft 2, .append 3, .appendleft 4, .pop, .popleft, .append 5, .len, .append 6, .pop, .append 7,
    .append 8] : List (QueueOp Nat)) = true := by decide
example : halfKept 3 3 0 ([.appendleft 2, .pop, .pop, .append 5, .popleft, .append 6] : List (QueueOp Nat)) = false := by decide
example : halfKept 3 3 0 ([.appendleft 2, .pop, .pop, .append 5, .appendleft 6, .pop] : List (QueueOp Nat)) = true := by decide

end Props
