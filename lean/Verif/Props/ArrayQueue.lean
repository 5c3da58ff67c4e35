import Verif.Spec
import Verif.Model.StackQueue
import Verif.Lemmas.Doda
import Verif.Lemmas.Trace

/-!
# C31, C32: array-backed queue
-/
namespace Props
open Py Model Spec
variable {α : Type}

inductive QueueOp (α : Type)
  | append (x : α)
  | popleft
  | len
  | appendleft (x : α)
  | pop

def outOf (s : σ) : PyM (Option α × σ) → σ × Out α
  | .ok (some x, s') => (s', .elem x)
  | .ok (none, s') => (s', .nothing)
  | .error e => (s, .raised e)

def doneOf (s : σ) : PyM σ → σ × Out α
  | .ok s' => (s', .done)
  | .error e => (s, .raised e)

/-- What a caller of the model sees (`nothing` is the Python value `None`). -/
def arrayQueueStep (q : AQueue α) : QueueOp α → AQueue α × Out α
  | .append x => doneOf q (queueAppend q x)
  | .popleft => outOf q (queuePopleft q)
  | .len => (q, .count (queueLen q))
  | .appendleft x => doneOf q (queueAppendleft q x)
  | .pop => outOf q (queuePop q)

/-- Specification: a list, front first. -/
def queueSpec (l : List α) : QueueOp α → List α × Out α
  | .append x => (l ++ [x], .done)
  | .popleft => match l with
    | x :: l => (l, .elem x)
    | [] => ([], .raised .indexError)
  | .len => (l, .count l.length)
  | .appendleft x => (x :: l, .done)
  | .pop => match l.getLast? with
    | some x => (l.dropLast, .elem x)
    | none => (l, .raised .indexError)

/-- The calls of a FIFO user. -/
def QueueOp.isFifo : QueueOp α → Bool
  | .append _ => true
  | .popleft => true
  | .len => true
  | _ => false

/-- The full C31: FIFO behaviour through every history of `append`, `popleft` and `len`. -/
def C31_full : Prop := ∀ (ops : List (QueueOp Nat)), ops.all QueueOp.isFifo = true →
  ∃ q, queueNew none = .ok q ∧ trace arrayQueueStep q ops = trace queueSpec [] ops

/-- C31 is false of the code. After seven `append`s and five `popleft`s the array has 7 cells, 2 of them live; the next `append`
doubles it to 15 cells, which makes the load drop below 1/4, so the array is compacted while `_front` stays 5: the next
`popleft` returns `None` instead of the front element. -/
theorem C31_full_false : ¬ C31_full := by
  intro h
  have := h [.append 1, .append 2, .append 3, .append 4, .append 5, .append 6, .append 7,
    .popleft, .popleft, .popleft, .popleft, .popleft, .append 8, .popleft] (by decide)
  obtain ⟨q, hq, this⟩ := this
  cases hq
  revert this
  decide

/-- The history above: the last answer is `None`, and from then on `popleft` never removes anything (`len` stays 3). -/
theorem C31_lost_elements : trace arrayQueueStep (⟨Doda.ofSize 0, -1, -1⟩ : AQueue Nat)
    [.append 1, .append 2, .append 3, .append 4, .append 5, .append 6, .append 7,
     .popleft, .popleft, .popleft, .popleft, .popleft, .append 8, .popleft, .len] =
    [.done, .done, .done, .done, .done, .done, .done, .elem 1, .elem 2, .elem 3, .elem 4, .elem 5, .done, .nothing, .count 3] := by
  decide

/-! ### The part that holds -/

/-- A restriction on FIFO histories. `a` and `p` count the successful `append`s and `popleft`s since the queue was last empty. An
`append` to a non-empty queue is allowed only if at most half of the elements appended since then (rounded up) have been taken out.
Fill-then-drain use is the special case `p = 0`. -/
def halfFull : Nat → Nat → List (QueueOp α) → Bool
  | _, _, [] => true
  | a, p, .append _ :: ops => (a == p || 2 * p ≤ a + 1) && (if a == p then halfFull 1 0 ops else halfFull (a + 1) p ops)
  | a, p, .popleft :: ops => if a == p then halfFull 0 0 ops else halfFull a (p + 1) ops
  | a, p, .len :: ops => halfFull a p ops
  | _, _, _ :: _ => false

/-- The queue holds `l` from cell `f` on. -/
structure QInv (q : AQueue α) (f : Nat) (l : List α) : Prop where
  data : ∃ k, q.items.data = List.replicate f none ++ l.map some ++ List.replicate k none
  num : q.items.num = l.length
  cnt : q.items.cnt = f + l.length
  front : l ≠ [] → q.front = f
  rear : (f : Int) + l.length ≤ q.rear + 1
  empty : l = [] → f = 0
  load : 0 < f → quarter q.items.num q.items.size = false

theorem QInv.dense {q : AQueue α} {l : List α} (h : QInv q 0 l) : q.items.Dense l := by
  obtain ⟨⟨k, hd⟩, hn, hc, -, -, -, -⟩ := h
  exact ⟨⟨k, by simpa using hd⟩, hn, by omega⟩

theorem QInv.inv {q : AQueue α} {f : Nat} {l : List α} (h : QInv q f l) : q.items.Inv ∧ q.items.live = l := by
  obtain ⟨⟨k, hd⟩, hn, hc, -, -, -, -⟩ := h
  have hl : q.items.live = l := by
    rw [Doda.live, hd, List.filterMap_append, List.filterMap_append, filterMap_replicate_none, filterMap_replicate_none,
      List.append_nil, List.filterMap_map]
    simp
  refine ⟨⟨by simp [Doda.size, hd, hc], by rw [hl, hn], ?_⟩, hl⟩
  intro i h1 h2
  simp only [Doda.size, hd, List.length_append, List.length_map, List.length_replicate] at h2
  rw [hd, List.getElem?_append_right (by simp; omega), List.getElem?_replicate, if_pos (by simp; omega)]

theorem queueAppend_spec {q : AQueue α} {l : List α} (h : QInv q 0 l) (x : α) :
    ∃ q', queueAppend q x = .ok q' ∧ QInv q' 0 (l ++ [x]) := by
  obtain ⟨d', e, ⟨⟨k, hd⟩, hn, hc⟩⟩ := Doda.append_dense quarter h.dense x
  refine ⟨_, by simp only [queueAppend, e, ok_bind]; rfl, ⟨⟨k, by simpa using hd⟩, hn, by simpa using hc, ?_, ?_, by simp, by simp⟩⟩
  · intro _
    simp only [h.num]
    by_cases hl : l = []
    · simp [hl]
    · have : l.length ≠ 0 := by simpa using hl
      rw [if_neg this]
      exact h.front hl
  · have h1 := h.rear
    simp only [List.length_append, List.length_singleton]
    push_cast at h1 ⊢
    omega

theorem queuePopleft_spec {q : AQueue α} {f : Nat} {x : α} {l : List α} (h : QInv q f (x :: l)) :
    ∃ q' f', queuePopleft q = .ok (some x, q') ∧ QInv q' f' l ∧ f' ≤ f + 1 := by
  obtain ⟨hinv, hlive⟩ := h.inv
  have hnum := h.num
  have hcnt := h.cnt
  have hfront := h.front (by simp)
  have hrear := h.rear
  obtain ⟨k, hd⟩ := h.data
  simp only [List.length_cons] at hnum hcnt
  simp only [List.length_cons] at hrear
  have hd' : q.items.data = List.replicate f none ++ some x :: (l.map some ++ List.replicate k none) := by
    rw [hd]; simp
  have hx : q.items.data[f]? = some (some x) := by rw [hd']; simp
  have hsz : f < q.items.size := (List.getElem?_eq_some_iff.1 hx).1
  have hsz' : q.items.size = f + 1 + l.length + k := by simp [Doda.size, hd']; omega
  have hg : q.items.get q.front = .ok (some x) := by
    rw [Doda.get, hfront, if_neg (by omega)]; exact rd_of_some (by simpa using hx)
  have hset : q.items.set f none = .ok { q.items with data := q.items.data.set f none } := by
    rw [Doda.set, wr_of_lt _ hsz, ok_bind]
  have hds : q.items.data.set f none = List.replicate (f + 1) none ++ l.map some ++ List.replicate k none := by
    rw [hd', List.set_append_right _ _ (by simp)]
    simp [List.replicate_succ']
  have hdel : q.items.delete quarter q.front = Doda.modify quarter
      ⟨q.items.data.set f none, q.items.num - 1, if q.items.cnt - 1 = f then q.items.cnt - 1 else q.items.cnt⟩ := by
    rw [Doda.delete, if_pos (by omega), hg, ok_bind]
    dsimp only
    rw [hfront, Int.toNat_natCast, hset, ok_bind]
    dsimp only
    by_cases hc : q.items.cnt - 1 = f
    · rw [if_pos (by omega), if_pos hc]
    · rw [if_neg (by omega), if_neg hc]
  have hdinv : (⟨q.items.data.set f none, q.items.num - 1,
      if q.items.cnt - 1 = f then q.items.cnt - 1 else q.items.cnt⟩ : Doda α).Inv ∧
      (⟨q.items.data.set f none, q.items.num - 1,
      if q.items.cnt - 1 = f then q.items.cnt - 1 else q.items.cnt⟩ : Doda α).live = l := by
    have hl : (⟨q.items.data.set f none, q.items.num - 1,
      if q.items.cnt - 1 = f then q.items.cnt - 1 else q.items.cnt⟩ : Doda α).live = l := by
      rw [Doda.live, hds, List.filterMap_append, List.filterMap_append, filterMap_replicate_none, filterMap_replicate_none,
        List.append_nil, List.filterMap_map]
      simp
    refine ⟨⟨?_, by rw [hl]; simp [hnum], ?_⟩, hl⟩
    · simp only [Doda.size, hds, List.length_append, List.length_replicate, List.length_map]; split <;> omega
    · intro i h1 h2
      simp only [Doda.size, hds, List.length_append, List.length_replicate, List.length_map] at h1 h2
      by_cases hi : i < f + 1
      · dsimp only
        rw [hds, List.append_assoc, List.getElem?_append_left (by simpa using hi), List.getElem?_replicate, if_pos hi]
      · dsimp only
        have hge : f + 1 + l.length ≤ i := by split at h1 <;> omega
        rw [hds, List.getElem?_append_right (by simp; omega), List.getElem?_replicate,
          if_pos (by simp; omega)]
  have hpos : 0 < (⟨q.items.data.set f none, q.items.num - 1,
      if q.items.cnt - 1 = f then q.items.cnt - 1 else q.items.cnt⟩ : Doda α).size := by
    simp only [Doda.size, List.length_set]; simp only [Doda.size] at hsz; omega
  have hsize2 : (⟨q.items.data.set f none, q.items.num - 1,
      if q.items.cnt - 1 = f then q.items.cnt - 1 else q.items.cnt⟩ : Doda α).size = q.items.size := by
    simp [Doda.size]
  rw [queuePopleft, if_neg (by omega), hg, ok_bind]
  cases hlow : quarter (q.items.num - 1) q.items.size with
  | true =>
    obtain ⟨d', e, hdense⟩ := Doda.modify_low quarter hdinv.1 hpos (by rw [hsize2]; exact hlow)
    rw [hdinv.2] at hdense
    obtain ⟨⟨k', hk'⟩, hn', hc'⟩ := hdense
    by_cases hfr : q.front = q.rear
    · rw [if_pos hfr]
      dsimp only
      rw [hdel, e, ok_bind]
      have : l = [] := by
        apply List.eq_nil_of_length_eq_zero
        omega
      subst this
      exact ⟨_, 0, rfl, ⟨⟨k', by simpa using hk'⟩, hn', by simpa using hc', by simp, by simp, by simp, by simp⟩, by omega⟩
    · rw [if_neg hfr, if_pos rfl]
      dsimp only
      rw [hdel, e, ok_bind]
      refine ⟨_, 0, rfl, ⟨⟨k', by simpa using hk'⟩, hn', by simpa using hc', by simp, ?_, by simp, by simp⟩, by omega⟩
      dsimp only
      omega
  | false =>
    have e := Doda.modify_high quarter hpos (by rw [hsize2]; exact hlow)
    have hl : l ≠ [] := by
      intro hl
      subst hl
      simp only [List.length_nil] at hnum
      rw [hnum] at hlow
      simp only [quarter] at hlow
      simp at hlow
      omega
    have hlen : l.length ≠ 0 := by simpa using hl
    have hfr : q.front ≠ q.rear := by omega
    rw [if_neg hfr, if_neg (by simp)]
    dsimp only
    rw [hdel, e, ok_bind]
    refine ⟨_, f + 1, rfl, ⟨⟨k, hds⟩, by dsimp only; omega, ?_, ?_, ?_, by intro h; exact absurd h hl, ?_⟩, by omega⟩
    · dsimp only; split <;> omega
    · intro _; dsimp only; omega
    · dsimp only; omega
    · intro _; dsimp only; rw [hsize2]; exact hlow

theorem queueAppend_high {q : AQueue α} {f : Nat} {l : List α} (h : QInv q f l) (x : α) (hf : 0 < f)
    (hh : 2 * (f + l.length) + 1 ≤ 4 * (l.length + 1)) :
    ∃ q', queueAppend q x = .ok q' ∧ QInv q' f (l ++ [x]) := by
  have hl : l ≠ [] := fun e => by have := h.empty e; omega
  obtain ⟨hinv, hlive⟩ := h.inv
  have hload := h.load hf
  have hnum := h.num
  have hcnt := h.cnt
  have hrear := h.rear
  have hfront := h.front hl
  obtain ⟨k, hd⟩ := h.data
  obtain ⟨data, e, k', hk', hkv⟩ := Doda.append_raw' quarter hinv x
  have htake : q.items.data.take q.items.cnt = List.replicate f none ++ l.map some := by
    rw [hd, List.take_left']; simp [hcnt]
  have hsz : q.items.size = f + l.length + k := by simp [Doda.size, hd]; omega
  have hdata : data = List.replicate f none ++ (l ++ [x]).map some ++ List.replicate k' none := by
    rw [hk', htake]; simp
  have hlen : data.length = f + l.length + 1 + k' := by rw [hdata]; simp; omega
  have hq : quarter (q.items.num + 1) data.length = false := by
    simp only [quarter, decide_eq_false_iff_not] at hload ⊢
    split at hkv <;> omega
  have e2 : queueAppend q x = .ok ⟨⟨data, q.items.num + 1, q.items.cnt + 1⟩, q.front, q.rear + 1⟩ := by
    have hl0 : l.length ≠ 0 := by simpa using hl
    rw [queueAppend, e, Doda.modify_high quarter (by simp only [Doda.size]; omega) hq, if_neg (by omega)]
    rfl
  refine ⟨_, e2, ⟨k', hdata⟩, by simp [hnum], by simp [hcnt]; omega, fun _ => hfront, ?_, by simp, fun _ => hq⟩
  simp only [List.length_append, List.length_singleton]
  push_cast at hrear ⊢
  omega

/-- C31, the part that holds: FIFO behaviour (values, order, `len`, `IndexError` on an empty queue) through every history in which an
`append` to a non-empty queue never finds more than half of the elements appended since the queue was last empty already taken out.
What is missing is an `append` after more have been taken out (see `C31_full_false`). -/
theorem C31_array_queue_partial (ops : List (QueueOp α)) (hf : halfFull 0 0 ops = true) :
    ∃ q, queueNew none = .ok q ∧ trace arrayQueueStep q ops = trace queueSpec [] ops := by
  refine ⟨_, rfl, ?_⟩
  have key : ∀ (ops : List (QueueOp α)) (q : AQueue α) (f : Nat) (l : List α) (a p : Nat), QInv q f l →
      a = p + l.length → f + l.length ≤ a → halfFull a p ops = true →
      trace arrayQueueStep q ops = trace queueSpec l ops := by
    intro ops
    induction ops with
    | nil => intros; rfl
    | cons op ops ih =>
      intro q f l a p hq ha hfa hfd
      cases op with
      | append x =>
        simp only [halfFull, Bool.and_eq_true, Bool.or_eq_true, beq_iff_eq, decide_eq_true_eq] at hfd
        by_cases hl : a = p
        · have hl0 : l = [] := List.eq_nil_of_length_eq_zero (by omega)
          have hf0 := hq.empty hl0
          subst hf0
          obtain ⟨q', e, h'⟩ := queueAppend_spec hq x
          simp only [trace, arrayQueueStep, e, queueSpec, doneOf]
          rw [if_pos hl] at hfd
          rw [ih q' 0 (l ++ [x]) 1 0 h' (by simp [hl0]) (by simp [hl0]) hfd.2]
        · rw [if_neg hl] at hfd
          obtain ⟨q', e, h'⟩ : ∃ q', queueAppend q x = .ok q' ∧ QInv q' f (l ++ [x]) := by
            rcases Nat.eq_zero_or_pos f with h0 | h0
            · subst h0; exact queueAppend_spec hq x
            · exact queueAppend_high hq x h0 (by omega)
          simp only [trace, arrayQueueStep, e, queueSpec, doneOf]
          rw [ih q' f (l ++ [x]) (a + 1) p h' (by simp; omega) (by simp; omega) hfd.2]
      | popleft =>
        simp only [halfFull, beq_iff_eq] at hfd
        cases l with
        | nil =>
          have : queuePopleft q = .error .indexError := by rw [queuePopleft, if_pos (by simpa using hq.num)]
          simp only [trace, arrayQueueStep, this, queueSpec, outOf]
          rw [if_pos (by simpa using ha)] at hfd
          have hf0 := hq.empty rfl
          rw [ih q f [] 0 0 hq rfl (by simp [hf0]) hfd]
        | cons x l =>
          simp only [List.length_cons] at ha hfa
          rw [if_neg (by omega)] at hfd
          obtain ⟨q', f', e, h', hle⟩ := queuePopleft_spec hq
          simp only [trace, arrayQueueStep, e, queueSpec, outOf]
          rw [ih q' f' l a (p + 1) h' (by omega) (by omega) hfd]
      | len =>
        simp only [halfFull] at hfd
        simp only [trace, arrayQueueStep, queueLen, queueSpec, hq.num]
        rw [ih q f l a p hq ha hfa hfd]
      | appendleft x => simp [halfFull] at hfd
      | pop => simp [halfFull] at hfd
  exact key ops _ 0 [] 0 0 ⟨⟨0, by simp [Doda.ofSize]⟩, rfl, rfl, by simp, by simp, by simp, by simp⟩ rfl (by simp) hf

example : halfFull 0 0 ([.append 1, .append 2, .append 3, .len, .popleft, .append 7, .popleft, .popleft, .popleft, .popleft, .append 4,
    .popleft] : List (QueueOp Nat)) = true := by decide

/-! ## C32 -/

/-- The full C32: double-ended behaviour through every history. -/
def C32_full : Prop := ∀ (ops : List (QueueOp Nat)),
  ∃ q, queueNew none = .ok q ∧ trace arrayQueueStep q ops = trace queueSpec [] ops

/-- C32 is false of the code: `append 1; append 2; append 3; popleft; appendleft 9; popleft` answers 2 at the end instead of 9
(`appendleft` rebuilds the array from cell 0 but keeps `_front = 1`). -/
theorem C32_full_false : ¬ C32_full := by
  intro h
  obtain ⟨q, hq, this⟩ := h [.append 1, .append 2, .append 3, .popleft, .appendleft 9, .popleft]
  cases hq
  revert this
  decide

/-- `pop` loses elements too, without any `appendleft` or `popleft`: after a contraction `_rear` is stale. -/
theorem C32_pop_wrong : trace arrayQueueStep (⟨Doda.ofSize 0, -1, -1⟩ : AQueue Nat)
    [.append 1, .append 2, .append 3, .append 4, .pop, .pop, .pop, .pop] ≠
    trace queueSpec [] [.append 1, .append 2, .append 3, .append 4, .pop, .pop, .pop, .pop] := by decide

end Props
