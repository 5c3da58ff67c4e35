import Verif.Model.QueueView
import Verif.Props.ArrayDeque

/-!
# C148: `front`, `rear` and `str` of an array queue
-/
namespace Props
open Py Model Spec
variable {α : Type}

/-- C148, in full: after every sequence of calls of a first-in-first-out user that the queue answers like a list, `str` shows the elements that
are in the queue, in order. -/
def C148_full : Prop := ∀ (ops : List (QueueOp Nat)), ops.all QueueOp.isFifo = true →
  trace arrayQueueStep ⟨Doda.ofSize 0, -1, -1⟩ ops = trace queueSpec [] ops →
  queueShown (final arrayQueueStep ⟨Doda.ofSize 0, -1, -1⟩ ops) = .ok ((final queueSpec [] ops).map some)

/-- It fails at once: `str` of a new queue reads the cell before the first. -/
theorem C148_full_false : ¬ C148_full := by
  intro h
  have := h [] rfl rfl
  revert this
  decide

/-- … and a queue that has been emptied is shown as `[None]`. -/
theorem C148_emptied_shows_none : trace arrayQueueStep ⟨Doda.ofSize 0, -1, -1⟩ [.append 1, .popleft] = trace queueSpec [] [.append 1, .popleft] ∧
    queueShown (final arrayQueueStep (⟨Doda.ofSize 0, -1, -1⟩ : AQueue Nat) [.append 1, .popleft]) = .ok [none] := by decide

/-- The invariant `DqInv` with what is known of an empty queue; `used`: something has been in it. -/
structure SeenInv (q : AQueue α) (a f : Nat) (l : List α) (used : Bool) : Prop where
  dq : DqInv q a f l
  gone : l = [] → q.front = -1 ∧ q.items.data = if used then [none] else []
  used : l ≠ [] → used = true

theorem dqPopleft_one {q : AQueue α} {a f : Nat} {x : α} (h : DqInv q a f [x]) :
    queuePopleft q = .ok (some x, ⟨⟨[none], 0, 0⟩, -1, -1⟩) := by
  have hfront := h.front (by simp)
  have hrear := h.rear
  have hnum := h.num
  simp only [List.length_singleton] at hnum hrear
  obtain ⟨hg, hdel⟩ := dqDelete_last h
  rw [queuePopleft, if_neg (by omega), hfront, hg, ok_bind, if_pos (by omega)]
  dsimp only
  rw [hdel, ok_bind]

theorem dqPop_one {q : AQueue α} {a f : Nat} {x : α} (h : DqInv q a f [x]) :
    queuePop q = .ok (some x, ⟨⟨[none], 0, 0⟩, -1, -1⟩) := by
  have hfront := h.front (by simp)
  have hrear := h.rear
  have hnum := h.num
  simp only [List.length_singleton] at hnum hrear
  obtain ⟨hg, hdel⟩ := dqDelete_last h
  have hr : q.rear = f := by omega
  rw [queuePop, if_neg (by omega), hr, hg, ok_bind, if_pos hfront]
  dsimp only
  rw [hdel, ok_bind]

/-- Whether a queue that had something in it (`u`) or not has had something in it after the calls. -/
def everUsed (u : Bool) : List (QueueOp α) → Bool
  | [] => u
  | .append _ :: _ => true
  | .appendleft _ :: _ => true
  | _ :: ops => everUsed u ops

theorem everUsed_true : ∀ ops : List (QueueOp α), everUsed true ops = true
  | [] => rfl
  | .append _ :: _ => rfl
  | .appendleft _ :: _ => rfl
  | .pop :: ops => everUsed_true ops
  | .popleft :: ops => everUsed_true ops
  | .len :: ops => everUsed_true ops

theorem seenInv_final (ops : List (QueueOp α)) : ∀ (q : AQueue α) (a f : Nat) (l : List α) (u : Bool), SeenInv q a f l u →
    halfKept a l.length f ops = true →
    ∃ a' f', SeenInv (final arrayQueueStep q ops) a' f' (final queueSpec l ops) (everUsed u ops) := by
  induction ops with
  | nil => intro q a f l u h _; exact ⟨a, f, h⟩
  | cons op ops ih =>
    intro q a f l u hs hk
    have h := hs.dq
    cases op with
    | append x =>
      obtain ⟨q', e, h'⟩ := dqAppend h x
      simp only [final, arrayQueueStep, e, queueSpec, doneOf]
      have := ih q' (a + 1) f (l ++ [x]) true ⟨h', fun e => absurd e (by simp), fun _ => rfl⟩ (by simpa [halfKept] using hk)
      rw [everUsed_true] at this
      exact this
    | appendleft x =>
      simp only [halfKept, Bool.and_eq_true, beq_iff_eq] at hk
      obtain ⟨rfl, hk⟩ := hk
      obtain ⟨q', e, h'⟩ := dqAppendleft h x
      simp only [final, arrayQueueStep, e, queueSpec, doneOf]
      have := ih q' (a + 1) 0 (x :: l) true ⟨h', fun e => absurd e (by simp), fun _ => rfl⟩ (by simpa using hk)
      rw [everUsed_true] at this
      exact this
    | popleft =>
      cases l with
      | nil =>
        have : queuePopleft q = .error .indexError := by rw [queuePopleft, if_pos (by simpa using h.num)]
        simp only [final, arrayQueueStep, this, queueSpec, outOf, everUsed]
        exact ih q a f [] u hs (by simpa [halfKept] using hk)
      | cons x l =>
        have hu : u = true := hs.used (by simp)
        subst hu
        simp only [halfKept, List.length_cons, Nat.add_eq_zero_iff, Nat.one_ne_zero, and_false, beq_iff_eq, if_false,
          Nat.add_sub_cancel] at hk
        have hk' : (l ≠ [] → a ≤ 2 * l.length) ∧ halfKept (if l = [] then 0 else a) l.length (if l = [] then 0 else f + 1) ops = true := by
          by_cases hl : l = []
          · subst hl; simpa using hk
          · have : l.length ≠ 0 := by simpa using hl
            simp [this, hl] at hk ⊢
            exact hk
        obtain ⟨q', e, h'⟩ := dqPopleft h hk'.1
        simp only [final, arrayQueueStep, e, queueSpec, outOf, everUsed]
        refine ih q' _ _ l true ⟨h', fun hl => ?_, fun _ => rfl⟩ hk'.2
        subst hl
        rw [dqPopleft_one h] at e
        cases e
        exact ⟨rfl, rfl⟩
    | pop =>
      rcases List.eq_nil_or_concat l with rfl | ⟨l, x, rfl⟩
      · have : queuePop q = .error .indexError := by rw [queuePop, if_pos (by simpa using h.num)]
        simp only [final, arrayQueueStep, this, queueSpec, outOf, everUsed]
        exact ih q a f [] u hs (by simpa [halfKept] using hk)
      · rw [List.concat_eq_append] at *
        have hu : u = true := hs.used (by simp)
        subst hu
        simp only [halfKept, List.length_append, List.length_singleton, Nat.add_eq_zero_iff, Nat.one_ne_zero, and_false, beq_iff_eq, if_false,
          Nat.add_sub_cancel] at hk
        have hk' : (l ≠ [] → a ≤ 2 * l.length) ∧ halfKept (if l = [] then 0 else a) l.length (if l = [] then 0 else f) ops = true := by
          by_cases hl : l = []
          · subst hl; simpa using hk
          · have : l.length ≠ 0 := by simpa using hl
            simp [this, hl] at hk ⊢
            exact hk
        obtain ⟨q', e, h'⟩ := dqPop h hk'.1
        simp only [final, arrayQueueStep, e, queueSpec, outOf, List.getLast?_concat, List.dropLast_concat, everUsed]
        refine ih q' _ _ l true ⟨h', fun hl => ?_, fun _ => rfl⟩ hk'.2
        subst hl
        rw [dqPop_one (x := x) (by simpa using h)] at e
        cases e
        exact ⟨rfl, rfl⟩
    | len =>
      simp only [final, arrayQueueStep, queueSpec, everUsed]
      exact ih q a f l u hs (by simpa [halfKept] using hk)

theorem queueCopy_shift (l : List α) (f k : Nat) : ∀ (n i : Nat), i + n = l.length →
    queueCopy (List.replicate f none ++ l.map some ++ List.replicate k none) n ((f + i : Nat) : Int) = .ok ((l.drop i).map some) := by
  intro n
  induction n with
  | zero => intro i h; rw [queueCopy, List.drop_of_length_le (by omega)]; rfl
  | succ n ih =>
    intro i h
    have hi : i < l.length := by omega
    have hx : listIndex (List.replicate f none ++ l.map some ++ List.replicate k (none : Option α)).length ((f + i : Nat) : Int) = some (f + i) := by
      rw [listIndex, if_pos (by omega), if_pos (by simp only [List.length_append, List.length_replicate, List.length_map]; omega), Int.toNat_natCast]
    rw [queueCopy, hx]
    dsimp only
    rw [rd_of_some (x := some l[i]) (by
      rw [List.append_assoc, List.getElem?_append_right (by simp), List.length_replicate, Nat.add_sub_cancel_left,
        List.getElem?_append_left (by simpa using hi)]; simp [hi]), ok_bind]
    have := ih (i + 1) (by omega)
    rw [show (((f + (i + 1) : Nat) : Int)) = ((f + i : Nat) : Int) + 1 by omega] at this
    rw [this, ok_bind, List.drop_eq_getElem_cons hi]
    rfl

theorem DqInv.cell {q : AQueue α} {a f : Nat} {l : List α} (h : DqInv q a f l) (i : Nat) (hi : i < l.length) :
    q.items.get ((f + i : Nat) : Int) = .ok (some l[i]) := by
  obtain ⟨k, hd⟩ := h.data
  rw [Doda.get, if_neg (by simp [Doda.size, hd]; omega), hd]
  refine rd_of_some ?_
  rw [Int.toNat_natCast, List.append_assoc, List.getElem?_append_right (by simp), List.length_replicate, Nat.add_sub_cancel_left,
    List.getElem?_append_left (by simpa using hi)]
  simp [hi]

/-- C148, the part that holds. Take a new queue (empty or with items) and calls in which an element other than the last one is taken out only if at
least half of the elements added since the queue was last empty remain, and `appendleft` comes only while none of them has been taken out on the
left (the calls of `C32_deque_partial`); let `l` be what the queue then holds. If `l` is not empty, `front` and `rear` are the positions in the
array of its first and last elements, the elements lie between them in order, and `str` shows exactly `l`. If `l` is empty, both are `-1` and
`str` raises `IndexError` if nothing has ever been in the queue and otherwise shows `[None]`. -/
theorem C148_front_rear_partial (l₀ : List α) (q : AQueue α) (hq : queueNew (if l₀ = [] then none else some l₀) = .ok q) (ops : List (QueueOp α))
    (hk : halfKept l₀.length l₀.length 0 ops = true) (l : List α) (hl : l = final queueSpec l₀ ops) (q' : AQueue α)
    (hq' : q' = final arrayQueueStep q ops) :
    (∀ x m y, l = x :: m → l.getLast? = some y →
      q'.items.get (queueFront q') = .ok (some x) ∧ q'.items.get (queueRear q') = .ok (some y) ∧
      queueRear q' = queueFront q' + (l.length : Int) - 1 ∧
      (∀ i : Nat, (hi : i < l.length) → q'.items.get (queueFront q' + i) = .ok (some l[i])) ∧
      queueShown q' = .ok (l.map some)) ∧
    (l = [] → queueFront q' = -1 ∧ queueRear q' = -1 ∧
      queueShown q' = if everUsed (!l₀.isEmpty) ops then .ok [none] else .error .indexError) := by
  have key : ∃ a f, SeenInv q' a f l (everUsed (!l₀.isEmpty) ops) := by
    subst hl hq'
    by_cases hl : l₀ = []
    · subst hl
      cases hq
      exact seenInv_final ops _ 0 0 [] false ⟨dqInv_empty _ (.inr rfl) rfl, fun _ => ⟨rfl, rfl⟩, fun h => absurd rfl h⟩ hk
    · rw [if_neg hl] at hq
      cases l₀ with
      | nil => exact absurd rfl hl
      | cons x l =>
        cases hq
        refine seenInv_final ops _ (l.length + 1) 0 (x :: l) true ⟨⟨⟨0, by simp [Doda.ofList]⟩, rfl, by simp [Doda.ofList], fun _ => rfl, ?_,
          by simp, ?_, ?_, ?_⟩, by simp, fun _ => rfl⟩ hk
        · simp
        · rw [if_neg (by simp)]
          simp only [Doda.size, Doda.ofList, List.length_map, List.length_cons]; omega
        · simp only [List.length_cons]; omega
        · simp
  obtain ⟨a, f, hs⟩ := key
  have h := hs.dq
  have hr := h.rear
  refine ⟨fun x m y e1 e2 => ?_, fun e => ?_⟩
  · have hne : l ≠ [] := by rw [e1]; simp
    have hp : 0 < l.length := List.length_pos_iff.2 hne
    have hf := h.front hne
    have hc : ∀ i : Nat, (hi : i < l.length) → q'.items.get (queueFront q' + i) = .ok (some l[i]) := by
      intro i hi
      rw [queueFront, hf]
      exact_mod_cast h.cell i hi
    have hrr : queueRear q' = queueFront q' + (l.length : Int) - 1 := by
      rw [queueRear, queueFront, hf]; omega
    refine ⟨?_, ?_, hrr, hc, ?_⟩
    · have := hc 0 hp
      rw [show ((0 : Nat) : Int) = 0 from rfl, Int.add_zero] at this
      rw [this]
      subst e1
      rfl
    · have := hc (l.length - 1) (by omega)
      rw [hrr, show queueFront q' + (l.length : Int) - 1 = queueFront q' + ((l.length - 1 : Nat) : Int) by omega, this]
      rw [List.getLast?_eq_getElem?, List.getElem?_eq_getElem (by omega)] at e2
      rw [Option.some.inj e2]
    · obtain ⟨k, hd⟩ := h.data
      rw [queueShown, hd, hf, show (q'.rear + 1 - (f : Int)).toNat = l.length by omega]
      have := queueCopy_shift l f k l.length 0 (by omega)
      simpa using this
  · obtain ⟨h1, h2⟩ := hs.gone e
    obtain ⟨rfl, -⟩ := h.empty e
    subst e
    have h3 : q'.rear = -1 := by simp only [List.length_nil] at hr; omega
    refine ⟨h1, h3, ?_⟩
    rw [queueShown, h1, h2, h3]
    cases everUsed (!l₀.isEmpty) ops <;> rfl

example : queueShown (final arrayQueueStep (⟨Doda.ofSize 0, -1, -1⟩ : AQueue Nat) [.append 1, .append 2, .appendleft 3, .append 4, .popleft]) =
    .ok [some 1, some 2, some 4] := by decide
example : queueFront (final arrayQueueStep (⟨Doda.ofSize 0, -1, -1⟩ : AQueue Nat) [.append 1, .append 2, .appendleft 3, .append 4, .popleft]) = 1 ∧
    halfKept 0 0 0 ([.append 1, .append 2, .appendleft 3, .append 4, .popleft] : List (QueueOp Nat)) = true := by decide

end Props
