import Verif.Props.ArrayQueueExact
import Verif.Props.ArrayDeque

/-! # C32: exactly which histories the array queue serves as a double-ended queue -/
namespace Props
open Py Model Spec
variable {α : Type}

/-- The values a history adds, on either side. -/
def dequeAdded : List (QueueOp α) → List α
  | [] => []
  | .append x :: ops => x :: dequeAdded ops
  | .appendleft x :: ops => x :: dequeAdded ops
  | _ :: ops => dequeAdded ops

/-- No element is taken out, and none is added on the left. -/
def onlyAppends : List (QueueOp α) → Prop
  | [] => True
  | .append _ :: ops => onlyAppends ops
  | .len :: ops => onlyAppends ops
  | _ :: _ => False

/-- What the sizes say about a history of a double-ended queue: `f` cells at the front are used up, `n` hold elements, `z` is the capacity. When a call leaves less than a quarter of the
cells with elements, they are moved to the front of an array of `2 n + 1` cells. The queue does not note this:
* after a `popleft` or `pop` that moves the elements, `lost` is true: the queue looks for its last element behind it, and from then on neither `pop` nor `appendleft` may be called
  while it holds elements; an `appendleft` to the empty queue puts it right;
* after an `append` that moves the elements while cells in front are used up, or an `appendleft` (which always moves them) while cells in front are used up, it looks for its first
  element behind it, and only `append` and `len` may follow. -/
def dequeKept : Bool → Nat → Nat → Nat → List (QueueOp α) → Prop
  | _, _, _, _, [] => True
  | lost, f, n, z, .append _ :: ops =>
    if 4 * (n + 1) < grownCap (f + n) z then
      if f = 0 then dequeKept lost 0 (n + 1) (2 * (n + 1) + 1) ops else onlyAppends ops
    else dequeKept lost f (n + 1) (grownCap (f + n) z) ops
  | lost, f, n, z, .popleft :: ops =>
    if n = 0 then dequeKept lost f n z ops
    else if 4 * (n - 1) < z then dequeKept (lost || decide (n ≠ 1)) 0 (n - 1) (2 * (n - 1) + 1) ops
    else dequeKept lost (f + 1) (n - 1) z ops
  | lost, f, n, z, .pop :: ops =>
    if n = 0 then dequeKept lost f n z ops
    else if lost then False
    else if 4 * (n - 1) < z then dequeKept (decide (n ≠ 1)) 0 (n - 1) (2 * (n - 1) + 1) ops
    else dequeKept false f (n - 1) z ops
  | lost, f, n, z, .appendleft _ :: ops =>
    if n = 0 then dequeKept false 0 1 1 ops
    else if lost then False
    else if f = 0 then dequeKept false 0 (n + 1) (n + 1) ops
    else onlyAppends ops
  | lost, f, n, z, .len :: ops => dequeKept lost f n z ops

/-! ## The last element -/

/-- Whether the queue looks for its last element in the right place. -/
private def RearAt (lost : Bool) (q : AQueue α) (f : Nat) (l : List α) : Prop := lost = false ↔ q.rear + 1 = (f : Int) + l.length

private theorem append_rear {q q' : AQueue α} {x : α} (e : queueAppend q x = .ok q') : q'.rear = q.rear + 1 := by
  rw [queueAppend] at e
  obtain ⟨items, _, e⟩ := bind_ok e
  cases e; rfl

private theorem popleft_rear {q q' : AQueue α} {v : Option α} (e : queuePopleft q = .ok (v, q')) : q'.rear = if q.front = q.rear then -1 else q.rear := by
  rw [queuePopleft] at e
  split at e
  · cases e
  · obtain ⟨y, _, e⟩ := bind_ok e
    dsimp only at e
    obtain ⟨items, _, e⟩ := bind_ok e
    have hq := (Prod.mk.inj (Except.ok.inj e)).2
    rw [← hq]
    split
    · rfl
    · split <;> rfl

/-- Taking out the last element of the array. -/
private theorem delete_last {q : AQueue α} {f : Nat} {l : List α} {x : α} (h : QInv q f (l ++ [x])) :
    q.items.get ((f + l.length : Nat) : Int) = .ok (some x) ∧ ∃ d, q.items.delete quarter ((f + l.length : Nat) : Int) = .ok d ∧
      (if 4 * l.length < q.items.size then d.Dense l ∧ d.size = 2 * l.length + 1
       else (∃ k, d.data = List.replicate f none ++ l.map some ++ List.replicate k none) ∧ d.num = l.length ∧ d.cnt = f + l.length ∧ d.size = q.items.size) := by
  obtain ⟨k, hd⟩ := h.data
  have hnum := h.num
  have hcnt := h.cnt
  simp only [List.length_append, List.length_singleton] at hnum hcnt
  have hx : q.items.data[f + l.length]? = some (some x) := by
    rw [hd, List.append_assoc, List.getElem?_append_right (by simp)]
    simp
  have hsz : f + l.length < q.items.size := (List.getElem?_eq_some_iff.1 hx).1
  have hg : q.items.get ((f + l.length : Nat) : Int) = .ok (some x) := by
    rw [Doda.get, if_neg (by omega)]; exact rd_of_some (by rw [Int.toNat_natCast]; exact hx)
  refine ⟨hg, ?_⟩
  have hdata : q.items.data.set (f + l.length) none = List.replicate f none ++ l.map some ++ List.replicate (k + 1) none := by
    rw [hd, List.map_append, List.append_assoc, List.append_assoc, List.append_assoc, List.set_append_right _ _ (by simp), List.set_append_right _ _ (by simp)]
    simp [List.replicate_succ]
  have he : q.items.delete quarter ((f + l.length : Nat) : Int) = Doda.modify quarter ⟨q.items.data.set (f + l.length) none, l.length, f + l.length⟩ := by
    rw [Doda.delete, if_pos (by omega), hg, ok_bind]
    dsimp only
    rw [Int.toNat_natCast, Doda.set, wr_of_lt _ hsz, ok_bind, ok_bind]
    dsimp only
    rw [if_pos (by omega)]
    have h1 : q.items.num - 1 = l.length := by omega
    have h2 : q.items.cnt - 1 = f + l.length := by omega
    rw [h1, h2]
  rw [he]
  have hpos : 0 < (⟨q.items.data.set (f + l.length) none, l.length, f + l.length⟩ : Doda α).size := by
    simp only [Doda.size, List.length_set]; simp only [Doda.size] at hsz; omega
  have hlen : (⟨q.items.data.set (f + l.length) none, l.length, f + l.length⟩ : Doda α).size = q.items.size := by
    simp only [Doda.size, List.length_set]
  split
  · rename_i hlow
    have hl2 : (⟨q.items.data.set (f + l.length) none, l.length, f + l.length⟩ : Doda α).live = l := by
      rw [Doda.live, hdata, List.filterMap_append, List.filterMap_append, filterMap_replicate_none, filterMap_replicate_none, List.append_nil, List.filterMap_map]
      simp
    have hinv : (⟨q.items.data.set (f + l.length) none, l.length, f + l.length⟩ : Doda α).Inv := by
      refine ⟨by rw [hlen]; dsimp only; omega, by rw [hl2], ?_⟩
      intro i h1 h2
      rw [hlen] at h2
      have h3 : (q.items.data.set (f + l.length) none).length = f + l.length + (k + 1) := by rw [hdata]; simp; omega
      simp only [List.length_set] at h3
      simp only [Doda.size] at h2
      dsimp only at h1 ⊢
      rw [hdata, List.getElem?_append_right (by simp; omega), List.getElem?_replicate, if_pos (by simp; omega)]
    obtain ⟨d, e, hdense⟩ := Doda.modify_low quarter hinv hpos (by rw [hlen]; simpa [quarter] using hlow)
    rw [hl2] at hdense
    refine ⟨d, e, hdense, ?_⟩
    have := modify_size e
    rw [hlen] at this
    rw [this, if_pos (by exact hlow)]
  · rename_i hlow
    refine ⟨_, Doda.modify_high quarter hpos (by rw [hlen]; simpa [quarter] using hlow), ⟨k + 1, hdata⟩, rfl, rfl, hlen⟩

/-- `pop` when the queue looks for its last element in the right place. -/
private theorem pop_kept {q : AQueue α} {f : Nat} {l : List α} {x : α} (h : QInv q f (l ++ [x])) (hr : RearAt false q f (l ++ [x])) :
    ∃ q', queuePop q = .ok (some x, q') ∧
      (if 4 * l.length < q.items.size then QInv q' 0 l ∧ RearAt (decide (l.length ≠ 0)) q' 0 l ∧ q'.items.size = 2 * l.length + 1
       else QInv q' f l ∧ RearAt false q' f l ∧ q'.items.size = q.items.size) := by
  have hnum := h.num
  have hfront := h.front (by simp)
  have hrear : q.rear = ((f + l.length : Nat) : Int) := by
    have := hr.1 rfl
    simp only [List.length_append, List.length_singleton] at this
    push_cast at this ⊢; omega
  simp only [List.length_append, List.length_singleton] at hnum
  obtain ⟨hg, d, hdel, hd⟩ := delete_last h
  have hn : q.items.num - 1 = l.length := by omega
  refine ⟨⟨d, (if q.front = q.rear then ((-1, -1) : Int × Int) else if quarter (q.items.num - 1) q.items.size = true then (0, q.rear) else (q.front, q.rear - 1)).1,
      (if q.front = q.rear then ((-1, -1) : Int × Int) else if quarter (q.items.num - 1) q.items.size = true then (0, q.rear) else (q.front, q.rear - 1)).2⟩, ?_, ?_⟩
  · rw [queuePop, if_neg (by omega)]
    rw [show q.items.get q.rear = .ok (some x) by rw [hrear]; exact hg, ok_bind]
    dsimp only
    rw [show q.items.delete quarter q.rear = .ok d by rw [hrear]; exact hdel, ok_bind]
  · rw [hn]
    by_cases hl : l = []
    · subst hl
      have hz : 0 < q.items.size := by
        obtain ⟨k, hk⟩ := h.data
        simp only [Doda.size, hk]; simp; omega
      have he : q.front = q.rear := by rw [hfront, hrear]; simp
      simp only [List.length_nil, Nat.mul_zero, if_pos hz] at hd ⊢
      rw [if_pos he]
      refine ⟨⟨by simpa using hd.1.data, hd.1.num, by simpa using hd.1.cnt, by simp, by simp, by simp, by simp⟩, ?_, hd.2⟩
      simp [RearAt]
    · have hp : 0 < l.length := List.length_pos_iff.2 hl
      have he : ¬ q.front = q.rear := by rw [hfront, hrear]; omega
      rw [if_neg he]
      split
      · rename_i hlow
        rw [if_pos hlow] at hd
        rw [if_pos (show quarter l.length q.items.size = true by simpa [quarter] using hlow)]
        refine ⟨⟨by simpa using hd.1.data, hd.1.num, by simpa using hd.1.cnt, by simp, by dsimp only; omega, by simp, by simp⟩, ?_, hd.2⟩
        have h1 : decide (l.length ≠ 0) = true := by simp; omega
        simp only [RearAt, h1, reduceCtorEq, false_iff]
        omega
      · rename_i hlow
        rw [if_neg hlow] at hd
        rw [if_neg (show ¬ quarter l.length q.items.size = true by simpa [quarter] using hlow)]
        obtain ⟨hd1, hd2, hd3, hd4⟩ := hd
        refine ⟨⟨hd1, hd2, hd3, fun _ => hfront, by dsimp only; omega, fun e => absurd e hl, ?_⟩, ?_, hd4⟩
        · intro _
          dsimp only
          rw [hd2, hd4]
          simpa [quarter] using hlow
        · simp only [RearAt, true_iff]
          omega

/-- `pop` when it does not. -/
private theorem pop_lost {q : AQueue α} {l : List α} (hd : q.items.Inv) (hn : q.items.num ≠ 0) (hr : (q.items.cnt : Int) ≤ q.rear) (x : α) :
    (arrayQueueStep q .pop).2 ≠ .elem x := by
  rw [arrayQueueStep, queuePop, if_neg hn]
  have hg : ∀ v, q.items.get q.rear = .ok v → v = none := by
    intro v e
    rw [Doda.get] at e
    split at e
    · cases e
    · rw [rd_eq_ok, hd.tail _ (by omega) (by omega)] at e
      cases e; rfl
  cases e : q.items.get q.rear with
  | error x => intro h; cases h
  | ok v =>
    rw [hg v e, ok_bind]
    dsimp only
    generalize q.items.delete quarter q.rear = r
    cases r with
    | error x => intro h; cases h
    | ok d => intro h; cases h

/-- `appendleft` reads every cell from the first to the last. -/
private theorem copy_none (data : List (Option α)) : ∀ (n : Nat) (i j : Int), 0 ≤ i → i ≤ j → j < i + n → (∀ k : Nat, (k : Int) = j → data[k]? = some none ∨ data[k]? = none) →
    ∀ r, queueCopy data n i = .ok r → none ∈ r := by
  intro n
  induction n with
  | zero => intro i j h0 h1 h2; omega
  | succ n ih =>
    intro i j h0 h1 h2 hj r e
    rw [queueCopy] at e
    cases hx : listIndex data.length i with
    | none => rw [hx] at e; cases e
    | some m =>
    rw [hx] at e
    dsimp only at e
    obtain ⟨x, e1, e⟩ := bind_ok e
    obtain ⟨rest, e2, e⟩ := bind_ok e
    cases e
    by_cases hij : i = j
    · subst hij
      have hm : (m : Int) = i := by
        rw [listIndex, if_pos h0] at hx
        split at hx
        · have := Option.some.inj hx; omega
        · cases hx
      rw [rd_eq_ok] at e1
      have hxn : x = none := by
        rcases hj m hm with h | h
        · rw [h] at e1; cases e1; rfl
        · rw [h] at e1; cases e1
      rw [hxn]; exact List.mem_cons_self
    · exact List.mem_cons_of_mem _ (ih (i + 1) j (by omega) (by omega) (by omega) hj rest e2)

private theorem options_none : ∀ (l : List (Option α)), none ∈ l → ∀ r, dodaOfOptions l ≠ .ok r := by
  intro l
  induction l with
  | nil => intro h; cases h
  | cons x l ih =>
    intro h r e
    cases x with
    | none => cases e
    | some x =>
      rw [dodaOfOptions] at e
      obtain ⟨r', e1, _⟩ := bind_ok e
      exact ih (by simpa using h) r' e1

/-- `appendleft` when the queue looks for its last element behind it. -/
private theorem appendleft_lost {q : AQueue α} (hd : q.items.Inv) (hn : q.items.num ≠ 0) (hf : 0 ≤ q.front) (hfr : q.front ≤ q.rear) (hr : (q.items.cnt : Int) ≤ q.rear) (x : α) :
    (arrayQueueStep q (.appendleft x)).2 ≠ .done := by
  rw [arrayQueueStep, queueAppendleft]
  rw [if_neg hn]
  dsimp only
  cases e : queueCopy q.items.data (q.rear + 1 - q.front).toNat q.front with
  | error y => intro h; cases h
  | ok old =>
    rw [ok_bind]
    have hm := copy_none q.items.data _ q.front q.rear hf hfr (by omega) (by
      intro k hk
      by_cases hlt : k < q.items.size
      · exact .inl (hd.tail k (by omega) hlt)
      · exact .inr (List.getElem?_eq_none (by simp only [Doda.size] at hlt; omega))) old e
    cases e2 : dodaOfOptions (some x :: old) with
    | error y => intro h; cases h
    | ok l => exact absurd e2 (options_none _ (List.mem_cons_of_mem _ hm) l)

/-! ## When the first element has been lost -/

/-- The elements have moved to the front of the array, but the queue looks for the first and the last element behind them. -/
private structure Gone (q : AQueue α) (l : List α) : Prop where
  stale : Stale q l
  le : q.front ≤ q.rear
  rear : (l.length : Int) ≤ q.rear

private theorem gone_append {q : AQueue α} {l : List α} (h : Gone q l) (x : α) : ∃ q', queueAppend q x = .ok q' ∧ Gone q' (l ++ [x]) := by
  obtain ⟨q', e, hs⟩ := stale_append h.stale x
  have hr := append_rear e
  have hf : q'.front = q.front := by
    have hl0 : l.length ≠ 0 := by simpa using h.stale.live
    rw [queueAppend, if_neg (by rw [h.stale.dense.num]; exact hl0)] at e
    obtain ⟨items, _, e⟩ := bind_ok e
    cases e; rfl
  have h1 := h.le
  have h2 := h.rear
  refine ⟨q', e, hs, by omega, ?_⟩
  simp only [List.length_append, List.length_singleton]
  push_cast
  omega

private theorem gone_trace : ∀ (ops : List (QueueOp α)) (q : AQueue α) (l : List α), Gone q l →
    (onlyAppends ops → trace arrayQueueStep q ops = trace queueSpec l ops) ∧
    ((l ++ dequeAdded ops).Nodup → trace arrayQueueStep q ops = trace queueSpec l ops → onlyAppends ops) := by
  intro ops
  induction ops with
  | nil => intros; simp [trace, onlyAppends]
  | cons op ops ih =>
    intro q l hs
    have hd := hs.stale.dense
    have hn : q.items.num ≠ 0 := by rw [hd.num]; simpa using hs.stale.live
    have hf := hs.stale.front
    cases op with
    | append x =>
      obtain ⟨q', e, hs'⟩ := gone_append hs x
      simp only [trace, arrayQueueStep, e, queueSpec, doneOf, List.cons.injEq, true_and, onlyAppends]
      have := ih q' _ hs'
      exact ⟨this.1, fun hn => this.2 (by simpa [dequeAdded] using hn)⟩
    | len =>
      simp only [trace, arrayQueueStep, queueLen, queueSpec, hd.num, List.cons.injEq, true_and, onlyAppends]
      exact ih q l hs
    | popleft =>
      refine ⟨fun h => h.elim, fun hn e => ?_⟩
      cases l with
      | nil => exact absurd rfl hs.stale.live
      | cons a l =>
        simp only [trace, List.cons.injEq] at e
        have ha : a ∉ l := (List.nodup_cons.1 (List.nodup_append.1 hn).1).1
        exact stale_popleft hs.stale ha e.1
    | pop =>
      refine ⟨fun h => h.elim, fun _ e => ?_⟩
      rcases List.eq_nil_or_concat l with rfl | ⟨l, y, rfl⟩
      · exact absurd rfl hs.stale.live
      · rw [List.concat_eq_append] at *
        simp only [trace, List.cons.injEq, queueSpec, List.getLast?_concat] at e
        exact pop_lost (l := l) hd.inv.1 hn (by rw [hd.cnt]; exact hs.rear) y e.1
    | appendleft x =>
      refine ⟨fun h => h.elim, fun _ e => ?_⟩
      simp only [trace, List.cons.injEq, queueSpec] at e
      exact appendleft_lost hd.inv.1 hn (by omega) hs.le (by rw [hd.cnt]; exact hs.rear) x e.1

/-! ## The steps -/

/-- `appendleft` when the queue looks for its last element in the right place. -/
private theorem appendleft_kept {q : AQueue α} {f : Nat} {l : List α} (h : QInv q f l) (hl : l ≠ []) (hr : RearAt false q f l) (x : α) :
    queueAppendleft q x = .ok ⟨Doda.ofList (x :: l), f, f + l.length⟩ := by
  obtain ⟨k, hd⟩ := h.data
  have hl0 : l.length ≠ 0 := by simpa using hl
  have hrear := hr.1 rfl
  have hcopy : ∀ (n i : Nat), i + n = l.length → queueCopy q.items.data n ((f + i : Nat) : Int) = .ok ((l.drop i).map some) := by
    intro n
    induction n with
    | zero => intro i h; rw [queueCopy, List.drop_of_length_le (by omega)]; rfl
    | succ n ih =>
      intro i hi
      have hlt : i < l.length := by omega
      have hx : listIndex q.items.data.length ((f + i : Nat) : Int) = some (f + i) := by
        rw [listIndex, if_pos (by omega), if_pos (by rw [hd]; simp; omega), Int.toNat_natCast]
      rw [queueCopy, hx]
      dsimp only
      rw [rd_of_some (x := some l[i]) (by
        rw [hd, List.append_assoc, List.getElem?_append_right (by simp), List.getElem?_append_left (by simp; omega)]; simp [hlt]), ok_bind]
      have := ih (i + 1) (by omega)
      rw [show ((f + i : Nat) : Int) + 1 = ((f + (i + 1) : Nat) : Int) by push_cast; omega, this, ok_bind, List.drop_eq_getElem_cons hlt]
      rfl
  have hc := hcopy l.length 0 (by omega)
  rw [queueAppendleft, if_neg (by rw [h.num]; exact hl0), h.front hl]
  dsimp only
  rw [show (q.rear + 1 - (f : Int)).toNat = l.length by omega]
  rw [show ((f + 0 : Nat) : Int) = (f : Int) by simp] at hc
  rw [hc, ok_bind, List.drop_zero, show some x :: l.map some = (x :: l).map some from rfl, dodaOfOptions_some, ok_bind, hrear]

private theorem deque_exact : ∀ (ops : List (QueueOp α)) (q : AQueue α) (lost : Bool) (f : Nat) (l : List α), QInv q f l → RearAt lost q f l →
    (dequeKept lost f l.length q.items.size ops → trace arrayQueueStep q ops = trace queueSpec l ops) ∧
    ((l ++ dequeAdded ops).Nodup → trace arrayQueueStep q ops = trace queueSpec l ops → dequeKept lost f l.length q.items.size ops) := by
  intro ops
  induction ops with
  | nil => intros; simp [trace, dequeKept]
  | cons op ops ih =>
    intro q lost f l hq hr
    cases op with
    | append x =>
      by_cases hbad : 0 < f ∧ 4 * (l.length + 1) < grownCap (f + l.length) q.items.size
      · obtain ⟨q', e, h'⟩ := append_lost hq x hbad.1 hbad.2
        have hl : l ≠ [] := fun e => by have := hq.empty e; omega
        have hrear := hq.rear
        have hr' := append_rear e
        have hf' : q'.front = f := by
          have hl0 : l.length ≠ 0 := by simpa using hl
          rw [queueAppend, if_neg (by rw [hq.num]; exact hl0)] at e
          obtain ⟨items, _, e⟩ := bind_ok e
          cases e; exact hq.front hl
        have hp := List.length_pos_iff.2 hl
        have := gone_trace ops q' _ ⟨h', by omega, by simp only [List.length_append, List.length_singleton]; push_cast; omega⟩
        have hk : dequeKept lost f l.length q.items.size (.append x :: ops) ↔ onlyAppends ops := by
          rw [dequeKept, if_pos hbad.2, if_neg (by omega)]
        simp only [trace, arrayQueueStep, e, queueSpec, doneOf, List.cons.injEq, true_and, hk]
        exact ⟨this.1, fun hn => this.2 (by simpa [dequeAdded] using hn)⟩
      · obtain ⟨q', e, h'⟩ : ∃ q', queueAppend q x = .ok q' ∧ QInv q' f (l ++ [x]) := by
          rcases Nat.eq_zero_or_pos f with h0 | h0
          · subst h0; exact queueAppend_spec hq x
          · exact append_kept hq x h0 fun h => hbad ⟨h0, h⟩
        have hz := append_sizes hq e
        have hr' : RearAt lost q' f (l ++ [x]) := by
          have := append_rear e
          unfold RearAt at hr ⊢
          rw [hr, this, List.length_append, List.length_singleton]
          push_cast
          omega
        have hk : dequeKept lost f l.length q.items.size (.append x :: ops) ↔ dequeKept lost f (l ++ [x]).length q'.items.size ops := by
          rw [dequeKept, List.length_append, List.length_singleton]
          split
          · rename_i hlow
            have h0 : f = 0 := by
              rcases Nat.eq_zero_or_pos f with h0 | h0
              · exact h0
              · exact absurd ⟨h0, hlow⟩ hbad
            rw [if_pos h0, hz, if_pos hlow, h0]
          · rename_i hlow
            rw [hz, if_neg hlow]
        simp only [trace, arrayQueueStep, e, queueSpec, doneOf, List.cons.injEq, true_and, hk]
        have := ih q' lost f (l ++ [x]) h' hr'
        refine ⟨this.1, fun hn => this.2 (by simpa [dequeAdded] using hn)⟩
    | len =>
      simp only [trace, arrayQueueStep, queueLen, queueSpec, hq.num, List.cons.injEq, true_and]
      exact ih q lost f l hq hr
    | popleft =>
      cases l with
      | nil =>
        have : queuePopleft q = .error .indexError := by rw [queuePopleft, if_pos (by simpa using hq.num)]
        simp only [trace, arrayQueueStep, this, queueSpec, outOf, List.cons.injEq, true_and]
        exact ih q lost f [] hq hr
      | cons x l =>
        obtain ⟨q', f', e, h', hle⟩ := queuePopleft_spec hq
        have hz := popleft_sizes hq e h'
        have hrr := popleft_rear e
        have hrear := hq.rear
        have hfront := hq.front (by simp)
        simp only [List.length_cons] at hrear
        unfold RearAt at hr
        simp only [List.length_cons] at hr
        have hpos : 0 < q.items.size := by
          obtain ⟨k, hk⟩ := hq.data
          simp only [Doda.size, hk]; simp; omega
        have hk : ∃ lost', RearAt lost' q' f' l ∧ (dequeKept lost f (x :: l).length q.items.size (.popleft :: ops) ↔ dequeKept lost' f' l.length q'.items.size ops) := by
          rw [dequeKept, List.length_cons, if_neg (by omega), Nat.add_sub_cancel]
          split
          · rename_i hlow
            rw [if_pos hlow] at hz
            refine ⟨lost || decide (l.length + 1 ≠ 1), ?_, by rw [hz.1, hz.2]⟩
            unfold RearAt
            rw [hrr, hz.1]
            by_cases hl : l = []
            · subst hl
              simp only [List.length_nil, ne_eq, not_true_eq_false, decide_false, Bool.or_false, Nat.zero_add] at hr ⊢
              rw [hr]
              split <;> omega
            · have hp := List.length_pos_iff.2 hl
              have h1 : (lost || decide (l.length + 1 ≠ 1)) = true := by simp; right; omega
              rw [h1, if_neg (by omega)]
              simp only [reduceCtorEq, false_iff]
              omega
          · rename_i hlow
            rw [if_neg hlow] at hz
            refine ⟨lost, ?_, by rw [hz.1, hz.2]⟩
            have hp : 0 < l.length := by
              rcases Nat.eq_zero_or_pos l.length with h0 | h0
              · rw [h0] at hlow; omega
              · exact h0
            unfold RearAt
            rw [hrr, hz.1, if_neg (by omega), hr]
            push_cast
            omega
        obtain ⟨lost', hr', hk⟩ := hk
        simp only [trace, arrayQueueStep, e, queueSpec, outOf, List.cons.injEq, true_and, hk]
        have := ih q' lost' f' l h' hr'
        refine ⟨this.1, fun hn => this.2 ?_⟩
        rw [List.cons_append, List.nodup_cons] at hn
        exact hn.2
    | pop =>
      rcases List.eq_nil_or_concat l with rfl | ⟨l, x, rfl⟩
      · have : queuePop q = .error .indexError := by rw [queuePop, if_pos (by simpa using hq.num)]
        simp only [trace, arrayQueueStep, this, queueSpec, outOf, List.cons.injEq, true_and, List.getLast?_nil]
        exact ih q lost f [] hq hr
      · rw [List.concat_eq_append] at *
        cases lost with
        | true =>
          have hk : ¬ dequeKept true f (l ++ [x]).length q.items.size (.pop :: ops) := by
            rw [dequeKept, if_neg (by simp), if_pos rfl]; exact id
          refine ⟨fun h => absurd h hk, fun _ e => ?_⟩
          simp only [trace, List.cons.injEq, queueSpec, List.getLast?_concat] at e
          refine absurd e.1 (pop_lost (l := l) hq.inv.1 (by rw [hq.num]; simp) ?_ x)
          have h1 := hq.rear
          unfold RearAt at hr
          simp only [reduceCtorEq, false_iff] at hr
          rw [hq.cnt]
          push_cast
          omega
        | false =>
          obtain ⟨q', e, hq'⟩ := pop_kept hq hr
          have hk : ∃ lost' f', QInv q' f' l ∧ RearAt lost' q' f' l ∧
              (dequeKept false f (l ++ [x]).length q.items.size (.pop :: ops) ↔ dequeKept lost' f' l.length q'.items.size ops) := by
            rw [dequeKept, List.length_append, List.length_singleton, if_neg (by omega), if_neg (by simp), Nat.add_sub_cancel]
            split
            · rename_i hlow
              rw [if_pos hlow] at hq'
              refine ⟨_, 0, hq'.1, hq'.2.1, ?_⟩
              rw [hq'.2.2]
              have : decide (l.length + 1 ≠ 1) = decide (l.length ≠ 0) := by simp
              rw [this]
            · rename_i hlow
              rw [if_neg hlow] at hq'
              exact ⟨false, f, hq'.1, hq'.2.1, by rw [hq'.2.2]⟩
          obtain ⟨lost', f', h', hr', hk⟩ := hk
          simp only [trace, arrayQueueStep, e, queueSpec, outOf, List.getLast?_concat, List.dropLast_concat, List.cons.injEq, true_and, hk]
          have := ih q' lost' f' l h' hr'
          refine ⟨this.1, fun hn => this.2 ?_⟩
          rw [List.append_assoc] at hn
          have := hn.sublist (l₁ := l ++ dequeAdded ops) (List.Sublist.append (List.Sublist.refl l) (List.sublist_cons_self _ _))
          exact this
    | appendleft x =>
      by_cases hl : l = []
      · subst hl
        have e : queueAppendleft q x = .ok ⟨Doda.ofList [x], 0, 0⟩ := by
          rw [queueAppendleft, if_pos (by rw [hq.num]; rfl)]; rfl
        have h' : QInv (⟨Doda.ofList [x], 0, 0⟩ : AQueue α) 0 [x] := ⟨⟨0, rfl⟩, rfl, rfl, fun _ => rfl, by simp, by simp, by simp⟩
        have := ih (⟨Doda.ofList [x], 0, 0⟩ : AQueue α) false 0 [x] h' (by simp [RearAt])
        have hk : dequeKept lost f ([] : List α).length q.items.size (.appendleft x :: ops) ↔ dequeKept false 0 [x].length (Doda.ofList [x]).size ops := by
          rw [dequeKept, List.length_nil, if_pos rfl]; rfl
        simp only [trace, arrayQueueStep, e, queueSpec, doneOf, List.cons.injEq, true_and, hk]
        exact ⟨this.1, fun hn => this.2 (by simpa [dequeAdded] using hn)⟩
      · have hl0 : l.length ≠ 0 := by simpa using hl
        have hrear := hq.rear
        have hfront := hq.front hl
        cases lost with
        | true =>
          have hk : ¬ dequeKept true f l.length q.items.size (.appendleft x :: ops) := by
            rw [dequeKept, if_neg hl0, if_pos rfl]; exact id
          refine ⟨fun h => absurd h hk, fun _ e => ?_⟩
          simp only [trace, List.cons.injEq, queueSpec] at e
          unfold RearAt at hr
          simp only [reduceCtorEq, false_iff] at hr
          refine absurd e.1 (appendleft_lost hq.inv.1 (by rw [hq.num]; exact hl0) (by omega) (by omega) ?_ x)
          rw [hq.cnt]
          push_cast
          omega
        | false =>
          have e := appendleft_kept hq hl hr x
          have hdense : (Doda.ofList (x :: l)).Dense (x :: l) := ⟨⟨0, by simp [Doda.ofList]⟩, rfl, by simp [Doda.ofList]⟩
          rcases Nat.eq_zero_or_pos f with h0 | h0
          · subst h0
            have h' : QInv (⟨Doda.ofList (x :: l), (0 : Nat), (0 : Nat) + l.length⟩ : AQueue α) 0 (x :: l) :=
              ⟨⟨0, by simp [Doda.ofList]⟩, rfl, by simp [Doda.ofList], fun _ => rfl, by simp, by simp, by simp⟩
            have := ih _ false 0 (x :: l) h' (by simp [RearAt])
            have hk : dequeKept false 0 l.length q.items.size (.appendleft x :: ops) ↔ dequeKept false 0 (x :: l).length (Doda.ofList (x :: l)).size ops := by
              rw [dequeKept, if_neg hl0, if_neg (by simp), if_pos rfl]
              simp [Doda.size, Doda.ofList]
            simp only [trace, arrayQueueStep, e, queueSpec, doneOf, List.cons.injEq, true_and, hk]
            refine ⟨this.1, fun hn => this.2 ?_⟩
            have hp : (l ++ x :: dequeAdded ops).Perm (x :: l ++ dequeAdded ops) := List.perm_middle
            exact hp.nodup_iff.1 hn
          · have := gone_trace ops (⟨Doda.ofList (x :: l), f, f + l.length⟩ : AQueue α) (x :: l)
              ⟨⟨hdense, by dsimp only; omega, by simp⟩, by dsimp only; omega, by simp only [List.length_cons]; push_cast; omega⟩
            have hk : dequeKept false f l.length q.items.size (.appendleft x :: ops) ↔ onlyAppends ops := by
              rw [dequeKept, if_neg hl0, if_neg (by simp), if_neg (by omega)]
            simp only [trace, arrayQueueStep, e, queueSpec, doneOf, List.cons.injEq, true_and, hk]
            refine ⟨this.1, fun hn => this.2 ?_⟩
            have hp : (l ++ x :: dequeAdded ops).Perm (x :: l ++ dequeAdded ops) := List.perm_middle
            exact hp.nodup_iff.1 hn

private theorem deque_start (l : List α) (q : AQueue α) (hq : queueNew (if l = [] then none else some l) = .ok q) :
    QInv q 0 l ∧ RearAt false q 0 l ∧ q.items.size = l.length := by
  by_cases hl : l = []
  · subst hl
    cases hq
    exact ⟨⟨⟨0, by simp [Doda.ofSize]⟩, rfl, rfl, by simp, by simp, by simp, by simp⟩, by simp [RearAt], rfl⟩
  · rw [if_neg hl] at hq
    cases l with
    | nil => exact absurd rfl hl
    | cons x l =>
      cases hq
      refine ⟨⟨⟨0, by simp [Doda.ofList]⟩, rfl, by simp [Doda.ofList], fun _ => rfl, by simp, by simp, by simp⟩, by simp [RearAt], by simp [Doda.size, Doda.ofList]⟩

/-- **C32**, exactly: from a new queue (empty or with items), a history of `append`, `appendleft`, `popleft`, `pop` and `len` whose values are all different is served as a double-ended
queue (values, order, `len`, `IndexError` on an empty queue) if and only if the sizes allow it. -/
theorem C32_exact (l : List α) (q : AQueue α) (hq : queueNew (if l = [] then none else some l) = .ok q) (ops : List (QueueOp α)) (hn : (l ++ dequeAdded ops).Nodup) :
    trace arrayQueueStep q ops = trace queueSpec l ops ↔ dequeKept false 0 l.length l.length ops := by
  obtain ⟨h1, h2, h3⟩ := deque_start l q hq
  have := deque_exact ops q false 0 l h1 h2
  rw [h3] at this
  exact ⟨this.2 hn, this.1⟩

/-- **C32**: with equal values too, the histories the sizes allow are served. -/
theorem C32_kept_partial (l : List α) (q : AQueue α) (hq : queueNew (if l = [] then none else some l) = .ok q) (ops : List (QueueOp α))
    (hk : dequeKept false 0 l.length l.length ops) : trace arrayQueueStep q ops = trace queueSpec l ops := by
  obtain ⟨h1, h2, h3⟩ := deque_start l q hq
  have := deque_exact ops q false 0 l h1 h2
  rw [h3] at this
  exact this.1 hk

/-- A history the sizes allow though `halfKept` does not, and the two histories of `C32_full_false` and `C32_pop_wrong`. -/
example : dequeKept false 0 0 0 ([.append 1, .append 2, .append 3, .append 4, .appendleft 5, .pop, .pop, .pop, .len, .popleft, .append 6] : List (QueueOp Nat)) ∧
    halfKept 0 0 0 ([.append 1, .append 2, .append 3, .append 4, .appendleft 5, .pop, .pop, .pop, .len, .popleft, .append 6] : List (QueueOp Nat)) = false ∧
    ¬ dequeKept false 0 0 0 ([.append 1, .append 2, .append 3, .popleft, .appendleft 9, .popleft] : List (QueueOp Nat)) ∧
    ¬ dequeKept false 0 0 0 ([.append 1, .append 2, .append 3, .append 4, .pop, .pop, .pop, .pop] : List (QueueOp Nat)) := by
  refine ⟨?_, by decide, ?_, ?_⟩ <;> simp [dequeKept, grownCap, onlyAppends]

end Props
