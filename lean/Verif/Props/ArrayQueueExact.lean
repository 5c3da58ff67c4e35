import Verif.Props.ArrayQueue
import Verif.Lemmas.Bind

/-! # C31: exactly which histories the array queue serves -/
namespace Props
open Py Model Spec
variable {α : Type}

/-- The values a history appends. -/
def appendedBy : List (QueueOp α) → List α
  | [] => []
  | .append x :: ops => x :: appendedBy ops
  | _ :: ops => appendedBy ops

/-- The capacity after `append`, before the load is checked: a full array is doubled. -/
def grownCap (used z : Nat) : Nat := if used = z then 2 * z + 1 else z

/-- What the sizes say about a history of `append`, `popleft` and `len`: `f` cells at the front are used up, `n` hold elements, `z` is the capacity. When less than a quarter of the
cells would hold elements, they are moved to the front of an array of `2 n + 1` cells; if `append` does this while cells in front are used up, the next `popleft` looks in the wrong
place. -/
def frontKept : Nat → Nat → Nat → List (QueueOp α) → Prop
  | _, _, _, [] => True
  | f, n, z, .append _ :: ops =>
    if 4 * (n + 1) < grownCap (f + n) z then
      if f = 0 then frontKept 0 (n + 1) (2 * (n + 1) + 1) ops else .popleft ∉ ops
    else frontKept f (n + 1) (grownCap (f + n) z) ops
  | f, n, z, .popleft :: ops =>
    if n = 0 then frontKept f n z ops
    else if 4 * (n - 1) < z then frontKept 0 (n - 1) (2 * (n - 1) + 1) ops
    else frontKept (f + 1) (n - 1) z ops
  | f, n, z, _ :: ops => frontKept f n z ops

/-! ## Sizes -/

private theorem wr_len {β : Type} {l r : List β} {i : Nat} {x : β} (h : wr l i x = .ok r) : r.length = l.length := by
  unfold wr at h
  split at h <;> cases h
  simp

private theorem compact_len : ∀ (src : List (Option α)) (j : Nat) (new r : List (Option α)) (j' : Nat), dodaCompact src j new = .ok (r, j') → r.length = new.length := by
  intro src
  induction src with
  | nil => intro j new r j' h; cases h; rfl
  | cons c src ih =>
    intro j new r j' h
    cases c with
    | none => exact ih _ _ _ _ h
    | some x =>
      rw [dodaCompact] at h
      obtain ⟨n1, h1, h2⟩ := bind_ok h
      rw [ih _ _ _ _ h2, wr_len h1]

private theorem copy_len (src : List (Option α)) : ∀ (n i : Nat) (new r : List (Option α)), dodaCopy src n i new = .ok r → r.length = new.length := by
  intro n
  induction n with
  | zero => intro i new r h; cases h; rfl
  | succ n ih =>
    intro i new r h
    rw [dodaCopy] at h
    obtain ⟨x, _, h⟩ := bind_ok h
    obtain ⟨n1, h1, h2⟩ := bind_ok h
    rw [ih _ _ _ h2, wr_len h1]

theorem modify_size {d d' : Doda α} (h : d.modify quarter = .ok d') : d'.size = if 4 * d.num < d.size then 2 * d.num + 1 else d.size := by
  rw [Doda.modify] at h
  split at h
  · cases h
  · split at h
    · rename_i hq
      obtain ⟨⟨r, j⟩, h1, h2⟩ := bind_ok h
      cases h2
      rw [if_pos (by simpa [quarter] using hq), Doda.size, compact_len _ _ _ _ _ h1]; simp
    · rename_i hq
      cases h
      rw [if_neg (by simpa [quarter] using hq)]

private theorem append_size {d d' : Doda α} {x : α} (h : d.append quarter x = .ok d') :
    d'.size = if 4 * (d.num + 1) < grownCap d.cnt d.size then 2 * (d.num + 1) + 1 else grownCap d.cnt d.size := by
  rw [Doda.append] at h
  unfold grownCap
  by_cases hf : d.cnt = d.size
  · simp only [if_pos hf] at h ⊢
    obtain ⟨r1, h1, h⟩ := bind_ok h
    obtain ⟨r2, h2, h⟩ := bind_ok h
    have hs := modify_size h
    have hl : r2.length = 2 * d.size + 1 := by rw [wr_len h2, copy_len _ _ _ _ _ h1]; simp
    simp only [Doda.size, hl] at hs
    exact hs
  · simp only [if_neg hf] at h ⊢
    obtain ⟨r1, h1, h⟩ := bind_ok h
    have hs := modify_size h
    have hl : r1.length = d.size := wr_len h1
    simp only [Doda.size, hl] at hs
    exact hs

private theorem delete_size {d d' : Doda α} {i : Nat} {x : α} (hi : i < d.cnt) (hx : d.data[i]? = some (some x)) (h : d.delete quarter i = .ok d') :
    d'.size = if 4 * (d.num - 1) < d.size then 2 * (d.num - 1) + 1 else d.size := by
  have hlt : i < d.size := (List.getElem?_eq_some_iff.1 hx).1
  have hg : d.get i = .ok (some x) := by
    rw [Doda.get, if_neg (by omega)]; exact rd_of_some (by simpa using hx)
  have hset : d.set i none = .ok { d with data := d.data.set i none } := by rw [Doda.set, wr_of_lt _ hlt, ok_bind]
  rw [Doda.delete, if_pos (by omega), hg, ok_bind] at h
  dsimp only at h
  rw [Int.toNat_natCast, hset, ok_bind] at h
  split at h
  all_goals
    have hs := modify_size h
    simp only [Doda.size, List.length_set] at hs
    exact hs

/-! ## The steps -/

/-- What `popleft` does to the sizes. -/
theorem popleft_sizes {q q' : AQueue α} {f f' : Nat} {x : α} {l : List α} (h : QInv q f (x :: l)) (e : queuePopleft q = .ok (some x, q')) (h' : QInv q' f' l) :
    if 4 * l.length < q.items.size then f' = 0 ∧ q'.items.size = 2 * l.length + 1 else f' = f + 1 ∧ q'.items.size = q.items.size := by
  have hnum := h.num
  have hcnt := h.cnt
  have hfront := h.front (by simp)
  simp only [List.length_cons] at hnum hcnt
  obtain ⟨k, hd⟩ := h.data
  have hx : q.items.data[f]? = some (some x) := by
    rw [hd]; simp
  have hpos : f < q.items.size := (List.getElem?_eq_some_iff.1 hx).1
  rw [queuePopleft, if_neg (by omega)] at e
  obtain ⟨y, _, e⟩ := bind_ok e
  dsimp only at e
  obtain ⟨items, e1, e⟩ := bind_ok e
  have hq : q' = ⟨items, (if q.front = q.rear then ((-1, -1) : Int × Int) else if quarter (q.items.num - 1) q.items.size = true then (0, q.rear) else (q.front + 1, q.rear)).1,
      (if q.front = q.rear then ((-1, -1) : Int × Int) else if quarter (q.items.num - 1) q.items.size = true then (0, q.rear) else (q.front + 1, q.rear)).2⟩ := by
    cases e; rfl
  rw [hfront] at e1
  have hs := delete_size (by omega) hx e1
  have hn : q.items.num - 1 = l.length := by omega
  rw [hn] at hs hq
  have hsz : q'.items.size = items.size := by rw [hq]
  rw [hsz]
  by_cases hlow : 4 * l.length < q.items.size
  · rw [if_pos hlow] at hs ⊢
    refine ⟨?_, hs⟩
    by_cases hl : l = []
    · exact h'.empty hl
    · have hf := h'.front hl
      rw [hq] at hf
      dsimp only at hf
      rw [if_pos (show quarter l.length q.items.size = true by simpa [quarter] using hlow)] at hf
      split at hf
      · dsimp only at hf; omega
      · dsimp only at hf; omega
  · rw [if_neg hlow] at hs ⊢
    refine ⟨?_, hs⟩
    have hl : l ≠ [] := by
      rintro rfl
      simp at hlow; omega
    have hf := h'.front hl
    rw [hq] at hf
    dsimp only at hf
    rw [if_neg (show ¬ quarter l.length q.items.size = true by simpa [quarter] using hlow)] at hf
    split at hf
    · dsimp only at hf; omega
    · dsimp only at hf; omega

/-- What `append` does to the sizes. -/
theorem append_sizes {q q' : AQueue α} {f : Nat} {x : α} {l : List α} (h : QInv q f l) (e : queueAppend q x = .ok q') :
    q'.items.size = if 4 * (l.length + 1) < grownCap (f + l.length) q.items.size then 2 * (l.length + 1) + 1 else grownCap (f + l.length) q.items.size := by
  rw [queueAppend] at e
  obtain ⟨items, e1, e⟩ := bind_ok e
  cases e
  have := append_size e1
  rw [h.num, h.cnt] at this
  exact this

/-- `append` without contraction. -/
theorem append_kept {q : AQueue α} {f : Nat} {l : List α} (h : QInv q f l) (x : α) (hf : 0 < f) (hq : ¬ 4 * (l.length + 1) < grownCap (f + l.length) q.items.size) :
    ∃ q', queueAppend q x = .ok q' ∧ QInv q' f (l ++ [x]) := by
  have hl : l ≠ [] := fun e => by have := h.empty e; omega
  obtain ⟨hinv, hlive⟩ := h.inv
  have hnum := h.num
  have hcnt := h.cnt
  have hrear := h.rear
  have hfront := h.front hl
  obtain ⟨k, hd⟩ := h.data
  obtain ⟨data, e, k', hk', hkv⟩ := Doda.append_raw' quarter hinv x
  have htake : q.items.data.take q.items.cnt = List.replicate f none ++ l.map some := by
    rw [hd, List.take_left']; simp [hcnt]
  have hsz : q.items.size = f + l.length + k := by simp [Doda.size, hd]; omega
  have hdata : data = List.replicate f none ++ (l ++ [x]).map some ++ List.replicate k' none := by
    rw [hk', htake]; simp
  have hlen : data.length = f + l.length + 1 + k' := by rw [hdata]; simp; omega
  have hq' : quarter (q.items.num + 1) data.length = false := by
    simp only [quarter, decide_eq_false_iff_not]
    unfold grownCap at hq
    split at hkv <;> split at hq <;> omega
  have e2 : queueAppend q x = .ok ⟨⟨data, q.items.num + 1, q.items.cnt + 1⟩, q.front, q.rear + 1⟩ := by
    have hl0 : l.length ≠ 0 := by simpa using hl
    rw [queueAppend, e, Doda.modify_high quarter (by simp only [Doda.size]; omega) hq', if_neg (by omega)]
    rfl
  refine ⟨_, e2, ⟨k', hdata⟩, by simp [hnum], by simp [hcnt]; omega, fun _ => hfront, ?_, by simp, fun _ => hq'⟩
  simp only [List.length_append, List.length_singleton]
  push_cast at hrear ⊢
  omega

/-- The elements have moved to the front of the array, but the queue still looks behind it. -/
structure Stale (q : AQueue α) (l : List α) : Prop where
  dense : q.items.Dense l
  front : 0 < q.front
  live : l ≠ []

/-- `append` with a contraction. -/
theorem append_lost {q : AQueue α} {f : Nat} {l : List α} (h : QInv q f l) (x : α) (hf : 0 < f) (hq : 4 * (l.length + 1) < grownCap (f + l.length) q.items.size) :
    ∃ q', queueAppend q x = .ok q' ∧ Stale q' (l ++ [x]) := by
  have hl : l ≠ [] := fun e => by have := h.empty e; omega
  obtain ⟨hinv, hlive⟩ := h.inv
  have hnum := h.num
  have hcnt := h.cnt
  have hfront := h.front hl
  obtain ⟨k, hd⟩ := h.data
  obtain ⟨data, e, k', hk', hkv⟩ := Doda.append_raw' quarter hinv x
  have htake : q.items.data.take q.items.cnt = List.replicate f none ++ l.map some := by
    rw [hd, List.take_left']; simp [hcnt]
  have hsz : q.items.size = f + l.length + k := by simp [Doda.size, hd]; omega
  have hdata : data = List.replicate f none ++ (l ++ [x]).map some ++ List.replicate k' none := by
    rw [hk', htake]; simp
  have hlen : data.length = f + l.length + 1 + k' := by rw [hdata]; simp; omega
  have hq' : quarter (q.items.num + 1) data.length = true := by
    simp only [quarter, decide_eq_true_eq]
    unfold grownCap at hq
    split at hkv <;> split at hq <;> omega
  have hinv2 : (⟨data, q.items.num + 1, q.items.cnt + 1⟩ : Doda α).Inv ∧ (⟨data, q.items.num + 1, q.items.cnt + 1⟩ : Doda α).live = l ++ [x] := by
    have hl2 : (⟨data, q.items.num + 1, q.items.cnt + 1⟩ : Doda α).live = l ++ [x] := by
      rw [Doda.live, hdata, List.filterMap_append, List.filterMap_append, filterMap_replicate_none, filterMap_replicate_none, List.append_nil, List.filterMap_map]
      simp
    refine ⟨⟨by simp only [Doda.size]; omega, by rw [hl2]; simp [hnum], ?_⟩, hl2⟩
    intro i h1 h2
    simp only [Doda.size] at h1 h2
    dsimp only
    rw [hdata, List.getElem?_append_right (by simp; omega), List.getElem?_replicate, if_pos (by simp; omega)]
  obtain ⟨d', e2, hdense⟩ := Doda.modify_low quarter hinv2.1 (by simp only [Doda.size]; omega) hq'
  rw [hinv2.2] at hdense
  have hl0 : l.length ≠ 0 := by simpa using hl
  refine ⟨⟨d', q.front, q.rear + 1⟩, ?_, hdense, by dsimp only; omega, by simp⟩
  rw [queueAppend, e, e2, if_neg (by omega)]
  rfl

theorem stale_append {q : AQueue α} {l : List α} (h : Stale q l) (x : α) : ∃ q', queueAppend q x = .ok q' ∧ Stale q' (l ++ [x]) := by
  obtain ⟨d', e, hd⟩ := Doda.append_dense quarter h.dense x
  have hl0 : l.length ≠ 0 := by simpa using h.live
  refine ⟨⟨d', q.front, q.rear + 1⟩, ?_, hd, h.front, by simp⟩
  rw [queueAppend, e, if_neg (by rw [h.dense.num]; exact hl0)]
  rfl

/-- Then `popleft` does not answer the first element. -/
theorem stale_popleft {q : AQueue α} {a : α} {l : List α} (h : Stale q (a :: l)) (hn : a ∉ l) : (arrayQueueStep q .popleft).2 ≠ .elem a := by
  rw [arrayQueueStep, queuePopleft, if_neg (by rw [h.dense.num]; simp)]
  cases e : q.items.get q.front with
  | error x => intro h; cases h
  | ok v =>
    rw [ok_bind]
    dsimp only
    generalize q.items.delete quarter q.front = r
    cases r with
    | error x => intro h; cases h
    | ok d =>
      cases v with
      | none => intro h; cases h
      | some y =>
        intro hy
        have hy' : y = a := by injection hy
        subst hy'
        obtain ⟨k, hd⟩ := h.dense.data
        rw [Doda.get] at e
        split at e
        · cases e
        · rw [rd_eq_ok, hd] at e
          have hf := h.front
          obtain ⟨m, hm⟩ : ∃ m, q.front.toNat = m + 1 := ⟨q.front.toNat - 1, by omega⟩
          rw [hm, List.map_cons, List.cons_append, List.getElem?_cons_succ] at e
          have := List.mem_of_getElem? e
          rcases List.mem_append.1 this with h1 | h1
          · obtain ⟨z, hz, ez⟩ := List.mem_map.1 h1
            cases ez
            exact hn hz
          · have := List.eq_of_mem_replicate h1
            cases this

/-- From then on a history is served exactly as long as `popleft` is not called. -/
private theorem stale_trace : ∀ (ops : List (QueueOp α)) (q : AQueue α) (l : List α), ops.all QueueOp.isFifo = true → Stale q l →
    (.popleft ∉ ops → trace arrayQueueStep q ops = trace queueSpec l ops) ∧
    ((l ++ appendedBy ops).Nodup → trace arrayQueueStep q ops = trace queueSpec l ops → .popleft ∉ ops) := by
  intro ops
  induction ops with
  | nil => intros; simp [trace]
  | cons op ops ih =>
    intro q l ho hs
    rw [List.all_cons, Bool.and_eq_true] at ho
    cases op with
    | append x =>
      obtain ⟨q', e, hs'⟩ := stale_append hs x
      simp only [trace, arrayQueueStep, e, queueSpec, doneOf, List.cons.injEq, true_and, List.mem_cons, reduceCtorEq, false_or]
      have := ih q' _ ho.2 hs'
      exact ⟨this.1, fun hn => this.2 (by simpa [appendedBy] using hn)⟩
    | len =>
      simp only [trace, arrayQueueStep, queueLen, queueSpec, hs.dense.num, List.cons.injEq, true_and, List.mem_cons, reduceCtorEq, false_or]
      exact ih q l ho.2 hs
    | popleft =>
      constructor
      · intro h; simp at h
      · intro hn e
        cases l with
        | nil => exact absurd rfl hs.live
        | cons a l =>
          simp only [trace, List.cons.injEq] at e
          have ha : a ∉ l := by
            have := (List.nodup_append.1 hn).1
            exact (List.nodup_cons.1 this).1
          exact absurd e.1 (stale_popleft hs ha)
    | appendleft x => simp [QueueOp.isFifo] at ho
    | pop => simp [QueueOp.isFifo] at ho

private theorem queue_exact : ∀ (ops : List (QueueOp α)) (q : AQueue α) (f : Nat) (l : List α), ops.all QueueOp.isFifo = true → QInv q f l →
    (frontKept f l.length q.items.size ops → trace arrayQueueStep q ops = trace queueSpec l ops) ∧
    ((l ++ appendedBy ops).Nodup → trace arrayQueueStep q ops = trace queueSpec l ops → frontKept f l.length q.items.size ops) := by
  intro ops
  induction ops with
  | nil => intros; simp [trace, frontKept]
  | cons op ops ih =>
    intro q f l ho hq
    rw [List.all_cons, Bool.and_eq_true] at ho
    cases op with
    | append x =>
      by_cases hbad : 0 < f ∧ 4 * (l.length + 1) < grownCap (f + l.length) q.items.size
      · obtain ⟨q', e, h'⟩ := append_lost hq x hbad.1 hbad.2
        have := stale_trace ops q' _ ho.2 h'
        have hk : frontKept f l.length q.items.size (.append x :: ops) ↔ .popleft ∉ ops := by
          rw [frontKept, if_pos hbad.2, if_neg (by omega)]
        simp only [trace, arrayQueueStep, e, queueSpec, doneOf, List.cons.injEq, true_and, hk]
        exact ⟨this.1, fun hn => this.2 (by simpa [appendedBy] using hn)⟩
      · obtain ⟨q', e, h'⟩ : ∃ q', queueAppend q x = .ok q' ∧ QInv q' f (l ++ [x]) := by
          rcases Nat.eq_zero_or_pos f with h0 | h0
          · subst h0; exact queueAppend_spec hq x
          · exact append_kept hq x h0 fun h => hbad ⟨h0, h⟩
        have hz := append_sizes hq e
        have hk : frontKept f l.length q.items.size (.append x :: ops) ↔ frontKept f (l ++ [x]).length q'.items.size ops := by
          rw [frontKept, List.length_append, List.length_singleton]
          split
          · rename_i hlow
            have h0 : f = 0 := by
              rcases Nat.eq_zero_or_pos f with h0 | h0
              · exact h0
              · exact absurd ⟨h0, hlow⟩ hbad
            rw [if_pos h0, hz, if_pos hlow, h0]
          · rename_i hlow
            rw [hz, if_neg hlow]
        simp only [trace, arrayQueueStep, e, queueSpec, doneOf, List.cons.injEq, true_and, hk]
        have := ih q' f (l ++ [x]) ho.2 h'
        refine ⟨this.1, fun hn => this.2 (by simpa [appendedBy] using hn)⟩
    | len =>
      simp only [trace, arrayQueueStep, queueLen, queueSpec, hq.num, List.cons.injEq, true_and]
      exact ih q f l ho.2 hq
    | popleft =>
      cases l with
      | nil =>
        have : queuePopleft q = .error .indexError := by rw [queuePopleft, if_pos (by simpa using hq.num)]
        simp only [trace, arrayQueueStep, this, queueSpec, outOf, List.cons.injEq, true_and]
        exact ih q f [] ho.2 hq
      | cons x l =>
        obtain ⟨q', f', e, h', hle⟩ := queuePopleft_spec hq
        have hz := popleft_sizes hq e h'
        have hk : frontKept f (x :: l).length q.items.size (.popleft :: ops) ↔ frontKept f' l.length q'.items.size ops := by
          rw [frontKept, List.length_cons, if_neg (by omega), Nat.add_sub_cancel]
          split
          · rename_i hlow
            rw [if_pos hlow] at hz
            rw [hz.1, hz.2]
          · rename_i hlow
            rw [if_neg hlow] at hz
            rw [hz.1, hz.2]
        simp only [trace, arrayQueueStep, e, queueSpec, outOf, List.cons.injEq, true_and, hk]
        have := ih q' f' l ho.2 h'
        refine ⟨this.1, fun hn => this.2 ?_⟩
        rw [List.cons_append, List.nodup_cons] at hn
        exact hn.2
    | appendleft x => simp [QueueOp.isFifo] at ho
    | pop => simp [QueueOp.isFifo] at ho

/-- **C31**, exactly: a history of `append`, `popleft` and `len` that appends different values is served as a FIFO queue (values, order, `len`, `IndexError` on an empty queue) if
and only if the sizes say that no `append` moves the elements while cells in front of them are used up, or that no `popleft` follows one that does. -/
theorem C31_exact (ops : List (QueueOp α)) (ho : ops.all QueueOp.isFifo = true) (hn : (appendedBy ops).Nodup) :
    ∃ q, queueNew none = .ok q ∧ (trace arrayQueueStep q ops = trace queueSpec [] ops ↔ frontKept 0 0 0 ops) := by
  refine ⟨_, rfl, ?_⟩
  have := queue_exact ops (⟨Doda.ofSize 0, -1, -1⟩ : AQueue α) 0 [] ho ⟨⟨0, by simp [Doda.ofSize]⟩, rfl, rfl, by simp, by simp, by simp, by simp⟩
  exact ⟨this.2 (by simpa using hn), this.1⟩

/-- **C31**: with equal values too, the histories the sizes allow are served. -/
theorem C31_kept_partial (ops : List (QueueOp α)) (ho : ops.all QueueOp.isFifo = true) (hk : frontKept 0 0 0 ops) :
    ∃ q, queueNew none = .ok q ∧ trace arrayQueueStep q ops = trace queueSpec [] ops :=
  ⟨_, rfl, (queue_exact ops (⟨Doda.ofSize 0, -1, -1⟩ : AQueue α) 0 [] ho ⟨⟨0, by simp [Doda.ofSize]⟩, rfl, rfl, by simp, by simp, by simp, by simp⟩).1 hk⟩

/-- Three elements of four taken out, then one appended: allowed by the sizes (the array has seven cells), though not by `halfFull`. -/
example : frontKept 0 0 0 ([.append 1, .append 2, .append 3, .append 4, .popleft, .popleft, .popleft, .append 5, .popleft, .popleft] : List (QueueOp Nat)) ∧
    halfFull 0 0 ([.append 1, .append 2, .append 3, .append 4, .popleft, .popleft, .popleft, .append 5, .popleft, .popleft] : List (QueueOp Nat)) = false := by
  constructor
  · simp [frontKept, grownCap]
  · decide

/-- The history of `C31_full_false` is not allowed. -/
example : ¬ frontKept 0 0 0 ([.append 1, .append 2, .append 3, .append 4, .append 5, .append 6, .append 7,
    .popleft, .popleft, .popleft, .popleft, .popleft, .append 8, .popleft] : List (QueueOp Nat)) := by
  simp [frontKept, grownCap]

end Props
