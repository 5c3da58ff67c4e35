import Verif.Model.LinkedContainers
import Verif.Props.LinkedList
import Verif.Props.ArrayQueue
import Verif.Props.ArrayStack
import Verif.Props.Heap

/-!
# C30, C33, C34: stack, queue and priority queue on a singly linked list
-/
namespace Props
open Py Model Spec
variable {α κ δ : Type}

/-- The list object holds the sequence `l`. -/
def Holds (s : LL κ δ) (l : List (κ × δ)) : Prop := ∃ ids, Rep false false true s ids l

theorem holds_new : Holds (LL.new : LL κ δ) [] := ⟨[], Rep.new _ _ _⟩

theorem Holds.size {s : LL κ δ} {l : List (κ × δ)} (h : Holds s l) : s.size = l.length := by
  obtain ⟨ids, R⟩ := h; exact R.size

theorem Holds.appendleft {s : LL κ δ} {l : List (κ × δ)} (h : Holds s l) (x : κ × δ) :
    ∃ s', sllClass.appendleft s x = .ok s' ∧ Holds s' (x :: l) := by
  obtain ⟨ids, R⟩ := h
  obtain ⟨s', ids', e, R'⟩ := sll_ok.insertAt s ids l 0 x 0 R (Or.inl (by omega)) ⟨Nat.zero_le _, Or.inl rfl⟩
  exact ⟨s', e, ids', by simpa using R'⟩

theorem Holds.append {s : LL κ δ} {l : List (κ × δ)} (h : Holds s l) (x : κ × δ) :
    ∃ s', sllClass.append s x = .ok s' ∧ Holds s' (l ++ [x]) := by
  obtain ⟨ids, R⟩ := h
  obtain ⟨s', ids', e, R'⟩ := sll_ok.insertAt s ids l l.length x l.length R (Or.inl (by omega)) ⟨Nat.le_refl _, Or.inl rfl⟩
  refine ⟨s', ?_, ids', by simpa using R'⟩
  rw [LLClass.append, R.size]; exact e

theorem Holds.extract {s : LL κ δ} {l : List (κ × δ)} (h : Holds s l) (k : Nat) (hk : k < l.length) :
    ∃ s' p, sllClass.extract s k = .ok (s', p) ∧ s'.val p = some l[k] ∧ Holds s' (l.eraseIdx k) := by
  obtain ⟨ids, R⟩ := h
  have hki : k < ids.length := by rw [R.len]; exact hk
  obtain ⟨s', ids', e, hv, R'⟩ := sll_ok.extract s ids l k k _ R (Or.inr (by omega)) ⟨hk, Or.inl rfl⟩ (List.getElem?_eq_getElem hki)
  refine ⟨s', _, e, ?_, ids', R'⟩
  rw [hv, R.vals k _ (List.getElem?_eq_getElem hki), List.getElem?_eq_getElem hk]

theorem Holds.popleft {s : LL κ δ} {x : κ × δ} {l : List (κ × δ)} (h : Holds s (x :: l)) :
    ∃ s' p, sllClass.popleft s = .ok (s', p) ∧ s'.val p = some x ∧ Holds s' l := by
  obtain ⟨s', p, e, hv, h'⟩ := h.extract 0 (by simp)
  exact ⟨s', p, e, by simpa using hv, by simpa using h'⟩

theorem Holds.popright {s : LL κ δ} {x : κ × δ} {l : List (κ × δ)} (h : Holds s (l ++ [x])) :
    ∃ s' p, sllClass.popright s = .ok (s', p) ∧ s'.val p = some x ∧ Holds s' l := by
  obtain ⟨ids, R⟩ := h
  have hki : l.length < ids.length := by rw [R.len]; simp
  obtain ⟨s', ids', e, hv, R'⟩ := sll_ok.extract s ids (l ++ [x]) (-1) l.length _ R (Or.inr (by simp; omega))
    ⟨by simp, Or.inr ⟨by omega, by simp; omega⟩⟩ (List.getElem?_eq_getElem hki)
  refine ⟨s', _, e, ?_, ids', ?_⟩
  · rw [hv, R.vals _ _ (List.getElem?_eq_getElem hki)]; simp
  · rw [List.eraseIdx_append_of_length_le (Nat.le_refl _)] at R'
    simpa using R'

theorem Holds.head {s : LL κ δ} {l : List (κ × δ)} (h : Holds s l) : s.head.bind s.val = l.head? := by
  obtain ⟨ids, R⟩ := h
  rw [R.head]
  cases l with
  | nil => rw [List.length_eq_zero_iff.1 (show ids.length = 0 by rw [R.len]; rfl)]; rfl
  | cons x l =>
    have hki : 0 < ids.length := by rw [R.len]; simp
    rw [List.getElem?_eq_getElem hki, Option.bind_some, R.vals 0 _ (List.getElem?_eq_getElem hki)]; rfl

theorem Holds.tail {s : LL κ δ} {l : List (κ × δ)} (h : Holds s l) : s.tail.bind s.val = l.getLast? := by
  obtain ⟨ids, R⟩ := h
  rw [R.tail]
  by_cases h0 : l = []
  · subst h0
    rw [List.length_eq_zero_iff.1 (show ids.length = 0 by rw [R.len]; rfl)]; rfl
  · have := List.length_pos_iff.2 h0
    have hki : ids.length - 1 < ids.length := by rw [R.len]; omega
    rw [List.getElem?_eq_getElem hki, Option.bind_some, R.vals _ _ (List.getElem?_eq_getElem hki), R.len, List.getLast?_eq_getElem?]

/-- The key of the node returned by a call. -/
def nodeOut (s : LL α δ) : PyM (LL α δ × Nat) → LL α δ × Out α
  | .ok (s', p) => match s'.val p with
    | some x => (s', .elem x.1)
    | none => (s', .nothing)
  | .error e => (s, .raised e)

/-- The key of the node an attribute refers to, or nothing. -/
def attrOut (s : LL α δ) (p : Option Nat) : Out α :=
  match p.bind s.val with
  | some x => .elem x.1
  | none => .nothing

/-! ## C30 -/

/-- One call on a linked-list-backed stack; values are shown by the key of their node. -/
def lstackStep (s : LL α Unit) : StackOp α → LL α Unit × Out α
  | .push x => doneOf s (lstackPush s x)
  | .pop => nodeOut s (lstackPop s)
  | .peek => (s, attrOut s (lstackPeek s))
  | .len => (s, .count s.size)
  | .isEmpty => (s, .flag (s.size == 0))

/-- Specification: a list with its top at the end; `peek` of an empty stack is `None`. -/
def lstackSpec (l : List α) : StackOp α → List α × Out α
  | .push x => (l ++ [x], .done)
  | .pop => match l.getLast? with
    | some x => (l.dropLast, .elem x)
    | none => (l, .raised .indexError)
  | .peek => match l.getLast? with
    | some x => (l, .elem x)
    | none => (l, .nothing)
  | .len => (l, .count l.length)
  | .isEmpty => (l, .flag l.isEmpty)

/-- The list kept for the stack content `l`. -/
def pays (l : List α) : List (α × Unit) := l.map fun x => (x, ())

theorem lstack_step (s : LL α Unit) (l : List α) (op : StackOp α) (h : Holds s (pays l.reverse)) :
    Holds (lstackStep s op).1 (pays (lstackSpec l op).1.reverse) ∧ (lstackStep s op).2 = (lstackSpec l op).2 := by
  have hs : s.size = l.length := by rw [h.size]; simp [pays]
  cases op with
  | push x =>
    obtain ⟨s', e, h'⟩ := h.appendleft (x, ())
    simp only [lstackStep, lstackPush, e, doneOf, lstackSpec]
    exact ⟨by simpa [pays] using h', trivial⟩
  | pop =>
    rcases List.eq_nil_or_concat l with rfl | ⟨l, x, rfl⟩
    · have : lstackPop s = .error .indexError := by simp [lstackPop, hs]
      simp only [lstackStep, this, nodeOut, lstackSpec]
      exact ⟨h, rfl⟩
    · rw [List.concat_eq_append] at *
      have h2 : Holds s ((x, ()) :: pays l.reverse) := by simpa [pays] using h
      obtain ⟨s', p, e, hv, h'⟩ := h2.popleft
      have : lstackPop s = .ok (s', p) := by rw [lstackPop, if_neg (by rw [hs]; simp), e]
      simp only [lstackStep, this, nodeOut, hv, lstackSpec]
      simpa using h'
  | peek =>
    simp only [lstackStep, lstackPeek, attrOut, h.head, lstackSpec]
    rcases List.eq_nil_or_concat l with rfl | ⟨l, x, rfl⟩
    · exact ⟨h, rfl⟩
    · rw [List.concat_eq_append] at *
      simp [pays] at h ⊢
      exact h
  | len => exact ⟨h, by simp [lstackStep, lstackSpec, hs]⟩
  | isEmpty => exact ⟨h, by simp [lstackStep, lstackSpec, hs]; cases l <;> simp⟩

/-- C30. Through every history of calls a linked-list-backed stack answers as a list with push and pop at its end. -/
theorem C30_linked_list_stack (items : Option (List α)) (ops : List (StackOp α)) :
    ∃ s, lstackNew items = .ok s ∧ trace lstackStep s ops = trace lstackSpec (items.getD []) ops := by
  have key : ∀ (xs done : List α) (s : LL α Unit), Holds s (pays done.reverse) →
      ∃ s', forList xs s (fun x s => lstackPush s x) = .ok s' ∧ Holds s' (pays (done ++ xs).reverse) := by
    intro xs
    induction xs with
    | nil => intro done s h; exact ⟨s, rfl, by simpa using h⟩
    | cons x xs ih =>
      intro done s h
      obtain ⟨s1, e1, h1⟩ := h.appendleft (x, ())
      obtain ⟨s2, e2, h2⟩ := ih (done ++ [x]) s1 (by simpa [pays] using h1)
      refine ⟨s2, ?_, by simpa using h2⟩
      rw [forList]
      simp only [lstackPush, e1, ok_bind]
      exact e2
  obtain ⟨s, e, h⟩ := key (items.getD []) [] LL.new holds_new
  exact ⟨s, e, (trace_eq (fun s l => Holds s (pays l.reverse)) (fun s t op h => lstack_step s t op h) ops s _ (by simpa using h)).1⟩

example : trace lstackStep (LL.new : LL Nat Unit) [.push 1, .push 2, .peek, .pop, .len, .pop, .pop, .peek, .isEmpty] =
    [.done, .done, .elem 2, .elem 2, .count 1, .elem 1, .raised .indexError, .nothing, .flag true] := by decide

/-! ## C33 -/

inductive DequeOp (α : Type)
  | append (x : α)
  | appendleft (x : α)
  | pop
  | popleft
  | front
  | rear
  | len
  | isEmpty

/-- One call on a linked-list-backed queue built with `double_ended = de`. -/
def lqueueStep (de : Bool) (s : LL α Unit) : DequeOp α → LL α Unit × Out α
  | .append x => doneOf s (lqueueAppend s x)
  | .appendleft x => doneOf s (lqueueAppendleft de s x)
  | .pop => nodeOut s (lqueuePop de s)
  | .popleft => nodeOut s (lqueuePopleft s)
  | .front => (s, attrOut s s.head)
  | .rear => (s, attrOut s s.tail)
  | .len => (s, .count s.size)
  | .isEmpty => (s, .flag (s.size == 0))

/-- Specification: a list, front first. Without `double_ended`, `appendleft` and `pop` raise `NotImplementedError`. -/
def dequeSpec (de : Bool) (l : List α) : DequeOp α → List α × Out α
  | .append x => (l ++ [x], .done)
  | .appendleft x => if de then (x :: l, .done) else (l, .raised .notImplemented)
  | .pop => if de then match l.getLast? with
      | some x => (l.dropLast, .elem x)
      | none => (l, .raised .indexError)
    else (l, .raised .notImplemented)
  | .popleft => match l with
    | x :: l => (l, .elem x)
    | [] => ([], .raised .indexError)
  | .front => (l, match l.head? with | some x => .elem x | none => .nothing)
  | .rear => (l, match l.getLast? with | some x => .elem x | none => .nothing)
  | .len => (l, .count l.length)
  | .isEmpty => (l, .flag l.isEmpty)

theorem lqueue_step (de : Bool) (s : LL α Unit) (l : List α) (op : DequeOp α) (h : Holds s (pays l)) :
    Holds (lqueueStep de s op).1 (pays (dequeSpec de l op).1) ∧ (lqueueStep de s op).2 = (dequeSpec de l op).2 := by
  have hs : s.size = l.length := by rw [h.size]; simp [pays]
  cases op with
  | append x =>
    obtain ⟨s', e, h'⟩ := h.append (x, ())
    simp only [lqueueStep, lqueueAppend, e, doneOf, dequeSpec]
    exact ⟨by simpa [pays] using h', trivial⟩
  | appendleft x =>
    cases de with
    | false => exact ⟨h, rfl⟩
    | true =>
      obtain ⟨s', e, h'⟩ := h.appendleft (x, ())
      simp only [lqueueStep, lqueueAppendleft, doubleEndedCheck, if_true, ok_bind, e, doneOf, dequeSpec]
      exact ⟨by simpa [pays] using h', trivial⟩
  | pop =>
    cases de with
    | false => exact ⟨h, rfl⟩
    | true =>
      rcases List.eq_nil_or_concat l with rfl | ⟨l, x, rfl⟩
      · have : lqueuePop true s = .error .indexError := by simp [lqueuePop, doubleEndedCheck, hs, ok_bind]
        simp only [lqueueStep, this, nodeOut, dequeSpec]
        exact ⟨h, rfl⟩
      · rw [List.concat_eq_append] at *
        have h2 : Holds s (pays l ++ [(x, ())]) := by simpa [pays] using h
        obtain ⟨s', p, e, hv, h'⟩ := h2.popright
        have : lqueuePop true s = .ok (s', p) := by
          simp only [lqueuePop, doubleEndedCheck, if_true, ok_bind]
          rw [if_neg (by rw [hs]; simp), e]
        simp only [lqueueStep, this, nodeOut, hv, dequeSpec]
        simpa using h'
  | popleft =>
    cases l with
    | nil =>
      have : lqueuePopleft s = .error .indexError := by simp [lqueuePopleft, hs]
      simp only [lqueueStep, this, nodeOut, dequeSpec]
      exact ⟨h, trivial⟩
    | cons x l =>
      obtain ⟨s', p, e, hv, h'⟩ := Holds.popleft (x := (x, ())) (l := pays l) h
      have : lqueuePopleft s = .ok (s', p) := by rw [lqueuePopleft, if_neg (by rw [hs]; simp), e]
      simp only [lqueueStep, this, nodeOut, hv, dequeSpec]
      exact ⟨h', trivial⟩
  | front =>
    simp only [lqueueStep, attrOut, h.head, dequeSpec]
    cases l with
    | nil => exact ⟨h, rfl⟩
    | cons x l => exact ⟨h, rfl⟩
  | rear =>
    simp only [lqueueStep, attrOut, h.tail, dequeSpec]
    refine ⟨h, ?_⟩
    simp only [pays, List.getLast?_map]
    cases l.getLast? <;> rfl
  | len => exact ⟨h, by simp [lqueueStep, dequeSpec, hs]⟩
  | isEmpty => exact ⟨h, by simp [lqueueStep, dequeSpec, hs]; cases l <;> simp⟩

/-- C33. Through every history of calls a linked-list-backed queue answers as a double-ended list. -/
theorem C33_linked_list_queue (de : Bool) (items : Option (List α)) (ops : List (DequeOp α)) :
    ∃ s, lqueueNew items = .ok s ∧ trace (lqueueStep de) s ops = trace (dequeSpec de) (items.getD []) ops := by
  have key : ∀ (xs done : List α) (s : LL α Unit), Holds s (pays done) →
      ∃ s', forList xs s (fun x s => lqueueAppend s x) = .ok s' ∧ Holds s' (pays (done ++ xs)) := by
    intro xs
    induction xs with
    | nil => intro done s h; exact ⟨s, rfl, by simpa using h⟩
    | cons x xs ih =>
      intro done s h
      obtain ⟨s1, e1, h1⟩ := h.append (x, ())
      obtain ⟨s2, e2, h2⟩ := ih (done ++ [x]) s1 (by simpa [pays] using h1)
      refine ⟨s2, ?_, by simpa using h2⟩
      rw [forList]
      simp only [lqueueAppend, e1, ok_bind]
      exact e2
  obtain ⟨s, e, h⟩ := key (items.getD []) [] LL.new holds_new
  exact ⟨s, e, (trace_eq (fun s l => Holds s (pays l)) (fun s t op h => lqueue_step de s t op h) ops s _ (by simpa using h)).1⟩

example : trace (lqueueStep true) (LL.new : LL Nat Unit) [.append 1, .appendleft 2, .append 3, .pop, .rear, .popleft, .len, .popleft, .popleft] =
    [.done, .done, .done, .elem 3, .elem 1, .elem 2, .count 1, .elem 1, .raised .indexError] := by decide

example : trace (lqueueStep false) (LL.new : LL Nat Unit) [.append 1, .pop, .appendleft 2, .popleft] =
    [.done, .raised .notImplemented, .raised .notImplemented, .elem 1] := by decide

/-! ## C34 -/

variable {ν π : Type}

/-- One call on a `LinkedListPriorityQueue`; `pop` answers the value, `peek` the node. -/
def lpqStep (comp : π → π → Bool) (s : LL π ν) : PqOp ν π → LL π ν × Out (Option π × ν)
  | .push v p => doneOf s (lpqPush s v p)
  | .pop => match lpqPop comp s with
    | .ok (s', n) => match s'.val n with
      | some x => (s', .elem (none, x.2))
      | none => (s', .nothing)
    | .error e => (s, .raised e)
  | .peek => match lpqFindPeek comp s with
    | .ok (n, _) => match n.bind s.val with
      | some x => (s, .elem (some x.1, x.2))
      | none => (s, .nothing)
    | .error e => (s, .raised e)
  | .isEmpty => (s, .flag (s.size == 0))

/-- The scan finds a position `m` whose priority is least; with a strict comparator the first such position. -/
theorem findPeek_spec {comp : π → π → Bool} {le : π → π → Prop} (hle : TotalPreorder le) (hc : Compat comp le)
    {s : LL π ν} {ids : List Nat} {l : List (π × ν)} (R : Rep false false true s ids l) (h0 : l ≠ []) :
    ∃ m x, lpqFindPeek comp s = .ok (ids[m]?, m) ∧ l[m]? = some x ∧ (∀ y ∈ l, le x.1 y.1) ∧
      ((∀ a b, comp a b = true → ¬ le b a) → ∀ j y, j < m → l[j]? = some y → ¬ le y.1 x.1) := by
  have hlen := R.len
  have hroom := R.room
  have hpos : 0 < l.length := List.length_pos_iff.2 h0
  have refl : ∀ a, le a a := fun a => (hle.total a a).elim id id
  obtain ⟨st, e, ⟨x, h1, h2, h3, h4, h5, h6⟩, hcond⟩ := whileLoop_spec
    (fun st : PeekSt => ∃ x, st.i ≤ l.length ∧ st.walk = ids[st.i]? ∧ st.maxP = ids[st.maxI]? ∧ l[st.maxI]? = some x ∧
      (∀ j y, j < st.i → l[j]? = some y → le x.1 y.1) ∧
      ((∀ a b, comp a b = true → ¬ le b a) → st.maxI ≤ st.i ∧ ∀ j y, j < st.maxI → l[j]? = some y → ¬ le y.1 x.1))
    (fun st => l.length - st.i)
    (cond := fun st : PeekSt => .ok st.walk.isSome) (body := findPeekBody comp s)
    (fun st _ => ⟨_, rfl⟩)
    (by
      rintro ⟨walk, i, mi, mp⟩ ⟨x, h1, h2, h3, h4, h5, h6⟩ hcond
      dsimp only at h1 h2 h3 h4 h5 h6 hcond
      have hw : walk.isSome = true := Except.ok.inj hcond
      rw [h2] at hw
      have hi : i < ids.length := by
        rcases Nat.lt_or_ge i ids.length with h | h
        · exact h
        · rw [List.getElem?_eq_none h] at hw; cases hw
      have hil : i < l.length := by omega
      have hml : mi < l.length := (List.getElem?_eq_some_iff.1 h4).1
      have p1 := R.payload hil
      have p2 := R.payload hml
      have hx : l[mi] = x := by rw [List.getElem?_eq_getElem hml] at h4; exact Option.some.inj h4
      have hn := R.nexts i _ (List.getElem?_eq_getElem hi)
      have hnx : s.next ids[i] = ids[i + 1]? := by
        rw [hn, nx]
        split
        · rfl
        · rename_i hge
          rw [List.getElem?_eq_none (l := ids) (i := i + 1) (by omega)]; rfl
      have hw' : deref walk = .ok ids[i] := by rw [h2, List.getElem?_eq_getElem hi]; rfl
      subst h2 h3
      simp only [findPeekBody, p1, p2, ok_bind, hw', hnx, hx]
      cases hcmp : comp l[i].1 x.1 with
      | true =>
        refine ⟨_, rfl, ⟨l[i], ?_⟩, ?_⟩
        · simp only [if_true]
          refine ⟨by omega, trivial, trivial, List.getElem?_eq_getElem hil, ?_, ?_⟩
          · intro j y hj hy
            by_cases hji : j = i
            · subst hji
              rw [List.getElem?_eq_getElem hil] at hy
              cases hy
              exact refl _
            · exact hle.trans _ _ _ (hc.yes _ _ hcmp) (h5 j y (by omega) hy)
          · intro hstrict
            refine ⟨by omega, ?_⟩
            intro j y hj hy hyx
            have := h5 j y (by omega) hy
            exact hstrict _ _ hcmp (hle.trans _ _ _ this hyx)
        · simp only [if_true]; omega
      | false =>
        refine ⟨_, rfl, ⟨x, ?_⟩, ?_⟩
        · simp only [Bool.false_eq_true, if_false]
          refine ⟨by omega, trivial, trivial, h4, ?_, ?_⟩
          · intro j y hj hy
            by_cases hji : j = i
            · subst hji
              rw [List.getElem?_eq_getElem hil] at hy
              cases hy
              exact hc.no _ _ hcmp
            · exact h5 j y (by omega) hy
          · intro hstrict
            obtain ⟨a, b⟩ := h6 hstrict
            exact ⟨by omega, b⟩
        · simp only [Bool.false_eq_true, if_false]; omega)
    (s.fresh + 1) ⟨s.head, 0, 0, s.head⟩
    ⟨l[0], Nat.zero_le _, R.head, R.head, List.getElem?_eq_getElem hpos, by intro j y hj; exact absurd hj (Nat.not_lt_zero _),
      fun _ => ⟨Nat.le_refl _, by intro j y hj; exact absurd hj (Nat.not_lt_zero _)⟩⟩ (by dsimp only; omega)
  have hw : st.walk.isSome = false := Except.ok.inj hcond
  have hi : st.i = l.length := by
    rcases Nat.lt_or_ge st.i ids.length with h | h
    · rw [h2, List.getElem?_eq_getElem h] at hw; cases hw
    · omega
  refine ⟨st.maxI, x, ?_, h4, ?_, fun hs => (h6 hs).2⟩
  · rw [lpqFindPeek, if_neg (by rw [R.size]; omega), e, ok_bind, h3]
  · intro y hy
    obtain ⟨j, hj⟩ := List.mem_iff_getElem?.1 hy
    exact h5 j y (by rw [hi]; exact (List.getElem?_eq_some_iff.1 hj).1) hj

theorem perm_eraseIdx_self {β : Type} (l : List β) (k : Nat) (x : β) (h : l[k]? = some x) : l.Perm (x :: l.eraseIdx k) := by
  obtain ⟨hk, rfl⟩ := List.getElem?_eq_some_iff.1 h
  rw [List.eraseIdx_eq_take_drop_succ]
  have e : l = l.take k ++ l[k] :: l.drop (k + 1) := by
    rw [← List.drop_eq_getElem_cons hk, List.take_append_drop]
  exact (List.Perm.of_eq e).trans List.perm_middle

/-- C34. `comp` is any comparator compatible with a total preorder on priorities. -/
theorem C34_linked_list_priority_queue (comp : π → π → Bool) (le : π → π → Prop) (hle : TotalPreorder le) (hc : Compat comp le)
    (ops : List (PqOp ν π)) : PqServes le [] ops (trace (lpqStep comp) LL.new ops) := by
  have perm : ∀ (ops : List (PqOp ν π)) (outs : List (Out (Option π × ν))) (l l' : List (π × ν)), l.Perm l' →
      PqServes le l ops outs → PqServes le l' ops outs := by
    intro ops
    induction ops with
    | nil => intro outs l l' _ h; exact h
    | cons op ops ih =>
      intro outs l l' hp h
      cases op with
      | push v p =>
        obtain ⟨rest, e, h⟩ := h
        exact ⟨rest, e, ih _ _ _ (hp.cons _) h⟩
      | pop =>
        rcases h with ⟨rfl, rest, e, h⟩ | ⟨p, v, l2, rest, h1, h2, e, h⟩
        · rw [List.nil_perm.1 hp] 
          exact Or.inl ⟨rfl, rest, e, h⟩
        · exact Or.inr ⟨p, v, l2, rest, hp.symm.trans h1, fun y hy => h2 y (hp.mem_iff.2 hy), e, h⟩
      | peek =>
        rcases h with ⟨rfl, rest, e, h⟩ | ⟨p, v, rest, h1, h2, e, h⟩
        · rw [List.nil_perm.1 hp]
          exact Or.inl ⟨rfl, rest, e, h⟩
        · exact Or.inr ⟨p, v, rest, hp.mem_iff.1 h1, fun y hy => h2 y (hp.mem_iff.2 hy), e, ih _ _ _ hp h⟩
      | isEmpty =>
        obtain ⟨rest, e, h⟩ := h
        refine ⟨rest, ?_, ih _ _ _ hp h⟩
        rw [e]
        congr 2
        cases l <;> cases l' <;> first | rfl | simp at hp
  have key : ∀ (ops : List (PqOp ν π)) (s : LL π ν) (l : List (π × ν)), Holds s l → PqServes le l ops (trace (lpqStep comp) s ops) := by
    intro ops
    induction ops with
    | nil => intros; rfl
    | cons op ops ih =>
      intro s l h
      cases op with
      | push v p =>
        obtain ⟨s', e, h'⟩ := h.append (p, v)
        simp only [trace, lpqStep, lpqPush, e, doneOf]
        exact ⟨_, rfl, perm _ _ _ _ (by simpa using List.perm_append_comm) (ih _ _ h')⟩
      | pop =>
        by_cases hl : l = []
        · left
          have e : lpqPop comp s = .error .indexError := by
            rw [lpqPop, lpqFindPeek, if_pos (by rw [h.size, hl]; rfl)]; rfl
          simp only [trace, lpqStep, e]
          exact ⟨hl, _, rfl, ih _ _ h⟩
        · right
          obtain ⟨ids, R⟩ := h
          obtain ⟨m, x, e1, hx, hmin, _⟩ := findPeek_spec hle hc R hl
          obtain ⟨hm, hx'⟩ := List.getElem?_eq_some_iff.1 hx
          obtain ⟨s', p, e2, hv, h'⟩ := Holds.extract ⟨ids, R⟩ m hm
          have e : lpqPop comp s = .ok (s', p) := by rw [lpqPop, e1, ok_bind]; exact e2
          simp only [trace, lpqStep, e, hv]
          refine ⟨x.1, x.2, l.eraseIdx m, _, perm_eraseIdx_self l m x hx, hmin, ?_, ih _ _ h'⟩
          rw [hx']
      | peek =>
        by_cases hl : l = []
        · left
          have e : lpqFindPeek comp s = .error .indexError := by
            rw [lpqFindPeek, if_pos (by rw [h.size, hl]; rfl)]
          simp only [trace, lpqStep, e]
          exact ⟨hl, _, rfl, ih _ _ h⟩
        · right
          obtain ⟨ids, R⟩ := h
          obtain ⟨m, x, e1, hx, hmin, _⟩ := findPeek_spec hle hc R hl
          obtain ⟨hm, hx'⟩ := List.getElem?_eq_some_iff.1 hx
          have hmi : m < ids.length := by rw [R.len]; exact hm
          have hv := R.vals m _ (List.getElem?_eq_getElem hmi)
          rw [hx] at hv
          have hb : (ids[m]?).bind s.val = some x := by rw [List.getElem?_eq_getElem hmi, Option.bind_some, hv]
          simp only [trace, lpqStep, e1, hb]
          exact ⟨x.1, x.2, _, List.mem_of_getElem? hx, hmin, rfl, ih _ _ ⟨ids, R⟩⟩
      | isEmpty =>
        have : (s.size == 0) = l.isEmpty := by
          obtain ⟨ids, R⟩ := h
          rw [R.size]; cases l <;> simp
        simp only [trace, lpqStep, this]
        exact ⟨_, rfl, ih _ _ h⟩
  exact key ops _ _ holds_new

/-- C34, ties: with a strict comparator, `pop` takes the earliest inserted entry among those of least priority. -/
theorem C34_first_among_ties (comp : π → π → Bool) (le : π → π → Prop) (hle : TotalPreorder le) (hc : Compat comp le)
    (hstrict : ∀ a b, comp a b = true → ¬ le b a) (entries : List (π × ν)) (hne : entries ≠ []) :
    ∃ s s' n m x, forList entries LL.new (fun e s => lpqPush s e.2 e.1) = .ok s ∧ lpqPop comp s = .ok (s', n) ∧
      s'.val n = some x ∧ entries[m]? = some x ∧ (∀ y ∈ entries, le x.1 y.1) ∧
      (∀ j y, j < m → entries[j]? = some y → ¬ le y.1 x.1) ∧ llStr s' = .ok (entries.eraseIdx m) := by
  have key : ∀ (xs done : List (π × ν)) (s : LL π ν), Holds s done →
      ∃ s', forList xs s (fun e s => lpqPush s e.2 e.1) = .ok s' ∧ Holds s' (done ++ xs) := by
    intro xs
    induction xs with
    | nil => intro done s h; exact ⟨s, rfl, by simpa using h⟩
    | cons x xs ih =>
      intro done s h
      obtain ⟨s1, e1, h1⟩ := h.append x
      obtain ⟨s2, e2, h2⟩ := ih (done ++ [x]) s1 h1
      refine ⟨s2, ?_, by simpa using h2⟩
      rw [forList]
      have : lpqPush s x.2 x.1 = .ok s1 := e1
      simp only [this, ok_bind]
      exact e2
  obtain ⟨s, e, ids, R⟩ := key entries [] LL.new holds_new
  rw [List.nil_append] at R
  obtain ⟨m, x, e1, hx, hmin, hfirst⟩ := findPeek_spec hle hc R hne
  obtain ⟨hm, hx'⟩ := List.getElem?_eq_some_iff.1 hx
  obtain ⟨s', p, e2, hv, ids', R'⟩ := Holds.extract ⟨ids, R⟩ m hm
  refine ⟨s, s', p, m, x, e, ?_, by rw [hv, hx'], hx, hmin, hfirst hstrict, llStr_eq R'⟩
  rw [lpqPop, e1, ok_bind]; exact e2

example : trace (lpqStep (fun a b : Nat => decide (a < b))) (LL.new : LL Nat Nat)
    [.push 10 3, .push 20 1, .push 30 1, .peek, .pop, .pop, .isEmpty, .pop, .pop] =
    [.done, .done, .done, .elem (some 1, 20), .elem (none, 20), .elem (none, 30), .flag false, .elem (none, 10), .raised .indexError] := by decide

example : TotalPreorder (fun a b : Nat => a ≤ b) ∧ Compat (fun a b : Nat => decide (a < b)) (fun a b => a ≤ b) :=
  ⟨⟨Nat.le_total, fun _ _ _ => Nat.le_trans⟩, ⟨by simp; omega, by simp⟩⟩

end Props
