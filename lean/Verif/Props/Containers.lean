import Verif.Model.Containers
import Verif.Props.ArrayStack
import Verif.Props.ArrayDeque
import Verif.Props.ArrayQueueExact
import Verif.Props.LinkedContainers
import Verif.Props.BinomialHeap

/-!
# C143: the implementation of a stack, queue or priority queue is chosen by name and does not matter

`Stack('array')` and `Stack('linked_list')` answer every history alike, except `peek` of an empty stack; the same for queues used as C31 and
C32 allow; the priority queues are those of C34 to C36. Any other name is refused.
-/
namespace Props
open Py Model Spec
variable {α ν π : Type}

/-! ## Specification -/

/-- The calls to `peek` find an element. -/
def peeksFilled : List α → List (StackOp α) → Prop
  | _, [] => True
  | l, .peek :: ops => l ≠ [] ∧ peeksFilled l ops
  | l, .push x :: ops => peeksFilled (l ++ [x]) ops
  | l, .pop :: ops => peeksFilled l.dropLast ops
  | l, _ :: ops => peeksFilled l ops

/-- One call on a stack, whatever its implementation. -/
def stackObjStep : StackObj α → StackOp α → StackObj α × Out α
  | .array s, op => (.array (arrayStackStep s op).1, (arrayStackStep s op).2)
  | .linked s, op => (.linked (lstackStep s op).1, (lstackStep s op).2)

/-- The same call as one of a deque. -/
def QueueOp.toDeque : QueueOp α → DequeOp α
  | .append x => .append x
  | .popleft => .popleft
  | .len => .len
  | .appendleft x => .appendleft x
  | .pop => .pop

/-- One call on a queue, whatever its implementation. -/
def queueObjStep : QueueObj α → QueueOp α → QueueObj α × Out α
  | .array q de, .appendleft x => let r := doneOf q (aqueueAppendleft de q x); (.array r.1 de, r.2)
  | .array q de, .pop => let r := outOf q (aqueuePop de q); (.array r.1 de, r.2)
  | .array q de, op => let r := arrayQueueStep q op; (.array r.1 de, r.2)
  | .linked s de, op => let r := lqueueStep de s op.toDeque; (.linked r.1 de, r.2)

/-- One call on a priority queue, whatever its implementation; the binomial heap compares with `le`. -/
def pqObjStep (le : π → π → Bool) : PqObj π ν → PqOp ν π → PqObj π ν × Out (Option π × ν)
  | .linked comp s, op => let r := lpqStep comp s op; (.linked comp r.1, r.2)
  | .heap comp s, op => let r := heapPqStep comp s op; (.heap comp r.1, r.2)
  | .binomial h, op => let r := binomialPqStep le h op; (.binomial r.1, r.2)

/-! ## Proofs -/

theorem trace_through {σ τ ω ω' ο : Type} {step : σ → ω → σ × ο} {step' : τ → ω' → τ × ο} (f : τ → σ) (g : ω → ω')
    (h : ∀ t op, step (f t) op = (f (step' t (g op)).1, (step' t (g op)).2)) : ∀ (ops : List ω) (t : τ),
    trace step (f t) ops = trace step' t (ops.map g) := by
  intro ops
  induction ops with
  | nil => intro t; rfl
  | cons op ops ih =>
    intro t
    simp only [trace, List.map_cons, h, ih]

theorem specs_agree : ∀ (ops : List (StackOp α)) (l : List α), peeksFilled l ops → trace lstackSpec l ops = trace stackSpec l ops := by
  intro ops
  induction ops with
  | nil => intro l _; rfl
  | cons op ops ih =>
    intro l h
    cases op with
    | push x => simp only [trace, lstackSpec, stackSpec]; rw [ih _ h]
    | pop =>
      rcases List.eq_nil_or_concat l with rfl | ⟨l, x, rfl⟩
      · have h : peeksFilled ([] : List α) ops := h
        simp only [trace, lstackSpec, stackSpec, List.getLast?_nil]; rw [ih _ h]
      · rw [List.concat_eq_append] at *
        simp only [peeksFilled, List.dropLast_concat] at h
        simp only [trace, lstackSpec, stackSpec, List.getLast?_concat, List.dropLast_concat]; rw [ih _ h]
    | peek =>
      rcases List.eq_nil_or_concat l with rfl | ⟨l, x, rfl⟩
      · exact absurd rfl h.1
      · rw [List.concat_eq_append] at *
        simp only [trace, lstackSpec, stackSpec, List.getLast?_concat]; rw [ih _ h.2]
    | len => simp only [trace, lstackSpec, stackSpec]; rw [ih _ h]
    | isEmpty => simp only [trace, lstackSpec, stackSpec]; rw [ih _ h]

theorem specs_differ : ∀ (ops : List (StackOp α)) (l : List α), trace lstackSpec l ops = trace stackSpec l ops → peeksFilled l ops := by
  intro ops
  induction ops with
  | nil => intro l _; trivial
  | cons op ops ih =>
    intro l h
    cases op with
    | push x => exact ih _ (List.cons.inj h).2
    | pop =>
      rcases List.eq_nil_or_concat l with rfl | ⟨l, x, rfl⟩
      · exact ih _ (List.cons.inj h).2
      · rw [List.concat_eq_append] at *
        simp only [trace, lstackSpec, stackSpec, List.getLast?_concat, List.dropLast_concat] at h
        simp only [peeksFilled, List.dropLast_concat]
        exact ih _ (List.cons.inj h).2
    | peek =>
      rcases List.eq_nil_or_concat l with rfl | ⟨l, x, rfl⟩
      · have := (List.cons.inj h).1
        simp [lstackSpec, stackSpec] at this
      · rw [List.concat_eq_append] at *
        simp only [trace, lstackSpec, stackSpec, List.getLast?_concat] at h
        exact ⟨by simp, ih _ (List.cons.inj h).2⟩
    | len => exact ih _ (List.cons.inj h).2
    | isEmpty => exact ih _ (List.cons.inj h).2

/-- **Stacks.** Both names make a stack, of the items given; any other name is refused. -/
theorem C143_stack (name : String) (items : Option (List α)) :
    (name ≠ "array" → name ≠ "linked_list" → StackObj.new name items = .error .notImplemented) ∧
    (∃ a, StackObj.new "array" items = .ok a ∧ ∀ ops, trace stackObjStep a ops = trace stackSpec (items.getD []) ops) ∧
    (∃ b, StackObj.new "linked_list" items = .ok b ∧ ∀ ops, trace stackObjStep b ops = trace lstackSpec (items.getD []) ops) := by
  refine ⟨fun h1 h2 => by simp [StackObj.new, h1, h2], ⟨_, rfl, fun ops => ?_⟩, ?_⟩
  · rw [trace_through StackObj.array id (fun t op => rfl), List.map_id]
    exact C29_array_stack items ops
  · obtain ⟨s, e, _⟩ := C30_linked_list_stack items []
    refine ⟨.linked s, by simp [StackObj.new, e, ok_bind], fun ops => ?_⟩
    obtain ⟨s', e', h⟩ := C30_linked_list_stack items ops
    cases (Except.ok.inj (e.symm.trans e'))
    rw [trace_through StackObj.linked id (fun t op => rfl), List.map_id]
    exact h

/-- The two stacks answer alike exactly in the histories that do not peek into an empty stack. -/
theorem C143_stack_exact (items : Option (List α)) (a b : StackObj α) (ha : StackObj.new "array" items = .ok a) (hb : StackObj.new "linked_list" items = .ok b)
    (ops : List (StackOp α)) : trace stackObjStep a ops = trace stackObjStep b ops ↔ peeksFilled (items.getD []) ops := by
  obtain ⟨_, ⟨a', ea, h1⟩, ⟨b', eb, h2⟩⟩ := C143_stack "array" items
  cases (Except.ok.inj (ea.symm.trans ha))
  cases (Except.ok.inj (eb.symm.trans hb))
  rw [h1, h2]
  exact ⟨fun h => specs_differ _ _ h.symm, fun h => (specs_agree _ _ h).symm⟩

/-- The specification of a queue that may not be double-ended. -/
def queueSpecDe (de : Bool) (l : List α) (op : QueueOp α) : List α × Out α :=
  if de || op.isFifo then queueSpec l op else (l, .raised .notImplemented)

theorem dequeSpec_eq (de : Bool) (l : List α) (op : QueueOp α) : dequeSpec de l op.toDeque = queueSpecDe de l op := by
  cases op <;> cases de <;> rfl

theorem linked_queue (de : Bool) (items : Option (List α)) :
    ∃ b, QueueObj.new "linked_list" items de = .ok b ∧ ∀ ops, trace queueObjStep b ops = trace (queueSpecDe de) (items.getD []) ops := by
  obtain ⟨s, e, _⟩ := C33_linked_list_queue de items []
  refine ⟨.linked s de, by simp [QueueObj.new, e, ok_bind], fun ops => ?_⟩
  obtain ⟨s', e', h⟩ := C33_linked_list_queue de items (ops.map QueueOp.toDeque)
  cases (Except.ok.inj (e.symm.trans e'))
  rw [trace_through (fun s => QueueObj.linked s de) QueueOp.toDeque (fun t op => rfl), h]
  exact (trace_through id QueueOp.toDeque (fun l op => by rw [dequeSpec_eq]; rfl) ops _).symm

theorem array_queue_double (q : AQueue α) (ops : List (QueueOp α)) : trace queueObjStep (.array q true) ops = trace arrayQueueStep q ops := by
  have := trace_through (step := queueObjStep) (step' := arrayQueueStep) (fun q => QueueObj.array q true) id (fun t op => by cases op <;> rfl) ops q
  rw [List.map_id] at this
  exact this

/-- Without `double_ended` the calls that need it raise, and the others are not disturbed by them. -/
theorem array_queue_single : ∀ (ops : List (QueueOp α)) (q : AQueue α) (l : List α),
    trace arrayQueueStep q (ops.filter QueueOp.isFifo) = trace queueSpec l (ops.filter QueueOp.isFifo) ↔
      trace queueObjStep (.array q false) ops = trace (queueSpecDe false) l ops := by
  intro ops
  induction ops with
  | nil => intro q l; exact ⟨fun _ => rfl, fun _ => rfl⟩
  | cons op ops ih =>
    intro q l
    cases op with
    | append x =>
      simp only [List.filter_cons, QueueOp.isFifo, if_true, trace, List.cons.injEq, queueObjStep, queueSpecDe, Bool.or_true]
      rw [ih]
    | popleft =>
      simp only [List.filter_cons, QueueOp.isFifo, if_true, trace, List.cons.injEq, queueObjStep, queueSpecDe, Bool.or_true]
      rw [ih]
    | len =>
      simp only [List.filter_cons, QueueOp.isFifo, if_true, trace, List.cons.injEq, queueObjStep, queueSpecDe, Bool.or_true]
      rw [ih]
    | appendleft x =>
      have e1 : queueObjStep (.array q false) (.appendleft x) = (.array q false, .raised .notImplemented) := rfl
      have e2 : queueSpecDe false l (.appendleft x) = (l, .raised .notImplemented) := rfl
      rw [List.filter_cons_of_neg (by simp [QueueOp.isFifo])]
      simp only [trace, e1, e2, ih, List.cons.injEq, true_and]
    | pop =>
      have e1 : queueObjStep (.array q false) .pop = (.array q false, .raised .notImplemented) := rfl
      have e2 : queueSpecDe false l .pop = (l, .raised .notImplemented) := rfl
      rw [List.filter_cons_of_neg (by simp [QueueOp.isFifo])]
      simp only [trace, e1, e2, ih, List.cons.injEq, true_and]

/-- **Queues.** Any other name is refused; an array queue cannot be made from an empty list of items, a linked one can. -/
theorem C143_queue_names (name : String) (items : Option (List α)) (de : Bool) :
    (name ≠ "array" → name ≠ "linked_list" → QueueObj.new name items de = .error .notImplemented) ∧
    (QueueObj.new "array" (some ([] : List α)) de = .error .indexError) ∧
    (items ≠ some [] → ∃ a, QueueObj.new "array" items de = .ok a) ∧ (∃ b, QueueObj.new "linked_list" items de = .ok b) := by
  refine ⟨fun h1 h2 => by simp [QueueObj.new, h1, h2], rfl, fun h => ?_, ?_⟩
  · match items, h with
    | none, _ => exact ⟨_, rfl⟩
    | some [], h => exact absurd rfl h
    | some (x :: l), _ => exact ⟨_, rfl⟩
  · obtain ⟨b, e, _⟩ := linked_queue de items
    exact ⟨b, e⟩

/-- A linked queue answers every history as the specification. An array queue that is not double-ended, made without items, does exactly if
it answers the calls to `append`, `popleft` and `len` among them so; it does in the histories of C31. The two then agree. -/
theorem C143_queue_partial (ops : List (QueueOp α)) (hk : frontKept 0 0 0 (ops.filter QueueOp.isFifo)) :
    ∃ a b, QueueObj.new "array" none false = .ok a ∧ QueueObj.new "linked_list" none false = .ok b ∧
      trace queueObjStep a ops = trace (queueSpecDe false) ([] : List α) ops ∧ trace queueObjStep b ops = trace queueObjStep a ops := by
  obtain ⟨q, e, h⟩ := C31_kept_partial (ops.filter QueueOp.isFifo) (by simp) hk
  obtain ⟨b, e', h'⟩ := linked_queue false (none : Option (List α))
  have h1 := (array_queue_single ops q []).1 h
  refine ⟨.array q false, b, by simp [QueueObj.new, e, ok_bind], e', h1, ?_⟩
  rw [h', h1]; rfl

/-- For queues of different values the two agree exactly in these histories. -/
theorem C143_queue_exact (ops : List (QueueOp α)) (hn : (appendedBy (ops.filter QueueOp.isFifo)).Nodup) (a b : QueueObj α)
    (ha : QueueObj.new "array" none false = .ok a) (hb : QueueObj.new "linked_list" none false = .ok b) :
    trace queueObjStep a ops = trace queueObjStep b ops ↔ frontKept 0 0 0 (ops.filter QueueOp.isFifo) := by
  obtain ⟨q, e, h⟩ := C31_exact (ops.filter QueueOp.isFifo) (by simp) hn
  obtain ⟨b', e', h'⟩ := linked_queue false (none : Option (List α))
  have ea : QueueObj.new "array" (none : Option (List α)) false = .ok (.array q false) := by simp [QueueObj.new, e, ok_bind]
  cases (Except.ok.inj (ea.symm.trans ha))
  cases (Except.ok.inj (e'.symm.trans hb))
  rw [h', ← h]
  exact (array_queue_single ops q []).symm

/-- Double-ended queues made from items agree in the histories of C32. -/
theorem C143_deque_partial (l : List α) (ops : List (QueueOp α)) (hk : halfKept l.length l.length 0 ops = true) :
    ∃ a b, QueueObj.new "array" (if l = [] then none else some l) true = .ok a ∧ QueueObj.new "linked_list" (some l) true = .ok b ∧
      trace queueObjStep a ops = trace queueSpec l ops ∧ trace queueObjStep b ops = trace queueObjStep a ops := by
  have hq : ∃ q : AQueue α, queueNew (if l = [] then none else some l) = .ok q := by
    cases l with
    | nil => exact ⟨_, rfl⟩
    | cons x l => exact ⟨_, rfl⟩
  obtain ⟨q, hq⟩ := hq
  obtain ⟨b, e', h'⟩ := linked_queue true (some l)
  have h1 := C32_deque_partial l q hq ops hk
  refine ⟨.array q true, b, by simp [QueueObj.new, hq, ok_bind], e', ?_, ?_⟩
  · rw [array_queue_double, h1]
  · rw [h', array_queue_double, h1]
    rw [show (queueSpecDe true : List α → QueueOp α → List α × Out α) = queueSpec from by funext l op; simp [queueSpecDe]]
    rfl

/-- **Priority queues.** Each of the three names makes an empty priority queue that serves by priority (as C34 to C36 say), any other is
refused. -/
theorem C143_priority (le : π → π → Bool) (ho : TotalPreorder fun a b => le a b = true) (comp : π → π → Bool) (hc : Compat comp fun a b => le a b = true)
    (name : String) :
    (name ∈ ["linked_list", "binary_heap", "binomial_heap"] → ∃ o : PqObj π ν, PqObj.new name comp = .ok o ∧
      ∀ ops, PqServes (fun a b => le a b = true) [] ops (trace (pqObjStep le) o ops)) ∧
    (name ∉ ["linked_list", "binary_heap", "binomial_heap"] → PqObj.new (ν := ν) name comp = .error .notImplemented) := by
  constructor
  · intro h
    simp only [List.mem_cons, List.not_mem_nil, or_false] at h
    rcases h with rfl | rfl | rfl
    · refine ⟨_, rfl, fun ops => ?_⟩
      rw [trace_through (step := pqObjStep le) (PqObj.linked comp) id (fun t op => rfl), List.map_id]
      exact C34_linked_list_priority_queue comp _ ho hc ops
    · refine ⟨_, rfl, fun ops => ?_⟩
      rw [trace_through (step := pqObjStep le) (PqObj.heap comp) id (fun t op => rfl), List.map_id]
      exact C35_heap_priority_queue comp _ ho hc ops
    · refine ⟨_, rfl, fun ops => ?_⟩
      rw [trace_through (step := pqObjStep le) PqObj.binomial id (fun t op => rfl), List.map_id]
      exact C36_binomial_priority_queue ho ops
  · intro h
    simp only [List.mem_cons, List.not_mem_nil, or_false, not_or] at h
    simp [PqObj.new, h.1, h.2.1, h.2.2]

/-! ## What differs -/

/-- All implementations of a container answer alike. -/
def C143_full : Prop :=
  (∀ (items : Option (List Nat)) (a b : StackObj Nat), StackObj.new "array" items = .ok a → StackObj.new "linked_list" items = .ok b →
    ∀ ops, trace stackObjStep a ops = trace stackObjStep b ops)

/-- `peek` of an empty stack raises `IndexError` with one implementation and answers `None` with the other. -/
theorem C143_full_false : ¬ C143_full := by
  intro h
  obtain ⟨_, ⟨a, ea, _⟩, ⟨b, eb, _⟩⟩ := C143_stack "array" (none : Option (List Nat))
  exact ((C143_stack_exact none a b ea eb [.peek]).1 (h none a b ea eb _)).1 rfl

/-- The binomial heap takes no comparator: with `>` the others serve the greatest priority first, it the least. -/
theorem C143_comparator_ignored :
    ∃ (a b : PqObj Nat Char) (ops : List (PqOp Char Nat)), PqObj.new "binary_heap" (fun u v => decide (u > v)) = .ok a ∧
      PqObj.new "binomial_heap" (fun u v => decide (u > v)) = .ok b ∧
      trace (pqObjStep fun u v => decide (u ≤ v)) a ops ≠ trace (pqObjStep fun u v => decide (u ≤ v)) b ops :=
  ⟨_, _, [.push 'a' 1, .push 'b' 2, .pop], rfl, rfl, by decide +kernel⟩

/-! ## The hypotheses are met -/

example : peeksFilled ([] : List Nat) [.pop, .push 1, .peek, .len, .pop, .isEmpty, .pop] := by simp [peeksFilled]

example : frontKept 0 0 0 (([.append 1, .append 2, .appendleft 9, .popleft, .pop, .append 3, .popleft, .len] : List (QueueOp Nat)).filter QueueOp.isFifo) := by
  show frontKept 0 0 0 [.append 1, .append 2, .popleft, .append 3, .popleft, .len]
  simp [frontKept, grownCap]

example : halfKept 3 3 0 ([.append 4, .appendleft 9, .pop, .popleft] : List (QueueOp Nat)) = true := by decide

end Props
