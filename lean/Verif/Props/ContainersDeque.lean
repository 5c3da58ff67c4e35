import Verif.Props.Containers
import Verif.Props.ArrayDequeExact

/-! # C143: double-ended queues, exactly -/
namespace Props
open Py Model Spec
variable {α : Type}

/-- **Double-ended queues of different values**, exactly: the array queue answers as the linked queue if and only if the sizes allow the history (as in C32). -/
theorem C143_deque_exact (l : List α) (ops : List (QueueOp α)) (hn : (l ++ dequeAdded ops).Nodup) (a b : QueueObj α)
    (ha : QueueObj.new "array" (if l = [] then none else some l) true = .ok a) (hb : QueueObj.new "linked_list" (some l) true = .ok b) :
    trace queueObjStep a ops = trace queueObjStep b ops ↔ dequeKept false 0 l.length l.length ops := by
  have hq : ∃ q : AQueue α, queueNew (if l = [] then none else some l) = .ok q := by
    cases l with
    | nil => exact ⟨_, rfl⟩
    | cons x l => exact ⟨_, rfl⟩
  obtain ⟨q, hq⟩ := hq
  obtain ⟨b', e', h'⟩ := linked_queue true (some l)
  have ea : QueueObj.new "array" (if l = [] then none else some l) true = .ok (.array q true) := by simp [QueueObj.new, hq, ok_bind]
  cases (Except.ok.inj (ea.symm.trans ha))
  cases (Except.ok.inj (e'.symm.trans hb))
  rw [h', array_queue_double, ← C32_exact l q hq ops hn]
  rw [show (queueSpecDe true : List α → QueueOp α → List α × Out α) = queueSpec from by funext l op; simp [queueSpecDe]]
  rfl

example : ([7, 8] ++ dequeAdded ([.append 1, .appendleft 2, .pop, .popleft, .len] : List (QueueOp Nat))).Nodup ∧
    dequeKept false 0 2 2 ([.append 1, .appendleft 2, .pop, .popleft, .len] : List (QueueOp Nat)) ∧
    ¬ dequeKept false 0 2 2 ([.append 1, .popleft, .appendleft 2, .popleft] : List (QueueOp Nat)) := by
  refine ⟨by decide, ?_, ?_⟩ <;> simp [dequeKept, grownCap, onlyAppends]

end Props
