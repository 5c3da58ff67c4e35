import Verif.Spec
import Verif.Model.StackQueue
import Verif.Lemmas.Doda
import Verif.Lemmas.Trace

/-!
# C29: array-backed stack
-/
namespace Props
open Py Model Spec
variable {α : Type}

inductive StackOp (α : Type)
  | push (x : α)
  | pop
  | peek
  | len
  | isEmpty

/-- What a caller of the model sees. When a method raises, the stack is left as it was (nothing is modified before the `raise`
at stack.py:123-124; `peek` modifies nothing). -/
def arrayStackStep (s : Doda α) : StackOp α → Doda α × Out α
  | .push x => match stackPush s x with
    | .ok s' => (s', .done)
    | .error e => (s, .raised e)
  | .pop => match stackPop s with
    | .ok (some x, s') => (s', .elem x)
    | .ok (none, s') => (s', .nothing)
    | .error e => (s, .raised e)
  | .peek => match stackPeek s with
    | .ok (some x) => (s, .elem x)
    | .ok none => (s, .nothing)
    | .error e => (s, .raised e)
  | .len => (s, .count (stackLen s))
  | .isEmpty => (s, .flag (stackIsEmpty s))

/-- Specification: a list with its top at the end. -/
def stackSpec (l : List α) : StackOp α → List α × Out α
  | .push x => (l ++ [x], .done)
  | .pop => match l.getLast? with
    | some x => (l.dropLast, .elem x)
    | none => (l, .raised .indexError)
  | .peek => match l.getLast? with
    | some x => (l, .elem x)
    | none => (l, .raised .indexError)
  | .len => (l, .count l.length)
  | .isEmpty => (l, .flag l.isEmpty)

theorem arrayStack_step (s : Doda α) (l : List α) (op : StackOp α) (h : s.Dense l) :
    (arrayStackStep s op).1.Dense (stackSpec l op).1 ∧ (arrayStackStep s op).2 = (stackSpec l op).2 := by
  have hc := h.cnt
  cases op with
  | push x =>
    obtain ⟨s', e, h'⟩ := Doda.append_dense quarter h x
    simp only [arrayStackStep, stackPush, e, stackSpec]
    exact ⟨h', trivial⟩
  | pop =>
    rcases List.eq_nil_or_concat l with rfl | ⟨l, x, rfl⟩
    · have : stackPop s = .error .indexError := by
        rw [stackPop, if_pos (by simpa [stackIsEmpty] using hc)]
      simp only [arrayStackStep, this, stackSpec, List.getLast?_nil]
      exact ⟨h, trivial⟩
    · rw [List.concat_eq_append] at *
      simp only [List.length_append, List.length_singleton] at hc
      obtain ⟨s', e, h'⟩ := Doda.delete_last_dense quarter h
      have hg := h.get (i := l.length) (by simp)
      have hi : (s.cnt : Int) - 1 = (l.length : Nat) := by omega
      have : stackPop s = .ok (some x, s') := by
        rw [stackPop, if_neg (by simp [stackIsEmpty]; omega), hi, hg, ok_bind, e, ok_bind]
        simp
      simp only [arrayStackStep, this, stackSpec, List.getLast?_concat, List.dropLast_concat]
      exact ⟨h', trivial⟩
  | peek =>
    rcases List.eq_nil_or_concat l with rfl | ⟨l, x, rfl⟩
    · have : stackPeek s = .error .indexError := by
        simp only [stackPeek, Doda.get]; rw [if_pos (by simp at hc; omega)]
      simp only [arrayStackStep, this, stackSpec, List.getLast?_nil]
      exact ⟨h, trivial⟩
    · rw [List.concat_eq_append] at *
      simp only [List.length_append, List.length_singleton] at hc
      have hg := h.get (i := l.length) (by simp)
      have hi : (s.cnt : Int) - 1 = (l.length : Nat) := by omega
      have : stackPeek s = .ok (some x) := by
        simp only [stackPeek]
        rw [hi, hg]; simp
      simp only [arrayStackStep, this, stackSpec, List.getLast?_concat]
      exact ⟨h, trivial⟩
  | len =>
    simp only [arrayStackStep, stackLen, stackSpec, h.num]
    exact ⟨h, trivial⟩
  | isEmpty =>
    simp only [arrayStackStep, stackIsEmpty, stackSpec, h.cnt]
    refine ⟨h, ?_⟩
    cases l <;> simp

/-- C29. Through every history of calls an array-backed stack answers exactly as a list with push and pop at its end; `pop` and
`peek` raise `IndexError` exactly when it is empty. -/
theorem C29_array_stack (items : Option (List α)) (ops : List (StackOp α)) :
    trace arrayStackStep (stackNew items) ops = trace stackSpec (items.getD []) ops := by
  refine (trace_eq (fun s l => s.Dense l) (fun s t op h => arrayStack_step s t op h) ops _ _ ?_).1
  cases items with
  | none => exact Doda.ofSize_dense 0
  | some l => exact Doda.ofList_dense l

/-- A history with growth, contraction and an exception. -/
example : trace arrayStackStep (stackNew (none : Option (List Nat)))
    [.push 1, .push 2, .push 3, .push 4, .pop, .pop, .peek, .len, .pop, .pop, .pop, .isEmpty] =
    [.done, .done, .done, .done, .elem 4, .elem 3, .elem 2, .count 2, .elem 2, .elem 1, .raised .indexError, .flag true] := by
  decide

end Props
