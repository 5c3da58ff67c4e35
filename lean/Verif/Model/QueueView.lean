import Verif.Model.StackQueue

/-!
# What an array queue shows of itself

The properties `front` and `rear` of `ArrayQueue` (`/repo/pydatastructs/miscellaneous_data_structures/queue.py`) and its `__str__`.
-/
namespace Model
open Py
variable {α : Type}

/-- `ArrayQueue.front` (queue.py:193-195). -/
def queueFront (q : AQueue α) : Int := q.front

/-- `ArrayQueue.rear` (queue.py:197-199). -/
def queueRear (q : AQueue α) : Int := q.rear

/-- `ArrayQueue.__str__` (queue.py:208-212): the Python list whose `str` is returned, `none` standing for `None`; the loop is the one of
`appendleft`: `_data[i]` for `i` in `range(front, rear + 1)`, a negative `i` counting from the end. -/
def queueShown (q : AQueue α) : PyM (List (Option α)) :=
  queueCopy q.items.data (q.rear + 1 - q.front).toNat q.front

end Model
