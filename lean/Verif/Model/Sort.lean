import Verif.Py

/-!
# In-place comparison sorts

Models of `/repo/pydatastructs/linear_data_structures/algorithms.py`.

Conventions: the array is the list of its cells (`None` = `none`). The keyword `start` is a `Nat`; the keyword
`end` (inclusive) is represented by `stop = end + 1`, so `range(start, end + 1)` is `forRange start stop` and
`range(start, end)` is `forRange start (stop - 1)`; the default `end = len(array) - 1` is `stop = a.length`, also
for the empty array. Negative `start`/`end` values are not modelled. The final `array._modify(True)` for dynamic
arrays is modelled in `Verif/Model/Array.lean`. `c u v` stands for `_comp(u, v, comp)`.
-/
namespace Model
open Py
variable {α β : Type _}

/-- utils/misc_util.py:584-597 `_comp`. -/
def pyComp (tcomp : α → α → Bool) : Option α → Option α → Bool
  | none, some _ => false
  | some _, none => true
  | none, none => false
  | some u, some v => tcomp u v

/-- algorithms.py:1373-1379 `bubble_sort` (Python backend): `arr_len - 1` passes over `range(start, end)`. -/
def bubbleSortC (c : β → β → Bool) (a : List β) (start stop : Nat) : PyM (List β) :=
  forRange 0 (a.length - 1) a fun _ a =>
    forRange start (stop - 1) a fun j a => do
      let x ← rd a j
      let y ← rd a (j + 1)
      if !(c x y) then swp a j (j + 1) else .ok a

/-- `bubble_sort` on an array whose cells may be `None`. (algorithms.py:1373-1379) -/
def bubbleSort (comp : α → α → Bool) (a : List (Option α)) (start stop : Nat) : PyM (List (Option α)) :=
  bubbleSortC (pyComp comp) a start stop

/-- algorithms.py:1451-1457 `selection_sort` (Python backend). -/
def selectionSortC (c : β → β → Bool) (a : List β) (start stop : Nat) : PyM (List β) :=
  forRange start stop a fun i a => do
    let jMin ← forRange (i + 1) stop i fun j jMin => do
      let x ← rd a jMin
      let y ← rd a j
      if !(c x y) then .ok j else .ok jMin
    if jMin ≠ i then swp a i jMin else .ok a

/-- `selection_sort` on an array whose cells may be `None`. (algorithms.py:1451-1457) -/
def selectionSort (comp : α → α → Bool) (a : List (Option α)) (start stop : Nat) : PyM (List (Option α)) :=
  selectionSortC (pyComp comp) a start stop

/-- The inner `while j >= start + gap and not _comp(array[j - gap], temp, comp)` loop of `shell_sort`
(algorithms.py:1917-1920); with `gap = 1` it is also the loop of `insertion_sort`
(algorithms.py:1522-1524, `while j > start and ...`). Structural recursion on a bound on the number of iterations:
the loop variable strictly decreases, so `j + 1` tests suffice. Returns the array and the final `j`. -/
def shiftDown (c : β → β → Bool) (start gap : Nat) (temp : β) : Nat → List β → Nat → PyM (List β × Nat)
  | 0, _, _ => .error .outOfFuel
  | fuel + 1, a, j =>
    if start + gap ≤ j then do
      let x ← rd a (j - gap)
      if !(c x temp) then
        let a ← wr a j x
        shiftDown c start gap temp fuel a (j - gap)
      else .ok (a, j)
    else .ok (a, j)

/-- algorithms.py:1519-1525 `insertion_sort` (Python backend). -/
def insertionSortC (c : β → β → Bool) (a : List β) (start stop : Nat) : PyM (List β) :=
  forRange (start + 1) stop a fun i a => do
    let temp ← rd a i
    let (a, j) ← shiftDown c start 1 temp (i + 1) a i
    wr a j temp

/-- `insertion_sort` on an array whose cells may be `None`. (algorithms.py:1519-1525) -/
def insertionSort (comp : α → α → Bool) (a : List (Option α)) (start stop : Nat) : PyM (List (Option α)) :=
  insertionSortC (pyComp comp) a start stop

/-- One round (fixed `gap`) of `shell_sort`, algorithms.py:1914-1921. -/
def shellRound (c : β → β → Bool) (start stop gap : Nat) (a : List β) : PyM (List β) :=
  forRange (start + gap) stop a fun i a => do
    let temp ← rd a i
    let (a, j) ← shiftDown c start gap temp (i + 1) a i
    wr a j temp

/-- algorithms.py:1911-1922 `shell_sort`: `gap = n // 2; while gap > 0: ...; gap //= 2`. -/
def shellSortC (c : β → β → Bool) (fuel : Nat) (a : List β) (start stop : Nat) : PyM (List β) := do
  let (a, _) ← whileLoop fuel (fun (s : List β × Nat) => .ok (decide (0 < s.2)))
    (fun s => do
      let a ← shellRound c start stop s.2 s.1
      .ok (a, s.2 / 2))
    (a, (stop - start) / 2)
  .ok a

/-- `shell_sort` on an array whose cells may be `None`. (algorithms.py:1911-1922) -/
def shellSort (comp : α → α → Bool) (fuel : Nat) (a : List (Option α)) (start stop : Nat) :
    PyM (List (Option α)) :=
  shellSortC (pyComp comp) fuel a start stop

/-- The two `for` loops of one iteration of `cocktail_shaker_sort` (algorithms.py:672-682) on the window
`lower ≤ .. < stop`; the state carries the array and `swapping`. -/
def cocktailRound (c : β → β → Bool) (lower stop : Nat) (a : List β) : PyM (List β × Bool) := do
  -- swapping = True; for j in range(lower, upper)
  let s ← forRange lower (stop - 1) (a, true) fun j (a, sw) => do
    let x ← rd a j
    let y ← rd a (j + 1)
    if c x y = false then
      let a ← swp a (j + 1) j
      .ok (a, false)
    else .ok (a, sw)
  -- upper = upper - 1; for j in range(upper, lower, -1)
  forDown (lower + 1) (stop - 1) s fun j (a, sw) => do
    let x ← rd a (j - 1)
    let y ← rd a j
    if c x y = false then
      let a ← swp a j (j - 1)
      .ok (a, false)
    else .ok (a, sw)

/-- algorithms.py:664-683 `cocktail_shaker_sort`: state (array, lower, stop, swapping). -/
def cocktailSortC (c : β → β → Bool) (fuel : Nat) (a : List β) (start stop : Nat) : PyM (List β) := do
  let (a, _, _, _) ← whileLoop fuel
    (fun (s : List β × Nat × Nat × Bool) => .ok (!s.2.2.2 && decide (s.2.1 + 2 ≤ s.2.2.1)))
    (fun (a, lower, stop, _) => do
      let (a, sw) ← cocktailRound c lower stop a
      .ok (a, lower + 1, stop - 1, sw))
    (a, start, stop, false)
  .ok a

/-- `cocktail_shaker_sort` on an array whose cells may be `None`. (algorithms.py:664-683) -/
def cocktailSort (comp : α → α → Bool) (fuel : Nat) (a : List (Option α)) (start stop : Nat) :
    PyM (List (Option α)) :=
  cocktailSortC (pyComp comp) fuel a start stop

/-- `partition` inside `quick_sort` (algorithms.py:755-763). `pick low high array` stands for the call of
`pick_pivot_element`; it may raise, but it is assumed not to change the array.
`k` is the Python variable `i + 1` (so that it stays non-negative). -/
def qsPartition (c : β → β → Bool) (pick : Nat → Nat → List β → PyM β) (low high : Nat) (a : List β) : PyM (List β × Nat) := do
  let x ← pick low high a
  let (a, k) ← forRange low high (a, low) fun j (a, k) => do
    let y ← rd a j
    if c y x = true then
      let a ← swp a k j
      .ok (a, k + 1)
    else .ok (a, k)
  let a ← swp a k high
  .ok (a, k)

/-- Body of the `while stack.is_empty is False` loop of `quick_sort` (algorithms.py:771-780). -/
def quickBody (c : β → β → Bool) (pick : Nat → Nat → List β → PyM β) :
    List β × List (Nat × Nat) → PyM (List β × List (Nat × Nat))
  | (_, []) => .error .indexError
  | (a, (low, high) :: stack) => do
    let (a, p) ← qsPartition c pick low high a
    let stack1 := if low + 1 < p then (low, p - 1) :: stack else stack
    .ok (a, if p + 1 < high then (p + 1, high) :: stack1 else stack1)

/-- algorithms.py:765-782 `quick_sort` with the explicit stack of (low, high) pairs; the top of the stack is the head
of the list, each pair being two pushes/pops of the Python code (which pushes and pops them together).
`high` is inclusive, as in the code. -/
def quickSortC (c : β → β → Bool) (pick : Nat → Nat → List β → PyM β) (fuel : Nat) (a : List β) (low high : Nat) :
    PyM (List β) := do
  let (a, _) ← whileLoop fuel (fun (s : List β × List (Nat × Nat)) => .ok (!s.2.isEmpty)) (quickBody c pick)
    (a, [(low, high)])
  .ok a

/-- algorithms.py:752-753, the default `pick_pivot_element`: `lambda low, high, array: array[high]`. -/
def lastCell (_low high : Nat) (a : List β) : PyM β := rd a high

/-- `quick_sort` with a `pick_pivot_element` argument on an array whose cells may be `None`; `high` is the inclusive keyword
`end`. (algorithms.py:752-782) -/
def quickSortPick (comp : α → α → Bool) (pick : Nat → Nat → List (Option α) → PyM (Option α)) (fuel : Nat)
    (a : List (Option α)) (low high : Nat) : PyM (List (Option α)) :=
  quickSortC (pyComp comp) pick fuel a low high

/-- `quick_sort` with the default pivot. (algorithms.py:752-782) -/
def quickSort (comp : α → α → Bool) (fuel : Nat) (a : List (Option α)) (low high : Nat) :
    PyM (List (Option α)) :=
  quickSortPick comp lastCell fuel a low high

/-- algorithms.py:205-208 `_brick_sort_swap(array, i, i + 1, comp, is_sorted)`; also the body of both `for` loops of
`brick_sort` (algorithms.py:193-200). The state is the array and the flag `is_sorted`. -/
def brickSwap (c : β → β → Bool) (i : Nat) : List β × Bool → PyM (List β × Bool)
  | (a, srt) => do
    let y ← rd a (i + 1)
    let x ← rd a i
    if c y x then
      let a ← swp a i (i + 1)
      .ok (a, false)
    else .ok (a, srt)

/-- One iteration of the `while is_sorted is False` loop of `brick_sort` (algorithms.py:192-200). -/
def brickBody (c : β → β → Bool) (start stop : Nat) (s : List β × Bool) : PyM (List β × Bool) := do
  let s ← forList (rangeStep (start + 1) (stop - 1) 2) (s.1, true) (brickSwap c)
  forList (rangeStep start (stop - 1) 2) s (brickSwap c)

/-- algorithms.py:190-200 `brick_sort`. -/
def brickSortC (c : β → β → Bool) (fuel : Nat) (a : List β) (start stop : Nat) : PyM (List β) := do
  let (a, _) ← whileLoop fuel (fun (s : List β × Bool) => .ok (!s.2)) (brickBody c start stop) (a, false)
  .ok a

/-- `brick_sort` on an array whose cells may be `None`. (algorithms.py:190-200) -/
def brickSort (comp : α → α → Bool) (fuel : Nat) (a : List (Option α)) (start stop : Nat) :
    PyM (List (Option α)) :=
  brickSortC (pyComp comp) fuel a start stop

/-- One iteration of the loop of `brick_sort_parallel` (algorithms.py:266-273); the worker jobs of each of the two
phases are executed in the order given by `sched` (the real code waits for each job, i.e. `sched = id`). The third
component of the state counts the rounds. -/
def brickParBody (c : β → β → Bool) (sched : Nat → List Nat → List Nat) (start stop : Nat)
    (s : (List β × Bool) × Nat) : PyM ((List β × Bool) × Nat) := do
  let t ← forList (sched (2 * s.2) (rangeStep (start + 1) (stop - 1) 2)) (s.1.1, true) (brickSwap c)
  let t ← forList (sched (2 * s.2 + 1) (rangeStep start (stop - 1) 2)) t (brickSwap c)
  .ok (t, s.2 + 1)

/-- algorithms.py:263-273 `brick_sort_parallel`. -/
def brickSortParC (c : β → β → Bool) (sched : Nat → List Nat → List Nat) (fuel : Nat) (a : List β)
    (start stop : Nat) : PyM (List β) := do
  let ((a, _), _) ← whileLoop fuel (fun (s : (List β × Bool) × Nat) => .ok (!s.1.2))
    (brickParBody c sched start stop) ((a, false), 0)
  .ok a

/-- `brick_sort_parallel` on an array whose cells may be `None`. (algorithms.py:263-273) -/
def brickSortPar (comp : α → α → Bool) (sched : Nat → List Nat → List Nat) (fuel : Nat) (a : List (Option α))
    (start stop : Nat) : PyM (List (Option α)) :=
  brickSortParC (pyComp comp) sched fuel a start stop

/-- The two collecting loops of `_merge` (algorithms.py:40-47): cells `lo ≤ i < hi` with `i ≤ end` (`i < stop`) are
appended to the list and set to `None`. -/
def mergeCollect (stop lo hi : Nat) (a : List (Option α)) : PyM (List (Option α) × List (Option α)) :=
  forRange lo hi (([] : List (Option α)), a) fun i (l, a) =>
    if i < stop then do
      let x ← rd a i
      let a ← wr a i none
      .ok (l ++ [x], a)
    else .ok (l, a)

/-- `for x in l: array[k] = x; k += 1`: the two trailing loops of `_merge` (algorithms.py:58-66), on the not yet consumed
part of the list. -/
def writeAll (l : List β) (a : List β) (k : Nat) : PyM (List β) :=
  match l with
  | [] => .ok a
  | x :: l => do
    let a ← wr a k x
    writeAll l a (k + 1)

/-- The merging loops of `_merge` (algorithms.py:48-66), on the not yet consumed parts `l[i:]` and `r[j:]`. -/
def mergeWrite (c : β → β → Bool) : List β → List β → List β → Nat → PyM (List β)
  | x :: l, y :: r, a, k =>
    if c x y then do
      let a ← wr a k x
      mergeWrite c l (y :: r) a (k + 1)
    else do
      let a ← wr a k y
      mergeWrite c (x :: l) r a (k + 1)
  | [], r, a, k => writeAll r a k
  | l, [], a, k => writeAll l a k
termination_by l r => l.length + r.length

/-- algorithms.py:38-66 `_merge(array, sl, el, sr, er, end, comp)` with `sl = i`, `el = i + p - 1`, `sr = i + p`,
`er = i + 2*p - 1` and `stop = end + 1`. -/
def mergeBlock (comp : α → α → Bool) (a : List (Option α)) (i p stop : Nat) : PyM (List (Option α)) := do
  let (l, a) ← mergeCollect stop i (i + p) a
  let (r, a) ← mergeCollect stop (i + p) (i + 2 * p) a
  mergeWrite (pyComp comp) l r a i

/-- The `while i <= end` loop of one round of `merge_sort_parallel` (algorithms.py:124-133). -/
def mergeRound (comp : α → α → Bool) (fuel : Nat) (a : List (Option α)) (start stop p : Nat) :
    PyM (List (Option α)) := do
  let (a, _) ← whileLoop fuel (fun (s : List (Option α) × Nat) => .ok (decide (s.2 < stop)))
    (fun s => do
      let a ← mergeBlock comp s.1 s.2 p stop
      .ok (a, s.2 + 2 * p)) (a, start)
  .ok a

/-- `rounds` rounds with block sizes 1, 2, 4, … of `merge_sort_parallel` (algorithms.py:121-133). -/
def mergeRounds (comp : α → α → Bool) (fuel rounds : Nat) (a : List (Option α)) (start stop : Nat) :
    PyM (List (Option α)) :=
  forRange 0 rounds a fun size a => mergeRound comp fuel a start stop (2 ^ size)

/-- algorithms.py:118-133 `merge_sort_parallel`. The jobs are awaited one by one, so they run in submission order.
`floor(log(n, 2)) + 1` is modelled by the exact `Nat.log2 n + 1`; `log(0, 2)` raises `ValueError`. -/
def mergeSort (comp : α → α → Bool) (fuel : Nat) (a : List (Option α)) (start stop : Nat) :
    PyM (List (Option α)) :=
  if stop ≤ start then .error .valueError
  else mergeRounds comp fuel (Nat.log2 (stop - start) + 1) a start stop

end Model
