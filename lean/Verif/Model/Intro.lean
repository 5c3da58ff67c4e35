import Verif.Model.Sort
import Verif.Model.Heap

/-!
# `intro_sort` (linear_data_structures/algorithms.py:1751-1858)
-/
namespace Model
open Py
variable {α β : Type}

/-- algorithms.py:1834-1835, the first inner `while`: moves `left` right. -/
def ipLeft (c : β → β → Bool) (a : List β) (pivot : β) (right : Nat) : Nat → Nat → PyM Nat
  | 0, _ => .error .outOfFuel
  | fuel + 1, left =>
    if left ≤ right then do
      let x ← rd a left
      if c x pivot then ipLeft c a pivot right fuel (left + 1) else .ok left
    else .ok left

/-- algorithms.py:1836-1837, the second inner `while`: moves `right` left. Note that the comparison comes first in the condition. -/
def ipRight (c : β → β → Bool) (a : List β) (pivot : β) (left : Nat) : Nat → Nat → PyM Nat
  | 0, _ => .error .outOfFuel
  | fuel + 1, right => do
    let y ← rd a right
    if c pivot y && decide (left ≤ right) then ipRight c a pivot left fuel (right - 1) else .ok right

/-- algorithms.py:1833-1843, the `while not done` loop; returns the array and the final `right`. `inner` is the fuel of the inner loops.
`right` never goes below `lower`, so truncated subtraction is never exercised (part of the proof: the reads succeed). -/
def ipLoop (c : β → β → Bool) (pivot : β) (inner : Nat) : Nat → List β → Nat → Nat → PyM (List β × Nat)
  | 0, _, _, _ => .error .outOfFuel
  | fuel + 1, a, left, right => do
    let left ← ipLeft c a pivot right inner left
    let right ← ipRight c a pivot left inner right
    if right < left then .ok (a, right)
    else do
      let a ← swp a left right
      ipLoop c pivot inner fuel a (left + 1) (right - 1)

/-- algorithms.py:1828-1846 `partition`; `upper` is inclusive. -/
def introPartition (c : β → β → Bool) (a : List β) (lower upper : Nat) : PyM (List β × Nat) := do
  let pivot ← rd a lower
  let (a, right) ← ipLoop c pivot (upper - lower + 2) (upper - lower + 2) a (lower + 1) upper
  let a ← swp a lower right
  .ok (a, right)

/-- algorithms.py:1814-1858 `intro_sort` with explicit `maxdepth` and `ins_threshold` (any integers; the default `maxdepth`,
`int(2*log2 n)`, is one of them). `stop = end + 1`. The first argument bounds the recursion depth. -/
def introSort (comp : α → α → Bool) (threshold : Int) : Nat → List (Option α) → Nat → Nat → Int → PyM (List (Option α))
  | 0, _, _, _, _ => .error .outOfFuel
  | fuel + 1, a, lower, stop, depth => do
    let maxdepth := if (stop : Int) - lower ≤ 0 then 0 else depth
    if (stop : Int) - lower < threshold then insertionSort comp a lower stop
    else if maxdepth = 0 then heapsort comp a lower stop
    else do
      let (a, p) ← introPartition (pyComp comp) a lower (stop - 1)
      let a ← introSort comp threshold fuel a lower p (maxdepth - 1)
      introSort comp threshold fuel a (p + 1) stop (maxdepth - 1)

end Model
