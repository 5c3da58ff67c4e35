import Verif.Py
import Verif.Model.Search

/-!
# Permutations and dynamic programming

Models of functions of `/repo/pydatastructs/linear_data_structures/algorithms.py`.
-/
namespace Model
open Py
variable {α : Type}

/-! ## next_permutation, prev_permutation -/

/-- algorithms.py:1148-1150: `while i > 0 and perm_comp(permute[i - 1], permute[i], comp): i -= 1`; `pc x y` stands for
`perm_comp(x, y, comp)`. -/
def permDescend (pc : α → α → Bool) (p : List α) : Nat → PyM Nat
  | 0 => .ok 0
  | i + 1 => do
    let x ← rd p i
    let y ← rd p (i + 1)
    if pc x y then permDescend pc p i else .ok (i + 1)

/-- algorithms.py:1153-1158: binary search over `left <= right` (`stop = right + 1`) for the first position whose element `y`
satisfies `perm_comp(pivot, y)`; returns the final `left`. -/
def permBisect (pc : α → α → Bool) (p : List α) (pivot : α) : Nat → Nat → Nat → PyM Nat
  | 0, _, _ => .error .outOfFuel
  | fuel + 1, left, stop =>
    if left < stop then do
      let mid := left + (stop - 1 - left) / 2
      let y ← rd p mid
      if !(pc pivot y) then permBisect pc p pivot fuel (mid + 1) stop
      else permBisect pc p pivot fuel left mid
    else .ok left

/-- algorithms.py:1161-1165: in-place reversal, `left, right = i, size - 1; while left < right: swap; ...`. `stop = right + 1`. -/
def permReverse : Nat → Nat → Nat → List α → PyM (List α)
  | 0, _, _, _ => .error .outOfFuel
  | fuel + 1, left, stop, p =>
    if left + 1 < stop then do
      let p ← swp p left (stop - 1)
      permReverse fuel (left + 1) (stop - 1) p
    else .ok p

/-- algorithms.py:1143-1167 `_permutation_util`; `p` is the copied slice `array[start..end]` (lines 1144-1147). -/
def permutationUtil (pc : α → α → Bool) (fuel : Nat) (p : List α) : PyM (Bool × List α) := do
  let size := p.length
  let i ← permDescend pc p (size - 1)
  let p ← if 0 < i then do
      let pivot ← rd p (i - 1)
      let left ← permBisect pc p pivot fuel i size
      swp p (i - 1) (left - 1)
    else .ok p
  let p ← permReverse fuel i size p
  .ok (decide (0 < i), p)

/-- algorithms.py:1144-1147: the copy of `array[start..end]`; `stop = end + 1`. -/
def permSlice (a : List α) (start stop : Nat) : List α := (a.drop start).take (stop - start)

/-- algorithms.py:1227-1240 `next_permutation`; `comp` is the keyword (default `<`). -/
def nextPermutation (comp : α → α → Bool) (fuel : Nat) (a : List α) (start stop : Nat) : PyM (Bool × List α) :=
  permutationUtil (fun x y => !(comp x y)) fuel (permSlice a start stop)

/-- algorithms.py:1300-1313 `prev_permutation`. -/
def prevPermutation (comp : α → α → Bool) (fuel : Nat) (a : List α) (start stop : Nat) : PyM (Bool × List α) :=
  permutationUtil (fun x y => comp x y) fuel (permSlice a start stop)

/-! ## longest_common_subsequence -/

/-- One row of the table (algorithms.py:852-862): `up` is row `i - 1` from column `j - 1` on (its head is
`check_mat[i-1][j-1]`), `left` is `check_mat[i][j-1]`, `s2` the remaining elements `seq2[j-1:]`. Returns the cells of row `i`
from column `j` on. -/
def lcsRow [DecidableEq α] (x : α) : List α → List (Nat × List α) → Nat × List α → PyM (List (Nat × List α))
  | [], _, _ => .ok []
  | y :: s2, ul :: u :: up, left => do
    let cell := if x = y then (ul.1 + 1, ul.2 ++ [x]) else if u.1 > left.1 then u else left
    let rest ← lcsRow x s2 (u :: up) cell
    .ok (cell :: rest)
  | _ :: _, _, _ => .error .indexError

/-- algorithms.py:851-862: rows `1..row` one after another, starting from row `0`. -/
def lcsRows [DecidableEq α] (s2 : List α) : List α → List (Nat × List α) → PyM (List (Nat × List α))
  | [], prev => .ok prev
  | x :: s1, prev => do
    let cells ← lcsRow x s2 prev (0, [])
    lcsRows s2 s1 ((0, []) :: cells)

/-- algorithms.py:847-864 `longest_common_subsequence`: the list of the last cell of the last row. -/
def lcs [DecidableEq α] (s1 s2 : List α) : PyM (List α) := do
  let last ← lcsRows s2 s1 (List.replicate (s2.length + 1) (0, []))
  let cell ← rd last s2.length
  .ok cell.2

/-! ## longest_increasing_subsequence -/

/-- `[array[dp[i]] for i in range(length)]` (algorithms.py:1129). -/
def lisCurr (a : List Int) (dp : List Nat) : Nat → Nat → PyM (List Int)
  | 0, _ => .ok []
  | n + 1, i => do
    let d ← rd dp i
    let x ← rd a d
    let rest ← lisCurr a dp n (i + 1)
    .ok (x :: rest)

/-- State of the loop: `dp`, `parent` (`-1` is `none`), `length`. (algorithms.py:1116-1120) -/
structure LisState where
  dp : List Nat
  parent : List (Option Nat)
  length : Nat

/-- Body of `for i in range(1, n)` (algorithms.py:1121-1132). `fuel` is for `lower_bound`. -/
def lisStep (fuel : Nat) (a : List Int) (i : Nat) (s : LisState) : PyM LisState := do
  let x ← rd a i
  let d0 ← rd s.dp 0
  let x0 ← rd a d0
  if x ≤ x0 then
    let dp ← wr s.dp 0 i
    .ok { s with dp := dp }
  else
    let dl ← rd s.dp s.length
    let xl ← rd a dl
    if xl < x then
      let length := s.length + 1
      let dp ← wr s.dp length i
      let dprev ← rd dp (length - 1)
      let parent ← wr s.parent i (some dprev)
      .ok { dp := dp, parent := parent, length := length }
    else
      let curr ← lisCurr a s.dp s.length 0
      let ceil ← lowerBound (fun u v => decide (u < v)) fuel curr x 0 curr.length
      let dp ← wr s.dp ceil i
      -- parent[i] = dp[ceil - 1]; a negative index raises IndexError
      if ceil = 0 then .error .indexError
      else
        let dprev ← rd dp (ceil - 1)
        let parent ← wr s.parent i (some dprev)
        .ok { s with dp := dp, parent := parent }

/-- `while last_index != -1` (algorithms.py:1135-1137): collects the chain of parents, last element first. -/
def lisChain (a : List Int) (parent : List (Option Nat)) : Nat → Option Nat → PyM (List Int)
  | _, none => .ok []
  | 0, some _ => .error .outOfFuel
  | fuel + 1, some i => do
    let x ← rd a i
    let p ← rd parent i
    let rest ← lisChain a parent fuel p
    .ok (x :: rest)

/-- algorithms.py:1114-1141 `longest_increasing_subsequence`. The final reversal into `ans_ODA` is `List.reverse`. -/
def lis (fuel : Nat) (a : List Int) : PyM (List Int) := do
  let n := a.length
  let s ← forRange 1 n { dp := List.replicate n 0, parent := List.replicate n none, length := 0 } (lisStep fuel a)
  let last ← rd s.dp s.length
  let ans ← lisChain a s.parent fuel (some last)
  .ok ans.reverse

end Model
