import Verif.Py

/-!
# `counting_sort`, `bucket_sort`, `radix_sort` (linear_data_structures/algorithms.py)

Arrays are lists of cells; `stop = end + 1` as in Model/Sort.lean. The elements are integers.
-/
namespace Model
open Py

/-! ## counting_sort (algorithms.py:343-424) -/

/-- algorithms.py:390-399: one step of the loop computing `max_val` and `min_val` (`none_count` is never used). -/
def countMaxMin (x : Option Int) (s : Option Int × Option Int) : PyM (Option Int × Option Int) :=
  match x with
  | none => .ok s
  | some x =>
    .ok (match s.1 with
      | none => some x
      | some m => if m < x then some x else some m,
     match s.2 with
      | none => some x
      | some m => if x < m then some x else some m)

/-- algorithms.py:404-406: `count[array[i] - min_val] += 1`. The index is never negative because `min_val` is a minimum, so `toNat`
loses nothing. -/
def countTally (mn : Int) (x : Option Int) (count : List Nat) : PyM (List Nat) :=
  match x with
  | none => .ok count
  | some x => do
    let c ← rd count (x - mn).toNat
    wr count (x - mn).toNat (c + 1)

/-- algorithms.py:409-410: `count[i], total = total, count[i] + total`. -/
def countPrefix (i : Nat) (s : List Nat × Nat) : PyM (List Nat × Nat) := do
  let c ← rd s.1 i
  let count ← wr s.1 i s.2
  .ok (count, c + s.2)

/-- algorithms.py:418-422: the placing loop. -/
def countPlace (mn : Int) (x : Option Int) (s : List (Option Int) × List Nat) : PyM (List (Option Int) × List Nat) :=
  match x with
  | none => .ok s
  | some x => do
    let c ← rd s.2 (x - mn).toNat
    let out ← wr s.1 c (some x)
    let count ← wr s.2 (x - mn).toNat (c + 1)
    .ok (out, count)

/-- algorithms.py:388-424 `counting_sort`; the result is the returned array (a new one, except when there is nothing to sort). -/
def countingSort (a : List (Option Int)) : PyM (List (Option Int)) := do
  let x ← rd a 0
  let (mx, mn) ← forList a (x, x) countMaxMin
  match mx, mn with
  | some mx, some mn => do
    let m := (mx - mn + 1).toNat
    let count ← forList a (List.replicate m 0) (countTally mn)
    let (count, _) ← forRange 0 m (count, 0) countPrefix
    let (out, _) ← forList a ((a.filterMap id).map some, count) (countPlace mn)
    .ok out
  | _, _ => .ok a

/-! ## radix_sort (algorithms.py:1934-2012), non-negative integers -/

/-- algorithms.py:1981-1984: `max_val`; comparing with `None` (when `array[start]` is `None`) raises `TypeError`, at the latest in
`max_val // exp`. -/
def radixMax (a : List (Option Nat)) (start stop : Nat) : PyM Nat := do
  match ← rd a start with
  | none => .error .typeError
  | some m =>
    forRange (start + 1) stop m fun i m => do
      match ← rd a i with
      | none => .ok m
      | some x => .ok (if m < x then x else m)

/-- algorithms.py:1990-1993: counting the digits. -/
def radixTally (a : List (Option Nat)) (exp : Nat) (i : Nat) (count : List Nat) : PyM (List Nat) := do
  match ← rd a i with
  | none => .ok count
  | some x => do
    let c ← rd count (x / exp % 10)
    wr count (x / exp % 10) (c + 1)

/-- algorithms.py:1995-1996: `count[i] += count[i - 1]`. -/
def radixPrefix (i : Nat) (count : List Nat) : PyM (List Nat) := do
  let c ← rd count i
  let c' ← rd count (i - 1)
  wr count i (c + c')

/-- algorithms.py:1998-2002: placing, from the last position to the first. -/
def radixPlace (a : List (Option Nat)) (exp : Nat) (i : Nat) (s : List (Option Nat) × List Nat) :
    PyM (List (Option Nat) × List Nat) := do
  match ← rd a i with
  | none => .ok s
  | some x => do
    let c ← rd s.2 (x / exp % 10)
    let count ← wr s.2 (x / exp % 10) (c - 1)
    let out ← wr s.1 (c - 1) (some x)
    .ok (out, count)

/-- algorithms.py:2004-2005: copying back. -/
def radixCopy (out : List (Option Nat)) (start : Nat) (i : Nat) (a : List (Option Nat)) : PyM (List (Option Nat)) := do
  let x ← rd out i
  wr a (start + i) x

/-- algorithms.py:1987-2005: one pass. -/
def radixPass (a : List (Option Nat)) (start stop exp : Nat) : PyM (List (Option Nat)) := do
  let count ← forRange start stop (List.replicate 10 0) (radixTally a exp)
  let count ← forRange 1 10 count radixPrefix
  let (out, _) ← forDown start stop (List.replicate (stop - start) none, count) (radixPlace a exp)
  forRange 0 (stop - start) a (radixCopy out start)

/-- algorithms.py:1985-2007: the `while max_val // exp > 0` loop. -/
def radixLoop (mx start stop : Nat) : Nat → Nat → List (Option Nat) → PyM (List (Option Nat))
  | 0, _, _ => .error .outOfFuel
  | fuel + 1, exp, a =>
    if 0 < mx / exp then do
      let a ← radixPass a start stop exp
      radixLoop mx start stop fuel (exp * 10) a
    else .ok a

/-- algorithms.py:1977-2007 `radix_sort`. -/
def radixSort (fuel : Nat) (a : List (Option Nat)) (start stop : Nat) : PyM (List (Option Nat)) := do
  let mx ← radixMax a start stop
  radixLoop mx start stop fuel 1 a

/-! ## bucket_sort (algorithms.py:495-605) -/

/-- algorithms.py:499-501, the `while` of `_bucket_sort_helper`: shifts greater elements right; the position where `key` goes is
`j' = j + 1`. -/
def bucketShift (key : Int) : Nat → List Int → PyM (List Int × Nat)
  | 0, b => .ok (b, 0)
  | j + 1, b => do
    let x ← rd b j
    if key < x then do
      let b ← wr b (j + 1) x
      bucketShift key j b
    else .ok (b, j + 1)

/-- algorithms.py:495-503 `_bucket_sort_helper`. -/
def bucketHelper (b : List Int) : PyM (List Int) :=
  forRange 1 b.length b fun i b => do
    let key ← rd b i
    let (b, j) ← bucketShift key i b
    wr b j key

/-- algorithms.py:564-567: the last non-`None` value of the range. -/
def bucketLast (a : List (Option Int)) (i : Nat) (m : Option Int) : PyM (Option Int) := do
  match ← rd a i with
  | none => .ok m
  | some x => .ok (some x)

/-- algorithms.py:569-574: counting, and the true maximum. -/
def bucketMax (a : List (Option Int)) (i : Nat) (s : Nat × Option Int) : PyM (Nat × Option Int) := do
  match ← rd a i with
  | none => .ok s
  | some x => match s.2 with
    | none => .error .typeError
    | some m => .ok (s.1 + 1, some (if m < x then x else m))

/-- algorithms.py:583-589: putting a value into its bucket. `j is not count` compares object identities: equal integers are the same
object only in CPython's small-integer cache (up to 256), hence the test on `count`. A negative `j` counts buckets from the end. -/
def bucketPut (a : List (Option Int)) (count : Nat) (size : Int) (i : Nat) (bs : List (List Int)) : PyM (List (List Int)) := do
  match ← rd a i with
  | none => .ok bs
  | some x => do
    let j := Int.fdiv x size
    if j = count ∧ count ≤ 256 then do
      let b ← rd bs (count - 1)
      wr bs (count - 1) (b ++ [x])
    else if 0 ≤ j then do
      let b ← rd bs j.toNat
      wr bs j.toNat (b ++ [x])
    else if 0 ≤ j + bs.length then do
      let b ← rd bs (j + bs.length).toNat
      wr bs (j + bs.length).toNat (b ++ [x])
    else .error .indexError

/-- algorithms.py:592-593: sorting every bucket. -/
def bucketSortAll (z : Nat) (bs : List (List Int)) : PyM (List (List Int)) := do
  let b ← rd bs z
  let b ← bucketHelper b
  wr bs z b

/-- algorithms.py:560-602 `bucket_sort`. An all-`None` range raises `TypeError` (`None // 0`). -/
def bucketSort (a : List (Option Int)) (start stop : Nat) : PyM (List (Option Int)) := do
  let last ← forRange start stop none (bucketLast a)
  let (count, mx) ← forRange start stop (0, last) (bucketMax a)
  match mx with
  | none => .error .typeError
  | some mx =>
    if count = 0 then .error .zeroDivision
    else do
      let size := Int.fdiv mx count
      if size = 0 then .error .zeroDivision
      else do
        let bs ← forRange start stop (List.replicate count []) (bucketPut a count size)
        let bs ← forRange 0 count bs bucketSortAll
        let sorted := bs.flatten
        let a ← forDown (start + count) stop a fun i a => wr a i none
        forRange start (start + count) a fun i a => do
          let x ← rd sorted (i - start)
          wr a i (some x)

end Model
