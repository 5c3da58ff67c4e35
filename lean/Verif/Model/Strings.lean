import Verif.Py
import Verif.Model.Array

/-!
# String search (strings/algorithms.py)

A string is a list of characters; for Rabin-Karp a list of code points. The arrays `OneDimensionalArray(int, n)` start with `None` in every
cell. The results, `DynamicOneDimensionalArray`s that are only ever appended to, are lists (see C27 for the appends).
-/
namespace Model
open Py

section
variable {α : Type} [DecidableEq α]

/-- `s[i]` of a Python string: negative indices count from the end. (algorithms.py:169-202: `text[i]`) -/
def strAt (s : List α) (i : Int) : PyM α :=
  match listIndex s.length i with
  | some k => rd s k
  | none => .error .indexError

/-- `t[i]` of a `OneDimensionalArray` of numbers (arrays.py:133-137); a cell that was never assigned holds `None`, and the computation
that uses it raises `TypeError`. -/
def tabAt (t : List (Option Int)) (i : Int) : PyM Int :=
  if i < 0 then .error .indexError
  else do
    match ← rd t i.toNat with
    | some v => .ok v
    | none => .error .typeError

/-! ## Knuth-Morris-Pratt -/

/-- algorithms.py:106-107: `while cnd >= 0 and query[pos] != query[cnd]: cnd = kmp_table[cnd]`. -/
def kmpBack (query : List α) (table : List (Option Int)) (pos : Nat) (cnd : Int) : PyM Int :=
  whileLoop (query.length + 2)
    (fun cnd =>
      if 0 ≤ cnd then do
        let a ← strAt query pos
        let b ← strAt query cnd
        .ok (decide (a ≠ b))
      else .ok false)
    (fun cnd => tabAt table cnd) cnd

/-- algorithms.py:101-108: one iteration of the outer loop. -/
def kmpStep (query : List α) (st : Nat × Int × List (Option Int)) : PyM (Nat × Int × List (Option Int)) := do
  let (pos, cnd, table) := st
  let a ← strAt query pos
  let b ← strAt query cnd
  if a = b then do
    let v ← tabAt table cnd
    let table ← wr table pos (some v)
    .ok (pos + 1, cnd + 1, table)
  else do
    let table ← wr table pos (some cnd)
    let cnd ← kmpBack query table pos cnd
    .ok (pos + 1, cnd + 1, table)

/-- algorithms.py:95-111 `_build_kmp_table`. -/
def kmpTable (query : List α) : PyM (List (Option Int)) := do
  let table := List.replicate (query.length + 1) none
  let table ← wr table 0 (some (-1))
  let (pos, cnd, table) ← whileLoop (query.length + 1)
    (fun (st : Nat × Int × List (Option Int)) => .ok (decide (st.1 < query.length))) (kmpStep query) (1, 0, table)
  wr table pos (some cnd)

/-- algorithms.py:119-130: one iteration of the matching loop on `(j, k, positions)`. -/
def kmpMatchStep (text query : List α) (table : List (Option Int)) (st : Nat × Int × List Int) : PyM (Nat × Int × List Int) := do
  let (j, k, positions) := st
  let a ← strAt query k
  let b ← strAt text j
  if a = b then
    let j := j + 1
    let k := k + 1
    if k = query.length then do
      let positions := positions ++ [(j : Int) - k]
      let k ← tabAt table k
      .ok (j, k, positions)
    else .ok (j, k, positions)
  else do
    let k ← tabAt table k
    if k < 0 then .ok (j + 1, k + 1, positions) else .ok (j, k, positions)

/-- algorithms.py:115-132 `_do_match`. -/
def kmpMatch (text query : List α) (table : List (Option Int)) : PyM (List Int) := do
  let (_, _, positions) ← whileLoop (2 * text.length + 1)
    (fun (st : Nat × Int × List Int) => .ok (decide (st.1 < text.length))) (kmpMatchStep text query table) (0, 0, [])
  .ok positions

/-- algorithms.py:87-91 `_knuth_morris_pratt`. -/
def kmpFind (text query : List α) : PyM (List Int) :=
  if text.length = 0 ∨ query.length = 0 then .ok []
  else do
    let table ← kmpTable query
    kmpMatch text query table

/-! ## Boyer-Moore -/

/-- algorithms.py:176-179: the dictionary as a partial function. -/
def bmTable (query : List α) : PyM (α → Option Int) :=
  forRange 0 query.length (fun _ => none) fun i table => do
    let c ← rd query i
    .ok fun d => if d = c then some (i : Int) else table d

/-- algorithms.py:184-186: the inner loop. -/
def bmCompare (text query : List α) (shift : Int) (j : Int) : PyM Int :=
  whileLoop (query.length + 1)
    (fun j =>
      if 0 ≤ j then do
        let a ← strAt query j
        let b ← strAt text (shift + j)
        .ok (decide (a = b))
      else .ok false)
    (fun j => .ok (j - 1)) j

/-- algorithms.py:183-201: one iteration of the outer loop on `(shift, positions)`. -/
def bmStep (text query : List α) (table : α → Option Int) (st : Int × List Int) : PyM (Int × List Int) := do
  let (shift, positions) := st
  let j ← bmCompare text query shift (query.length - 1)
  if j < 0 then
    let positions := positions ++ [shift]
    if shift + query.length < text.length then do
      let c ← strAt text (shift + query.length)
      match table c with
      | some i => .ok (shift + (query.length - i), positions)
      | none => .ok (shift + (query.length + 1), positions)
    else .ok (shift + 1, positions)
  else do
    let c ← strAt text (shift + j)
    match table c with
    | some i => .ok (shift + max 1 (j - i), positions)
    | none => .ok (shift + max 1 (j + 1), positions)

/-- algorithms.py:169-202 `_boyer_moore`. -/
def bmFind (text query : List α) : PyM (List Int) :=
  if text.length = 0 ∨ query.length = 0 then .ok []
  else do
    let table ← bmTable query
    let (_, positions) ← whileLoop (text.length + 2)
      (fun (st : Int × List Int) => .ok (decide (st.1 ≤ (text.length : Int) - query.length))) (bmStep text query table) (0, [])
    .ok positions

/-! ## Z function -/

/-- algorithms.py:220-222: the extension loop. -/
def zExtend (s : List α) (pos : Nat) (z : List Nat) : PyM (List Nat) :=
  whileLoop (s.length + 1)
    (fun z => do
      let v ← rd z pos
      if pos + v < s.length then do
        let a ← rd s v
        let b ← rd s (pos + v)
        .ok (decide (a = b))
      else .ok false)
    (fun z => do
      let v ← rd z pos
      wr z pos (v + 1)) z

/-- algorithms.py:217-218; `seg_right - curr_pos + 1` is only evaluated when `curr_pos ≤ seg_right`, so naturals suffice. -/
def zInit (pos : Nat) (z : List Nat) (l r : Nat) : PyM (List Nat) :=
  if pos ≤ r then do
    let v ← rd z (pos - l)
    wr z pos (min (r - pos + 1) v)
  else .ok z

/-- algorithms.py:216-226: one iteration on `(z_fct, seg_left, seg_right)`; `curr_pos + z - 1 > seg_right` is written
`curr_pos + z > seg_right + 1`. -/
def zStep (s : List α) (pos : Nat) (st : List Nat × Nat × Nat) : PyM (List Nat × Nat × Nat) := do
  let (z, l, r) := st
  let z ← zInit pos z l r
  let z ← zExtend s pos z
  let v ← rd z pos
  if pos + v > r + 1 then .ok (z, pos, pos + v - 1) else .ok (z, l, r)

/-- algorithms.py:204-235 `_z_vector` for a non-empty query; `sep` is `"$"`. -/
def zVector (sep : α) (text query : List α) : PyM (List Nat) := do
  let s := query ++ sep :: text
  let z := List.replicate s.length 0
  let (z, _, _) ← forRange 1 s.length (z, 0, 0) (zStep s)
  forRange (query.length + 1) s.length [] fun pos res => do
    let v ← rd z pos
    .ok (res ++ [v])

/-- algorithms.py:237-247 `_z_function`. -/
def zFind (sep : α) (text query : List α) : PyM (List Int) :=
  if text.length = 0 ∨ query.length = 0 then .ok []
  else do
    let fct ← zVector sep text query
    forRange 0 fct.length [] fun pos res => do
      let v ← rd fct pos
      .ok (if v = query.length then res ++ [(pos : Int)] else res)

end

/-! ## Rabin-Karp -/

/-- algorithms.py:10 `PRIME_NUMBER, MOD`. -/
def rkPrime : Nat := 257
/-- algorithms.py:10 `MOD`. -/
def rkMod : Nat := 1000000007

/-- algorithms.py:134-139 `_p_pow`. -/
def pPow (length : Nat) : PyM (List Nat) := do
  let a ← wr (List.replicate length 0) 0 1
  forRange 1 length a fun i a => do
    let v ← rd a (i - 1)
    wr a i (v * rkPrime % rkMod)

/-- algorithms.py:141-146 `_hash_str`. -/
def hashStr (s : List Nat) : PyM Nat := do
  let pp ← pPow s.length
  forRange 0 s.length 0 fun i h => do
    let c ← rd s i
    let p ← rd pp i
    .ok ((h + c * p) % rkMod)

/-- algorithms.py:156-161: the prefix hashes. -/
def rkPrefix (text pp : List Nat) : PyM (List Nat) :=
  forRange 0 text.length (List.replicate (text.length + 1) 0) fun i a => do
    let h ← rd a i
    let c ← rd text i
    let p ← rd pp i
    wr a (i + 1) ((h + c * p) % rkMod)

/-- algorithms.py:148-167 `_rabin_karp`; `range(t - q + 1)` is empty when `q > t`. -/
def rkFind (text query : List Nat) : PyM (List Int) :=
  if query.length = 0 ∨ text.length = 0 then .ok []
  else do
    let qh ← hashStr query
    let pp ← pPow text.length
    let th ← rkPrefix text pp
    forRange 0 (text.length + 1 - query.length) [] fun i res => do
      let b ← rd th (i + query.length)
      let a ← rd th i
      let cur := (b + rkMod - a) % rkMod
      let p ← rd pp i
      .ok (if cur = qh * p % rkMod then res ++ [(i : Int)] else res)

end Model
