import Verif.Py

/-!
# `DisjointSetForest` (miscellaneous_data_structures/disjoint_set.py)

`tree` is a dictionary from keys to `Set` objects, one object per key, so an object is identified with its key. `data` is left out.
The `while` loops get `len(tree) + 1` iterations (a walk along `parent` that ends at all ends within that).
-/
namespace Model
open Py
variable {κ : Type} [DecidableEq κ]

/-- disjoint_set.py:38-46: the keys of `tree` in insertion order; attributes of the `Set` objects (utils/misc_util.py:511-543). -/
structure Dsu (κ : Type) where
  keys : List κ
  parent : κ → κ
  size : κ → Int

/-- disjoint_set.py:40-46 `__new__`. -/
def dsuNew : Dsu κ := ⟨[], fun k => k, fun _ => 0⟩

/-- Attribute assignment. (e.g. disjoint_set.py:60-62) -/
def fset {β : Type} (g : κ → β) (k : κ) (v : β) : κ → β := fun j => if j = k then v else g j

/-- disjoint_set.py:52-62 `make_set`. -/
def dsuMake (s : Dsu κ) (key : κ) : Dsu κ :=
  if key ∈ s.keys then s else ⟨s.keys ++ [key], fset s.parent key key, fset s.size key 1⟩

/-- disjoint_set.py:73-74: `while _set.parent is not _set: _set, _set.parent = _set.parent, _set.parent.parent`. The right-hand side is
evaluated first, then `_set` is rebound, then the attribute of the *new* `_set` is assigned. -/
def dsuFindLoop : Nat → Dsu κ → κ → PyM (Dsu κ × κ)
  | 0, _, _ => .error .outOfFuel
  | fuel + 1, s, x =>
    if s.parent x ≠ x then
      let p := s.parent x
      let pp := s.parent (s.parent x)
      dsuFindLoop fuel { s with parent := fset s.parent p pp } p
    else .ok (s, x)

/-- disjoint_set.py:64-75 `find_root`. -/
def dsuFind (s : Dsu κ) (key : κ) : PyM (Dsu κ × κ) :=
  if key ∈ s.keys then dsuFindLoop (s.keys.length + 1) s key else .error .keyError

/-- disjoint_set.py:77-91 `union`. -/
def dsuUnion (s : Dsu κ) (key1 key2 : κ) : PyM (Dsu κ) := do
  let (s, x) ← dsuFind s key1
  let (s, y) ← dsuFind s key2
  if x ≠ y then
    let (x, y) := if s.size x < s.size y then (y, x) else (x, y)
    .ok { s with parent := fset s.parent y x, size := fset s.size x (s.size x + s.size y) }
  else .ok s

/-- disjoint_set.py:105-107: the loop of `make_root`; returns the final `current_parent`, the root. -/
def dsuShrink (sz : Int) : Nat → Dsu κ → κ → PyM (Dsu κ × κ)
  | 0, _, _ => .error .outOfFuel
  | fuel + 1, s, c =>
    if s.parent c ≠ c then dsuShrink sz fuel { s with size := fset s.size c (s.size c - sz) } (s.parent c)
    else .ok (s, c)

/-- disjoint_set.py:93-117 `make_root`. -/
def dsuMakeRoot (s : Dsu κ) (key : κ) : PyM (Dsu κ) :=
  if key ∈ s.keys then
    if s.parent key ≠ key then do
      let (s, root) ← dsuShrink (s.size key) (s.keys.length + 1) s (s.parent key)
      let all := s.size root
      let s := { s with size := fset s.size root (s.size root - s.size key) }
      let s := { s with parent := fset s.parent root key }
      let s := { s with size := fset s.size key all }
      .ok { s with parent := fset s.parent key key }
    else .ok s
  else .error .keyError

/-- disjoint_set.py:119-126 `find_size`. -/
def dsuSize (s : Dsu κ) (key : κ) : PyM Int :=
  if key ∈ s.keys then do
    let (s, r) ← dsuFind s key
    .ok (s.size r)
  else .error .keyError

/-- `members = result.get(parent, []); members.append(key); result[parent] = members` (disjoint_set.py:135-137) on a dictionary in
insertion order. -/
def groupAdd (r key : κ) : List (κ × List κ) → List (κ × List κ)
  | [] => [(r, [key])]
  | (r', l) :: rest => if r' = r then (r', l ++ [key]) :: rest else (r', l) :: groupAdd r key rest

/-- disjoint_set.py:128-138: the groups `disjoint_sets` collects, before they are sorted for output (the sorting is not modelled). -/
def dsuGroups (s : Dsu κ) : PyM (List (List κ)) := do
  let (_, res) ← forList s.keys (s, []) fun key (st : Dsu κ × List (κ × List κ)) => do
    let (s, r) ← dsuFind st.1 key
    .ok (s, groupAdd r key st.2)
  .ok (res.map Prod.snd)

end Model
