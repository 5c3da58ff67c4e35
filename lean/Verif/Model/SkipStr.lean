import Verif.Model.SkipList
import Verif.Model.Dict
import Verif.Model.Array

/-!
# Skip lists: `levels` and `__str__`

Model of `/repo/pydatastructs/linear_data_structures/linked_lists.py:688-694` and `785-820`. `shw` is `str(node)` for a key and the data
(utils/misc_util.py:364-365). Node objects are compared by identity, as in Python.
-/
namespace Model
open Py
variable {κ δ : Type}

/-- linked_lists.py:688-694 `levels`. -/
def skLevels (s : Skip κ δ) : Nat := s.levels

/-- linked_lists.py:786-787: `node2row` and `node2col`. -/
structure SkSeen (κ : Type) where
  row : PyDict Nat Int
  col : PyDict κ Int

/-- linked_lists.py:791-799: the inner loop of the first pass; `lowest` is `walk.down is None`. -/
def skScanRow [DecidableEq κ] (s : Skip κ δ) (lowest : Bool) (level : Int) : Nat → Option Nat → Int → SkSeen κ → PyM (SkSeen κ)
  | 0, _, _, _ => .error .outOfFuel
  | _ + 1, none, _, seen => .ok seen
  | fuel + 1, some i, c, seen =>
    match s.key i with
    | .key k => skScanRow s lowest level fuel (s.next i) (c + 1) ⟨seen.row.set i level, if lowest then seen.col.set k c else seen.col⟩
    | _ => skScanRow s lowest level fuel (s.next i) c seen

/-- linked_lists.py:788-801: the first pass. -/
def skScan [DecidableEq κ] (s : Skip κ δ) (inner : Nat) : Nat → Option Nat → Int → SkSeen κ → PyM (SkSeen κ)
  | 0, _, _, _ => .error .outOfFuel
  | _ + 1, none, _, seen => .ok seen
  | fuel + 1, some w, level, seen => do
    let seen ← skScanRow s (s.down w).isNone level inner (some w) 0 seen
    skScan s inner fuel (s.down w) (level - 1) seen

/-- `sl_mat[row][col] = text`: negative numbers count from the end. (linked_lists.py:810) -/
def matPut (m : List (List String)) (r c : Int) (text : String) : PyM (List (List String)) :=
  match listIndex m.length r with
  | none => .error .indexError
  | some r => do
    let cells ← rd m r
    match listIndex cells.length c with
    | none => .error .indexError
    | some c => .ok (m.set r (cells.set c text))

/-- linked_lists.py:805-811: the inner loop of the second pass. -/
def skPlaceRow [DecidableEq κ] (shw : κ → Option δ → String) (s : Skip κ δ) (seen : SkSeen κ) : Nat → Option Nat → List (List String) → PyM (List (List String))
  | 0, _, _ => .error .outOfFuel
  | _ + 1, none, m => .ok m
  | fuel + 1, some i, m =>
    match seen.row.val i with
    | none => skPlaceRow shw s seen fuel (s.next i) m
    | some r =>
      match s.key i with
      | .key k => do
        let c ← seen.col.get k
        let m ← matPut m r c (shw k (s.data i))
        skPlaceRow shw s seen fuel (s.next i) m
      | _ => .error .keyError

/-- linked_lists.py:803-812: the second pass. -/
def skPlace [DecidableEq κ] (shw : κ → Option δ → String) (s : Skip κ δ) (seen : SkSeen κ) (inner : Nat) : Nat → Option Nat → List (List String) → PyM (List (List String))
  | 0, _, _ => .error .outOfFuel
  | _ + 1, none, m => .ok m
  | fuel + 1, some w, m => do
    let m ← skPlaceRow shw s seen inner (some w) m
    skPlace shw s seen inner fuel (s.down w) m

/-- linked_lists.py:813-818: the lines, the last row of the matrix first. -/
def skText (m : List (List String)) : String :=
  m.reverse.foldl (fun text cells =>
    let text := cells.foldl (fun text cell => text ++ (cell ++ " ")) text
    if text.length > 0 then text ++ "\n" else text) ""

/-- linked_lists.py:785-819 `__str__`. -/
def skStr [DecidableEq κ] (shw : κ → Option δ → String) (fuel : Nat) (s : Skip κ δ) : PyM String := do
  let seen ← skScan s fuel fuel s.head ((s.levels : Int) - 1) ⟨.empty, .empty⟩
  let m ← skPlace shw s seen fuel fuel s.head (List.replicate s.levels (List.replicate s.num "None"))
  .ok (skText m)

end Model
