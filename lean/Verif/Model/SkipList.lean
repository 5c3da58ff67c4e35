import Verif.Py

/-!
# Skip lists

Model of `SkipList` (`/repo/pydatastructs/linear_data_structures/linked_lists.py:625-783`) and `SkipNode`
(`utils/misc_util.py:327-365`). Node objects are numbered in the order of their creation. The random bits are a parameter of
`insert`. The message of the `KeyError` of `extract`, which prints the list, is not modelled.
-/
namespace Model
open Py
variable {κ δ : Type}

/-- A key of a `SkipNode`: a key of the user, `-math.inf` or `math.inf`. (linked_lists.py:684-685) -/
inductive SKey (κ : Type) where
  | low
  | key (k : κ)
  | high

/-- linked_lists.py:667 `__slots__`, and the attributes of the nodes (misc_util.py:353). -/
structure Skip (κ δ : Type) where
  key : Nat → SKey κ
  data : Nat → Option δ
  next : Nat → Option Nat
  down : Nat → Option Nat
  fresh : Nat
  head : Option Nat
  tail : Option Nat
  levels : Nat
  num : Nat

/-- `node.key >= key`; `ge` is `>=` on the keys of the user. (linked_lists.py:700) -/
def skGe (ge : κ → κ → Bool) (a : SKey κ) (k : κ) : Bool :=
  match a with
  | .low => false
  | .key x => ge x k
  | .high => true

/-- `node.key == key`. (linked_lists.py:708) -/
def skEq [DecidableEq κ] (a : SKey κ) (k : κ) : Bool :=
  match a with
  | .key x => decide (x = k)
  | _ => false

/-- An object that may be `None` and whose attribute is asked for. (e.g. linked_lists.py:700-704) -/
def skRef (o : Option Nat) : PyM Nat :=
  match o with
  | some i => .ok i
  | none => .error .attributeError

/-- Attribute assignment. (e.g. linked_lists.py:684-686) -/
def skSet {β : Type} (f : Nat → β) (i : Nat) (v : β) : Nat → β := fun j => if j = i then v else f j

/-- misc_util.py:355-362 `SkipNode(key, data, next, down)`: the new object has the number `fresh`. -/
def skAlloc (s : Skip κ δ) (key : SKey κ) (data : Option δ) (next down : Option Nat) : Skip κ δ :=
  { s with key := skSet s.key s.fresh key, data := skSet s.data s.fresh data, next := skSet s.next s.fresh next,
           down := skSet s.down s.fresh down, fresh := s.fresh + 1 }

/-- linked_lists.py:683-686 `_add_level`. -/
def skAddLevel (s : Skip κ δ) : Skip κ δ :=
  let t := s.fresh
  let s := { skAlloc s .high none none s.tail with tail := some t }
  let h := s.fresh
  let s := { skAlloc s .low none s.tail s.head with head := some h }
  { s with levels := s.levels + 1 }

/-- linked_lists.py:669-678 `__new__`. -/
def skNew : Skip κ δ :=
  skAddLevel ⟨fun _ => .low, fun _ => none, fun _ => none, fun _ => none, 0, none, none, 0, 0⟩

/-- linked_lists.py:696-705 `_search`, the loop; `path` as far as it is filled. -/
def skSearchLoop (ge : κ → κ → Bool) (s : Skip κ δ) (k : κ) : Nat → Option Nat → List Nat → PyM (List Nat)
  | 0, _, _ => .error .outOfFuel
  | _ + 1, none, path => .ok path
  | fuel + 1, some node, path => do
    let n ← skRef (s.next node)
    if skGe ge (s.key n) k then skSearchLoop ge s k fuel (s.down node) (path ++ [node])
    else skSearchLoop ge s k fuel (s.next node) path

/-- linked_lists.py:696-705 `_search`. -/
def skPath (ge : κ → κ → Bool) (fuel : Nat) (s : Skip κ δ) (k : κ) : PyM (List Nat) := skSearchLoop ge s k fuel s.head []

/-- `path[-1]`. (linked_lists.py:708, 725) -/
def skTip (path : List Nat) : PyM Nat :=
  match path.getLast? with
  | some i => .ok i
  | none => .error .indexError

/-- linked_lists.py:707-708 `search`. -/
def skSearch [DecidableEq κ] (ge : κ → κ → Bool) (fuel : Nat) (s : Skip κ δ) (k : κ) : PyM Bool := do
  let path ← skPath ge fuel s k
  let tip ← skTip path
  let n ← skRef (s.next tip)
  .ok (skEq (s.key n) k)

/-- linked_lists.py:730-738: the loop of `insert`. `flips level` says that the random bit drawn in the round `level` is 0; `total` is
`total_level`. The number of rounds is bounded by `total`, so the recursion is on `total + 1 - level`. -/
def skRaise (flips : Nat → Bool) (k : κ) (path : List Nat) (total : Nat) : Nat → Nat → Nat → Skip κ δ → PyM (Skip κ δ)
  | 0, _, _, s => .ok s
  | rounds + 1, level, below, s =>
    if flips level && decide (level ≤ total) then
      if level = total then do
        let s := skAddLevel s
        let prev ← skRef s.head
        let n := s.fresh
        let s := skAlloc s (.key k) none (s.next prev) (some below)
        skRaise flips k path total rounds (level + 1) n { s with next := skSet s.next prev (some n) }
      else do
        let prev ← rd path (total - 1 - level)
        let n := s.fresh
        let s := skAlloc s (.key k) none (s.next prev) (some below)
        skRaise flips k path total rounds (level + 1) n { s with next := skSet s.next prev (some n) }
    else .ok s

/-- linked_lists.py:710-739 `insert`. -/
def skInsert (ge : κ → κ → Bool) (fuel : Nat) (flips : Nat → Bool) (s : Skip κ δ) (k : κ) (d : Option δ) : PyM (Skip κ δ) := do
  let path ← skPath ge fuel s k
  let tip ← skTip path
  let below := s.fresh
  let s := skAlloc s (.key k) d (s.next tip) none
  let s := { s with next := skSet s.next tip (some below) }
  let s ← skRaise flips k path s.levels (s.levels + 1) 1 below s
  .ok { s with num := s.num + 1 }

/-- linked_lists.py:768-770: the loop that takes the nodes out; the third argument is `level + 1`. -/
def skUnlink [DecidableEq κ] (k : κ) (path : List Nat) : Nat → Skip κ δ → PyM (Skip κ δ)
  | 0, s => .ok s
  | level + 1, s => do
    let p ← rd path level
    let n ← skRef (s.next p)
    if skEq (s.key n) k then skUnlink k path level { s with next := skSet s.next p (s.next n) } else .ok s

/-- linked_lists.py:771-779: the loop that drops empty levels; `self.tail.down` raises when there is no tail. -/
def skTrim : Nat → Option Nat → Skip κ δ → PyM (Skip κ δ)
  | 0, _, _ => .error .outOfFuel
  | _ + 1, none, s => .ok s
  | fuel + 1, some walk, s =>
    if s.next walk = s.tail then do
      let t ← skRef s.tail
      skTrim fuel (s.down walk) { s with levels := s.levels - 1, head := s.down walk, tail := s.down t }
    else .ok s

/-- linked_lists.py:745-783 `extract`: the key and the data of the node that is returned. -/
def skExtract [DecidableEq κ] (ge : κ → κ → Bool) (fuel : Nat) (s : Skip κ δ) (k : κ) : PyM (Skip κ δ × κ × Option δ) := do
  let path ← skPath ge fuel s k
  let tip ← skTip path
  let n ← skRef (s.next tip)
  match s.key n with
  | .key x =>
    if x = k then do
      let d := s.data n
      let s ← skUnlink k path s.levels s
      let s ← skTrim fuel s.head s
      let s := { s with num := s.num - 1 }
      .ok (if s.levels = 0 then skAddLevel s else s, x, d)
    else .error .keyError
  | _ => .error .keyError

end Model
