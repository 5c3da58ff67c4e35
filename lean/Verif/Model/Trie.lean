import Verif.Py

/-!
# `Trie` (strings/trie.py) and `TrieNode` (utils/misc_util.py:545-582)

Nodes are numbered in the order of their creation; the root is node 0. A string is a list of characters.
-/
namespace Model
open Py
variable {α : Type} [DecidableEq α]

/-- misc_util.py:560 `__slots__ = ['char', '_children', 'is_terminal']`; the dictionary `_children` is a list of pairs in insertion order. -/
structure Trie (α : Type) where
  count : Nat
  char : Nat → Option α
  kids : Nat → List (α × Nat)
  term : Nat → Bool

/-- trie.py:54-59 `__new__`: a root with `char=None`. -/
def trieNew : Trie α := ⟨1, fun _ => none, fun _ => [], fun _ => false⟩

/-- Attribute assignment. (e.g. trie.py:75-83) -/
def upd {β : Type} (f : Nat → β) (n : Nat) (v : β) : Nat → β := fun m => if m = n then v else f m

/-- `dict.get(key, None)`. (utils/misc_util.py:578-579) -/
def dictGet (d : List (α × Nat)) (c : α) : Option Nat :=
  match d with
  | [] => none
  | (k, v) :: d => if k = c then some v else dictGet d c

/-- `dict[key] = value`: an existing key keeps its position. (utils/misc_util.py:575-576) -/
def dictSet (d : List (α × Nat)) (c : α) (v : Nat) : List (α × Nat) :=
  match d with
  | [] => [(c, v)]
  | (k, w) :: d => if k = c then (k, v) :: d else (k, w) :: dictSet d c v

/-- `dict.pop(key)`: `KeyError` when the key is missing. (utils/misc_util.py:581-582) -/
def dictPop (d : List (α × Nat)) (c : α) : PyM (List (α × Nat)) :=
  match d with
  | [] => .error .keyError
  | (k, w) :: d => if k = c then .ok d else do
    let d ← dictPop d c
    .ok ((k, w) :: d)

/-- trie.py:76-82: one step of the walk of `insert`: `TrieNode(char)` and `add_child` (misc_util.py:566-576). -/
def trieInsertStep (c : α) (st : Trie α × Nat) : PyM (Trie α × Nat) :=
  let (t, walk) := st
  match dictGet (t.kids walk) c with
  | none =>
    let n := t.count
    .ok ({ t with
      count := n + 1
      char := upd t.char n (some c)
      kids := upd (upd t.kids n []) walk (dictSet (t.kids walk) c n)
      term := upd t.term n false }, n)
  | some m => .ok (t, m)

/-- trie.py:61-83 `insert`. -/
def trieInsert (t : Trie α) (s : List α) : PyM (Trie α) := do
  let (t, walk) ← forList s (t, 0) trieInsertStep
  .ok { t with term := upd t.term walk true }

/-- trie.py:100-104, 122-126: the walk of `is_present` and `is_inserted`; `none` is the early `return False`. -/
def trieWalk (t : Trie α) (s : List α) (walk : Nat) : Option Nat :=
  match s with
  | [] => some walk
  | c :: s =>
    match dictGet (t.kids walk) c with
    | none => none
    | some m => trieWalk t s m

/-- trie.py:85-105 `is_present`. -/
def triePresent (t : Trie α) (s : List α) : Bool := (trieWalk t s 0).isSome

/-- trie.py:107-127 `is_inserted`. -/
def trieInserted (t : Trie α) (s : List α) : Bool :=
  match trieWalk t s 0 with
  | none => false
  | some n => t.term n

/-- trie.py:144-153: the walk of `delete`, which records the path; `none` is the early `return None`. -/
def triePath (t : Trie α) (s : List α) (walk : Nat) (path : List Nat) : Option (List Nat) :=
  match s with
  | [] => some (path ++ [walk])
  | c :: s =>
    match dictGet (t.kids walk) c with
    | none => none
    | some m => triePath t s m (path ++ [walk])

/-- trie.py:156-161: the loop that removes nodes from the end of the path. -/
def trieTrim (path : List Nat) : Nat → Trie α → PyM (Trie α)
  | 0, t => .ok t
  | i + 1, t => do
    let n ← rd path (i + 1)
    if (t.kids n).isEmpty then
      let m ← rd path i
      match t.char n with
      | none => .error .keyError
      | some c =>
        let d ← dictPop (t.kids m) c
        let t := { t with kids := upd t.kids m d }
        if t.term m then .ok t else trieTrim path i t
    else .ok t

/-- trie.py:129-161 `delete`; the answer is `true` for `True` and `false` for `None`. -/
def trieDelete (t : Trie α) (s : List α) : PyM (Trie α × Bool) :=
  match triePath t s 0 [] with
  | none => .ok (t, false)
  | some path => do
    let i := path.length - 1
    let n ← rd path i
    let t := { t with term := upd t.term n false }
    let t ← trieTrim path i t
    .ok (t, true)

/-- trie.py:182-187: one iteration of `_collect`; the top of the stack is the head of the list. An entry of the result is `none` for
Python's `None`. -/
def trieCollectStep (t : Trie α) (st : List (Nat × List α) × List (Option (List α))) :
    PyM (List (Nat × List α) × List (Option (List α))) :=
  match st.1 with
  | [] => .error .indexError
  | (walk, prefix_) :: stack =>
    match t.char walk with
    | none => if t.term walk || !(t.kids walk).isEmpty then .error .typeError else .ok (stack, st.2)
    | some c =>
      .ok ((t.kids walk).foldl (fun stack child => (child.2, prefix_ ++ [c]) :: stack) stack,
        if t.term walk then st.2 ++ [some (prefix_ ++ [c])] else st.2)

/-- trie.py:179-187 `_collect`; the loop runs at most once per node. -/
def trieCollect (t : Trie α) (prefix_ : List α) (node : Nat) (strings : List (Option (List α))) : PyM (List (Option (List α))) := do
  let (_, strings) ← whileLoop (t.count + 1)
    (fun (st : List (Nat × List α) × List (Option (List α))) => .ok !st.1.isEmpty) (trieCollectStep t) ([(node, prefix_)], strings)
  .ok strings

/-- trie.py:163-201 `strings_with_prefix`. -/
def trieStrings (t : Trie α) (s : List α) : PyM (List (Option (List α))) :=
  match trieWalk t s 0 with
  | none => .ok []
  | some walk =>
    let strings := if t.term walk then [(t.char walk).map fun c => [c]] else []
    forList (t.kids walk) strings fun child strings => trieCollect t s child.2 strings

end Model
