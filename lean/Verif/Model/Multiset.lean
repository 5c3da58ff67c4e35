import Verif.Model.RedBlackDelete
import Verif.Model.Dict

/-!
# Multisets

Model of `/repo/pydatastructs/miscellaneous_data_structures/multiset.py`. The tree stores the elements as keys, without data
(`δ` is `Unit`).
-/
namespace Model
open Py
variable {α : Type} [DecidableEq α]

/-- multiset.py:6-14: `counter`, `tree`, `_n`. -/
structure MSet (α : Type) where
  counter : PyDict α Int
  tree : BTree α Unit
  n : Int

/-- multiset.py:7-12 `Multiset()`. -/
def msEmpty : MSet α := ⟨.empty, btEmpty false, 0⟩

/-- `self.counter.get(element, 0)`. (multiset.py:17, 23, 42) -/
def msGet (s : MSet α) (e : α) : Int := (s.counter.val e).getD 0

/-- multiset.py:16-20 `add`. -/
def msAdd (lt : α → α → Bool) (fuel : Nat) (s : MSet α) (e : α) : PyM (MSet α) := do
  let s : MSet α := { s with counter := s.counter.set e (msGet s e + 1), n := s.n + 1 }
  let c ← s.counter.get e
  if c = 1 then do
    let t ← rbInsert lt fuel s.tree e none
    .ok { s with tree := t }
  else .ok s

/-- multiset.py:23-24, the first `if` of `remove`: the tree. -/
def msDrop (lt : α → α → Bool) (fuel : Nat) (s : MSet α) (e : α) (c : Int) : PyM (BTree α Unit) :=
  if c = 1 then do
    let r ← rbDelete lt fuel s.tree e
    .ok r.1
  else .ok s.tree

/-- multiset.py:22-27 `remove`: `KeyError` for an element that was never added. -/
def msRemove (lt : α → α → Bool) (fuel : Nat) (s : MSet α) (e : α) : PyM (MSet α) := do
  let c ← s.counter.get e
  let t ← msDrop lt fuel s e c
  if msGet s e > 0 then do
    let c ← s.counter.get e
    .ok { s with tree := t, n := s.n - 1, counter := s.counter.set e (c - 1) }
  else .ok { s with tree := t }

/-- multiset.py:29-30 `lower_bound`. -/
def msLower (lt : α → α → Bool) (fuel : Nat) (s : MSet α) (e : α) : PyM (Option α) := bstLower lt fuel s.tree e

/-- multiset.py:32-33 `upper_bound`. -/
def msUpper (lt : α → α → Bool) (fuel : Nat) (s : MSet α) (e : α) : PyM (Option α) := bstUpper lt fuel s.tree e

/-- multiset.py:35-36 `__contains__`. -/
def msContains (s : MSet α) (e : α) : Bool := decide (msGet s e > 0)

/-- multiset.py:38-39 `__len__`. -/
def msLen (s : MSet α) : Int := s.n

/-- multiset.py:41-42 `count`. -/
def msCount (s : MSet α) (e : α) : Int := msGet s e

end Model
